import Verif.RangeTree.Spec

namespace Verif.RangeTree
open Spec

def Valid (r : Range) : Prop := r.range.first ≤ r.range.last

theorem length_sortedPoints (rs : List Range) : (sortedPoints rs).length = 2 * rs.length := by
  unfold sortedPoints
  rw [List.length_mergeSort]
  induction rs with
  | nil => rfl
  | cons r rs ih => simp [List.flatMap_cons] at ih ⊢; omega

theorem center_mem {rs : List Range} {c : Int}
    (h : (sortedPoints rs)[(sortedPoints rs).length / 2]? = some c) :
    ∃ r ∈ rs, r.range.first = c ∨ r.range.last = c := by
  have hm := List.mem_of_getElem? h
  unfold sortedPoints at hm
  rw [List.mem_mergeSort, List.mem_flatMap] at hm
  obtain ⟨r, hr, hc⟩ := hm
  simp at hc
  exact ⟨r, hr, by rcases hc with h | h <;> simp [h]⟩

theorem center_exists (r : Range) (rs : List Range) :
    ∃ c, (sortedPoints (r :: rs))[(sortedPoints (r :: rs)).length / 2]? = some c := by
  have hl := length_sortedPoints (r :: rs)
  simp only [List.length_cons] at hl
  exact ⟨_, List.getElem?_eq_getElem (by omega)⟩

theorem filter_lt_length {p : Range → Bool} {l : List Range} {x : Range} (hx : x ∈ l)
    (hp : p x = false) : (l.filter p).length < l.length := by
  have := List.length_filter_lt_length_iff_exists (p := p) (l := l)
  exact this.2 ⟨x, hx, by simp [hp]⟩

theorem buildRec_terminates : ∀ (n : Nat) (rs : List Range), (∀ r ∈ rs, Valid r) →
    rs.length < n → ∃ t, buildRec n rs = .ok t := by
  intro n
  induction n with
  | zero => intro rs _ h; omega
  | succ n ih =>
    intro rs hv hn
    cases rs with
    | nil => exact ⟨_, rfl⟩
    | cons r rs =>
      obtain ⟨c, hc⟩ := center_exists r rs
      obtain ⟨x, hx, hxc⟩ := center_mem hc
      have hvx := hv x hx
      unfold Valid at hvx
      have h1 := filter_lt_length (p := fun x => decide (x.range.last < c)) hx
        (by simp; omega)
      have h2 := filter_lt_length (p := fun x =>
        !decide (x.range.last < c) && decide (c < x.range.first)) hx
        (by simp; omega)
      obtain ⟨tl, htl⟩ := ih (List.filter (fun x => decide (x.range.last < c)) (r :: rs))
        (fun y hy => hv y (List.mem_of_mem_filter hy)) (by omega)
      obtain ⟨tr, htr⟩ := ih (List.filter (fun x =>
        !decide (x.range.last < c) && decide (c < x.range.first)) (r :: rs))
        (fun y hy => hv y (List.mem_of_mem_filter hy)) (by omega)
      refine ⟨.node c (List.filter (fun x =>
        !decide (x.range.last < c) && !decide (c < x.range.first)) (r :: rs)) tl tr, ?_⟩
      simp only [buildRec, hc, htl, htr]

theorem getRanges_nil (p : Int) : Tree.getRanges .nil p = [] := rfl

theorem getRanges_node (c : Int) (ov : List Range) (l r : Tree) (p : Int) :
    Tree.getRanges (.node c ov l r) p =
      ov.filter (fun x => x.contains p) ++ (if p < c then l.getRanges p else [])
        ++ (if c < p then r.getRanges p else []) := by
  unfold Tree.getRanges
  simp only [Tree.getAllNodes, List.flatMap_append]
  congr 1
  · congr 1
    · by_cases h : ov.any (fun r => r.contains p) = true
      · simp [h]
      · simp only [h]
        simp only [Bool.not_eq_true, List.any_eq_false] at h
        simp
        intro a ha; simpa using h a ha
    · split <;> rfl
  · split <;> rfl

theorem contains_iff (r : Range) (p : Int) :
    r.contains p = true ↔ r.range.first ≤ p ∧ p ≤ r.range.last := by
  simp [Range.contains, Slice.contains]

theorem filter3_perm (P Q R : Range → Bool) : ∀ (l : List Range),
    (∀ x ∈ l, (P x = true ∧ Q x = false ∧ R x = false) ∨ (P x = false ∧ Q x = true ∧ R x = false)
      ∨ (P x = false ∧ Q x = false ∧ R x = true)) → ∀ S : Range → Bool,
    ((l.filter R).filter S ++ (l.filter P).filter S ++ (l.filter Q).filter S).Perm (l.filter S) := by
  intro l
  induction l with
  | nil => intro _ S; simp
  | cons x l ih =>
    intro h S
    have ih' := ih (fun y hy => h y (List.mem_cons_of_mem _ hy)) S
    rcases h x (List.mem_cons_self ..) with ⟨a, b, c⟩ | ⟨a, b, c⟩ | ⟨a, b, c⟩
    · simp only [List.filter_cons, a, b, c]
      by_cases hs : S x = true
      · simp only [hs, Bool.false_eq_true, if_false, if_true, List.filter_cons]
        refine List.Perm.trans ?_ (ih'.cons x)
        simp only [List.append_assoc]
        exact List.perm_middle
      · simpa [hs] using ih'
    · simp only [List.filter_cons, a, b, c]
      by_cases hs : S x = true
      · simp only [hs, Bool.false_eq_true, if_false, if_true, List.filter_cons]
        refine List.Perm.trans ?_ (ih'.cons x)
        exact List.perm_middle
      · simpa [hs] using ih'
    · simp only [List.filter_cons, a, b, c]
      by_cases hs : S x = true
      · simpa [hs] using ih'
      · simpa [hs] using ih'

theorem buildRec_exact : ∀ (n : Nat) (rs : List Range) (t : Tree), (∀ r ∈ rs, Valid r) →
    buildRec n rs = .ok t → ∀ p, (t.getRanges p).Perm (rs.filter fun r => r.contains p) := by
  intro n
  induction n with
  | zero => intro rs t _ h; simp [buildRec] at h
  | succ n ih =>
    intro rs t hv h p
    cases rs with
    | nil =>
      simp [buildRec] at h
      subst h
      simp [getRanges_nil]
    | cons r rs =>
      obtain ⟨c, hc⟩ := center_exists r rs
      simp only [buildRec, hc] at h
      split at h
      · exact absurd h (by simp)
      · rename_i tl htl
        split at h
        · exact absurd h (by simp)
        · rename_i tr htr
          injection h with h
          subst h
          have hl := ih _ _ (fun y hy => hv y (List.mem_of_mem_filter hy)) htl p
          have hr := ih _ _ (fun y hy => hv y (List.mem_of_mem_filter hy)) htr p
          rw [getRanges_node]
          refine List.Perm.trans ?_ (filter3_perm
            (fun x => decide (x.range.last < c))
            (fun x => !decide (x.range.last < c) && decide (c < x.range.first))
            (fun x => !decide (x.range.last < c) && !decide (c < x.range.first)) (r :: rs) ?_
            (fun r => r.contains p))
          · refine List.Perm.append (List.Perm.append (List.Perm.refl _) ?_) ?_
            · by_cases hpc : p < c
              · simpa [hpc] using hl
              · simp only [hpc, if_false]
                refine List.Perm.of_eq ?_
                symm
                rw [List.filter_eq_nil_iff]
                intro x hx
                rw [contains_iff]
                simp only [List.mem_filter, decide_eq_true_eq] at hx
                omega
            · by_cases hpc : c < p
              · simpa [hpc] using hr
              · simp only [hpc, if_false]
                refine List.Perm.of_eq ?_
                symm
                rw [List.filter_eq_nil_iff]
                intro x hx
                rw [contains_iff]
                simp only [List.mem_filter, Bool.and_eq_true, Bool.not_eq_true',
                  decide_eq_true_eq, decide_eq_false_iff_not] at hx
                omega
          · intro x hx
            have := hv x hx
            unfold Valid at this
            by_cases h1 : x.range.last < c <;> by_cases h2 : c < x.range.first <;> simp [h1, h2]

theorem mem_enumerate {slices : List Slice} {r : Range} (h : r ∈ enumerate slices) :
    r.range ∈ slices := by
  unfold enumerate at h
  simp only [List.mem_map] at h
  obtain ⟨⟨s, i⟩, hm, rfl⟩ := h
  exact (List.mem_zipIdx hm).2.2 ▸ List.getElem_mem _

theorem length_enumerate (slices : List Slice) : (enumerate slices).length = slices.length := by
  simp [enumerate]

theorem enumerate_filter_eq (slices : List Slice) (p : Int) :
    (enumerate slices).filter (fun r => r.contains p) = covering slices p := by
  unfold enumerate covering
  rw [List.filter_map]
  congr 1
  apply List.filter_congr
  intro x _
  rw [Bool.eq_iff_iff, decide_eq_true_iff]
  simp [contains_iff, Covers]

theorem rangeLess_both (a b : Range) :
    (rangeLess a b = true ∧ rangeLess b a = true) ↔ a.range = b.range := by
  obtain ⟨⟨a1, a2⟩, i⟩ := a
  obtain ⟨⟨b1, b2⟩, j⟩ := b
  simp only [rangeLess]
  constructor
  · rintro ⟨h1, h2⟩
    by_cases e1 : a1 = b1
    · subst e1
      by_cases e2 : a2 = b2
      · subst e2; rfl
      · have e3 : ¬ b2 = a2 := fun h => e2 h.symm
        simp [e2, e3] at h1 h2
        omega
    · have e3 : ¬ b1 = a1 := fun h => e1 h.symm
      simp [e1, e3] at h1 h2
      omega
  · intro h
    injection h with h1 h2
    simp [h1, h2]

theorem enumerate_pairwise (slices : List Slice) (h : slices.Nodup) :
    sortPrecondition (enumerate slices) := by
  unfold sortPrecondition enumerate
  rw [List.pairwise_map]
  have : (slices.zipIdx.map Prod.fst).Nodup := by rw [List.zipIdx_map_fst]; exact h
  rw [List.Nodup, List.pairwise_map] at this
  refine this.imp ?_
  intro a b hab
  rw [rangeLess_both]
  exact hab

theorem make_terminates (o : SortOracle) (slices : List Slice) (hv : ∀ s ∈ slices, s.first ≤ s.last)
    (hd : slices.Nodup) (fuel : Nat) (hf : slices.length < fuel) :
    ∃ t, make o fuel slices = .ok t := by
  cases slices with
  | nil => exact ⟨_, rfl⟩
  | cons s ss =>
    simp only [make]
    rw [if_pos (enumerate_pairwise _ hd)]
    apply buildRec_terminates
    · intro r hr
      exact hv _ (mem_enumerate ((o.perm _).mem_iff.1 hr))
    · rw [(o.perm _).length_eq, length_enumerate]; exact hf

theorem make_exact (o : SortOracle) (slices : List Slice) (hv : ∀ s ∈ slices, s.first ≤ s.last)
    (fuel : Nat) (t : Tree) (h : make o fuel slices = .ok t) (p : Int) :
    (t.getRanges p).Perm (covering slices p) := by
  cases slices with
  | nil =>
    simp only [make] at h
    injection h with h
    subst h
    simp [getRanges_node, covering, getRanges_nil]
  | cons s ss =>
    simp only [make] at h
    split at h
    · have := buildRec_exact _ _ _ (fun r hr =>
        hv _ (mem_enumerate ((o.perm _).mem_iff.1 hr))) h p
      rw [← enumerate_filter_eq]
      exact this.trans ((o.perm _).filter _)
    · simp at h

end Verif.RangeTree
