import Verif.RangeTree.Lemmas
import Mathlib.Data.Finset.Insert

namespace Verif.RangeTree
open Spec

theorem mergeSort_int_congr {a b : List Int} (h : a.Perm b) :
    a.mergeSort (fun a b => decide (a ≤ b)) = b.mergeSort (fun a b => decide (a ≤ b)) := by
  have sorted : ∀ l : List Int,
      (l.mergeSort (fun a b => decide (a ≤ b))).Pairwise (fun a b => decide (a ≤ b) = true) := by
    intro l
    apply List.pairwise_mergeSort
    · intro a b c hab hbc; simp only [decide_eq_true_eq] at *; omega
    · intro a b; simp only [Bool.or_eq_true, decide_eq_true_eq]; omega
  refine List.Perm.eq_of_pairwise (le := fun a b => decide (a ≤ b) = true) ?_ (sorted a) (sorted b)
    (((List.mergeSort_perm a _).trans h).trans (List.mergeSort_perm b _).symm)
  intro x y _ _ h1 h2
  simp only [decide_eq_true_eq] at h1 h2
  omega

/-- A tree answers point queries exactly for the segments of its group. -/
def Good (tg : Tree × Group) : Prop :=
  ∀ p, (tg.1.getRanges p).Perm (covering (tg.2.segments.map fun s => ⟨s.first, s.last⟩) p)

theorem mapM_ok {α β : Type} (f : α → Except Err β) (g : α → β) :
    ∀ (l : List α), (∀ x ∈ l, f x = .ok (g x)) → l.mapM f = .ok (l.map g) := by
  intro l
  induction l with
  | nil => intro _; rfl
  | cons x l ih =>
    intro h
    rw [List.mapM_cons, h x (List.mem_cons_self ..), ih fun y hy => h y (List.mem_cons_of_mem _ hy)]
    rfl

theorem kind_of_index {segs : List Segment} {p : Int} {r : Range}
    (h : r ∈ covering (segs.map fun s => (⟨s.first, s.last⟩ : Slice)) p) :
    ∃ s, segs[r.index]? = some s := by
  unfold covering at h
  simp only [List.mem_map, List.mem_filter] at h
  obtain ⟨⟨s, i⟩, ⟨hm, _⟩, rfl⟩ := h
  have := (List.mem_zipIdx hm).2.1
  simp at this
  exact ⟨_, List.getElem?_eq_getElem (by simpa using this)⟩

theorem covering_kinds_aux (p : Int) : ∀ (segs : List Segment) (k : Nat) (look : Nat → Int),
    (∀ i (h : i < segs.length), look (k + i) = segs[i].kind) →
    ((((segs.map fun s => (⟨s.first, s.last⟩ : Slice)).zipIdx k).filter
        fun x => decide (Covers x.1 p)).map fun x => look x.2)
      = (segs.filter fun s => decide (s.first ≤ p ∧ p ≤ s.last)).map Segment.kind := by
  intro segs
  induction segs with
  | nil => intro k look _; rfl
  | cons s segs ih =>
    intro k look h
    have h0 := h 0 (by simp)
    have ih' := ih (k + 1) look (fun i hi => by
      have := h (i + 1) (by simpa using hi)
      simpa [Nat.add_assoc, Nat.add_comm 1 i] using this)
    simp only [List.map_cons, List.zipIdx_cons, List.filter_cons]
    by_cases hc : Covers ⟨s.first, s.last⟩ p
    · have hc' : s.first ≤ p ∧ p ≤ s.last := hc
      rw [if_pos (by exact decide_eq_true hc), if_pos (by exact decide_eq_true hc')]
      simp only [List.map_cons]
      rw [ih']
      simp at h0
      simp [h0]
    · have hc' : ¬ (s.first ≤ p ∧ p ≤ s.last) := hc
      rw [if_neg (by simpa using hc), if_neg (by simpa using hc')]
      exact ih'

theorem getPointGroups_ok (p : Int) : ∀ (trees : List (Tree × Group)), (∀ t ∈ trees, Good t) →
    getPointGroups trees p = .ok (annotationsAt (trees.map Prod.snd) p) := by
  intro trees
  induction trees with
  | nil => intro _; rfl
  | cons tg rest ih =>
    intro h
    obtain ⟨t, g⟩ := tg
    have hg := h (t, g) (List.mem_cons_self ..) p
    simp only at hg
    have ih' := ih fun x hx => h x (List.mem_cons_of_mem _ hx)
    rw [getPointGroups, ih']
    simp only [bind, Except.bind, pure, Except.pure]
    have key : (covering (g.segments.map fun s => (⟨s.first, s.last⟩ : Slice)) p).map
        (fun r => match g.segments[r.index]? with | some s => s.kind | none => 0)
        = (g.segments.filter fun s => decide (s.first ≤ p ∧ p ≤ s.last)).map Segment.kind := by
      unfold covering
      rw [List.map_map]
      refine Eq.trans ?_ (covering_kinds_aux p g.segments 0
        (fun i => match g.segments[i]? with | some s => s.kind | none => 0) ?_)
      · rfl
      · intro i hi
        simp [List.getElem?_eq_getElem hi]
    by_cases hex : ∃ s ∈ g.segments, s.first ≤ p ∧ p ≤ s.last
    · have hne : ¬ (t.getRanges p).isEmpty = true := by
        rw [List.isEmpty_iff]
        intro he
        have hnil := hg
        rw [he] at hnil
        have := hnil.nil_eq
        rw [← this] at key
        obtain ⟨s, hs, hsp⟩ := hex
        have hmem : s.kind ∈ (g.segments.filter fun s => decide (s.first ≤ p ∧ p ≤ s.last)).map
            Segment.kind := List.mem_map_of_mem (List.mem_filter.2 ⟨hs, by simpa using hsp⟩)
        rw [← key] at hmem
        simp at hmem
      rw [if_neg hne]
      rw [mapM_ok _ (fun r => match g.segments[r.index]? with | some s => s.kind | none => 0)]
      · simp only
        congr 1
        have hkinds := mergeSort_int_congr (hg.map
          (fun r => match g.segments[r.index]? with | some s => s.kind | none => 0))
        rw [key] at hkinds
        rw [hkinds]
        ext x
        simp only [annotationsAt, List.map_cons, List.filter_cons, hex, decide_true, if_true,
          List.map_cons, List.toFinset_cons, Finset.mem_insert, kindsAt]
      · intro r hr
        obtain ⟨s, hs⟩ := kind_of_index (hg.mem_iff.1 hr)
        simp [hs]
    · have he : t.getRanges p = [] := by
        have : covering (g.segments.map fun s => (⟨s.first, s.last⟩ : Slice)) p = [] := by
          rw [← List.map_eq_nil_iff, key, List.map_eq_nil_iff, List.filter_eq_nil_iff]
          intro s hs hsp
          exact hex ⟨s, hs, by simpa using hsp⟩
        rw [this] at hg
        exact hg.eq_nil
      rw [he]
      simp only [List.isEmpty_nil, if_true]
      congr 1
      ext x
      simp only [annotationsAt, List.map_cons, List.filter_cons, hex, decide_false,
        Bool.false_eq_true, if_false]

theorem mkSlice_mapM_ok {segs : List Segment} {slices : List Slice}
    (h : segs.mapM (fun s => mkSlice s.first s.last) = .ok slices) :
    slices = segs.map (fun s => ⟨s.first, s.last⟩) ∧ ∀ s ∈ segs, s.first ≤ s.last := by
  induction segs generalizing slices with
  | nil => simp [List.mapM_nil, pure, Except.pure] at h; subst h; simp
  | cons s segs ih =>
    rw [List.mapM_cons] at h
    by_cases hs : s.first ≤ s.last
    · simp only [mkSlice, hs, if_true, bind, Except.bind] at h
      cases hm : segs.mapM (fun s => mkSlice s.first s.last) with
      | error e => simp [mkSlice] at hm h; simp [hm] at h
      | ok rest =>
        obtain ⟨e1, e2⟩ := ih hm
        simp only [mkSlice] at hm
        simp only [hm, pure, Except.pure] at h
        injection h with h
        subst h
        refine ⟨by simp [e1], ?_⟩
        intro x hx
        rcases List.mem_cons.1 hx with rfl | hx
        · exact hs
        · exact e2 x hx
    · simp [mkSlice, hs, bind, Except.bind] at h

theorem buildTrees_good (o : SortOracle) (fuel : Nat) : ∀ (groups : List Group)
    (trees : List (Tree × Group)), buildTrees o fuel groups = .ok trees →
    trees.map Prod.snd = groups ∧ ∀ t ∈ trees, Good t := by
  intro groups
  induction groups with
  | nil => intro trees h; simp [buildTrees] at h; subst h; simp
  | cons g gs ih =>
    intro trees h
    simp only [buildTrees, bind, Except.bind, pure, Except.pure] at h
    cases h1 : g.segments.mapM (fun s => mkSlice s.first s.last) with
    | error e => simp [h1] at h
    | ok slices =>
      simp only [h1] at h
      obtain ⟨e1, e2⟩ := mkSlice_mapM_ok h1
      cases h2 : make o fuel slices with
      | error e => simp [h2] at h
      | ok t =>
        simp only [h2] at h
        cases h3 : buildTrees o fuel gs with
        | error e => simp [h3] at h
        | ok rest =>
          simp only [h3] at h
          injection h with h
          subst h
          obtain ⟨i1, i2⟩ := ih rest h3
          refine ⟨by simp [i1], ?_⟩
          intro x hx
          rcases List.mem_cons.1 hx with rfl | hx
          · intro p
            have := make_exact o slices (by
              rw [e1]; intro s hs
              obtain ⟨y, hy, rfl⟩ := List.mem_map.1 hs
              exact e2 y hy) fuel t h2 p
            rw [e1] at this
            exact this
          · exact i2 x hx

theorem buildTrees_terminates (o : SortOracle) (fuel : Nat) : ∀ (groups : List Group),
    (∀ g ∈ groups, g.segments.length < fuel ∧ (∀ s ∈ g.segments, s.first ≤ s.last) ∧
      (g.segments.map fun s => (s.first, s.last)).Nodup) →
    ∃ trees, buildTrees o fuel groups = .ok trees := by
  intro groups
  induction groups with
  | nil => intro _; exact ⟨_, rfl⟩
  | cons g gs ih =>
    intro h
    obtain ⟨rest, hrest⟩ := ih fun x hx => h x (List.mem_cons_of_mem _ hx)
    obtain ⟨hl, hv, hd⟩ := h g (List.mem_cons_self ..)
    have h1 : g.segments.mapM (fun s => mkSlice s.first s.last)
        = .ok (g.segments.map fun s => (⟨s.first, s.last⟩ : Slice)) := by
      apply mapM_ok
      intro s hs
      simp [mkSlice, hv s hs]
    obtain ⟨t, ht⟩ := make_terminates o (g.segments.map fun s => (⟨s.first, s.last⟩ : Slice))
      (by intro s hs; obtain ⟨y, hy, rfl⟩ := List.mem_map.1 hs; exact hv y hy)
      (by
        have : (g.segments.map fun s => (⟨s.first, s.last⟩ : Slice))
            = (g.segments.map fun s => (s.first, s.last)).map (fun x => (⟨x.1, x.2⟩ : Slice)) := by
          rw [List.map_map]; rfl
        rw [this]
        refine List.Nodup.map ?_ hd
        intro a b hab
        injection hab with h1 h2
        exact Prod.ext h1 h2)
      fuel (by simpa using hl)
    refine ⟨(t, g) :: rest, ?_⟩
    simp only [buildTrees, bind, Except.bind, pure, Except.pure, h1, ht, hrest]

/-- Pure version of the loop. -/
def step (K : Int → Finset Tag) (st : LoopState) (i : Int) : LoopState :=
  if K i ≠ st.prevKind then
    { prevKind := K i, lastStart := i,
      result := if st.prevKind ≠ ∅ then st.result ++ [⟨st.lastStart, i - 1, st.prevKind⟩]
        else st.result }
  else st

theorem foldlM_ok {trees : List (Tree × Group)} {K : Int → Finset Tag}
    (h : ∀ p, getPointGroups trees p = .ok (K p)) : ∀ (l : List Int) (st : LoopState),
    l.foldlM (loopStep trees) st = .ok (l.foldl (step K) st) := by
  intro l
  induction l with
  | nil => intro st; rfl
  | cons i l ih =>
    intro st
    have hs : loopStep trees st i = .ok (step K st i) := by
      simp only [loopStep, h, bind, Except.bind, step, pure, Except.pure]
      split <;> rfl
    rw [List.foldlM_cons, hs, List.foldl_cons]
    exact ih _

structure Inv (K : Int → Finset Tag) (first : Int) (st : LoopState) (i : Int) : Prop where
  lo : first ≤ st.lastStart
  hi : st.lastStart ≤ i
  same : ∀ p, st.lastStart ≤ p → p ≤ i → K p = st.prevKind
  left : st.lastStart = first ∨ K (st.lastStart - 1) ≠ st.prevKind
  disj : st.result.Pairwise fun a b => a.last < b.first
  chunk : ∀ a ∈ st.result, first ≤ a.first ∧ a.first ≤ a.last ∧ a.last < st.lastStart ∧
    a.annotations ≠ ∅ ∧ (∀ p, a.first ≤ p → p ≤ a.last → K p = a.annotations) ∧
    K (a.last + 1) ≠ a.annotations ∧ (a.first = first ∨ K (a.first - 1) ≠ a.annotations)
  cover : ∀ p, first ≤ p → p < st.lastStart → K p ≠ ∅ →
    ∃ a ∈ st.result, a.first ≤ p ∧ p ≤ a.last

theorem inv_init (K : Int → Finset Tag) (first : Int) :
    Inv K first ⟨K first, first, []⟩ first where
  lo := by simp
  hi := by simp
  same := by intro p h1 h2; have : p = first := by simp at h1; omega
             rw [this]
  left := Or.inl rfl
  disj := by simp
  chunk := by simp
  cover := by intro p h1 h2; simp at h2; omega

theorem inv_step {K : Int → Finset Tag} {first : Int} {st : LoopState} {i : Int}
    (h : Inv K first st i) : Inv K first (step K st (i + 1)) (i + 1) := by
  obtain ⟨lo, hi, same, left, disj, chunk, cover⟩ := h
  unfold step
  by_cases hk : K (i + 1) ≠ st.prevKind
  · rw [if_pos hk]
    refine ⟨by simp; omega, by simp, ?_, ?_, ?_, ?_, ?_⟩
    · intro p h1 h2
      simp only at h1 ⊢
      have : p = i + 1 := by omega
      rw [this]
    · right
      simp only [Int.add_sub_cancel]
      rw [same i hi (Int.le_refl _)]
      exact fun e => hk e.symm
    · simp only
      split
      · rw [List.pairwise_append]
        refine ⟨disj, by simp, ?_⟩
        intro a ha b hb
        simp only [List.mem_singleton] at hb
        subst hb
        exact (chunk a ha).2.2.1
      · exact disj
    · intro a ha
      simp only at ha ⊢
      split at ha
      · rename_i hne
        rcases List.mem_append.1 ha with ha | ha
        · obtain ⟨c1, c2, c3, c4⟩ := chunk a ha
          exact ⟨c1, c2, by omega, c4⟩
        · simp only [List.mem_singleton] at ha
          subst ha
          refine ⟨lo, by simp; omega, by simp, hne, ?_, ?_, left⟩
          · intro p h1 h2
            simp only at h1 h2 ⊢
            exact same p h1 (by omega)
          · simp only [Int.add_sub_cancel]
            exact hk
      · obtain ⟨c1, c2, c3, c4⟩ := chunk a ha
        exact ⟨c1, c2, by omega, c4⟩
    · intro p h1 h2 h3
      simp only at h2 ⊢
      by_cases hp : p < st.lastStart
      · obtain ⟨a, ha, hap⟩ := cover p h1 hp h3
        refine ⟨a, ?_, hap⟩
        split
        · exact List.mem_append_left _ ha
        · exact ha
      · have hs := same p (by omega) (by omega)
        rw [hs] at h3
        rw [if_pos h3]
        exact ⟨_, List.mem_append_right _ (List.mem_singleton.2 rfl), by simp; omega, by simp; omega⟩
  · rw [if_neg hk]
    have hk' : K (i + 1) = st.prevKind := by simpa using hk
    refine ⟨lo, by omega, ?_, left, disj, chunk, cover⟩
    intro p h1 h2
    by_cases hp : p = i + 1
    · rw [hp, hk']
    · exact same p h1 (by omega)

theorem inv_loop (K : Int → Finset Tag) (first : Int) : ∀ n : Nat,
    Inv K first (((List.range (n + 1)).map fun (k : Nat) => first + (k : Int)).foldl (step K)
      ⟨K first, first, []⟩) (first + n) := by
  intro n
  induction n with
  | zero =>
    have : ((List.range 1).map fun (k : Nat) => first + (k : Int)) = [first] := by
      simp [List.range_succ]
    rw [Nat.zero_add, this]
    simp only [List.foldl_cons, List.foldl_nil, step]
    simpa using inv_init K first
  | succ n ih =>
    rw [List.range_succ, List.map_append, List.foldl_append]
    simp only [List.map_cons, List.map_nil, List.foldl_cons, List.foldl_nil]
    have := inv_step ih
    have e : first + (n : Int) + 1 = first + ((n + 1 : Nat) : Int) := by push_cast; omega
    rw [e] at this
    exact this

end Verif.RangeTree
