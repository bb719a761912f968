import Verif.Graph.HierLemmas

namespace Verif.Graph

open Relation

theorem anc_unique {h : Hier} {v : V} {l l' : List V} (h1 : h.Anc v l) (h2 : h.Anc v l') : l = l' := by
  induction h1 generalizing l' with
  | root hr =>
    cases h2 with
    | root => rfl
    | up hu _ => rw [hr] at hu; cases hu
  | up hu _ ih =>
    cases h2 with
    | root hr => rw [hr] at hu; cases hu
    | up hu' h2' =>
      rw [hu, Option.some.injEq] at hu'
      subst hu'
      rw [ih h2']

theorem below_parent {h : Hier} {a v p : V} (hp : h.getParent v = some p) : h.Below a v ↔ a = v ∨ h.Below a p := by
  constructor
  · intro hb
    rcases ReflTransGen.cases_tail hb with rfl | ⟨c, hc, hcv⟩
    · exact .inl rfl
    · have : c = p := by
        have : h.getParent v = some c := hcv
        rw [hp, Option.some.injEq] at this
        exact this.symm
      exact .inr (this ▸ hc)
  · rintro (rfl | hb)
    · exact .refl
    · exact .tail hb hp

theorem below_root {h : Hier} {a v : V} (hp : h.getParent v = none) : h.Below a v ↔ a = v := by
  constructor
  · intro hb
    rcases ReflTransGen.cases_tail hb with rfl | ⟨c, _, hcv⟩
    · rfl
    · have : h.getParent v = some c := hcv
      rw [hp] at this
      cases this
  · rintro rfl
    exact .refl

/-- The chain lists exactly the vertices the given one is nested below. -/
theorem below_iff {h : Hier} {a v : V} {l : List V} (ha : h.Anc v l) : h.Below a v ↔ a ∈ v :: l := by
  induction ha with
  | root hr => rw [below_root hr]; simp
  | up hu _ ih => rw [below_parent hu, ih]; simp

theorem anc_suffix {h : Hier} {v : V} {l : List V} (ha : h.Anc v l) : ∀ {xs : List V} {w : V} {r : List V}, v :: l = xs ++ w :: r → h.Anc w r := by
  induction ha with
  | @root v hr =>
    intro xs w r e
    cases xs with
    | nil =>
      simp only [List.nil_append, List.cons.injEq] at e
      obtain ⟨rfl, rfl⟩ := e
      exact .root hr
    | cons x xs => simp at e
  | @up v p l hu hl ih =>
    intro xs w r e
    cases xs with
    | nil =>
      simp only [List.nil_append, List.cons.injEq] at e
      obtain ⟨rfl, rfl⟩ := e
      exact .up hu hl
    | cons x xs =>
      simp only [List.cons_append, List.cons.injEq] at e
      exact ih e.2

/-- No vertex appears twice on the way to a root. -/
theorem anc_nodup {h : Hier} {v : V} {l : List V} (ha : h.Anc v l) : (v :: l).Nodup := by
  induction ha with
  | root => simp
  | @up v p l hu hl ih =>
    rw [List.nodup_cons]
    refine ⟨?_, ih⟩
    intro hm
    obtain ⟨xs, r, e⟩ := List.append_of_mem hm
    have h1 := anc_suffix hl e
    have h2 := anc_unique h1 (.up hu hl)
    have := congrArg List.length e
    simp [h2] at this
    omega

/-- A sub-relation of a forest is a forest. -/
theorem forest_sub {h h' : Hier} (hf : h.Forest) (hs : ∀ s p, h'.getParent s = some p → h.getParent s = some p) : h'.Forest := by
  intro v
  obtain ⟨l, hl⟩ := hf v
  induction hl with
  | @root v hr =>
    cases hp : h'.getParent v with
    | none => exact ⟨[], .root hp⟩
    | some p => rw [hs v p hp] at hr; cases hr
  | @up v p l hu hl ih =>
    cases hp : h'.getParent v with
    | none => exact ⟨[], .root hp⟩
    | some p' =>
      have := hs v p' hp
      rw [hu, Option.some.injEq] at this
      subst this
      obtain ⟨l', hl'⟩ := ih
      exact ⟨_, .up hp hl'⟩

theorem forest_same {h h' : Hier} (hf : h.Forest) (hs : h'.parent = h.parent) : h'.Forest :=
  forest_sub hf (fun s p hp => by simpa only [Hier.getParent, hs] using hp)

theorem forest_nest {hash : V → V → E} {h : Hier} {p s : V} (hf : h.Forest) (hb : ¬ h.Below s p) : (h.nestSub hash p s).1.Forest := by
  rcases nest_cases (hash := hash) (h := h) (p := p) (s := s) with ⟨_, _, h1, _⟩ | ⟨hpi, hsi, hsn, h1, hrest⟩
  · exact forest_same hf h1
  · clear hrest hpi hsi hsn
    generalize h.nestSub hash p s = r at h1
    have hpar : ∀ w, r.1.getParent w = if w = s then some p else h.getParent w := by
      intro w
      simp only [Hier.getParent, h1, get_set]
    obtain ⟨lp, hlp⟩ := hf p
    have hkeep : ∀ v l, h.Anc v l → (∀ w, w ∈ v :: l → w ≠ s) → r.1.Anc v l := by
      intro v l hl hno
      induction hl with
      | @root v hr =>
        refine .root ?_
        rw [hpar, if_neg (hno v (by simp))]
        exact hr
      | @up v q l hu hl ih =>
        refine .up ?_ (ih (fun w hw => hno w (List.mem_cons_of_mem _ hw)))
        rw [hpar, if_neg (hno v (by simp))]
        exact hu
    have hp : r.1.Anc p lp := by
      refine hkeep p lp hlp ?_
      rintro w hw rfl
      exact hb ((below_iff hlp).2 hw)
    intro v
    obtain ⟨l, hl⟩ := hf v
    induction hl with
    | @root v hr =>
      by_cases hv : v = s
      · exact ⟨_, .up (by rw [hpar, if_pos hv]) hp⟩
      · exact ⟨[], .root (by rw [hpar, if_neg hv]; exact hr)⟩
    | @up v q l hu hl ih =>
      by_cases hv : v = s
      · exact ⟨_, .up (by rw [hpar, if_pos hv]) hp⟩
      · obtain ⟨l', hl'⟩ := ih
        exact ⟨_, .up (by rw [hpar, if_neg hv]; exact hu) hl'⟩

theorem run_forest {hash : V → V → E} {h : Hier} (hr : HRun true hash h) : h.Forest := by
  induction hr with
  | init => exact fun v => ⟨[], .root rfl⟩
  | track _ ht ih => exact forest_same ih (track_effect' ht).2.2.2.1
  | nest _ hs ih => exact forest_nest ih (hs rfl)
  | @unnest h p s h' _ hu ih =>
    refine forest_sub ih (fun a b hab => ?_)
    simp only [Hier.getParent, (unnest_effect hu).2.2.1, get_del] at hab
    split_ifs at hab
    exact hab
  | untrack hr hu _ ih =>
    obtain ⟨_, _, rfl⟩ := untrack_effect' hu
    refine forest_sub ih (fun a b hab => ?_)
    exact (((removeAll_effect (run_consistent hr)).2.2.1 a b).1 hab).1

/-! ## Collecting a subtree -/

theorem foldlM_mem {f : List V → V → Option (List V)} {Q : V → V → Prop}
    (hf : ∀ acc s r, f acc s = some r → ∀ x, x ∈ r ↔ x ∈ acc ∨ Q s x) :
    ∀ (l : List V) (acc r : List V), l.foldlM f acc = some r → ∀ x, x ∈ r ↔ x ∈ acc ∨ ∃ s ∈ l, Q s x := by
  intro l
  induction l with
  | nil =>
    intro acc r h x
    simp only [List.foldlM_nil, Option.pure_def, Option.some.injEq] at h
    subst h
    simp
  | cons s l ih =>
    intro acc r h x
    simp only [List.foldlM_cons, Option.bind_eq_bind, Option.bind_eq_some_iff] at h
    obtain ⟨acc', h1, h2⟩ := h
    rw [ih acc' r h2 x, hf acc s acc' h1 x]
    simp only [List.mem_cons, exists_eq_or_imp, or_assoc]

theorem below_head {h : Hier} {v x : V} : h.Below v x ↔ x = v ∨ ∃ s, h.getParent s = some v ∧ h.Below s x := by
  rw [Hier.Below, ReflTransGen.cases_head_iff]
  constructor
  · rintro (rfl | ⟨c, h1, h2⟩)
    · exact .inl rfl
    · exact .inr ⟨c, h1, h2⟩
  · rintro (rfl | ⟨c, h1, h2⟩)
    · exact .inl rfl
    · exact .inr ⟨c, h1, h2⟩

theorem collect_mem {h : Hier} (hc : h.Consistent) : ∀ (n : Nat) (acc : List V) (v : V) (r : List V),
    h.collect n acc v = some r → ∀ x, x ∈ r ↔ x ∈ acc ∨ h.Below v x := by
  intro n
  induction n with
  | zero => intro acc v r hr; simp [Hier.collect] at hr
  | succ n ih =>
    intro acc v r hr x
    simp only [Hier.collect] at hr
    rw [foldlM_mem (Q := fun s x => h.Below s x) (fun acc s r hr => ih acc s r hr) _ _ _ hr x, mem_incl, below_head, or_assoc]
    have hsub : ∀ s, s ∈ (get h.nested v).getD [] ↔ h.getParent s = some v := fun s => hc.subs v s
    simp only [hsub]

/-- A bound for the lengths of all chains. -/
theorem forest_bound {h : Hier} (hc : h.Consistent) (hf : h.Forest) : ∃ M, ∀ v l, h.Anc v l → l.length ≤ M := by
  have hb : ∀ ids : List V, ∃ M, ∀ v ∈ ids, ∀ l, h.Anc v l → l.length ≤ M := by
    intro ids
    induction ids with
    | nil => exact ⟨0, by simp⟩
    | cons i ids ih =>
      obtain ⟨M, hM⟩ := ih
      obtain ⟨li, hli⟩ := hf i
      refine ⟨max M li.length, ?_⟩
      intro v hv l hl
      rcases List.mem_cons.1 hv with rfl | hv
      · rw [anc_unique hl hli]
        exact Nat.le_max_right _ _
      · exact Nat.le_trans (hM v hv l hl) (Nat.le_max_left _ _)
  obtain ⟨M, hM⟩ := hb h.ids
  refine ⟨M, ?_⟩
  intro v l hl
  by_cases hv : v ∈ h.ids
  · exact hM v hv l hl
  · cases hl with
    | root => simp
    | up hu _ => exact absurd (hc.tracked _ v hu).2 hv

theorem foldlM_some {α : Type} {f : α → V → Option α} : ∀ (l : List V) (acc : α), (∀ s ∈ l, ∀ acc, (f acc s).isSome) → (l.foldlM f acc).isSome := by
  intro l
  induction l with
  | nil => intro acc _; simp
  | cons s l ih =>
    intro acc hf
    have h1 := hf s (by simp) acc
    rw [Option.isSome_iff_exists] at h1
    obtain ⟨a, ha⟩ := h1
    simp only [List.foldlM_cons, ha, Option.bind_eq_bind, Option.bind_some]
    exact ih a (fun s hs => hf s (List.mem_cons_of_mem _ hs))

theorem collect_returns {h : Hier} (hc : h.Consistent) {M : Nat} (hM : ∀ v l, h.Anc v l → l.length ≤ M) :
    ∀ (n : Nat) (acc : List V) (v : V) (l : List V), h.Anc v l → M < n + l.length → (h.collect n acc v).isSome := by
  intro n
  induction n with
  | zero =>
    intro acc v l hl hn
    have := hM v l hl
    omega
  | succ n ih =>
    intro acc v l hl hn
    simp only [Hier.collect]
    refine foldlM_some _ _ (fun s hs acc => ?_)
    have hp : h.getParent s = some v := (hc.subs v s).1 hs
    refine ih acc s (v :: l) (.up hp hl) ?_
    simp only [List.length_cons]
    omega

/-! ## Chains -/

theorem chain_some {h : Hier} : ∀ (n : Nat) (v : V) (l : List V), h.chain n v = some l → h.Anc v l ∧ l.length < n := by
  intro n
  induction n with
  | zero => intro v l hl; simp [Hier.chain] at hl
  | succ n ih =>
    intro v l hl
    simp only [Hier.chain] at hl
    split at hl
    · rename_i hp
      simp only [Option.some.injEq] at hl
      subst hl
      exact ⟨.root hp, by simp⟩
    · rename_i p hp
      rw [Option.map_eq_some_iff] at hl
      obtain ⟨l', h1, rfl⟩ := hl
      obtain ⟨h2, h3⟩ := ih p l' h1
      exact ⟨.up hp h2, by simpa using h3⟩

theorem chain_of_anc {h : Hier} {v : V} {l : List V} (ha : h.Anc v l) : ∀ {n : Nat}, l.length < n → h.chain n v = some l := by
  induction ha with
  | root hr =>
    intro n hn
    obtain ⟨n, rfl⟩ := Nat.exists_eq_succ_of_ne_zero (Nat.ne_of_gt hn)
    simp only [Hier.getParent] at hr
    simp only [Hier.chain, hr]
  | @up v p l hu _ ih =>
    intro n hn
    obtain ⟨n, rfl⟩ := Nat.exists_eq_succ_of_ne_zero (show n ≠ 0 by omega)
    simp only [Hier.getParent] at hu
    simp only [Hier.chain, hu]
    rw [ih (by simp at hn; omega)]
    rfl

end Verif.Graph
