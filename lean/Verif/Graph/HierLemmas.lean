import Verif.Graph.HierSpec
import Mathlib.Tactic.SplitIfs
import Mathlib.Tactic.Tauto

namespace Verif.Graph

theorem mem_dropNested {m : AMap V (List V)} {p s : V} (p' s' : V) :
    s' ∈ (get (dropNested m p s) p').getD [] ↔ s' ∈ (get m p').getD [] ∧ ¬ (p' = p ∧ s' = s) := by
  simp only [dropNested]
  cases h1 : get m p with
  | none =>
    simp only
    constructor
    · intro h
      refine ⟨h, ?_⟩
      rintro ⟨rfl, rfl⟩
      simp [h1] at h
    · exact And.left
  | some ss =>
    simp only
    by_cases h : p' = p
    · subst h
      split_ifs with he
      · rw [List.isEmpty_iff] at he
        simp only [get_del, if_true, h1, Option.getD_none, List.not_mem_nil, Option.getD_some, true_and, false_iff]
        intro hx
        have : s' ∈ excl ss s := mem_excl.2 hx
        rw [he] at this
        cases this
      · simp [get_set, h1]
    · split_ifs
      · simp [get_del, h]
      · simp [get_set, h]

theorem get_foldl_del {subs : List V} : ∀ (m : AMap V V) (k : V), get (subs.foldl (fun m s => del m s) m) k = if k ∈ subs then none else get m k := by
  induction subs with
  | nil => intro m k; simp
  | cons s subs ih =>
    intro m k
    simp only [List.foldl_cons, ih, get_del, List.mem_cons]
    by_cases h1 : k = s <;> by_cases h2 : k ∈ subs <;> simp [h1, h2]

theorem mem_foldl_incl {subs : List V} : ∀ (l : List V) (k : V), k ∈ subs.foldl incl l ↔ k ∈ l ∨ k ∈ subs := by
  induction subs with
  | nil => intro l k; simp
  | cons s subs ih =>
    intro l k
    simp only [List.foldl_cons, ih, mem_incl, List.mem_cons]
    tauto

theorem consistent_empty' : Hier.Consistent .empty := by
  constructor <;> simp [Hier.empty, Hier.getSubs, Hier.getParent, Hier.getRoots, Hier.getAll]

/-! ## Tracking a vertex -/

theorem track_effect' {h h' : Hier} {v : V} (ht : h.track v = .ok h') :
    v ∉ h.ids ∧ h'.ids = incl h.ids v ∧ h'.roots = incl h.roots v ∧ h'.parent = h.parent ∧ h'.nested = h.nested ∧
      h'.edges = h.edges ∧ h'.objs = h.objs := by
  simp only [Hier.track] at ht
  split_ifs at ht with hv
  simp only [Except.ok.injEq] at ht
  subst ht
  exact ⟨hv, rfl, rfl, rfl, rfl, rfl, rfl⟩

theorem consistent_track {h h' : Hier} {v : V} (hc : h.Consistent) (ht : h.track v = .ok h') : h'.Consistent := by
  obtain ⟨h1, h2, h3, h4, h5, _⟩ := track_effect' ht
  refine ⟨?_, ?_, ?_⟩
  · intro p s
    simp only [Hier.getSubs, Hier.getParent, h4, h5]
    exact hc.subs p s
  · intro w
    simp only [Hier.getRoots, Hier.getAll, Hier.getParent, h2, h3, h4, mem_incl]
    have hr := hc.roots w
    simp only [Hier.getRoots, Hier.getAll, Hier.getParent] at hr
    rw [hr]
    constructor
    · rintro (⟨h6, h7⟩ | rfl)
      · exact ⟨.inl h6, h7⟩
      · refine ⟨.inr rfl, ?_⟩
        cases hp : get h.parent w with
        | none => rfl
        | some p => exact absurd (hc.tracked p w hp).2 h1
    · rintro ⟨h6 | rfl, h7⟩
      · exact .inl ⟨h6, h7⟩
      · exact .inr rfl
  · intro p s hp
    simp only [Hier.getParent, Hier.getAll, h4, h2, mem_incl] at hp ⊢
    have := hc.tracked p s hp
    exact ⟨.inl this.1, .inl this.2⟩

/-! ## Nesting -/

/-- Either nothing but the edge objects changes, or the relation is recorded. -/
theorem nest_cases {hash : V → V → E} {h : Hier} {p s : V} :
    ((h.nestSub hash p s).2 ≠ none ∧ (h.nestSub hash p s).2 ≠ some .runtime ∧
      (h.nestSub hash p s).1.parent = h.parent ∧ (h.nestSub hash p s).1.nested = h.nested ∧
      (h.nestSub hash p s).1.roots = h.roots ∧ (h.nestSub hash p s).1.ids = h.ids ∧ (h.nestSub hash p s).1.edges = h.edges) ∨
    (p ∈ h.ids ∧ s ∈ h.ids ∧ get h.parent s = none ∧ (h.nestSub hash p s).1.parent = set h.parent s p ∧
      (h.nestSub hash p s).1.nested = set h.nested p (incl ((get h.nested p).getD []) s) ∧
      (h.nestSub hash p s).1.roots = excl h.roots s ∧ (h.nestSub hash p s).1.ids = h.ids ∧
      (((h.nestSub hash p s).2 = some .runtime ∧ (h.nestSub hash p s).1.edges = h.edges ∧
          ((get h.edges (p, s)).isSome ∨ hash p s ∈ h.edges.map (·.2))) ∨
        ((h.nestSub hash p s).2 = none ∧ (h.nestSub hash p s).1.edges = set h.edges (p, s) (hash p s) ∧
          get h.edges (p, s) = none ∧ hash p s ∉ h.edges.map (·.2)))) := by
  simp only [Hier.nestSub]
  by_cases hp : p ∉ h.ids
  · rw [if_pos hp]
    exact .inl ⟨by simp, by simp, rfl, rfl, rfl, rfl, rfl⟩
  · rw [if_neg hp]
    by_cases hs : s ∉ h.ids
    · rw [if_pos hs]
      exact .inl ⟨by simp, by simp, rfl, rfl, rfl, rfl, rfl⟩
    · rw [if_neg hs]
      have hobj : ¬ hash p s ∉ incl h.objs (hash p s) := by simp
      simp only [Hier.nest, if_neg hp, if_neg hs, if_neg hobj]
      by_cases hpar : (get h.parent s).isSome = true
      · rw [if_pos hpar]
        exact .inl ⟨by simp, by simp, rfl, rfl, rfl, rfl, rfl⟩
      · rw [if_neg hpar]
        right
        refine ⟨Decidable.not_not.1 hp, Decidable.not_not.1 hs, by simpa using hpar, ?_⟩
        by_cases he : (get h.edges (p, s)).isSome = true ∨ hash p s ∈ h.edges.map (·.2)
        · rw [if_pos he]
          exact ⟨rfl, rfl, rfl, rfl, .inl ⟨rfl, rfl, he⟩⟩
        · rw [if_neg he]
          rw [not_or] at he
          exact ⟨rfl, rfl, rfl, rfl, .inr ⟨rfl, rfl, by simpa using he.1, he.2⟩⟩

theorem consistent_nest {hash : V → V → E} {h : Hier} {p s : V} (hc : h.Consistent) : (h.nestSub hash p s).1.Consistent := by
  rcases nest_cases (hash := hash) (h := h) (p := p) (s := s) with ⟨_, _, h1, h2, h3, h4, _⟩ | ⟨hp, hs, hn, h1, h2, h3, h4, _⟩
  · refine ⟨?_, ?_, ?_⟩
    · intro p s
      simp only [Hier.getSubs, Hier.getParent, h1, h2]
      exact hc.subs p s
    · intro v
      simp only [Hier.getRoots, Hier.getAll, Hier.getParent, h1, h3, h4]
      exact hc.roots v
    · intro p s
      simp only [Hier.getParent, Hier.getAll, h1, h4]
      exact hc.tracked p s
  · refine ⟨?_, ?_, ?_⟩
    · intro p' s'
      have hsub := hc.subs p' s'
      simp only [Hier.getSubs, Hier.getParent] at hsub
      simp only [Hier.getSubs, Hier.getParent, h1, h2, get_set]
      by_cases hps : p' = p
      · subst hps
        simp only [if_true, Option.getD_some, mem_incl, hsub]
        by_cases hss : s' = s
        · simp [hss]
        · simp [hss]
      · rw [if_neg hps, hsub]
        by_cases hss : s' = s
        · subst hss
          rw [hn]
          simp [fun h => hps (Eq.symm h), show p ≠ p' from fun h => hps h.symm]
        · simp [hss]
    · intro v
      have hr := hc.roots v
      simp only [Hier.getRoots, Hier.getAll, Hier.getParent] at hr
      simp only [Hier.getRoots, Hier.getAll, Hier.getParent, h1, h3, h4, mem_excl, get_set, hr]
      by_cases hv : v = s
      · simp [hv]
      · simp [hv]
    · intro p' s' hps
      simp only [Hier.getParent, Hier.getAll, h1, h4, get_set] at hps ⊢
      by_cases hss : s' = s
      · subst hss
        rw [if_pos rfl, Option.some.injEq] at hps
        subst hps
        exact ⟨hp, hs⟩
      · rw [if_neg hss] at hps
        exact hc.tracked p' s' hps

/-! ## Unnesting -/

theorem unnest_effect {h h' : Hier} {p s : V} (hu : h.unnest p s = .ok h') :
    s ∈ h.ids ∧ get h.parent s = some p ∧ h'.parent = del h.parent s ∧ h'.nested = dropNested h.nested p s ∧
      h'.roots = incl h.roots s ∧ h'.ids = h.ids ∧ h'.edges = h.edges := by
  simp only [Hier.unnest] at hu
  split_ifs at hu with h1 h2 h3
  simp only [Except.ok.injEq] at hu
  subst hu
  exact ⟨by simpa using h2, by simpa using h3, rfl, rfl, rfl, rfl, rfl⟩

theorem consistent_unnest {h h' : Hier} {p s : V} (hc : h.Consistent) (hu : h.unnest p s = .ok h') : h'.Consistent := by
  obtain ⟨h0, h1, h2, h3, h4, h5, _⟩ := unnest_effect hu
  refine ⟨?_, ?_, ?_⟩
  · intro p' s'
    have hsub := hc.subs p' s'
    simp only [Hier.getSubs, Hier.getParent] at hsub
    simp only [Hier.getSubs, Hier.getParent, h2, h3, mem_dropNested, hsub, get_del]
    by_cases hss : s' = s
    · subst hss
      rw [h1]
      simp only [Option.some.injEq, and_true, if_true, reduceCtorEq, iff_false]
      rintro ⟨rfl, h⟩
      exact h rfl
    · simp [hss]
  · intro v
    have hr := hc.roots v
    simp only [Hier.getRoots, Hier.getAll, Hier.getParent] at hr
    simp only [Hier.getRoots, Hier.getAll, Hier.getParent, h2, h4, h5, mem_incl, get_del, hr]
    by_cases hv : v = s
    · subst hv
      simp [h0]
    · simp [hv]
  · intro p' s' hps
    simp only [Hier.getParent, Hier.getAll, h2, h5, get_del] at hps ⊢
    split_ifs at hps
    exact hc.tracked p' s' hps

/-! ## Removing -/

/-- What one round of `untrackVertex` does to consistent maps. -/
theorem removeOne_effect {h : Hier} (hc : h.Consistent) (v : V) :
    (h.removeOne v).Consistent ∧ (∀ w, w ∈ (h.removeOne v).ids ↔ w ∈ h.ids ∧ w ≠ v) ∧
      (∀ s p, get (h.removeOne v).parent s = some p ↔ get h.parent s = some p ∧ s ≠ v ∧ p ≠ v) ∧
      (h.removeOne v).edges = h.edges := by
  -- first part
  have d : ∃ h1, h1 = h.detach v ∧ (∀ s, get h1.parent s = if s = v then none else get h.parent s) ∧
      (∀ p s, s ∈ (get h1.nested p).getD [] ↔ get h1.parent s = some p) ∧ h1.roots = h.roots ∧ h1.ids = h.ids ∧ h1.edges = h.edges := by
    refine ⟨_, rfl, ?_⟩
    simp only [Hier.detach]
    cases hp : get h.parent v with
    | none =>
      simp only
      refine ⟨?_, fun p s => hc.subs p s, by trivial⟩
      intro s
      by_cases hs : s = v
      · simp [hs, hp]
      · simp [hs]
    | some p =>
      simp only
      refine ⟨fun s => get_del _ _ _, ?_, by trivial⟩
      intro p' s'
      have hsub := hc.subs p' s'
      simp only [Hier.getSubs, Hier.getParent] at hsub
      rw [mem_dropNested, hsub, get_del]
      by_cases hs : s' = v
      · subst hs
        rw [hp]
        simp only [Option.some.injEq, and_true, if_true, reduceCtorEq, iff_false]
        rintro ⟨rfl, h⟩
        exact h rfl
      · simp [hs]
  obtain ⟨h1, e1, d1, d2, d3, d4, d5⟩ := d
  -- second part
  have r : ∃ h2, h2 = h1.release v ∧ (∀ s, get h2.parent s = if get h1.parent s = some v then none else get h1.parent s) ∧
      (∀ p s, s ∈ (get h2.nested p).getD [] ↔ s ∈ (get h1.nested p).getD [] ∧ p ≠ v) ∧
      (∀ w, w ∈ h2.roots ↔ w ∈ h1.roots ∨ get h1.parent w = some v) ∧ h2.ids = h1.ids ∧ h2.edges = h1.edges := by
    refine ⟨_, rfl, ?_⟩
    simp only [Hier.release]
    cases hn : get h1.nested v with
    | none =>
      simp only
      have hno : ∀ s, get h1.parent s ≠ some v := by
        intro s hs
        have := (d2 v s).2 hs
        rw [hn] at this
        cases this
      refine ⟨?_, ?_, ?_, by trivial⟩
      · intro s
        rw [if_neg (hno s)]
      · intro p s
        constructor
        · intro hs
          refine ⟨hs, ?_⟩
          rintro rfl
          exact hno s ((d2 _ s).1 hs)
        · exact And.left
      · intro w
        simp [hno w]
    | some subs =>
      simp only
      have hmem : ∀ s, s ∈ subs ↔ get h1.parent s = some v := by
        intro s
        have := d2 v s
        rw [hn] at this
        exact this
      refine ⟨?_, ?_, ?_, by trivial⟩
      · intro s
        rw [get_foldl_del]
        by_cases hs : s ∈ subs
        · rw [if_pos hs, if_pos ((hmem s).1 hs)]
        · rw [if_neg hs, if_neg (fun h => hs ((hmem s).2 h))]
      · intro p s
        rw [get_del]
        by_cases hp : p = v
        · simp [hp]
        · simp [hp]
      · intro w
        rw [mem_foldl_incl, hmem]
  obtain ⟨h2, e2, r1, r2, r3, r4, r5⟩ := r
  have hpar : ∀ s p, get h2.parent s = some p ↔ get h.parent s = some p ∧ s ≠ v ∧ p ≠ v := by
    intro s p
    rw [r1, d1]
    by_cases hs : s = v
    · simp [hs]
    · simp only [hs, if_false, ne_eq, not_false_eq_true, true_and]
      constructor
      · intro h'
        split_ifs at h' with h3
        refine ⟨h', ?_⟩
        rintro rfl
        exact h3 h'
      · rintro ⟨h3, h4⟩
        rw [if_neg]
        · exact h3
        · rw [h3, Option.some.injEq]
          exact h4
  have hpar1 : ∀ s, get h1.parent s = some v ↔ get h.parent s = some v ∧ s ≠ v := by
    intro s
    rw [d1]
    by_cases hs : s = v <;> simp [hs]
  have hrm : h.removeOne v = { h2 with roots := excl h2.roots v, ids := excl h2.ids v } := by
    rw [Hier.removeOne, ← e1, ← e2]
  rw [hrm]
  refine ⟨⟨?_, ?_, ?_⟩, ?_, hpar, ?_⟩
  · intro p s
    simp only [Hier.getSubs, Hier.getParent, r2, d2, hpar, d1]
    by_cases hs : s = v
    · simp [hs]
    · simp [hs]
  · intro w
    have hr := hc.roots w
    simp only [Hier.getRoots, Hier.getAll, Hier.getParent] at hr
    simp only [Hier.getRoots, Hier.getAll, Hier.getParent, mem_excl, r3, r4, d3, d4, hr, hpar1]
    have hnone : get h2.parent w = none ↔ ∀ p, ¬ (get h.parent w = some p ∧ w ≠ v ∧ p ≠ v) := by
      rw [Option.eq_none_iff_forall_ne_some]
      exact forall_congr' (fun p => not_congr (hpar w p))
    rw [hnone]
    constructor
    · rintro ⟨⟨h3, h4⟩ | ⟨h3, _⟩, h5⟩
      · exact ⟨⟨h3, h5⟩, fun p h6 => by rw [h4] at h6; cases h6.1⟩
      · exact ⟨⟨(hc.tracked v w h3).2, h5⟩, fun p h6 => by rw [h3] at h6; exact h6.2.2 (by simpa using h6.1.symm)⟩
    · rintro ⟨⟨h3, h5⟩, h6⟩
      refine ⟨?_, h5⟩
      cases hp : get h.parent w with
      | none => exact .inl ⟨h3, rfl⟩
      | some p =>
        by_cases hpv : p = v
        · subst hpv
          exact .inr ⟨rfl, h5⟩
        · exact absurd ⟨hp, h5, hpv⟩ (h6 p)
  · intro p s hps
    have hps' := (hpar s p).1 hps
    have ht := hc.tracked p s hps'.1
    simp only [Hier.getAll] at ht
    simp only [Hier.getAll, mem_excl, r4, d4]
    exact ⟨⟨ht.1, hps'.2.2⟩, ht.2, hps'.2.1⟩
  · intro w
    simp [r4, d4]
  · rw [r5, d5]

/-- All rounds. -/
theorem removeAll_effect {vs : List V} : ∀ {h : Hier}, h.Consistent →
    (vs.foldl Hier.removeOne h).Consistent ∧ (∀ w, w ∈ (vs.foldl Hier.removeOne h).ids ↔ w ∈ h.ids ∧ w ∉ vs) ∧
      (∀ s p, get (vs.foldl Hier.removeOne h).parent s = some p ↔ get h.parent s = some p ∧ s ∉ vs ∧ p ∉ vs) ∧
      (vs.foldl Hier.removeOne h).edges = h.edges := by
  induction vs with
  | nil => intro h hc; simp [hc]
  | cons v vs ih =>
    intro h hc
    obtain ⟨g1, g2, g3, g4⟩ := removeOne_effect hc v
    obtain ⟨k1, k2, k3, k4⟩ := ih g1
    simp only [List.foldl_cons]
    refine ⟨k1, ?_, ?_, k4.trans g4⟩
    · intro w
      rw [k2, g2, List.mem_cons]
      tauto
    · intro s p
      rw [k3, g3, List.mem_cons, List.mem_cons]
      tauto

theorem untrack_effect' {h h' : Hier} {fuel : Nat} {v : V} {order vs : List V} (hu : h.untrack fuel v order = .ok (h', vs)) :
    v ∈ h.ids ∧ h.collect fuel [] v = some vs ∧ h' = order.foldl Hier.removeOne h := by
  simp only [Hier.untrack] at hu
  split_ifs at hu with hv
  split at hu
  · simp at hu
  · rename_i vs' hcol
    simp only [Except.ok.injEq, Prod.mk.injEq] at hu
    obtain ⟨rfl, rfl⟩ := hu
    exact ⟨by simpa using hv, hcol, rfl⟩

theorem run_consistent {safe : Bool} {hash : V → V → E} {h : Hier} (hr : HRun safe hash h) : h.Consistent := by
  induction hr with
  | init => exact consistent_empty'
  | track _ ht ih => exact consistent_track ih ht
  | nest _ _ ih => exact consistent_nest ih
  | unnest _ hu ih => exact consistent_unnest ih hu
  | untrack _ hu _ ih =>
    obtain ⟨_, _, rfl⟩ := untrack_effect' hu
    exact (removeAll_effect ih).1

end Verif.Graph
