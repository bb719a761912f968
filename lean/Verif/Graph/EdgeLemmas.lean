import Verif.Graph.EdgeSpec
import Mathlib.Tactic.SplitIfs

namespace Verif.Graph

/-- The edge is in the incidence matrix. -/
def InM (m : AMap V (AMap V (List E))) (s t : V) (e : E) : Prop := ∃ row es, get m s = some row ∧ get row t = some es ∧ e ∈ es

/-- No list of the matrix is empty. -/
def Tight (m : AMap V (AMap V (List E))) : Prop := ∀ s t row, get m s = some row → get row t ≠ some []

/-- The vertex is recorded as a source of edges to the other. -/
def FromM (m : AMap V (List V)) (t s : V) : Prop := s ∈ (get m t).getD []

theorem in_add {m : AMap V (AMap V (List E))} {s t : V} {e : E} (s' t' : V) (e' : E) :
    InM (addIncidence m s t e) s' t' e' ↔ InM m s' t' e' ∨ (s' = s ∧ t' = t ∧ e' = e) := by
  simp only [InM, addIncidence, get_set]
  by_cases hs : s' = s
  · subst hs
    simp only [if_true, Option.some.injEq, exists_and_left, exists_eq_left', get_set, true_and]
    by_cases ht : t' = t
    · subst ht
      simp only [if_true, Option.some.injEq, exists_eq_left', List.mem_append, List.mem_singleton, true_and]
      cases h1 : get m s' with
      | none => simp
      | some row =>
        cases h2 : get row t' with
        | none => simp [h2]
        | some es => simp [h2]
    · simp only [ht, if_false, false_and, or_false]
      cases h1 : get m s' with
      | none => simp
      | some row => simp
  · simp [hs]

theorem tight_add {m : AMap V (AMap V (List E))} (h : Tight m) (s t : V) (e : E) : Tight (addIncidence m s t e) := by
  intro s' t' row hrow
  simp only [addIncidence, get_set] at hrow
  by_cases hs : s' = s
  · subst hs
    rw [if_pos rfl, Option.some.injEq] at hrow
    subst hrow
    rw [get_set]
    split_ifs
    · simp
    · cases h1 : get m s' with
      | none => simp
      | some r => exact h s' t' r h1
  · rw [if_neg hs] at hrow
    exact h s' t' row hrow

theorem in_drop {m : AMap V (AMap V (List E))} {s t : V} {e : E} (s' t' : V) (e' : E) :
    InM (dropIncidence m s t e) s' t' e' ↔ InM m s' t' e' ∧ ¬ (s' = s ∧ t' = t ∧ e' = e) := by
  simp only [dropIncidence]
  cases h1 : get m s with
  | none =>
    simp only
    constructor
    · intro h
      refine ⟨h, ?_⟩
      rintro ⟨rfl, _, _⟩
      obtain ⟨row, es, h2, _⟩ := h
      rw [h1] at h2
      cases h2
    · exact And.left
  | some row =>
    simp only
    cases h2 : get row t with
    | none =>
      simp only
      constructor
      · intro h
        refine ⟨h, ?_⟩
        rintro ⟨rfl, rfl, _⟩
        obtain ⟨row', es, h3, h4, _⟩ := h
        rw [h1] at h3
        cases h3
        rw [h2] at h4
        cases h4
      · exact And.left
    | some es =>
      simp only
      by_cases hs : s' = s
      · subst hs
        have hall : ∀ x, x ∈ excl es e ↔ x ∈ es ∧ x ≠ e := fun x => mem_excl
        split_ifs with he hr
        · rw [List.isEmpty_iff] at he hr
          simp only [InM, get_del, if_true, h1]
          constructor
          · rintro ⟨_, _, h, _⟩
            cases h
          · rintro ⟨⟨row', es', h3, h4, h5⟩, h6⟩
            exfalso
            cases h3
            by_cases ht : t' = t
            · subst ht
              rw [h2] at h4
              cases h4
              have : e' ∈ excl es e := (hall e').2 ⟨h5, fun h => h6 ⟨trivial, rfl, h⟩⟩
              rw [he] at this
              cases this
            · have := (eq_nil_iff.1 hr) t'
              rw [get_del, if_neg ht, h4] at this
              cases this
        · rw [List.isEmpty_iff] at he
          simp only [InM, get_set, if_true, h1, Option.some.injEq, exists_and_left, exists_eq_left', get_del]
          by_cases ht : t' = t
          · subst ht
            simp only [if_true, reduceCtorEq, false_and, exists_false, h2, Option.some.injEq, exists_eq_left', true_and, false_iff]
            rintro ⟨h5, h6⟩
            have : e' ∈ excl es e := (hall e').2 ⟨h5, h6⟩
            rw [he] at this
            cases this
          · simp [ht]
        · simp only [InM, get_set, if_true, h1, Option.some.injEq, exists_and_left, exists_eq_left']
          by_cases ht : t' = t
          · subst ht
            simp [h2]
          · simp [ht]
      · have : ∀ r : AMap V (List E), (get (set m s r) s' = get m s') := fun r => by rw [get_set, if_neg hs]
        split_ifs
        · simp [InM, get_del, hs]
        · simp [InM, this, hs]
        · simp [InM, this, hs]

theorem tight_drop {m : AMap V (AMap V (List E))} (h : Tight m) (s t : V) (e : E) : Tight (dropIncidence m s t e) := by
  simp only [dropIncidence]
  cases h1 : get m s with
  | none => exact h
  | some row =>
    simp only
    cases h2 : get row t with
    | none => exact h
    | some es =>
      simp only
      intro s' t' row' hrow
      by_cases hs : s' = s
      · subst hs
        split_ifs at hrow with he hr
        · rw [get_del, if_pos rfl] at hrow
          cases hrow
        · rw [get_set, if_pos rfl, Option.some.injEq] at hrow
          subst hrow
          rw [get_del]
          split_ifs
          · simp
          · exact h s' t' row h1
        · rw [get_set, if_pos rfl, Option.some.injEq] at hrow
          subst hrow
          rw [get_set]
          split_ifs
          · rw [List.isEmpty_iff] at he
            simpa using he
          · exact h s' t' row h1
      · have : get m s' = some row' := by
          split_ifs at hrow
          · rwa [get_del, if_neg hs] at hrow
          · rwa [get_set, if_neg hs] at hrow
          · rwa [get_set, if_neg hs] at hrow
        exact h s' t' row' this

theorem from_add {m : AMap V (List V)} {s t : V} (t' s' : V) :
    FromM (set m t ((get m t).getD [] ++ [s])) t' s' ↔ FromM m t' s' ∨ (t' = t ∧ s' = s) := by
  simp only [FromM, get_set]
  by_cases h : t' = t
  · subst h
    simp
  · simp [h]

theorem from_drop {m : AMap V (List V)} {s t : V} (t' s' : V) :
    FromM (dropIncoming m s t) t' s' ↔ FromM m t' s' ∧ ¬ (t' = t ∧ s' = s) := by
  simp only [dropIncoming]
  cases h1 : get m t with
  | none =>
    simp only
    constructor
    · intro h
      refine ⟨h, ?_⟩
      rintro ⟨rfl, rfl⟩
      simp [FromM, h1] at h
    · exact And.left
  | some ss =>
    simp only
    by_cases h : t' = t
    · subst h
      split_ifs with he
      · rw [List.isEmpty_iff] at he
        simp only [FromM, get_del, if_true, h1, Option.getD_none, List.not_mem_nil, Option.getD_some, true_and, false_iff]
        intro hx
        have : s' ∈ excl ss s := mem_excl.2 hx
        rw [he] at this
        cases this
      · simp [FromM, get_set, h1]
    · split_ifs
      · simp [FromM, get_del, h]
      · simp [FromM, get_set, h]

theorem mem_outgoing {c : Coll} {v : V} {e : E} : e ∈ getOutgoing c v ↔ ∃ t, InM c.incidence v t e := by
  simp only [getOutgoing, List.mem_flatMap, InM]
  cases h : get c.incidence v with
  | none =>
    constructor
    · rintro ⟨x, hx, _⟩
      simp [entries] at hx
    · rintro ⟨t, _, _, h', _⟩
      cases h'
  | some row =>
    simp only [Option.getD_some, Option.some.injEq, exists_and_left, exists_eq_left']
    constructor
    · rintro ⟨⟨t, es⟩, hx, he⟩
      exact ⟨t, es, mem_entries.1 hx, he⟩
    · rintro ⟨t, es, hx, he⟩
      exact ⟨(t, es), mem_entries.2 hx, he⟩

theorem mem_edges {c : Coll} {e : E} : e ∈ getEdges c ↔ ∃ s t, InM c.incidence s t e := by
  simp only [getEdges, List.mem_flatMap, InM]
  constructor
  · rintro ⟨⟨s, row⟩, h1, ⟨t, es⟩, h2, h3⟩
    exact ⟨s, t, row, es, mem_entries.1 h1, mem_entries.1 h2, h3⟩
  · rintro ⟨s, t, row, es, h1, h2, h3⟩
    exact ⟨(s, row), mem_entries.2 h1, (t, es), mem_entries.2 h2, h3⟩

theorem mem_incoming {c : Coll} {v : V} {e : E} : e ∈ getIncoming c v ↔ ∃ s, FromM c.incoming v s ∧ InM c.incidence s v e := by
  simp only [getIncoming, List.mem_flatMap, InM, FromM]
  constructor
  · rintro ⟨s, h1, h2⟩
    refine ⟨s, h1, ?_⟩
    cases h3 : get c.incidence s with
    | none => simp [h3] at h2
    | some row =>
      rw [h3] at h2
      simp only [Option.getD_some] at h2
      cases h4 : get row v with
      | none => simp [h4] at h2
      | some es =>
        rw [h4] at h2
        exact ⟨row, es, rfl, h4, h2⟩
  · rintro ⟨s, h1, row, es, h2, h3, h4⟩
    exact ⟨s, h1, by simp [h2, h3, h4]⟩

theorem has_iff {c : Coll} (ht : Tight c.incidence) {s t : V} : hasEdge c s t = true ↔ ∃ e, InM c.incidence s t e := by
  simp only [hasEdge, InM]
  cases h : get c.incidence s with
  | none => simp
  | some row =>
    simp only [Option.some.injEq, exists_and_left, exists_eq_left']
    cases h2 : get row t with
    | none => simp
    | some es =>
      cases es with
      | nil => exact absurd h2 (ht s t row h)
      | cons x es => simp

end Verif.Graph
