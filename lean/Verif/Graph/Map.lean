/-! # Finite maps for the graph model -/

namespace Verif.Graph

/-- `hstd::UnorderedMap` – Map.hpp:70-107, as a list of entries.  The order of the entries is one
order of iteration; nothing is proved that depends on it. -/
abbrev AMap (κ ν : Type) := List (κ × ν)

variable {κ ν : Type} [DecidableEq κ]

/-- `get` – Map.hpp:41-47 (also `contains` and `at`). -/
def get (m : AMap κ ν) (k : κ) : Option ν := (m.find? (fun x => decide (x.1 = k))).map (·.2)

/-- `insert_or_assign`. -/
def set (m : AMap κ ν) (k : κ) (v : ν) : AMap κ ν := (k, v) :: m.filter (fun x => decide (x.1 ≠ k))

/-- `erase(key)`. -/
def del (m : AMap κ ν) (k : κ) : AMap κ ν := m.filter (fun x => decide (x.1 ≠ k))

/-- The entries met by a loop over the map. -/
def entries (m : AMap κ ν) : List (κ × ν) := m.filterMap (fun x => (get m x.1).map (x.1, ·))

/-- `UnorderedSet::insert` on a list of members. -/
def incl {α : Type} [DecidableEq α] (s : List α) (a : α) : List α := if a ∈ s then s else s ++ [a]

/-- `UnorderedSet::erase`. -/
def excl {α : Type} [DecidableEq α] (s : List α) (a : α) : List α := s.filter (fun x => decide (x ≠ a))

@[simp] theorem get_nil (k : κ) : get ([] : AMap κ ν) k = none := rfl

theorem get_cons (x : κ × ν) (m : AMap κ ν) (k : κ) : get (x :: m) k = if x.1 = k then some x.2 else get m k := by
  simp only [get, List.find?_cons]
  by_cases h : x.1 = k <;> simp [h]

theorem get_del (m : AMap κ ν) (k k' : κ) : get (del m k) k' = if k' = k then none else get m k' := by
  induction m with
  | nil => simp [del]
  | cons x m ih =>
    simp only [del, List.filter_cons] at ih ⊢
    by_cases h : x.1 = k
    · simp only [h, ne_eq, not_true_eq_false, decide_false, Bool.false_eq_true, if_false, ih, get_cons]
      by_cases h' : k' = k
      · simp [h']
      · simp [h', show k ≠ k' from fun e => h' e.symm]
    · simp only [h, ne_eq, not_false_eq_true, decide_true, if_true, get_cons, ih]
      by_cases h' : x.1 = k'
      · simp [h', show k' ≠ k from h' ▸ h]
      · simp [h']

theorem get_set (m : AMap κ ν) (k k' : κ) (v : ν) : get (set m k v) k' = if k' = k then some v else get m k' := by
  rw [set, get_cons]
  have := get_del m k k'
  rw [del] at this
  rw [this]
  by_cases h : k' = k
  · simp [h]
  · simp [h, show k ≠ k' from fun e => h e.symm]

theorem mem_of_get {m : AMap κ ν} {k : κ} {v : ν} (h : get m k = some v) : (k, v) ∈ m := by
  rw [get, Option.map_eq_some_iff] at h
  obtain ⟨⟨a, b⟩, h1, rfl⟩ := h
  have := List.find?_some h1
  simp only [decide_eq_true_eq] at this
  subst this
  exact List.mem_of_find?_eq_some h1

theorem get_of_mem {m : AMap κ ν} {k : κ} {v : ν} (h : (k, v) ∈ m) : ∃ v', get m k = some v' := by
  induction m with
  | nil => cases h
  | cons x m ih =>
    rw [get_cons]
    split
    · exact ⟨_, rfl⟩
    · rename_i hx
      rcases List.mem_cons.1 h with rfl | h
      · exact absurd rfl hx
      · exact ih h

theorem mem_set {m : AMap κ ν} {k : κ} {v : ν} {x : κ × ν} (h : x ∈ set m k v) : x = (k, v) ∨ x ∈ m := by
  rw [set, List.mem_cons, List.mem_filter] at h
  rcases h with h | h
  · exact .inl h
  · exact .inr h.1

theorem mem_entries {m : AMap κ ν} {k : κ} {v : ν} : (k, v) ∈ entries m ↔ get m k = some v := by
  simp only [entries, List.mem_filterMap, Option.map_eq_some_iff, Prod.mk.injEq]
  constructor
  · rintro ⟨x, _, w, h, rfl, rfl⟩
    exact h
  · intro h
    exact ⟨(k, v), mem_of_get h, v, h, rfl, rfl⟩

theorem eq_nil_iff {m : AMap κ ν} : m = [] ↔ ∀ k, get m k = none := by
  constructor
  · rintro rfl k
    rfl
  · intro h
    cases m with
    | nil => rfl
    | cons x m =>
      have := h x.1
      rw [get_cons] at this
      simp at this

section
variable {α : Type} [DecidableEq α]

@[simp] theorem mem_incl {s : List α} {a b : α} : b ∈ incl s a ↔ b ∈ s ∨ b = a := by
  simp only [incl]
  split
  · rename_i h
    constructor
    · exact .inl
    · rintro (h' | rfl)
      · exact h'
      · exact h
  · simp

@[simp] theorem mem_excl {s : List α} {a b : α} : b ∈ excl s a ↔ b ∈ s ∧ b ≠ a := by
  simp [excl, List.mem_filter]

theorem nodup_incl {s : List α} {a : α} (h : s.Nodup) : (incl s a).Nodup := by
  simp only [incl]
  split
  · exact h
  · rename_i h'
    rw [List.nodup_append]
    refine ⟨h, by simp, ?_⟩
    intro x hx y hy
    simp only [List.mem_singleton] at hy
    subst hy
    rintro rfl
    exact h' hx

theorem nodup_excl {s : List α} {a : α} (h : s.Nodup) : (excl s a).Nodup := h.filter _

end

end Verif.Graph
