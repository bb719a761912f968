import Verif.Select.Spec
import Mathlib.Data.List.Basic
import Mathlib.Data.List.Nodup

/-! # Children and descendants -/

namespace Verif.Select

variable {L : Type}

theorem mem_kidsAt {ks : Doc L false} {p : List Nat} {i f : Nat} {b : At L} :
    (f, b) ∈ kidsAt ks p i ↔ ∃ j, Kid ks j f b.doc ∧ b.pos = p ++ [i + j] := by
  suffices h : ∀ {b' : Bool} (ks : Doc L b') (i : Nat), (hb : b' = false) →
      ((f, b) ∈ kidsAt ks p i ↔ ∃ j, Kid (hb ▸ ks) j f b.doc ∧ b.pos = p ++ [i + j]) from h ks i rfl
  intro b' ks
  induction ks with
  | node l ks ih => intro i hb; simp at hb
  | nil =>
    intro i _
    simp only [kidsAt, List.not_mem_nil, false_iff]
    rintro ⟨j, h, _⟩
    cases h
  | cons g t rest _ ih =>
    intro i _
    simp only [kidsAt, List.mem_cons, ih (i + 1) rfl]
    constructor
    · rintro (h | ⟨j, h1, h2⟩)
      · injection h with h1 h2
        subst h1 h2
        exact ⟨0, .here, rfl⟩
      · exact ⟨j + 1, .there h1, by rw [h2]; congr 2; omega⟩
    · rintro ⟨j, h1, h2⟩
      cases h1 with
      | here =>
        left
        cases b
        simp only [Nat.add_zero] at h2
        rw [h2]
      | @there _ _ _ j' _ _ h1 =>
        right
        exact ⟨j', h1, by rw [h2]; congr 2; omega⟩

theorem mem_subnodes {a b : At L} {f : Nat} : (f, b) ∈ a.subnodes ↔ Child f a b := by
  obtain ⟨p, d⟩ := a
  cases d with
  | node l ks =>
    simp only [At.subnodes, mem_kidsAt, Nat.zero_add, Child]
    constructor
    · rintro ⟨j, h1, h2⟩
      exact ⟨l, ks, j, rfl, h1, h2⟩
    · rintro ⟨l', ks', j, h0, h1, h2⟩
      injection h0 with _ h0
      subst h0
      exact ⟨j, h1, h2⟩

/-- The nodes of the region of `dfs`. -/
theorem mem_dfs {b : Bool} (d : Doc L b) : ∀ (p : List Nat) (i : Nat) (a : At L), a ∈ dfs d p i ↔
    match b, d with
    | true, d => Within ⟨p, d⟩ a
    | false, ks => ∃ j f u, Kid ks j f u ∧ Within ⟨p ++ [i + j], u⟩ a := by
  induction d with
  | node l ks ih =>
    intro p i a
    simp only [dfs, List.mem_cons, ih]
    constructor
    · rintro (rfl | ⟨j, f, u, h1, h2⟩)
      · exact Relation.ReflTransGen.refl
      · rw [Nat.zero_add] at h2
        exact Relation.ReflTransGen.head ⟨f, l, ks, j, rfl, h1, rfl⟩ h2
    · intro h
      rcases Relation.ReflTransGen.cases_head h with h | ⟨b, ⟨f, l', ks', j, h0, h1, h2⟩, h3⟩
      · exact .inl h.symm
      · right
        injection h0 with _ h0
        subst h0
        refine ⟨j, f, b.doc, h1, ?_⟩
        rw [Nat.zero_add, ← h2]
        exact h3
  | nil =>
    intro p i a
    simp only [dfs, List.not_mem_nil, false_iff]
    rintro ⟨j, f, u, h, _⟩
    cases h
  | cons g t rest ih1 ih2 =>
    intro p i a
    simp only [dfs, List.mem_append, ih1, ih2]
    constructor
    · rintro (h | ⟨j, f, u, h1, h2⟩)
      · exact ⟨0, g, t, .here, h⟩
      · refine ⟨j + 1, f, u, .there h1, ?_⟩
        have : i + (j + 1) = i + 1 + j := by omega
        rw [this]
        exact h2
    · rintro ⟨j, f, u, h1, h2⟩
      cases h1 with
      | here => exact .inl h2
      | @there _ _ _ j' _ _ h1 =>
        right
        refine ⟨j', f, u, h1, ?_⟩
        have : i + (j' + 1) = i + 1 + j' := by omega
        rw [← this]
        exact h2

theorem below_iff {a b : At L} : Below a b ↔ ∃ c, IsChild a c ∧ Within c b := by
  rw [Below, Relation.TransGen.head'_iff]
  rfl

theorem mem_subnodesDFS {a b : At L} : b ∈ a.subnodesDFS ↔ Below a b := by
  obtain ⟨p, d⟩ := a
  cases d with
  | node l ks =>
    simp only [At.subnodesDFS, mem_dfs, Nat.zero_add, below_iff]
    constructor
    · rintro ⟨j, f, u, h1, h2⟩
      exact ⟨⟨p ++ [j], u⟩, ⟨f, l, ks, j, rfl, h1, rfl⟩, h2⟩
    · rintro ⟨c, ⟨f, l', ks', j, h0, h1, h2⟩, h3⟩
      injection h0 with _ h0
      subst h0
      exact ⟨j, f, c.doc, h1, by rw [← h2]; exact h3⟩

theorem child_pos {a b : At L} (h : IsChild a b) : ∃ i, b.pos = a.pos ++ [i] := by
  obtain ⟨f, l, ks, i, _, _, h⟩ := h
  exact ⟨i, h⟩

theorem within_pos {a b : At L} (h : Within a b) : a.pos <+: b.pos := by
  induction h with
  | refl => exact List.prefix_refl _
  | tail _ h ih =>
    obtain ⟨i, h⟩ := child_pos h
    rw [h]
    exact ih.trans (List.prefix_append _ _)

theorem below_pos {a b : At L} (h : Below a b) : a.pos <+: b.pos ∧ a.pos ≠ b.pos := by
  obtain ⟨c, h1, h2⟩ := below_iff.1 h
  obtain ⟨i, h1⟩ := child_pos h1
  have h3 := within_pos h2
  rw [h1] at h3
  refine ⟨(List.prefix_append _ _).trans h3, ?_⟩
  intro he
  rw [← he] at h3
  have := h3.length_le
  simp at this
  omega

/-- Positions in a list of children begin with the index of one of them. -/
theorem dfs_kids_pos {ks : Doc L false} {p : List Nat} {i : Nat} {a : At L} (h : a ∈ dfs ks p i) :
    ∃ j, i ≤ j ∧ p ++ [j] <+: a.pos := by
  obtain ⟨j, f, u, _, h⟩ := (mem_dfs ks p i a).1 h
  exact ⟨i + j, by omega, within_pos h⟩

theorem dfs_doc_pos {d : Doc L true} {p : List Nat} {i : Nat} {a : At L} (h : a ∈ dfs d p i) : p <+: a.pos :=
  within_pos ((mem_dfs d p i a).1 h)

/-- No position twice. -/
theorem dfs_nodup {b : Bool} (d : Doc L b) : ∀ (p : List Nat) (i : Nat), ((dfs d p i).map (·.pos)).Nodup := by
  induction d with
  | node l ks ih =>
    intro p i
    simp only [dfs, List.map_cons, List.nodup_cons, List.mem_map, not_exists, not_and]
    refine ⟨?_, ih p 0⟩
    intro a ha he
    obtain ⟨j, _, h⟩ := dfs_kids_pos ha
    rw [he] at h
    have := h.length_le
    simp at this
    omega
  | nil => intro p i; simp [dfs]
  | cons g t rest ih1 ih2 =>
    intro p i
    simp only [dfs, List.map_append, List.nodup_append, ih1, ih2, true_and]
    intro x hx y hy he
    obtain ⟨a, ha, rfl⟩ := List.mem_map.1 hx
    obtain ⟨c, hc, rfl⟩ := List.mem_map.1 hy
    have h1 := dfs_doc_pos ha
    obtain ⟨j, hj, h2⟩ := dfs_kids_pos hc
    rw [he] at h1
    have h3 := List.prefix_of_prefix_length_le h1 h2 (by simp)
    have := List.append_cancel_left (h3.eq_of_length (by simp))
    injection this with this
    omega

/-- The region is closed downwards. -/
theorem dfs_closed {b : Bool} {d : Doc L b} {p : List Nat} {i : Nat} {a c : At L} (ha : a ∈ dfs d p i) (h : Within a c) :
    c ∈ dfs d p i := by
  rw [mem_dfs] at ha ⊢
  cases b with
  | true => exact Relation.ReflTransGen.trans ha h
  | false =>
    obtain ⟨j, f, u, h1, h2⟩ := ha
    exact ⟨j, f, u, h1, Relation.ReflTransGen.trans h2 h⟩

end Verif.Select
