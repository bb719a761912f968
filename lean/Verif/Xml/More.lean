import Verif.Xml.Read

/-!
# More steps do not change what is read
-/

namespace Verif.Xml
open Verif.Drawer (Text)

theorem attrs_more : ∀ {n : Nat} {t : Text} {x : List (Text × Text) × Text}, readAttrs n t = some x → ∀ m, n ≤ m → readAttrs m t = some x := by
  intro n
  induction n with
  | zero => intro t x h; cases h
  | succ n ih =>
    intro t x h m hm
    obtain ⟨m, rfl⟩ : ∃ k, m = k + 1 := ⟨m - 1, by omega⟩
    rw [readAttrs] at h ⊢
    dsimp only at h ⊢
    split_ifs at h ⊢ with h1 h2 h3
    · exact h
    · revert h
      split
      · exact id
      · exact id
    · revert h
      split
      · split
        · intro h; cases h
        · split_ifs with h4
          · intro h; cases h
          · intro h
            obtain ⟨v, v1, v2⟩ := Option.bind_eq_some_iff.mp h
            obtain ⟨q, q1, q2⟩ := Option.map_eq_some_iff.mp v2
            rw [v1, Option.bind_some, ih q1 m (by omega), ← q2]
            rfl
      · intro h; cases h

theorem content_more : ∀ (n : Nat), (∀ {t : Text} {x}, readContent n t = some x → ∀ m, n ≤ m → readContent m t = some x) ∧
    (∀ {t : Text} {x}, readElement n t = some x → ∀ m, n ≤ m → readElement m t = some x) := by
  intro n
  induction n with
  | zero =>
    constructor
    · intro t x h; rw [readContent] at h; cases h
    · intro t x h; rw [readElement] at h; cases h
  | succ n ih =>
    obtain ⟨ih1, ih2⟩ := ih
    constructor
    · intro t x h m hm
      obtain ⟨m, rfl⟩ : ∃ k, m = k + 1 := ⟨m - 1, by omega⟩
      have key : ∀ {u : Text} {f : List Item × Text → List Item × Text} {x}, (readContent n u).map f = some x → (readContent m u).map f = some x := by
        intro u f x h
        obtain ⟨q, q1, q2⟩ := Option.map_eq_some_iff.mp h
        rw [ih1 q1 m (by omega), ← q2]
        rfl
      rw [readContent] at h ⊢
      dsimp only at h ⊢
      split_ifs at h ⊢ with h1 h2 h3 h4 h5
      · exact h
      · exact h
      · obtain ⟨p, p1, p2⟩ := Option.bind_eq_some_iff.mp h
        rw [p1, Option.bind_some]
        split_ifs at p2 ⊢ with h6
        exact key p2
      · obtain ⟨p, p1, p2⟩ := Option.bind_eq_some_iff.mp h
        rw [p1, Option.bind_some]
        exact key p2
      · obtain ⟨p, p1, p2⟩ := Option.bind_eq_some_iff.mp h
        rw [ih2 p1 m (by omega), Option.bind_some]
        exact key p2
      · obtain ⟨p, p1, p2⟩ := Option.bind_eq_some_iff.mp h
        rw [p1, Option.bind_some]
        exact key p2
    · intro t x h m hm
      obtain ⟨m, rfl⟩ : ∃ k, m = k + 1 := ⟨m - 1, by omega⟩
      rw [readElement] at h ⊢
      split_ifs at h ⊢ with h1
      obtain ⟨p, p1, p2⟩ := Option.bind_eq_some_iff.mp h
      rw [attrs_more p1 m (by omega), Option.bind_some]
      split_ifs at p2 ⊢ with h2 h3
      · exact p2
      · obtain ⟨q, q1, q2⟩ := Option.bind_eq_some_iff.mp p2
        rw [ih1 q1 m (by omega), Option.bind_some]
        exact q2

/-- A text stands for nothing but what is read with some number of steps. -/
theorem stands_only {t : Text} {n : Node} (h : Stands t n) {k : Nat} {l : List Item} {r : Text} (hk : readContent k (lineEnds t) = some (l, r)) : tidyAll l = [item n] := by
  obtain ⟨f, l', h1, h2⟩ := h
  have a := (content_more f).1 h1 (max f k) (Nat.le_max_left _ _)
  have b := (content_more k).1 hk (max f k) (Nat.le_max_right _ _)
  rw [a] at b
  injection b with b
  injection b with b _
  rw [← b]
  exact h2

end Verif.Xml
