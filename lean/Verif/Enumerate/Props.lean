import Verif.Enumerate.Model

/-!
# Loops with positions

**C174**  A loop over a sequence without its first `a` and last `b` elements visits the others in order, with their positions.
* `loop_partial` – it does if `a + b` is at most the length.
* `loop_exact` – for which `a` and `b` the loop stays in the sequence.
* `loop_false` – otherwise it runs out of the sequence.

**C175**  `next` and `prev` give the elements after and before, and throw if there are none.
* `next_value` – `next` does.
* `prev_partial` – `prev` does if there are as many elements after the current one.
* `prev_false`, `prev_late` – otherwise it reads before the sequence, or throws though there is an element.
-/

namespace Verif.Enumerate

variable {α : Type}

/-- What the loop should visit: the positions of the elements that are not skipped. -/
def Visits (xs : List α) (a b : Nat) (l : List (Visit α)) : Prop :=
  l.length = xs.length - a - b ∧ ∀ i, i < l.length → ∃ v, l[i]? = some v ∧ xs[a + i]? = some v.value ∧ v.index = i ∧ v.baseIndex = a + i ∧
    v.size = l.length ∧ (v.isFirst = true ↔ i = 0) ∧ (v.isLast = true ↔ i + 1 = l.length)

theorem beginPos_nat (n a : Nat) : beginPos n (a : Int) = min a n := by
  unfold beginPos clamp
  split <;> try split
  all_goals omega

theorem endPos_nat (n b : Nat) : endPos n (b : Int) = n - min b n := by
  unfold endPos clamp
  split <;> try split
  all_goals omega

theorem loop_ok (xs : List α) (a b : Int) (stop : Nat) (hs : stop ≤ xs.length) : ∀ k pos idx, pos + k = stop →
    ∃ l, loop xs a b stop pos idx = .ok l ∧ l.length = k ∧ ∀ i, i < k → ∃ x, xs[pos + i]? = some x ∧ l[i]? = some (visit xs.length a b (idx + i) x) := by
  intro k
  induction k with
  | zero =>
    intro pos idx h
    exact ⟨[], by rw [loop, if_pos (by omega)], rfl, fun i hi => by omega⟩
  | succ k ih =>
    intro pos idx h
    obtain ⟨l, h1, h2, h3⟩ := ih (pos + 1) (idx + 1) (by omega)
    refine ⟨_, by rw [loop, if_neg (by omega), dif_pos (by omega), h1], by simp [h2], ?_⟩
    intro i hi
    cases i with
    | zero => exact ⟨xs[pos], by simp, by simp⟩
    | succ i =>
      obtain ⟨x, x1, x2⟩ := h3 i (by omega)
      refine ⟨x, ?_, ?_⟩
      · rw [← x1]; congr 1; omega
      · rw [List.getElem?_cons_succ, x2]; congr 2; omega

/-- **C174**, the property. -/
def LoopStatement : Prop := ∀ (α : Type) (xs : List α) (a b : Nat), ∃ l, run xs a b = .ok l ∧ Visits xs a b l

/-- **C174**, if not more elements are skipped than there are. -/
theorem loop_partial (xs : List α) (a b : Nat) (h : a + b ≤ xs.length) : ∃ l, run xs a b = .ok l ∧ Visits xs a b l := by
  unfold run
  rw [beginPos_nat, endPos_nat]
  obtain ⟨l, h1, h2, h3⟩ := loop_ok xs a b (xs.length - min b xs.length) (by omega) (xs.length - a - b) (min a xs.length) 0 (by omega)
  refine ⟨l, h1, h2, fun i hi => ?_⟩
  obtain ⟨x, x1, x2⟩ := h3 i (by omega)
  rw [Nat.min_eq_left (by omega)] at x1
  refine ⟨_, x2, x1, ?_, ?_, ?_, ?_, ?_⟩
  · simp [visit]
  · simp [visit]; omega
  · simp only [visit, size, h2]; omega
  · simp only [visit, decide_eq_true_eq]; omega
  · show decide (((0 + i : Nat) : Int) = (xs.length : Int) - a - b - 1) = true ↔ _
    rw [decide_eq_true_iff, h2]
    omega

theorem loop_past (xs : List α) (a b : Int) (stop : Nat) : ∀ k pos idx, pos + k = xs.length → stop < pos → loop xs a b stop pos idx = .ub := by
  intro k
  induction k with
  | zero =>
    intro pos idx h hs
    rw [loop, if_neg (by omega), dif_neg (by omega)]
  | succ k ih =>
    intro pos idx h hs
    rw [loop, if_neg (by omega), dif_pos (by omega), ih (pos + 1) (idx + 1) (by omega) (by omega)]

/-- The loop stays in the sequence exactly if the skipped parts do not overlap. -/
theorem loop_exact (xs : List α) (a b : Nat) : run xs a b = .ub ↔ xs.length < min a xs.length + min b xs.length := by
  unfold run
  rw [beginPos_nat, endPos_nat]
  constructor
  · intro h
    apply Decidable.byContradiction
    intro k
    obtain ⟨l, h1, _⟩ := loop_ok xs a b (xs.length - min b xs.length) (by omega) (xs.length - min b xs.length - min a xs.length) (min a xs.length) 0 (by omega)
    rw [h1] at h
    cases h
  · intro h
    exact loop_past xs a b _ (xs.length - min a xs.length) _ 0 (by omega) (by omega)

/-- **C174** is false: one element, which is skipped as the first and as the last. -/
theorem loop_false : ¬ LoopStatement := by
  intro h
  obtain ⟨l, h1, _⟩ := h Nat [7] 1 1
  have : run [7] ((1 : Nat) : Int) ((1 : Nat) : Int) = .ub := (loop_exact [7] 1 1).mpr (by decide)
  rw [this] at h1
  cases h1

/-- With a negative number the last element is not seen as the last. -/
theorem loop_negative : run ['x'] (-1) 0 = .ok [⟨0, 'x', true, false, 2, -1⟩] := by
  unfold run
  rw [loop, if_neg (by decide), dif_pos (by decide), loop, if_pos (by decide)]
  rfl

/-- Four elements, the first and the last skipped. -/
example : ∃ l, run "abcd".toList ((1 : Nat) : Int) ((1 : Nat) : Int) = .ok l ∧ Visits "abcd".toList 1 1 l := loop_partial _ 1 1 (by decide)

/-! ## C175 -/

/-- The element at some offset of the one with the given index, if it is not skipped. -/
def neighbour (xs : List α) (a b idx : Nat) (offset : Int) : Option α :=
  if 0 ≤ (idx : Int) + offset ∧ (idx : Int) + offset < (xs.length : Int) - a - b then xs[((a : Int) + idx + offset).toNat]? else none

/-- Found, or not. -/
def given : Option α → Out α
  | some x => .ok x
  | none => .throws

theorem read_at {xs : List α} {p : Int} (h0 : 0 ≤ p) (h1 : p < xs.length) : read xs p = given xs[p.toNat]? := by
  unfold read
  rw [if_neg (by omega)]
  have : p.toNat < xs.length := by omega
  rw [List.getElem?_eq_getElem this]
  rfl

/-- **C175** for `next`, with any offset. -/
theorem next_value (xs : List α) (a b idx : Nat) (offset : Int) (h : a + b ≤ xs.length) :
    next xs a b idx offset = given (neighbour xs a b idx offset) := by
  unfold next neighbour inside size
  rw [beginPos_nat, Nat.min_eq_left (by omega)]
  by_cases hc : 0 ≤ (idx : Int) + offset ∧ (idx : Int) + offset < (xs.length : Int) - a - b
  · rw [if_pos (by simp [hc.1, hc.2]), if_pos hc, read_at (by omega) (by omega)]
  · rw [if_neg (by simpa using hc), if_neg hc]
    rfl

/-- **C175** for `prev`, the property. -/
def PrevStatement : Prop := ∀ (α : Type) (xs : List α) (a b idx : Nat) (offset : Int), a + b ≤ xs.length → (idx : Int) < (xs.length : Int) - a - b →
  prev xs a b idx offset = given (neighbour xs a b idx (-offset))

/-- **C175** for `prev`, if the offset leads to elements on both sides. -/
theorem prev_partial (xs : List α) (a b idx : Nat) (offset : Int) (h : a + b ≤ xs.length)
    (h1 : 0 ≤ (idx : Int) - offset ∧ (idx : Int) - offset < (xs.length : Int) - a - b)
    (h2 : 0 ≤ (idx : Int) + offset ∧ (idx : Int) + offset < (xs.length : Int) - a - b) :
    prev xs a b idx offset = given (neighbour xs a b idx (-offset)) := by
  unfold prev neighbour inside size
  rw [beginPos_nat, Nat.min_eq_left (by omega), if_pos (by simp [h2.1, h2.2]), if_pos (by omega), read_at (by omega) (by omega)]
  congr 2

/-- In the first step the element before the sequence is read. -/
theorem prev_false : ¬ PrevStatement := by
  intro h
  have := h Nat [1, 2] 0 0 0 1 (by decide) (by decide)
  revert this
  decide

/-- In the last step there is an exception, though there is an element before. -/
theorem prev_late : prev [1, 2] 0 0 1 1 = .throws ∧ neighbour [1, 2] 0 0 1 (-1) = some 1 := by decide

example : next [1, 2, 3] ((1 : Nat) : Int) ((0 : Nat) : Int) 0 1 = .ok 3 ∧ prev [1, 2, 3] 0 0 1 1 = .ok 1 := by decide

end Verif.Enumerate
