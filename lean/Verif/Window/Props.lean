import Verif.Window.Model
import Mathlib.Tactic.SplitIfs

/-!
# Windows over an array

**C177**  `moveStart` and `moveEnd` move the start and the end of a window, within the array; with a fixed size the window
moves and keeps its size up to the end of the array.
* `start_partial` – the start, forwards.
* `end_moves` – the end, in both directions.
* `end_fixed_false` – with a fixed size `moveEnd` changes the size.
* `start_back_false` – moving the start back leaves the array or ends the program.

**C178**  `partition` gives the maximal runs of elements with the same value, in order.
-/

namespace Verif.Window

/-- The elements of an array of `n` elements from `a` on, before `b`. -/
def Covers (s : Span) (a b : Int) : Prop := s.size = b - a ∧ (a < b → s.data = some a)

/-- A window in an array. -/
def Inside (s : Span) (n : Nat) : Prop := s.size = 0 ∨ ∃ p, s.data = some p ∧ 0 ≤ p ∧ 0 < s.size ∧ p + s.size ≤ n

/-! ## C177 -/

theorem clamp_ok (size p last : Int) (h : 0 ≤ size) (hp : p ≤ last) : clampSize size (some p) last = .ok (min size (last - p + 1)) := by
  unfold clampSize
  dsimp only
  rw [if_neg (by omega), if_neg (by omega)]
  congr 1
  split_ifs <;> omega

/-- **C177** `moveStart` forwards: the end stays, or the size as far as there are elements.  A window that is left is empty. -/
theorem start_partial (n : Nat) (p size k : Int) (fixed : Bool) (hp : 0 ≤ p) (hs : 0 ≤ size) (hn : p + size ≤ n) (hk : 0 ≤ k) :
    ∃ s, (Span.mk (some p) size).moveStart k (n - 1) fixed = .ok s ∧
      (if k < size then Covers s (p + k) (if fixed then min (p + k + size) n else p + size) else s.size = 0) ∧ Inside s n := by
  unfold Span.moveStart Span.at
  dsimp only
  by_cases h : k < size
  · rw [if_pos h]
    dsimp only
    cases fixed with
    | true =>
      rw [if_pos rfl, clamp_ok size (p + k) (n - 1) hs (by omega)]
      dsimp only
      rw [if_pos (by omega)]
      refine ⟨⟨some (p + k), min size (n - 1 - (p + k) + 1)⟩, rfl, ?_, ?_⟩
      · rw [if_pos h, if_pos rfl]; exact ⟨by dsimp only; omega, fun _ => rfl⟩
      · exact .inr ⟨p + k, rfl, by omega, by dsimp only; omega, by dsimp only; omega⟩
    | false =>
      rw [if_neg (by simp), clamp_ok (size - k) (p + k) (n - 1) (by omega) (by omega)]
      dsimp only
      rw [if_pos (by omega)]
      refine ⟨⟨some (p + k), min (size - k) (n - 1 - (p + k) + 1)⟩, rfl, ?_, ?_⟩
      · rw [if_pos h, if_neg (by simp)]; exact ⟨by dsimp only; omega, fun _ => rfl⟩
      · exact .inr ⟨p + k, rfl, by omega, by dsimp only; omega, by dsimp only; omega⟩
  · rw [if_neg h]
    refine ⟨_, rfl, ?_, .inl rfl⟩
    rw [if_neg h]

/-- **C177** `moveEnd`, by any number of steps: the start stays, and the end stays between the start and the end of the array. -/
theorem end_moves (n : Nat) (p size k : Int) (hp : 0 ≤ p) (h0 : p < n) :
    ∃ s, (Span.mk (some p) size).moveEnd k (n - 1) false = .ok s ∧ Covers s p (max p (min (p + size + k) n)) ∧ Inside s n := by
  unfold Span.moveEnd clampSize
  dsimp only
  rw [if_neg (by simp)]
  dsimp only
  rw [if_neg (by omega)]
  dsimp only
  by_cases h1 : size + k < 0
  · rw [if_pos h1]
    exact ⟨_, rfl, ⟨by dsimp only; omega, fun h => rfl⟩, .inl rfl⟩
  · rw [if_neg h1]
    by_cases h2 : (n : Int) - 1 - p + 1 < size + k
    · rw [if_pos h2]
      exact ⟨_, rfl, ⟨by dsimp only; omega, fun h => rfl⟩, .inr ⟨p, rfl, hp, by dsimp only; omega, by dsimp only; omega⟩⟩
    · rw [if_neg h2]
      refine ⟨_, rfl, ⟨by dsimp only; omega, fun h => rfl⟩, ?_⟩
      by_cases h3 : size + k = 0
      · exact .inl h3
      · exact .inr ⟨p, rfl, hp, by dsimp only; omega, by dsimp only; omega⟩

example : (Span.mk (some 1) 3).moveStart 2 4 true = .ok ⟨some 3, 2⟩ ∧ (Span.mk (some 1) 3).moveStart 2 4 false = .ok ⟨some 3, 1⟩ ∧
    (Span.mk (some 1) 3).moveEnd 5 4 false = .ok ⟨some 1, 4⟩ := by decide

/-- **C177**, the property for `moveEnd` with a fixed size: the window moves by the steps. -/
def EndFixedStatement : Prop := ∀ (n : Nat) (p size k : Int), 0 ≤ p → 0 ≤ size → 0 ≤ k → k < size → p + size + k ≤ n →
  ∃ s, (Span.mk (some p) size).moveEnd k (n - 1) true = .ok s ∧ Covers s (p + k) (p + k + size)

/-- The size is changed too: of four elements, the window over the first two becomes the last three. -/
theorem end_fixed_false : ¬ EndFixedStatement := by
  intro h
  obtain ⟨s, h1, h2⟩ := h 4 0 2 1 (by decide) (by decide) (by decide) (by decide) (by decide)
  have : (Span.mk (some 0) 2).moveEnd 1 ((4 : Nat) - 1) true = .ok ⟨some 1, 3⟩ := by decide
  rw [this] at h1
  injection h1 with h1
  subst h1
  have := h2.1
  revert this
  decide

/-- **C177**, the property for moving back. -/
def BackStatement : Prop := ∀ (n : Nat) (p size k : Int) (fixed : Bool), 0 ≤ p → 0 ≤ size → p + size ≤ n →
  ∃ s, (Span.mk (some p) size).moveStart k (n - 1) fixed = .ok s ∧ Inside s n

/-- The start of the array is not checked. -/
theorem start_back_false : ¬ BackStatement := by
  intro h
  obtain ⟨s, h1, h2⟩ := h 4 0 2 (-1) true (by decide) (by decide) (by decide)
  have : (Span.mk (some 0) 2).moveStart (-1) ((4 : Nat) - 1) true = .ok ⟨some (-1), 2⟩ := by decide
  rw [this] at h1
  injection h1 with h1
  subst h1
  rcases h2 with h | ⟨p, h, h', _⟩
  · revert h; decide
  · injection h with h; subst h; revert h'; decide

/-- Nor is it possible to make a window larger at its start. -/
theorem start_back_aborts : (Span.mk (some 1) 2).moveStart (-1) 3 false = .aborts := by decide

/-! ## C178 -/

/-- Windows one after the other, from one position to another, none of them empty. -/
def Chain : List Span → Nat → Nat → Prop
  | [], a, b => a = b
  | s :: r, a, b => ∃ m, a < m ∧ s = ⟨some a, (m : Int) - a⟩ ∧ Chain r m b

/-- All elements of the window have a value. -/
def Same {α β : Type} (f : α → β) (xs : List α) (s : Span) (v : β) : Prop :=
  ∀ p i, s.data = some p → p ≤ (i : Nat) → (i : Int) < p + s.size → xs[i]?.map f = some v

/-- Each window has a value, and the next window has another. -/
def Runs {α β : Type} (f : α → β) (xs : List α) : List Span → Prop
  | [] => True
  | [s] => ∃ v, Same f xs s v
  | s :: s' :: r => (∃ v v', Same f xs s v ∧ Same f xs s' v' ∧ v ≠ v') ∧ Runs f xs (s' :: r)

theorem chain_append {l : List Span} {a b : Nat} (h : Chain l a b) {c : Nat} (hc : b < c) : Chain (l ++ [⟨some b, (c : Int) - b⟩]) a c := by
  induction l generalizing a with
  | nil => cases h; exact ⟨c, hc, rfl, rfl⟩
  | cons s r ih =>
    obtain ⟨m, h1, h2, h3⟩ := h
    exact ⟨m, h1, h2, ih h3⟩

theorem runs_append {α β : Type} {f : α → β} {xs : List α} {l : List Span} {s t : Span} (h : Runs f xs (l ++ [s]))
    (hv : ∃ v v', Same f xs s v ∧ Same f xs t v' ∧ v ≠ v') : Runs f xs (l ++ [s] ++ [t]) := by
  induction l with
  | nil =>
    obtain ⟨v, v', h1, h2, h3⟩ := hv
    exact ⟨⟨v, v', h1, h2, h3⟩, ⟨v', h2⟩⟩
  | cons a l ih =>
    cases l with
    | nil => exact ⟨h.1, ih h.2⟩
    | cons b l => exact ⟨h.1, ih h.2⟩

theorem loop_runs {α β : Type} [DecidableEq β] (f : α → β) (xs : List α) : ∀ (r done : List α) (l : List Span) (a : Nat) (v : β),
    xs = done ++ r → a < done.length → Chain l 0 a → Runs f xs (l ++ [⟨some a, (done.length : Int) - a⟩]) →
    Same f xs ⟨some a, (done.length : Int) - a⟩ v →
    ∃ res, partitionLoop f (xs.length - 1) r done.length (some (⟨some a, (done.length : Int) - a⟩, v)) l = .ok res ∧ Chain res 0 xs.length ∧ Runs f xs res := by
  intro r
  induction r with
  | nil =>
    intro done l a v hx ha hc hr hs
    rw [List.append_nil] at hx
    subst hx
    rw [partitionLoop, if_pos (by dsimp only; omega)]
    exact ⟨_, rfl, chain_append hc ha, hr⟩
  | cons x r ih =>
    intro done l a v hx ha hc hr hs
    have hx' : xs = (done ++ [x]) ++ r := by rw [hx, List.append_assoc]; rfl
    have hget : xs[done.length]?.map f = some (f x) := by rw [hx]; simp
    have hlen : done.length < xs.length := by rw [hx]; simp
    have hl1 : (done ++ [x]).length = done.length + 1 := by simp
    rw [partitionLoop]
    by_cases hv : v = f x
    · rw [if_neg (by dsimp only; simp only [not_or, Decidable.not_not]; exact ⟨by omega, hv⟩)]
      obtain ⟨s, s1, s2, s3⟩ := end_moves xs.length a ((done.length : Int) - a) 1 (by omega) (by omega)
      have es : s = ⟨some (a : Int), ((done ++ [x]).length : Int) - a⟩ := by
        obtain ⟨c1, c2⟩ := s2
        have h2 := c2 (by omega)
        cases s with
        | mk d z =>
          simp only at h2 c1
          rw [h2, c1, hl1]
          congr 1
          omega
      rw [s1]
      dsimp only
      rw [es]
      rw [← hl1]
      have same' : Same f xs ⟨some (a : Int), ((done ++ [x]).length : Int) - a⟩ v := by
        intro p i hp hi hi2
        injection hp with hp
        subst hp
        rw [hl1] at hi2
        by_cases h : i < done.length
        · exact hs a i rfl hi (by dsimp only; omega)
        · have : i = done.length := by dsimp only at hi2; omega
          subst this
          rw [hv]; exact hget
      apply ih (done ++ [x]) l a v hx' (by omega) hc _ same'
      -- the last window of the runs is replaced by a longer one with the same value
      have repl : ∀ (l : List Span) (s t : Span), (∀ w, Same f xs s w → Same f xs t w) → Runs f xs (l ++ [s]) → Runs f xs (l ++ [t]) := by
        intro l s t hst
        induction l with
        | nil => rintro ⟨w, hw⟩; exact ⟨w, hst w hw⟩
        | cons b l ihl =>
          cases l with
          | nil =>
            rintro ⟨⟨w, w', h1, h2, h3⟩, h4⟩
            exact ⟨⟨w, w', h1, hst _ h2, h3⟩, ihl h4⟩
          | cons c l => rintro ⟨h1, h2⟩; exact ⟨h1, ihl h2⟩
      refine repl l _ _ ?_ hr
      intro w hw
      have h1 := hw a a rfl (by omega) (by dsimp only; omega)
      have h2 := hs a a rfl (by omega) (by dsimp only; omega)
      rw [h1] at h2
      injection h2 with h2
      subst h2
      exact same'
    · rw [if_pos (.inr hv), if_pos (by dsimp only; omega)]
      have es : (⟨some ((done.length : Nat) : Int), 1⟩ : Span) = ⟨some ((done.length : Nat) : Int), ((done ++ [x]).length : Int) - (done.length : Nat)⟩ := by
        congr 1
        rw [hl1]; omega
      rw [es, ← hl1]
      have same' : Same f xs ⟨some ((done.length : Nat) : Int), ((done ++ [x]).length : Int) - (done.length : Nat)⟩ (f x) := by
        intro p i hp hi hi2
        injection hp with hp
        subst hp
        rw [hl1] at hi2
        have : i = done.length := by dsimp only at hi2; omega
        subst this
        exact hget
      exact ih (done ++ [x]) _ done.length (f x) hx' (by omega) (chain_append hc ha) (runs_append hr ⟨v, f x, hs, same', hv⟩) same'

/-- **C178** The windows of `partition` cover the elements one after the other, none is empty, the elements of a window have
the same value, and those of the next window have another. -/
theorem partition_runs {α β : Type} [DecidableEq β] (f : α → β) (xs : List α) :
    ∃ res, partition f xs = .ok res ∧ Chain res 0 xs.length ∧ Runs f xs res := by
  unfold partition
  cases xs with
  | nil => exact ⟨[], rfl, rfl, trivial⟩
  | cons x r =>
    rw [if_neg (by simp), partitionLoop]
    have same : Same f (x :: r) ⟨some ((0 : Nat) : Int), (([x] : List α).length : Int) - (0 : Nat)⟩ (f x) := by
      intro p i hp hi hi2
      injection hp with hp
      subst hp
      have : i = 0 := by simp at hi2; omega
      subst this
      rfl
    exact loop_runs f (x :: r) r [x] [] 0 (f x) rfl (by simp) rfl ⟨f x, same⟩ same

example : partition (fun n : Nat => n % 2) [1, 3, 2, 4, 6, 5] = .ok [⟨some 0, 2⟩, ⟨some 2, 3⟩, ⟨some 5, 1⟩] := by decide

end Verif.Window
