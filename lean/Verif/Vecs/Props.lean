import Verif.Vecs.Model
import Mathlib.Tactic.SplitIfs

/-!
# Vectors and loops with indices

* **C201** `at_spec`, `back_spec`, `never_ub`, `get_spec`, `has_spec`, `or_spec`, `array_has_partial`, `array_has_false` – access by position.
* **C202** `resize_at_spec`, `resize_at_throws`, `pop_spec`, `pop_throws`, `push_spec`, `insert_partial`, `insert_false`, `index_spec`, `index_none`, `contains_spec` – changes, and positions of elements.
* **C203** `loop_all`, `loop_stopped`, `loop_rest`, `loop_false` – loops with indices.
-/

namespace Verif.Vecs

variable {α : Type}

/-! ## C201 -/

theorem at_in (xs : List α) (i : Nat) (x : α) (h : xs[i]? = some x) : at' xs i = .ok x := by
  have hlt := (List.getElem?_eq_some_iff.mp h).1
  unfold at' load size
  rw [if_neg (by omega), if_neg (by simp; omega), if_neg (by omega)]
  simp [h]

theorem at_out (xs : List α) (i : Int) (h : i < 0 ∨ xs.length ≤ i) : at' xs i = .throws := by
  unfold at' size
  split_ifs with h1 h2
  · rfl
  · rfl
  · simp at h2; omega

/-- A position is negative, at an element, or too large. -/
theorem cases_pos (xs : List α) (i : Int) : (∃ (n : Nat) (x : α), i = n ∧ xs[n]? = some x) ∨ i < 0 ∨ xs.length ≤ i := by
  by_cases h : i < 0 ∨ xs.length ≤ i
  · exact .inr h
  · left
    exact ⟨i.toNat, xs[i.toNat]'(by omega), by omega, List.getElem?_eq_getElem _⟩

/-- **C201** Access to a position gives the element there; it is an exception if there is none. -/
theorem at_spec (xs : List α) (i : Int) :
    (∀ x, at' xs i = .ok x ↔ 0 ≤ i ∧ xs[i.toNat]? = some x) ∧ (at' xs i = .throws ↔ i < 0 ∨ xs.length ≤ i) := by
  rcases cases_pos xs i with ⟨n, x, rfl, h⟩ | h
  · rw [at_in xs n x h]
    have hlt := (List.getElem?_eq_some_iff.mp h).1
    refine ⟨fun y => ?_, ?_⟩
    · simp [h]
    · simp; omega
  · rw [at_out xs i h]
    refine ⟨fun y => ?_, ?_⟩
    · simp only [reduceCtorEq, false_iff, not_and]
      intro h0
      rw [List.getElem?_eq_none (by omega)]
      simp
    · simpa using h

/-- **C201** The position `k` from the end is that of the vector backwards; the last element has the position 1. -/
theorem back_spec (xs : List α) (k : Int) :
    (∀ x, atBack xs k = .ok x ↔ 1 ≤ k ∧ xs.reverse[(k - 1).toNat]? = some x) ∧ (atBack xs k = .throws ↔ k < 1 ∨ xs.length < k) := by
  unfold atBack index size
  constructor
  · intro x
    rw [(at_spec xs _).1 x]
    by_cases hk : 1 ≤ k ∧ k ≤ xs.length
    · rw [List.getElem?_reverse (by omega), show xs.length - 1 - (k - 1).toNat = ((xs.length : Int) - k).toNat by omega]
      exact and_congr_left fun _ => by omega
    · constructor
      · rintro ⟨h0, hx⟩
        have := (List.getElem?_eq_some_iff.mp hx).1
        omega
      · rintro ⟨h0, hx⟩
        have := (List.getElem?_eq_some_iff.mp hx).1
        rw [List.length_reverse] at this
        omega
  · rw [(at_spec xs _).2]
    omega

/-- **C201** Access never leaves the vector. -/
theorem never_ub (xs : List α) (i : Int) (x : α) :
    at' xs i ≠ .ub ∧ atBack xs i ≠ .ub ∧ get xs i ≠ .ub ∧ getBack xs i ≠ .ub ∧ atOr xs i x ≠ .ub ∧ atOrBack xs i x ≠ .ub := by
  have h : ∀ i, at' xs i ≠ .ub := by
    intro i
    rcases cases_pos xs i with ⟨n, y, rfl, h⟩ | h
    · rw [at_in xs n y h]; simp
    · rw [at_out xs i h]; simp
  have hg : ∀ i, get xs i ≠ .ub := by
    intro i
    unfold get
    have := h i
    split_ifs
    · split
      · simp
      · simp
      · next e => exact absurd e this
    · simp
  have ho : ∀ i, atOr xs i x ≠ .ub := by
    intro i
    unfold atOr
    split_ifs
    · exact h i
    · simp
  exact ⟨h i, h _, hg i, hg _, ho i, ho _⟩

/-- **C201** `has` says if there is an element. -/
theorem has_spec (xs : List α) (i : Int) :
    (has xs i = true ↔ ∃ x, at' xs i = .ok x) ∧ (hasBack xs i = true ↔ ∃ x, atBack xs i = .ok x) := by
  have h : ∀ i, has xs i = true ↔ ∃ x, at' xs i = .ok x := by
    intro i
    unfold has size
    rw [Bool.and_eq_true, decide_eq_true_eq, decide_eq_true_eq]
    rcases cases_pos xs i with ⟨n, x, rfl, h⟩ | h
    · rw [at_in xs n x h]
      have hlt := (List.getElem?_eq_some_iff.mp h).1
      simp; omega
    · rw [at_out xs i h]
      simp; omega
  exact ⟨h i, h _⟩

/-- **C201** `get` gives the element, or an empty option where access is an exception. -/
theorem get_spec (xs : List α) (i : Int) :
    ((∃ x, at' xs i = .ok x ∧ get xs i = .ok (some x)) ∨ (at' xs i = .throws ∧ get xs i = .ok none)) ∧
    ((∃ x, atBack xs i = .ok x ∧ getBack xs i = .ok (some x)) ∨ (atBack xs i = .throws ∧ getBack xs i = .ok none)) := by
  have h : ∀ i, (∃ x, at' xs i = .ok x ∧ get xs i = .ok (some x)) ∨ (at' xs i = .throws ∧ get xs i = .ok none) := by
    intro i
    have hh := (has_spec xs i).1
    unfold get
    rcases cases_pos xs i with ⟨n, x, rfl, hx⟩ | hx
    · left
      have ha := at_in xs n x hx
      refine ⟨x, ha, ?_⟩
      rw [if_pos (hh.mpr ⟨x, ha⟩), ha]
    · right
      have ha := at_out xs i hx
      refine ⟨ha, ?_⟩
      rw [if_neg (fun e => by obtain ⟨x, e⟩ := hh.mp e; rw [ha] at e; simp at e)]
  exact ⟨h i, h _⟩

/-- **C201** `at_or` gives the element, or the other value where access is an exception. -/
theorem or_spec (xs : List α) (i : Int) (y : α) :
    ((∃ x, at' xs i = .ok x ∧ atOr xs i y = .ok x) ∨ (at' xs i = .throws ∧ atOr xs i y = .ok y)) ∧
    ((∃ x, atBack xs i = .ok x ∧ atOrBack xs i y = .ok x) ∨ (atBack xs i = .throws ∧ atOrBack xs i y = .ok y)) := by
  have h : ∀ i, (∃ x, at' xs i = .ok x ∧ atOr xs i y = .ok x) ∨ (at' xs i = .throws ∧ atOr xs i y = .ok y) := by
    intro i
    have hh := (has_spec xs i).1
    unfold atOr
    rcases cases_pos xs i with ⟨n, x, rfl, hx⟩ | hx
    · left
      have ha := at_in xs n x hx
      refine ⟨x, ha, ?_⟩
      rw [if_pos (hh.mpr ⟨x, ha⟩), ha]
    · right
      have ha := at_out xs i hx
      refine ⟨ha, ?_⟩
      rw [if_neg (fun e => by obtain ⟨x, e⟩ := hh.mp e; rw [ha] at e; simp at e)]
  exact ⟨h i, h _⟩

/-- **C201** `has` of an array says if there is an element at a position that is not negative.  Missing: negative positions. -/
theorem array_has_partial (xs : List α) (i : Int) (h : 0 ≤ i) : arrayHas xs i = true ↔ ∃ x, load xs i = .ok x := by
  unfold arrayHas load size
  rw [decide_eq_true_eq, if_neg (by omega)]
  constructor
  · intro hl
    rw [List.getElem?_eq_getElem (show i.toNat < xs.length by omega)]
    exact ⟨_, rfl⟩
  · rintro ⟨x, hx⟩
    rcases Int.lt_or_le i xs.length with hl | hl
    · exact hl
    · rw [List.getElem?_eq_none (by omega)] at hx
      simp at hx

/-- `has` of an array says if there is an element. -/
def ArrayHasStatement : Prop := ∀ (xs : List Nat) (i : Int), arrayHas xs i = true → ∃ x, load xs i = .ok x

/-- **C201** False: an array has all negative positions. -/
theorem array_has_false : ¬ ArrayHasStatement := by
  intro h
  obtain ⟨x, hx⟩ := h [1] (-1) (by decide)
  simp [load] at hx

example : at' [7, 8, 9] 1 = .ok 8 ∧ atBack [7, 8, 9] 1 = .ok 9 ∧ atBack [7, 8, 9] 4 = .throws ∧ get [7, 8, 9] 3 = .ok none ∧ atOrBack [7, 8, 9] 0 5 = .ok 5 := by decide

/-! ## C202 -/

/-- **C202** After `resize_at` there is an element at the position, which is the result; all elements are as before, and those between are the value. -/
theorem resize_at_spec (xs : List α) (i : Nat) (v : α) :
    (∃ x, (resizeAt xs i v).1[i]? = some x ∧ (resizeAt xs i v).2 = .ok x) ∧
    (∀ j, j < xs.length → (resizeAt xs i v).1[j]? = xs[j]?) ∧
    (∀ j, xs.length ≤ j → j ≤ i → (resizeAt xs i v).1[j]? = some v) ∧
    (resizeAt xs i v).1.length = max xs.length (i + 1) := by
  have hget : ∀ ys : List α, i < ys.length → ∃ x, ys[i]? = some x ∧ at' ys i = .ok x := fun ys h =>
    ⟨ys[i], List.getElem?_eq_getElem h, at_in ys i _ (List.getElem?_eq_getElem h)⟩
  unfold resizeAt high size
  dsimp only
  split_ifs with h
  · have hl : (resize xs ((i : Int) + 1).toNat v).length = i + 1 := by
      simp only [resize, List.length_append, List.length_take, List.length_replicate]; omega
    refine ⟨hget _ (by omega), ?_, ?_, by omega⟩
    · intro j hj
      unfold resize
      rw [List.getElem?_append_left (by simp only [List.length_take]; omega), List.getElem?_take_of_lt (by omega)]
    · intro j h1 h2
      unfold resize
      rw [List.getElem?_append_right (by simp only [List.length_take]; omega), List.getElem?_replicate, if_pos (by simp only [List.length_take]; omega)]
  · exact ⟨hget _ (by omega), fun _ _ => rfl, fun j h1 h2 => by omega, by omega⟩

/-- **C202** `resize_at` of a negative position is an exception, and changes nothing. -/
theorem resize_at_throws (xs : List α) (i : Int) (h : i < 0) (v : α) : resizeAt xs i v = (xs, .throws) := by
  unfold resizeAt high size
  dsimp only
  rw [if_neg (by omega), at_out xs i (.inl h)]

/-- **C202** `pop_back_v` takes away the last element, and gives it. -/
theorem pop_spec (xs : List α) (x : α) : popBack (xs ++ [x]) = (xs, .ok x) := by
  unfold popBack
  simp

/-- **C202** `pop_back_v` of an empty vector is an exception. -/
theorem pop_throws : popBack ([] : List α) = ([], .throws) := rfl

/-- **C202** `push_back_idx` puts an element after the others, and gives its position. -/
theorem push_spec (xs : List α) (x : α) : (pushBackIdx xs x).1 = xs ++ [x] ∧ at' (pushBackIdx xs x).1 (pushBackIdx xs x).2 = .ok x := by
  refine ⟨rfl, ?_⟩
  unfold pushBackIdx size
  exact at_in _ _ _ (by simp)

/-- **C202** `insert` puts an element between those before and after a position of the vector.  Missing: other positions. -/
theorem insert_partial (before after : List α) (x : α) : insert (before ++ after) before.length x = .ok (before ++ x :: after) := by
  unfold insert size
  rw [if_pos (by rw [List.length_append]; omega)]
  simp

/-- `insert` at a position that is not in the vector is an exception. -/
def InsertStatement : Prop := ∀ (xs : List Nat) (i : Int) (x : Nat), i < 0 ∨ xs.length < i → insert xs i x = .throws

/-- **C202** False: the position is not checked. -/
theorem insert_false : ¬ InsertStatement := by
  intro h
  have := h [] 1 0 (.inr (by decide))
  revert this
  decide

variable [DecidableEq α]

theorem index_from (xs : List α) (x : α) (p : Nat) :
    (x ∉ xs ∧ indexFrom xs x p = -1) ∨ ∃ before after, xs = before ++ x :: after ∧ x ∉ before ∧ indexFrom xs x p = p + before.length := by
  induction xs generalizing p with
  | nil => left; exact ⟨by simp, rfl⟩
  | cons y xs ih =>
    by_cases hy : y = x
    · right
      refine ⟨[], xs, by rw [hy]; rfl, by simp, ?_⟩
      simp [indexFrom, hy]
    · have e : indexFrom (y :: xs) x p = indexFrom xs x (p + 1) := by rw [indexFrom, if_neg hy]
      rw [e]
      rcases ih (p + 1) with ⟨h1, h2⟩ | ⟨b, a, h1, h2, h3⟩
      · exact .inl ⟨by simp [h1, Ne.symm hy], h2⟩
      · refine .inr ⟨y :: b, a, by rw [h1]; rfl, by simp [h2, Ne.symm hy], ?_⟩
        rw [h3, List.length_cons]
        omega

/-- **C202** `indexOf` gives the position of the first element that is equal. -/
theorem index_spec (before after : List α) (x : α) (h : x ∉ before) : indexOf (before ++ x :: after) x = before.length := by
  rcases index_from (before ++ x :: after) x 0 with ⟨h1, _⟩ | ⟨b, a, h1, h2, h3⟩
  · simp at h1
  · unfold indexOf
    rw [h3]
    have : before.length = b.length := by
      rcases Nat.lt_trichotomy before.length b.length with hl | hl | hl
      · exfalso
        have e : (before ++ x :: after)[before.length]? = some x := by simp
        rw [h1, List.getElem?_append_left hl] at e
        exact h2 (List.mem_of_getElem? e)
      · exact hl
      · exfalso
        have e : (b ++ x :: a)[b.length]? = some x := by simp
        rw [← h1, List.getElem?_append_left hl] at e
        exact h (List.mem_of_getElem? e)
    omega

/-- **C202** `indexOf` gives -1 if there is no equal element. -/
theorem index_none (xs : List α) (x : α) : indexOf xs x = -1 ↔ x ∉ xs := by
  unfold indexOf
  rcases index_from xs x 0 with ⟨h1, h2⟩ | ⟨b, a, h1, _, h3⟩
  · exact ⟨fun _ => h1, fun _ => h2⟩
  · constructor
    · intro h; omega
    · intro h; rw [h1] at h; simp at h

/-- **C202** `contains` says if there is an equal element. -/
theorem contains_spec (xs : List α) (x : α) : contains xs x = true ↔ x ∈ xs := by
  unfold contains
  rw [decide_eq_true_eq, Ne, index_none, Classical.not_not]

example : resizeAt [7] 3 0 = ([7, 0, 0, 0], .ok 0) ∧ resizeAt [7, 8] 0 0 = ([7, 8], .ok 7) ∧ indexOf [5, 6, 6] 6 = 1 ∧ insert [1, 3] 1 2 = .ok [1, 2, 3] := by decide

/-! ## C203 -/

omit [DecidableEq α]

theorem loop_from_all (xs : List α) (n : Nat) : loopFrom xs n (fun _ _ => false) = ((xs.zipIdx n).map (fun p => (p.2, p.1)), []) := by
  induction xs generalizing n with
  | nil => rfl
  | cons x xs ih => simp [loopFrom, ih]

/-- **C203** A loop without a break sees each element with its position, in order. -/
theorem loop_all (xs : List α) : (loop xs fun _ _ => false).1 = xs.zipIdx.map fun p => (p.2, p.1) := by
  unfold loop
  rw [loop_from_all]

theorem loop_from_stopped (before after : List α) (x : α) (n : Nat) (stop : Nat → α → Bool) (hb : ∀ p ∈ before.zipIdx n, stop p.2 p.1 = false)
    (hx : stop (n + before.length) x = true) :
    loopFrom (before ++ x :: after) n stop = (((before ++ [x]).zipIdx n).map (fun p => (p.2, p.1)), x :: after) := by
  induction before generalizing n with
  | nil =>
    simp only [List.length_nil, Nat.add_zero] at hx
    simp [loopFrom, hx]
  | cons y before ih =>
    have h0 := hb (y, n) (by simp)
    dsimp only at h0
    rw [List.cons_append, loopFrom, if_neg (by simp [h0]), ih (n + 1) (fun p hp => hb p (by rw [List.zipIdx_cons]; exact List.mem_cons_of_mem _ hp))
      (by rw [List.length_cons] at hx; rw [← hx]; congr 1; omega)]
    simp

/-- **C203** A loop with a break sees the elements until the break, each with its position. -/
theorem loop_stopped (before after : List α) (x : α) (stop : Nat → α → Bool) (hb : ∀ p ∈ before.zipIdx, stop p.2 p.1 = false)
    (hx : stop before.length x = true) : (loop (before ++ x :: after) stop).1 = (before ++ [x]).zipIdx.map fun p => (p.2, p.1) := by
  unfold loop
  rw [loop_from_stopped before after x 0 stop hb (by rw [Nat.zero_add]; exact hx)]

/-- **C203** After a loop without a break, another one over the same object sees nothing. -/
theorem loop_rest (xs : List α) (stop : Nat → α → Bool) : (loop (loop xs fun _ _ => false).2 stop).1 = [] := by
  unfold loop
  rw [loop_from_all]
  rfl

/-- Two loops over the same object see the same. -/
def LoopStatement : Prop := ∀ (xs : List Nat) (stop : Nat → Nat → Bool), (loop (loop xs stop).2 fun _ _ => false).1 = xs.zipIdx.map fun p => (p.2, p.1)

/-- **C203** False: the object keeps the position of the first loop. -/
theorem loop_false : ¬ LoopStatement := by
  intro h
  have := h [7, 8] (fun i _ => i = 1)
  revert this
  decide

example : (loop [7, 8, 9] fun i _ => i = 1).1 = [(0, 7), (1, 8)] ∧ (loop (loop [7, 8, 9] fun i _ => i = 1).2 fun _ _ => false).1 = [(0, 8), (1, 9)] := by decide

end Verif.Vecs
