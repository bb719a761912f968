import Verif.Trail.Model

/-!
# Paths

**C180**  After any sequence of `push` and `pop`, a path tracker is the list of the steps that were pushed and not popped:
by its size, its elements, the last one, the vector and a loop over it.
-/

namespace Verif.Trail

variable {α : Type}

/-- What is done with a tracker. -/
inductive Op (α : Type) where
  | push (x : α)
  | pop

/-- What the operations do to a list. -/
def steps : List (Op α) → List α → List α
  | [], xs => xs
  | .push x :: r, xs => steps r (xs ++ [x])
  | .pop :: r, xs => steps r xs.dropLast

/-- What they do to a tracker. -/
def run : List (Op α) → Tracker α → Tracker α
  | [], t => t
  | .push x :: r, t => run r (t.push x)
  | .pop :: r, t => run r t.pop

/-- The tracker holds a list. -/
def Holds (t : Tracker α) (xs : List α) : Prop := t.current = xs.reverse ∧ t.length = xs.length

theorem run_holds (ops : List (Op α)) (t : Tracker α) (xs : List α) (h : Holds t xs) : Holds (run ops t) (steps ops xs) := by
  induction ops generalizing t xs with
  | nil => exact h
  | cons op ops ih =>
    obtain ⟨h1, h2⟩ := h
    cases op with
    | push x => exact ih _ _ ⟨by simp [Tracker.push, h1], by simp [Tracker.push, h2]⟩
    | pop =>
      refine ih _ _ ?_
      unfold Tracker.pop
      rcases List.eq_nil_or_concat xs with rfl | ⟨l, x, rfl⟩
      · rw [h1]; exact ⟨rfl, rfl⟩
      · rw [h1]
        simp only [List.reverse_append, List.reverse_cons, List.reverse_nil, List.nil_append, List.cons_append, List.concat_eq_append]
        exact ⟨by simp, by rw [h2]; simp⟩

theorem valueBack_eq (l : List α) (k : Nat) : valueBack l k = match l[k]? with | some x => .ok x | none => .null := by
  induction l generalizing k with
  | nil => rfl
  | cons x r ih => cases k with
    | zero => rfl
    | succ k => rw [valueBack, ih]; simp

/-- The element of a list at an index, or an exception. -/
def at_ (xs : List α) (i : Int) : Out α :=
  if 0 ≤ i then (match xs[i.toNat]? with | some x => .ok x | none => .outOfRange) else .outOfRange

theorem get_holds {t : Tracker α} {xs : List α} (h : Holds t xs) (i : Int) : t.get i = at_ xs i := by
  obtain ⟨h1, h2⟩ := h
  unfold Tracker.get at_
  by_cases hi : 0 ≤ i
  · rw [if_pos hi]
    by_cases hn : t.length ≤ i
    · rw [if_pos (.inr hn), List.getElem?_eq_none (by omega)]
    · have hlt : i.toNat < xs.length := by omega
      rw [if_neg (by omega), valueBack_eq, h1, List.getElem?_reverse (by omega)]
      rw [show xs.length - 1 - (t.length - 1 - i).toNat = i.toNat by omega, List.getElem?_eq_getElem hlt]
  · rw [if_neg hi, if_pos (by omega)]

theorem nodes_eq (l acc : List α) : nodes l acc = acc ++ l := by
  induction l generalizing acc with
  | nil => simp [nodes]
  | cons x r ih => rw [nodes, ih]; simp

theorem loop_holds {t : Tracker α} {xs : List α} (h : Holds t xs) : ∀ (n : Nat) (i : Nat), i + n = xs.length → ∀ m, n ≤ m →
    t.loop i m = (xs.drop i).map .ok := by
  intro n
  induction n with
  | zero =>
    intro i hi m _
    have e : xs.drop i = [] := List.drop_of_length_le (by omega)
    rw [e]
    cases m with
    | zero => rfl
    | succ m => rw [Tracker.loop, if_pos (by have := h.2; omega)]; rfl
  | succ n ih =>
    intro i hi m hm
    obtain ⟨m, rfl⟩ : ∃ k, m = k + 1 := ⟨m - 1, by omega⟩
    have hlt : i < xs.length := by omega
    rw [Tracker.loop, if_neg (by have := h.2; omega), get_holds h]
    have e := ih (i + 1) (by omega) m (by omega)
    rw [show ((i + 1 : Nat) : Int) = (i : Int) + 1 by omega] at e
    rw [e, List.drop_eq_getElem_cons hlt, List.map_cons]
    congr 1
    unfold at_
    rw [if_pos (by omega)]
    simp [hlt]

/-- **C180** Whatever was pushed and popped, the tracker is the list of the steps. -/
theorem tracker_list (ops : List (Op α)) :
    (run ops .new).size = (steps ops []).length ∧
    ((run ops .new).empty = true ↔ steps ops [] = []) ∧
    (∀ i, (run ops .new).get i = at_ (steps ops []) i) ∧
    (run ops .new).back = (match (steps ops []).getLast? with | some x => .ok x | none => .outOfRange) ∧
    (run ops .new).toVector = steps ops [] ∧
    (∀ m, (steps ops []).length ≤ m → (run ops .new).loop 0 m = (steps ops []).map .ok) := by
  have h := run_holds ops Tracker.new [] ⟨rfl, rfl⟩
  refine ⟨h.2, ?_, get_holds h, ?_, ?_, ?_⟩
  · unfold Tracker.empty
    rw [h.2]
    simp
  · unfold Tracker.back
    rw [h.1]
    rcases List.eq_nil_or_concat (steps ops []) with e | ⟨l, x, e⟩
    · rw [e]; rfl
    · rw [e]; simp
  · unfold Tracker.toVector
    rw [nodes_eq, h.1]
    simp
  · intro m hm
    have := loop_holds h _ 0 (by omega) m hm
    simpa using this

example : (run [.pop, .push 1, .push 2, .pop, .push 3] Tracker.new).toVector = [1, 3] := by decide

end Verif.Trail
