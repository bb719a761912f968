/-!
# Model of windows over an array – src/hstd/stdlib/Span.hpp, src/hstd/stdlib/algorithms.hpp

Simplifications, for the whole file:
* A pointer is the position of an element of the array, or null.  Nothing is read through a window; whether it is in the
  array is a property.
* `int` does not overflow.
* `assert` ends the program, as in a debug build.
-/

namespace Verif.Window

/-- `Span`: the first element and the number of elements – Span.hpp:12-31 -/
structure Span where
  data : Option Int
  size : Int
deriving DecidableEq

inductive Out (α : Type) where
  | ok (x : α)
  | throws
  | aborts
deriving DecidableEq

/-- `dataAtOffset` – Span.hpp:40-46 -/
def Span.at (s : Span) (offset : Int) : Option Int :=
  match s.data with
  | some p => if offset < s.size then some (p + offset) else none
  | none => none

/-- `clampSize` – Span.hpp:52-62.  The end is not null. -/
def clampSize (size : Int) (data : Option Int) (last : Int) : Out Int :=
  match data with
  | none => .throws
  | some p =>
    if last < p then .throws
    else
      let distance := last - p + 1
      .ok (if size < 0 then 0 else if distance < size then distance else size)

/-- `moveStart` – Span.hpp:66-88 -/
def Span.moveStart (s : Span) (steps : Int) (last : Int) (fixSize : Bool) : Out Span :=
  match s.at steps with
  | some p =>
    match (if fixSize then clampSize s.size (some p) last else clampSize (s.size - steps) (some p) last) with
    | .ok n => if 0 ≤ n ∧ n ≤ s.size then .ok ⟨some p, n⟩ else .aborts
    | .throws => .throws
    | .aborts => .aborts
  | none => .ok ⟨none, 0⟩

/-- `moveEnd` – Span.hpp:93-109 -/
def Span.moveEnd (s : Span) (steps : Int) (last : Int) (fixSize : Bool) : Out Span :=
  let data := if fixSize then s.at steps else s.data
  match clampSize (s.size + steps) data last with
  | .ok n => .ok ⟨data, n⟩
  | .throws => .throws
  | .aborts => .aborts

/-- The loop of `partition` – algorithms.hpp:82-91.  `cur` is the current window with its value; it is empty before the first
element only. -/
def partitionLoop {α β : Type} [DecidableEq β] (f : α → β) (last : Int) : List α → Nat → Option (Span × β) → List Span → Out (List Span)
  | [], _, none, result => .ok result
  | [], _, some (s, _), result => .ok (if 0 < s.size then result ++ [s] else result)
  | x :: r, i, none, result => partitionLoop f last r (i + 1) (some (⟨some i, 1⟩, f x)) result
  | x :: r, i, some (s, v), result =>
    if ¬ 0 < s.size ∨ v ≠ f x then
      partitionLoop f last r (i + 1) (some (⟨some i, 1⟩, f x)) (if 0 < s.size then result ++ [s] else result)
    else
      match s.moveEnd 1 last false with
      | .ok s => partitionLoop f last r (i + 1) (some (s, v)) result
      | .throws => .throws
      | .aborts => .aborts

/-- `partition` – algorithms.hpp:73-96 -/
def partition {α β : Type} [DecidableEq β] (f : α → β) (xs : List α) : Out (List Span) :=
  if xs.isEmpty then .ok [] else partitionLoop f (xs.length - 1) xs 0 none []

end Verif.Window
