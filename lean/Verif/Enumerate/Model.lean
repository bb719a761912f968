/-!
# Model of loops with positions – src/hstd/stdlib/Enumerate.hpp

Simplifications, for the whole file:
* The iterators are those of an array: a position, and an element if the position is in the array.  To read anywhere else,
  or to move past the end, is undefined behaviour.
* `int` does not overflow.
-/

namespace Verif.Enumerate

/-- What a call can do. -/
inductive Out (α : Type) where
  | ok (x : α)
  | throws
  | ub
deriving DecidableEq

/-- `std::clamp` -/
def clamp (x lo hi : Int) : Int := if x < lo then lo else if hi < x then hi else x

/-- The position `begin` has – Enumerate.hpp:101-112 -/
def beginPos (n : Nat) (skipFirst : Int) : Nat := (clamp skipFirst 0 n).toNat

/-- The position `end` has – Enumerate.hpp:114-124 -/
def endPos (n : Nat) (skipLast : Int) : Nat := n - (clamp skipLast 0 n).toNat

/-- `size` – Enumerate.hpp:31-34 -/
def size (n : Nat) (skipFirst skipLast : Int) : Int := n - skipFirst - skipLast

/-- What a step of the loop can ask – Enumerate.hpp:22-34, 66 -/
structure Visit (α : Type) where
  index : Int
  value : α
  isFirst : Bool
  isLast : Bool
  size : Int
  baseIndex : Int
deriving DecidableEq

/-- `item` – Enumerate.hpp:22-67 -/
def visit {α : Type} (n : Nat) (skipFirst skipLast : Int) (idx : Nat) (x : α) : Visit α where
  index := idx
  value := x
  isFirst := decide ((idx : Int) = 0)
  isLast := decide ((idx : Int) = size n skipFirst skipLast - 1)
  size := size n skipFirst skipLast
  baseIndex := idx + skipFirst

/-- The loop from a position: `!=`, `*` and `++` – Enumerate.hpp:69-77 -/
def loop {α : Type} (xs : List α) (skipFirst skipLast : Int) (stop pos idx : Nat) : Out (List (Visit α)) :=
  if pos = stop then .ok []
  else if h : pos < xs.length then
    match loop xs skipFirst skipLast stop (pos + 1) (idx + 1) with
    | .ok r => .ok (visit xs.length skipFirst skipLast idx xs[pos] :: r)
    | .throws => .throws
    | .ub => .ub
  else .ub
termination_by xs.length - pos

/-- `for (auto const& it : enumerator(xs).skip_first(a).skip_last(b))` -/
def run {α : Type} (xs : List α) (skipFirst skipLast : Int) : Out (List (Visit α)) :=
  loop xs skipFirst skipLast (endPos xs.length skipLast) (beginPos xs.length skipFirst) 0

/-- An element of the array. -/
def read {α : Type} (xs : List α) (pos : Int) : Out α :=
  if pos < 0 then .ub else match xs[pos.toNat]? with
    | some x => .ok x
    | none => .ub

/-- `check_offset` – Enumerate.hpp:36-43 -/
def inside (n : Nat) (skipFirst skipLast : Int) (idx : Nat) (offset : Int) : Bool :=
  decide (0 ≤ (idx : Int) + offset) && decide ((idx : Int) + offset < size n skipFirst skipLast)

/-- `next`, in the step with the given index – Enumerate.hpp:50-53, 60-63 -/
def next {α : Type} (xs : List α) (skipFirst skipLast : Int) (idx : Nat) (offset : Int) : Out α :=
  if inside xs.length skipFirst skipLast idx offset then read xs (beginPos xs.length skipFirst + idx + offset) else .throws

/-- `prev` – Enumerate.hpp:45-48, 55-58.  The same check is made as in `next`. -/
def prev {α : Type} (xs : List α) (skipFirst skipLast : Int) (idx : Nat) (offset : Int) : Out α :=
  if inside xs.length skipFirst skipLast idx offset then read xs (beginPos xs.length skipFirst + idx - offset) else .throws

end Verif.Enumerate
