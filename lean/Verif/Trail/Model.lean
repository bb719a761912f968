/-!
# Model of `RecursivePathTracker` – src/hstd/stdlib/RecursivePathTracker.hpp

Simplifications, for the whole file:
* A node that nobody changes and the chain of its parents are a list, the last step first.
* `int` does not overflow.
-/

namespace Verif.Trail

variable {α : Type}

/-- `current` and `length` – RecursivePathTracker.hpp:21-22 -/
structure Tracker (α : Type) where
  current : List α
  length : Int

/-- The result of a function that may throw, or read through a null pointer. -/
inductive Out (α : Type) where
  | ok (x : α)
  | outOfRange
  | null
deriving DecidableEq

/-- The constructor – RecursivePathTracker.hpp:110 -/
def Tracker.new : Tracker α := ⟨[], 0⟩

/-- `push` – RecursivePathTracker.hpp:121-126 -/
def Tracker.push (t : Tracker α) (step : α) : Tracker α := ⟨step :: t.current, t.length + 1⟩

/-- `pop` – RecursivePathTracker.hpp:128-134 -/
def Tracker.pop (t : Tracker α) : Tracker α :=
  match t.current with
  | [] => Tracker.new
  | _ :: parent => ⟨parent, t.length - 1⟩

/-- `size` – RecursivePathTracker.hpp:136 -/
def Tracker.size (t : Tracker α) : Int := t.length

/-- `empty` – RecursivePathTracker.hpp:137 -/
def Tracker.empty (t : Tracker α) : Bool := t.length == 0

/-- The loop of `getNodeAt` and the access to the value – RecursivePathTracker.hpp:33-37 -/
def valueBack : List α → Nat → Out α
  | [], _ => .null
  | x :: _, 0 => .ok x
  | _ :: r, k + 1 => valueBack r k

/-- `operator[]` – RecursivePathTracker.hpp:25-38, 139 -/
def Tracker.get (t : Tracker α) (index : Int) : Out α :=
  if index < 0 ∨ t.length ≤ index then .outOfRange else valueBack t.current (t.length - 1 - index).toNat

/-- `back` – RecursivePathTracker.hpp:141-144 -/
def Tracker.back (t : Tracker α) : Out α :=
  match t.current with
  | [] => .outOfRange
  | x :: _ => .ok x

/-- The first loop of `toVector` – RecursivePathTracker.hpp:153-157 -/
def nodes : List α → List α → List α
  | [], acc => acc
  | x :: r, acc => nodes r (acc ++ [x])

/-- `toVector` – RecursivePathTracker.hpp:146-164 -/
def Tracker.toVector (t : Tracker α) : List α := (nodes t.current []).reverse

/-- A loop from `begin` to `end` – RecursivePathTracker.hpp:41-104, 168-170.  The iterator is an index. -/
def Tracker.loop (t : Tracker α) (index : Int) : Nat → List (Out α)
  | 0 => []
  | n + 1 => if index = t.length then [] else t.get index :: t.loop (index + 1) n

end Verif.Trail
