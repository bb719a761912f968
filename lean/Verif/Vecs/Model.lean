/-!
# Model of vectors and loops with indices – src/hstd/stdlib/Vec.hpp, Array.hpp, sequtils.hpp

Simplifications, for the whole file:
* A vector is the list of its elements; a reference is the element.  Numbers are unbounded.
* `throws` is an exception (`range_error`), `ub` an access outside of the memory of the vector.
* Slices of vectors are in `Verif/Base`.
-/

namespace Verif.Vecs

variable {α : Type}

/-- The result of an operation. -/
inductive Out (β : Type) where
  | ok (v : β)
  | throws
  | ub
deriving DecidableEq

/-- `size` – Vec.hpp:306 -/
def size (xs : List α) : Int := xs.length

/-- `high` – Vec.hpp:62 -/
def high (xs : List α) : Int := size xs - 1

/-- `has` – Vec.hpp:81 -/
def has (xs : List α) (idx : Int) : Bool := 0 ≤ idx && idx < size xs

/-- `index` of a position from the end – Vec.hpp:147 -/
def index (xs : List α) (back : Int) : Int := size xs - back

/-- `has` of a position from the end – Vec.hpp:82-84 -/
def hasBack (xs : List α) (back : Int) : Bool := has xs (size xs - back)

/-- `Base::at`, `Base::operator[]` after `checkIdx`: the memory at a position -/
def load (xs : List α) (idx : Int) : Out α :=
  if idx < 0 then .ub else match xs[idx.toNat]? with
    | some x => .ok x
    | none => .ub

/-- `at`, `operator[]` – Vec.hpp:51-59, 327-345 -/
def at' (xs : List α) (idx : Int) : Out α :=
  if idx < 0 then .throws
  else if !(idx < size xs : Bool) then .throws
  else load xs idx

/-- `at` of a position from the end – Vec.hpp:153-157 -/
def atBack (xs : List α) (back : Int) : Out α := at' xs (index xs back)

/-- `get_copy`; `get` is the same for references – Vec.hpp:89-113.  A `none` in `ok` is an empty option. -/
def get (xs : List α) (idx : Int) : Out (Option α) :=
  if has xs idx then match at' xs idx with
    | .ok x => .ok (some x)
    | .throws => .throws
    | .ub => .ub
  else .ok none

/-- `get` of a position from the end – Vec.hpp:117-128 -/
def getBack (xs : List α) (back : Int) : Out (Option α) := get xs (index xs back)

/-- `at_or` – Vec.hpp:159-165 -/
def atOr (xs : List α) (idx : Int) (fallback : α) : Out α := if has xs idx then at' xs idx else .ok fallback

/-- `at_or` of a position from the end – Vec.hpp:177-179 -/
def atOrBack (xs : List α) (back : Int) (fallback : α) : Out α := atOr xs (index xs back) fallback

/-- `Array::has` – Array.hpp:34 -/
def arrayHas (xs : List α) (idx : Int) : Bool := idx < size xs

/-- `std::vector::resize` -/
def resize (xs : List α) (n : Nat) (value : α) : List α := xs.take n ++ List.replicate (n - xs.length) value

/-- `resize_at`: the vector after it, and the element – Vec.hpp:219-230 -/
def resizeAt (xs : List α) (idx : Int) (value : α) : List α × Out α :=
  let xs := if high xs < idx then resize xs (idx + 1).toNat value else xs
  (xs, at' xs idx)

/-- `pop_back_v` – Vec.hpp:45-49, 209-216 -/
def popBack (xs : List α) : List α × Out α :=
  match xs.getLast? with
  | none => (xs, .throws)
  | some x => (xs.dropLast, .ok x)

/-- `push_back_idx` – Vec.hpp:239-243 -/
def pushBackIdx (xs : List α) (item : α) : List α × Int := (xs ++ [item], size xs)

/-- `insert` at a position; without a check of it – Vec.hpp:295 -/
def insert (xs : List α) (idx : Int) (value : α) : Out (List α) :=
  if 0 ≤ idx ∧ idx ≤ size xs then .ok (xs.take idx.toNat ++ value :: xs.drop idx.toNat) else .ub

/-- `index_of` – sequtils.hpp:65-73, from a position on -/
def indexFrom [DecidableEq α] (xs : List α) (item : α) (pos : Nat) : Int :=
  match xs with
  | [] => -1
  | x :: xs => if x = item then pos else indexFrom xs item (pos + 1)

/-- `indexOf` – Vec.hpp:234 -/
def indexOf [DecidableEq α] (xs : List α) (item : α) : Int := indexFrom xs item 0

/-- `contains` – Vec.hpp:237 -/
def contains [DecidableEq α] (xs : List α) (item : α) : Bool := indexOf xs item ≠ -1

/-- A loop over `enumerate(xs)` – sequtils.hpp:9-45.  The iterators the loop gets are pointers to the one in the object, which the
loop moves.  `rest`: the elements after that iterator; `stop`: after which pairs the body of the loop breaks.  The results are the
pairs the body has seen, and the elements after the iterator in the object when the loop ends. -/
def loopFrom (rest : List α) (idx : Nat) (stop : Nat → α → Bool) : List (Nat × α) × List α :=
  match rest with
  | [] => ([], [])
  | x :: xs =>
    if stop idx x then ([(idx, x)], x :: xs)
    else
      let r := loopFrom xs (idx + 1) stop
      ((idx, x) :: r.1, r.2)

/-- One loop: the index is new in `begin()`. -/
def loop (rest : List α) (stop : Nat → α → Bool) : List (Nat × α) × List α := loopFrom rest 0 stop

end Verif.Vecs
