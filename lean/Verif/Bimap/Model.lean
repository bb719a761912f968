/-!
# Model of the maps in both directions – src/hstd/ext/bimap_wrap.hpp

Simplifications, for the whole file:
* A map of the library is a list of pairs.  The order is that of the elements for `vector_of` only; otherwise nothing is said
  about it.
* Equality and hashes agree.
* `insert` of the library puts in nothing if a key is there that may be there only once.
-/

namespace Verif.Bimap

variable {L R : Type} [DecidableEq L] [DecidableEq R]

/-- `Unordered1to1Bimap`, `UnorderedNto1Bimap`, `StableNto1Bimap` – bimap_wrap.hpp:58, 116, 172 -/
inductive Kind where
  | one | many | stable
deriving DecidableEq

/-- `contains_left` – bimap_wrap.hpp:26-28, 231-237 -/
def containsLeft (s : List (L × R)) (l : L) : Bool := s.any fun p => p.1 = l

/-- `contains_right` – bimap_wrap.hpp:30-32 -/
def containsRight (s : List (L × R)) (r : R) : Bool := s.any fun p => p.2 = r

/-- `insert` of the library: the left key may be there once, except in a vector; the right key in `one` only. -/
def insert (k : Kind) (s : List (L × R)) (l : L) (r : R) : List (L × R) × Bool :=
  if (k ≠ .stable ∧ containsLeft s l) ∨ (k = .one ∧ containsRight s r) then (s, false) else (s ++ [(l, r)], true)

/-- `add_unique` – bimap_wrap.hpp:103-108, 152-161, 219-229.  `none`: an exception. -/
def addUnique (k : Kind) (s : List (L × R)) (l : L) (r : R) : Option (List (L × R)) :=
  match k with
  | .one => if containsLeft s l || containsRight s r then none else some (insert .one s l r).1
  | .many => match insert .many s l r with
    | (s, true) => some s
    | (_, false) => none
  | .stable => match s.find? (fun p => p.1 = l) with
    | some _ => none
    | none => some (insert .stable s l r).1

/-- Removing the first pair with a left key. -/
def eraseFirst (s : List (L × R)) (l : L) : List (L × R) :=
  match s with
  | [] => []
  | p :: s => if p.1 = l then s else p :: eraseFirst s l

/-- `erase_left` – bimap_wrap.hpp:23, 239-245.  The library removes all pairs with the key; in a vector, the one that was
found. -/
def eraseLeft (k : Kind) (s : List (L × R)) (l : L) : List (L × R) :=
  match k with
  | .stable => eraseFirst s l
  | _ => s.filter fun p => p.1 ≠ l

/-- `erase_right` – bimap_wrap.hpp:24 -/
def eraseRight (s : List (L × R)) (r : R) : List (L × R) := s.filter fun p => p.2 ≠ r

/-- The change of the first pair with a left key. -/
def modifyFirst (s : List (L × R)) (l : L) (r : R) : List (L × R) :=
  match s with
  | [] => []
  | p :: s => if p.1 = l then (p.1, r) :: s else p :: modifyFirst s l r

/-- `reassign` – bimap_wrap.hpp:163-168, 247-255 -/
def reassign (s : List (L × R)) (l : L) (r : R) : List (L × R) × Bool :=
  match s.find? (fun p => p.1 = l) with
  | none => (s, false)
  | some _ => (modifyFirst s l r, true)

/-- `get_right` – bimap_wrap.hpp:78-82, 137-141, 193-200 -/
def getRight (s : List (L × R)) (l : L) : Option R := (s.find? fun p => p.1 = l).map Prod.snd

/-- `get_left` with one result – bimap_wrap.hpp:72-76 -/
def getLeft (s : List (L × R)) (r : R) : Option L := (s.find? fun p => p.2 = r).map Prod.fst

/-- `get_left` with many results – bimap_wrap.hpp:130-135, 186-191 -/
def getLefts (s : List (L × R)) (r : R) : List L := (s.filter fun p => p.2 = r).map Prod.fst

/-- `left_keys` – bimap_wrap.hpp:34-38 -/
def leftKeys (s : List (L × R)) : List L := s.map Prod.fst

/-- `right_keys` – bimap_wrap.hpp:40-44 -/
def rightKeys (s : List (L × R)) : List R := s.map Prod.snd

end Verif.Bimap
