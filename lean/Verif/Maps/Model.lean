/-!
# Model of maps – src/hstd/stdlib/Map.hpp

Simplifications, for the whole file:
* A map of the library is a list of pairs in the order of iteration, which is some order: a new key comes last here.
* Equality of keys and their hashes or their order agree.
* `std::size_t` has 64 bits.
-/

namespace Verif.Maps

variable {K V : Type} [DecidableEq K]

/-- `contains` – Map.hpp:17, 114 -/
def contains (s : List (K × V)) (k : K) : Bool := s.any fun p => p.1 = k

/-- `at` – Map.hpp:88-104.  `none`: an exception. -/
def at? (s : List (K × V)) (k : K) : Option V :=
  match s.find? (fun p => p.1 = k) with
  | some p => some p.2
  | none => none

/-- `insert_or_assign` of the library. -/
def insertOrAssign (s : List (K × V)) (k : K) (v : V) : List (K × V) :=
  if contains s k then s.map fun p => if p.1 = k then (p.1, v) else p else s ++ [(k, v)]

/-- `erase` of the library. -/
def erase (s : List (K × V)) (k : K) : List (K × V) := s.filter fun p => p.1 ≠ k

/-- `get_or_insert` – Map.hpp:19-22 -/
def getOrInsert (s : List (K × V)) (k : K) (fallback : V) : List (K × V) × Option V :=
  let s := if contains s k then s else insertOrAssign s k fallback
  (s, at? s k)

/-- `insert_unqiue` – Map.hpp:24-31.  `none`: an exception. -/
def insertUnique (s : List (K × V)) (k : K) (v : V) : Option (List (K × V)) :=
  if contains s k then none else some (insertOrAssign s k v)

/-- `get` – Map.hpp:39-45 -/
def get (s : List (K × V)) (k : K) : Option V := if contains s k then at? s k else none

/-- `pop_opt` – Map.hpp:33-37 -/
def popOpt (s : List (K × V)) (k : K) : List (K × V) × Option V :=
  let res := get s k
  (if res.isSome then erase s k else s, res)

/-- `keys` – Map.hpp:47-52 -/
def keys (s : List (K × V)) : List K := s.map Prod.fst

/-- `values` – Map.hpp:54-59 -/
def values (s : List (K × V)) : List V := s.map Prod.snd

/-- `hax_hash_combine`, of the hash of the value – src/hstd/system/reflection.hpp:44-48 -/
def combine (seed h : UInt64) : UInt64 := seed ^^^ (h + (0x9e3779b9 : UInt64) + (seed <<< (6 : UInt64)) + (seed >>> (2 : UInt64)))

/-- `std_kv_tuple_iterator_hash` – Map.hpp:259-279, for any hashes of the library for keys, values and numbers. -/
def hash (hk : K → UInt64) (hv : V → UInt64) (hs : UInt64 → UInt64) (s : List (K × V)) : UInt64 :=
  let pairs := s.map fun p => combine (combine 0 (hk p.1)) (hv p.2)
  (pairs.mergeSort fun a b => decide (a.toNat ≤ b.toNat)).foldl (fun result x => combine result (hs x)) 0

end Verif.Maps
