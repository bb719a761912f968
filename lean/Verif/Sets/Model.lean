import Mathlib.Data.List.Basic
import Mathlib.Data.List.Nodup
import Mathlib.Data.List.FinRange
import Mathlib.Data.Fintype.Pi
import Mathlib.Order.Basic

/-!
# Model of sets of small values

`src/hstd/stdlib/IntSet.hpp:21-195`, `src/hstd/stdlib/SetCommon.hpp:32-62`, `src/hstd/stdlib/IntSetSerde.hpp:8-23`,
`src/hstd/system/reflection.hpp:264-282` and `src/hstd/system/basic_templates.hpp:99-122`: `IntSet<T>`.

Simplifications, for the whole file:
* A value of an enumeration is its number, in the unsigned underlying type.
* The set of bits is a function on the positions below its size.
-/

namespace Verif.Sets

/-- What can go wrong: `std::bitset::test`, `set` and `reset` beyond the end throw `std::out_of_range`;
`JsonSerde<E>::from_json` throws for a name it does not know. -/
inductive Err where
  | range
  | name
deriving DecidableEq, Repr

/-- A type `T` of values: how many bits `IntSet<T>` has (IntSet.hpp:106, two to the number of bits of `T`), and
`value_domain<T>::ord`. -/
structure Domain where
  count : Nat
  ord : Nat → Int

/-- The loop of `value_domain<E>::ord`, from the position `i` on – reflection.hpp:275-280. -/
def ordFrom : List Nat → Nat → Nat → Int
  | [], _, _ => -1
  | d :: ds, v, i => if d = v then (i : Int) else ordFrom ds v (i + 1)

/-- An enumeration with a description – reflection.hpp:264-282; `values` are the numbers of its enumerators, in the
order in which they are described; `count` is 256 for an enumeration of one byte. -/
def described (count : Nat) (values : List Nat) : Domain := ⟨count, fun v => ordFrom values v 0⟩

/-- `value_domain_ungapped<E, Low, High>`, of one byte – basic_templates.hpp:119-121. -/
def ungapped (low : Nat) : Domain := ⟨256, fun v => (v : Int) - (low : Int)⟩

/-- `IntSet<T>::values`. -/
abbrev Bits (n : Nat) := Fin n → Bool

/-- The set without elements – IntSet.hpp:146-152 without arguments. -/
def empty (n : Nat) : Bits n := fun _ => false

/-- `toIdx`, and the check of the position in `std::bitset` – IntSet.hpp:73-75; a negative number is converted to
`std::size_t` and is beyond the end. -/
def position (d : Domain) (v : Nat) : Except Err (Fin d.count) :=
  let i := d.ord v
  if h : 0 ≤ i ∧ i.toNat < d.count then .ok ⟨i.toNat, h.2⟩ else .error .range

/-- `contains(T)` – IntSet.hpp:109. -/
def contains (d : Domain) (s : Bits d.count) (v : Nat) : Except Err Bool := (position d v).map s

/-- `incl(T)` – IntSet.hpp:119. -/
def incl (d : Domain) (s : Bits d.count) (v : Nat) : Except Err (Bits d.count) := (position d v).map fun i j => if j = i then true else s j

/-- `excl(T)` – IntSet.hpp:120. -/
def excl (d : Domain) (s : Bits d.count) (v : Nat) : Except Err (Bits d.count) := (position d v).map fun i j => if j = i then false else s j

/-- `contains(IntSet<T>)`, also `operator<=` – IntSet.hpp:112-114, SetCommon.hpp:61. -/
def includes {n : Nat} (s other : Bits n) : Bool := decide ((fun i => s i && other i) = other)

/-- `incl(IntSet<T>)`, also `operator+` and `operator|` – IntSet.hpp:117, SetCommon.hpp:32-42. -/
def union {n : Nat} (s other : Bits n) : Bits n := fun i => s i || other i

/-- `excl(IntSet<T>)`, also `operator-` – IntSet.hpp:118, SetCommon.hpp:44-48. -/
def minus {n : Nat} (s other : Bits n) : Bits n := fun i => s i && !other i

/-- `operator^` – IntSet.hpp:124-128. -/
def xor {n : Nat} (s other : Bits n) : Bits n := fun i => s i != other i

/-- `operator&` – IntSet.hpp:130-134. -/
def inter {n : Nat} (s other : Bits n) : Bits n := fun i => s i && other i

/-- `operator~` – IntSet.hpp:138. -/
def compl {n : Nat} (s : Bits n) : Bits n := fun i => !s i

/-- `size()` – IntSet.hpp:140, `std::bitset::count`. -/
def size {n : Nat} (s : Bits n) : Nat := (List.finRange n).countP fun i => s i

/-- The loop of `iterator::operator++`: the first set bit from the position `i` on – IntSet.hpp:177. -/
def seek {n : Nat} (s : Bits n) (i : Nat) : Nat :=
  if h : i < n then if s ⟨i, h⟩ then i else seek s (i + 1) else i
termination_by n - i

theorem le_seek {n : Nat} (s : Bits n) (i : Nat) : i ≤ seek s i := by
  induction hm : n - i using Nat.strongRecOn generalizing i with
  | ind m ih =>
    rw [seek]
    split_ifs with h1 h2
    · exact Nat.le_refl _
    · have := ih (n - (i + 1)) (by omega) (i + 1) rfl
      omega
    · exact Nat.le_refl _

/-- A loop over the set, with the iterator at the position `i`: the values `value_from_bitset_index(index)`, which
is the number `index` itself (IntSet.hpp:24-27), until the iterator is at the end – IntSet.hpp:155-189. -/
def walk {n : Nat} (s : Bits n) (i : Nat) : List Nat :=
  if i < n then i :: walk s (seek s (i + 1)) else []
termination_by n - i
decreasing_by
  have := le_seek s (i + 1)
  omega

/-- A loop over the set; the constructor of the iterator moves it to the first bit – IntSet.hpp:165-169, 186-189. -/
def elements {n : Nat} (s : Bits n) : List Nat := walk s (seek s 0)

/-- An enumeration of one byte: its enumerators, each with its name and number. -/
abbrev Enum := List (String × Nat)

/-- The numbers of the enumerators. -/
def Enum.values (e : Enum) : List Nat := e.map (·.2)

/-- `JsonSerde<E>::to_json`: `boost::describe::enum_to_string` – JsonSerde.hpp:353, reflection.hpp:205-207. -/
def nameOf (e : Enum) (v : Nat) : String := ((e.find? fun x => x.2 = v).map (·.1)).getD "<unnamed>"

/-- `JsonSerde<E>::from_json`: `boost::describe::string_to_enum` – JsonSerde.hpp:336-351, reflection.hpp:209-214. -/
def valueOf (e : Enum) (s : String) : Except Err Nat := ((e.find? fun x => x.1 = s).map fun x => Except.ok x.2).getD (.error .name)

/-- `JsonSerde<IntSet<E>>::to_json`; the array of strings is a list – IntSetSerde.hpp:10-15. -/
def toJson (e : Enum) (s : Bits (described 256 e.values).count) : List String := (elements s).map (nameOf e)

/-- The loop of `JsonSerde<IntSet<E>>::from_json` – IntSetSerde.hpp:18. -/
def readNames (e : Enum) : Bits (described 256 e.values).count → List String → Except Err (Bits (described 256 e.values).count)
  | s, [] => .ok s
  | s, x :: r => (valueOf e x).bind fun v => (incl (described 256 e.values) s v).bind fun s => readNames e s r

/-- `JsonSerde<IntSet<E>>::from_json` – IntSetSerde.hpp:16-20. -/
def fromJson (e : Enum) (x : List String) : Except Err (Bits (described 256 e.values).count) := readNames e (empty _) x

/-- `Style` – ColText.hpp:90-101. -/
def style : Enum := [("Bright", 1), ("Dim", 2), ("Italic", 3), ("Underscore", 4), ("Blink", 5), ("BlinkRapid", 6), ("Reverse", 7), ("Hidden", 8), ("Strikethrough", 9)]

end Verif.Sets
