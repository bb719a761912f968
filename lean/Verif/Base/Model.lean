/-!
# Model of slices, packed sets, vector ordering and time breakdowns

From src/hstd/stdlib: Slice.hpp, IntSet.hpp, SetCommon.hpp, Vec.hpp, Span.hpp, Str.hpp,
Time.hpp, Time.cpp and src/hstd/system: basic_templates.hpp, reflection.hpp.
-/

namespace Verif.Base

/-- Ways not to return. -/
inductive Err where
  /-- `range_error`/`out_of_range` -/
  | range
  /-- undefined behaviour: signed overflow, reading outside of an array -/
  | ub
deriving DecidableEq, Repr

/-! ## Slice – Slice.hpp:28-133 -/

/-- `Slice<T>`; values of `T` are integers, `T` itself only matters for iteration. -/
structure Slice where
  first : Int
  last : Int
deriving DecidableEq, Repr

namespace Slice

/-- `slice(first, last)` – 136-157 -/
def make (first last : Int) : Except Err Slice := if ¬ first ≤ last then .error .range else .ok ⟨first, last⟩

/-- `contains(T)` – 34 -/
def contains (s : Slice) (v : Int) : Bool := decide (s.first ≤ v) && decide (v ≤ s.last)

/-- `isValid` – 35 -/
def isValid (s : Slice) : Bool := decide (s.first ≤ s.last)

/-- `narrow` – 37-46 -/
def narrow (s other : Slice) : Except Err Slice :=
  make (if s.contains other.first then max other.first s.first else s.first)
    (if s.contains other.last then min other.last s.last else s.last)

/-- `isBefore` – 48 -/
def isBefore (s : Slice) (v : Int) : Bool := decide (v < s.first)

/-- `isAfter` – 50 -/
def isAfter (s : Slice) (v : Int) : Bool := decide (s.last < v)

/-- `expand` – 52-58 -/
def expand (s : Slice) (v : Int) : Slice :=
  if s.isBefore v then { s with first := v } else if s.isAfter v then { s with last := v } else s

/-- `expanded` – 60-67 -/
def expanded (s other : Slice) : Except Err Slice := make (min other.first s.first) (max other.last s.last)

/-- `contains(Slice)` – 71-73 -/
def containsSlice (s other : Slice) : Bool := s.contains other.first && s.contains other.last

/-- `overlap` – 75-83 -/
def overlap (s other : Slice) : Option Slice :=
  if s.first < other.last ∧ other.first < s.last then some ⟨max s.first other.first, min s.last other.last⟩ else none

end Slice

/-- `value_domain<T>::succ` – basic_templates.hpp:65-72 for integral types with values
from `lo` to `hi`: `val + 1` leaves the type after `hi`. -/
def succ (hi v : Int) : Except Err Int := if v < hi then .ok (v + 1) else .error .ub

/-- The iterator – Slice.hpp:86-128 -/
structure It where
  now : Int
  last : Int
  pastLast : Bool
deriving DecidableEq, Repr

/-- `operator++` – 109-119 -/
def It.next (hi : Int) (it : It) : Except Err It :=
  if it.now = it.last ∨ it.pastLast then .ok { it with pastLast := true }
  else (succ hi it.now).map (fun n => { it with now := n })

/-- `operator!=` – 121-127 -/
def It.ne (a b : It) : Bool :=
  if a.pastLast || b.pastLast then a.pastLast != b.pastLast else a.now != b.now

/-- `for (v : slice)`: collect until the iterator equals `end()` – 131-132. `none`: the
fuel has run out. -/
def Slice.iterate (hi : Int) (endIt : It) : Nat → It → List Int → Option (Except Err (List Int))
  | fuel, it, acc =>
    if it.ne endIt then
      match fuel with
      | 0 => none
      | fuel + 1 =>
        match it.next hi with
        | .error e => some (.error e)
        | .ok it' => Slice.iterate hi endIt fuel it' (acc ++ [it.now])
    else some (.ok acc)

/-- All values of a slice of a type whose largest value is `hi`. -/
def Slice.values (hi : Int) (fuel : Nat) (s : Slice) : Option (Except Err (List Int)) :=
  Slice.iterate hi ⟨s.first, s.last, true⟩ fuel ⟨s.first, s.last, false⟩ []

/-- `value_domain<char>` with a signed `char` – basic_templates.hpp:163-179. -/
def charLow : Int := 0
def charHigh : Int := -1

/-- `sliceT<char>()` – Slice.hpp:172-177 -/
def sliceChar : Except Err Slice := Slice.make charLow charHigh

/-! ## Taking a part: `getSpan` – Slice.hpp:202-239 -/

/-- An index counted from the front or (`n_B`) from the back. -/
inductive Index where
  | front (n : Int)
  | back (n : Int)
deriving DecidableEq, Repr

/-- Position of an index in a container. -/
def Index.pos (size : Int) : Index → Int
  | .front n => n
  | .back n => size - n

/-- `getSpan` with range check – 202-239 -/
def getSpan (size : Int) (a b : Index) : Except Err (Int × Int) :=
  if ¬ ((0 ≤ a.pos size ∧ a.pos size < size) ∧ (0 ≤ b.pos size ∧ b.pos size < size)) then .error .range
  else .ok (a.pos size, b.pos size)

/-- Elements of a view that starts at `start` and has `count` elements (a negative count
becomes a huge size). -/
def view {α : Type} (xs : List α) (start count : Int) : Except Err (List α) :=
  if 0 ≤ start ∧ 0 ≤ count ∧ start + count ≤ xs.length then .ok ((xs.drop start.toNat).take count.toNat)
  else .error .ub

/-- `Vec::at(HSlice)`, `Span::at(HSlice)` – Vec.hpp:349-360, Span.hpp:112-123: reading the
result. -/
def atSlice {α : Type} (xs : List α) (a b : Index) : Except Err (List α) :=
  match getSpan xs.length a b with
  | .error e => .error e
  | .ok (s, e) => view xs s (e - s + 1)

/-- `Str::at(HSlice)` – Str.hpp:47-57: the end is passed as the length. -/
def strAtSlice {α : Type} (xs : List α) (a b : Index) : Except Err (List α) :=
  match getSpan xs.length a b with
  | .error e => .error e
  | .ok (s, e) => view xs s e

/-! ## Ordering of vectors – Vec.hpp:25-38 -/

/-- `itemwise_less_than` -/
def itemwiseLess {α : Type} (cmp : α → α → Bool) (xs ys : List α) : Bool :=
  (List.zip xs ys).any (fun p => cmp p.1 p.2) || decide (xs.length < ys.length)

/-! ## Packed sets – IntSet.hpp, SetCommon.hpp -/

/-- What an `IntSet<T>` needs to know about `T`: the position of a value (`ord`, as
`long long`), the size of the bit set, and the value made from a position
(`value_from_bitset_index`, 24-27; `none`: the number is not one of the values of the
type). -/
structure Domain (T : Type) where
  bits : Nat
  ord : T → Int
  ofIndex : Nat → Option T

/-- A `std::bitset` with `n` bits. -/
abbrev Bits (n : Nat) := Fin n → Bool

/-- `toIdx` – 72-74: a negative position becomes a huge unsigned number. -/
def toIdx (o : Int) : Nat := if o < 0 then (o + 2 ^ 64).toNat else o.toNat

/-- `bitset::test` -/
def Bits.test {n : Nat} (b : Bits n) (i : Nat) : Except Err Bool :=
  if h : i < n then .ok (b ⟨i, h⟩) else .error .range

/-- `bitset::set`/`reset` of one position. -/
def Bits.put {n : Nat} (b : Bits n) (i : Nat) (v : Bool) : Except Err (Bits n) :=
  if i < n then .ok (fun j => if j.val = i then v else b j) else .error .range

/-- `bitset::count` -/
def Bits.count {n : Nat} (b : Bits n) : Nat := (List.finRange n).countP b

namespace IntSet

variable {T : Type} (D : Domain T)

/-- `IntSet<T>` – 49-188: only the bits. -/
abbrev Set := Bits D.bits

/-- default constructor -/
def empty : Set D := fun _ => false

/-- `contains(T)` – 107 -/
def contains (s : Set D) (v : T) : Except Err Bool := Bits.test s (toIdx (D.ord v))

/-- `contains(IntSet)` – 110-112 -/
def containsSet (s other : Set D) : Bool := decide (∀ i, (s i && other i) = other i)

/-- `incl(T)`, `excl(T)` – 117-118 -/
def incl (s : Set D) (v : T) : Except Err (Set D) := Bits.put s (toIdx (D.ord v)) true
def excl (s : Set D) (v : T) : Except Err (Set D) := Bits.put s (toIdx (D.ord v)) false

/-- `incl(IntSet)`, `excl(IntSet)` – 115-116; `+`, `|`, `-` – SetCommon.hpp:34-50 -/
def union (s other : Set D) : Set D := fun i => s i || other i
def diff (s other : Set D) : Set D := fun i => s i && !other i

/-- `operator&`, `operator^` – IntSet.hpp:122-132 -/
def inter (s other : Set D) : Set D := fun i => s i && other i
def symDiff (s other : Set D) : Set D := fun i => s i ^^ other i

/-- `size` – 138 -/
def size (s : Set D) : Nat := Bits.count s

/-- `operator<`, `operator<=` – SetCommon.hpp:60-64 -/
def lt (s other : Set D) : Bool := containsSet D other s && decide (size D s < size D other)
def le (s other : Set D) : Bool := containsSet D other s

/-- The `while` loop of `operator++` – 176: step over empty positions. -/
def skip {n : Nat} (b : Bits n) (i : Nat) : Nat :=
  if h : i < n then (if b ⟨i, h⟩ then i else skip b (i + 1)) else i
termination_by n - i

/-- `operator++` – 172-178 -/
def next {n : Nat} (b : Bits n) (i : Nat) : Nat :=
  skip b (if h : i < n then (if b ⟨i, h⟩ then i + 1 else i) else i)

/-- `iterator(0, &values)` – 163-167 -/
def begin {n : Nat} (b : Bits n) : Nat :=
  if h : 0 < n then (if b ⟨0, h⟩ then 0 else next b 0) else 0

/-- The positions a range-`for` goes through – 180-186. `none`: out of fuel. -/
def walk {n : Nat} (b : Bits n) : Nat → Nat → List Nat → Option (List Nat)
  | fuel, i, acc =>
    if i ≠ n then
      match fuel with
      | 0 => none
      | fuel + 1 => walk b fuel (next b i) (acc ++ [i])
    else some acc

/-- All values a range-`for` yields. -/
def values (s : Set D) (fuel : Nat) : Option (List (Option T)) := (walk s fuel (begin s) []).map (·.map D.ofIndex)

end IntSet

/-- `IntSet<char>` (`CharSet`): signed `char`, `ord` – basic_templates.hpp:166-173. -/
def charDomain : Domain (BitVec 8) where
  bits := 256
  ord c := if c.toInt < 0 then c.toInt + 256 else c.toInt
  ofIndex i := some (BitVec.ofNat 8 i)

/-- `IntSet<T>` for an unsigned integral type of `w` bits – basic_templates.hpp:65-72. -/
def unsignedDomain (w : Nat) : Domain (BitVec w) where
  bits := 2 ^ w
  ord v := v.toNat
  ofIndex i := some (BitVec.ofNat w i)

/-- `IntSet<T>` for a signed integral type of `w` bits – basic_templates.hpp:65-72. -/
def signedDomain (w : Nat) : Domain (BitVec w) where
  bits := 2 ^ w
  ord v := v.toInt
  ofIndex i := some (BitVec.ofNat w i)

/-- `IntSet<E>` for a described enumeration – reflection.hpp:265-282. `values` are the
numeric values of the enumerators in the order of the description; a value of the type is
its position there. -/
def enumDomain (bits : Nat) (values : List Nat) : Domain (Fin values.length) where
  bits := bits
  ord v := v.val
  ofIndex i := values.finIdxOf? i

/-- `IntSet<E>` for an enumeration with `value_domain_ungapped<E, Low, High>` –
basic_templates.hpp:94-121: `n` enumerators numbered from `low`. A value of the type is its
number minus `low`. -/
def ungappedDomain (bits low n : Nat) : Domain (Fin n) where
  bits := bits
  ord v := v.val
  ofIndex i := if h : low ≤ i ∧ i - low < n then some ⟨i - low, h.2⟩ else none

/-! ## Time – Time.hpp, Time.cpp -/

/-- `UserTimeBreakdown` – Time.hpp:16-24 -/
structure Breakdown where
  year : Option Int
  month : Option Int
  day : Option Int
  hour : Option Int
  minute : Option Int
  second : Option Int
  zone : Option String
deriving DecidableEq, Repr

/-- `UserTimeBreakdown::operator==` – Time.hpp:32-39 -/
def Breakdown.eq (a b : Breakdown) : Bool :=
  a.year == b.year && a.month == b.month && a.day == b.day && a.hour == b.hour && a.second == b.second && a.zone == b.zone

inductive Alignment where
  | year | month | day | hour | minute | second
deriving DecidableEq, Repr

/-- `cctz::civil_second` -/
structure Civil where
  year : Int
  month : Int
  day : Int
  hour : Int
  minute : Int
  second : Int
deriving DecidableEq, Repr

/-- `UserTime` – Time.hpp:42-60; a zone is known by its name. -/
structure UserTime where
  time : Civil
  zone : Option String
  align : Alignment
deriving DecidableEq, Repr

/-- How many components an alignment keeps. -/
def Alignment.rank : Alignment → Nat
  | .year => 0
  | .month => 1
  | .day => 2
  | .hour => 3
  | .minute => 4
  | .second => 5

/-- `getBreakdown` – Time.cpp:6-39: the `switch` falls through from the alignment down to
the year. -/
def UserTime.getBreakdown (t : UserTime) : Breakdown where
  second := if t.align.rank ≥ 5 then some t.time.second else none
  minute := if t.align.rank ≥ 4 then some t.time.minute else none
  hour := if t.align.rank ≥ 3 then some t.time.hour else none
  day := if t.align.rank ≥ 2 then some t.time.day else none
  month := if t.align.rank ≥ 1 then some t.time.month else none
  year := some t.time.year
  zone := t.zone

/-- `UserTime::operator==` – Time.cpp:84-90 -/
def UserTime.eq (a b : UserTime) : Bool := a.time == b.time && a.zone == b.zone && a.align == b.align

/-- `toUnixTimestamp` – Time.cpp:105-124, without the conversion by the time zone library:
`seconds` is the number of seconds since the epoch. -/
def toUnixTimestamp (seconds : Int) : Except Err Int :=
  if seconds < -2147483648 ∨ 2147483647 < seconds then .error .range else .ok seconds

end Verif.Base
