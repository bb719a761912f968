/-!
# Model of integer ids, stores and saturating arithmetic

* `src/hstd/stdlib/dod_base.hpp`: `Id`, id arithmetic, `Store`
* `src/hstd/stdlib/dod_base_intern.hpp`: `InternStore`
* `src/hstd/system/basic_templates.hpp`: saturating arithmetic
* `src/haxorg/imm/ImmOrg.cpp`, `ImmOrgBase.cpp`: `ImmId`

An id type is given by the width `w` of `IdType = MaskType` (an unsigned type at
least as wide as `int`, so that there is no integer promotion; 32 or 64 in the
code base) and the number `m` of mask bits.  The value is a `BitVec w`.
-/

namespace Verif.Dod

/-- Abnormal outcomes: undefined behaviour, failed assertion, `std::logic_error`,
`hstd::range_error`, `hstd::key_error`. -/
inductive Err where
  | ub
  | assertion
  | logic
  | range
  | key
deriving DecidableEq, Repr

/-! ## Saturating arithmetic – basic_templates.hpp:125-149 -/

/-- `saturating_add<T, Other>` for unsigned `T` of width `w` – 125-131.  `change` is the
mathematical value of the second argument; it is converted to `T` modulo `2^w`. -/
def satAdd {w : Nat} (value : BitVec w) (change : Int) : BitVec w :=
  let res := value + BitVec.ofInt w change
  if res < value then BitVec.allOnes w else res

/-- `saturating_sub<T, Other>` for unsigned `T` – 134-140. -/
def satSub {w : Nat} (value : BitVec w) (change : Int) : BitVec w :=
  let res := value - BitVec.ofInt w change
  if value < res then 0#w else res

/-- `saturating_add_any<T, int>` for unsigned `T` – 142-149.  `std::abs` of the least
`int` is undefined. -/
def satAddAny {w : Nat} (value : BitVec w) (change : Int) : Except Err (BitVec w) :=
  if 0 ≤ change then .ok (satAdd value change)
  else if change = -(2 ^ 31 : Int) then .error .ub
  else .ok (satSub value (-change))

/-- `saturating_add<T, T>` for signed `T` of width `w ≥ 32`: signed overflow is
undefined – 125-131. -/
def satAddSigned (w : Nat) (value change : Int) : Except Err Int :=
  let res := value + change
  if 2 ^ (w - 1) ≤ res ∨ res < -(2 ^ (w - 1)) then .error .ub
  else if res < value then .ok (2 ^ (w - 1) - 1) else .ok res

/-! ## `Id` – dod_base.hpp:76-223 -/

/-- `mask_offset` – 95. -/
def maskOffset (w m : Nat) : Nat := w - m

/-- `~IdType(0) << mask_offset`; a shift by the full width is undefined. -/
def highBits (w m : Nat) : Except Err (BitVec w) :=
  if maskOffset w m < w then .ok (BitVec.allOnes w <<< maskOffset w m) else .error .ub

/-- `Id(IdType in)`, `FromIndex` – 82, 100. -/
def fromIndex {w : Nat} (i : BitVec w) : BitVec w := i + 1#w

/-- `getUnmasked` – 112-118. -/
def getUnmasked {w : Nat} (m : Nat) (value : BitVec w) : Except Err (BitVec w) :=
  if m = 0 then .ok value
  else do
    let h ← highBits w m
    .ok (value &&& ~~~h)

/-- `getMask` – 122-125. -/
def getMask {w : Nat} (m : Nat) (value : BitVec w) : Except Err (BitVec w) := do
  let h ← highBits w m
  .ok ((value &&& h) >>> maskOffset w m)

/-- `getMaskUnshifed` – 129-131. -/
def getMaskUnshifted {w : Nat} (m : Nat) (value : BitVec w) : Except Err (BitVec w) := do
  let h ← highBits w m
  .ok (value &&& h)

/-- `setUnmasked` – 134. -/
def setUnmasked {w : Nat} (m : Nat) (value base : BitVec w) : Except Err (BitVec w) := do
  let mask ← getMask m value
  .ok (mask ||| base)

/-- `setMask` – 137-158.  `mask_check` is a 64-bit number; `1ULL << 64` is undefined. -/
def setMask {w : Nat} (m : Nat) (value mask : BitVec w) : Except Err (BitVec w) :=
  if 64 ≤ m then .error .ub
  else if 2 ^ m ≤ mask.toNat then .error .logic
  else if maskOffset w m < w then do
    let u ← getUnmasked m value
    .ok (u ||| (mask <<< maskOffset w m))
  else .error .assertion

/-- `FromMaskedIdx` – 103-107. -/
def fromMaskedIdx {w : Nat} (m : Nat) (id mask : BitVec w) : Except Err (BitVec w) :=
  setMask m (fromIndex id) mask

/-- `isNil` – 161. -/
def isNil {w : Nat} (m : Nat) (value : BitVec w) : Except Err Bool := do
  let u ← getUnmasked m value
  .ok (decide (u = 0#w))

/-- `getIndex` – 174-180. -/
def getIndex {w : Nat} (m : Nat) (value : BitVec w) : Except Err (BitVec w) := do
  let u ← getUnmasked m value
  if u = 0#w then .error .range else .ok (u - 1#w)

/-- `operator<` – 193-195 (unmasked parts only). -/
def idLess {w : Nat} (m : Nat) (a b : BitVec w) : Except Err Bool := do
  let x ← getUnmasked m a
  let y ← getUnmasked m b
  .ok (decide (x < y))

/-- `operator--` – 283-296. -/
def idPred {w : Nat} (m : Nat) (value : BitVec w) : Except Err (BitVec w) := do
  let h ← getMaskUnshifted m value
  let u ← getUnmasked m value
  .ok (h ||| satSub u 1)

/-- `operator++` – 299-302, 317-323. -/
def idSucc {w : Nat} (m : Nat) (value : BitVec w) : Except Err (BitVec w) := do
  let h ← getMaskUnshifted m value
  let u ← getUnmasked m value
  .ok (h ||| satAdd u 1)

/-- `operator+(Id, int)` – 311-315. -/
def idAdd {w : Nat} (m : Nat) (value : BitVec w) (extent : Int) : Except Err (BitVec w) := do
  let h ← getMaskUnshifted m value
  let u ← getUnmasked m value
  let u' ← satAddAny u extent
  .ok (h ||| u')

/-- `distance` – 328-331. -/
def idDistance {w : Nat} (m : Nat) (first last : BitVec w) : Except Err (BitVec w) := do
  let l ← getUnmasked m last
  let f ← getUnmasked m first
  .ok (let res := l - f; if l < res then 0#w else res)

/-! ## `Store` – dod_base.hpp:368-486 -/

/-- Conversion of a size or index to `int` (`Vec::size` – Vec.hpp:284; the argument of
`Vec::at` – Vec.hpp:327). -/
def toInt32 (n : Nat) : Int := (BitVec.ofNat 32 n).toInt

/-- `Store::add(value)` – 405-423.  The index passes through an `int`. -/
def Store.add {T : Type} (w m : Nat) (content : List T) (v : T) :
    Except Err (List T × BitVec w) := do
  let id := fromIndex (BitVec.ofInt w (toInt32 content.length))
  let nil ← isNil m id
  if nil then .error .assertion else .ok (content ++ [v], id)

/-- `Store::add(value, mask)` – 386-402. -/
def Store.addMasked {T : Type} (w m : Nat) (content : List T) (v : T) (mask : BitVec w) :
    Except Err (List T × BitVec w) := do
  let id ← fromMaskedIdx m (BitVec.ofInt w (toInt32 content.length)) mask
  let nil ← isNil m id
  if nil then .error .assertion else .ok (content ++ [v], id)

/-- `Store::contains` – 378-383. -/
def Store.contains {T : Type} {w : Nat} (m : Nat) (content : List T) (id : BitVec w) :
    Except Err Bool := do
  let nil ← isNil m id
  if nil then .ok false
  else
    let i ← getIndex m id
    .ok (decide (i.toNat < content.length))

/-- `Vec::at` with an `int` index – Vec.hpp:327-335, `checkIdx` – 50-58. -/
def vecAt {T : Type} (content : List T) (idx : Int) : Except Err T :=
  if idx < 0 then .error .range
  else match content[idx.toNat]? with
    | some v => .ok v
    | none => .error .range

/-- `Store::at` – 446-450: the index is converted to `int`. -/
def Store.at {T : Type} {w : Nat} (m : Nat) (content : List T) (id : BitVec w) : Except Err T := do
  let i ← getIndex m id
  vecAt content (toInt32 i.toNat)

/-- `Store::insert` – 475-485.  An index past the end is ignored. -/
def Store.insert {T : Type} {w : Nat} (m : Nat) (content : List T) (id : BitVec w) (v : T) :
    Except Err (List T) := do
  let i ← getIndex m id
  if i.toNat = content.length then .ok (content ++ [v])
  else if i.toNat < content.length then .ok (content.set i.toNat v)
  else .ok content

/-- An operation of the store's interface that changes it. -/
inductive Store.Op (T : Type) (w : Nat) where
  | add (v : T)
  | addMasked (v : T) (mask : BitVec w)
  | insert (id : BitVec w) (v : T)

/-- Execute an operation. -/
def Store.step {T : Type} {w : Nat} (m : Nat) (content : List T) :
    Store.Op T w → Except Err (List T)
  | .add v => do let r ← Store.add w m content v; .ok r.1
  | .addMasked v mask => do let r ← Store.addMasked w m content v mask; .ok r.1
  | .insert id v => Store.insert m content id v

/-- Execute a history. -/
def Store.run {T : Type} {w : Nat} (m : Nat) (content : List T) :
    List (Store.Op T w) → Except Err (List T)
  | [] => .ok content
  | op :: ops => do
    let c ← Store.step m content op
    Store.run m c ops

/-! ## `InternStore` – dod_base_intern.hpp:15-82 -/

/-- `InternStore`: `id_map` (an association list standing for the unordered map; the
first entry of a key counts and `insert` does nothing for a key that is present) and
`content`. -/
structure Intern (T : Type) (w : Nat) where
  idMap : List (T × BitVec w) := []
  content : List T := []

variable {T : Type} [DecidableEq T]

/-- `id_map.find`. -/
def Intern.find {w : Nat} (s : Intern T w) (v : T) : Option (BitVec w) :=
  (s.idMap.find? fun e => e.1 = v).map (·.2)

/-- `InternStore::add` – 28-48. -/
def Intern.add {w : Nat} (m : Nat) (s : Intern T w) (v : T) (mask : Option (BitVec w)) :
    Except Err (Intern T w × BitVec w) :=
  match s.find v with
  | some id => do
    let nil ← isNil m id
    if nil then .error .assertion else .ok (s, id)
  | none => do
    let (c, id) ← (match mask with
      | some k => Store.addMasked w m s.content v k
      | none => Store.add w m s.content v)
    let nil ← isNil m id
    if nil then .error .assertion
    else .ok ({ idMap := s.idMap ++ [(v, id)], content := c }, id)

/-- `InternStore::contains` – 51. -/
def Intern.contains {w : Nat} (s : Intern T w) (v : T) : Bool := (s.find v).isSome

/-- `InternStore::at` – 58-60. -/
def Intern.at {w : Nat} (m : Nat) (s : Intern T w) (id : BitVec w) : Except Err T :=
  Store.at m s.content id

/-- `InternStore::insert` – 66-73. -/
def Intern.insert {w : Nat} (m : Nat) (s : Intern T w) (id : BitVec w) (v : T) :
    Except Err (Intern T w) :=
  if s.contains v then .ok s
  else do
    let nil ← isNil m id
    if nil then .error .assertion
    else
      let c ← Store.insert m s.content id v
      .ok { idMap := s.idMap ++ [(v, id)], content := c }

/-- A history of `add` calls, with the ids returned. -/
def Intern.adds {w : Nat} (m : Nat) (s : Intern T w) :
    List (T × Option (BitVec w)) → Except Err (Intern T w × List (BitVec w))
  | [] => .ok (s, [])
  | (v, mask) :: rest => do
    let (s', id) ← s.add m v mask
    let (s'', ids) ← s'.adds m rest
    .ok (s'', id :: ids)

/-! ## `ImmId` – ImmOrgBase.hpp:210-281, ImmOrg.cpp:39-83, ImmOrgBase.cpp:47-82 -/

namespace ImmId

/-- `ImmIdMaskSize` – ImmOrgBase.hpp:211. -/
def maskSize : Nat := 24
/-- `ImmIdMaskOffset` – ImmOrgBase.hpp:212. -/
def offset : Nat := 40
/-- `NodeIdxMask` – ImmOrg.cpp:39. -/
def nodeIdxMask : BitVec 64 := 0x000000FFFFFFFFFF#64
/-- `NodeKindMask` – ImmOrg.cpp:41. -/
def nodeKindMask : BitVec 64 := 0x000FFF0000000000#64

/-- `getNodeIdx(IdType)` – ImmOrgBase.cpp:47-49 (result converted to 32 bits). -/
def getNodeIdx (value : BitVec 64) : BitVec 32 := ((value &&& nodeIdxMask) >>> 0).setWidth 32

/-- `getKind(IdType)` – ImmOrgBase.cpp:51-53 (`OrgSemKind` is a `short`). -/
def getKind (value : BitVec 64) : BitVec 16 := ((value &&& nodeKindMask) >>> 40).setWidth 16

/-- `combineMask` – ImmOrg.cpp:53-78; `u64(kind)` of a `short` sign-extends. -/
def combineMask (kind : BitVec 16) : Except Err (BitVec 64) := do
  let res := (kind.signExtend 64 <<< 40) &&& nodeKindMask
  let t ← fromMaskedIdx maskSize 0#64 (res >>> offset)
  if getKind t = kind then .ok (res >>> offset) else .error .assertion

/-- `combineFullValue` – ImmOrg.cpp:80-83. -/
def combineFullValue (kind : BitVec 16) (node : BitVec 32) : Except Err (BitVec 64) := do
  let mask ← combineMask kind
  .ok ((mask <<< offset) ||| ((node.setWidth 64 <<< 0) &&& nodeIdxMask))

/-- `ImmId(kind, nodeIndex)` – ImmOrgBase.hpp:243-244: the base constructor adds one. -/
def make (kind : BitVec 16) (node : BitVec 32) : Except Err (BitVec 64) := do
  let v ← combineFullValue kind node
  .ok (fromIndex v)

/-- `ImmId()` – ImmOrgBase.hpp:239. -/
def default : BitVec 64 := fromIndex 0#64

/-- `Nil` – ImmOrgBase.hpp:234-237. -/
def nil : BitVec 64 := 0#64

end ImmId

end Verif.Dod
