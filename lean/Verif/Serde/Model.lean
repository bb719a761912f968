import Mathlib.Data.List.Nodup

/-!
# Model of the conversion to and from JSON – `hstd/stdlib/JsonSerde.hpp` and the other files `*Serde.hpp`

The specializations of `JsonSerde` become cases over a type of types.  Described records go by a number, so that they
may be recursive.  JSON values are those of nlohmann::json; the text of JSON is left to that library.
Simplifications: unordered containers and JSON objects are kept in the order of insertion (the order is never looked
at), a floating point number is an opaque token.
-/

namespace Verif.Serde

/-- JSON values – `nlohmann::json` -/
inductive Json where
  | null
  | bool (b : Bool)
  | int (i : Int)
  | flt (n : Nat)
  | str (s : String)
  | arr (l : List Json)
  | obj (l : List (String × Json))

mutual
  /-- `operator==` of JSON values -/
  def Json.beq : Json → Json → Bool
    | .null, .null => true
    | .bool a, .bool b => decide (a = b)
    | .int a, .int b => decide (a = b)
    | .flt a, .flt b => decide (a = b)
    | .str a, .str b => decide (a = b)
    | .arr a, .arr b => Json.beqL a b
    | .obj a, .obj b => Json.beqO a b
    | _, _ => false
  def Json.beqL : List Json → List Json → Bool
    | [], [] => true
    | a :: r, b :: s => Json.beq a b && Json.beqL r s
    | _, _ => false
  def Json.beqO : List (String × Json) → List (String × Json) → Bool
    | [], [] => true
    | (k, a) :: r, (q, b) :: s => decide (k = q) && (Json.beq a b && Json.beqO r s)
    | _, _ => false
end

mutual
  theorem Json.beq_iff (a b : Json) : Json.beq a b = true ↔ a = b := by
    cases a <;> cases b <;> simp [Json.beq, Json.beqL_iff, Json.beqO_iff]
  theorem Json.beqL_iff (a b : List Json) : Json.beqL a b = true ↔ a = b := by
    cases a <;> cases b <;> simp [Json.beqL]
    rename_i x l y m
    rw [Json.beq_iff x y, Json.beqL_iff l m]
  theorem Json.beqO_iff (a b : List (String × Json)) : Json.beqO a b = true ↔ a = b := by
    cases a with
    | nil => cases b <;> simp [Json.beqO]
    | cons x l =>
      obtain ⟨k, x⟩ := x
      cases b with
      | nil => simp [Json.beqO]
      | cons y m =>
        obtain ⟨q, y⟩ := y
        simp [Json.beqO, Json.beq_iff x y, Json.beqO_iff l m, and_assoc]
end

instance : DecidableEq Json := fun a b => decidable_of_iff _ (Json.beq_iff a b)

/-- C++ values.  `null` is an empty optional or a null pointer; a `box` is the value in it. -/
inductive Val where
  | int (i : Int)
  | flt (n : Nat)
  | str (s : String)
  | bool (b : Bool)
  | json (j : Json)
  | enum (k : Nat)
  | null
  | some (v : Val)
  | pair (a b : Val)
  | list (l : List Val)
  | map (l : List (Val × Val))
  | record (fs : List (String × Val))
  | alt (i : Nat) (v : Val)

mutual
  /-- Equality of values -/
  def Val.beq : Val → Val → Bool
    | .int a, .int b => decide (a = b)
    | .flt a, .flt b => decide (a = b)
    | .str a, .str b => decide (a = b)
    | .bool a, .bool b => decide (a = b)
    | .json a, .json b => decide (a = b)
    | .enum a, .enum b => decide (a = b)
    | .null, .null => true
    | .some a, .some b => Val.beq a b
    | .pair a b, .pair c d => Val.beq a c && Val.beq b d
    | .list a, .list b => Val.beqL a b
    | .map a, .map b => Val.beqM a b
    | .record a, .record b => Val.beqR a b
    | .alt i a, .alt j b => decide (i = j) && Val.beq a b
    | _, _ => false
  def Val.beqL : List Val → List Val → Bool
    | [], [] => true
    | a :: r, b :: s => Val.beq a b && Val.beqL r s
    | _, _ => false
  def Val.beqM : List (Val × Val) → List (Val × Val) → Bool
    | [], [] => true
    | (k, a) :: r, (q, b) :: s => Val.beq k q && (Val.beq a b && Val.beqM r s)
    | _, _ => false
  def Val.beqR : List (String × Val) → List (String × Val) → Bool
    | [], [] => true
    | (k, a) :: r, (q, b) :: s => decide (k = q) && (Val.beq a b && Val.beqR r s)
    | _, _ => false
end

mutual
  theorem Val.beq_iff (a b : Val) : Val.beq a b = true ↔ a = b := by
    cases a with
    | some a => cases b <;> simp [Val.beq, Val.beq_iff a]
    | pair a a' => cases b <;> simp [Val.beq, Val.beq_iff a, Val.beq_iff a']
    | list a => cases b <;> simp [Val.beq, Val.beqL_iff a]
    | map a => cases b <;> simp [Val.beq, Val.beqM_iff a]
    | record a => cases b <;> simp [Val.beq, Val.beqR_iff a]
    | alt i a => cases b <;> simp [Val.beq, Val.beq_iff a]
    | _ => cases b <;> simp [Val.beq]
  theorem Val.beqL_iff (a b : List Val) : Val.beqL a b = true ↔ a = b := by
    cases a with
    | nil => cases b <;> simp [Val.beqL]
    | cons x l => cases b <;> simp [Val.beqL, Val.beq_iff x, Val.beqL_iff l]
  theorem Val.beqM_iff (a b : List (Val × Val)) : Val.beqM a b = true ↔ a = b := by
    cases a with
    | nil => cases b <;> simp [Val.beqM]
    | cons x l =>
      obtain ⟨k, x⟩ := x
      cases b with
      | nil => simp [Val.beqM]
      | cons y m =>
        obtain ⟨q, y⟩ := y
        simp [Val.beqM, Val.beq_iff k, Val.beq_iff x, Val.beqM_iff l, and_assoc]
  theorem Val.beqR_iff (a b : List (String × Val)) : Val.beqR a b = true ↔ a = b := by
    cases a with
    | nil => cases b <;> simp [Val.beqR]
    | cons x l =>
      obtain ⟨k, x⟩ := x
      cases b with
      | nil => simp [Val.beqR]
      | cons y m =>
        obtain ⟨q, y⟩ := y
        simp [Val.beqR, Val.beq_iff x, Val.beqR_iff l, and_assoc]
end

instance : DecidableEq Val := fun a b => decidable_of_iff _ (Val.beq_iff a b)

/-- The types with a specialization of `JsonSerde`. -/
inductive Ty where
  /-- `int`, `uint8_t`, `unsigned int`, `unsigned long` … – JsonSerde.hpp:59-97 -/
  | int (signed : Bool) (bits : Nat)
  /-- `double`, `float` – 72-76, 99-103 -/
  | flt
  /-- `std::string`, `Str` – 105-122 -/
  | str
  /-- `char const*` – 111-115 -/
  | cstr
  /-- 125-129 -/
  | bool
  /-- `json` itself – 131-135; `elk::Options` – graph_elk.hpp:704-707 -/
  | json
  /-- A described enumeration with the names of its enumerators – 335-357 -/
  | enum (names : List String)
  /-- `std::optional` – OptSerde.hpp, `std::unique_ptr`, `std::shared_ptr` – JsonSerde.hpp:238-272 -/
  | opt (t : Ty)
  /-- `ImmBox` – ImmOrgBaseSerde.hpp:28-36 -/
  | box (t : Ty)
  /-- `Pair` – JsonSerde.hpp:43-56 -/
  | pair (a b : Ty)
  /-- `Slice`, `HSlice` – 13-41 -/
  | slice (a b : Ty)
  /-- `std::vector`, `Vec` – 155-174, 223-236, `ImmVec` – ImmOrgBaseSerde.hpp:38-52 -/
  | vec (t : Ty)
  /-- `UnorderedSet` – SetSerde.hpp, `IntSet` – IntSetSerde.hpp -/
  | set (t : Ty)
  /-- `std::unordered_map` – JsonSerde.hpp:176-203, `UnorderedMap` – MapSerde.hpp -/
  | map (k v : Ty)
  /-- `std::unordered_map<std::string, V>` – JsonSerde.hpp:205-220 -/
  | strMap (v : Ty)
  /-- `Unordered1to1Bimap` – bimap_wrap_serde.hpp -/
  | bimap (l r : Ty)
  /-- `ImmSet` – ImmOrgBaseSerde.hpp:54-68 -/
  | immSet (t : Ty)
  /-- `immer::map`, `ImmMap` – ImmOrgBaseSerde.hpp:70-103 -/
  | immMap (k v : Ty)
  /-- `ImmId`, `ImmIdT` – ImmOrgBaseSerde.hpp:105-124 -/
  | immId
  /-- A described record -/
  | record (r : Nat)
  /-- `std::variant` – VariantSerde.hpp:10-29 -/
  | variant (l : List Ty)

/-- A described record: its fields with those of the bases, what `SerdeDefaultProvider<T>::get()` gives, and whether
`JsonSerdeDescribedRecordBaseEx` is used. -/
structure Rec where
  fields : List (String × Ty)
  defaults : List (String × Val)
  ex : Bool

/-- The described records, and `ImmId::getReadableId`. -/
structure Env where
  recd : Nat → Rec
  readable : Int → String

/-- Abnormal ends: an exception, undefined behaviour (`operator[]` of a constant object without the key, no `return`),
a value that is not of the type (impossible in C++), conversions of floating point numbers (not modelled), and the
recursion bound of the model. -/
inductive Err where
  | throws | undef | type | unmodelled | fuel
deriving DecidableEq, Repr

/-! ## JSON values -/

/-- The value of a key. -/
def get {α : Type} (l : List (String × α)) (k : String) : Option α := (l.find? fun e => decide (e.1 = k)).map (·.2)

/-- `operator[](key) const` -/
def Json.at : Json → String → Except Err Json
  | .obj l, k => match get l k with | some j => .ok j | none => .error .undef
  | _, _ => .error .throws

/-- `result[key] = value` on an object -/
def assign {α : Type} (l : List (String × α)) (k : String) (v : α) : List (String × α) :=
  if l.any fun e => decide (e.1 = k) then l.map fun e => if e.1 = k then (k, v) else e else l ++ [(k, v)]

/-- `for (auto const& i : j)`: the elements of arrays, the values of objects; other values are their own only element -/
def Json.elems : Json → List Json
  | .arr l => l
  | .obj l => l.map (·.2)
  | .null => []
  | j => [j]

/-- `j.items()`: in arrays the keys are the indices -/
def Json.items : Json → List (String × Json)
  | .obj l => l
  | .arr l => l.mapIdx fun i j => (toString i, j)
  | .null => []
  | j => [("", j)]

/-- `static_cast` to an integer type. -/
def cast (signed : Bool) (bits : Nat) (i : Int) : Int := if signed then i.bmod (2 ^ bits) else i % (2 ^ bits : Nat)

/-- `j.get<int>()` and so on.  Simplified: booleans are accepted for all integer types (for `unsigned long` they throw). -/
def getInt (signed : Bool) (bits : Nat) : Json → Except Err Int
  | .int i => .ok (cast signed bits i)
  | .bool b => .ok (cast signed bits (if b then 1 else 0))
  | .flt _ => .error .unmodelled
  | _ => .error .throws

/-! ## Writing -/

/-- A vector or set to an array -/
def toList (go : Val → Except Err Json) : Val → Except Err Json
  | .list l => do
    let js ← l.mapM go
    .ok (.arr js)
  | _ => .error .type

/-- Entries to an array of objects of two keys – JsonSerde.hpp:178-190, bimap_wrap_serde.hpp:9-20 -/
def toEntries (a b : String) (gk gv : Val → Except Err Json) : Val → Except Err Json
  | .map l => do
    let js ← l.mapM fun e => do
      let x ← gk e.1
      let y ← gv e.2
      .ok (Json.obj [(a, x), (b, y)])
    .ok (.arr js)
  | _ => .error .type

/-- One entry of a map with strings as keys – JsonSerde.hpp:209 -/
def toStrEntry (go : Val → Except Err Json) (acc : List (String × Json)) (e : Val × Val) : Except Err (List (String × Json)) :=
  match e.1 with
  | .str k => do
    let x ← go e.2
    .ok (assign acc k x)
  | _ => .error .type

/-- `value_metadata<F>::isNil(value)`; it is also empty then – reflection.hpp:68-92, graph_elk.hpp:676-688 -/
def isNil : Ty → Val → Bool
  | .opt _, .null => true
  | .cstr, .null => true
  | .json, .json .null => true
  | _, _ => false

/-- One field of a record – JsonSerde.hpp:278-287, 308-311.  A field is left out if it is nil and empty. -/
def toField (go : Ty → Val → Except Err Json) (ex : Bool) (fs : List (String × Val)) (acc : List (String × Json))
    (f : String × Ty) : Except Err (List (String × Json)) :=
  match get fs f.1 with
  | none => .error .type
  | some v =>
    if ex && isNil f.2 v then .ok acc
    else do
      let x ← go f.2 v
      .ok (assign acc f.1 x)

/-- `JsonSerde<T>::to_json`, all specializations -/
def toN (env : Env) : Nat → Ty → Val → Except Err Json
  | 0, _, _ => .error .fuel
  | n + 1, ty, v =>
    match ty, v with
    | .int _ _, .int i => .ok (.int i)
    | .flt, .flt f => .ok (.flt f)
    | .str, .str s => .ok (.str s)
    | .cstr, .str s => .ok (.str s)
    | .cstr, .null => .error .undef
    | .bool, .bool b => .ok (.bool b)
    | .json, .json j => .ok j
    | .enum names, .enum k => .ok (.str (names[k]?.getD "<unnamed>"))
    | .opt _, .null => .ok .null
    | .opt t, .some v => toN env n t v
    | .box t, v => toN env n t v
    | .pair a b, .pair x y => do
      let j ← toN env n a x
      let k ← toN env n b y
      .ok (.obj [("first", j), ("second", k)])
    | .slice a b, .pair x y => do
      let j ← toN env n a x
      let k ← toN env n b y
      .ok (.obj [("first", j), ("last", k)])
    | .vec t, v | .set t, v | .immSet t, v => toList (toN env n t) v
    | .map a b, v | .immMap a b, v => toEntries "key" "value" (toN env n a) (toN env n b) v
    | .strMap t, .map l => do
      let js ← l.foldlM (toStrEntry (toN env n t)) []
      .ok (.obj js)
    | .bimap a b, v => toEntries "left" "right" (toN env n a) (toN env n b) v
    | .immId, .int i => .ok (.obj [("number", .int i), ("format", .str (env.readable i))])
    | .record r, .record fs => do
      let js ← (env.recd r).fields.foldlM (toField (toN env n) (env.recd r).ex fs) []
      .ok (.obj js)
    | .variant l, .alt i v =>
      match l[i]? with
      | none => .error .type
      | some t => do
        let j ← toN env n t v
        .ok (.obj [("index", .int i), ("value", j)])
    | _, _ => .error .type

/-! ## Reading -/

/-- `incl` – Set.hpp -/
def incl (l : List Val) (v : Val) : List Val := if v ∈ l then l else l ++ [v]

/-- `result[key] = value`, `insert_or_assign` -/
def insertOrAssign (l : List (Val × Val)) (k v : Val) : List (Val × Val) :=
  if l.any fun e => decide (e.1 = k) then l.map fun e => if e.1 = k then (k, v) else e else l ++ [(k, v)]

/-- One entry of an array of objects of two keys -/
def fromEntry (a b : String) (gk gv : Json → Except Err Val) (j : Json) : Except Err (Val × Val) := do
  let x ← j.at a
  let k ← gk x
  let y ← j.at b
  let v ← gv y
  .ok (k, v)

/-- `add_unique` – bimap_wrap.hpp:99-104 -/
def addUnique (l : List (Val × Val)) (e : Val × Val) : Except Err (List (Val × Val)) :=
  if l.any fun e' => decide (e'.1 = e.1) || decide (e'.2 = e.2) then .error .throws else .ok (l ++ [e])

/-- One field of a record – JsonSerde.hpp:294-299, 320-326 -/
def fromField (go : Ty → Json → Except Err Val) (j : Json) (acc : List (String × Val)) (f : String × Ty) :
    Except Err (List (String × Val)) :=
  match j with
  | .obj l =>
    match get l f.1 with
    | some x => do
      let v ← go f.2 x
      .ok (acc.map fun e => if e.1 = f.1 then (e.1, v) else e)
    | none => .ok acc
  | _ => .ok acc

/-- The index of an enumerator – reflection.hpp:209-214 -/
def enumOf (names : List String) (s : String) : Option Nat := names.findIdx? fun x => decide (x = s)

/-- `JsonSerde<T>::from_json`, all specializations -/
def fromN (env : Env) : Nat → Ty → Json → Except Err Val
  | 0, _, _ => .error .fuel
  | n + 1, ty, j =>
    match ty with
    | .int s b => do
      let i ← getInt s b j
      .ok (.int i)
    | .flt =>
      match j with
      | .flt f => .ok (.flt f)
      | .int _ => .error .unmodelled
      | _ => .error .throws
    | .str =>
      match j with
      | .str s => .ok (.str s)
      | _ => .error .throws
    | .cstr => .ok .null
    | .bool =>
      match j with
      | .bool b => .ok (.bool b)
      | _ => .error .throws
    | .json => .ok (.json j)
    | .enum names =>
      match j with
      | .str s =>
        match enumOf names s with
        | some k => .ok (.enum k)
        | none => .error .throws
      | _ => .error .throws
    | .opt t =>
      if j = .null then .ok .null
      else do
        let v ← fromN env n t j
        .ok (.some v)
    | .box t => fromN env n t j
    | .pair a b => do
      let x ← j.at "first"
      let x ← fromN env n a x
      let y ← j.at "second"
      let y ← fromN env n b y
      .ok (.pair x y)
    | .slice a b => do
      let x ← j.at "first"
      let x ← fromN env n a x
      let y ← j.at "last"
      let y ← fromN env n b y
      .ok (.pair x y)
    | .vec t => do
      let vs ← j.elems.mapM (fromN env n t)
      .ok (.list vs)
    | .set t => do
      let vs ← j.elems.mapM (fromN env n t)
      .ok (.list (vs.foldl incl []))
    | .map a b => do
      let es ← j.elems.mapM (fromEntry "key" "value" (fromN env n a) (fromN env n b))
      .ok (.map (es.foldl (fun m e => insertOrAssign m e.1 e.2) []))
    | .strMap t => do
      let es ← j.items.mapM fun e => do
        let v ← fromN env n t e.2
        .ok (Val.str e.1, v)
      .ok (.map (es.foldl (fun m e => insertOrAssign m e.1 e.2) []))
    | .bimap a b => do
      let es ← j.elems.mapM (fromEntry "left" "right" (fromN env n a) (fromN env n b))
      let l ← es.foldlM addUnique []
      .ok (.map l)
    | .immSet t => do
      -- the results of `result.insert(…)` are dropped
      let _ ← j.elems.mapM (fromN env n t)
      .ok (.list [])
    | .immMap a b => do
      let _ ← j.elems.mapM (fromEntry "key" "value" (fromN env n a) (fromN env n b))
      .ok (.map [])
    | .immId => do
      let x ← j.at "number"
      let i ← getInt false 64 x
      .ok (.int i)
    | .record r => do
      let fs ← (env.recd r).fields.foldlM (fromField (fromN env n) j) (env.recd r).defaults
      .ok (.record fs)
    | .variant _ => .error .undef

end Verif.Serde
