import Verif.Proto.Tables

/-!
# Model of the protobuf conversion – `serde/SemOrgSerde.hpp`, `serde/SemOrgSerde.cpp`

Values and messages are trees; the functions interpret the statements of the tables.  The encoding of messages to
bytes and back is done by the protobuf library and not modelled.
-/

namespace Verif.Proto

/-- The values of the semantic types.  `unset` is a member that the constructor leaves as it is. -/
inductive Val where
  | num (n : Int)
  | str (s : String)
  | none
  | some (v : Val)
  | vec (l : List Val)
  | map (l : List (String × Val))
  | alt (i : Nat) (v : Val)
  | nil
  | node (t : Ty) (fs : List (Fld × Val))
  | record (fs : List (Fld × Val))
  | unset

/-- Protobuf messages: only the fields that were set are there. -/
inductive Pb where
  | num (n : Int)
  | str (s : String)
  | kind (t : Ty)
  | msg (fs : List (PF × Pb))
  | rep (l : List Pb)
  | map (l : List (String × Pb))

/-- Abnormal ends: a nil node is dereferenced, an assertion fails (an exception), a value that is not of the declared
type (impossible in C++), and the recursion bound of the model. -/
inductive Err where
  | null | assertion | type | fuel
deriving DecidableEq, Repr

/-- The value of a name. -/
def get {κ α : Type} [DecidableEq κ] (l : List (κ × α)) (k : κ) : Option α := (l.find? fun e => decide (e.1 = k)).map (·.2)

/-- All statements of a function, with those of the base classes it calls (the functions of the base classes call no
further ones). -/
def stmtsOf (tbl : Ty → List Stmt) (t : Ty) : List Stmt :=
  (tbl t).flatMap fun s =>
    match s with
    | .base b => tbl b
    | s => [s]

/-- The members of a class and of its bases. -/
def allMembersN : Nat → Ty → List (Fld × FTy)
  | 0, _ => []
  | n + 1, t => (bases t).flatMap (allMembersN n) ++ members t

/-- The members of a class and of its bases (at most six levels). -/
def allMembers (t : Ty) : List (Fld × FTy) := allMembersN 8 t

/-- Whether a class is derived from another one. -/
def derivesN : Nat → Ty → Ty → Bool
  | 0, _, _ => false
  | n + 1, b, t => decide (t = b) || (bases t).any (derivesN n b)

/-- The classes of nodes, which are derived from `Org` – SemOrgTypes.hpp -/
def isNode (t : Ty) : Bool := derivesN 8 .Org t

/-! ## Writing -/

/-- One statement of `write`: the field that is set, if any. -/
def wStmt (go : Codec → Val → Except Err Pb) (t : Ty) (fs : List (Fld × Val)) : Stmt → Except Err (List (PF × Pb))
  | .one f p c | .oneIf f p c =>
    match get fs f with
    | some v => do
      let x ← go c v
      .ok [(p, x)]
    | none => .error .type
  | .opt f p c =>
    match get fs f with
    | some .none => .ok []
    | some (.some v) => do
      let x ← go c v
      .ok [(p, x)]
    | _ => .error .type
  | .rep f p c =>
    match get fs f with
    | some (.vec l) => do
      let xs ← l.mapM (go c)
      .ok [(p, .rep xs)]
    | _ => .error .type
  | .map f p c =>
    match get fs f with
    | some (.map l) => do
      let xs ← l.mapM fun e => do
        let x ← go c e.2
        .ok (e.1, x)
      .ok [(p, .map xs)]
    | _ => .error .type
  | .alts f p l =>
    match get fs f with
    | some (.alt i v) =>
      match l[i]? with
      | some (q, c) => do
        let x ← go c v
        .ok [(p, .msg [(q, x)])]
      | none => .error .type
    | _ => .error .type
  | .ref f p c =>
    match get fs f with
    | some .nil => .ok []
    | some v => do
      let x ← go c v
      .ok [(p, x)]
    | none => .error .type
  | .base _ => .error .type
  | .kind p => .ok [(p, .kind t)]

/-- A generated function `write` – SemOrgSerdeDefinitions.cpp -/
def writeMsg (go : Codec → Val → Except Err Pb) (t : Ty) (fs : List (Fld × Val)) : Except Err Pb := do
  let l ← (stmtsOf writes t).mapM (wStmt go t fs)
  .ok (.msg l.flatten)

/-- `proto_serde<…>::write` – SemOrgSerde.hpp:135-500, SemOrgSerde.cpp:24-43 -/
def writeN : Nat → Codec → Val → Except Err Pb
  | 0, _, _ => .error .fuel
  | n + 1, c, v =>
    match c, v with
    | .num, .num k => .ok (.num k)
    | .str, .str s => .ok (.str s)
    | .msg t, .record fs => writeMsg (writeN n) t fs
    | .node t, .node t' fs => if t = t' then writeMsg (writeN n) t fs else .error .type
    | .any, .node t fs =>
      match anyTable.find? fun e => decide (e.2 = t) with
      | some (q, _) => do
        let x ← writeMsg (writeN n) t fs
        .ok (.msg [(q, x)])
      | none => .ok (.msg [])
    | .node _, .nil | .any, .nil => .error .null
    | _, _ => .error .type

/-! ## Reading -/

/-- What the constructor puts into a member – the initialisers of SemOrgTypes.hpp and SemOrgSharedTypes.hpp: optional
values are empty, vectors and maps too, and nodes are nil. -/
def initial : FTy → Val
  | .opt _ => .none
  | .rep _ => .vec []
  | .map _ => .map []
  | .ref _ => .nil
  | .one _ | .alts _ => .unset

/-- A new object – `SemId<T>::New()`, `SerdeDefaultProvider<T>::get()`, `emplace_back()` -/
def fresh (t : Ty) : List (Fld × Val) := (allMembers t).map fun m => (m.1, initial m.2)

/-- Assignment to a member. -/
def put (acc : List (Fld × Val)) (f : Fld) (v : Val) : List (Fld × Val) :=
  acc.map fun e => if e.1 = f then (e.1, v) else e

/-- `insert_or_assign` -/
def assignKey (l : List (String × Val)) (k : String) (v : Val) : List (String × Val) :=
  if l.any fun e => decide (e.1 = k) then l.map fun e => if e.1 = k then (k, v) else e else l ++ [(k, v)]

/-- `kind_case()` of a message with one `oneof`, and the value in it; nothing for the default message. -/
def oneof : Option Pb → Option (PF × Pb)
  | some (.msg (e :: _)) => some e
  | _ => none

/-- The alternative with the given field. -/
def altOf (q : PF) : Nat → List (PF × Codec) → Option (Nat × Codec)
  | _, [] => none
  | i, (q', c) :: rest => if q' = q then some (i, c) else altOf q (i + 1) rest

/-- One statement of `read`: members are only assigned, except that vectors and maps are added to. -/
def rStmt (go : Codec → Option Pb → Except Err Val) (m : List (PF × Pb)) (acc : List (Fld × Val)) :
    Stmt → Except Err (List (Fld × Val))
  | .one f p c | .ref f p c => do
    let v ← go c (get m p)
    .ok (put acc f v)
  | .oneIf f p c =>
    match get m p with
    | none => .ok acc
    | some x => do
      let v ← go c (some x)
      .ok (put acc f v)
  | .opt f p c =>
    match get m p with
    | none => .ok acc
    | some x => do
      let v ← go c (some x)
      .ok (put acc f (.some v))
  | .rep f p c =>
    match get acc f, get m p with
    | some (.vec old), some (.rep l) => do
      let vs ← l.mapM fun x => go c (some x)
      .ok (put acc f (.vec (old ++ vs)))
    | some (.vec _), none => .ok acc
    | _, _ => .error .type
  | .map f p c =>
    match get acc f, get m p with
    | some (.map old), some (.map l) => do
      let vs ← l.mapM fun e => do
        let v ← go c (some e.2)
        .ok (e.1, v)
      .ok (put acc f (.map (vs.foldl (fun m e => assignKey m e.1 e.2) old)))
    | some (.map _), none => .ok acc
    | _, _ => .error .type
  | .alts f p l =>
    match oneof (get m p) with
    | none => .error .assertion
    | some (q, x) =>
      match altOf q 0 l with
      | none => .error .assertion
      | some (i, c) => do
        let v ← go c (some x)
        .ok (put acc f (.alt i v))
  | .base _ => .error .type
  | .kind _ => .ok acc

/-- The fields of a message; the default message when it is absent. -/
def fieldsOf : Option Pb → Except Err (List (PF × Pb))
  | none => .ok []
  | some (.msg m) => .ok m
  | some _ => .error .type

/-- A generated function `read` on a new object – SemOrgSerdeDefinitions.cpp.  Simplified: in the code the object is
given by the caller, who has always just made it. -/
def readMsg (go : Codec → Option Pb → Except Err Val) (t : Ty) (x : Option Pb) : Except Err (List (Fld × Val)) := do
  let m ← fieldsOf x
  (stmtsOf reads t).foldlM (rStmt go m) (fresh t)

/-- `proto_serde<…>::read` – SemOrgSerde.hpp:135-500, SemOrgSerde.cpp:45-75.  An absent number is zero, an absent string
empty, an absent message the default message. -/
def readN : Nat → Codec → Option Pb → Except Err Val
  | 0, _, _ => .error .fuel
  | n + 1, c, x =>
    match c with
    | .num =>
      match x with
      | none => .ok (.num 0)
      | some (.num k) => .ok (.num k)
      | _ => .error .type
    | .str =>
      match x with
      | none => .ok (.str "")
      | some (.str s) => .ok (.str s)
      | _ => .error .type
    | .msg t => do
      let fs ← readMsg (readN n) t x
      .ok (.record fs)
    | .node t => do
      let fs ← readMsg (readN n) t x
      .ok (.node t fs)
    | .any =>
      match oneof x with
      | none => .error .assertion
      | some (q, y) =>
        match anyTable.find? fun e => decide (e.1 = q) with
        | none => .error .assertion
        | some (_, t) => do
          let fs ← readMsg (readN n) t (some y)
          .ok (.node t fs)

end Verif.Proto
