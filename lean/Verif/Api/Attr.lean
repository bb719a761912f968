import Verif.Strs.Digits
import Mathlib.Data.List.Sort

/-!
# Model of attributes and properties

`src/haxorg/sem/SemOrgApi.cpp:35-258`, the reading of attributes in `SemConvert.cpp:1147-1160, 2208-2240`, and the properties of a stack of
nodes in `SemOrgSharedApi.cpp:73-96, 664-713, 992-1090`.
-/

namespace Verif.Api
open Verif.Strs (Bytes normalize)

/-- `AttrValue::DataVariant` – SemOrgSharedTypes.hpp:311; lisp code is not looked into. -/
inductive AttrData where
  | text (value : Bytes)
  | file (file reference : Bytes)
  | lisp (code : Bytes)
deriving DecidableEq, Repr

/-- `AttrValue` – SemOrgSharedTypes.hpp:280-343; spans and quoting are left out. -/
structure AttrValue where
  name : Option Bytes
  varname : Option Bytes
  data : AttrData
deriving DecidableEq, Repr

/-- `UnorderedMap<Str, AttrList>`: the entries, in the order in which the map is walked. -/
abbrev Named := List (Bytes × List AttrValue)

/-- `find`, `contains`, `at`. -/
def lookup (m : Named) (k : Bytes) : Option (List AttrValue) := (m.find? fun e => decide (e.1 = k)).map (·.2)

/-- `insert_or_assign`. -/
def assign (m : Named) (k : Bytes) (v : List AttrValue) : Named :=
  if (lookup m k).isSome then m.map fun e => if e.1 = k then (k, v) else e else m ++ [(k, v)]

/-- `AttrGroup` – SemOrgSharedTypes.hpp:658-683 -/
structure AttrGroup where
  positional : List AttrValue := []
  named : Named := []
deriving DecidableEq, Repr

/-- `sorted(named.keys())`; keys are not repeated, so it does not matter how they are sorted. -/
def AttrGroup.keys (g : AttrGroup) : List Bytes := (g.named.map (·.1)).insertionSort (· ≤ ·)

/-- `getFlatArgs` – SemOrgApi.cpp:36-40, and `getAll` – 95-105 -/
def AttrGroup.getFlatArgs (g : AttrGroup) : List AttrValue :=
  g.positional ++ g.keys.flatMap fun k => (lookup g.named k).getD []

/-- `getAttrs` – SemOrgApi.cpp:42-53 -/
def AttrGroup.getAttrs (g : AttrGroup) : Option Bytes → List AttrValue
  | some k =>
    match lookup g.named (normalize k) with
    | some items => items
    | none => []
  | none => g.getFlatArgs

/-- `getNamedSize` – SemOrgApi.cpp:55-59 -/
def AttrGroup.getNamedSize (g : AttrGroup) : Nat := (g.named.map (·.2.length)).sum

/-- `getPositionalSize` – SemOrgApi.cpp:61 -/
def AttrGroup.getPositionalSize (g : AttrGroup) : Nat := g.positional.length

/-- `isEmpty` – SemOrgApi.cpp:63-65 -/
def AttrGroup.isEmpty (g : AttrGroup) : Bool := g.getNamedSize == 0 && g.getPositionalSize == 0

/-- `getNamed` – SemOrgApi.cpp:79-81 -/
def AttrGroup.getNamed (g : AttrGroup) (k : Bytes) : Option (List AttrValue) := lookup g.named k

/-- `getFirstNamed` – SemOrgApi.cpp:87-93 -/
def AttrGroup.getFirstNamed (g : AttrGroup) (k : Bytes) : Option AttrValue := (lookup g.named k).bind List.head?

/-- `atVarNamed` – SemOrgApi.cpp:107-120 -/
def AttrGroup.atVarNamed (g : AttrGroup) (k : Bytes) : List AttrValue :=
  (g.positional.filter fun a => decide (a.varname = some k)) ++
    g.keys.flatMap fun key => ((lookup g.named key).getD []).filter fun a => decide (a.varname = some k)

/-- `setNamedAttr` – SemOrgApi.cpp:140-142 -/
def AttrGroup.setNamedAttr (g : AttrGroup) (k : Bytes) (items : List AttrValue) : AttrGroup :=
  { g with named := assign g.named (normalize k) items }

/-- `setPositionalAttr` – SemOrgApi.cpp:144 -/
def AttrGroup.setPositionalAttr (g : AttrGroup) (items : List AttrValue) : AttrGroup := { g with positional := items }

/-- `addArgument` – SemConvert.cpp:1147-1160 -/
def addArgument (g : AttrGroup) (a : AttrValue) : AttrGroup :=
  match a.name with
  | some n =>
    match lookup g.named (normalize n) with
    | some items => { g with named := assign g.named (normalize n) (items ++ [a]) }
    | none => { g with named := assign g.named (normalize n) [a] }
  | none => { g with positional := g.positional ++ [a] }

/-- `push_argument` – SemConvert.cpp:2214-2227, with the name of `last_named` -/
def pushArgument (s : AttrGroup × Option Bytes) (a : AttrValue) : AttrGroup × Option Bytes :=
  match a.name with
  | some n => (addArgument s.1 a, some n)
  | none =>
    match s.2 with
    | some n => (addArgument s.1 { a with name := some n }, s.2)
    | none => (addArgument s.1 a, s.2)

/-- `convertAttrs` – SemConvert.cpp:2208-2240, on the converted attributes -/
def readAttrs (args : List AttrValue) : AttrGroup := (args.foldl pushArgument ({}, none)).1

/-! ## Properties -/

/-- `NamedProperty::Kind` – SemOrgSharedTypes.hpp:1278 – without the kinds that carry a name. -/
inductive Builtin where
  | Nonblocking | ArchiveTime | ArchiveFile | ArchiveOlpath | ArchiveTarget | ArchiveCategory | ArchiveTodo | Trigger
  | ExportLatexClass | CookieData | ExportLatexClassOptions | ExportLatexHeader | ExportLatexCompiler | Ordered | Effort
  | Visibility | Blocker | Unnumbered | Created | RadioId | HashtagDef | CustomId
deriving DecidableEq, Repr

/-- The bytes of a text in ASCII. -/
def ascii (s : String) : Bytes := s.toList.map fun c => UInt8.ofNat c.toNat

/-- `fmt1(kind)`: the name of the enumerator. -/
def Builtin.name : Builtin → Bytes
  | .Nonblocking => ascii "Nonblocking" | .ArchiveTime => ascii "ArchiveTime" | .ArchiveFile => ascii "ArchiveFile"
  | .ArchiveOlpath => ascii "ArchiveOlpath" | .ArchiveTarget => ascii "ArchiveTarget" | .ArchiveCategory => ascii "ArchiveCategory"
  | .ArchiveTodo => ascii "ArchiveTodo" | .Trigger => ascii "Trigger" | .ExportLatexClass => ascii "ExportLatexClass"
  | .CookieData => ascii "CookieData" | .ExportLatexClassOptions => ascii "ExportLatexClassOptions"
  | .ExportLatexHeader => ascii "ExportLatexHeader" | .ExportLatexCompiler => ascii "ExportLatexCompiler" | .Ordered => ascii "Ordered"
  | .Effort => ascii "Effort" | .Visibility => ascii "Visibility" | .Blocker => ascii "Blocker" | .Unnumbered => ascii "Unnumbered"
  | .Created => ascii "Created" | .RadioId => ascii "RadioId" | .HashtagDef => ascii "HashtagDef" | .CustomId => ascii "CustomId"

/-- `NamedProperty` – SemOrgSharedTypes.hpp:1066-1290; the values of the built-in properties are bytes. -/
inductive Property where
  | builtin (kind : Builtin) (value : Bytes)
  | exportOptions (backend : Bytes) (values : Bytes)
  | args (name : Bytes) (sub : Option Bytes) (attrs : AttrGroup)
  | raw (name value : Bytes)
  | json (name value : Bytes)
  | flags (name : Bytes) (value : AttrGroup)
deriving DecidableEq, Repr

/-- `fmt1(getKind())`. -/
def Property.kindName : Property → Bytes
  | .builtin k _ => k.name
  | .exportOptions _ _ => ascii "ExportOptions"
  | .args _ _ _ => ascii "CustomArgs"
  | .raw _ _ => ascii "CustomRaw"
  | .json _ _ => ascii "CustomSubtreeJson"
  | .flags _ _ => ascii "CustomSubtreeFlags"

/-- `NamedProperty::getName` – SemOrgApi.cpp:216-222 -/
def Property.getName : Property → Bytes
  | .raw n _ => n
  | p => p.kindName

/-- `NamedProperty::getSubKind` – SemOrgApi.cpp:224-230 -/
def Property.getSubKind : Property → Option Bytes
  | .exportOptions b _ => some b
  | _ => none

/-- The last two cases of `isMatching` – SemOrgApi.cpp:248-257 -/
def Property.matchesKind (p : Property) (kind : Bytes) (sub : Option Bytes) : Bool :=
  if normalize p.kindName = normalize kind then true
  else
    match p, sub with
    | .exportOptions b _, some s => decide (normalize b = normalize s)
    | _, _ => false

/-- `NamedProperty::isMatching` – SemOrgApi.cpp:232-258 -/
def Property.isMatching (p : Property) (kind : Bytes) (sub : Option Bytes) : Bool :=
  match p with
  | .raw n _ => decide (normalize n = normalize kind)
  | .args n _ _ => decide (normalize n = normalize kind)
  | .json n _ =>
    if normalize kind = normalize (ascii "propjson") then
      match sub with
      | none => true
      | some s => decide (normalize n = normalize s)
    else p.matchesKind kind sub
  | .flags n _ =>
    if normalize kind = normalize (ascii "propargs") then
      match sub with
      | none => true
      | some s => decide (normalize n = normalize s)
    else p.matchesKind kind sub
  | _ => p.matchesKind kind sub

/-- A subtree: its id and its properties. -/
structure Tree where
  treeId : Option Bytes := none
  properties : List Property := []
deriving DecidableEq, Repr

/-- `subtreeGetPropertiesImpl` – SemOrgSharedApi.cpp:73-83; also for document options – 664-676 -/
def Tree.getProperties (t : Tree) (kind : Bytes) (sub : Option Bytes) : List Property :=
  t.properties.filter fun p => p.isMatching kind sub

/-- `subtreeGetPropertyImpl` – SemOrgSharedApi.cpp:85-96 -/
def Tree.getProperty (t : Tree) (kind : Bytes) (sub : Option Bytes) : Option Property := (t.getProperties kind sub).head?

/-- `removeProperty` – SemOrgApi.cpp:206-213: erases from the last to the first. -/
def Tree.removeProperty (t : Tree) (kind : Bytes) (sub : Option Bytes) : Tree :=
  { t with properties := t.properties.filter fun p => !(decide (p.getName = kind) && decide (p.getSubKind = sub)) }

/-- `setPropertyStrValue` – SemOrgApi.cpp:186-199 -/
def Tree.setPropertyStrValue (t : Tree) (value kind : Bytes) (sub : Option Bytes) : Tree :=
  if normalize kind = ascii "id" then { t with treeId := some value }
  else
    let t := t.removeProperty kind sub
    { t with properties := t.properties ++ [.raw kind value] }

/-- `setProperty` – SemOrgApi.cpp:201-204 -/
def Tree.setProperty (t : Tree) (p : Property) : Tree :=
  let t := t.removeProperty p.getName p.getSubKind
  { t with properties := t.properties ++ [p] }

/-- A failed assertion. -/
inductive Err where
  | assertion
deriving DecidableEq, Repr

/-- One round of the loop of `Org_combinePropertyStack` – SemOrgSharedApi.cpp:1004-1040 -/
def combineOne (res prop : Property) : Except Err Property :=
  if res.kindName ≠ prop.kindName then .error .assertion
  else
    match res, prop with
    | .args n s g, .args n' _ g' =>
      if n ≠ n' then .error .assertion
      else
        let g := if g'.positional.isEmpty then g else g.setPositionalAttr g'.positional
        .ok (.args n s (g'.named.foldl (fun g e => g.setNamedAttr e.1 e.2) g))
    | _, p => .ok p

/-- The loop of `Org_combinePropertyStack`. -/
def combineAll (res : Property) : List Property → Except Err Property
  | [] => .ok res
  | p :: ps =>
    match combineOne res p with
    | .error e => .error e
    | .ok r => combineAll r ps

/-- `Org_combinePropertyStack` – SemOrgSharedApi.cpp:992-1045 -/
def combineStack : List Property → Except Err (Option Property)
  | [] => .ok none
  | p :: ps =>
    match combineAll p ps with
    | .error e => .error e
    | .ok r => .ok (some r)

/-- `getFinalProperty` – SemOrgSharedApi.cpp:1074-1090, for subtrees from the outermost to the innermost. -/
def getFinalProperty (nodes : List Tree) (kind : Bytes) (sub : Option Bytes) : Except Err (Option Property) :=
  combineStack (nodes.filterMap fun t => t.getProperty kind sub)

end Verif.Api
