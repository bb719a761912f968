import Verif.Imm.Model
import Verif.Serde.Model
import Mathlib.Data.List.Sort

/-!
# Model of the evaluation of code blocks – src/haxorg/api/EvalContext.cpp

On top of the model of the immutable store (`Verif.Imm`).  Left out: traces, the files written for debugging, the
history kept for drawing graphs.
-/

namespace Verif.Eval

open Verif.Serde (Json)

/-! ## Slicing JSON values -/

/-- How slicing can fail: the exceptions of `sliceJson` itself, the exception of nlohmann::json for indexing something
that is not an array, and indexing an array out of range, which is undefined. -/
inductive SErr where
  | notArray | tooManySpans | firstOutOfRange | lastOutOfRange | typeError | undef
deriving DecidableEq, Repr

/-- `AttrValue::DimensionSpan` (src/haxorg/sem/SemOrgSharedTypes.hpp:281-287) -/
structure Span where
  first : Int
  last : Option Int
deriving DecidableEq, Repr

mutual
/-- `dimensions`: the lengths found by going down the first elements (src/haxorg/api/EvalContext.cpp:30-35) -/
def dims : Json → List Nat
  | .arr l => dimsL l
  | _ => []
/-- the length of an array and the dimensions of its first element -/
def dimsL : List Json → List Nat
  | [] => []
  | x :: xs => (xs.length + 1) :: dims x
end

/-- `indices[i]` for one span (src/haxorg/api/EvalContext.cpp:42-60) -/
def indices (size : Nat) (s : Span) : Except SErr (List Nat) :=
  let first := if s.first < 0 then (size : Int) + s.first else s.first
  if first < 0 ∨ (size : Int) ≤ first then .error .firstOutOfRange
  else
    let last := match s.last with | some l => l | none => first
    let last := if last < 0 then (size : Int) + last else last
    if last < 0 ∨ (size : Int) ≤ last ∨ last < first then .error .lastOutOfRange
    else .ok ((List.range (last - first + 1).toNat).map (first.toNat + ·))

/-- `indices` for all spans, one dimension after the other (src/haxorg/api/EvalContext.cpp:41-61) -/
def allIndices : List Nat → List Span → Except SErr (List (List Nat))
  | _, [] => .ok []
  | [], _ :: _ => .error .tooManySpans
  | n :: ns, s :: ss =>
    match indices n s with
    | .error e => .error e
    | .ok l =>
      match allIndices ns ss with
      | .error e => .error e
      | .ok ls => .ok (l :: ls)

/-- `value = &(*value)[idx]` for all indices of a path (src/haxorg/api/EvalContext.cpp:67-69) -/
def walk : Json → List Nat → Except SErr Json
  | v, [] => .ok v
  | .arr l, i :: is =>
    match l[i]? with
    | some x => walk x is
    | none => .error .undef
  | _, _ :: _ => .error .typeError

mutual
/-- `sliceRecursive` (src/haxorg/api/EvalContext.cpp:63-86) -/
def sliceRec (input : Json) : List (List Nat) → List Nat → Except SErr Json
  | [], path => walk input path
  | is :: rest, path =>
    match sliceIdx input rest path is with
    | .error e => .error e
    | .ok l => .ok (.arr l)
/-- the loop over the indices of one dimension (src/haxorg/api/EvalContext.cpp:74-84) -/
def sliceIdx (input : Json) (rest : List (List Nat)) (path : List Nat) : List Nat → Except SErr (List Json)
  | [] => .ok []
  | i :: is =>
    match sliceRec input rest (path ++ [i]) with
    | .error e => .error e
    | .ok x =>
      match sliceIdx input rest path is with
      | .error e => .error e
      | .ok xs => .ok (x :: xs)
end

/-- `sliceJson` (src/haxorg/api/EvalContext.cpp:25-89) -/
def sliceJson (input : Json) (spans : List Span) : Except SErr Json :=
  match input with
  | .arr _ =>
    if spans.isEmpty then .ok input
    else if (dims input).length < spans.length then .error .tooManySpans
    else
      match allIndices (dims input) spans with
      | .error e => .error e
      | .ok is => sliceRec input is []
  | _ => .error .notArray

/-! ## The input of an evaluation -/

/-- `OrgCodeEvalInput::ResultType` (src/haxorg/sem/SemOrgSharedTypes.hpp:695-705) -/
inductive ResultType where
  | none | table | list | scalar | saveFile
deriving DecidableEq, Repr

/-- `OrgCodeEvalInput::ResultFormat` (src/haxorg/sem/SemOrgSharedTypes.hpp:708-719) -/
inductive ResultFormat where
  | none | raw | code | drawer | exportType | link
deriving DecidableEq, Repr

/-- `OrgCodeEvalInput::ResultHandling` (src/haxorg/sem/SemOrgSharedTypes.hpp:722) -/
inductive Handling where
  | none | replace | silent | discard | append | prepend
deriving DecidableEq, Repr

/-- the fields of `OrgCodeEvalInput` that the words of `:results` set -/
structure Flags where
  type : ResultType
  format : ResultFormat
  handling : Handling
  exportType : Option String
deriving DecidableEq, Repr

/-- the loop body over the words of `:results` (src/haxorg/api/EvalContext.cpp:292-346); the words come
normalized. -/
def flagStep (f : Flags) (norm : String) : Flags :=
  if norm = "table" ∨ norm = "vector" then { f with type := .table }
  else if norm = "list" then { f with type := .list }
  else if norm = "scalar" ∨ norm = "verbatim" then { f with type := .scalar }
  else if norm = "file" then { f with type := .saveFile }
  else if norm = "raw" then { f with format := .raw }
  else if norm = "code" then { f with format := .code }
  else if norm = "drawer" then { f with format := .drawer }
  else if norm = "html" then { f with format := .exportType, exportType := some "html" }
  else if norm = "latex" then { f with format := .exportType, exportType := some "latex" }
  else if norm = "link" ∨ norm = "graphics" then { f with format := .link }
  else if norm = "org" then { f with format := .code, exportType := some "org" }
  else if norm = "pp" then { f with format := .code }
  else if norm = "replace" then { f with handling := .replace }
  else if norm = "silent" then { f with handling := .silent }
  else if norm = "none" then { f with handling := .none }
  else if norm = "discard" then { f with handling := .discard }
  else if norm = "append" then { f with handling := .append }
  else if norm = "prepend" then { f with handling := .prepend }
  else f

/-- the words of `:results`, then the two attributes for the language of the result
(src/haxorg/api/EvalContext.cpp:264-265, 292-354) -/
def flags (words : List String) (exportLang codeLang : Option String) : Flags :=
  let f := words.foldl flagStep ⟨.scalar, .none, .replace, none⟩
  let f := match exportLang with | some s => { f with exportType := some s } | none => f
  match codeLang with | some s => { f with exportType := some s } | none => f

/-- `BlockCodeLine::Part` -/
inductive Part where
  | raw (code : List Char)
  | callout (name : List Char)
  | tangle (target : List Char)
deriving DecidableEq, Repr

/-- How making the input can fail: `logic_todo_impl`, `value()` of an empty optional, an exception of the lookup of a
value -/
inductive IErr where
  | todo | badOptional | lookup
deriving DecidableEq, Repr

/-- one line of a block (src/haxorg/api/EvalContext.cpp:271-287) -/
def lineText : List Part → Except IErr (List Char)
  | [] => .ok []
  | .raw c :: ps => (lineText ps).map (c ++ ·)
  | .callout _ :: ps => lineText ps
  | .tangle _ :: _ => .error .todo

/-- `join("\n", buf)` (src/haxorg/api/EvalContext.cpp:290, hstd::join) -/
def joinLines : List (List Char) → List Char
  | [] => []
  | [l] => l
  | l :: ls => l ++ '\n' :: joinLines ls

/-- `input.tangledCode` (src/haxorg/api/EvalContext.cpp:268-290) -/
def tangledCode (lines : List (List Part)) : Except IErr (List Char) := (lines.mapM lineText).map joinLines

section
variable {N A V : Type} [LinearOrder N]

/-- `byVarname.insert_or_assign` (src/haxorg/api/EvalContext.cpp:360, 367); the order of the unordered map does not
matter, since its keys are sorted. -/
def assign (m : List (N × A)) (k : N) (a : A) : List (N × A) :=
  if (m.map (·.1)).contains k then m.map (fun e => if e.1 = k then (k, a) else e) else m ++ [(k, a)]

/-- the default variables: each needs a name (src/haxorg/api/EvalContext.cpp:356-362) -/
def defaults (varname : A → Option N) : List A → List (N × A) → Except IErr (List (N × A))
  | [], m => .ok m
  | a :: as, m =>
    match varname a with
    | none => .error .badOptional
    | some k => defaults varname as (assign m k a)

/-- the variables of the call site: those without a name are left out (src/haxorg/api/EvalContext.cpp:364-369) -/
def callsite (varname : A → Option N) : List A → List (N × A) → List (N × A)
  | [], m => m
  | a :: as, m =>
    match varname a with
    | none => callsite varname as m
    | some k => callsite varname as (assign m k a)

/-- the values of the variables in the order of their names (src/haxorg/api/EvalContext.cpp:371-385); `value` is
`getAttrValue`, or `getString` when it gives nothing. -/
def values (value : A → Except IErr V) (m : List (N × A)) : Except IErr (List (N × V)) :=
  ((m.map (·.1)).insertionSort (· ≤ ·)).mapM fun k =>
    match m.find? (fun e => decide (e.1 = k)) with
    | none => .error .badOptional
    | some e => (value e.2).map fun v => (k, v)

/-- `input.argList` (src/haxorg/api/EvalContext.cpp:355-385) -/
def argList (varname : A → Option N) (value : A → Except IErr V) (defs call : List A) :
    Except IErr (List (N × V)) :=
  match defaults varname defs [] with
  | .error e => .error e
  | .ok m => values value (callsite varname call m)

end

/-! ## Evaluating all blocks of a document -/

open Verif.Imm

section
variable {D : Type} [DecidableEq D]

/-- `assign_result` for the ids in the field `result` (src/haxorg/api/EvalContext.cpp:421-441) -/
def handle (h : Handling) {X : Type} (old : List X) (x : X) : List X :=
  match h with
  | .append => old ++ [x]
  | .prepend => x :: old
  | .replace => [x]
  | _ => old

/-- the ids in a field (`code.result`) -/
def fieldIds (v : Val D) (f : Nat) : List Id := (v.kids.filter (fun k => decide (k.1.field = f))).map (·.2)

/-- the assignment to a vector field (`code.result = ..`, src/haxorg/api/EvalContext.cpp:425-431) -/
def setField (v : Val D) (f : Nat) (ids : List Id) : Val D :=
  { v with kids := v.kids.filter (fun k => decide (k.1.field < f)) ++ ids.mapIdx (fun i id => (⟨f, .idx i⟩, id)) ++
      v.kids.filter (fun k => decide (f < k.1.field)) }

/-- What is fixed: the kinds `BlockCode` and `CmdCall`, and the number of the field `result` in these kinds -/
structure Kinds where
  isCode : Kind → Bool
  resField : Kind → Nat

/-- `eachSubnodeRec` of immutable nodes with paths (src/haxorg/imm/ImmOrg.cpp:160-165), collecting the code nodes
(src/haxorg/api/EvalContext.cpp:471-481); the fuel bounds the depth. -/
def collect (K : Kinds) (s : Store D) : Nat → Uniq → List Uniq
  | 0, _ => []
  | fuel + 1, u =>
    (match s[u.id]? with | some v => if K.isCode v.kind then [u] else [] | none => []) ++
      (s.subnodes u).flatMap (collect K s fuel)

/-- `ImmAstVersion`: the root and the context -/
structure Ver (D : Type) where
  root : Id
  ctx : Ctx D

/-- The evaluation of one block: what it is evaluated to (`getTargetBlock`, `convertInput`, `conf.evalBlock` and
`convertOutput`, src/haxorg/api/EvalContext.cpp:206-261, 488-523), for the number of the turn, the present version and
the node.  `none` when there is no block to evaluate or no output. -/
abbrev Evaluator (D : Type) := Nat → Ver D → Uniq → Option (Handling × Tree D true)

/-- `setOutput` (src/haxorg/api/EvalContext.cpp:391-459): the node at the path of `block`, whose root is that of the
document before all evaluations -/
def setOutput (K : Kinds) (srt : List (Step × Id) → List (Step × Id)) (fuel : Nat) (ver : Ver D) (block : Uniq)
    (h : Handling) (t : Tree D true) : Except Err (Ver D) :=
  match ver.ctx.store.at block.root block.path with
  | none => .error .throws
  | some target =>
    let a : Id × Ctx D := addTree ver.ctx t
    match a.2.store[target]? with
    | none => .error .throws
    | some v =>
      let f := K.resField v.kind
      let r := setNode a.2 { block with id := target } (setField v f (handle h (fieldIds v f) a.1))
      match cascade srt fuel r.2 ver.root r.1.toList with
      | .error e => .error e
      | .ok (root, c) => .ok ⟨root, c⟩

/-- the loop of `evalAll` (src/haxorg/api/EvalContext.cpp:489-523); the outputs come with the result. -/
def evalLoop (K : Kinds) (srt : List (Step × Id) → List (Step × Id)) (fuel : Nat) (E : Evaluator D) :
    Nat → List Uniq → Ver D → Except Err (Ver D × List (Uniq × Option (Handling × Tree D true)))
  | _, [], ver => .ok (ver, [])
  | k, b :: bs, ver =>
    match E k ver b with
    | none =>
      match evalLoop K srt fuel E (k + 1) bs ver with
      | .error e => .error e
      | .ok (ver, out) => .ok (ver, (b, none) :: out)
    | some (h, t) =>
      match setOutput K srt fuel ver b h t with
      | .error e => .error e
      | .ok ver =>
        match evalLoop K srt fuel E (k + 1) bs ver with
        | .error e => .error e
        | .ok (ver, out) => .ok (ver, (b, some (h, t)) :: out)

/-- `evaluateCodeBlocks` (src/haxorg/api/EvalContext.cpp:462-551): the document after the evaluation
(`sem_from_immer` of the last version), and the outputs -/
def evaluate (K : Kinds) (srt : List (Step × Id) → List (Step × Id)) (fuel : Nat) (E : Evaluator D) (doc : Tree D true) :
    Except Err (Tree D true × List (Uniq × Option (Handling × Tree D true))) :=
  let a : Id × Ctx D := addRoot ⟨[], fun _ => none⟩ doc
  match evalLoop K srt fuel E 0 (collect K a.2.store fuel ⟨a.1, a.1, []⟩) ⟨a.1, a.2⟩ with
  | .error e => .error e
  | .ok (ver, out) =>
    match ver.ctx.store.get fuel ver.root with
    | none => .error .throws
    | some t => .ok (t, out)

end

end Verif.Eval
