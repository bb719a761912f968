import Verif.Stamp.Model

/-!
# Model of the logbook of a headline

* `src/haxorg/sem/SemConvert.cpp:347-595`: `convertSubtreeLog`, from the list item of an entry to the
  entry;
* `src/haxorg/sem/SemOrgFormat.cpp:1410-1545`: from the entry to its lines.

Simplifications, for the whole file:
* A time is a `UserTime` as in `Verif.Stamp.Model`; a member which is not set by the conversion is
  `none` (in C++ it has the value of a default-constructed `UserTime`).
* The target of a link and a hashtag are their texts.
* The statements of a description after its first paragraph are of any type; what the formatter
  writes for a description is given as its lines.
* `TextTarget` and `ErrorSkipToken` are leaves, too (`node_after` reads their texts); here they are
  among the other nodes.
-/

namespace Verif.Log
open Verif.Token Verif.NodeGroup
open Verif.Parser (NK)
open Verif.Sem (LK)
open Verif.Stamp (Out Time UserTime Found)
open Verif.Drawer (Text)
open Verif.BaseLexer (normalize)

/-! ## The paragraph of an entry -/

/-- A sem node of a paragraph. -/
inductive Part where
  | leaf (k : LK) (text : Text)
  | time (t : Time)
  /-- a time given by code (`Time::Dynamic`) -/
  | dynamic
  | range (a b : Time)
  | tag (name : Text)
  | link (target : Text)
  | other
deriving DecidableEq, Repr

def Part.isWord : Part → Bool
  | .leaf .Word _ => true
  | _ => false

def Part.isNewline : Part → Bool
  | .leaf .Newline _ => true
  | _ => false

def Part.isBig : Part → Bool
  | .leaf .BigIdent _ => true
  | _ => false

/-- `osk::Time` -/
def Part.isTime : Part → Bool
  | .time _ | .dynamic => true
  | _ => false

def Part.isRange : Part → Bool
  | .range _ _ => true
  | _ => false

def Part.isTag : Part → Bool
  | .tag _ => true
  | _ => false

def Part.isLink : Part → Bool
  | .link _ => true
  | _ => false

/-- `text` of leaves, hashtags and links. -/
def Part.text : Part → Text
  | .leaf _ t | .tag t | .link t => t
  | _ => []

def Part.isLeaf : Part → Bool
  | .leaf _ _ => true
  | _ => false

/-- `Time::getStaticTime()` – SemOrgSharedApi.cpp; a time given by code throws. -/
def Part.static : Part → Out UserTime
  | .time t => .ok t.time
  | _ => .throws

/-- `filter_subnodes` with the limit `Newline` – SemConvert.cpp:347-354, 365. -/
def firstLine (par : List Part) (p : Part → Bool) : List Part := (par.takeWhile fun x => !x.isNewline).filter p

/-- `words` – SemConvert.cpp:367-370. -/
def wordsOf (par : List Part) : List Text := (firstLine par Part.isWord).map fun w => normalize w.text

/-- The inner loop of `node_after` – SemConvert.cpp:382-394; no target is a word. -/
def search (target : Part → Bool) : List Part → Option Part
  | [] => none
  | p :: r => if p.isWord then none else if target p then some p else search target r

/-- `node_after` – SemConvert.cpp:372-400. -/
def nodeAfter (word : Text) (target : Part → Bool) : List Part → Option Part
  | [] => none
  | p :: r =>
    if p.isLeaf = true ∧ normalize p.text = word then
      match search target r with
      | some x => some x
      | none => nodeAfter word target r
    else nodeAfter word target r

/-- `time_after(…)` and `getStaticTime` – SemConvert.cpp:402-409. -/
def timeAfter (word : Text) (par : List Part) : Out (Option UserTime) :=
  match nodeAfter word Part.isTime par with
  | none => .ok none
  | some p => p.static.bind fun t => .ok (some t)

/-! ## Entries -/

/-- `SubtreeLogHead::Priority::Action`. -/
inductive Action where
  | added | changed | removed
deriving DecidableEq, Repr

/-- `SubtreeLogHead` – SemOrgSharedTypes.hpp:491-600. -/
inductive Head where
  | priority (action : Action) (old new : Option Text) (on : Option UserTime)
  | note (on : Option UserTime)
  | refile (on : UserTime) (source : Option Text)
  | clock (start : UserTime) (stop : Option UserTime)
  | state (old new : Text) (on : Option UserTime)
  /-- none of its members is ever set -/
  | deadline
  | tag (name : Text) (added : Bool) (on : Option UserTime)
  | unknown
deriving DecidableEq, Repr

/-- A description: the nodes of its first paragraph (no paragraph if there are none) and the
statements after it. -/
structure Desc (β : Type) where
  para : List Part
  rest : List β
deriving DecidableEq, Repr

/-- `SubtreeLog` – SemOrgTypes.hpp:749-760. -/
structure Entry (β : Type) where
  head : Head
  desc : Option (Desc β)
deriving DecidableEq, Repr

/-! ## Reading -/

/-- An entry without words – SemConvert.cpp:411-435. -/
def clockOf (par : List Part) : Out Head :=
  match par.filter fun p => p.isTime || p.isRange with
  | [] => .throws
  | .range a b :: _ => .ok (.clock a.time (some b.time))
  | p :: _ => p.static.bind fun t => .ok (.clock t none)

/-- `tag` – SemConvert.cpp:439-456; `words.at(1)` throws if there is one word. -/
def tagOf (words : List Text) (par : List Part) : Out Head :=
  match nodeAfter "tag".toList Part.isTag par with
  | none => .bad
  | some t =>
    (timeAfter "on".toList par).bind fun on =>
    match words[1]? with
    | none => .throws
    | some w => .ok (.tag t.text (decide (w = "added".toList)) on)

/-- `state` – SemConvert.cpp:458-480. -/
def stateOf (par : List Part) : Out Head :=
  match nodeAfter "state".toList Part.isBig par with
  | none => .bad
  | some new =>
    let old := match nodeAfter "from".toList Part.isBig par with
      | some old => old.text
      | none => []
    (timeAfter "on".toList par).bind fun on =>
    match on with
    | some t => .ok (.state old new.text (some t))
    | none =>
      match firstLine par Part.isTime with
      | [] => .ok (.state old new.text none)
      | t :: _ => t.static.bind fun t => .ok (.state old new.text (some t))

/-- `refiled` – SemConvert.cpp:482-502. -/
def refileOf (par : List Part) : Out Head :=
  if (firstLine par Part.isTime).isEmpty then .throws
  else
    (timeAfter "on".toList par).bind fun on =>
    match on with
    | none => .bad
    | some t => .ok (.refile t ((firstLine par Part.isLink).head?.map Part.text))

/-- `priority` – SemConvert.cpp:512-549. -/
def priorityOf (words : List Text) (par : List Part) : Out Head :=
  let new := (nodeAfter "priority".toList Part.isBig par).map Part.text
  let old := (nodeAfter "from".toList Part.isBig par).map Part.text
  if "added".toList ∈ words then (timeAfter "on".toList par).bind fun on => .ok (.priority .added none new on)
  else if "changed".toList ∈ words then (timeAfter "on".toList par).bind fun on => .ok (.priority .changed old new on)
  else if "removed".toList ∈ words then (timeAfter "on".toList par).bind fun on => .ok (.priority .removed old none on)
  else .throws

/-- The head – SemConvert.cpp:411-568. -/
def headOf (par : List Part) : Out Head :=
  let words := wordsOf par
  if words = [] then clockOf par
  else if words[0]? = some "tag".toList then tagOf words par
  else if words[0]? = some "state".toList then stateOf par
  else if words[0]? = some "refiled".toList then refileOf par
  else if words[1]? = some "deadline".toList then .ok .deadline
  else if words[0]? = some "priority".toList then priorityOf words par
  else if words[0]? = some "note".toList ∧ (firstLine par Part.isTime).isEmpty = false then
    (timeAfter "on".toList par).bind fun on => .ok (.note on)
  else .ok .unknown

def Part.isBreak : Part → Bool
  | .leaf .Punctuation t => decide (t = "\\\\".toList)
  | _ => false

def Part.isBlank : Part → Bool
  | .leaf .Newline _ | .leaf .Space _ => true
  | _ => false

/-- The description in the first paragraph – SemConvert.cpp:571-581. -/
def descPara (par : List Part) : List Part :=
  ((par.dropWhile fun p => !p.isBreak).drop 1).dropWhile Part.isBlank

/-- The description – SemConvert.cpp:557-599. -/
def descOf {β : Type} (h : Head) (par : List Part) (rest : List β) : Option (Desc β) :=
  if h = .unknown then some ⟨par, rest⟩
  else if descPara par = [] ∧ rest = [] then none
  else some ⟨descPara par, rest⟩

/-- `convertSubtreeLog` – SemConvert.cpp:356-603, on the statements of the list item: the first one is
given by its subnodes (`item->at(0)`, an exception if there is none). -/
def convertLog {β : Type} (item : Option (List Part × List β)) : Out (Entry β) :=
  match item with
  | none => .throws
  | some (par, rest) => (headOf par).bind fun h => .ok ⟨h, descOf h par rest⟩

/-! ## From the text -/

/-- A hashtag – SemConvert.cpp:316-343, and a link (here: all texts inside of it). -/
def textsOf (toks : List Tok) (a : Sem.Adapter) : Text :=
  (a.map fun n => match n.value with
    | .tok i => match Pipeline.tokAt toks i with | some t => t.text | none => []
    | _ => []).flatten

/-- `convert` for the subnodes of a paragraph – SemConvert.cpp:2628-2735.  A time which is no time is
an error node. -/
def partOf (toks : List Tok) (a : Sem.Adapter) : Out Part :=
  match a with
  | [] => .throws
  | n :: _ =>
    match Sem.leafKind n.kind with
    | some k =>
      match n.value with
      | .tok i => match Pipeline.tokAt toks i with | some t => .ok (.leaf k t.text) | none => .throws
      | _ => .throws
    | none =>
      if n.kind ∈ Stamp.timeKinds then
        match Stamp.convertFound toks a with
        | .ok (.time t) => .ok (.time t)
        | .ok (.range x y) => .ok (.range x y)
        | .bad => .ok .other
        | .throws => .throws
        | .outside => .ok .dynamic
      else if n.kind = .HashTag then .ok (.tag ((textsOf toks a).dropWhile (· = '#')))
      else if n.kind = .Link then .ok (.link (textsOf toks a))
      else .ok .other

/-- All of them. -/
def partsOf (toks : List Tok) : List Sem.Adapter → Out (List Part)
  | [] => .ok []
  | a :: as => (partOf toks a).bind fun p => (partsOf toks as).bind fun ps => .ok (p :: ps)

/-- `convertParagraph` – SemConvert.cpp:1197-1209. -/
def paraOf (toks : List Tok) (a : Sem.Adapter) : Out (List Part) :=
  (partsOf toks (Sem.children a)).bind fun ps => .ok ((ps.reverse.dropWhile Part.isBlank).reverse)

/-- The entry whose list item has this text as its first paragraph (read as a document of its own). -/
def readEntry (n : Nat) (text : Text) : Except Pipeline.Err (Out (Entry Sem.Adapter)) :=
  match Pipeline.parse BaseLexer.stdLex n text with
  | .error e => .error e
  | .ok (toks, nodes) =>
    match Sem.children nodes with
    | [] => .ok (convertLog none)
    | p :: rest => .ok ((paraOf toks p).bind fun par => convertLog (some (par, rest)))

/-- One list item of a logbook: its body is the subnode number 4. -/
def itemEntry (toks : List Tok) (a : Sem.Adapter) : Out (Entry Sem.Adapter) :=
  match (Sem.children a)[4]? with
  | none => .throws
  | some body =>
    match Sem.children body with
    | [] => convertLog none
    | p :: rest => (paraOf toks p).bind fun par => convertLog (some (par, rest))

/-- The logbooks of a tree (given by its nodes in preorder). -/
def logbooks : Nat → List (Node NK Unit) → List Sem.Adapter
  | 0, _ => []
  | _ + 1, [] => []
  | f + 1, n :: rest =>
    if n.kind = .DrawerLogbook then (n :: rest.take n.getExtent.toNat) :: logbooks f (rest.drop n.getExtent.toNat)
    else logbooks f rest

/-- The entries of the logbooks of a document – `convertSubtreeDrawer`, SemConvert.cpp:611-624: the
list is the first subnode of the drawer. -/
def readLogbook (n : Nat) (text : Text) : Except Pipeline.Err (List (Out (Entry Sem.Adapter))) :=
  match Pipeline.parse BaseLexer.stdLex n text with
  | .error e => .error e
  | .ok (toks, nodes) =>
    .ok ((logbooks nodes.length nodes).flatMap fun b =>
      match Sem.children b with
      | [] => [.throws]
      | list :: _ => (Sem.children list).map (itemEntry toks))

/-! ## Writing -/

/-- `toString(UserTime)` – SemOrgFormat.hpp:27-30.  A time that is not set is left out of the model. -/
def showTime (t : Option UserTime) : Out Text :=
  match t with
  | some t => .ok ('[' :: t.show ++ [']'])
  | none => .outside

/-- `Opt::value()`. -/
def valueOf (o : Option Text) : Out Text :=
  match o with
  | some t => .ok t
  | none => .throws

/-- Seconds from one time to another (`GetTimeDelta` – SemOrgFormat.cpp:19-23), from `cctz`. -/
abbrev Delta := UserTime → UserTime → Int

/-- The line of an entry – SemOrgFormat.cpp:1415-1533, for all kinds but those written by their
description. -/
def headLine (delta : Delta) : Head → Out Text
  | .tag name added on =>
    (showTime on).bind fun t => .ok ("- Tag \"#".toList ++ name ++ "\"".toList ++ (if added then " Added" else " Removed").toList ++ " on ".toList ++ t)
  | .refile on source =>
    (showTime (some on)).bind fun t => .ok ("- Refiled on ".toList ++ t ++ " from [[".toList ++ source.getD [] ++ "]]".toList)
  | .state old new on =>
    (showTime on).bind fun t => .ok ("- State \"".toList ++ new ++ "\" from \"".toList ++ old ++ "\" ".toList ++ t)
  | .note on => (showTime on).bind fun t => .ok ("- Note taken on ".toList ++ t)
  | .clock start (some stop) =>
    (showTime (some start)).bind fun a => (showTime (some stop)).bind fun b =>
      .ok ("CLOCK: ".toList ++ a ++ "--".toList ++ b ++ " => ".toList ++ Stamp.formatDelta (delta start stop))
  | .clock start none => (showTime (some start)).bind fun a => .ok ("CLOCK: ".toList ++ a)
  | .priority .added _ new on =>
    (valueOf new).bind fun p => (showTime on).bind fun t => .ok ("- Priority ".toList ++ p ++ " added on ".toList ++ t)
  | .priority .changed old new on =>
    (valueOf new).bind fun p => (valueOf old).bind fun q => (showTime on).bind fun t =>
      .ok ("- Priority ".toList ++ p ++ " changed from ".toList ++ q ++ " on ".toList ++ t)
  | .priority .removed old _ on =>
    (valueOf old).bind fun q => (showTime on).bind fun t => .ok ("- Priority ".toList ++ q ++ " removed on ".toList ++ t)
  | .deadline | .unknown => .throws

/-- `add(log_head, str(…))`: at the end of the last line. -/
def addLast (s : Text) : List Text → List Text
  | [] => [s]
  | [l] => [l ++ s]
  | l :: r => l :: addLast s r

/-- A block after some text in a line: the lines after the first one are indented by its width. -/
def afterText (s : Text) : List Text → List Text
  | [] => [s]
  | l :: r => (s ++ l) :: r.map fun x => List.replicate s.length ' ' ++ x

/-- The lines of an entry – SemOrgFormat.cpp:1411-1545; `desc`: the lines of its description. -/
def writeEntry (delta : Delta) (head : Head) (desc : Option (List Text)) : Out (List Text) :=
  let first : Out (List Text) :=
    match head with
    | .deadline | .unknown =>
      match desc with
      | some d => .ok (afterText "- ".toList d)
      | none => .throws
    | h => (headLine delta h).bind fun l => .ok [l]
  first.bind fun ls =>
    match desc with
    | none => .ok ls
    | some d => .ok (addLast " \\\\".toList ls ++ d.map fun x => "  ".toList ++ x)

end Verif.Log
