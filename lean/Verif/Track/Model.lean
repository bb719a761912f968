import Verif.Imm.Model

/-!
# Names in the immutable document – src/haxorg/imm/ImmOrg.cpp:609-750

The tracking map of a version of the document finds nodes by name: headlines by their id and their custom
id, footnotes, statements by `#+name:`, definitions of tags, and radio targets by their first word.  It is
updated whenever a document is added and whenever a node is replaced (ImmOrgStore.cpp:77-78, 473).  The
store, the parents and the cascade are those of `Verif/Imm/Model.lean`; here the same functions carry the
names along.

Simplifications.

* The `data` of a node is what is relevant for names, and a number for everything else.
* `hashtag.getFlatHashes(false)` of the tag definitions of a headline is the list `tags`.
* A failed `LOGIC_ASSERTION_CHECK` and an index out of range are exceptions.
* Field 1 of a statement is `attached` (ImmOrgTypes.hpp:40); which kinds are statements is a parameter.
-/

namespace Verif.Track

open Verif.Imm

abbrev Text := List Char

/-- What a node holds: `ImmSubtree::treeId` and properties (`CustomId`, `RadioId`, `HashtagDef`),
`ImmRadioTarget::words`, the footnote of `ImmLink::target`, `ImmCmdName::name`. -/
structure Info where
  treeId : Option Text := none
  customIds : List Text := []
  radioIds : List (List Text) := []
  tags : List Text := []
  words : List Text := []
  footnote : Option Text := none
  name : Text := []
  rest : Nat := 0
deriving DecidableEq, Repr

/-- `OrgSemKind::CmdName` -/
abbrev cmdName : Kind := .other 0

/-- `OrgSemKind::Link` -/
abbrev link : Kind := .other 1

/-- The maps with one node for each key – ImmOrg.hpp:318-325. -/
inductive Slot where
  | footnote | subtree | name | customId | hashtag
deriving DecidableEq, Repr

/-- An entry of the tracking map for a node: in one of the maps of single nodes, or in the map of
radio targets. -/
inductive Mark where
  | at (slot : Slot) (key : Text)
  | radio (words : List Text) (target : Id)
deriving DecidableEq, Repr

/-- `ImmAstTrackingMapTransient` without parents – ImmOrg.hpp:274-283.  `none` is an absent key. -/
structure Names where
  slots : Slot → Text → Option Id
  radio : Text → Option (List Id)

def Names.empty : Names := ⟨fun _ _ => none, fun _ => none⟩

/-- `Stmt_getName` – SemOrgSharedApi.cpp:640-652, `Stmt_getAttached` – 589-616: the attached nodes of
kind `CmdName`. -/
def nameMarks (stmt : Kind → Bool) (s : Store Info) (v : Val Info) : List Mark :=
  if stmt v.kind then
    (v.kids.filter (fun k => decide (k.1.field = 1))).filterMap fun k =>
      match s[k.2]? with
      | some w => if w.kind = cmdName then some (.at .name w.data.name) else none
      | none => none
  else []

/-- `getFootnoteName` – SemOrgSharedApi.cpp:983-992. -/
def footnoteOf (s : Store Info) (v : Val Info) : Option Text :=
  match v.subs.head? with
  | none => none
  | some l =>
    match s[l]? with
    | some w => if w.kind = link then w.data.footnote else none
    | none => none

/-- `search_radio_targets` – ImmOrg.cpp:645-651: direct subnodes that are radio targets. -/
def targetMarks (s : Store Info) (v : Val Info) : List Mark :=
  v.subs.filterMap fun t =>
    match s[t]? with
    | some w => if w.kind = .RadioTarget then some (.radio w.data.words t) else none
    | none => none

/-- The entries of a node in the order in which they are made – ImmOrg.cpp:653-747. -/
def marks (stmt : Kind → Bool) (s : Store Info) (id : Id) : List Mark :=
  match s[id]? with
  | none => []
  | some v =>
    nameMarks stmt s v ++
    match v.kind with
    | .Subtree =>
      v.data.treeId.toList.map (.at .subtree) ++ v.data.customIds.map (.at .customId) ++
        v.data.radioIds.map (.radio · id) ++ v.data.tags.map (.at .hashtag)
    | .Paragraph => (footnoteOf s v).toList.map (.at .footnote) ++ targetMarks s v
    | _ => []

/-- `map.set(key, id)` -/
def Names.setSlot (n : Names) (slot : Slot) (key : Text) (v : Option Id) : Names :=
  { n with slots := fun sl k => if sl = slot ∧ k = key then v else n.slots sl k }

def Names.setRadio (n : Names) (w : Text) (v : Option (List Id)) : Names :=
  { n with radio := fun k => if k = w then v else n.radio k }

/-- An entry is made (`add` is true) – ImmOrg.cpp:611-630, 672-674, 696-741; `words.at(0)` throws for no
words. -/
def Names.put (id : Id) (n : Names) : Mark → Except Err Names
  | .at slot key => .ok (n.setSlot slot key (some id))
  | .radio [] _ => .error .throws
  | .radio (w :: _) t =>
    match n.radio w with
    | none => .ok (n.setRadio w (some [t]))
    | some l => if t ∈ l then .ok n else .ok (n.setRadio w (some (l ++ [t])))

/-- An entry is removed (`add` is false) – ImmOrg.cpp:611-643, 674-676, 696-741.  The definition of a tag is
not removed but inserted (718-720). -/
def Names.drop (id : Id) (n : Names) : Mark → Except Err Names
  | .at .hashtag key => .ok (n.setSlot .hashtag key (some id))
  | .at slot key => .ok (n.setSlot slot key none)
  | .radio [] _ => .error .throws
  | .radio (w :: _) t =>
    match n.radio w with
    | none => .error .throws
    | some l =>
      if t ∈ l then
        .ok (n.setRadio w (if l.erase t = [] then none else some (l.erase t)))
      else .error .throws

/-- A step for one entry after the other. -/
def each (f : Names → Mark → Except Err Names) : Names → List Mark → Except Err Names
  | n, [] => .ok n
  | n, m :: ms =>
    match f n m with
    | .ok n' => each f n' ms
    | .error e => .error e

/-- `updateTracking` – ImmOrg.cpp:609-750. -/
def updateTracking (stmt : Kind → Bool) (s : Store Info) (id : Id) (add : Bool) (n : Names) : Except Err Names :=
  each (if add then Names.put id else Names.drop id) n (marks stmt s id)

/-- The edit context with the names – ImmOrg.hpp:385-393. -/
structure TCtx where
  ctx : Ctx Info
  names : Names

def TCtx.start : TCtx := ⟨⟨[], fun _ => none⟩, .empty⟩

/-- `ImmAstStore::add(SemId)` – ImmOrgStore.cpp:463-476: as `addTree` of the Imm model, and the names. -/
def addTree (stmt : Kind → Bool) (c : TCtx) : {b : Bool} → Tree Info b → Except Err (Added b × TCtx)
  | true, .node k d l ks =>
    match (addTree stmt c ks : Except Err (List (Step × Id) × TCtx)) with
    | .error e => .error e
    | .ok r =>
      let a := r.2.ctx.store.add ⟨k, d, l, r.1⟩
      match updateTracking stmt a.2 a.1 true r.2.names with
      | .error e => .error e
      | .ok n =>
        .ok (a.1, ⟨(({ r.2.ctx with store := a.2 } : Ctx Info).removeAllSubnodesOf a.1).insertAllSubnodesOf a.1, n⟩)
  | false, .nil => .ok ([], c)
  | false, .cons st t rest =>
    match (addTree stmt c t : Except Err (Id × TCtx)) with
    | .error e => .error e
    | .ok a =>
      match (addTree stmt a.2 rest : Except Err (List (Step × Id) × TCtx)) with
      | .error e => .error e
      | .ok r => .ok ((st, a.1) :: r.1, r.2)

/-- `addRoot` – ImmOrgStore.cpp:617-627 -/
def addRoot (stmt : Kind → Bool) (c : TCtx) (t : Tree Info true) : Except Err (Id × TCtx) := addTree stmt c t

/-- `ImmAstStore::setNode` – ImmOrgStore.cpp:56-121: the names of the target are removed, those of the new
node are made. -/
def setNode (stmt : Kind → Bool) (c : TCtx) (target : Uniq) (v : Val Info) : Except Err (Option Replace × TCtx) :=
  let a := c.ctx.store.add v
  match updateTracking stmt a.2 target.id false c.names with
  | .error e => .error e
  | .ok n =>
    match updateTracking stmt a.2 a.1 true n with
    | .error e => .error e
    | .ok n => .ok ((Imm.setNode c.ctx target v).1, ⟨(Imm.setNode c.ctx target v).2, n⟩)

/-- The loop of `getUpdatedSubnodes` – ImmOrgStore.cpp:358-379, with the recursion as a parameter. -/
def updateAll (f : Uniq → TCtx → Except Err (Id × TCtx)) : List Uniq → TCtx → Except Err (List Id × TCtx)
  | [], c => .ok ([], c)
  | u :: us, c =>
    match f u c with
    | .error e => .error e
    | .ok (id, c) =>
      match updateAll f us c with
      | .error e => .error e
      | .ok (ids, c) => .ok (id :: ids, c)

/-- `recurseUpdateSubnodes` – ImmOrgStore.cpp:381-444, as in the Imm model. -/
def recurse (stmt : Kind → Bool) (srt : List (Step × Id) → List (Step × Id)) (rs : List Replace) (ps : List Uniq) :
    Nat → Uniq → TCtx → Except Err (Id × TCtx)
  | 0, _, _ => .error .diverges
  | fuel + 1, u, c =>
    if u ∈ ps then
      let target := (edit? rs u).getD u
      match updateAll (recurse stmt srt rs ps fuel) (c.ctx.store.subnodes target) c with
      | .error e => .error e
      | .ok (ids, c) =>
        if ids = (c.ctx.store.kids target.id).map (·.2) then
          if replaceOk c.ctx.store ⟨u, target⟩ then .ok (target.id, c) else .error .throws
        else
          match c.ctx.store[target.id]? with
          | none => .error .throws
          | some v =>
            match newKids srt v.kids (List.zip (v.kids.map (·.1)) ids) with
            | .error e => .error e
            | .ok kids =>
              match setNode stmt c target { v with kids := kids } with
              | .error e => .error e
              | .ok (some r, c) => if replaceOk c.ctx.store r then .ok (r.replaced.id, c) else .error .throws
              | .ok (none, _) => .error .throws
    else
      match edit? rs u with
      | some e => if replaceOk c.ctx.store ⟨u, e⟩ then .ok (e.id, c) else .error .throws
      | none => .ok (u.id, c)

/-- `cascadeUpdate` – ImmOrgStore.cpp:446-460 -/
def cascade (stmt : Kind → Bool) (srt : List (Step × Id) → List (Step × Id)) (fuel : Nat) (c : TCtx) (root : Id)
    (rs : List Replace) : Except Err (Id × TCtx) :=
  match inclAll c.ctx.store [] rs with
  | .error e => .error e
  | .ok rs =>
    match editParents c.ctx.store rs with
    | .error e => .error e
    | .ok ps => recurse stmt srt rs ps fuel ⟨root, root, []⟩ c

end Verif.Track
