/-!
# Model of the immutable document store – src/haxorg/imm

Simplifications.

* One list of values in the order of insertion stands for the per-kind stores
  (`ImmAstStore`, ImmOrg.hpp:495-514); an id is the position of its value.  The packing of
  kind and index in an id is the subject of `Verif.Dod` (C06, C33).  There is no nil id.
* What a value holds besides kind, location and node ids is one opaque component `data`.
* A place of a value that holds an id is given by the number of the field and the rest of
  the path: an index (vector), nothing (single id; the paths of boxed optional ids have two
  further dereferences) or a key (map).  Fields come in the order of their number
  (`for_each_field_with_base_value`, reflection.hpp:311-333), the keys of a map in their order.
* The other tracking maps (names, subtree ids, radio targets) are not modelled here.
-/

namespace Verif.Imm

/-- `OrgSemKind`: the kinds which the modelled code mentions; all others by their number. -/
inductive Kind where
  | Document | DocumentGroup | Subtree | Paragraph
  | Space | Word | BigIdent | Time | Punctuation | Newline
  | RadioTarget | HashTag
  | other (n : Nat)
deriving DecidableEq, Repr

/-- What follows the field name in a step – `ReflPathItem`, reflection_visitor.hpp -/
inductive Key where
  | idx (i : Nat)
  | deref
  | name (s : String)
deriving DecidableEq, Repr

/-- `ImmPathStep` – ImmOrg.hpp:90-123 -/
structure Step where
  field : Nat
  key : Key
deriving DecidableEq, Repr

/-- `ImmId` -/
abbrev Id := Nat

/-- A value of the store (`ImmOrg` and the types derived from it) – ImmOrgBase.hpp:257-282 -/
structure Val (D : Type) where
  kind : Kind
  data : D
  loc : Option Nat
  kids : List (Step × Id)
deriving DecidableEq, Repr

/-- The vector `subnodes` is the field with number 0 – ImmOrgBase.hpp:258 -/
def subStep (i : Nat) : Step := ⟨0, .idx i⟩

/-- `ImmPathStep::FieldIdx(subnodes, i)` for all subnodes. -/
def number (ids : List Id) : List (Step × Id) := ids.mapIdx (fun i id => (subStep i, id))

section
variable {D : Type}

/-- `ImmOrg::subnodes` -/
def Val.subs (v : Val D) : List Id := (v.kids.filter (fun k => decide (k.1.field = 0))).map (·.2)

/-- `node.subnodes = subnodes` – ImmOrgStore.cpp:48 -/
def Val.setSubs (v : Val D) (ids : List Id) : Val D :=
  { v with kids := number ids ++ v.kids.filter (fun k => decide (k.1.field ≠ 0)) }

/-- The mutable document (`sem::Org`), as far as it is converted: `ImmSemSerde`,
ImmOrgStore.cpp:653-851, ImmOrgSerde.tcc. -/
inductive Tree (D : Type) : Bool → Type where
  | node (kind : Kind) (data : D) (loc : Option Nat) (kids : Tree D false) : Tree D true
  | nil : Tree D false
  | cons (step : Step) (t : Tree D true) (rest : Tree D false) : Tree D false
deriving DecidableEq, Repr

/-- `ImmAstStore` -/
abbrev Store (D : Type) := List (Val D)

/-- The edit context: the shared store and the parents of the tracking map –
ImmOrg.hpp:384-405, 296-330 -/
structure Ctx (D : Type) where
  store : Store D
  parents : Id → Option (List Id)

/-! ## Adding values -/

variable [DecidableEq D]

/-- Equality of values ignores locations: `imm_eq_build` – ImmOrgHash.cpp:29-42 -/
def Val.same (a b : Val D) : Bool := decide (a.kind = b.kind ∧ a.data = b.data ∧ a.kids = b.kids)

/-- `ImmAstKindStore::add(value)` – ImmOrgStore.cpp:898-920, `InternStore::add` (see
`Verif.Dod`): the id of an equal value if there is one, a new id otherwise. -/
def Store.add (s : Store D) (v : Val D) : Id × Store D :=
  match s.findIdx? (v.same ·) with
  | some i => (i, s)
  | none => (s.length, s ++ [v])

/-- `getAllSubnodes` – ImmOrg.cpp:443-481, as pairs of step and id -/
def Store.kids (s : Store D) (id : Id) : List (Step × Id) :=
  match s[id]? with
  | some v => v.kids
  | none => []

/-- `isTrackingParentDefault` – ImmOrg.cpp:1239-1249 -/
def trackedKind : Kind → Bool
  | .Space | .Word | .BigIdent | .Time | .Punctuation | .Newline => false
  | _ => true

/-- `isTrackingParent(adapter)` – ImmOrg.hpp:317-319 -/
def Store.tracked (s : Store D) (id : Id) : Bool :=
  match s[id]? with
  | some v => trackedKind v.kind
  | none => false

/-- `m.set(key, value)` -/
def setMap (m : Id → Option (List Id)) (k : Id) (v : List Id) : Id → Option (List Id) :=
  fun k' => if k' = k then some v else m k'

/-- `setAsParentOf` – ImmOrg.cpp:540-550 -/
def setAsParentOf (m : Id → Option (List Id)) (parent target : Id) : Id → Option (List Id) :=
  match m target with
  | none => setMap m target [parent]
  | some l => if parent ∈ l then m else setMap m target (l ++ [parent])

/-- The loop body of `removeAllSubnodesOf` – ImmOrg.cpp:561-571 -/
def removeParent (s : Store D) (parent : Id) (m : Id → Option (List Id)) (sub : Id) : Id → Option (List Id) :=
  match m sub with
  | none => m
  | some l => if s.tracked sub ∧ parent ∈ l then setMap m sub (l.erase parent) else m

/-- `removeAllSubnodesOf` – ImmOrg.cpp:559-572 -/
def Ctx.removeAllSubnodesOf (c : Ctx D) (parent : Id) : Ctx D :=
  if c.store.tracked parent then
    { c with parents := ((c.store.kids parent).map (·.2)).foldl (removeParent c.store parent) c.parents }
  else c

/-- The loop body of `insertAllSubnodesOf` – ImmOrg.cpp:576-578 -/
def insertParent (s : Store D) (parent : Id) (m : Id → Option (List Id)) (sub : Id) : Id → Option (List Id) :=
  if s.tracked sub then setAsParentOf m parent sub else m

/-- `insertAllSubnodesOf` – ImmOrg.cpp:574-579 -/
def Ctx.insertAllSubnodesOf (c : Ctx D) (parent : Id) : Ctx D :=
  if c.store.tracked parent then
    { c with parents := ((c.store.kids parent).map (·.2)).foldl (insertParent c.store parent) c.parents }
  else c

/-- The result of converting a node or a list of them. -/
abbrev Added : Bool → Type
  | true => Id
  | false => List (Step × Id)

/-- `ImmAstStore::add(SemId)` – ImmOrgStore.cpp:463-476 with `ImmAstKindStore::add(SemId)`
– 879-895: the children first (`to_immer`), then the value, then the tracking.  Converting
the fields goes in their order (ImmOrgSerde.tcc). -/
def addTree (c : Ctx D) : {b : Bool} → Tree D b → Added b × Ctx D
  | true, .node k d l ks =>
    let r : List (Step × Id) × Ctx D := addTree c ks
    let a := r.2.store.add ⟨k, d, l, r.1⟩
    (a.1, (({ r.2 with store := a.2 } : Ctx D).removeAllSubnodesOf a.1).insertAllSubnodesOf a.1)
  | false, .nil => ([], c)
  | false, .cons st t rest =>
    let a : Id × Ctx D := addTree c t
    let r : List (Step × Id) × Ctx D := addTree a.2 rest
    ((st, a.1) :: r.1, r.2)

/-- `ImmAstContext::addRoot` – ImmOrgStore.cpp:617-627 -/
def addRoot (c : Ctx D) (t : Tree D true) : Id × Ctx D := addTree c t

/-- `ImmAstStore::get` – ImmOrgStore.cpp:497-504 with `ImmAstKindStore::get` – 923-934.  The
fuel bounds the depth. -/
def Store.get (s : Store D) : Nat → Id → Option (Tree D true)
  | 0, _ => none
  | fuel + 1, id =>
    match s[id]? with
    | none => none
    | some v =>
      (v.kids.foldr (fun k acc =>
        match Store.get s fuel k.2, acc with
        | some t, some ts => some (.cons k.1 t ts)
        | _, _ => none) (some .nil)).map (.node v.kind v.data v.loc)

/-! ## Positions -/

/-- `ImmUniqId`, also the adapter (whose context is the store): the node, and the path to
it – ImmOrg.hpp:139-236 -/
structure Uniq where
  id : Id
  root : Id
  path : List Step
deriving DecidableEq, Repr

/-- `ImmAstContext::at(node, step)` – ImmOrgStore.cpp:513-540; `none` for an exception -/
def Store.atStep (s : Store D) (id : Id) (st : Step) : Option Id :=
  ((s.kids id).find? (fun k => decide (k.1 = st))).map (·.2)

/-- `ImmAstContext::at(path)` – ImmOrgStore.cpp:542-546 -/
def Store.at (s : Store D) : Id → List Step → Option Id
  | id, [] => some id
  | id, st :: p =>
    match s.atStep id st with
    | some id' => Store.at s id' p
    | none => none

/-- Abnormal ends: an exception thrown by the code or by a checked library function, a call
outside of the preconditions of a library function, no result within the fuel. -/
inductive Err where
  | throws | unchecked | diverges
deriving DecidableEq, Repr

/-- `ImmPath::pathSpans` – ImmOrg.hpp:176-190: `take(n - 1)`, ..., `take(0)`. -/
def pathSpans (p : List Step) : List (List Step) := (List.range p.length).reverse.map (fun i => p.take i)

/-- The adapter of a path – ImmOrg.hpp:890-891 -/
def Store.adapter (s : Store D) (root : Id) (p : List Step) : Except Err Uniq :=
  match s.at root p with
  | some id => .ok ⟨id, root, p⟩
  | none => .error .throws

/-- `getParentChain` – ImmOrg.cpp:510-521; the argument is not used. -/
def Store.parentChain (s : Store D) (u : Uniq) : Except Err (List Uniq) :=
  (pathSpans u.path ++ [[]]).mapM (fun p => s.adapter u.root p)

/-- `getAllSubnodes(path)` – ImmOrg.cpp:443-481 -/
def Store.subnodes (s : Store D) (u : Uniq) : List Uniq :=
  (s.kids u.id).map (fun k => ⟨k.2, u.root, u.path ++ [k.1]⟩)

/-! ## Edits -/

/-- `ImmAstReplace` – ImmOrg.hpp:427-432 -/
structure Replace where
  original : Uniq
  replaced : Uniq
deriving DecidableEq, Repr

/-- `ImmAstStore::setNode` – ImmOrgStore.cpp:56-121 -/
def setNode (c : Ctx D) (target : Uniq) (v : Val D) : Option Replace × Ctx D :=
  let a := c.store.add v
  let c' := (({ c with store := a.2 } : Ctx D).removeAllSubnodesOf target.id).insertAllSubnodesOf a.1
  if a.1 = target.id then (none, c') else (some ⟨target, { target with id := a.1 }⟩, c')

/-- `setSubnodes` – ImmOrgStore.cpp:41-53: nothing to report if the value does not change,
`result.value()` throws. -/
def setSubnodes (c : Ctx D) (target : Uniq) (ids : List Id) : Except Err (Replace × Ctx D) :=
  match c.store[target.id]? with
  | none => .error .throws
  | some v =>
    match setNode c target (v.setSubs ids) with
    | (some r, c') => .ok (r, c')
    | (none, _) => .error .throws

/-- The subnodes of an adapter (`node->subnodes`) -/
def Store.subs (s : Store D) (id : Id) : List Id :=
  match s[id]? with
  | some v => v.subs
  | none => []

/-- `setSubnode` – ImmOrgEdit.cpp:11-19; `flex_vector::set` does not check. -/
def setSubnode (c : Ctx D) (node : Uniq) (new : Id) (pos : Int) : Except Err (Replace × Ctx D) :=
  let subs := c.store.subs node.id
  if 0 ≤ pos ∧ pos < subs.length then setSubnodes c node (subs.set pos.toNat new) else .error .unchecked

/-- `insertSubnode` – ImmOrgEdit.cpp:21-28; `flex_vector::insert` does not check. -/
def insertSubnode (c : Ctx D) (node : Uniq) (add : Id) (pos : Int) : Except Err (Replace × Ctx D) :=
  let subs := c.store.subs node.id
  if 0 ≤ pos ∧ pos ≤ subs.length then setSubnodes c node (subs.insertIdx pos.toNat add) else .error .unchecked

/-- `insertSubnodes` – ImmOrgEdit.cpp:30-45; the copying loops check (`at`). -/
def insertSubnodes (c : Ctx D) (node : Uniq) (add : List Id) (pos : Int) : Except Err (Replace × Ctx D) :=
  let subs := c.store.subs node.id
  if 0 ≤ pos then
    if pos ≤ subs.length then setSubnodes c node (subs.take pos.toNat ++ add ++ subs.drop pos.toNat)
    else .error .throws
  else .error .throws

/-- `appendSubnode` – ImmOrgEdit.cpp:47-52 -/
def appendSubnode (c : Ctx D) (node : Uniq) (add : Id) : Except Err (Replace × Ctx D) :=
  insertSubnode c node add (c.store.subs node.id).length

/-- `dropSubnode(position)` – ImmOrgEdit.cpp:54-60; `flex_vector::erase` does not check. -/
def dropSubnode (c : Ctx D) (node : Uniq) (pos : Int) : Except Err (Replace × Ctx D) :=
  let subs := c.store.subs node.id
  if 0 ≤ pos ∧ pos < subs.length then setSubnodes c node (subs.eraseIdx pos.toNat) else .error .unchecked

/-- `dropSubnode(id)` – ImmOrgEdit.cpp:62-70 -/
def dropSubnodeId (c : Ctx D) (node : Uniq) (sub : Id) : Except Err (Replace × Ctx D) :=
  let subs := c.store.subs node.id
  if sub ∈ subs then dropSubnode c node (subs.idxOf sub) else .error .throws

/-- `popSubnode` – ImmOrgEdit.cpp:72-80; `at` checks. -/
def popSubnode (c : Ctx D) (node : Uniq) (pos : Int) : Except Err ((Replace × Id) × Ctx D) :=
  if 0 ≤ pos then
    match (c.store.subs node.id)[pos.toNat]? with
    | none => .error .throws
    | some id =>
      match dropSubnode c node pos with
      | .error e => .error e
      | .ok (r, c') => .ok ((r, id), c')
  else .error .throws

/-- `moveSubnode` – ImmOrgEdit.cpp:210-256 -/
def moveSubnode (c : Ctx D) (node : Uniq) (pos off : Int) (bounded : Bool) : Except Err (Option Replace × Ctx D) :=
  let subs := c.store.subs node.id
  let target := pos + off
  if 0 ≤ pos ∧ pos < subs.length then
    if bounded = true ∧ ¬(0 ≤ target ∧ target < subs.length) then .error .throws
    else
      let target := max 0 (min target (subs.length - 1))
      if target = pos then .ok (none, c)
      else
        match subs[pos.toNat]? with
        | none => .error .throws
        | some id =>
          match setSubnodes c node ((subs.eraseIdx pos.toNat).insertIdx target.toNat id) with
          | .error e => .error e
          | .ok (r, c') => .ok (some r, c')
  else .error .throws

/-- `swapSubnode` – ImmOrgEdit.cpp:258-269: `at(to)` checks, then `set(from)` does not, then
`at(from)` checks. -/
def swapSubnode (c : Ctx D) (node : Uniq) (src dst : Int) : Except Err (Replace × Ctx D) :=
  let subs := c.store.subs node.id
  if src = dst then .error .throws
  else if 0 ≤ dst then
    match subs[dst.toNat]? with
    | none => .error .throws
    | some b =>
      if 0 ≤ src then
        match subs[src.toNat]? with
        | none => .error .unchecked
        | some a => setSubnodes c node ((subs.set src.toNat b).set dst.toNat a)
      else .error .unchecked
  else .error .throws

/-! ## Cascading a group of replacements -/

/-- The kinds that may be roots – ImmOrg.cpp:1060-1061 -/
def rootKind (s : Store D) (id : Id) : Bool :=
  match s[id]? with
  | some v => decide (v.kind = .Document ∨ v.kind = .DocumentGroup)
  | none => false

/-- The checks of `ImmAstReplaceGroup::set` – ImmOrg.cpp:1057-1083 -/
def replaceOk (s : Store D) (r : Replace) : Bool :=
  (rootKind s r.original.id || !r.original.path.isEmpty) && (rootKind s r.replaced.id || !r.replaced.path.isEmpty)
    && decide (r.original ≠ r.replaced)

/-- `map.get` -/
def edit? (rs : List Replace) (u : Uniq) : Option Uniq :=
  (rs.find? (fun r => decide (r.original = u))).map (·.replaced)

/-- `ImmAstReplaceGroup::incl` for one replacement after the other – ImmOrg.cpp:1085-1095 -/
def inclAll (s : Store D) : List Replace → List Replace → Except Err (List Replace)
  | acc, [] => .ok acc
  | acc, r :: rs =>
    if (edit? acc r.original).isSome then .error .throws
    else if replaceOk s r then inclAll s (acc ++ [r]) rs
    else .error .throws

/-- `getEditParents` – ImmOrgStore.cpp:309-348 (the order of the replacements does not
matter) -/
def editParents (s : Store D) (rs : List Replace) : Except Err (List Uniq) :=
  (rs.mapM (fun r => s.parentChain r.original)).map List.flatten

/-- One group of updates on the same field – ImmOrgStore.cpp:183-284: a vector is
overwritten, a single id needs exactly one value, a map is updated at the keys. -/
def assignField (old group : List (Step × Id)) : Except Err (List (Step × Id)) :=
  match group with
  | [] => .ok []
  | (st, _) :: _ =>
    match st.key with
    | .idx _ => .ok (group.mapIdx (fun i k => (⟨st.field, .idx i⟩, k.2)))
    | .deref =>
      match group with
      | [k] => .ok [k]
      | _ => .error .throws
    | .name _ =>
      .ok ((old.filter (fun k => decide (k.1.field = st.field))).map
        (fun k => (k.1, ((group.find? (fun g => decide (g.1 = k.1))).map (·.2)).getD k.2)))

/-- `group_by` with equal field names – ImmOrgStore.cpp:145-149 -/
def groupFields : List (Step × Id) → List (List (Step × Id))
  | [] => []
  | k :: ks =>
    match groupFields ks with
    | (k' :: g) :: gs => if k.1.field = k'.1.field then (k :: k' :: g) :: gs else [k] :: (k' :: g) :: gs
    | gs => [k] :: gs

/-- `groupUpdatedSubnodes` and the assignments of `setNewSubnodes` – ImmOrgStore.cpp:137-159,
173-287.  `srt` is the `std::sort` by field name: any rearrangement into the order of the
fields.  Fields without updates hold no ids. -/
def newKids (srt : List (Step × Id) → List (Step × Id)) (old updated : List (Step × Id)) :
    Except Err (List (Step × Id)) :=
  ((groupFields (srt updated)).mapM (fun g => assignField old g)).map List.flatten

mutual
/-- `recurseUpdateSubnodes` – ImmOrgStore.cpp:381-444.  The replacements recorded in the
epoch come with the result; the checks of recording them are made (`replaced.set`, `incl`;
a node is recorded only once, so `incl` finds no duplicate).  The fuel bounds the depth. -/
def recurse (srt : List (Step × Id) → List (Step × Id)) (rs : List Replace) (ps : List Uniq) :
    Nat → Uniq → Ctx D → Except Err (Id × Ctx D)
  | 0, _, _ => .error .diverges
  | fuel + 1, u, c =>
    if u ∈ ps then
      let target := (edit? rs u).getD u
      match recurseList srt rs ps fuel (c.store.subnodes target) c with
      | .error e => .error e
      | .ok (ids, c) =>
        if ids = (c.store.kids target.id).map (·.2) then
          if replaceOk c.store ⟨u, target⟩ then .ok (target.id, c) else .error .throws
        else
          match c.store[target.id]? with
          | none => .error .throws
          | some v =>
            match newKids srt v.kids (List.zip (v.kids.map (·.1)) ids) with
            | .error e => .error e
            | .ok kids =>
              match setNode c target { v with kids := kids } with
              | (some r, c) => if replaceOk c.store r then .ok (r.replaced.id, c) else .error .throws
              | (none, _) => .error .throws
    else
      match edit? rs u with
      | some e => if replaceOk c.store ⟨u, e⟩ then .ok (e.id, c) else .error .throws
      | none => .ok (u.id, c)

/-- The loop of `getUpdatedSubnodes` – ImmOrgStore.cpp:358-379 -/
def recurseList (srt : List (Step × Id) → List (Step × Id)) (rs : List Replace) (ps : List Uniq) :
    Nat → List Uniq → Ctx D → Except Err (List Id × Ctx D)
  | _, [], c => .ok ([], c)
  | 0, _ :: _, _ => .error .diverges
  | fuel + 1, u :: us, c =>
    match recurse srt rs ps fuel u c with
    | .error e => .error e
    | .ok (id, c) =>
      match recurseList srt rs ps (fuel + 1) us c with
      | .error e => .error e
      | .ok (ids, c) => .ok (id :: ids, c)
end

/-- `ImmAstStore::cascadeUpdate` – ImmOrgStore.cpp:446-460 for the replacements of a group. -/
def cascade (srt : List (Step × Id) → List (Step × Id)) (fuel : Nat) (c : Ctx D) (root : Id) (rs : List Replace) :
    Except Err (Id × Ctx D) :=
  match inclAll c.store [] rs with
  | .error e => .error e
  | .ok rs =>
    match editParents c.store rs with
    | .error e => .error e
    | .ok ps => recurse srt rs ps fuel ⟨root, root, []⟩ c

/-! ## Looking up the occurrences of a node -/

/-- `getRelativeSubnodePaths` – ImmOrg.cpp:499-508 -/
def Store.relative (s : Store D) (parent sub : Id) : List Step :=
  ((s.kids parent).filter (fun k => decide (k.2 = sub))).map (·.1)

/-- `getParentsFor` – ImmOrg.cpp:1159-1178; the order of the map is not modelled (that of the
list of parents stands for it). -/
def Ctx.parentsFor (c : Ctx D) (id : Id) : List (Id × List Step) :=
  (((c.parents id).getD []).map (fun p => (p, c.store.relative p id))).filter (fun r => !r.2.isEmpty)

/-- `getPathsFor` – ImmOrg.cpp:1180-1208: the recursion `aux`; the final sort is not modelled.
The fuel bounds the height. -/
def Ctx.pathsFor (c : Ctx D) : Nat → Id → Option (List (Id × List Step))
  | 0, _ => none
  | fuel + 1, id =>
    ((c.parentsFor id).mapM (fun r =>
      (Ctx.pathsFor c fuel r.1).map (fun up =>
        if up.isEmpty then r.2.map (fun st => (r.1, [st]))
        else up.flatMap (fun q => r.2.map (fun st => (q.1, q.2 ++ [st])))))).map List.flatten

end
end Verif.Imm
