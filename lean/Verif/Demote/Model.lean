import Verif.Imm.Model

/-!
# Model of moving subtrees – src/haxorg/imm/ImmOrgEdit.cpp

On top of the model of the immutable store (`Verif.Imm`), with the same simplifications.  The data of a node is its
level and the rest of its values; the levels are unbounded integers.
-/

namespace Verif.Demote

open Verif.Imm

/-- `SubtreeMove` (src/haxorg/imm/ImmOrgEdit.hpp:8-36) -/
inductive Move where
  | physical | force | ensure
deriving DecidableEq, Repr

/-- the data of a node: `level` and the other values -/
abbrev Data (E : Type) := Int × E

section
variable {E : Type} [DecidableEq E]

/-- the edit context and the replacements found so far -/
structure St (E : Type) where
  ctx : Ctx (Data E)
  edits : List Replace

/-- `ImmAstReplaceGroup::newSubnodes` (src/haxorg/imm/ImmOrg.cpp:1095-1116): by `nodeReplaceMap`, in which the last
replacement of an id counts. -/
def newSubnodes (rs : List Replace) (ids : List Id) : List Id :=
  ids.map fun i => ((rs.reverse.find? (fun r => decide (r.original.id = i))).map (·.replaced.id)).getD i

/-- `edits.incl(update)` (src/haxorg/imm/ImmOrg.cpp:1085-1095) -/
def incl (s : Store (Data E)) (rs : List Replace) (r : Replace) : Except Err (List Replace) := inclAll s rs [r]

/-- the update of a subtree (src/haxorg/imm/ImmOrgEdit.cpp:99-106, 173-181 and `updateNode`,
src/haxorg/imm/ImmOrg.hpp:1116-1125): another list of subnodes and one level more; an exception if the node is no
subtree. -/
def update (c : Ctx (Data E)) (u : Uniq) (subs : List Id → List Id) : Except Err (Option Replace × Ctx (Data E)) :=
  match c.store[u.id]? with
  | none => .error .throws
  | some v =>
    if v.kind = .Subtree then
      .ok (setNode c u { v.setSubs (subs v.subs) with data := (v.data.1 + 1, v.data.2) })
    else .error .throws

/-- `edits.incl` of an optional replacement -/
def inclOpt (s : Store (Data E)) (rs : List Replace) : Option Replace → Except Err (List Replace)
  | none => .ok rs
  | some r => incl s rs r

mutual
/-- `aux` (src/haxorg/imm/ImmOrgEdit.cpp:92-110); the fuel bounds the depth. -/
def aux : Nat → Uniq → St E → Except Err (Option Replace × St E)
  | 0, _, _ => .error .diverges
  | fuel + 1, u, st =>
    match auxList fuel u 0 (st.ctx.store.subs u.id) st with
    | .error e => .error e
    | .ok st =>
      match update st.ctx u (newSubnodes st.edits) with
      | .error e => .error e
      | .ok (r, c) =>
        match inclOpt c.store st.edits r with
        | .error e => .error e
        | .ok rs => .ok (r, ⟨c, rs⟩)
/-- the loop over the subnodes, from the given index on (src/haxorg/imm/ImmOrgEdit.cpp:94-97) -/
def auxList : Nat → Uniq → Nat → List Id → St E → Except Err (St E)
  | _, _, _, [], st => .ok st
  | 0, _, _, _ :: _, _ => .error .diverges
  | fuel + 1, u, i, id :: ids, st =>
    match aux fuel ⟨id, u.root, u.path ++ [subStep i]⟩ st with
    | .error e => .error e
    | .ok (_, st) => auxList (fuel + 1) u (i + 1) ids st
end

/-- `getParent` (src/haxorg/imm/ImmOrg.hpp:976-983) -/
def parent (s : Store (Data E)) (u : Uniq) : Except Err (Option Uniq) :=
  if u.path.isEmpty then .ok none
  else
    match s.at u.root u.path.dropLast with
    | none => .error .throws
    | some id => .ok (some ⟨id, u.root, u.path.dropLast⟩)

/-- `indexOf` (src/haxorg/imm/ImmOrgBase.cpp:95-104): the first position of the id, or -1 -/
def indexOf (s : Store (Data E)) (p id : Id) : Int :=
  if id ∈ s.subs p then (s.subs p).idxOf id else -1

/-- `parent->at(pos)` of `getAdjacentNode` (src/haxorg/imm/ImmOrg.cpp:411-422) -/
def adjacent (s : Store (Data E)) (p : Uniq) (id : Id) (offset : Int) : Option Uniq :=
  let pos := indexOf s p.id id + offset
  if 0 ≤ pos then
    match (s.subs p.id)[pos.toNat]? with
    | some i => some ⟨i, p.root, p.path ++ [subStep pos.toNat]⟩
    | none => none
  else none

/-- the level, for subtrees -/
def level? (s : Store (Data E)) (id : Id) : Option Int :=
  match s[id]? with
  | some v => if v.kind = .Subtree then some v.data.1 else none
  | none => none

/-- the reparenting after the levels were changed (src/haxorg/imm/ImmOrgEdit.cpp:112-148); `r` is the replacement of the
node. -/
def reparent (node : Uniq) (r : Replace) (st : St E) : Except Err (St E) :=
  match parent st.ctx.store node with
  | .error e => .error e
  | .ok none => .ok st
  | .ok (some p) =>
    match adjacent st.ctx.store p node.id (-1) with
    | none => .ok st
    | some adj =>
      match level? st.ctx.store adj.id with
      | none => .ok st
      | some a =>
        match level? st.ctx.store r.replaced.id with
        | none => .error .throws
        | some l =>
          if a < l then
            match dropSubnodeId st.ctx p node.id with
            | .error e => .error e
            | .ok (d, c) =>
              match incl c.store st.edits d with
              | .error e => .error e
              | .ok rs =>
                match appendSubnode c adj r.replaced.id with
                | .error e => .error e
                | .ok (b, c) =>
                  match incl c.store rs b with
                  | .error e => .error e
                  | .ok rs => .ok ⟨c, rs⟩
          else .ok st

/-- the subnodes that stay below a subtree that is demoted physically (src/haxorg/imm/ImmOrgEdit.cpp:151-165) -/
def stays (s : Store (Data E)) (level : Int) (id : Id) : Bool :=
  match level? s id with
  | some l => decide (l < level + 1)
  | none => true

/-- the physical move (src/haxorg/imm/ImmOrgEdit.cpp:149-208) -/
def physical (node : Uniq) (st : St E) : Except Err (St E) :=
  match st.ctx.store[node.id]? with
  | none => .error .throws
  | some v =>
    let keep := v.subs.filter (stays st.ctx.store v.data.1)
    let out := v.subs.filter (fun i => !stays st.ctx.store v.data.1 i)
    match update st.ctx node (fun _ => newSubnodes st.edits keep) with
    | .error e => .error e
    | .ok (r, c) =>
      match inclOpt c.store st.edits r with
      | .error e => .error e
      | .ok rs =>
        if out.isEmpty then .ok ⟨c, rs⟩
        else
          match parent c.store node with
          | .error e => .error e
          | .ok none => .error .throws
          | .ok (some p) =>
            let l := newSubnodes rs (c.store.subs p.id)
            let i := indexOf c.store p.id node.id
            if 0 ≤ i then
              match setSubnodes c p (l.take i.toNat ++ newSubnodes rs out ++ l.drop i.toNat) with
              | .error e => .error e
              | .ok (b, c) =>
                match incl c.store rs b with
                | .error e => .error e
                | .ok rs => .ok ⟨c, rs⟩
            else .error .unchecked

/-- `demoteSubtree` (src/haxorg/imm/ImmOrgEdit.cpp:82-208) -/
def demote (fuel : Nat) (c : Ctx (Data E)) (node : Uniq) (move : Move) : Except Err (St E) :=
  match level? c.store node.id with
  | none => .error .throws
  | some _ =>
    match move with
    | .physical => physical node ⟨c, []⟩
    | _ =>
      match aux fuel node ⟨c, []⟩ with
      | .error e => .error e
      | .ok (none, _) => .error .throws
      | .ok (some r, st) => reparent node r st

/-- `getEditVersion` with `demoteSubtree` (src/haxorg/imm/ImmOrgStore.cpp:590-596): the root and the context of the new
version -/
def demoteVersion (srt : List (Step × Id) → List (Step × Id)) (fuel : Nat) (c : Ctx (Data E)) (root : Id)
    (path : List Step) (move : Move) : Except Err (Id × Ctx (Data E)) :=
  match c.store.adapter root path with
  | .error e => .error e
  | .ok node =>
    match demote fuel c node move with
    | .error e => .error e
    | .ok st => cascade srt fuel st.ctx root st.edits

end
end Verif.Demote
