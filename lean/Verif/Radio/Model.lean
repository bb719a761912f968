/-!
# Model of the grouping of a paragraph's children – src/haxorg/imm/ImmOrg.cpp:1252-1458

A child is anything (`α`) of which the code asks: the text if it is a leaf, whether it is a
space, and the targets of the hash tag if it is one.  Debug messages are left out.
-/

namespace Verif.Radio

/-- What the code asks of a child. -/
structure View (α : Type) where
  /-- `dyn_cast<ImmLeaf>` and its text -/
  leaf : α → Option String
  /-- `is(OrgSemKind::Space)` -/
  space : α → Bool
  /-- `asOpt<ImmHashTag>`: the tracked definitions of its flat tags (1414-1419) -/
  tags : α → Option (List (String × Nat))

/-- What an id in the radio target map stands for – 1366-1391: the words of a radio target,
the `RadioId` properties of a subtree, or a node of another kind (assertion). -/
inductive Target where
  | radio (words : List String)
  | subtree (ids : List (List String))
  | bad

/-- The tracking map and the nodes of its ids. -/
structure Track where
  /-- `track.radioTargets` -/
  targets : String → Option (List Nat)
  /-- `adaptUnrooted` -/
  node : Nat → Target

/-- Abnormal ends: `Vec::at` out of range, a failed assertion, no end of the loop. -/
inductive Err where
  | range | assertion | diverges
deriving DecidableEq, Repr

/-- `ImmSubnodeGroup` – ImmOrg.hpp:1136-1157 -/
inductive Group (α : Type) where
  | radio (nodes : List α) (target : Nat)
  | single (node : α)
  | hashtag (tag : α) (targets : List (String × Nat))
deriving DecidableEq, Repr

/-- `RadioTargetSearchResult` – ImmOrg.cpp:1252-1256: the nodes and the target (in the code
also the index of the last node). -/
abbrev Found (α : Type) := Option (List α × Nat)

section
variable {α : Type} (v : View α)

/-- The loop of `tryRadioTargetSearch` – ImmOrg.cpp:1259-1321, with the children from
`groupingIdx + sourceOffset` on: the value of `sourceOffset` at the match. -/
def searchLoop : List α → List String → Nat → Except Err (Option Nat)
  | _, [], _ => .ok none
  | [], _ :: _, _ => .error .range
  | x :: xs, w :: ws, off =>
    match v.leaf x with
    | none => .ok none
    | some text =>
      if text = w then
        if ws.isEmpty then .ok (some off) else searchLoop xs ws (off + 1)
      else if v.space x then searchLoop xs (w :: ws) (off + 1)
      else .ok none

/-- `tryRadioTargetSearch` – ImmOrg.cpp:1259-1321 -/
def trySearch (words : List String) (sub : List α) (idx id : Nat) : Except Err (Found α) :=
  match searchLoop v (sub.drop idx) words 0 with
  | .error e => .error e
  | .ok none => .ok none
  | .ok (some off) => .ok (some ((sub.drop idx).take (off + 1), id))

/-- The loop over the `RadioId` properties – 1374-1385 -/
def tryIds (sub : List α) (idx id : Nat) : List (List String) → Except Err (Found α)
  | [] => .ok none
  | ws :: rest =>
    match trySearch v ws sub idx id with
    | .error e => .error e
    | .ok (some r) => .ok (some r)
    | .ok none => tryIds sub idx id rest

/-- One target – 1364-1393 -/
def tryNode (t : Track) (sub : List α) (idx id : Nat) : Except Err (Found α) :=
  match t.node id with
  | .radio ws => trySearch v ws sub idx id
  | .subtree ids => tryIds v sub idx id ids
  | .bad => .error .assertion

/-- The loop over the targets – 1361-1394 -/
def tryTargets (t : Track) (sub : List α) (idx : Nat) : List Nat → Except Err (Found α)
  | [] => .ok none
  | id :: rest =>
    match tryNode v t sub idx id with
    | .error e => .error e
    | .ok (some r) => .ok (some r)
    | .ok none => tryTargets t sub idx rest

/-- The body of the main loop – 1348-1430: the group and the index of its last node. -/
def step (t : Track) (sub : List α) (idx : Nat) (x : α) : Except Err (Group α × Nat) :=
  match (match v.leaf x with | some text => if v.space x then none else some text | none => none) with
  | some text =>
    match t.targets text with
    | none => .ok (.single x, idx)
    | some ids =>
      match tryTargets v t sub idx ids with
      | .error e => .error e
      | .ok (some (nodes, id)) => .ok (.radio nodes id, idx + (nodes.length - 1))
      | .ok none => .ok (.single x, idx)
  | none =>
    match v.tags x with
    | some ts => if ts.isEmpty then .ok (.single x, idx) else .ok (.hashtag x ts, idx)
    | none => .ok (.single x, idx)

/-- The main loop – 1348-1430 -/
def loop (t : Track) (sub : List α) : Nat → Nat → List (Group α) → Except Err (List (Group α))
  | 0, _, _ => .error .diverges
  | fuel + 1, idx, acc =>
    match sub[idx]? with
    | none => .ok acc
    | some x =>
      match step v t sub idx x with
      | .error e => .error e
      | .ok (g, last) => loop t sub fuel (last + 1) (acc ++ [g])

/-- The number of nodes of a group – 1439-1450 -/
def Group.size : Group α → Nat
  | .radio nodes _ => nodes.length
  | .single _ => 1
  | .hashtag _ _ => 1

/-- `getSubnodeGroups` – ImmOrg.cpp:1325-1458 -/
def getGroups (t : Track) (sub : List α) : Except Err (List (Group α)) :=
  match loop v t sub (sub.length + 1) 0 [] with
  | .error e => .error e
  | .ok gs => if (gs.map Group.size).sum = sub.length then .ok gs else .error .assertion

end
end Verif.Radio
