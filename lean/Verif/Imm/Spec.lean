import Verif.Imm.Model
import Mathlib.Data.List.Nodup
import Mathlib.Logic.Relation

/-!
# What the immutable store is about

Documents are compared up to source locations; positions in a document are lists of steps.
-/

namespace Verif.Imm

variable {D : Type}

/-- The document without locations. -/
def strip : {b : Bool} → Tree D b → Tree D b
  | true, .node k d _ ks => .node k d none (strip ks)
  | false, .nil => .nil
  | false, .cons st t rest => .cons st (strip t) (strip rest)

/-- Levels of nodes. -/
def depth : {b : Bool} → Tree D b → Nat
  | true, .node _ _ _ ks => depth ks + 1
  | false, .nil => 0
  | false, .cons _ t rest => max (depth t) (depth rest)

/-- The places of the children. -/
def steps : Tree D false → List Step
  | .nil => []
  | .cons st _ rest => st :: steps rest

/-- The places that one field may give: a vector, one id, the keys of a map. -/
def IsField (f : Nat) (l : List Step) : Prop :=
  l = (List.range l.length).map (fun i => ⟨f, .idx i⟩) ∨ l = [⟨f, .deref⟩] ∨
    (l.Nodup ∧ ∀ st ∈ l, ∃ s, st = ⟨f, .name s⟩)

/-- The places of a value: the fields in order, each of the places a field may have; the
subnodes (field 0) are a vector. -/
structure Shaped (l : List Step) : Prop where
  order : l.Pairwise (fun a b => a.field ≤ b.field)
  fields : ∀ f, IsField f (l.filter (fun st => decide (st.field = f)))
  subs : ∀ st ∈ l, st.field = 0 → ∃ i, st.key = .idx i

/-- A document all of whose nodes are of this shape. -/
def ShapedTree : {b : Bool} → Tree D b → Prop
  | true, .node _ _ _ ks => Shaped (steps ks) ∧ ShapedTree ks
  | false, .nil => True
  | false, .cons _ t rest => ShapedTree t ∧ ShapedTree rest

/-- The part of a document at a position. -/
def subtree? : {b : Bool} → Tree D b → List Step → Option (Tree D true)
  | true, t, [] => some t
  | true, .node _ _ _ ks, st :: p => subtree? ks (st :: p)
  | false, .nil, _ => none
  | false, .cons _ _ _, [] => none
  | false, .cons st t rest, st' :: p => if st = st' then subtree? t p else subtree? rest (st' :: p)

/-- The document with the parts at the given positions replaced. -/
def substitute (new : List Step → Option (Tree D true)) : {b : Bool} → List Step → Tree D b → Tree D b
  | true, p, .node k d l ks =>
    match new p with
    | some t => t
    | none => .node k d l (substitute new p ks)
  | false, _, .nil => .nil
  | false, p, .cons st t rest => .cons st (substitute new (p ++ [st]) t) (substitute new p rest)

/-- The document that an id stands for. -/
def Denotes [DecidableEq D] (s : Store D) (id : Id) (t : Tree D true) : Prop := ∃ fuel, s.get fuel id = some t

/-- The trees that go to the replaced positions, computed. -/
def newTrees (s : Store D) (fuel : Nat) (rs : List Replace) (p : List Step) : Option (Tree D true) :=
  (rs.find? (fun r => decide (r.original.path = p))).bind (fun r => s.get fuel r.replaced.id)

/-- A replacement of the node at a position of a document, as the edits of nodes report it. -/
structure IsEdit (s : Store D) (root : Id) (r : Replace) : Prop where
  position : r.original.root = root ∧ s.at root r.original.path = some r.original.id
  same : r.replaced.root = root ∧ r.replaced.path = r.original.path
  changed : r.replaced.id ≠ r.original.id
  stored : r.replaced.id < s.length
  root : r.original.path = [] → rootKind s r.replaced.id = true

/-- `new` gives the documents that go to the replaced positions. -/
def NewAt [DecidableEq D] (s : Store D) (rs : List Replace) (new : List Step → Option (Tree D true)) : Prop :=
  (∀ r ∈ rs, ∃ t, new r.original.path = some t ∧ Denotes s r.replaced.id t) ∧
  ∀ p, (∀ r ∈ rs, r.original.path ≠ p) → new p = none

/-- No replaced position is above another one. -/
def Apart (rs : List Replace) : Prop :=
  rs.Pairwise (fun r r' => ¬ r.original.path <+: r'.original.path ∧ ¬ r'.original.path <+: r.original.path)

/-- The contract of `std::sort` with the comparison of field names: a rearrangement in
the order of the fields. -/
def Sorts (srt : List (Step × Id) → List (Step × Id)) : Prop :=
  ∀ l, (srt l).Perm l ∧ (srt l).Pairwise (fun a b => a.1.field ≤ b.1.field)

/-- A list in order is left alone (as a stable sort does). -/
def Keeps (srt : List (Step × Id) → List (Step × Id)) : Prop :=
  ∀ l, l.Pairwise (fun a b => a.1.field ≤ b.1.field) → srt l = l

/-! ## Histories -/

section
variable [DecidableEq D]

/-- The empty context. -/
def start (D : Type) : Ctx D := ⟨[], fun _ => none⟩

/-- One operation of a user: add a document, store a value in the place of a node (all
edits of nodes do this), cascade replacements. -/
inductive Op (srt : List (Step × Id) → List (Step × Id)) : Ctx D → Ctx D → Prop
  | add (c : Ctx D) (t : Tree D true) : ShapedTree t → Op srt c (addRoot c t).2
  | set (c : Ctx D) (target : Uniq) (v : Val D) : (∀ k ∈ v.kids, k.2 < c.store.length) →
      Shaped (v.kids.map (·.1)) → Op srt c (setNode c target v).2
  | cascade (c : Ctx D) (fuel : Nat) (root : Id) (rs : List Replace) (id : Id) (c' : Ctx D) :
      root < c.store.length → (∀ r ∈ rs, r.replaced.id < c.store.length) →
      cascade srt fuel c root rs = .ok (id, c') → Op srt c c'

/-- Any number of operations. -/
def Later (srt : List (Step × Id) → List (Step × Id)) : Ctx D → Ctx D → Prop := Relation.ReflTransGen (Op srt)

/-- The contexts of all histories. -/
def Reach (srt : List (Step × Id) → List (Step × Id)) (c : Ctx D) : Prop := Later srt (start D) c

/-- Contexts to which only documents were added. -/
inductive Adds : Ctx D → Prop
  | start : Adds (start D)
  | add (c : Ctx D) (t : Tree D true) : Adds c → ShapedTree t → Adds (addRoot c t).2

/-- Contexts to which documents were added and in which nodes were updated, with the ids
of the nodes that were replaced by another one. -/
inductive Trail : Ctx D → List Id → Prop
  | start : Trail (start D) []
  | add (c : Ctx D) (R : List Id) (t : Tree D true) : Trail c R → ShapedTree t → Trail (addRoot c t).2 R
  | set (c : Ctx D) (R : List Id) (target : Uniq) (v : Val D) : Trail c R → (∀ k ∈ v.kids, k.2 < c.store.length) →
      Shaped (v.kids.map (·.1)) → Trail (setNode c target v).2 (target.id :: R)

/-- `q` is a child of `p`, both of tracked kinds. -/
def ChildOf (s : Store D) (p q : Id) : Prop :=
  s.tracked p = true ∧ s.tracked q = true ∧ ∃ st, (st, q) ∈ s.kids p

/-- The map lists `p` as a parent of `q`. -/
def Lists (m : Id → Option (List Id)) (p q : Id) : Prop := ∃ l, m q = some l ∧ p ∈ l

/-- A path from a topmost node through tracked nodes to the node. -/
def Occurs (s : Store D) (r : Id) (p : List Step) (id : Id) : Prop :=
  p ≠ [] ∧ s.at r p = some id ∧ (∀ q, q <+: p → ∃ j, s.at r q = some j ∧ s.tracked j = true) ∧ ∀ x, ¬ ChildOf s x r

end

/-! ## Operations on the list of subnodes -/

/-- The edits of the subnodes of a node. -/
inductive EditOp where
  | set (x : Id) (pos : Int)
  | insert (x : Id) (pos : Int)
  | insertMany (xs : List Id) (pos : Int)
  | append (x : Id)
  | drop (pos : Int)
  | dropId (x : Id)
  | pop (pos : Int)
  | move (pos off : Int) (bounded : Bool)
  | swap (i j : Int)
deriving DecidableEq, Repr

/-- The list one expects; `none` if a position is out of range (or there is nothing to
swap). -/
def EditOp.result (l : List Id) : EditOp → Option (List Id)
  | .set x pos => if 0 ≤ pos ∧ pos < l.length then some (l.take pos.toNat ++ x :: l.drop (pos.toNat + 1)) else none
  | .insert x pos => if 0 ≤ pos ∧ pos ≤ l.length then some (l.take pos.toNat ++ x :: l.drop pos.toNat) else none
  | .insertMany xs pos => if 0 ≤ pos ∧ pos ≤ l.length then some (l.take pos.toNat ++ xs ++ l.drop pos.toNat) else none
  | .append x => some (l ++ [x])
  | .drop pos => if 0 ≤ pos ∧ pos < l.length then some (l.take pos.toNat ++ l.drop (pos.toNat + 1)) else none
  | .dropId x => if x ∈ l then some (l.takeWhile (· ≠ x) ++ (l.dropWhile (· ≠ x)).tail) else none
  | .pop pos => if 0 ≤ pos ∧ pos < l.length then some (l.take pos.toNat ++ l.drop (pos.toNat + 1)) else none
  | .move pos off bounded =>
    if 0 ≤ pos ∧ pos < l.length ∧ (bounded = true → 0 ≤ pos + off ∧ pos + off < l.length) then
      let rest := l.take pos.toNat ++ l.drop (pos.toNat + 1)
      let at_ := (max 0 (min (pos + off) (l.length - 1))).toNat
      some (rest.take at_ ++ (l.drop pos.toNat).take 1 ++ rest.drop at_)
    else none
  | .swap i j =>
    if 0 ≤ i ∧ i < l.length ∧ 0 ≤ j ∧ j < l.length ∧ i ≠ j then
      some (l.mapIdx (fun n x => if (n : Int) = i then l.getD j.toNat x else if (n : Int) = j then l.getD i.toNat x else x))
    else none

section
variable [DecidableEq D]

/-- The edit is carried out; `moveSubnode` may have nothing to do. -/
def EditOp.run (c : Ctx D) (node : Uniq) : EditOp → Except Err (Option Replace × Ctx D)
  | .set x pos => (setSubnode c node x pos).map (fun r => (some r.1, r.2))
  | .insert x pos => (insertSubnode c node x pos).map (fun r => (some r.1, r.2))
  | .insertMany xs pos => (insertSubnodes c node xs pos).map (fun r => (some r.1, r.2))
  | .append x => (appendSubnode c node x).map (fun r => (some r.1, r.2))
  | .drop pos => (dropSubnode c node pos).map (fun r => (some r.1, r.2))
  | .dropId x => (dropSubnodeId c node x).map (fun r => (some r.1, r.2))
  | .pop pos => (popSubnode c node pos).map (fun r => (some r.1.1, r.2))
  | .move pos off bounded => moveSubnode c node pos off bounded
  | .swap i j => (swapSubnode c node i j).map (fun r => (some r.1, r.2))

/-- The replacement of the node by one with these subnodes and nothing else changed. -/
def Edited (c c' : Ctx D) (node : Uniq) (ids : List Id) (r : Replace) : Prop :=
  r.original = node ∧ r.replaced.root = node.root ∧ r.replaced.path = node.path ∧ r.replaced.id ≠ node.id ∧
  ∃ v w, c.store[node.id]? = some v ∧ c'.store[r.replaced.id]? = some w ∧ w.kind = v.kind ∧ w.data = v.data ∧
    w.subs = ids ∧ w.kids.filter (fun k => decide (k.1.field ≠ 0)) = v.kids.filter (fun k => decide (k.1.field ≠ 0))

end
end Verif.Imm
