import Verif.Structural.Model
import Verif.Imm.Props

/-!
# Specification: the place a statement is moved to
-/

namespace Verif.Structural
open Verif.Imm

/-- From position `i`, moved by `offset`, and further in that direction over all spaces, one comes to position `j`, where
there is something else. -/
def Lands (l : List Id) (space : Id → Bool) (i : Nat) (offset : Int) (j : Nat) : Prop :=
  ∃ k : Nat, (j : Int) = i + offset + (if 0 < offset then 1 else -1) * k ∧
    (∃ x, l[j]? = some x ∧ space x = false) ∧
    ∀ m : Nat, m < k → ∃ n : Nat, (n : Int) = i + offset + (if 0 < offset then 1 else -1) * m ∧ ∃ x, l[n]? = some x ∧ space x = true

/-- The list with the elements at two positions exchanged. -/
def exchanged (l : List Id) (i j : Nat) : List Id :=
  l.mapIdx fun n x => if n = i then l.getD j x else if n = j then l.getD i x else x

/-- The node is the subnode of `p` at position `i`. -/
def IsSubnode {D : Type} (s : Store D) (u p : Uniq) (i : Nat) : Prop :=
  u.root = p.root ∧ u.path = p.path ++ [subStep i] ∧ s.at p.root p.path = some p.id ∧ (s.subs p.id)[i]? = some u.id

/-- Is a value in the store a space. -/
def SpaceId {D : Type} (s : Store D) (id : Id) : Bool := decide ((s[id]?.map Val.kind) = some .Space)

end Verif.Structural
