import Verif.Imm.Model

/-!
# Model of moving a statement among its siblings – src/haxorg/imm/ImmOrgEdit.cpp:271-297

On top of the model of the immutable store (`Verif.Imm`), with the same simplifications.  Offsets are unbounded integers.
-/

namespace Verif.Structural
open Verif.Imm

section
variable {D : Type} [DecidableEq D]

/-- `getParent` (src/haxorg/imm/ImmOrg.hpp:976-983) -/
def parent (s : Store D) (u : Uniq) : Except Err (Option Uniq) :=
  if u.path.isEmpty then .ok none
  else
    match s.at u.root u.path.dropLast with
    | none => .error .throws
    | some id => .ok (some ⟨id, u.root, u.path.dropLast⟩)

/-- `indexOf` (src/haxorg/imm/ImmOrgBase.cpp:95-104): the first position of the id, or -1 -/
def indexOf (s : Store D) (p id : Id) : Int := if id ∈ s.subs p then (s.subs p).idxOf id else -1

/-- `getSelfIndex` (src/haxorg/imm/ImmOrg.hpp:985-992) -/
def selfIndex (s : Store D) (u : Uniq) : Except Err Int :=
  match parent s u with
  | .error e => .error e
  | .ok none => .ok (-1)
  | .ok (some p) => .ok (indexOf s p.id u.id)

/-- `getAdjacentNode` (src/haxorg/imm/ImmOrg.cpp:411-423) -/
def adjacentNode (s : Store D) (u : Uniq) (offset : Int) : Except Err (Option Uniq) :=
  match parent s u with
  | .error e => .error e
  | .ok none => .ok none
  | .ok (some p) =>
    match selfIndex s u with
    | .error e => .error e
    | .ok i =>
      let pos := i + offset
      if 0 ≤ pos ∧ pos < (s.subs p.id).length then
        match (s.subs p.id)[pos.toNat]? with
        | some x => .ok (some ⟨x, p.root, p.path ++ [subStep pos.toNat]⟩)
        | none => .error .throws
      else .ok none

/-- `adj->is(OrgSemKind::Space)` -/
def isSpace (s : Store D) (id : Id) : Bool :=
  match s[id]? with
  | some v => decide (v.kind = .Space)
  | none => false

/-- The loop over the spaces (src/haxorg/imm/ImmOrgEdit.cpp:279-284); the first number bounds the steps. -/
def skipSpaces (s : Store D) (u : Uniq) (dir : Int) : Nat → Int → Except Err Int
  | 0, _ => .error .diverges
  | n + 1, t =>
    match adjacentNode s u t with
    | .error e => .error e
    | .ok none => .ok t
    | .ok (some a) => if isSpace s a.id then skipSpaces s u dir n (t + dir) else .ok t

/-- `moveSubnodeStructural` (src/haxorg/imm/ImmOrgEdit.cpp:271-297).  `isStmt` tells which kinds are derived from
`ImmStmt` (`dyn_cast`); the argument `position` is not used. -/
def moveStructural (isStmt : Kind → Bool) (fuel : Nat) (c : Ctx D) (u : Uniq) (_position offset : Int) :
    Except Err (Option Replace × Ctx D) :=
  match c.store[u.id]? with
  | none => .error .throws
  | some v =>
    if isStmt v.kind then
      let dir : Int := if 0 < offset then 1 else -1
      match skipSpaces c.store u dir fuel offset with
      | .error e => .error e
      | .ok t =>
        match adjacentNode c.store u t with
        | .error e => .error e
        | .ok none => .ok (none, c)
        | .ok (some _) =>
          match parent c.store u with
          | .error e => .error e
          | .ok none => .error .throws
          | .ok (some p) =>
            match selfIndex c.store u with
            | .error e => .error e
            | .ok i =>
              match swapSubnode c p i (i + t) with
              | .error e => .error e
              | .ok (r, c') => .ok (some r, c')
    else .ok (none, c)

end
end Verif.Structural
