import Verif.NodeGroup.Model

/-!
# Model of the outline pass

`src/haxorg/parse/OrgParser.cpp`: `assertValidStructure` (2585-2662),
`extendSubtreeTrailsImpl` (2666-2755), `OrgParser::extendSubtreeTrails`
(2757-2761).  Tracing output is not modelled.
-/

namespace Verif.Outline
open Verif.NodeGroup

/-- The node kinds the pass distinguishes; every other `OrgNodeKind` is
`other n`. -/
inductive Kind where
  | subtree
  | stmtList
  | errorSkipGroup
  | empty
  | other (n : Nat)
deriving DecidableEq, Repr

variable {M : Type}

/-- Bound handed to the enumeration loops of `subnode`. -/
def loopBudget (g : Group Kind M) : Nat := g.nodes.length + 1

/-- `nodes.contains(id)` – dod_base.hpp:379-384. -/
def contains (g : Group Kind M) (id : Nat) : Bool := decide (0 < id ∧ id ≤ g.nodes.length)

mutual
/-- `assertValidStructure`'s recursive lambda – OrgParser.cpp:2589-2659.  The
search for `first_token` (2608-2613) only feeds an error message and is left
out.  Fuel bounds recursion depth plus loop iterations. -/
def validAux (g : Group Kind M) : Nat → Nat → Except Err Unit
  | 0, _ => .error .diverges
  | fuel + 1, top => do
    if contains g top then
      let n ← g.at top
      if n.isNonTerminal then
        if n.kind ≠ .empty then
          match ← g.allSubnodesOf top with
          | none => .ok ()
          | some (first, last) =>
            if contains g first && contains g last then
              validLoop g fuel first last (top + 1)
            else .error .assertion
        else .error .assertion
      else .ok ()
    else .error .assertion

/-- The loop over the direct subnodes – OrgParser.cpp:2617-2657. -/
def validLoop (g : Group Kind M) : Nat → Nat → Nat → Nat → Except Err Unit
  | 0, _, _, _ => .error .diverges
  | fuel + 1, first, last, id => do
    if first ≤ id ∧ id ≤ last then
      if contains g id then
        validAux g fuel id
        let n ← g.at id
        let id' := id + n.getExtent.toNat
        if contains g id' then validLoop g fuel first last (id' + 1)
        else .error .assertion
      else .error .assertion
    else if last + 1 = id then .ok () else .error .assertion
end

/-- `g.val(id).text.size()` – OrgParser.cpp:2685, `NodeGroup::val` –
NodeStore.hpp:22-31.  `textLen` gives the text length of each token (the token
store itself is not modelled; token ids are assumed valid). -/
def valTextSize (textLen : Nat → Nat) (g : Group Kind M) (id : Nat) : Except Err Nat := do
  let n ← g.at id
  match n.value with
  | .tok t => .ok (textLen t)
  | _ => .error .assertion

/-- `extendSubtreeTrailsImpl` – OrgParser.cpp:2666-2755.  The `while` loop and
the recursive call are both recursive calls here; fuel bounds their number. -/
def extendImpl (textLen : Nat → Nat) :
    Nat → Group Kind M → Nat → Nat → Except Err (Group Kind M × Nat)
  | 0, _, _, _ => .error .diverges
  | fuel + 1, g, id, level =>
    if id ≤ g.nodes.length then do
      let node ← g.at id
      if node.kind = .subtree then
        let tree := id
        let subId ← g.subnode (loopBudget g) tree 0
        let sub ← valTextSize textLen g subId
        if level < sub then
          let stmt ← g.subnode (loopBudget g) tree 8
          let s ← g.at stmt
          if s.kind = .stmtList ∨ s.kind = .errorSkipGroup then
            let (g, id) ← extendImpl textLen fuel g (stmt + 1) sub
            if stmt + 1 ≤ id then
              let s ← g.at stmt
              let s' ← s.extend (((id - stmt : Nat) : Int) - 1)
              let g : Group Kind M := { g with nodes := g.nodes.set (stmt - 1) s' }
              let t ← g.at tree
              let t' ← t.extend (((id - tree : Nat) : Int) - 1)
              let g : Group Kind M := { g with nodes := g.nodes.set (tree - 1) t' }
              match ← g.allSubnodesOf tree with
              | none => .error .range
              | some (_, last) => do
                validAux g (2 * g.nodes.length + 2) tree
                if last ≤ g.nodes.length then extendImpl textLen fuel g id level
                else .error .assertion
            else .error .assertion
          else .error .assertion
        else .ok (g, id)
      else extendImpl textLen fuel g (id + 1) level
    else .ok (g, id)

/-- `OrgParser::extendSubtreeTrails` – OrgParser.cpp:2757-2761, called with
`OrgId(0)` (index 0, value 1) by `parseFull` – OrgParser.cpp:2555. -/
def extendSubtreeTrails (textLen : Nat → Nat) (fuel : Nat) (g : Group Kind M) (position : Nat) :
    Except Err (Group Kind M) := do
  let (g, _) ← extendImpl textLen fuel g position 0
  validAux g (2 * g.nodes.length + 2) position
  .ok g

end Verif.Outline
