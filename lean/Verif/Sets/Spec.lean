import Verif.Sets.Model

/-!
# What a set of values is
-/

namespace Verif.Sets

/-- How a set of values is made. -/
inductive Made where
  | empty
  | incl (s : Made) (v : Nat)
  | excl (s : Made) (v : Nat)
  | union (a b : Made)
  | minus (a b : Made)
  | xor (a b : Made)
  | inter (a b : Made)
  | compl (a : Made)

/-- The members of the set that was made. -/
def Made.has : Made → Nat → Prop
  | .empty, _ => False
  | .incl s v, w => w = v ∨ s.has w
  | .excl s v, w => w ≠ v ∧ s.has w
  | .union a b, w => a.has w ∨ b.has w
  | .minus a b, w => a.has w ∧ ¬ b.has w
  | .xor a b, w => (a.has w ∧ ¬ b.has w) ∨ (b.has w ∧ ¬ a.has w)
  | .inter a b, w => a.has w ∧ b.has w
  | .compl a, w => ¬ a.has w

/-- Only these values are put in or taken out. -/
def Made.within (l : List Nat) : Made → Prop
  | .empty => True
  | .incl s v => v ∈ l ∧ s.within l
  | .excl s v => v ∈ l ∧ s.within l
  | .union a b => a.within l ∧ b.within l
  | .minus a b => a.within l ∧ b.within l
  | .xor a b => a.within l ∧ b.within l
  | .inter a b => a.within l ∧ b.within l
  | .compl a => a.within l

/-- No complement is taken. -/
def Made.direct : Made → Prop
  | .empty => True
  | .incl s _ => s.direct
  | .excl s _ => s.direct
  | .union a b => a.direct ∧ b.direct
  | .minus a b => a.direct ∧ b.direct
  | .xor a b => a.direct ∧ b.direct
  | .inter a b => a.direct ∧ b.direct
  | .compl _ => False

/-- The set is made with the operations of the program. -/
def make (d : Domain) : Made → Except Err (Bits d.count)
  | .empty => .ok (empty d.count)
  | .incl s v => (make d s).bind fun s => incl d s v
  | .excl s v => (make d s).bind fun s => excl d s v
  | .union a b => (make d a).bind fun a => (make d b).map (union a)
  | .minus a b => (make d a).bind fun a => (make d b).map (minus a)
  | .xor a b => (make d a).bind fun a => (make d b).map (xor a)
  | .inter a b => (make d a).bind fun a => (make d b).map (inter a)
  | .compl a => (make d a).map compl

end Verif.Sets
