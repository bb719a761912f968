import Verif.Select.Model
import Mathlib.Logic.Relation

/-! # What a selector asks for -/

namespace Verif.Select

variable {L : Type}

/-- The child with an index, and its field. -/
inductive Kid : Doc L false → Nat → Nat → Doc L true → Prop
  | here {f t rest} : Kid (.cons f t rest) 0 f t
  | there {f t rest i g u} : Kid rest i g u → Kid (.cons f t rest) (i + 1) g u

/-- `b` is a child of `a` in the field. -/
def Child (f : Nat) (a b : At L) : Prop :=
  ∃ l ks i, a.doc = .node l ks ∧ Kid ks i f b.doc ∧ b.pos = a.pos ++ [i]

/-- A child in some field. -/
def IsChild (a b : At L) : Prop := ∃ f, Child f a b

/-- `b` is strictly below `a`. -/
def Below : At L → At L → Prop := Relation.TransGen IsChild

/-- `b` is `a` or below it. -/
def Within : At L → At L → Prop := Relation.ReflTransGen IsChild

/-- `b` is reached from `a` through the link. -/
def Via : Link → At L → At L → Prop
  | .direct, a, b => IsChild a b
  | .indirect, a, b => Below a b
  | .field name, a, b => Child name a b

/-- The condition holds for the node. -/
def Hits (c : Cond L) (a : At L) : Prop := ∃ r, c.check a = .ok r ∧ r.isMatching = true

/-- The nodes match the conditions one after the other, along the links. -/
inductive Match : List (Cond L) → List (At L) → Prop
  | last {c a} : Hits c a → Match [c] [a]
  | step {c a l b c' cs as} : Hits c a → c.link = some l → Via l a b → Match (c' :: cs) (b :: as) →
      Match (c :: c' :: cs) (a :: b :: as)

/-- The node is at the place of a condition that is marked as target. -/
def IsTarget (cs : List (Cond L)) (as : List (At L)) (n : At L) : Prop :=
  ∃ (i : Nat) (c : Cond L), cs[i]? = some c ∧ c.isTarget = true ∧ as[i]? = some n

/-- The nodes that a path selects in a document. -/
def Selected (cs : List (Cond L)) (d : Doc L true) (n : At L) : Prop :=
  ∃ a as, Within ⟨[], d⟩ a ∧ Match cs (a :: as) ∧ IsTarget cs (a :: as) n

/-- Document order: parents before their children, siblings by index. -/
def Before (a b : At L) : Prop := List.Lex (· < ·) a.pos b.pos

/-- Paths that can be run: not empty, a link on each condition but the last, and no check
throws. -/
def WellFormed : List (Cond L) → Prop
  | [] => False
  | [c] => ∀ a, ∃ r, c.check a = .ok r
  | c :: c' :: cs => (∀ a, ∃ r, c.check a = .ok r) ∧ (∃ l, c.link = some l) ∧ WellFormed (c' :: cs)

/-- A check that looks into the nodes for which it fails. -/
def Nests (c : Cond L) : Prop := ∀ a r, c.check a = .ok r → r.isMatching = false → r.tryNestedNodes = true

/-- A check that does not. -/
def Stops (c : Cond L) : Prop := ∀ a r, c.check a = .ok r → r.isMatching = false → r.tryNestedNodes = false

/-- From `a` to `b` through nodes for which the check fails and looks inside. -/
inductive Through (c : Cond L) : At L → At L → Prop
  | refl {a} : Through c a a
  | step {a b d r} : c.check a = .ok r → r.isMatching = false → r.tryNestedNodes = true → IsChild a b → Through c b d → Through c a d

/-- As `Match`, but after each link the search may go down further. -/
inductive Loose : List (Cond L) → List (At L) → Prop
  | last {c a} : Hits c a → Loose [c] [a]
  | step {c a l b b' c' cs as} : Hits c a → c.link = some l → Via l a b → Through c' b b' → Loose (c' :: cs) (b' :: as) →
      Loose (c :: c' :: cs) (a :: b' :: as)

/-- No match of the condition is above the node. -/
def Topmost (c : Cond L) (d : Doc L true) (a : At L) : Prop := ∀ b, Within ⟨[], d⟩ b → Below b a → ¬ Hits c b

/-- Only the last condition may be marked as target. -/
def OnlyLast (cs : List (Cond L)) : Prop := ∀ c ∈ cs.dropLast, c.isTarget = false

/-- The last condition and no other is marked as target. -/
def LastTarget : List (Cond L) → Prop
  | [] => False
  | [c] => c.isTarget = true
  | c :: c' :: cs => c.isTarget = false ∧ LastTarget (c' :: cs)

/-- All links are indirect. -/
def AllIndirect : List (Cond L) → Prop
  | [] => True
  | [_] => True
  | c :: c' :: cs => c.link = some .indirect ∧ AllIndirect (c' :: cs)

end Verif.Select
