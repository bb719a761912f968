import Verif.Graph.HierModel
import Mathlib.Logic.Relation

/-! # Histories of hierarchies, forests -/

namespace Verif.Graph

/-- `a` is the parent of `b`. -/
def Hier.Parent (h : Hier) (a b : V) : Prop := h.getParent b = some a

/-- `l` lists the proper ancestors of the vertex from the parent to a root. -/
inductive Hier.Anc (h : Hier) : V → List V → Prop
  | root {v} : h.getParent v = none → Hier.Anc h v []
  | up {v p l} : h.getParent v = some p → Hier.Anc h p l → Hier.Anc h v (p :: l)

/-- Following parents from any vertex ends at a root. -/
def Hier.Forest (h : Hier) : Prop := ∀ v, ∃ l, h.Anc v l

/-- `b` is `a` or nested below it, at any depth. -/
def Hier.Below (h : Hier) (a b : V) : Prop := Relation.ReflTransGen h.Parent a b

/-- The hierarchies that appear.  With `safe` no vertex is nested under itself or below one of its
own sub-vertices.  `hash` gives the edge ids. -/
inductive HRun (safe : Bool) (hash : V → V → E) : Hier → Prop
  | init : HRun safe hash .empty
  | track {h v h'} : HRun safe hash h → h.track v = .ok h' → HRun safe hash h'
  | nest {h p s} : HRun safe hash h → (safe = true → ¬ h.Below s p) → HRun safe hash (h.nestSub hash p s).1
  | unnest {h p s h'} : HRun safe hash h → h.unnest p s = .ok h' → HRun safe hash h'
  | untrack {h fuel v order h' vs} : HRun safe hash h → h.untrack fuel v order = .ok (h', vs) → (∀ x, x ∈ order ↔ x ∈ vs) →
      HRun safe hash h'

/-- The maps agree with each other. -/
structure Hier.Consistent (h : Hier) : Prop where
  subs : ∀ p s, s ∈ h.getSubs p ↔ h.getParent s = some p
  roots : ∀ v, v ∈ h.getRoots ↔ v ∈ h.getAll ∧ h.getParent v = none
  tracked : ∀ p s, h.getParent s = some p → p ∈ h.getAll ∧ s ∈ h.getAll

end Verif.Graph
