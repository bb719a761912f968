import Verif.Graph.EdgeModel

/-! # Histories of edge collections -/

namespace Verif.Graph

/-- The edges (with source and target) that a user has added and not removed since, next to the
collection.  Calls that throw change nothing and are left out.  With `calm` no edge is removed by
itself while another edge joins the same two vertices in the same direction. -/
inductive Run (calm : Bool) : Coll → List (E × V × V) → Prop
  | init : Run calm .empty []
  | store {c L e n c'} : Run calm c L → storeEdge c e n = .ok c' → Run calm c' L
  | track {c L e s t c'} : Run calm c L → trackEdge c e s t = .ok c' → Run calm c' (L ++ [(e, s, t)])
  | untrack {c L e c'} : Run calm c L → untrackEdge c e = .ok c' →
      (calm = true → ∀ s t e', getEnds c e = .ok (s, t) → (e', s, t) ∈ L → e' = e) →
      Run calm c' (L.filter (fun x => decide (x.1 ≠ e)))
  | trackVertex {c L v} : Run calm c L → Run calm (trackVertex c v) L
  | untrackVertex {c L v es c'} : Run calm c L → (∀ e, e ∈ es ↔ e ∈ toRemove c v) → untrackVertex c v es = .ok c' →
      Run calm c' (L.filter (fun x => decide (x.2.1 ≠ v ∧ x.2.2 ≠ v)))

/-- The collection lists the given edges. -/
structure Lists (c : Coll) (L : List (E × V × V)) : Prop where
  edges : ∀ e, e ∈ getEdges c ↔ ∃ s t, (e, s, t) ∈ L
  outgoing : ∀ v e, e ∈ getOutgoing c v ↔ ∃ t, (e, v, t) ∈ L
  incoming : ∀ v e, e ∈ getIncoming c v ↔ ∃ s, (e, s, v) ∈ L
  ends : ∀ e s t, (e, s, t) ∈ L → getEnds c e = .ok (s, t)
  between : ∀ s t, hasEdge c s t = true ↔ ∃ e, (e, s, t) ∈ L

end Verif.Graph
