import Verif.Graph.SerialModel
import Verif.Graph.HierSpec
import Verif.Graph.EdgeSpec

/-! # What it means that a graph survives being written and read -/

namespace Verif.Graph

variable {A : Type}

/-- The graphs that can be made: every vertex has an object with a name of its own, by which it is found; the
collections and hierarchies have any history, join vertices of the graph, and the edges carry the id of their
collection. -/
structure Net.Made (g : Net A) : Prop where
  vertex : ∀ v ∈ g.verts, ∃ o, get g.objs v = some o ∧ o.name ≠ [] ∧ get g.stable o.name = some v
  ids : (g.colls.map (·.id)).Nodup
  colls : ∀ c ∈ g.colls, ∃ b L, Run b c.coll L
  edges : ∀ c ∈ g.colls, ∀ e ∈ getEdges c.coll, maskOf e = c.id ∧ ∀ s t, getEnds c.coll e = .ok (s, t) → s ∈ g.verts ∧ t ∈ g.verts
  hiers : ∀ h ∈ g.hiers, ∃ safe hash, HRun safe hash h
  inside : ∀ h ∈ g.hiers, ∀ v ∈ h.getAll, v ∈ g.verts

/-- The vertices of the second graph are those of the first, with the same names and attributes; `f` says which is
which. -/
structure SameVerts (f : V → V) (g g' : Net A) : Prop where
  onto : ∀ w, w ∈ g'.verts ↔ ∃ v ∈ g.verts, f v = w
  inj : ∀ v ∈ g.verts, ∀ w ∈ g.verts, f v = f w → v = w
  objs : ∀ v ∈ g.verts, get g'.objs (f v) = get g.objs v
  found : ∀ v ∈ g.verts, ∀ o, get g.objs v = some o → g'.lookup o.name = .ok (f v)

/-- The collection has an edge with this name from `s` to `t`. -/
def EColl.Joins (c : EColl A) (n : Stable) (s t : V) : Prop :=
  ∃ e, e ∈ getEdges c.coll ∧ getEnds c.coll e = .ok (s, t) ∧ get c.coll.store e = some n

/-- The edges of the second collection are those of the first. -/
def SameEdges (f : V → V) (c c' : EColl A) : Prop :=
  ∀ n s' t', c'.Joins n s' t' ↔ ∃ s t, f s = s' ∧ f t = t' ∧ c.Joins n s t

/-- The vertices, roots, parents and sub-vertices of the second hierarchy are those of the first. -/
structure SameNesting (f : V → V) (h h' : Hier) : Prop where
  all : ∀ w, w ∈ h'.getAll ↔ ∃ v ∈ h.getAll, f v = w
  roots : ∀ w, w ∈ h'.getRoots ↔ ∃ v ∈ h.getRoots, f v = w
  parent : ∀ v ∈ h.getAll, h'.getParent (f v) = (h.getParent v).map f
  subs : ∀ v ∈ h.getAll, ∀ w, w ∈ h'.getSubs (f v) ↔ ∃ s ∈ h.getSubs v, f s = w

/-- The attributes of an edge with this name. -/
def EColl.AttrsOf (c : EColl A) (n : Stable) (l : List A) : Prop :=
  ∃ e, e ∈ getEdges c.coll ∧ get c.coll.store e = some n ∧ (get c.attrs e).getD [] = l

end Verif.Graph
