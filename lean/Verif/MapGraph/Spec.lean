import Verif.MapGraph.Model

/-! # What the mind map graph should be -/

namespace Verif.MapGraph

/-- The node has the link. -/
inductive Has (e : Env) (s : Uniq) : Lnk → Prop
  | link {ks k} : e.init s = .ok ks → k ∈ ks → Has e s (.link k)
  | radio {ts t} : e.radio s = .ok ts → t ∈ ts → Has e s (.radio t)

/-- The link refers to the node at that position. -/
inductive Aims (e : Env) : Lnk → Uniq → Prop
  | link {k ts t} : e.targets k = .ok ts → t ∈ ts → Aims e (.link k) t
  | radio {t} : Aims e (.radio t) t

/-- One node refers to another one. -/
def Refers (e : Env) (s t : Uniq) : Prop := ∃ l, Has e s l ∧ Aims e l t

/-- Every link refers to at most one position. -/
def SingleTargets (e : Env) : Prop := ∀ k ts, e.targets k = .ok ts → ts.length ≤ 1

/-- Adding `n` to the nodes `R` completes the link `l` from `s` to `t`. -/
def Completes (e : Env) (R : List Uniq) (n s : Uniq) (l : Lnk) (t : Uniq) : Prop :=
  Has e s l ∧ Aims e l t ∧ s ∈ R ++ [n] ∧ t ∈ R ++ [n] ∧ (s = n ∨ t = n)

/-- Each node that is added completes at most one link. -/
def OneByOne (e : Env) (ns : List Uniq) : Prop :=
  ∀ R n R', ns = R ++ n :: R' → ∀ s l t s' l' t', Completes e R n s l t → Completes e R n s' l' t' → s = s' ∧ l = l' ∧ t = t'

/-- The edges are right and the listed nodes are those with unresolved links. -/
structure Consistent (e : Env) (ns : List Uniq) (s : State) : Prop where
  nodes : s.nodes = ns
  edges : ∀ a b, (a, b) ∈ s.edges → a ∈ ns ∧ b ∈ ns ∧ Refers e a b
  listed : ∀ v, v ∈ s.unresolved ↔ v ∈ ns ∧ s.attr v ≠ []
  links : ∀ v, ∀ l ∈ s.attr v, Has e v l

/-- All links between added nodes are edges, all others wait. -/
structure Complete (e : Env) (ns : List Uniq) (s : State) : Prop where
  edges : ∀ a b, a ∈ ns → b ∈ ns → Refers e a b → (a, b) ∈ s.edges
  waiting : ∀ a l b, a ∈ ns → Has e a l → Aims e l b → b ∉ ns → l ∈ s.attr a

end Verif.MapGraph
