import Verif.AstDiff.TreeSame
import Verif.AstDiff.ImmModel

/-!
# C104, C105: the diff of equal trees, and the edits between two immutable trees
-/

namespace Verif.AstDiff

/-- **C104, the full property.** For two equal trees, no change is reported. -/
def EqualTreesStatement : Prop :=
  ∀ (s d : T), s.shape = d.shape → ∀ (n : Nat) (m : Mapping) (k : Marks), astDiff usual s d n = some (m, k) →
    ∀ x, x < s.all.length → k.chS x = .none

/-- The mapping of two equal trees -/
theorem computeMapping_same (o : Options) (ho : Respects o) (hmin : 0 ≤ o.minHeight) (s d : T) (h : s.shape = d.shape)
    (hc : (o.greedy = false ∧ o.minHeight < s.height) ∨ (o.stopAfterTopDown = false ∧ (o.greedy = true ∨ s.height ≤ o.minHeight) ∧ s.size ≤ o.maxSize)) :
    ∃ m n0, (∀ n, n0 < n → computeMapping o (fromNode s) (fromNode d) n = some m) ∧ Diag (fromNode s).size m ∧
      ∀ x, x < (fromNode s).size → m.dst x = some x := by
  rcases hc with ⟨hg, hh⟩ | ⟨hstop, hgh, hsz⟩
  · have key := fun n (hn : 1 < n) => topDown_same (n := n) ho hmin h hh hn
    obtain ⟨m, h1, h2, h3⟩ := key 2 (by omega)
    have hdet : ∀ n, 1 < n → matchTopDown o (fromNode s) (fromNode d) n = some m := by
      intro n hn
      obtain ⟨m', h1', h2', h3'⟩ := key n hn
      rw [h1']
      have e : ∀ x, m'.dst x = m.dst x := by
        intro x
        by_cases hx : x < (fromNode s).size
        · rw [h3 x hx, h3' x hx]
        · rcases (h2 x).2 with e | e
          · rcases (h2' x).2 with e' | e'
            · rw [e, e']
            · exact absurd e'.2 hx
          · exact absurd e.2 hx
      have e2 : ∀ x, m'.src x = m.src x := fun x => by rw [(h2 x).1, (h2' x).1, e]
      cases m
      cases m'
      simp only [Option.some.injEq, Mapping.mk.injEq]
      exact ⟨funext e, funext e2⟩
    refine ⟨m, 1, fun n hn => ?_, h2, h3⟩
    rw [computeMapping, hg]
    simp only [Bool.false_eq_true, if_false, hdet n hn]
    split
    · rfl
    · rw [matchBottomUp]
      refine bottomUp_skip n _ (fun x hx => ?_)
      rw [(at_root s).postorder, mem_posts] at hx
      rw [h3 x (by rw [fromNode_size]; omega)]
      rfl
  · obtain ⟨m, h1, h2, h3⟩ := bottomUp_same ho h hsz
    refine ⟨m, 2 * s.size, fun n hn => ?_, h2, h3⟩
    have hp := size_pos s
    have hfirst : (if o.greedy then some Mapping.empty else matchTopDown o (fromNode s) (fromNode d) n) = some Mapping.empty := by
      by_cases hg : o.greedy = true
      · rw [if_pos hg]
      · rw [if_neg hg, matchTopDown]
        obtain ⟨n, rfl⟩ : ∃ j, n = j + 1 := ⟨n - 1, by omega⟩
        rw [topDownLoop]
        dsimp only
        rw [if_neg]
        have hs : ((fromNode s).node 0).height = s.height := (at_root s).height
        have hle : (s.height : Int) ≤ o.minHeight := by
          rcases hgh with e | e
          · exact absurd e hg
          · exact e
        have : peekMax (fromNode s) [0] = s.height := by simp [peekMax, hs]
        rw [this]
        omega
    rw [computeMapping, hfirst]
    simp only [hstop, Bool.false_eq_true, if_false]
    exact h1 n hn

/-- **C104.** For two equal trees each node is matched with itself and no change is reported, when the trees are higher than
`MinHeight` (and the first phase is not left out), or have at most `MaxSize` nodes (and the second phase is not left out). -/
theorem equal_trees_partial (o : Options) (ho : ∀ (a b : Node), a.kind = b.kind → a.val = b.val → o.allowed a b = true ∧ o.valuesEqual a b = true)
    (hmin : 0 ≤ o.minHeight) (s d : T) (h : s.shape = d.shape)
    (hc : (o.greedy = false ∧ o.minHeight < s.height) ∨
      (o.stopAfterTopDown = false ∧ (o.greedy = true ∨ s.height ≤ o.minHeight) ∧ s.all.length ≤ o.maxSize)) :
    ∃ m k n0, (∀ n, n0 < n → astDiff o s d n = some (m, k)) ∧
      ∀ x, x < s.all.length → m.dst x = some x ∧ m.src x = some x ∧ k.chS x = .none ∧ k.chD x = .none := by
  rw [all_length] at hc
  obtain ⟨m, n0, h1, h2, h3⟩ := computeMapping_same o ho hmin s d h hc
  refine ⟨m, changeKinds o (fromNode s) (fromNode d) m, n0, fun n hn => by rw [astDiff, h1 n hn], fun x hx => ?_⟩
  rw [all_length, ← fromNode_size] at hx
  obtain ⟨c1, c2⟩ := h2.changes ho h h3 hx
  exact ⟨h3 x hx, by rw [(h2 x).1, h3 x hx], c1, c2⟩

/-- a root with `n` leaves -/
def wide (n : Nat) : T := .node 0 0 0 ((List.range n).map (fun i => .node (i + 1) 1 i []))

set_option maxRecDepth 100000 in
/-- The full property fails: of a node with a hundred leaves, compared with itself, all leaves are reported as deleted (and
inserted). -/
theorem equalTrees_false : ¬ EqualTreesStatement := by
  intro h
  have e : (astDiff usual (wide 100) (wide 100) 5).map (fun r => r.2.chS 1) = some .delete := by decide +kernel
  cases hr : astDiff usual (wide 100) (wide 100) 5 with
  | none => rw [hr] at e; simp at e
  | some r =>
    obtain ⟨m, k⟩ := r
    rw [hr] at e
    simp only [Option.map_some, Option.some.injEq] at e
    have := h (wide 100) (wide 100) rfl 5 m k hr 1 (by decide +kernel)
    rw [e] at this
    exact absurd this (by decide)

/-- both ways to meet the hypotheses, with the usual options -/
example : (usual.greedy = false ∧ usual.minHeight < ((chain 0 0).height : Int)) ∧
    (usual.stopAfterTopDown = false ∧ (usual.greedy = true ∨ ((wide 5).height : Int) ≤ usual.minHeight) ∧ ((wide 5).all.length : Int) ≤ usual.maxSize) := by
  decide +kernel
example : ∀ (a b : Node), a.kind = b.kind → a.val = b.val → usual.allowed a b = true ∧ usual.valuesEqual a b = true := by
  intro a b h1 h2
  simp [usual, h1, h2]

/-! ## The edits between two immutable trees -/

/-- **C105, the full property.** The edits can be asked for, the nodes without partner are the deleted and the inserted ones,
and the pairs are kept or replaced. -/
def ImmEditsStatement : Prop :=
  ∀ (s d : T) (n : Nat) (m : Mapping) (r : Option (List ImmEdit)), immDiff s d true n = some (m, r) → ∃ es, r = some es ∧
    (∀ (y : Nat) (b : T), d.all[y]? = some b → (m.src y = none ↔ ImmEdit.insert b.id ∈ es)) ∧
    (∀ (x : Nat) (a : T), s.all[x]? = some a → (m.dst x = none ↔ ImmEdit.delete a.id ∈ es)) ∧
    (∀ (x y : Nat) (a b : T), m.dst x = some y → s.all[x]? = some a → d.all[y]? = some b →
      (if a.val = b.val then ImmEdit.keep b.id ∈ es else ImmEdit.replace a.id b.id ∈ es))

/-- R[x] and R'[y x]: a subnode is inserted in front of another one -/
def immS : T := .node 0 0 10 [.node 1 1 1 []]
def immD : T := .node 100 0 11 [.node 101 1 2 [], .node 102 1 1 []]

/-- The full property fails: the trees are swapped in both calls of `getMapped`.  Here the node x of the destination is looked up
as if it were one of the source, and a node that does not exist is asked for. -/
theorem immEdits_false : ¬ ImmEditsStatement := by
  intro h
  have e : (immDiff immS immD true 60).map (fun r => r.2) = some none := by decide +kernel
  cases hr : immDiff immS immD true 60 with
  | none => rw [hr] at e; simp at e
  | some r =>
    obtain ⟨m, r⟩ := r
    rw [hr] at e
    simp only [Option.map_some, Option.some.injEq] at e
    obtain ⟨es, h1, _⟩ := h immS immD 60 m r hr
    rw [e] at h1
    simp at h1

/-- R[a b] and R'[b]: the subnode `a` is deleted -/
def immS2 : T := .node 0 0 10 [.node 1 1 1 [], .node 2 1 2 []]
def immD2 : T := .node 100 0 11 [.node 101 1 2 []]

/-- When the edits do not fail they name the wrong nodes: `b` is reported as deleted, and the `b` that was kept is reported as
inserted. -/
example : (immDiff immS2 immD2 true 60).map (fun r => (r.1.dst 1, r.1.dst 2, r.2)) =
    some (none, some 1, some [.replace 0 100, .insert 101, .delete 2]) := by decide +kernel

/-- **C105.** The edits between two equal trees keep every node and do nothing else. -/
theorem imm_equal_partial (s d : T) (h : s.shape = d.shape) (hc : 2 < s.height ∨ s.all.length ≤ 100) (keeps : Bool) :
    ∃ m n0, ∀ n, n0 < n → immDiff s d keeps n = some (m, some (if keeps then d.all.map (fun b => .keep b.id) else [])) := by
  have ho : Respects immOptions := by
    intro a b h1 h2
    simp [immOptions, h2]
  rw [all_length] at hc
  obtain ⟨m, n0, h1, h2, h3⟩ := computeMapping_same immOptions ho (by decide) s d h (by
    by_cases e : 2 < s.height
    · exact Or.inl ⟨rfl, by simp only [immOptions]; omega⟩
    · exact Or.inr ⟨rfl, Or.inr (by simp only [immOptions]; omega), by simp only [immOptions]; omega⟩)
  refine ⟨m, n0, fun n hn => ?_⟩
  rw [immDiff, h1 n hn]
  have hsz := same_size h
  have g1 : ∀ y, y < (fromNode d).size → dstEdit m (fromNode s) (fromNode d) keeps y = some (if keeps then [.keep ((fromNode d).node y).id] else []) := by
    intro y hy
    have hb : (fromNode d).nodes[y]? = some ((fromNode d).node y) := by
      rw [SynTree.node, getNode, List.getElem?_eq_getElem hy]; rfl
    have ha : (fromNode s).nodes[y]? = some ((fromNode s).node y) := by
      rw [SynTree.node, getNode, List.getElem?_eq_getElem (show y < (fromNode s).nodes.length from Nat.lt_of_lt_of_eq hy hsz.symm)]; rfl
    rw [dstEdit, storeNode, hb]
    simp only [getMapped, if_true, h3 y (by omega), storeNode, ha]
    rw [if_pos (same_parts h y).2.2.2.2]
  have g2 : ∀ x, x < (fromNode s).size → srcEdit m (fromNode s) x = some [] := by
    intro x hx
    have ha : (fromNode s).nodes[x]? = some ((fromNode s).node x) := by
      rw [SynTree.node, getNode, List.getElem?_eq_getElem hx]; rfl
    rw [srcEdit, storeNode, ha]
    simp only [getMapped, Bool.false_eq_true, if_false, (h2 x).1, h3 x hx]
  have mapM_some : ∀ {α β : Type} (f : α → Option β) (g : α → β) (l : List α), (∀ x ∈ l, f x = some (g x)) → l.mapM f = some (l.map g) := by
    intro α β f g l hl
    induction l with
    | nil => rfl
    | cons a l ih => simp [List.mapM_cons, hl a (by simp), ih (fun x hx => hl x (by simp [hx]))]
  have f1 := mapM_some (dstEdit m (fromNode s) (fromNode d) keeps) _ (List.range (fromNode d).size) (fun y hy => g1 y (by simpa using hy))
  have f2 := mapM_some (srcEdit m (fromNode s)) _ (List.range (fromNode s).size) (fun x hx => g2 x (by simpa using hx))
  simp only [immEdits, f1, f2, Option.some.injEq, Prod.mk.injEq, true_and]
  have z2 : ((List.range (fromNode s).size).map (fun _ => ([] : List ImmEdit))).flatten = [] := by simp
  rw [z2, List.append_nil]
  cases keeps with
  | false => simp
  | true =>
    simp only [if_true]
    have : d.all.map (fun b => ImmEdit.keep b.id) = (List.range (fromNode d).size).map (fun y => ImmEdit.keep ((fromNode d).node y).id) := by
      apply List.ext_getElem?
      intro i
      simp only [List.getElem?_map]
      by_cases hi : i < (fromNode d).size
      · obtain ⟨par, dep, u, hat⟩ := at_any d i hi
        rw [at_all d hat, List.getElem?_range hi]
        simp only [Option.map_some]
        rw [SynTree.node, hat.node]
      · rw [List.getElem?_eq_none (by rw [all_length, ← fromNode_size]; omega), List.getElem?_eq_none (by simpa using hi)]
        rfl
    rw [this]
    clear this
    induction (List.range (fromNode d).size) with
    | nil => rfl
    | cons a l ih => simp [ih]

/-- a tree that meets the hypotheses -/
example : 2 < (chain 0 0).height ∨ (chain 0 0).all.length ≤ 100 := by decide +kernel

end Verif.AstDiff
