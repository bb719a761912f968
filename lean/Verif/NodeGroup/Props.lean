import Verif.NodeGroup.Lemmas

/-!
# C15, C16, C17 – the flat parse tree
-/

namespace Verif.NodeGroup
open Spec

variable {K M : Type}

/-! ## C15 -/

/-- C15, refinement: every history of builder calls in which each closing call
has a matching opening call, and no tree stays open, describes exactly one kind
of forest (`Builds`), and the group it produces is the preorder listing of that
forest; the histories which succeed and leave no tree open are exactly the
balanced ones. -/
theorem builder_produces_forest (ops : List (Op K M)) :
    (balanced 0 ops = true →
      ∃ f, Builds ops f ∧ ({} : Group K M).run ops = .ok ⟨f.flat, []⟩) ∧
    (∀ g, ({} : Group K M).run ops = .ok g → g.pending = [] → balanced 0 ops = true) := by
  constructor
  · intro h
    obtain ⟨f, hf⟩ := builds_of_balanced h
    exact ⟨f, hf, by simpa using run_builds hf {}⟩
  · intro g h hp
    simpa using balanced_of_run h hp

/-- C15: a tree opened and closed around any balanced history receives as extent
the number of nodes created in between, wherever it is built. -/
theorem tree_extent_is_nodes_created (g : Group K M) (k : K) (inner : List (Op K M))
    (h : balanced 0 inner = true) :
    ∃ created : List (Node K M),
      g.run inner = .ok ⟨g.nodes ++ created, g.pending⟩ ∧
      g.run (.start k :: (inner ++ [.finish]))
        = .ok ⟨g.nodes ++ ⟨k, .ext created.length⟩ :: created, g.pending⟩ := by
  obtain ⟨f, hf⟩ := builds_of_balanced h
  refine ⟨f.flat, run_builds hf g, ?_⟩
  have := run_builds (Builds.tree k hf .nil) g
  simpa [Forest.flat] using this

/-- C15: ranges of two nodes of a finished group are nested or disjoint, and no
range leaves the group. -/
theorem builder_well_nested (ops : List (Op K M)) (g : Group K M)
    (h : ({} : Group K M).run ops = .ok g) (hp : g.pending = [])
    (i j : Nat) (a b : Node K M) (hij : i < j)
    (ha : g.nodes[i]? = some a) (hb : g.nodes[j]? = some b) :
    0 ≤ a.getExtent ∧ i + a.getExtent < g.nodes.length ∧
    ((j : Int) ≤ i + a.getExtent → j + b.getExtent ≤ i + a.getExtent) := by
  obtain ⟨f, hf, hr⟩ := (builder_produces_forest ops).1 ((builder_produces_forest ops).2 g h hp)
  rw [hr] at h
  cases h
  simp only [flat_length] at *
  have hi : i < f.count := by
    have := (List.getElem?_eq_some_iff.1 ha).1; simpa using this
  have hj : j < f.count := by
    have := (List.getElem?_eq_some_iff.1 hb).1; simpa using this
  have nn : ∀ (f : Forest K M) (n : Node K M), n ∈ f.flat → 0 ≤ n.getExtent := by
    intro f
    induction f with
    | nil => intro n hn; simp [Forest.flat] at hn
    | leaf k v r ih =>
      intro n hn
      cases v <;>
      · simp only [Forest.flat, List.mem_cons] at hn
        rcases hn with rfl | hn
        · simp [Node.getExtent]
        · exact ih n hn
    | tree k c r ihc ihr =>
      intro n hn
      simp only [Forest.flat, List.cons_append, List.mem_cons, List.mem_append] at hn
      rcases hn with rfl | hn | hn
      · simp [Node.getExtent]
      · exact ihc n hn
      · exact ihr n hn
  have ea : extAt f.flat i = a.getExtent.toNat := by simp [extAt, ha]
  have eb : extAt f.flat j = b.getExtent.toNat := by simp [extAt, hb]
  have na := nn f a (List.mem_of_getElem? ha)
  have nb := nn f b (List.mem_of_getElem? hb)
  obtain ⟨h1, h2⟩ := flat_nested f i hi
  rw [ea] at h1 h2
  refine ⟨na, by omega, fun hc => ?_⟩
  have := h2 j hij (by omega)
  rw [eb] at this
  omega

/-- Concrete non-trivial history: `a(b c(d)) e` with a failed tree at the end. -/
def exampleOps : List (Op String Unit) :=
  [.start "a", .token "b" 0, .start "c", .token "d" 1, .finish, .finish,
   .start "e", .token "x" 2, .fail "err" ()]

example : balanced 0 exampleOps = true := by decide

example : ({} : Group String Unit).run exampleOps = .ok
    { nodes := [⟨"a", .ext 3⟩, ⟨"b", .tok 0⟩, ⟨"c", .ext 1⟩, ⟨"d", .tok 1⟩,
        ⟨"err", .mono ()⟩, ⟨"x", .tok 2⟩], pending := [] } := by rfl

/-- A closing call without an open tree is refused. -/
example : (({} : Group String Unit).run [.token "a" 0, .finish]).toOption.isNone := by rfl

/-! ## C17 -/

/-- C17: in the listing of any forest, with a loop budget of at least the number
of nodes plus one, `size(n)` is the number of direct children of `n` and
`subnode(n, i)` is the id of the `i`-th one, for every inner node `n`;
any other index (negative or too large) is a range error. -/
theorem subnode_access (f : Forest K M) (pend : List Nat) (p : Nat) (n : Node K M)
    (hn : f.flat[p]? = some n) (inner : n.isNonTerminal = true)
    (fuel : Nat) (hf : f.count < fuel) :
    let g : Group K M := ⟨f.flat, pend⟩
    g.size fuel (p + 1) = .ok (f.childrenOf 0 p).length ∧
    ∀ i : Int, g.subnode fuel (p + 1) i =
      if h : 0 ≤ i ∧ i.toNat < (f.childrenOf 0 p).length
      then .ok ((f.childrenOf 0 p)[i.toNat] + 1) else .error .range := by
  intro g
  have hp : p < f.count := by
    have := (List.getElem?_eq_some_iff.1 hn).1; simpa using this
  rcases locate f 0 p (Nat.zero_le _) (by omega) with
    ⟨pre, post, m, h3, h4, h5, h6, h7⟩ | ⟨pre, post, k, c, h3, h4, h5⟩
  · exfalso
    simp only [Nat.zero_add] at h4
    subst h4
    rw [h3] at hn
    simp at hn
    subst hn
    rw [inner] at h6
    cases h6
  · simp only [Nat.zero_add] at h4
    subst h4
    have hc : c.count < fuel := by
      have := congrArg List.length h3
      simp at this
      omega
    have hsub := subnodesOf_inner pre post k c pend
    have hg : g = ⟨pre ++ ⟨k, .ext c.count⟩ :: (c.flat ++ post), pend⟩ := by simp [g, h3]
    have e1 : pre ++ ⟨k, .ext c.count⟩ :: (c.flat ++ post)
        = (pre ++ [⟨k, .ext c.count⟩]) ++ c.flat ++ post := by simp
    have e2 : pre.length + 2 = (pre ++ [(⟨k, .ext c.count⟩ : Node K M)]).length + 1 := by simp
    have e3 : pre.length + 1 + c.count + 1
        = (pre ++ [(⟨k, .ext c.count⟩ : Node K M)]).length + c.count + 1 := by simp
    have e4 : pre.length + 1 = (pre ++ [(⟨k, .ext c.count⟩ : Node K M)]).length := by simp
    constructor
    · rw [hg, Group.size, hsub]
      simp only [bind, Except.bind]
      rw [e1, e2, e3, sizeLoop_roots c _ post pend fuel 0 hc, h5, ← e4]
      simp
    · intro i
      rw [hg, Group.subnode, hsub]
      simp only [bind, Except.bind]
      rw [e1, e2, e3]
      by_cases hi : 0 ≤ i
      · rw [subnodeLoop_roots c _ post pend fuel 0 i hc (by simpa using hi), ← e4]
        simp only [h5]
        by_cases hl : i.toNat < (c.roots (pre.length + 1)).length
        · rw [dif_pos ⟨hi, hl⟩]
          simp [hl]
        · rw [dif_neg (fun h => hl h.2)]
          have : (c.roots (pre.length + 1))[i.toNat]? = none := by
            simpa using hl
          simp [this]
      · rw [subnodeLoop_neg c _ post pend fuel 0 i hc (by simpa using hi),
          dif_neg (fun h => hi h.1)]

/-- C17 for leaves: no children; a token has no subnode range at all. -/
theorem subnode_access_leaf (f : Forest K M) (pend : List Nat) (p : Nat) (n : Node K M)
    (hn : f.flat[p]? = some n) (leaf : n.isNonTerminal = false)
    (fuel : Nat) (hf : 0 < fuel) (i : Int) :
    let g : Group K M := ⟨f.flat, pend⟩
    g.size fuel (p + 1) = .ok 0 ∧ g.subnode fuel (p + 1) i = .error .range := by
  intro g
  obtain ⟨fuel, rfl⟩ : ∃ k, fuel = k + 1 := ⟨fuel - 1, by omega⟩
  have hp : p < f.flat.length := (List.getElem?_eq_some_iff.1 hn).1
  have hat : g.at (p + 1) = .ok n := by simp [Group.at, getIndex, g, hn, bind, Except.bind]
  obtain ⟨k, v⟩ := n
  cases v with
  | ext e => simp [Node.isNonTerminal] at leaf
  | tok t => simp [Group.size, Group.subnode, Group.subnodesOf, hat, bind, Except.bind,
      Node.isTerminal]
  | mono m =>
    have hb : g.beginAt (p + 1 + 1) = .ok (p + 1 + 1) := by
      simp only [Group.beginAt, getIndex, bind, Except.bind]
      by_cases h : p + 1 < g.nodes.length
      · rw [if_pos h]
      · rw [if_neg h]; simp [g] at h ⊢; simp at hp; omega
    simp [Group.size, Group.subnode, Group.subnodesOf, hat, hb, bind, Except.bind,
      Node.isTerminal, Node.getExtent, Group.sizeLoop, Group.subnodeLoop]

/-- `a(b c(d) e)`: children of `a` are at positions 1, 2, 4. -/
def exampleForest : Forest String Unit :=
  .tree "a" (.leaf "b" (.tok 0) (.tree "c" (.leaf "d" (.tok 1) .nil)
    (.leaf "e" (.mono ()) .nil))) .nil

example : exampleForest.childrenOf 0 0 = [1, 2, 4] := by decide
example : (⟨exampleForest.flat, []⟩ : Group String Unit).subnode 6 1 2 = .ok 5 := by rfl
example : (⟨exampleForest.flat, []⟩ : Group String Unit).subnode 6 1 3 = .error .range := by rfl

/-! ## C16 -/

/-- Full C16: in every forest listing, for every node, the lookup finishes and
returns the id of the node whose direct child it is, or nil (0) for a root. -/
def ParentStatement (K M : Type) : Prop :=
  ∀ (f : Forest K M) (n : Nat), n < f.count →
    ∃ fuel r, Group.parent ⟨f.flat, []⟩ fuel (n + 1) = .ok r ∧
      ((r = 0 ∧ ∀ p, n ∉ f.childrenOf 0 p) ∨ ∃ p, r = p + 1 ∧ n ∈ f.childrenOf 0 p)

/-- C16 fails: for the second child of a tree the lookup never returns. -/
theorem parent_false : ¬ ParentStatement String Unit := by
  intro h
  obtain ⟨fuel, r, h1, _⟩ := h exampleForest 2 (by decide)
  have := parentLoop_diverges exampleForest.flat [] 2 1 (by decide) 0 (by decide) (by decide)
    (fun q h1 h2 => by omega) fuel
  simp only [Group.parent] at h1
  rw [this] at h1
  cases h1

/-- C16, what holds: whenever `parent(n)` returns, the answer is right (`p` for a
direct child of `p`, nil for a root).  Missing: that it returns; see
`parent_terminates_iff`. -/
theorem parent_sound_partial (f : Forest K M) (pend : List Nat) (n fuel r : Nat)
    (hn : n < f.count) (h : Group.parent ⟨f.flat, pend⟩ fuel (n + 1) = .ok r) :
    (r = 0 ∧ n ∈ f.roots 0) ∨ ∃ p, r = p + 1 ∧ n ∈ f.childrenOf 0 p := by
  have := parentLoop_spec f.flat pend n n fuel r (by simp; omega) (Nat.le_refl _)
    (by simpa [Group.parent] using h)
  rcases this with ⟨h1, h2⟩ | ⟨s, h1, h2, h3, h4, h5⟩
  · refine .inl ⟨h1, ?_⟩
    rw [mem_roots f 0 n (Nat.zero_le _) (by omega)]
    intro q _ hq
    simpa using (h2 q hq).2
  · refine .inr ⟨s, h1, ?_⟩
    rw [mem_childrenOf f s n hn (by omega)]
    exact ⟨h2, h4, fun q a b => (h5 q a b).2⟩

/-- C16, exactly when it returns: for a direct child `n` of `p`, the lookup
finishes iff every node listed between `p` and `n` has subnodes. -/
theorem parent_terminates_iff (f : Forest K M) (pend : List Nat) (p n : Nat)
    (hn : n < f.count) (hp : p < f.count) (hc : n ∈ f.childrenOf 0 p) :
    (∃ fuel r, Group.parent ⟨f.flat, pend⟩ fuel (n + 1) = .ok r) ↔
      ∀ (q : Nat) (node : Node K M), p < q → q < n → f.flat[q]? = some node →
        0 < node.getExtent := by
  rw [mem_childrenOf f p n hn hp] at hc
  obtain ⟨h1, h2, h3⟩ := hc
  constructor
  · rintro ⟨fuel, r, h⟩ q node hq1 hq2 hnode
    have := parentLoop_spec f.flat pend n n fuel r (by simp; omega) (Nat.le_refl _)
      (by simpa [Group.parent] using h)
    have key : 0 < extAt f.flat q := by
      rcases this with ⟨_, h5⟩ | ⟨s, _, h5, h6, h7, h8⟩
      · exact (h5 q hq2).1
      · by_cases hs : s ≤ p
        · exact (h8 q (by omega) hq2).1
        · exact absurd h7 (h3 s (by omega) h5)
    simp only [extAt, hnode, Option.map_some, Option.getD_some] at key
    omega
  · intro h
    refine ⟨n + 1, p + 1, ?_⟩
    have := parentLoop_finds f.flat pend n p h2 (n - (p + 1)) (by simp; omega) (by omega)
      (fun q hq1 hq2 => ?_) (n + 1) (by omega)
    · simp only [Group.parent, Nat.add_sub_cancel]
      rw [show p + 1 + (n - (p + 1)) = n from by omega] at this
      exact this
    · refine ⟨?_, h3 q hq1 (by omega)⟩
      have hq : q < f.flat.length := by simp; omega
      have := h q f.flat[q] hq1 (by omega) (List.getElem?_eq_getElem hq)
      simp only [extAt, List.getElem?_eq_getElem hq, Option.map_some, Option.getD_some]
      omega

/-- The first child of `a` is found; `d` below `c` as well. -/
example : Group.parent ⟨exampleForest.flat, []⟩ 9 2 = .ok 1 := by rfl
example : Group.parent ⟨exampleForest.flat, []⟩ 9 4 = .ok 3 := by rfl

end Verif.NodeGroup
