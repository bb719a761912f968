import Verif.AstDiff.TreeModel
import Verif.AstDiff.EagerRebuild

/-!
# The nodes of a syntax tree

`FromNode` lists the nodes of the tree in preorder; each node knows the range of its descendants.
-/

namespace Verif.AstDiff

mutual
/-- the number of nodes -/
def T.size : T → Nat
  | .node _ _ _ subs => sizes subs + 1
def sizes : List T → Nat
  | [] => 0
  | t :: ts => t.size + sizes ts
end

/-- the indices of the roots of trees listed from `off` on -/
def offsets : List T → Nat → List Nat
  | [], _ => []
  | t :: ts, off => off :: offsets ts (off + t.size)

mutual
/-- the nodes of a tree in preorder, from index `off` on -/
def flat : T → Nat → Option Nat → Nat → List Node
  | .node i k v subs, off, par, dep =>
    ⟨par, off + sizes subs, dep, heights subs + 1, offsets subs (off + 1), i, k, v⟩ :: flats subs (off + 1) (some off) (dep + 1)
def flats : List T → Nat → Option Nat → Nat → List Node
  | [], _, _, _ => []
  | t :: ts, off, par, dep => flat t off par dep ++ flats ts (off + t.size) par dep
end

mutual
/-- the indices of the leaves -/
def leavesOf : T → Nat → List Nat
  | .node _ _ _ subs, off => leavesOfs subs (off + 1) ++ (if subs.isEmpty then [off] else [])
def leavesOfs : List T → Nat → List Nat
  | [], _ => []
  | t :: ts, off => leavesOf t off ++ leavesOfs ts (off + t.size)
end

theorem size_eq (t : T) : t.size = sizes t.subs + 1 := by
  cases t
  simp [T.size, T.subs]

theorem size_pos (t : T) : 0 < t.size := by rw [size_eq]; omega

mutual
theorem flat_length : ∀ (t : T) (off : Nat) (par : Option Nat) (dep : Nat), (flat t off par dep).length = t.size
  | .node i k v subs, off, par, dep => by simp [flat, T.size, flats_length subs]
theorem flats_length : ∀ (ts : List T) (off : Nat) (par : Option Nat) (dep : Nat), (flats ts off par dep).length = sizes ts
  | [], _, _, _ => by simp [flats, sizes]
  | t :: ts, off, par, dep => by simp [flats, sizes, flat_length t, flats_length ts]
end

theorem flat_head (t : T) (off : Nat) (par : Option Nat) (dep : Nat) : (flat t off par dep)[0]? =
    some ⟨par, off + sizes t.subs, dep, heights t.subs + 1, offsets t.subs (off + 1), t.id, t.kind, t.val⟩ := by
  cases t
  simp [flat, T.subs, T.id, T.kind, T.val]

/-- adding subnodes to the node at `p` -/
def push (par : Option Nat) (l : List Nat) (nodes : List Node) : List Node :=
  match par with
  | some p => nodes.modify p (fun n => { n with subs := n.subs ++ l })
  | none => nodes

theorem push_length (par : Option Nat) (l : List Nat) (nodes : List Node) : (push par l nodes).length = nodes.length := by
  cases par <;> simp [push]

theorem push_append {par : Option Nat} {l : List Nat} {a b : List Node} (h : ∀ p, par = some p → p < a.length) :
    push par l (a ++ b) = push par l a ++ b := by
  cases par with
  | none => rfl
  | some p =>
    have := h p rfl
    simp only [push]
    apply List.ext_getElem?
    intro i
    by_cases hi : i < a.length
    · rw [List.getElem?_modify, List.getElem?_append_left hi, List.getElem?_append_left (by simpa using hi), List.getElem?_modify]
    · rw [List.getElem?_modify, List.getElem?_append_right (by omega), List.getElem?_append_right (by simp; omega), List.length_modify]
      have : p ≠ i := by omega
      simp [this]

theorem push_push (p : Nat) (l l' : List Nat) (a : List Node) :
    push (some p) l' (push (some p) l a) = push (some p) (l ++ l') a := by
  simp only [push]
  apply List.ext_getElem?
  intro i
  simp only [List.getElem?_modify]
  by_cases h : p = i
  · simp [h]
    congr 1
    funext n
    simp
  · simp [h]

theorem modify_last (a : List Node) (n : Node) (b : List Node) (f : Node → Node) :
    (a ++ n :: b).modify a.length f = a ++ f n :: b := by
  apply List.ext_getElem?
  intro i
  rw [List.getElem?_modify]
  rcases Nat.lt_trichotomy i a.length with h | h | h
  · rw [List.getElem?_append_left h, List.getElem?_append_left h]
    have : a.length ≠ i := by omega
    simp [this]
  · subst h
    simp
  · rw [List.getElem?_append_right (by omega), List.getElem?_append_right (by omega)]
    obtain ⟨k, hk⟩ : ∃ k, i - a.length = k + 1 := ⟨i - a.length - 1, by omega⟩
    have : a.length ≠ i := by omega
    rw [hk]
    simp [this]

theorem fold_heights : ∀ (ts : List T) (a b : List Node) (par : Option Nat) (dep h0 : Nat), 1 ≤ h0 →
    (offsets ts a.length).foldl
      (fun h c => max h (1 + ((a ++ flats ts a.length par dep ++ b)[c]?.getD Node.none).height)) h0 = max h0 (1 + heights ts)
  | [], a, b, par, dep, h0, h => by simp [offsets, heights]; omega
  | t :: ts, a, b, par, dep, h0, h => by
    have e : (a ++ flats (t :: ts) a.length par dep ++ b)[a.length]? =
        some ⟨par, a.length + sizes t.subs, dep, heights t.subs + 1, offsets t.subs (a.length + 1), t.id, t.kind, t.val⟩ := by
      rw [List.append_assoc, List.getElem?_append_right (by omega), Nat.sub_self, flats, List.append_assoc, List.getElem?_append_left
        (by rw [flat_length]; exact size_pos t), flat_head]
    rw [offsets, List.foldl_cons, e]
    have ih := fold_heights ts (a ++ flat t a.length par dep) b par dep (max h0 (1 + (heights t.subs + 1))) (by omega)
    rw [List.length_append, flat_length] at ih
    simp only [Option.getD_some]
    have e2 : a ++ flats (t :: ts) a.length par dep ++ b = a ++ flat t a.length par dep ++ flats ts (a.length + t.size) par dep ++ b := by
      simp [flats]
    rw [e2, ih, heights, height_eq]
    omega

mutual
theorem traverse_eq : ∀ (t : T) (st : VS), (∀ p, st.parent = some p → p < st.nodes.length) →
    traverse t st = ⟨push st.parent [st.nodes.length] st.nodes ++ flat t st.nodes.length st.parent st.depth,
      st.leaves ++ leavesOf t st.nodes.length, st.parent, st.depth⟩
  | .node i k v subs, st, h => by
    have hpre : preTraverse i k v st =
        ⟨push st.parent [st.nodes.length] st.nodes ++ [⟨st.parent, 0, st.depth, 0, [], i, k, v⟩], st.leaves, some st.nodes.length,
          st.depth + 1⟩ := by
      rw [← push_append h]
      simp only [preTraverse, push]
      cases st.parent <;> rfl
    rw [traverse, hpre, traverseSubs_eq subs _ st.nodes.length rfl (by simp [push_length])]
    generalize hA : push st.parent [st.nodes.length] st.nodes = A
    have hlen : A.length = st.nodes.length := by rw [← hA, push_length]
    simp only [List.length_append, List.length_singleton, hlen]
    have e1 : push (some st.nodes.length) (offsets subs (st.nodes.length + 1)) (A ++ [⟨st.parent, 0, st.depth, 0, [], i, k, v⟩]) =
        A ++ [⟨st.parent, 0, st.depth, 0, offsets subs (st.nodes.length + 1), i, k, v⟩] := by
      simp only [push]
      rw [← hlen, modify_last]
      simp
    rw [e1]
    have e2 : (A ++ [⟨st.parent, 0, st.depth, 0, offsets subs (st.nodes.length + 1), i, k, v⟩] ++
        flats subs (st.nodes.length + 1) (some st.nodes.length) (st.depth + 1))[st.nodes.length]? =
          some ⟨st.parent, 0, st.depth, 0, offsets subs (st.nodes.length + 1), i, k, v⟩ := by
      rw [List.append_assoc, List.getElem?_append_right (by omega), hlen, Nat.sub_self]
      rfl
    have e3 := fold_heights subs (A ++ [⟨st.parent, 0, st.depth, 0, offsets subs (st.nodes.length + 1), i, k, v⟩]) []
      (some st.nodes.length) (st.depth + 1) 1 (by omega)
    simp only [List.length_append, List.length_singleton, hlen, List.append_nil] at e3
    simp only [postTraverse, e2, Option.getD_some, e3, List.length_append, List.length_singleton, hlen, flats_length]
    rw [VS.mk.injEq]
    refine ⟨?_, ?_, rfl, by omega⟩
    · rw [List.append_assoc, ← hlen, List.singleton_append, modify_last, hlen, flat]
      congr 3
      · omega
      · omega
    · simp only [leavesOf]
      cases subs with
      | nil => simp [offsets, leavesOfs]
      | cons c cs => simp [offsets]
theorem traverseSubs_eq : ∀ (ts : List T) (st : VS) (p : Nat), st.parent = some p → p < st.nodes.length →
    traverseSubs ts st = ⟨push (some p) (offsets ts st.nodes.length) st.nodes ++ flats ts st.nodes.length (some p) st.depth,
      st.leaves ++ leavesOfs ts st.nodes.length, some p, st.depth⟩
  | [], st, p, hp, hl => by
    have : push (some p) [] st.nodes = st.nodes := by
      simp only [push]
      apply List.ext_getElem?
      intro i
      rw [List.getElem?_modify]
      split <;> simp
    cases st
    simp only at hp hl this
    simp [traverseSubs, offsets, flats, leavesOfs, this, hp]
  | t :: ts, st, p, hp, hl => by
    have e := traverse_eq t st (by intro q hq; rw [hp] at hq; obtain rfl := Option.some.inj hq; exact hl)
    rw [traverseSubs, traverseSubs_eq ts (traverse t st) p (by rw [e]; exact hp) (by rw [e]; simp [push_length]; omega), e]
    simp only [List.length_append, push_length, flat_length, hp]
    rw [VS.mk.injEq]
    refine ⟨?_, ?_, rfl, rfl⟩
    · rw [push_append (by intro q hq; obtain rfl := Option.some.inj hq; rw [push_length]; exact hl), push_push, flats, offsets]
      simp
    · simp [leavesOfs]
end

/-- The nodes of a syntax tree are the nodes of the tree in preorder. -/
theorem fromNode_nodes (t : T) : (fromNode t).nodes = flat t 0 none 0 := by
  simp [fromNode, traverse_eq t ⟨[], [], none, 0⟩ (by simp), push]

theorem fromNode_leaves (t : T) : (fromNode t).leaves = leavesOf t 0 := by
  simp [fromNode, traverse_eq t ⟨[], [], none, 0⟩ (by simp)]

theorem fromNode_size (t : T) : (fromNode t).size = t.size := by
  rw [SynTree.size, fromNode_nodes, flat_length]

/-! ## Subtrees -/

/-- The nodes from `off` on are those of the tree `t`. -/
structure At (nodes : List Node) (off : Nat) (par : Option Nat) (dep : Nat) (t : T) : Prop where
  get : ∀ i, i < t.size → nodes[off + i]? = (flat t off par dep)[i]?

theorem At.node {nodes : List Node} {off par dep t} (h : At nodes off par dep t) : getNode nodes off =
    ⟨par, off + sizes t.subs, dep, heights t.subs + 1, offsets t.subs (off + 1), t.id, t.kind, t.val⟩ := by
  have := h.get 0 (size_pos t)
  rw [flat_head] at this
  simp only [Nat.add_zero] at this
  rw [getNode, this]
  rfl

theorem At.range {nodes : List Node} {off par dep t} (h : At nodes off par dep t) : off + t.size ≤ nodes.length := by
  have := h.get (t.size - 1) (by have := size_pos t; omega)
  have hs := size_pos t
  rw [List.getElem?_eq_getElem (l := flat t off par dep) (by rw [flat_length]; omega)] at this
  have := (List.getElem?_eq_some_iff.1 this).1
  omega

theorem at_root (t : T) : At (fromNode t).nodes 0 none 0 t := by
  refine ⟨fun i _ => ?_⟩
  rw [fromNode_nodes, Nat.zero_add]

/-- Where the subtrees of trees listed from `off` on start. -/
theorem offsets_get : ∀ (ts : List T) (off k : Nat) (c : T), ts[k]? = some c →
    (offsets ts off)[k]? = some (off + sizes (ts.take k))
  | [], off, k, c, h => by simp at h
  | t :: ts, off, 0, c, h => by simp [offsets, sizes]
  | t :: ts, off, k + 1, c, h => by
    rw [offsets, List.getElem?_cons_succ, offsets_get ts _ k c (by simpa using h)]
    simp [sizes]
    omega

theorem offsets_length (ts : List T) (off : Nat) : (offsets ts off).length = ts.length := by
  induction ts generalizing off with
  | nil => rfl
  | cons t ts ih => simp [offsets, ih]

theorem sizes_append (a b : List T) : sizes (a ++ b) = sizes a + sizes b := by
  induction a with
  | nil => simp [sizes]
  | cons t ts ih => simp [sizes, ih]; omega

theorem sizes_take_lt {ts : List T} {k : Nat} {c : T} (h : ts[k]? = some c) : sizes (ts.take k) + c.size ≤ sizes ts := by
  have hk := (List.getElem?_eq_some_iff.1 h)
  have e : ts = ts.take k ++ c :: ts.drop (k + 1) := by
    rw [← hk.2]
    simp
  have := congrArg sizes e
  rw [sizes_append] at this
  simp only [sizes] at this
  omega

theorem flats_get (ts : List T) (off : Nat) (par : Option Nat) (dep : Nat) {k : Nat} {c : T} (h : ts[k]? = some c) (i : Nat) (hi : i < c.size) :
    (flats ts off par dep)[sizes (ts.take k) + i]? = (flat c (off + sizes (ts.take k)) par dep)[i]? := by
  induction ts generalizing off k with
  | nil => simp at h
  | cons t ts ih =>
    cases k with
    | zero =>
      simp at h
      subst h
      simp only [List.take_zero, sizes, Nat.zero_add, Nat.add_zero, flats]
      rw [List.getElem?_append_left (by rw [flat_length]; exact hi)]
    | succ k =>
      simp only [List.take_succ_cons, sizes, flats]
      rw [List.getElem?_append_right (by rw [flat_length]; omega), flat_length, ← Nat.add_assoc, ← ih (off + t.size) (by simpa using h)]
      congr 1
      omega

/-- The subtree of a subnode -/
theorem At.child {nodes : List Node} {off par dep t} (h : At nodes off par dep t) {k : Nat} {c : T} (hc : t.subs[k]? = some c) :
    At nodes (off + 1 + sizes (t.subs.take k)) (some off) (dep + 1) c := by
  refine ⟨fun i hi => ?_⟩
  have hs := sizes_take_lt hc
  have := h.get (1 + sizes (t.subs.take k) + i) (by rw [size_eq]; omega)
  rw [show off + 1 + sizes (t.subs.take k) + i = off + (1 + sizes (t.subs.take k) + i) by omega, this]
  cases t with
  | node a b v subs =>
    rw [flat, show 1 + sizes ((T.node a b v subs).subs.take k) + i = (sizes ((T.node a b v subs).subs.take k) + i) + 1 by omega,
      List.getElem?_cons_succ]
    exact flats_get subs (off + 1) (some off) (dep + 1) hc i hi

theorem mem_offsets {ts : List T} {off x : Nat} : x ∈ offsets ts off ↔ ∃ k c, ts[k]? = some c ∧ x = off + sizes (ts.take k) := by
  constructor
  · intro h
    obtain ⟨k, hk⟩ := List.mem_iff_getElem?.1 h
    have := (List.getElem?_eq_some_iff.1 hk).1
    rw [offsets_length] at this
    have hc := List.getElem?_eq_getElem this
    rw [offsets_get ts off k _ hc] at hk
    exact ⟨k, _, hc, (Option.some.inj hk).symm⟩
  · rintro ⟨k, c, h1, rfl⟩
    exact List.mem_of_getElem? (offsets_get ts off k c h1)

/-- Every index of the range of a tree other than the first is in the range of one of its subnodes. -/
theorem split_index {ts : List T} {i : Nat} (h : i < sizes ts) : ∃ k c, ts[k]? = some c ∧ sizes (ts.take k) ≤ i ∧ i < sizes (ts.take k) + c.size := by
  induction ts generalizing i with
  | nil => simp [sizes] at h
  | cons t ts ih =>
    by_cases hi : i < t.size
    · exact ⟨0, t, rfl, by simp [sizes], by simpa [sizes] using hi⟩
    · simp only [sizes] at h
      obtain ⟨k, c, h1, h2, h3⟩ := ih (i := i - t.size) (by omega)
      refine ⟨k + 1, c, by simpa using h1, ?_, ?_⟩ <;> simp only [List.take_succ_cons, sizes] <;> omega

/-- A node of a syntax tree with the subtree below it: `x` is a node inside the subtree `t` at `off`. -/
theorem At.find {nodes : List Node} : ∀ (n : Nat) {off par dep} {t : T}, t.height ≤ n → At nodes off par dep t → ∀ x, off ≤ x → x < off + t.size →
    ∃ par' dep' u, At nodes x par' dep' u ∧ x + u.size ≤ off + t.size ∧ u.height ≤ t.height ∧ (off < x → u.height < t.height ∧ ∃ p, par' = some p)
  | 0, off, par, dep, t, h, _, _, _, _ => by rw [height_eq] at h; omega
  | n + 1, off, par, dep, t, h, hat, x, h1, h2 => by
    by_cases e : x = off
    · subst e
      exact ⟨par, dep, t, hat, Nat.le_refl _, Nat.le_refl _, fun hlt => by omega⟩
    · have hi : x - (off + 1) < sizes t.subs := by rw [size_eq] at h2; omega
      obtain ⟨k, c, hc, h3, h4⟩ := split_index hi
      have hch := heights_le hc
      have hs := sizes_take_lt hc
      rw [height_eq] at h ⊢
      rw [size_eq] at h2 ⊢
      obtain ⟨par', dep', u, a1, a2, a3, a4⟩ := At.find n (t := c) (by omega) (hat.child hc) x (by omega) (by omega)
      refine ⟨par', dep', u, a1, by omega, by omega, fun _ => ⟨by omega, ?_⟩⟩
      by_cases e2 : off + 1 + sizes (t.subs.take k) = x
      · subst e2
        have n1 := (hat.child hc).node
        have n2 := a1.node
        rw [n1] at n2
        exact ⟨off, by injection n2 with e _; exact e.symm⟩
      · exact (a4 (by omega)).2

/-- The subtree at an index is unique as far as its size and height are concerned. -/
theorem At.same {nodes : List Node} {off par dep t par' dep' u} (h : At nodes off par dep t) (h' : At nodes off par' dep' u) :
    t.size = u.size ∧ t.height = u.height ∧ par = par' ∧ dep = dep' := by
  have e := h.node
  rw [h'.node] at e
  injection e with e1 e2 e3 e4 e5
  rw [size_eq, size_eq, height_eq, height_eq]
  refine ⟨by omega, by omega, e1.symm, e3.symm⟩

/-- Two subtrees of a tree are disjoint or one is inside the other. -/
theorem At.laminar {nodes : List Node} {a b pa da pb db ta tb x} (ha : At nodes a pa da ta) (hb : At nodes b pb db tb)
    (h1 : a ≤ x) (h2 : x < a + ta.size) (h3 : b ≤ x) (h4 : x < b + tb.size) :
    (a ≤ b ∧ b + tb.size ≤ a + ta.size ∧ (a < b → tb.height < ta.height)) ∨
    (b ≤ a ∧ a + ta.size ≤ b + tb.size ∧ (b < a → ta.height < tb.height)) := by
  rcases Nat.le_total a b with h | h
  · left
    obtain ⟨p, d, u, h5, h6, h7, h8⟩ := ha.find _ (Nat.le_refl _) b h (by omega)
    obtain ⟨e1, e2, _⟩ := h5.same hb
    exact ⟨h, by omega, fun hlt => by have := (h8 hlt).1; omega⟩
  · right
    obtain ⟨p, d, u, h5, h6, h7, h8⟩ := hb.find _ (Nat.le_refl _) a h (by omega)
    obtain ⟨e1, e2, _⟩ := h5.same ha
    exact ⟨h, by omega, fun hlt => by have := (h8 hlt).1; omega⟩

/-- Every node of the syntax tree has its subtree. -/
theorem at_any (t : T) (x : Nat) (h : x < (fromNode t).size) : ∃ par dep u, At (fromNode t).nodes x par dep u := by
  rw [fromNode_size] at h
  obtain ⟨p, d, u, h1, _⟩ := (at_root t).find _ (Nat.le_refl _) x (Nat.zero_le _) (by omega)
  exact ⟨p, d, u, h1⟩

end Verif.AstDiff
