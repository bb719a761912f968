import Verif.AstDiff.TreeMap
import Mathlib.Data.List.Perm.Basic

/-!
# The breadth-first list of the nodes

It holds every node once, and the subnodes of a node are next to each other and in order.
-/

namespace Verif.AstDiff

/-- the indices of a list of subtrees -/
theorem flatMap_ranges : ∀ (ts : List T) {S : SynTree} {off par dep}, Ats S.nodes off par dep ts →
    (offsets ts off).flatMap (fun x => List.range' x (S.descendants x)) = List.range' off (sizes ts)
  | [], _, _, _, _, _ => by simp [offsets, sizes]
  | t :: ts, S, off, par, dep, h => by
    rw [offsets, List.flatMap_cons, h.head.descendants, flatMap_ranges ts h.tail, sizes]
    have := List.range'_append (s := off) (m := t.size) (n := sizes ts) (step := 1)
    rw [Nat.one_mul] at this
    rw [this]

theorem sum_descendants : ∀ (ts : List T) {S : SynTree} {off par dep}, Ats S.nodes off par dep ts →
    ((offsets ts off).map S.descendants).sum = sizes ts
  | [], _, _, _, _, _ => by simp [offsets, sizes]
  | t :: ts, S, off, par, dep, h => by
    rw [offsets, List.map_cons, List.sum_cons, h.head.descendants, sum_descendants ts h.tail, sizes]

theorem bfs_spec {S : SynTree} (hS : Made S) : ∀ (n : Nat) (queue : List Nat), (∀ x ∈ queue, x < S.size) →
    (queue.map S.descendants).sum ≤ n →
    queue <+: bfsLoop S.nodes n queue ∧ (∀ x ∈ bfsLoop S.nodes n queue, (S.node x).subs <:+: bfsLoop S.nodes n queue) ∧
    (bfsLoop S.nodes n queue).Perm (queue.flatMap (fun x => List.range' x (S.descendants x)))
  | 0, [], _, _ => by simp [bfsLoop]
  | n + 1, [], _, _ => by simp [bfsLoop]
  | 0, i :: queue, h, hs => by
    obtain ⟨par, dep, u, hat⟩ := hS.at (h i (by simp))
    rw [List.map_cons, List.sum_cons, hat.descendants] at hs
    have := size_pos u
    omega
  | n + 1, i :: queue, h, hs => by
    obtain ⟨par, dep, u, hat⟩ := hS.at (h i (by simp))
    have hsub : (getNode S.nodes i).subs = offsets u.subs (i + 1) := by rw [hat.node]
    rw [List.map_cons, List.sum_cons, hat.descendants, size_eq] at hs
    obtain ⟨h1, h2, h3⟩ := bfs_spec hS n (queue ++ offsets u.subs (i + 1))
      (by
        intro x hx
        rcases List.mem_append.1 hx with hx | hx
        · exact h x (by simp [hx])
        · obtain ⟨k, c, hc, rfl⟩ := mem_offsets.1 hx
          exact (hat.child hc).lt)
      (by rw [List.map_append, List.sum_append, sum_descendants u.subs hat.children]; omega)
    rw [bfsLoop, hsub]
    generalize bfsLoop S.nodes n (queue ++ offsets u.subs (i + 1)) = out at h1 h2 h3
    refine ⟨?_, ?_, ?_⟩
    · obtain ⟨r, hr⟩ := h1
      exact ⟨offsets u.subs (i + 1) ++ r, by rw [← hr]; simp⟩
    · intro x hx
      rcases List.mem_cons.1 hx with rfl | hx
      · rw [SynTree.node, hsub]
        obtain ⟨r, hr⟩ := h1
        exact ⟨x :: queue, r, by rw [← hr]; simp⟩
      · exact (h2 x hx).trans (List.infix_cons (List.infix_refl _))
    · rw [List.flatMap_cons, hat.descendants, size_eq, List.range'_succ]
      rw [List.flatMap_append, flatMap_ranges u.subs hat.children] at h3
      exact (h3.trans List.perm_append_comm).cons i

theorem bfs_perm (t : T) : (fromNode t).bfs.Perm (List.range (fromNode t).size) := by
  have h0 := (at_root t).descendants
  have := (bfs_spec (S := fromNode t) ⟨t, rfl⟩ (fromNode t).nodes.length [0] (by simpa using Made.pos ⟨t, rfl⟩)
    (by simp only [List.map_cons, List.map_nil, List.sum_cons, List.sum_nil, h0, Nat.add_zero]
        have := fromNode_size t
        rw [SynTree.size] at this
        omega)).2.2
  rw [List.flatMap_cons, List.flatMap_nil, List.append_nil, h0, ← fromNode_size, ← List.range_eq_range'] at this
  exact this

theorem bfs_nodup (t : T) : (fromNode t).bfs.Nodup := (bfs_perm t).nodup_iff.2 List.nodup_range

theorem mem_bfs (t : T) (x : Nat) : x ∈ (fromNode t).bfs ↔ x < (fromNode t).size := by
  rw [(bfs_perm t).mem_iff, List.mem_range]

theorem bfs_infix (t : T) {p : Nat} (hp : p < (fromNode t).size) : ((fromNode t).node p).subs <:+: (fromNode t).bfs := by
  have h0 := (at_root t).descendants
  refine (bfs_spec (S := fromNode t) ⟨t, rfl⟩ (fromNode t).nodes.length [0] (by simpa using Made.pos ⟨t, rfl⟩)
    (by simp only [List.map_cons, List.map_nil, List.sum_cons, List.sum_nil, h0, Nat.add_zero]
        have := fromNode_size t
        rw [SynTree.size] at this
        omega)).2.1 p ((mem_bfs t p).2 hp)

/-- the subnodes of a node and the parent of a node -/
theorem mem_subs {S : SynTree} (hS : Made S) {p x : Nat} (hp : p < S.size) :
    x ∈ (S.node p).subs ↔ (x < S.size ∧ (S.node x).parent = some p) := by
  obtain ⟨par, dep, u, hat⟩ := hS.at hp
  constructor
  · intro h
    rw [SynTree.node, hat.node] at h
    obtain ⟨k, c, hc, rfl⟩ := mem_offsets.1 h
    have := hat.child hc
    exact ⟨this.lt, by rw [SynTree.node, this.node]⟩
  · rintro ⟨h1, h2⟩
    obtain ⟨par', dep', u', hat'⟩ := hS.at h1
    rw [SynTree.node, hat'.node] at h2
    simp only at h2
    rcases made_above hS hat' with ⟨_, e⟩ | ⟨p', pp, pd, v, k, e, _, e2, e3, e4⟩
    · rw [e] at h2; simp at h2
    · rw [e] at h2
      obtain rfl := Option.some.inj h2
      obtain rfl := At.unique _ (Nat.le_refl _) hat e2
      rw [SynTree.node, hat.node]
      exact mem_offsets.2 ⟨k, u', e3, e4⟩

/-- the parent of a node is a node -/
theorem parent_lt {S : SynTree} (hS : Made S) {p x : Nat} (hx : x < S.size) (h : (S.node x).parent = some p) : p < S.size := by
  obtain ⟨par', dep', u', hat'⟩ := hS.at hx
  rw [SynTree.node, hat'.node] at h
  simp only at h
  rcases made_above hS hat' with ⟨_, e⟩ | ⟨p', pp, pd, v, k, e, _, e2, e3, e4⟩
  · rw [e] at h; simp at h
  · rw [e] at h
    obtain rfl := Option.some.inj h
    exact e2.lt

end Verif.AstDiff
