import Verif.AstDiff.TreeProps

/-!
# The diff of two equal trees

Lemmas for C104: the two syntax trees are the same up to the numbers of the nodes, and each phase links every node with itself.
-/

namespace Verif.AstDiff

/-- a node without the number of its tree node -/
def Node.erase (n : Node) : Node := { n with id := 0 }

mutual
theorem shape_flat : ∀ (t u : T), t.shape = u.shape → t.size = u.size ∧ t.height = u.height ∧ (∀ off, posts t off = posts u off) ∧
    (∀ b, lms t b = lms u b) ∧ ∀ off par dep, (flat t off par dep).map Node.erase = (flat u off par dep).map Node.erase
  | .node i k v subs, .node i' k' v' subs', h => by
    simp only [T.shape, Shape.node.injEq] at h
    obtain ⟨rfl, rfl, h⟩ := h
    obtain ⟨h1, h2, h3, h4, h5, h6⟩ := shapes_flat subs subs' h
    refine ⟨by simp [T.size, h1], by simp [T.height, h2], fun off => by simp [posts, h4], fun b => by simp [lms, h5], fun off par dep => ?_⟩
    simp [flat, h1, h2, h3, h6, Node.erase]
theorem shapes_flat : ∀ (ts us : List T), shapes ts = shapes us → sizes ts = sizes us ∧ heights ts = heights us ∧
    (∀ off, offsets ts off = offsets us off) ∧ (∀ off, postss ts off = postss us off) ∧ (∀ b, lmss ts b = lmss us b) ∧
    ∀ off par dep, (flats ts off par dep).map Node.erase = (flats us off par dep).map Node.erase
  | [], [], _ => by simp
  | [], _ :: _, h => by simp [shapes] at h
  | _ :: _, [], h => by simp [shapes] at h
  | t :: ts, u :: us, h => by
    simp only [shapes, List.cons.injEq] at h
    obtain ⟨a1, a2, a3, a4, a5⟩ := shape_flat t u h.1
    obtain ⟨h1, h2, h3, h4, h5, h6⟩ := shapes_flat ts us h.2
    refine ⟨by simp [sizes, a1, h1], by simp [heights, a2, h2], fun off => by simp [offsets, a1, h3], fun off => by simp [postss, a1, a3, h4],
      fun b => by simp [lmss, a1, a4, h5], fun off par dep => ?_⟩
    simp only [flats, List.map_append, a1, a5, h6]
end

section
variable {s d : T} (h : s.shape = d.shape)
include h

theorem same_size : (fromNode s).size = (fromNode d).size := by
  rw [fromNode_size, fromNode_size]
  exact (shape_flat s d h).1

theorem same_node (x : Nat) : ((fromNode s).node x).erase = ((fromNode d).node x).erase := by
  have e := (shape_flat s d h).2.2.2.2 0 none 0
  rw [← fromNode_nodes, ← fromNode_nodes] at e
  have e := congrArg (fun l => l[x]?) e
  simp only [List.getElem?_map] at e
  rw [SynTree.node, SynTree.node, getNode, getNode]
  cases h1 : (fromNode s).nodes[x]? with
  | none =>
    cases h2 : (fromNode d).nodes[x]? with
    | none => rfl
    | some b => rw [h1, h2] at e; simp at e
  | some a =>
    cases h2 : (fromNode d).nodes[x]? with
    | none => rw [h1, h2] at e; simp at e
    | some b => rw [h1, h2] at e; simpa using e

theorem same_parts (x : Nat) : ((fromNode s).node x).parent = ((fromNode d).node x).parent ∧
    ((fromNode s).node x).height = ((fromNode d).node x).height ∧ ((fromNode s).node x).subs = ((fromNode d).node x).subs ∧
    ((fromNode s).node x).kind = ((fromNode d).node x).kind ∧ ((fromNode s).node x).val = ((fromNode d).node x).val := by
  have := same_node h x
  simp only [Node.erase, Node.mk.injEq] at this
  obtain ⟨h1, _, _, h4, h5, _, h7, h8⟩ := this
  exact ⟨h1, h4, h5, h7, h8⟩

theorem same_sub : Sub.make (fromNode s) 0 = Sub.make (fromNode d) 0 := by
  obtain ⟨a1, a2, a3⟩ := sub_make s (at_root s)
  obtain ⟨b1, b2, b3⟩ := sub_make d (at_root d)
  obtain ⟨h1, h2, h3, h4, h5⟩ := shape_flat s d h
  generalize Sub.make (fromNode s) 0 = P at *
  generalize Sub.make (fromNode d) 0 = Q at *
  obtain ⟨p1, p2, p3⟩ := P
  obtain ⟨q1, q2, q3⟩ := Q
  simp only at a1 a2 a3 b1 b2 b3
  rw [a1, a2, a3, b1, b2, b3, h1, h3, h4]

end

/-- nodes of the same kind and value may be matched and have equal values -/
def Respects (o : Options) : Prop := ∀ (a b : Node), a.kind = b.kind → a.val = b.val → o.allowed a b = true ∧ o.valuesEqual a b = true

section
variable {o : Options} (ho : Respects o)
include ho

theorem same_possible {s d : T} (h : s.shape = d.shape) (x : Nat) : possible o (fromNode s) (fromNode d) x x = true :=
  (ho _ _ (same_parts h x).2.2.2.1 (same_parts h x).2.2.2.2).1

theorem same_values {s d : T} (h : s.shape = d.shape) (x : Nat) : o.valuesEqual ((fromNode s).node x) ((fromNode d).node x) = true :=
  (ho _ _ (same_parts h x).2.2.2.1 (same_parts h x).2.2.2.2).2

theorem same_identical {s d : T} (h : s.shape = d.shape) : ∀ (n x : Nat) {par dep u}, At (fromNode s).nodes x par dep u → u.height ≤ n →
    identical o (fromNode s) (fromNode d) n x x = true
  | 0, x, par, dep, u, hat, hn => by rw [height_eq] at hn; omega
  | n + 1, x, par, dep, u, hat, hn => by
    rw [identical, same_possible ho h, same_values ho h, ← (same_parts h x).2.2.1]
    simp only [beq_self_eq_true, Bool.true_and, List.all_eq_true]
    intro p hp
    obtain ⟨k, hk⟩ := List.mem_iff_getElem?.1 hp
    rw [List.getElem?_zip_eq_some] at hk
    have e : p.1 = p.2 := by
      have := hk.1.symm.trans hk.2
      simpa using this
    rw [← e]
    have hk1 := hk.1
    rw [SynTree.node, hat.node] at hk1
    simp only at hk1
    have hlt := (List.getElem?_eq_some_iff.1 hk1).1
    rw [offsets_length] at hlt
    have hc := List.getElem?_eq_getElem hlt
    rw [offsets_get _ _ _ _ hc] at hk1
    rw [← Option.some.inj hk1]
    rw [height_eq] at hn
    have := heights_le hc
    exact same_identical h n _ (hat.child hc) (by omega)

end

/-- Only nodes of the tree are linked, each with itself. -/
def Diag (N : Nat) (m : Mapping) : Prop := ∀ (x : Nat), m.src x = m.dst x ∧ (m.dst x = none ∨ (m.dst x = some x ∧ x < N))

theorem Diag.link {N : Nat} {m : Mapping} (h : Diag N m) {x : Nat} (hx : x < N) : Diag N (m.link x x) := by
  intro y
  simp only [Mapping.link, upd_apply]
  by_cases e : y = x
  · subst e
    simp [hx]
  · simp [e]
    exact h y

theorem Diag.ok {o : Options} (ho : Respects o) {s d : T} (h : s.shape = d.shape) {m : Mapping} (hm : Diag (fromNode s).size m) :
    MapOk o (fromNode s) (fromNode d) m := by
  have key : ∀ (x y : Nat), m.dst x = some y → x = y ∧ x < (fromNode s).size := by
    intro x y hxy
    rcases (hm x).2 with e | ⟨e, hx⟩
    · rw [e] at hxy; simp at hxy
    · rw [e] at hxy
      exact ⟨Option.some.inj hxy, hx⟩
  refine ⟨fun x y => ⟨fun hxy => ?_, fun hxy => ?_⟩, fun x y hxy => ?_⟩
  · obtain ⟨rfl, _⟩ := key x y hxy
    rw [(hm x).1, hxy]
  · rw [(hm y).1] at hxy
    obtain ⟨rfl, _⟩ := key y x hxy
    exact hxy
  · obtain ⟨rfl, hx⟩ := key x y hxy
    exact ⟨hx, by rw [← same_size h]; exact hx, same_possible ho h x⟩

/-- Linked nodes are not moved. -/
theorem not_moved {s d : T} (h : s.shape = d.shape) {m : Mapping}
    (full : ∀ x, x < (fromNode s).size → m.dst x = some x) {k : Marks} (hk : k.shS = k.shD) {x : Nat} (hx : x < (fromNode s).size) :
    isMoved (fromNode s) (fromNode d) m k x x = false := by
  have hp : position (fromNode s) k.shS x = position (fromNode d) k.shD x := by
    rw [position, position, hk, (same_parts h x).1]
    cases ((fromNode d).node x).parent with
    | none => rfl
    | some p => simp only [(same_parts h p).2.2.1]
  have hsp : sameParents (fromNode s) (fromNode d) m x x = true := by
    rw [sameParents, ← (same_parts h x).1]
    cases e : ((fromNode s).node x).parent with
    | none => rfl
    | some p =>
      obtain ⟨par, dep, u, hat⟩ := at_any s x hx
      rw [SynTree.node, hat.node] at e
      simp only at e
      subst e
      rcases made_above ⟨s, rfl⟩ hat with ⟨_, e⟩ | ⟨q, pp, pd, v, k, e, _, h2, _, _⟩
      · simp at e
      · obtain rfl := Option.some.inj e
        simp [full _ h2.lt]
  simp [isMoved, hsp, hp]

theorem Diag.shifts {s d : T} (h : s.shape = d.shape) {m : Mapping} (hm : Diag (fromNode s).size m) :
    (marksEnd (fromNode s) (fromNode d) m).shS = (marksEnd (fromNode s) (fromNode d) m).shD := by
  refine foldl_inv (fun k : Marks => k.shS = k.shD) _ _ _ ?_ (fun k a _ hk => ?_)
  · funext i
    simp only [markUnmatched, (hm i).1, same_size h]
  · rw [shiftStep]
    rcases (hm a).2 with e | ⟨e, _⟩
    · rw [e]
      exact hk
    · rw [e]
      simp only
      split
      · simp only [hk]
      · exact hk

theorem Diag.changes {o : Options} (ho : Respects o) {s d : T} (h : s.shape = d.shape) {m : Mapping} (hm : Diag (fromNode s).size m)
    (full : ∀ x, x < (fromNode s).size → m.dst x = some x) {x : Nat} (hx : x < (fromNode s).size) :
    (changeKinds o (fromNode s) (fromNode d) m).chS x = .none ∧ (changeKinds o (fromNode s) (fromNode d) m).chD x = .none := by
  obtain ⟨g1, _, _⟩ := marks_end (hm.ok ho h)
  have hkind : kindOf o (fromNode s) (fromNode d) m (marksEnd (fromNode s) (fromNode d) m) x x = .none := by
    rw [kindOf, not_moved h full (hm.shifts h) hx, same_values ho h]
    rfl
  rw [(g1 x x (full x hx)).1, (g1 x x (full x hx)).2, hkind]
  exact ⟨rfl, rfl⟩

/-! ## The first phase -/

theorem topDown_same {o : Options} (ho : Respects o) (hmin : 0 ≤ o.minHeight) {s d : T} (h : s.shape = d.shape)
    (hh : o.minHeight < s.height) {n : Nat} (hn : 1 < n) :
    ∃ m, matchTopDown o (fromNode s) (fromNode d) n = some m ∧ Diag (fromNode s).size m ∧ ∀ x, x < (fromNode s).size → m.dst x = some x := by
  obtain ⟨n, rfl⟩ : ∃ j, n = j + 2 := ⟨n - 2, by omega⟩
  have hs : ((fromNode s).node 0).height = s.height := (at_root s).height
  have hd : ((fromNode d).node 0).height = s.height := by rw [← (same_parts h 0).2.1, hs]
  have hpos : 0 < s.height := by rw [height_eq]; omega
  have pS : peekMax (fromNode s) [0] = s.height := by simp [peekMax, hs]
  have pD : peekMax (fromNode d) [0] = s.height := by simp [peekMax, hd]
  have qS : popMax (fromNode s) [0] = ([0], []) := by rw [popMax, if_neg (by omega), pS]; simp [hs]
  have qD : popMax (fromNode d) [0] = ([0], []) := by rw [popMax, if_neg (by omega), pD]; simp [hd]
  have hid : identical o (fromNode s) (fromNode d) (fromNode s).size 0 0 = true :=
    same_identical ho h _ _ (at_root s) (by rw [fromNode_size]; exact height_le_size s)
  have hm : matchForests o (fromNode s) (fromNode d) [0] [0] Mapping.empty = linkAll 0 0 (fromNode s).size Mapping.empty := by
    simp only [matchForests, List.foldl_cons, List.foldl_nil, hid]
    rw [if_pos (by simp [Mapping.empty]), (at_root s).descendants, fromNode_size]
  have hdst : ∀ x, (linkAll 0 0 (fromNode s).size Mapping.empty).dst x = if x < (fromNode s).size then some x else none := by
    intro x
    rw [linkAll_dst]
    simp [Mapping.empty]
  have hsrc : ∀ x, (linkAll 0 0 (fromNode s).size Mapping.empty).src x = if x < (fromNode s).size then some x else none := by
    intro x
    rw [linkAll_src]
    simp [Mapping.empty]
  have h0 : 0 < (fromNode s).size := by rw [fromNode_size]; exact size_pos s
  refine ⟨linkAll 0 0 (fromNode s).size Mapping.empty, ?_, fun x => ?_, fun x hx => by rw [hdst, if_pos hx]⟩
  · rw [matchTopDown, topDownLoop]
    dsimp only
    rw [if_pos (by rw [pS, pD]; simpa using hh), if_neg (by omega), if_neg (by omega), qS, qD]
    simp only [hm]
    rw [List.filter_cons_of_neg (by simp [hdst, h0]), List.filter_cons_of_neg (by simp [hsrc, h0])]
    simp only [List.filter_nil, openAll, List.flatMap_nil, List.append_nil]
    rw [topDownLoop]
    dsimp only
    rw [if_neg (by simpa [peekMax] using hmin)]
  · rw [hdst, hsrc]
    by_cases e : x < (fromNode s).size
    · simp [e]
    · simp [e]

theorem bottomUp_skip {o : Options} {S D : SynTree} {m : Mapping} (fuel : Nat) : ∀ (l : List Nat), (∀ x ∈ l, (m.dst x).isSome = true) →
    bottomUpLoop o S D fuel l m = some m
  | [], _ => rfl
  | a :: l, h => by
    have ha := h a (by simp)
    rw [bottomUpLoop, if_neg, if_pos (Or.inl ha), bottomUp_skip fuel l (fun x hx => h x (by simp [hx]))]
    rintro ⟨e, h1, _⟩
    rw [← e, Option.isNone_iff_eq_none] at h1
    rw [h1] at ha
    simp at ha

/-! ## The algorithm of Zhang and Shasha -/

section
variable {o : Options} {S D : SynTree} {P : Sub}

theorem fdCell_diag {l B d1 d2 : Nat} {t : Tab} (hz : zsUpdate o S D P P d1 d1 = 0) (hl : l < d1) (hl2 : l < d2) (hB : d2 ≤ B)
    (hlm : l ≤ P.lmd d1 ∧ P.lmd d1 < d1) (htd : ∀ i, t.td i i = 0) (hfd : ∀ j, l ≤ j → j < d1 → j ≤ B → t.fd j j = 0) :
    (∀ i, (fdCell o S D P P l l d1 d2 t).td i i = 0) ∧ (∀ j, l ≤ j → j < d1 → j ≤ B → (fdCell o S D P P l l d1 d2 t).fd j j = 0) ∧
    (d1 = d2 → (fdCell o S D P P l l d1 d2 t).fd d1 d1 = 0) ∧ (d1 ≠ d2 → (fdCell o S D P P l l d1 d2 t).fd d1 d1 = t.fd d1 d1) := by
  have hset : ∀ v w (j : Nat), (j ≠ d1 ∨ d1 ≠ d2) → set2 (set2 t.fd l d2 v) d1 d2 w j j = t.fd j j := by
    intro v w j hj
    simp only [set2]
    rw [if_neg (by omega), if_neg (by omega)]
  have hone : ∀ v (j : Nat), set2 t.fd l d2 v j j = t.fd j j := by
    intro v j
    simp only [set2]
    rw [if_neg (by omega)]
  unfold fdCell
  dsimp only
  by_cases e : d1 = d2
  · subst e
    by_cases c : P.lmd d1 = l ∧ P.lmd d1 = l
    · rw [if_pos c]
      have hv : ∀ a b, min a (min b (set2 t.fd l d1 (t.fd l (d1 - 1) + o.insertionCost) (d1 - 1) (d1 - 1) + zsUpdate o S D P P d1 d1)) = 0 := by
        intro a b
        rw [hone, hfd (d1 - 1) (by omega) (by omega) (by omega), hz]
        omega
      refine ⟨fun i => ?_, fun j h1 h2 h3 => ?_, fun _ => ?_, fun h => absurd rfl h⟩
      · dsimp only
        rw [set2]
        split
        · exact hv _ _
        · exact htd i
      · exact (hset _ _ j (by omega)).trans (hfd j h1 h2 h3)
      · dsimp only
        rw [set2, if_pos ⟨rfl, rfl⟩]
        exact hv _ _
    · rw [if_neg c]
      refine ⟨htd, fun j h1 h2 h3 => ?_, fun _ => ?_, fun h => absurd rfl h⟩
      · exact (hset _ _ j (by omega)).trans (hfd j h1 h2 h3)
      · dsimp only
        rw [set2, if_pos ⟨rfl, rfl⟩, hone, htd, hfd _ hlm.1 hlm.2 (by omega)]
        omega
  · have hfin : ∀ v w j, set2 (set2 t.fd l d2 v) d1 d2 w j j = t.fd j j := fun v w j => hset v w j (Or.inr e)
    split
    · refine ⟨fun i => ?_, fun j h1 h2 h3 => ?_, fun h => absurd h e, fun _ => hfin _ _ _⟩
      · dsimp only
        rw [set2, if_neg (by omega)]
        exact htd i
      · exact (hfin _ _ j).trans (hfd j h1 h2 h3)
    · refine ⟨htd, fun j h1 h2 h3 => ?_, fun h => absurd h e, fun _ => hfin _ _ _⟩
      exact (hfin _ _ j).trans (hfd j h1 h2 h3)

theorem fdRow_diag {l B d1 : Nat} {t : Tab} (hz : zsUpdate o S D P P d1 d1 = 0) (hl : l < d1)
    (hlm : l ≤ P.lmd d1 ∧ P.lmd d1 < d1) (htd : ∀ i, t.td i i = 0) (hfd : ∀ j, l ≤ j → j < d1 → j ≤ B → t.fd j j = 0) :
    ∀ (m : Nat), l + m ≤ B → (∀ i, (fdRow o S D P P l l d1 m t).td i i = 0) ∧
      (∀ j, l ≤ j → j < d1 → j ≤ B → (fdRow o S D P P l l d1 m t).fd j j = 0) ∧ (d1 ≤ l + m → (fdRow o S D P P l l d1 m t).fd d1 d1 = 0)
  | 0, _ => ⟨htd, hfd, fun h => by omega⟩
  | m + 1, hm => by
    obtain ⟨h1, h2, h3⟩ := fdRow_diag hz hl hlm htd hfd m (by omega)
    rw [fdRow]
    obtain ⟨g1, g2, g3, g4⟩ := fdCell_diag (d2 := l + m + 1) hz hl (by omega) (by omega) hlm h1 h2
    refine ⟨g1, g2, fun hd => ?_⟩
    by_cases e : d1 = l + m + 1
    · exact g3 e
    · rw [g4 e]
      exact h3 (by omega)

theorem fdRows_diag {l w : Nat} {t : Tab} (htd : ∀ i, t.td i i = 0) (h0 : t.fd l l = 0) : ∀ (n : Nat),
    (∀ i, l < i → i ≤ l + n → zsUpdate o S D P P i i = 0 ∧ l ≤ P.lmd i ∧ P.lmd i < i) →
    (∀ i, (fdRows o S D P P l l w n t).td i i = 0) ∧ (∀ j, l ≤ j → j ≤ l + n → j ≤ l + w → (fdRows o S D P P l l w n t).fd j j = 0)
  | 0, _ => ⟨htd, fun j h1 h2 _ => by obtain rfl : j = l := by omega
                                      exact h0⟩
  | n + 1, hp => by
    obtain ⟨h1, h2⟩ := fdRows_diag (w := w) htd h0 n (fun i a b => hp i a (by omega))
    rw [fdRows]
    generalize fdRows o S D P P l l w n t = t' at h1 h2
    obtain ⟨q1, q2⟩ := hp (l + n + 1) (by omega) (by omega)
    obtain ⟨g1, g2, g3⟩ := fdRow_diag (o := o) (S := S) (D := D) (P := P) (l := l) (B := l + w) (d1 := l + n + 1)
      (t := { t' with fd := set2 t'.fd (l + n + 1) l (t'.fd (l + n + 1 - 1) l + o.deletionCost) }) q1 (by omega) q2 h1
      (fun j a b c => by
        simp only [set2]
        rw [if_neg (by omega)]
        exact h2 j a (by omega) c) w (Nat.le_refl _)
    refine ⟨g1, fun j a b c => ?_⟩
    by_cases e : j = l + n + 1
    · rw [e]
      exact g3 (by omega)
    · exact g2 j a (by omega) c

theorem fdRow_td {l1 l2 d1 : Nat} (hne : l1 ≠ l2) {t : Tab} (htd : ∀ i, t.td i i = 0) : ∀ (m : Nat), ∀ i, (fdRow o S D P P l1 l2 d1 m t).td i i = 0
  | 0 => htd
  | m + 1 => by
    have ih := fdRow_td hne htd m (d1 := d1)
    intro i
    rw [fdRow]
    unfold fdCell
    dsimp only
    split
    · rename_i hc
      dsimp only
      rw [set2]
      split
      · rename_i e
        exfalso
        apply hne
        rw [← hc.1, ← hc.2, ← e.1, ← e.2]
      · exact ih i
    · exact ih i

theorem fdRows_td {l1 l2 w : Nat} (hne : l1 ≠ l2) {t : Tab} (htd : ∀ i, t.td i i = 0) : ∀ (n : Nat), ∀ i, (fdRows o S D P P l1 l2 w n t).td i i = 0
  | 0 => htd
  | n + 1 => by
    have ih := fdRows_td hne htd n (w := w)
    rw [fdRows]
    generalize fdRows o S D P P l1 l2 w n t = t' at ih
    exact fdRow_td (t := { t' with fd := set2 t'.fd (l1 + n + 1) l2 (t'.fd (l1 + n + 1 - 1) l2 + o.deletionCost) }) hne ih w

variable (o S D P) in
/-- Equal nodes cost nothing. -/
def Free : Prop := ∀ i, 1 ≤ i → i ≤ P.size → zsUpdate o S D P P i i = 0

theorem forestDist_diag (hg : GoodSub P) (hz : Free o S D P) {i1 i2 : Nat} (h1 : 1 ≤ i1) (h2 : i1 ≤ P.size) {t : Tab}
    (htd : ∀ i, t.td i i = 0) :
    (∀ i, (forestDist o S D P P i1 i2 t).td i i = 0) ∧
    (i1 = i2 → ∀ j, P.lmd i1 ≤ j → j ≤ i1 → (forestDist o S D P P i1 i2 t).fd j j = 0) := by
  rw [forestDist]
  by_cases e : P.lmd i1 = P.lmd i2
  · rw [← e]
    have hlt := hg.lt i1 h1 h2
    obtain ⟨g1, g2⟩ := fdRows_diag (o := o) (S := S) (D := D) (P := P) (l := P.lmd i1) (w := i2 - P.lmd i1)
      (t := { t with fd := set2 t.fd (P.lmd i1) (P.lmd i1) 0 }) htd (by simp [set2]) (i1 - P.lmd i1)
      (fun i a b => ⟨hz i (by omega) (by omega), hg.lam i1 i h1 h2 a (by omega), hg.lt i (by omega) (by omega)⟩)
    refine ⟨g1, fun e' j a b => g2 j a (by omega) (by omega)⟩
  · refine ⟨fdRows_td (t := { t with fd := set2 t.fd (P.lmd i1) (P.lmd i2) 0 }) e htd _, fun e' => ?_⟩
    subst e'
    exact absurd rfl e

theorem keyRootsLoop_mem (lmds : List Nat) : ∀ (n : Nat) (seen acc : List Nat) (x : Nat), x ∈ keyRootsLoop lmds n seen acc →
    x ∈ acc ∨ (1 ≤ x ∧ x ≤ n)
  | 0, _, acc, x, h => Or.inl h
  | n + 1, seen, acc, x, h => by
    rw [keyRootsLoop] at h
    split at h
    · rcases keyRootsLoop_mem lmds n seen acc x h with h | h
      · exact Or.inl h
      · exact Or.inr (by omega)
    · rcases keyRootsLoop_mem lmds n _ _ x h with h | h
      · rcases List.mem_cons.1 h with h | h
        · exact Or.inr (by omega)
        · exact Or.inl h
      · exact Or.inr (by omega)

theorem treeDist_diag (hg : GoodSub P) (hk : ∀ i ∈ P.keyRoots, 1 ≤ i ∧ i ≤ P.size) (hz : Free o S D P) :
    (∀ j, (treeDist o S D P P ⟨fun _ _ => 0, fun _ _ => 0⟩).td j j = 0) ∧
    ∀ j, P.lmd P.size ≤ j → j ≤ P.size → (treeDist o S D P P ⟨fun _ _ => 0, fun _ _ => 0⟩).fd j j = 0 := by
  obtain ⟨ks, e⟩ := hg.key
  have inner : ∀ (l : List Nat) (i : Nat) (t : Tab), 1 ≤ i → i ≤ P.size → (∀ i, t.td i i = 0) →
      ∀ j, (l.foldl (fun t j => forestDist o S D P P i j t) t).td j j = 0 := by
    intro l i t h1 h2 ht
    exact foldl_inv (fun t : Tab => ∀ j, t.td j j = 0) _ l t ht (fun t j _ hj => (forestDist_diag hg hz h1 h2 hj).1)
  have outer : ∀ j, (ks.foldl (fun t i => P.keyRoots.foldl (fun t j => forestDist o S D P P i j t) t) (⟨fun _ _ => 0, fun _ _ => 0⟩ : Tab)).td j j = 0 := by
    refine foldl_inv (fun t : Tab => ∀ j, t.td j j = 0) _ ks _ (fun _ => rfl) (fun t i hi ht => ?_)
    obtain ⟨a, b⟩ := hk i (by rw [e]; simp [hi])
    exact inner _ i t a b ht
  have hp := hg.pos
  have key : treeDist o S D P P ⟨fun _ _ => 0, fun _ _ => 0⟩ = forestDist o S D P P P.size P.size (ks.foldl (fun t j => forestDist o S D P P P.size j t)
      (ks.foldl (fun t i => P.keyRoots.foldl (fun t j => forestDist o S D P P i j t) t) ⟨fun _ _ => 0, fun _ _ => 0⟩)) := by
    rw [treeDist]
    rw [show P.keyRoots.foldl (fun t i => P.keyRoots.foldl (fun t j => forestDist o S D P P i j t) t) (⟨fun _ _ => 0, fun _ _ => 0⟩ : Tab) =
      (ks ++ [P.size]).foldl (fun t i => P.keyRoots.foldl (fun t j => forestDist o S D P P i j t) t) ⟨fun _ _ => 0, fun _ _ => 0⟩ by rw [← e]]
    rw [List.foldl_append, List.foldl_cons, List.foldl_nil]
    generalize ks.foldl (fun t i => P.keyRoots.foldl (fun t j => forestDist o S D P P i j t) t) (⟨fun _ _ => 0, fun _ _ => 0⟩ : Tab) = t0
    rw [e, List.foldl_append, List.foldl_cons, List.foldl_nil]
  rw [key]
  have := forestDist_diag hg hz (i2 := P.size) hp (Nat.le_refl _) (inner ks P.size _ hp (Nat.le_refl _) outer)
  exact ⟨this.1, this.2 rfl⟩

theorem back_diag (hg : GoodSub P) {last : Nat} {fd : Nat → Nat → Nat} (hr1 : 1 ≤ last) (hr2 : last ≤ P.size)
    (hfd : ∀ j, P.lmd last ≤ j → j ≤ last → fd j j = 0) : ∀ (row : Nat), P.lmd last ≤ row → row ≤ last →
    ∃ ms ps, (∀ n, row < n → back P P fd last last (P.lmd last) (P.lmd last) n row row = some (ms, ps)) ∧
      (∀ p ∈ ms, ∃ r, 1 ≤ r ∧ r ≤ P.size ∧ p = (P.idInRoot r, P.idInRoot r)) ∧
      (∀ p ∈ ps, p.1 = p.2 ∧ 1 ≤ p.1 ∧ p.1 ≤ P.size) ∧
      (∀ r, P.lmd last < r → r ≤ row → (P.idInRoot r, P.idInRoot r) ∈ ms ∨ ∃ q, (q, q) ∈ ps ∧ P.lmd q < r ∧ r ≤ q) ∧
      weight P P ps ≤ 2 * (row - P.lmd last) ∧ (row = last → weight P P ps < 2 * (row - P.lmd last))
  | row, b1, b2 => by
    have hlt := hg.lt last hr1 hr2
    by_cases c0 : row > P.lmd last
    · have z := hfd row b1 b2
      have hlr := hg.lt row (by omega) (by omega)
      have step : ∀ n, back P P fd last last (P.lmd last) (P.lmd last) (n + 1) row row =
          if P.lmd row = P.lmd last ∧ P.lmd row = P.lmd last then
            match back P P fd last last (P.lmd last) (P.lmd last) n (row - 1) (row - 1) with
            | some (ms, ps) => some ((P.idInRoot row, P.idInRoot row) :: ms, ps)
            | none => none
          else
            match back P P fd last last (P.lmd last) (P.lmd last) n (P.lmd row) (P.lmd row) with
            | some (ms, ps) => some (ms, (row, row) :: ps)
            | none => none := by
        intro n
        rw [back, if_pos (Or.inl c0), if_neg (by omega), if_neg (by omega), if_neg (by omega)]
        rfl
      by_cases c : P.lmd row = P.lmd last
      · obtain ⟨ms, ps, e1, e2, e3, e4, e5, e6⟩ := back_diag hg hr1 hr2 hfd (row - 1) (by omega) (by omega)
        refine ⟨(P.idInRoot row, P.idInRoot row) :: ms, ps, fun n hn => ?_, fun p hp => ?_, e3, fun r h1 h2 => ?_, by omega, fun _ => by omega⟩
        · obtain ⟨n, rfl⟩ : ∃ j, n = j + 1 := ⟨n - 1, by omega⟩
          rw [step, if_pos ⟨c, c⟩, e1 n (by omega)]
        · rcases List.mem_cons.1 hp with rfl | hp
          · exact ⟨row, by omega, by omega, rfl⟩
          · exact e2 p hp
        · by_cases e : r = row
          · subst e
            exact Or.inl (by simp)
          · rcases e4 r h1 (by omega) with h | h
            · exact Or.inl (by simp [h])
            · exact Or.inr h
      · have la := hg.lam last row hr1 hr2 c0 b2
        obtain ⟨ms, ps, e1, e2, e3, e4, e5, e6⟩ := back_diag hg hr1 hr2 hfd (P.lmd row) (by omega) (by omega)
        refine ⟨ms, (row, row) :: ps, fun n hn => ?_, e2, fun p hp => ?_, fun r h1 h2 => ?_, by simp only [weight]; omega, fun e => ?_⟩
        · obtain ⟨n, rfl⟩ : ∃ j, n = j + 1 := ⟨n - 1, by omega⟩
          rw [step, if_neg (fun h => c h.1), e1 n (by omega)]
        · rcases List.mem_cons.1 hp with rfl | hp
          · exact ⟨rfl, by simp only; omega, by simp only; omega⟩
          · exact e3 p hp
        · by_cases e : r ≤ P.lmd row
          · rcases e4 r h1 e with h | ⟨q, h⟩
            · exact Or.inl h
            · exact Or.inr ⟨q, by simp [h.1], h.2⟩
          · exact Or.inr ⟨row, by simp, by omega, h2⟩
        · subst e
          exact absurd rfl c
    · refine ⟨[], [], fun n hn => ?_, by simp, by simp, fun r h1 h2 => by omega, by simp [weight], fun h => by omega⟩
      obtain ⟨n, rfl⟩ : ∃ j, n = j + 1 := ⟨n - 1, by omega⟩
      rw [back, if_neg (by omega)]
termination_by row => row
decreasing_by all_goals omega

theorem matchPairs_diag (hg : GoodSub P) (hz : Free o S D P) : ∀ (k : Nat) (first : Bool) (stack : List (Nat × Nat)) (t : Tab),
    weight P P stack ≤ k → (∀ i, t.td i i = 0) → (∀ p ∈ stack, p.1 = p.2 ∧ 1 ≤ p.1 ∧ p.1 ≤ P.size) →
    (first = true → ∀ p ∈ stack, ∀ j, P.lmd p.1 ≤ j → j ≤ p.1 → t.fd j j = 0) →
    ∃ res, (∀ n inner, k < n → P.size < inner → matchPairs o S D P P inner n first stack t = some res) ∧
      (∀ p ∈ res, ∃ r, 1 ≤ r ∧ r ≤ P.size ∧ p = (P.idInRoot r, P.idInRoot r)) ∧
      ∀ p ∈ stack, ∀ r, P.lmd p.1 < r → r ≤ p.1 → (P.idInRoot r, P.idInRoot r) ∈ res
  | k, first, [], t, _, _, _, _ => by
    refine ⟨[], fun n inner hn _ => ?_, by simp, by simp⟩
    obtain ⟨n, rfl⟩ : ∃ j, n = j + 1 := ⟨n - 1, by omega⟩
    rw [matchPairs]
  | k, first, (row, col) :: stack, t, hk, htd, hs, hf => by
    obtain ⟨e, v1, v2⟩ := hs (row, col) (by simp)
    simp only at e v1 v2
    subst e
    have hl1 := hg.lt row v1 v2
    have hd : (∀ i, (if first then t else forestDist o S D P P row row t).td i i = 0) ∧
        ∀ j, P.lmd row ≤ j → j ≤ row → (if first then t else forestDist o S D P P row row t).fd j j = 0 := by
      cases first with
      | true => exact ⟨htd, hf rfl (row, row) (by simp)⟩
      | false =>
        obtain ⟨a, b⟩ := forestDist_diag hg hz (i2 := row) v1 v2 htd
        exact ⟨a, b rfl⟩
    generalize ht : (if first then t else forestDist o S D P P row row t) = t' at hd
    obtain ⟨ms, ps, e1, e2, e3, e4, e5, e6⟩ := back_diag hg v1 v2 hd.2 row (by omega) (Nat.le_refl _)
    have e6 := e6 rfl
    simp only [weight] at hk
    have hk1 : k - 1 < k := by omega
    obtain ⟨r, f1, f2, f3⟩ := matchPairs_diag hg hz (k - 1) false (ps.reverse ++ stack) t'
      (by rw [weight_append, weight_reverse]; omega) hd.1
      (fun p hp => by
        rcases List.mem_append.1 hp with hp | hp
        · exact e3 p (by simpa using hp)
        · exact hs p (by simp [hp])) (by simp)
    refine ⟨ms ++ r, fun n inner hn hi => ?_, fun p hp => ?_, fun p hp x h1 h2 => ?_⟩
    · obtain ⟨n, rfl⟩ : ∃ j, n = j + 1 := ⟨n - 1, by omega⟩
      rw [matchPairs]
      simp only [ht]
      rw [e1 inner (by omega)]
      simp only
      rw [f1 n inner (by omega) hi]
    · rcases List.mem_append.1 hp with hp | hp
      · exact e2 p hp
      · exact f2 p hp
    · rcases List.mem_cons.1 hp with rfl | hp
      · simp only at h1 h2
        rcases e4 x h1 h2 with h | ⟨q, h, h3, h4⟩
        · exact List.mem_append_left _ h
        · exact List.mem_append_right _ (f3 (q, q) (by simp [h]) x h3 h4)
      · exact List.mem_append_right _ (f3 p (by simp [hp]) x h1 h2)
termination_by k => k
decreasing_by assumption

theorem matchingNodes_diag (hg : GoodSub P) (hk : ∀ i ∈ P.keyRoots, 1 ≤ i ∧ i ≤ P.size) (h0 : P.lmd P.size = 0) (hz : Free o S D P) :
    ∃ res, (∀ n, 2 * P.size < n → matchingNodes o S D P P n = some res) ∧
      (∀ p ∈ res, ∃ r, 1 ≤ r ∧ r ≤ P.size ∧ p = (P.idInRoot r, P.idInRoot r)) ∧
      ∀ r, 1 ≤ r → r ≤ P.size → (P.idInRoot r, P.idInRoot r) ∈ res := by
  have hp := hg.pos
  obtain ⟨td, fd⟩ := treeDist_diag hg hk hz
  obtain ⟨res, f1, f2, f3⟩ := matchPairs_diag hg hz (2 * P.size) true [(P.size, P.size)] (treeDist o S D P P ⟨fun _ _ => 0, fun _ _ => 0⟩)
    (by simp only [weight]; omega) td (by simp; omega) (fun _ p hp => by simp at hp; subst hp; exact fd)
  exact ⟨res, fun n hn => f1 n n (by omega) (by omega), f2, fun r h1 h2 => f3 (P.size, P.size) (by simp) r (by simp only; omega) h2⟩

end

/-! ## The second phase -/

theorem link_fold {N : Nat} : ∀ (l : List (Nat × Nat)) (m : Mapping), Diag N m → (∀ p ∈ l, p.1 = p.2 ∧ p.1 < N) →
    Diag N (l.foldl (fun m p => if (m.dst p.1).isNone && (m.src p.2).isNone then m.link p.1 p.2 else m) m) ∧
    ∀ x, ((m.dst x).isSome = true ∨ (x, x) ∈ l) →
      ((l.foldl (fun m p => if (m.dst p.1).isNone && (m.src p.2).isNone then m.link p.1 p.2 else m) m).dst x).isSome = true
  | [], m, hm, _ => ⟨hm, fun x hx => by simpa using hx⟩
  | (a, b) :: l, m, hm, hl => by
    obtain ⟨e, ha⟩ := hl (a, b) (by simp)
    simp only at e ha
    subst e
    rw [List.foldl_cons]
    have key : Diag N (if (m.dst a).isNone && (m.src a).isNone then m.link a a else m) ∧
        ∀ x, ((m.dst x).isSome = true ∨ x = a) → ((if (m.dst a).isNone && (m.src a).isNone then m.link a a else m).dst x).isSome = true := by
      split
      · refine ⟨hm.link ha, fun x hx => ?_⟩
        simp only [Mapping.link, upd_apply]
        by_cases e : x = a
        · simp [e]
        · simpa [e] using hx
      · rename_i hc
        refine ⟨hm, fun x hx => ?_⟩
        rcases hx with hx | rfl
        · exact hx
        · cases hx : m.dst x with
          | none => simp [(hm x).1, hx] at hc
          | some y => rfl
    obtain ⟨g1, g2⟩ := link_fold l _ key.1 (fun p hp => hl p (by simp [hp]))
    refine ⟨g1, fun x hx => g2 x ?_⟩
    rcases hx with hx | hx
    · exact Or.inl (key.2 x (Or.inl hx))
    · rcases List.mem_cons.1 hx with hx | hx
      · exact Or.inl (key.2 x (Or.inr (by simpa using hx)))
      · exact Or.inr hx

theorem bottomUp_empty {o : Options} {S D : SynTree} (fuel : Nat) : ∀ (l : List Nat), (∀ x ∈ l, x ≠ 0) → possible o S D 0 0 = true →
    bottomUpLoop o S D fuel (l ++ [0]) Mapping.empty = addOptimal o S D fuel (Mapping.empty.link 0 0) 0 0
  | [], _, hp => by
    rw [List.nil_append, bottomUpLoop, if_pos ⟨rfl, by simp [Mapping.empty], by simp [Mapping.empty]⟩, if_pos hp]
  | a :: l, h, hp => by
    rw [List.cons_append, bottomUpLoop, if_neg (fun e => h a (by simp) e.1), if_pos (Or.inr (by simp [Mapping.empty])),
      bottomUp_empty fuel l (fun x hx => h x (by simp [hx])) hp]

theorem bottomUp_same {o : Options} (ho : Respects o) {s d : T} (h : s.shape = d.shape) (hmax : s.size ≤ o.maxSize) :
    ∃ m, (∀ n, 2 * s.size < n → matchBottomUp o (fromNode s) (fromNode d) n Mapping.empty = some m) ∧ Diag (fromNode s).size m ∧
      ∀ x, x < (fromNode s).size → m.dst x = some x := by
  have hat := at_root s
  have hsize := sub_size s hat
  obtain ⟨q1, q2, q3⟩ := sub_make s hat
  have hg := sub_good s hat
  have hz : Free o (fromNode s) (fromNode d) (Sub.make (fromNode s) 0) := by
    intro i h1 h2
    simp [zsUpdate, same_possible ho h, same_values ho h]
  have h0 : (Sub.make (fromNode s) 0).lmd (Sub.make (fromNode s) 0).size = 0 := by
    rw [Sub.lmd, hsize, q2]
    cases s with
    | node i k v subs =>
      rw [lms, T.size, List.getElem?_append_right (by rw [lmss_length]; omega), lmss_length]
      simp
  have hk : ∀ i ∈ (Sub.make (fromNode s) 0).keyRoots, 1 ≤ i ∧ i ≤ (Sub.make (fromNode s) 0).size := by
    intro i hi
    rw [q3] at hi
    rw [hsize]
    rcases keyRootsLoop_mem _ _ _ _ i hi with e | e
    · simp at e
    · exact e
  obtain ⟨res, f1, f2, f3⟩ := matchingNodes_diag hg hk h0 hz
  have hpos := size_pos s
  have hdiag : Diag (fromNode s).size (Mapping.empty.link 0 0) :=
    Diag.link (by intro x; simp [Mapping.empty]) (by rw [fromNode_size]; exact hpos)
  have hbound : ∀ p ∈ res, p.1 = p.2 ∧ p.1 < (fromNode s).size := by
    intro p hp
    obtain ⟨r, h1, h2, rfl⟩ := f2 p hp
    have := idInRoot_mem h1 h2
    rw [q1, mem_posts] at this
    exact ⟨rfl, by rw [fromNode_size]; omega⟩
  obtain ⟨g1, g2⟩ := link_fold res _ hdiag hbound
  refine ⟨_, fun n hn => ?_, g1, fun x hx => ?_⟩
  · have hposts : posts s 0 = postss s.subs 1 ++ [0] := by cases s; rfl
    rw [matchBottomUp, hat.postorder, hposts, bottomUp_empty n _ ?_ (same_possible ho h 0), addOptimal, if_neg, ← same_sub h, f1 n (by omega)]
    · rw [hat.descendants, (at_root d).descendants, ← (shape_flat s d h).1]
      simpa using hmax
    · intro x hx
      rw [mem_postss] at hx
      omega
  · rw [fromNode_size] at hx
    have hmem : x ∈ posts s 0 := by rw [mem_posts]; omega
    obtain ⟨i, hi⟩ := List.mem_iff_getElem?.1 hmem
    have hlt := (List.getElem?_eq_some_iff.1 hi).1
    rw [posts_length] at hlt
    have hid : (Sub.make (fromNode s) 0).idInRoot (i + 1) = x := by
      rw [Sub.idInRoot, q1, Nat.add_sub_cancel, hi]
      rfl
    have hin := f3 (i + 1) (by omega) (by omega)
    rw [hid] at hin
    have := g2 x (Or.inr hin)
    rcases (g1 x).2 with e | e
    · rw [e] at this; simp at this
    · exact e.1

end Verif.AstDiff
