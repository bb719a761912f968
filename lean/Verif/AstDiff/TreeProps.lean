import Verif.AstDiff.TreeChanges
import Verif.AstDiff.TreeSpec

/-!
# C101, C102, C103: the mapping of the tree diff, the kinds of changes, and the order of nodes that are not moved
-/

namespace Verif.AstDiff

mutual
theorem all_length : ∀ (t : T), t.all.length = t.size
  | .node _ _ _ subs => by simp [T.all, T.size, alls_length subs]
theorem alls_length : ∀ (ts : List T), (alls ts).length = sizes ts
  | [] => rfl
  | t :: ts => by simp [alls, sizes, all_length t, alls_length ts]
end

mutual
theorem all_get : ∀ (t : T) {nodes : List Node} {off par dep}, At nodes off par dep t → ∀ (i : Nat) {par' dep' u}, i < t.size →
    At nodes (off + i) par' dep' u → t.all[i]? = some u
  | .node a k v subs, nodes, off, par, dep, h, i, par', dep', u, hi, hu => by
    cases i with
    | zero =>
      obtain rfl := At.unique _ (Nat.le_refl _) h hu
      simp [T.all]
    | succ i =>
      rw [T.all, List.getElem?_cons_succ]
      rw [T.size] at hi
      exact alls_get subs h.children i (by omega) (by rw [show off + 1 + i = off + (i + 1) by omega]; exact hu)
theorem alls_get : ∀ (ts : List T) {nodes : List Node} {off par dep}, Ats nodes off par dep ts → ∀ (i : Nat) {par' dep' u}, i < sizes ts →
    At nodes (off + i) par' dep' u → (alls ts)[i]? = some u
  | [], nodes, off, par, dep, h, i, par', dep', u, hi, hu => by simp [sizes] at hi
  | t :: ts, nodes, off, par, dep, h, i, par', dep', u, hi, hu => by
    rw [alls]
    by_cases e : i < t.size
    · rw [List.getElem?_append_left (by rw [all_length]; exact e)]
      exact all_get t h.head i e hu
    · rw [List.getElem?_append_right (by rw [all_length]; omega), all_length]
      rw [sizes] at hi
      exact alls_get ts h.tail (i - t.size) (by omega) (by rw [show off + t.size + (i - t.size) = off + i by omega]; exact hu)
end

theorem kidsFrom_eq (ts : List T) (x : Nat) : kidsFrom ts x = offsets ts x := by
  induction ts generalizing x with
  | nil => rfl
  | cons t ts ih => rw [kidsFrom, offsets, ih, all_length]

theorem at_all (t : T) {x par dep u} (h : At (fromNode t).nodes x par dep u) : t.all[x]? = some u := by
  have := h.lt
  rw [fromNode_size] at this
  exact all_get t (at_root t) x this (by rw [Nat.zero_add]; exact h)

theorem kids_eq (t : T) {x : Nat} (hx : x < (fromNode t).size) : kids t x = ((fromNode t).node x).subs := by
  obtain ⟨par, dep, u, h⟩ := at_any t x hx
  rw [kids, at_all t h]
  simp only
  rw [kidsFrom_eq, SynTree.node, h.node]

/-- The nodes of the syntax tree are the nodes of the tree: number, kind, value, subnodes and height. -/
theorem nodes_spec (t u : T) (x : Nat) (h : t.all[x]? = some u) :
    ((fromNode t).node x).id = u.id ∧ ((fromNode t).node x).kind = u.kind ∧ ((fromNode t).node x).val = u.val ∧
    ((fromNode t).node x).subs = kids t x ∧ ((fromNode t).node x).height = u.height := by
  have hx : x < (fromNode t).size := by
    have := (List.getElem?_eq_some_iff.1 h).1
    rw [all_length] at this
    rw [fromNode_size]
    exact this
  obtain ⟨par, dep, u', hat⟩ := at_any t x hx
  have := at_all t hat
  rw [h] at this
  obtain rfl := Option.some.inj this
  refine ⟨?_, ?_, ?_, (kids_eq t hx).symm, hat.height⟩ <;> rw [SynTree.node, hat.node]

/-- **C101.** The diff returns, and its mapping is one-to-one and matches only nodes of the two trees that may be matched;
for the usual costs of deletions and insertions and a `MinHeight` that is not negative. -/
theorem mapping_partial (o : Options) (hmin : 0 ≤ o.minHeight) (hins : o.insertionCost = 1) (hdel : o.deletionCost = 1)
    (hmax : o.maxSize ≤ 2147483647) (s d : T) :
    ∃ m k n0, (∀ n, n0 < n → astDiff o s d n = some (m, k)) ∧
      (∀ (x y : Nat), m.dst x = some y ↔ m.src y = some x) ∧
      (∀ (x y : Nat), m.dst x = some y → x < s.all.length ∧ y < d.all.length ∧
        o.allowed ((fromNode s).node x) ((fromNode d).node y) = true) := by
  obtain ⟨m, n0, h1, h2⟩ := computeMapping_ok o hmin hins hdel hmax s d
  refine ⟨m, changeKinds o (fromNode s) (fromNode d) m, n0, fun n hn => ?_, h2.one, fun x y h => ?_⟩
  · rw [astDiff, h1 n hn]
  · rw [all_length, all_length, ← fromNode_size, ← fromNode_size]
    exact h2.ok x y h

/-- The indices of a mapping are inside of its vectors. -/
theorem mapping_range {o : Options} {s d : T} {m : Mapping} (h : MapOk o (fromNode s) (fromNode d) m) (x y : Nat)
    (hx : m.dst x = some y) : x < s.all.length ∧ y < d.all.length := by
  rw [all_length, all_length, ← fromNode_size, ← fromNode_size]
  exact ⟨(h.ok x y hx).1, (h.ok x y hx).2.1⟩

/-- **C101, the full property**, for all options. -/
def MappingStatement : Prop :=
  ∀ (o : Options) (s d : T), ∃ n r, astDiff o s d n = some r

/-- two single nodes, compared with a negative `MinHeight` -/
def single : T := .node 0 0 0 []
def negative : Options := { usual with minHeight := -1 }

/-- With a negative `MinHeight` the first phase never ends: both lists become empty, and 0 is larger than -1. -/
theorem mapping_false : ¬ MappingStatement := by
  intro h
  obtain ⟨n, r, hr⟩ := h negative single single
  have empty : ∀ (n : Nat) (m : Mapping), topDownLoop negative (fromNode single) (fromNode single) n [] [] m = none := by
    intro n
    induction n with
    | zero => intro m; rfl
    | succ n ih =>
      intro m
      rw [topDownLoop]
      dsimp only
      rw [if_pos (by decide +kernel), if_neg (by decide +kernel), if_neg (by decide +kernel)]
      have : (popMax (fromNode single) []) = ([], []) := by decide +kernel
      rw [this]
      simp only [matchForests, List.foldl_nil, List.filter_nil, openAll, List.flatMap_nil, List.append_nil]
      exact ih m
  have first : ∀ n, topDownLoop negative (fromNode single) (fromNode single) n [0] [0] Mapping.empty = none := by
    intro n
    cases n with
    | zero => rfl
    | succ n =>
      rw [topDownLoop]
      dsimp only
      rw [if_pos (by decide +kernel), if_neg (by decide +kernel), if_neg (by decide +kernel)]
      have e2 : popMax (fromNode single) [0] = ([0], []) := by decide +kernel
      rw [e2]
      have e3 : ∀ l, openAll (fromNode single) [] (List.filter l [0]) = [] := by
        intro l
        by_cases hl : l 0 = true
        · rw [List.filter_cons_of_pos hl, List.filter_nil]
          decide +kernel
        · rw [List.filter_cons_of_neg hl]
          rfl
      simp only [e3]
      exact empty n _
  rw [astDiff, computeMapping, matchTopDown, first n] at hr
  simp [negative, usual] at hr

/-! ## Kinds of changes -/

theorem marks_end {o : Options} {s d : T} {m : Mapping} (h : MapOk o (fromNode s) (fromNode d) m) :
    (∀ (x y : Nat), m.dst x = some y →
      (changeKinds o (fromNode s) (fromNode d) m).chS x = kindOf o (fromNode s) (fromNode d) m (marksEnd (fromNode s) (fromNode d) m) x y ∧
      (changeKinds o (fromNode s) (fromNode d) m).chD y = kindOf o (fromNode s) (fromNode d) m (marksEnd (fromNode s) (fromNode d) m) x y) ∧
    (∀ x, x < (fromNode s).size → m.dst x = none → (changeKinds o (fromNode s) (fromNode d) m).chS x = .delete) ∧
    (∀ y, y < (fromNode d).size → m.src y = none → (changeKinds o (fromNode s) (fromNode d) m).chD y = .insert) := by
  have hc := shift_fold_ch (S := fromNode s) (D := fromNode d) (m := m) (fromNode s).bfs (markUnmatched (fromNode s) (fromNode d) m)
  obtain ⟨_, h2, h3, h4⟩ := changes_fold (o := o) (S := fromNode s) (D := fromNode d) h.one (fromNode d).bfs (marksEnd (fromNode s) (fromNode d) m)
    (bfs_nodup d)
  refine ⟨fun x y hxy => ?_, fun x hx hn => ?_, fun y hy hn => ?_⟩
  · refine (h4 x y hxy).2 ((mem_bfs d y).2 (h.ok x y hxy).2.1) ?_ ?_
    · rw [marksEnd, hc.1]
      simp [markUnmatched, hxy]
    · rw [marksEnd, hc.2]
      simp [markUnmatched, (h.one _ _).1 hxy]
  · refine (h2 x hn).trans ?_
    rw [marksEnd, hc.1]
    simp [markUnmatched, hx, hn]
  · refine (h3 y hn).trans ?_
    rw [marksEnd, hc.2]
    simp [markUnmatched, hy, hn]

/-- **C102.** What the reported changes mean: a node of the source is reported as deleted exactly when it has no partner, a node
of the destination as inserted exactly when it has none; the two nodes of a pair have the same mark; the mark tells about
an update exactly when their values differ; and a pair whose parents are not a pair is marked as moved. -/
theorem change_kinds_partial (o : Options) (hmin : 0 ≤ o.minHeight) (hins : o.insertionCost = 1) (hdel : o.deletionCost = 1)
    (hmax : o.maxSize ≤ 2147483647) (s d : T) :
    ∃ m k n0, (∀ n, n0 < n → astDiff o s d n = some (m, k)) ∧
      (∀ x, x < s.all.length → (k.chS x = .delete ↔ m.dst x = none) ∧ k.chS x ≠ .insert) ∧
      (∀ y, y < d.all.length → (k.chD y = .insert ↔ m.src y = none) ∧ k.chD y ≠ .delete) ∧
      (∀ (x y : Nat), m.dst x = some y → k.chS x = k.chD y ∧
        ((k.chS x).updated = true ↔ o.valuesEqual ((fromNode s).node x) ((fromNode d).node y) = false) ∧
        (∀ p, p < s.all.length → x ∈ kids s p → (∀ q, m.dst p = some q → y ∉ kids d q) → (k.chS x).moved = true)) := by
  obtain ⟨m, n0, h1, h2⟩ := computeMapping_ok o hmin hins hdel hmax s d
  obtain ⟨g1, g2, g3⟩ := marks_end h2
  refine ⟨m, changeKinds o (fromNode s) (fromNode d) m, n0, fun n hn => by rw [astDiff, h1 n hn], fun x hx => ?_, fun y hy => ?_, fun x y hxy => ?_⟩
  · rw [all_length, ← fromNode_size] at hx
    cases hm : m.dst x with
    | none => rw [g2 x hx hm]; simp
    | some y =>
      rw [(g1 x y hm).1]
      simp only [kindOf]
      split <;> split <;> simp
  · rw [all_length, ← fromNode_size] at hy
    cases hm : m.src y with
    | none => rw [g3 y hy hm]; simp
    | some x =>
      rw [(g1 x y ((h2.one _ _).2 hm)).2]
      simp only [kindOf]
      split <;> split <;> simp
  · obtain ⟨e1, e2⟩ := g1 x y hxy
    refine ⟨by rw [e1, e2], ?_, fun p hp hx hq => ?_⟩
    · rw [e1]
      simp only [kindOf]
      by_cases hv : o.valuesEqual ((fromNode s).node x) ((fromNode d).node y) = true
      · split <;> simp [Change.updated, hv]
      · split <;> simp [Change.updated, hv]
    · rw [all_length, ← fromNode_size] at hp
      rw [kids_eq s hp, mem_subs ⟨s, rfl⟩ hp] at hx
      have hmv : isMoved (fromNode s) (fromNode d) m (marksEnd (fromNode s) (fromNode d) m) x y = true := by
        have : sameParents (fromNode s) (fromNode d) m x y = false := by
          rw [sameParents, hx.2]
          cases hpy : ((fromNode d).node y).parent with
          | none => rfl
          | some q =>
            simp only
            cases hpq : (m.dst p == some q) with
            | false => rfl
            | true =>
              exfalso
              simp only [beq_iff_eq] at hpq
              have hqs := (h2.ok p q hpq).2.1
              refine hq q hpq ?_
              rw [kids_eq d hqs, mem_subs ⟨d, rfl⟩ hqs]
              exact ⟨(h2.ok x y hxy).2.1, hpy⟩
        simp [isMoved, this]
      rw [e1]
      simp only [kindOf, hmv, if_true]
      split <;> rfl

/-! ## The order of nodes that are not moved -/

/-- **C103, the full property.** Two subnodes of a node that are reported as not moved are in the same order in both trees. -/
def UnmovedKeepOrderStatement : Prop :=
  ∀ (s d : T) (n : Nat) (m : Mapping) (k : Marks), astDiff usual s d n = some (m, k) →
    ∀ (p x1 x2 y1 y2 : Nat), x1 ∈ kids s p → x2 ∈ kids s p → x1 < x2 → m.dst x1 = some y1 → m.dst x2 = some y2 →
      (k.chS x1).moved = false → (k.chS x2).moved = false → y1 < y2

/-- **C103.** When no node is reported as moved, pairs have their parents in a pair, and the paired subnodes of a pair are in the
same order in both trees. -/
theorem unmoved_order_partial (o : Options) (hmin : 0 ≤ o.minHeight) (hins : o.insertionCost = 1) (hdel : o.deletionCost = 1)
    (hmax : o.maxSize ≤ 2147483647) (s d : T) :
    ∃ m k n0, (∀ n, n0 < n → astDiff o s d n = some (m, k)) ∧
      ((∀ x, x < s.all.length → (k.chS x).moved = false) →
        (∀ (x y p : Nat), m.dst x = some y → p < s.all.length → x ∈ kids s p → ∃ q, m.dst p = some q ∧ y ∈ kids d q) ∧
        (∀ (p q : Nat), m.dst p = some q →
          ((kids s p).filter (fun x => (m.dst x).isSome)).map (fun x => (m.dst x).getD 0) =
            (kids d q).filter (fun y => (m.src y).isSome))) := by
  obtain ⟨m, n0, h1, h2⟩ := computeMapping_ok o hmin hins hdel hmax s d
  obtain ⟨g1, g2, g3⟩ := marks_end h2
  refine ⟨m, changeKinds o (fromNode s) (fromNode d) m, n0, fun n hn => by rw [astDiff, h1 n hn], fun hno => ?_⟩
  have hend : ∀ (x y : Nat), m.dst x = some y → isMoved (fromNode s) (fromNode d) m (marksEnd (fromNode s) (fromNode d) m) x y = false := by
    intro x y hxy
    have := hno x (by rw [all_length, ← fromNode_size]; exact (h2.ok x y hxy).1)
    rw [(g1 x y hxy).1] at this
    simp only [kindOf] at this
    by_cases hm : isMoved (fromNode s) (fromNode d) m (marksEnd (fromNode s) (fromNode d) m) x y = true
    · rw [if_pos hm] at this
      split at this <;> simp [Change.moved] at this
    · simpa using hm
  refine ⟨fun x y p hxy hp hx => ?_, fun p q hpq => ?_⟩
  · rw [all_length, ← fromNode_size] at hp
    rw [kids_eq s hp, mem_subs ⟨s, rfl⟩ hp] at hx
    have := hend x y hxy
    simp only [isMoved, Bool.or_eq_false_iff, Bool.not_eq_false'] at this
    have hsp := this.1
    rw [sameParents, hx.2] at hsp
    cases hpy : ((fromNode d).node y).parent with
    | none => rw [hpy] at hsp; simp at hsp
    | some q =>
      rw [hpy] at hsp
      simp only [beq_iff_eq] at hsp
      have hqs := (h2.ok p q hsp).2.1
      refine ⟨q, hsp, ?_⟩
      rw [kids_eq d hqs, mem_subs ⟨d, rfl⟩ hqs]
      exact ⟨(h2.ok x y hxy).2.1, hpy⟩
  · have hps := (h2.ok p q hpq).1
    have hqs := (h2.ok p q hpq).2.1
    rw [kids_eq s hps, kids_eq d hqs]
    exact no_moves h2 hend hpq

/-- a chain of three nodes -/
def chain (i v : Nat) : T := .node i 0 v [.node (i + 1) 0 (v + 1) [.node (i + 2) 0 (v + 2) []]]
/-- R[P[x y] Q[z]] -/
def swapS : T := .node 0 0 0 [.node 1 1 0 [chain 2 10, chain 5 20], .node 8 2 0 [chain 9 30]]
/-- R[P[z y x] Q[]] -/
def swapD : T := .node 100 0 0 [.node 101 1 0 [chain 109 30, chain 105 20, chain 102 10], .node 108 2 0 []]

/-- The full property fails: R[P[x y] Q[z]] becomes R[P[z y x] Q[]]; only z is reported as moved although x and y changed their
places. -/
theorem unmovedKeepOrder_false : ¬ UnmovedKeepOrderStatement := by
  intro h
  have e : (astDiff usual swapS swapD 60).map (fun r => (r.1.dst 2, r.1.dst 5, (r.2.chS 2).moved, (r.2.chS 5).moved)) =
      some (some 8, some 5, false, false) := by decide +kernel
  cases hr : astDiff usual swapS swapD 60 with
  | none => rw [hr] at e; simp at e
  | some r =>
    obtain ⟨m, k⟩ := r
    rw [hr] at e
    simp only [Option.map_some, Option.some.injEq, Prod.mk.injEq] at e
    obtain ⟨e1, e2, e3, e4⟩ := e
    have := h swapS swapD 60 m k hr 1 2 5 8 5 (by decide +kernel) (by decide +kernel) (by omega) e1 e2 e3 e4
    omega

/-- the hypotheses of the theorems hold for the usual options -/
example : 0 ≤ usual.minHeight ∧ usual.insertionCost = 1 ∧ usual.deletionCost = 1 ∧ usual.maxSize ≤ 2147483647 := by decide

/-- an insertion, a deletion and an update below a node that stays -/
example : (astDiff usual (.node 0 0 0 [chain 1 10, .node 4 1 7 [], .node 5 2 8 []])
      (.node 0 0 0 [.node 1 3 9 [], chain 2 10, .node 5 1 6 []]) 60).map
      (fun r => ((List.range 6).map r.1.dst, (List.range 6).map r.2.chS, (List.range 6).map r.2.chD)) =
    some ([some 0, some 2, some 3, some 4, some 5, none], [.none, .none, .none, .none, .update, .delete],
      [.none, .insert, .none, .none, .none, .update]) := by decide +kernel

end Verif.AstDiff
