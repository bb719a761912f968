import Verif.AstDiff.TreePost

/-!
# The second phase of the tree diff

`matchBottomUp` ends and keeps the mapping one-to-one.
-/

namespace Verif.AstDiff

section
variable {o : Options} {S D : SynTree}

theorem addOptimal_ok (hins : o.insertionCost = 1) (hdel : o.deletionCost = 1) (hmax : o.maxSize ≤ 2147483647) {s d : T} {m : Mapping}
    (h : MapOk o (fromNode s) (fromNode d) m) {a b : Nat} (ha : a < (fromNode s).size) (hb : b < (fromNode d).size) :
    ∃ m', (∀ n, (fromNode s).size + (fromNode d).size < n → addOptimal o (fromNode s) (fromNode d) n m a b = some m') ∧
      MapOk o (fromNode s) (fromNode d) m' := by
  obtain ⟨pa, da, t, hat⟩ := at_any s a ha
  obtain ⟨pb, db, u, hbt⟩ := at_any d b hb
  by_cases hc : ((max ((fromNode s).descendants a) ((fromNode d).descendants b) : Nat) : Int) > o.maxSize
  · exact ⟨m, fun n _ => by rw [addOptimal, if_pos hc], h⟩
  · have s1 := sub_size s hat
    have s2 := sub_size d hbt
    have hr1 := hat.range
    have hr2 := hbt.range
    have hc' := hc
    rw [hat.descendants, hbt.descendants] at hc'
    obtain ⟨r, h1, h2⟩ := matchingNodes_spec (S := fromNode s) (D := fromNode d) hins hdel (sub_good s hat) (sub_good d hbt)
      (big_of_le (by omega))
    refine ⟨r.foldl (fun m p => if (m.dst p.1).isNone && (m.src p.2).isNone then m.link p.1 p.2 else m) m, fun n hn => ?_, ?_⟩
    · rw [addOptimal, if_neg hc, h1 n (by rw [SynTree.size, SynTree.size] at hn; omega)]
    · refine foldl_inv (MapOk o (fromNode s) (fromNode d)) _ r m h (fun m p hp hm => ?_)
      split
      · rename_i hc
        simp only [Bool.and_eq_true, Option.isNone_iff_eq_none] at hc
        obtain ⟨g1, g2, g3⟩ := h2 p hp
        rw [(sub_make s hat).1, mem_posts] at g2
        rw [(sub_make d hbt).1, mem_posts] at g3
        exact hm.link hc.1 hc.2 (by rw [SynTree.size]; omega) (by rw [SynTree.size]; omega) g1
      · exact hm

theorem findCandidate_ok (m : Mapping) (a b : Nat) (h : findCandidate o S D m a = some b) :
    b < D.size ∧ possible o S D a b = true ∧ m.src b = none := by
  have : ∀ b, (((List.range D.size).foldl (candidateStep o S D m a) (none, (0, 1))).1 = some b) →
      b < D.size ∧ possible o S D a b = true ∧ m.src b = none := by
    refine foldl_inv (fun st : Option Nat × (Nat × Nat) => ∀ b, st.1 = some b → b < D.size ∧ possible o S D a b = true ∧ m.src b = none) _
      (List.range D.size) (none, (0, 1)) (by simp) (fun st c hc hst => ?_)
    intro b hb
    rw [candidateStep] at hb
    split at hb
    · exact hst b hb
    · rename_i h1
      split at hb
      · exact hst b hb
      · rename_i h2
        simp only at hb
        split at hb
        · simp at hb
          subst hb
          exact ⟨by simpa using hc, by simpa using h1, by simpa using h2⟩
        · exact hst b hb
  exact this b h

theorem bottomUpLoop_ok (hins : o.insertionCost = 1) (hdel : o.deletionCost = 1) (hmax : o.maxSize ≤ 2147483647) {s d : T} :
    ∀ (l : List Nat) (m : Mapping), (∀ x ∈ l, x < (fromNode s).size) → MapOk o (fromNode s) (fromNode d) m →
    ∃ m', (∀ n, (fromNode s).size + (fromNode d).size < n → bottomUpLoop o (fromNode s) (fromNode d) n l m = some m') ∧
      MapOk o (fromNode s) (fromNode d) m'
  | [], m, _, h => ⟨m, fun n _ => rfl, h⟩
  | a :: rest, m, hl, h => by
    have ih := fun (m : Mapping) (hm : MapOk o (fromNode s) (fromNode d) m) => bottomUpLoop_ok hins hdel hmax rest m (fun x hx => hl x (by simp [hx])) hm
    have ha := hl a (by simp)
    by_cases c1 : a = 0 ∧ (m.dst 0).isNone ∧ (m.src 0).isNone
    · by_cases c2 : possible o (fromNode s) (fromNode d) 0 0 = true
      · have p1 : 0 < (fromNode s).size := Made.pos ⟨s, rfl⟩
        have p2 : 0 < (fromNode d).size := Made.pos ⟨d, rfl⟩
        obtain ⟨m', e1, e2⟩ := addOptimal_ok hins hdel hmax
          (h.link (by simpa using c1.2.1) (by simpa using c1.2.2) p1 p2 c2) p1 p2
        refine ⟨m', fun n hn => ?_, e2⟩
        rw [bottomUpLoop, if_pos c1, if_pos c2, e1 n hn]
      · refine ⟨m, fun n hn => ?_, h⟩
        rw [bottomUpLoop, if_pos c1, if_neg c2]
    · by_cases c3 : (m.dst a).isSome ∨ ¬ (((fromNode s).node a).subs.any (fun c => (m.dst c).isSome)) = true
      · obtain ⟨m', e1, e2⟩ := ih m h
        refine ⟨m', fun n hn => ?_, e2⟩
        rw [bottomUpLoop, if_neg c1, if_pos c3, e1 n hn]
      · cases hf : findCandidate o (fromNode s) (fromNode d) m a with
        | none =>
          obtain ⟨m', e1, e2⟩ := ih m h
          refine ⟨m', fun n hn => ?_, e2⟩
          rw [bottomUpLoop, if_neg c1, if_neg c3, hf]
          exact e1 n hn
        | some b =>
          obtain ⟨f1, f2, f3⟩ := findCandidate_ok m a b hf
          have hd : m.dst a = none := by
            cases hm : m.dst a with
            | none => rfl
            | some y => exact absurd (.inl (by rw [hm]; rfl)) c3
          obtain ⟨m1, e1, e2⟩ := addOptimal_ok hins hdel hmax (h.link hd f3 ha f1 f2) ha f1
          obtain ⟨m', e3, e4⟩ := ih m1 e2
          refine ⟨m', fun n hn => ?_, e4⟩
          rw [bottomUpLoop, if_neg c1, if_neg c3, hf]
          simp only
          rw [e1 n hn]
          exact e3 n hn

theorem matchBottomUp_ok (hins : o.insertionCost = 1) (hdel : o.deletionCost = 1) (hmax : o.maxSize ≤ 2147483647) {s d : T} (m : Mapping)
    (h : MapOk o (fromNode s) (fromNode d) m) :
    ∃ m', (∀ n, (fromNode s).size + (fromNode d).size < n → matchBottomUp o (fromNode s) (fromNode d) n m = some m') ∧
      MapOk o (fromNode s) (fromNode d) m' := by
  refine bottomUpLoop_ok hins hdel hmax _ m (fun x hx => ?_) h
  rw [(at_root s).postorder, mem_posts] at hx
  rw [fromNode_size]
  omega

/-- `computeMapping` returns, with the same mapping for all sufficient numbers of turns. -/
theorem computeMapping_ok (o : Options) (hmin : 0 ≤ o.minHeight) (hins : o.insertionCost = 1) (hdel : o.deletionCost = 1)
    (hmax : o.maxSize ≤ 2147483647) (s d : T) :
    ∃ m n0, (∀ n, n0 < n → computeMapping o (fromNode s) (fromNode d) n = some m) ∧ MapOk o (fromNode s) (fromNode d) m := by
  obtain ⟨m1, n1, h1, h2⟩ : ∃ m n0, (∀ n, n0 < n → (if o.greedy then some Mapping.empty else matchTopDown o (fromNode s) (fromNode d) n) = some m) ∧
      MapOk o (fromNode s) (fromNode d) m := by
    by_cases hg : o.greedy = true
    · exact ⟨_, 0, fun n _ => by rw [if_pos hg], empty_ok⟩
    · obtain ⟨m, n0, h1, h2⟩ := matchTopDown_ok (o := o) (S := fromNode s) (D := fromNode d) ⟨s, rfl⟩ ⟨d, rfl⟩ hmin
      exact ⟨m, n0, fun n hn => by rw [if_neg hg, h1 n hn], h2⟩
  by_cases hs : o.stopAfterTopDown = true
  · refine ⟨m1, n1, fun n hn => ?_, h2⟩
    rw [computeMapping, h1 n hn]
    simp [hs]
  · obtain ⟨m2, h3, h4⟩ := matchBottomUp_ok hins hdel hmax m1 h2
    refine ⟨m2, n1 + (fromNode s).size + (fromNode d).size, fun n hn => ?_, h4⟩
    rw [computeMapping, h1 n (by omega)]
    simp only [hs]
    exact h3 n (by omega)

end

end Verif.AstDiff
