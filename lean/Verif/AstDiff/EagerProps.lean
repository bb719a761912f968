import Verif.AstDiff.EagerRebuild
import Mathlib.Data.List.Forall2

/-!
# C99, C100: the edits of the eager diff rebuild the destination; equal trees need no edits
-/

namespace Verif.AstDiff

/-- `areValuesEqual` compares the values of the nodes of the two trees. -/
def ComparesValues (eq : Nat → Nat → Bool) (s d : T) : Prop :=
  ∀ x ∈ s.all ++ d.all, ∀ y ∈ s.all ++ d.all, eq x.id y.id = true ↔ x.val = y.val

/-- **C99, the full property.** Carrying out the reported edits on the source tree gives the destination tree. -/
def EditsRebuildStatement : Prop :=
  ∀ (eq : Nat → Nat → Bool) (s d : T), s.ids.Nodup → d.ids.Nodup → ComparesValues eq s d →
    rebuild (getEdits eq s d) s d = some d.shape

/-- **C99.** When the two roots have the same kind, carrying out the reported edits on the source tree gives the
destination tree: nothing is lost, doubled or put in a wrong place.  `areValuesEqual` may be any function that is true
only for equal values. -/
theorem edits_rebuild_partial (eq : Nat → Nat → Bool) (s d : T) (hs : s.ids.Nodup) (hd : d.ids.Nodup)
    (hv : ∀ x ∈ s.all, ∀ y ∈ d.all, eq x.id y.id = true → x.val = y.val) (hk : s.kind = d.kind) :
    rebuild (getEdits eq s d) s d = some d.shape := by
  have hroot : ∀ e ∈ diffSub eq s.height s d, e.src? ≠ some s.id := by
    intro e he hc
    obtain ⟨x, hx, e1⟩ := (mention eq _ s d hd e he).1 _ hc
    exact (ids_nodup hs).2 x hx e1
  refine rebuild_ok eq _ s.height s d (Nat.le_refl _) hk hs hd hv ⟨?_, ?_, ?_⟩ ?_
  · intro e he
    simp [getEdits, he]
  · intro e he c hc hec
    rw [getEdits, List.mem_append] at he
    rcases he with he | he
    · exact he
    · split at he
      · simp at he
        subst he
        exact absurd (by simpa [Edit.src?] using hec.symm) ((ids_nodup hs).2 c hc)
      · simp at he
  · intro d' hd' j he
    rw [getEdits, List.mem_append] at he
    rcases he with he | he
    · exact he
    · split at he <;> simp at he
  · by_cases he : eq s.id d.id
    · exact .inr (hv s (self_mem s) d (self_mem d) he)
    · left
      have : fate (getEdits eq s d) s.id = some (.update s.id d.id 0 0) := by
        refine fate_some (by simp [getEdits, he]) rfl ?_
        intro e' h1 h2
        rw [getEdits, List.mem_append] at h1
        rcases h1 with h1 | h1
        · exact absurd h2 (hroot e' h1)
        · simpa [he] using h1
      rw [isUpdated, this]

/-- comparison of values by numbers, for the examples -/
def byVal (l : List (Nat × Nat)) (a b : Nat) : Bool := l.lookup a == l.lookup b

/-- a(b, c(d), e) becomes a(e, c(x, d), f): a move, two insertions, and a deletion -/
def ex1s : T := .node 1 0 1 [.node 2 0 2 [], .node 3 0 3 [.node 4 1 4 []], .node 5 0 5 []]
def ex1d : T := .node 11 0 1 [.node 12 0 5 [], .node 13 0 3 [.node 14 2 9 [], .node 15 1 4 []], .node 16 3 6 []]
def ex1 : Nat → Nat → Bool :=
  byVal [(1, 1), (2, 2), (3, 3), (4, 4), (5, 5), (11, 1), (12, 5), (13, 3), (14, 9), (15, 4), (16, 6)]

example : getEdits ex1 ex1s ex1d =
    [.move 5 12 2 0, .insert 14 0, .move 4 15 0 1, .insert 16 2, .delete 2 0] := by decide +kernel

example : rebuild (getEdits ex1 ex1s ex1d) ex1s ex1d = some ex1d.shape := by
  refine edits_rebuild_partial _ _ _ (by decide +kernel) (by decide +kernel) ?_ rfl
  have : ∀ x ∈ ex1s.all.map (fun t => (t.id, t.val)), ∀ y ∈ ex1d.all.map (fun t => (t.id, t.val)),
      ex1 x.1 y.1 = true → x.2 = y.2 := by decide +kernel
  intro x hx y hy
  exact this _ (List.mem_map_of_mem (f := fun t : T => (t.id, t.val)) hx) _ (List.mem_map_of_mem (f := fun t : T => (t.id, t.val)) hy)

/-- Two roots of different kinds: the subnodes are never looked at. -/
def ex2s : T := .node 1 0 1 []
def ex2d : T := .node 11 1 1 [.node 12 0 5 []]

/-- The full property fails: when the roots have different kinds no edit tells about their subnodes. -/
theorem editsRebuild_false : ¬ EditsRebuildStatement := by
  intro h
  have := h (byVal [(1, 1), (11, 1), (12, 5)]) ex2s ex2d (by decide) (by decide) (by
    have : ∀ x ∈ (ex2s.all ++ ex2d.all).map (fun t => (t.id, t.val)), ∀ y ∈ (ex2s.all ++ ex2d.all).map (fun t => (t.id, t.val)),
        byVal [(1, 1), (11, 1), (12, 5)] x.1 y.1 = true ↔ x.2 = y.2 := by decide +kernel
    intro x hx y hy
    exact this _ (List.mem_map_of_mem (f := fun t : T => (t.id, t.val)) hx) _ (List.mem_map_of_mem (f := fun t : T => (t.id, t.val)) hy))
  have e : getEdits (byVal [(1, 1), (11, 1), (12, 5)]) ex2s ex2d = [] := by decide +kernel
  rw [e] at this
  simp [ex2s, ex2d, rebuild, rebuildSubs, T.subs, T.shape, shapes, inserted, place, isUpdated, fate] at this

/-! ## Equal trees -/

/-- **C100, the full property.** Two trees with the same kinds and values need no edits. -/
def EqualNoEditsStatement : Prop :=
  ∀ (eq : Nat → Nat → Bool) (s d : T), s.ids.Nodup → d.ids.Nodup → ComparesValues eq s d → s.shape = d.shape →
    getEdits eq s d = []

/-- No two subnodes of a node have the same kind and value. -/
def DistinctSubs (t : T) : Prop :=
  ∀ x ∈ t.all, ∀ (i j : Nat) (a b : T), x.subs[i]? = some a → x.subs[j]? = some b → a.kind = b.kind → a.val = b.val → i = j

section
variable {eq : Nat → Nat → Bool}

theorem bestLoop_only {d : T} {j : Nat} {processed : List Nat} : ∀ (rest : List T) (i : Nat) (b : Best),
    (∀ (k : Nat) (s : T), rest[k]? = some s → i + k ≠ j → s.id ∈ processed ∨ s.kind ≠ d.kind ∨ eq s.id d.id = false) →
    (∀ (k : Nat) (s : T), rest[k]? = some s → i + k = j → s.id ∉ processed ∧ s.kind = d.kind ∧ eq s.id d.id = true) →
    (bestLoop eq d j processed i rest b).moveCand = b.moveCand ∧
    (bestLoop eq d j processed i rest b).exactMatch =
      (if i ≤ j ∧ j < i + rest.length then some ⟨j, true, false⟩ else b.exactMatch)
  | [], i, b, _, _ => by simp [bestLoop]; omega
  | s :: rest, i, b, h1, h2 => by
    rw [bestLoop]
    obtain ⟨r1, r2⟩ := bestLoop_only (j := j) (processed := processed) (d := d) rest (i + 1) (bestStep eq d j processed i s b)
      (fun k s hk hne => h1 (k + 1) s (by simpa using hk) (by omega))
      (fun k s hk he => h2 (k + 1) s (by simpa using hk) (by omega))
    rw [r1, r2]
    by_cases e : i = j
    · obtain ⟨a1, a2, a3⟩ := h2 0 s rfl (by omega)
      subst e
      have : bestStep eq d i processed i s b = { b with exactMatch := some ⟨i, true, false⟩ } := by
        simp [bestStep, a1, a2, a3]
      rw [this]
      simp
    · have : (bestStep eq d j processed i s b).moveCand = b.moveCand ∧
          (bestStep eq d j processed i s b).exactMatch = b.exactMatch := by
        unfold bestStep
        rcases h1 0 s rfl (by omega) with a | a | a
        · simp [a]
        · simp [a]
        · rw [a]
          split
          · simp
          · simp only [Bool.false_eq_true, if_false]
            split <;> simp
      rw [this.1, this.2]
      refine ⟨rfl, ?_⟩
      simp only [List.length_cons]
      congr 1
      apply propext
      omega

theorem findBest_only {d s : T} {j : Nat} {processed : List Nat} {srcs : List T} (hj : srcs[j]? = some s)
    (h1 : ∀ (k : Nat) (s : T), srcs[k]? = some s → k ≠ j → s.id ∈ processed ∨ s.kind ≠ d.kind ∨ eq s.id d.id = false)
    (h2 : s.id ∉ processed ∧ s.kind = d.kind ∧ eq s.id d.id = true) :
    findBest eq d j srcs processed = some ⟨j, true, false⟩ := by
  obtain ⟨r1, r2⟩ := bestLoop_only (eq := eq) (d := d) (j := j) (processed := processed) srcs 0 ⟨none, none, none⟩
    (fun k s hk hne => h1 k s hk (by omega)) (fun k s' hk he => by
      obtain rfl : k = j := by omega
      rw [hj] at hk
      obtain rfl := Option.some.inj hk
      exact h2)
  rw [if_pos ⟨Nat.zero_le _, by simpa using (List.getElem?_eq_some_iff.1 hj).1⟩] at r2
  simp only [findBest, r1, r2]

/-- The same kinds and values, pairwise -/
abbrev Same (l r : List T) : Prop := List.Forall₂ (fun a b : T => a.shape = b.shape) l r

theorem shapes_same : ∀ {l r : List T}, shapes l = shapes r → Same l r
  | [], [], _ => .nil
  | [], _ :: _, h => by simp [shapes] at h
  | _ :: _, [], h => by simp [shapes] at h
  | a :: l, b :: r, h => by
    simp only [shapes, List.cons.injEq] at h
    exact .cons h.1 (shapes_same h.2)

theorem shape_parts {s d : T} (h : s.shape = d.shape) : s.kind = d.kind ∧ s.val = d.val ∧ Same s.subs d.subs := by
  rw [shape_eq, shape_eq] at h
  injection h with h1 h2 h3
  exact ⟨h1, h2, shapes_same h3⟩

theorem same_count {s d needle : T} (v : ∀ x ∈ s.all ++ d.all, ∀ y ∈ s.all ++ d.all, eq x.id y.id = true ↔ x.val = y.val)
    (hn : needle ∈ s.all ++ d.all) : ∀ {l r : List T}, Same l r → (∀ x ∈ l, x ∈ s.all ++ d.all) → (∀ x ∈ r, x ∈ s.all ++ d.all) →
    (l.filter (fun x => eq x.id needle.id)).length = (r.filter (fun x => eq x.id needle.id)).length := by
  intro l r h
  induction h with
  | nil => intros; rfl
  | @cons a b l r h _ ih =>
    intro h1 h2
    have ih := ih (fun x hx => h1 x (by simp [hx])) (fun x hx => h2 x (by simp [hx]))
    have e : eq a.id needle.id = eq b.id needle.id := by
      rw [Bool.eq_iff_iff, v a (h1 a (by simp)) needle hn, v b (h2 b (by simp)) needle hn, (shape_parts h).2.1]
    rw [List.filter_cons, List.filter_cons, e]
    split
    · simp [ih]
    · exact ih

theorem filter_processed {pre rest : List T} {processed : List Nat} {f : T → Bool}
    (h1 : ∀ x ∈ pre, x.id ∈ processed) (h2 : ∀ x ∈ rest, x.id ∉ processed) :
    (pre ++ rest).filter (fun x => !processed.contains x.id && f x) = rest.filter f := by
  rw [List.filter_append]
  have e1 : pre.filter (fun x => !processed.contains x.id && f x) = [] := by
    rw [List.filter_eq_nil_iff]
    intro x hx
    simp [h1 x hx]
  rw [e1, List.nil_append]
  apply List.filter_congr
  intro x hx
  simp [h2 x hx]

theorem dstLoop_same {s d : T} (hs : s.ids.Nodup) (hd : d.ids.Nodup)
    (v : ∀ x ∈ s.all ++ d.all, ∀ y ∈ s.all ++ d.all, eq x.id y.id = true ↔ x.val = y.val) (hdist : DistinctSubs s)
    (recur : T → T → List Edit) (hrec : ∀ (i : Nat) (a b : T), s.subs[i]? = some a → d.subs[i]? = some b → recur a b = []) :
    ∀ (preS restS preD restD : List T) (pS pD : List Nat), preS ++ restS = s.subs → preD ++ restD = d.subs → Same restS restD →
      preS.length = preD.length → (∀ x, x ∈ pS ↔ ∃ t ∈ preS, t.id = x) → (∀ x, x ∈ pD ↔ ∃ t ∈ preD, t.id = x) →
      (dstLoop eq recur s.subs d.subs preD.length restD ⟨pS, pD, []⟩).out = [] ∧
      ∀ x ∈ s.subs, x.id ∈ (dstLoop eq recur s.subs d.subs preD.length restD ⟨pS, pD, []⟩).pS := by
  intro preS restS preD restD pS pD eS eD hsame
  induction hsame generalizing preS preD pS pD with
  | nil =>
    intro hlen hp hpD
    simp only [dstLoop, true_and]
    intro x hx
    rw [← eS, List.append_nil] at hx
    exact (hp _).2 ⟨x, hx, rfl⟩
  | @cons a b restS restD hab _ ih =>
    intro hlen hp hpD
    rename_i htail
    have hsA := alls_nodup (ids_nodup hs).1
    have hdA := alls_nodup (ids_nodup hd).1
    have ha : s.subs[preD.length]? = some a := by rw [← eS, ← hlen]; simp
    have hb : d.subs[preD.length]? = some b := by rw [← eD]; simp
    have memS : ∀ x ∈ s.subs, x ∈ s.all ++ d.all := by
      intro x hx
      obtain ⟨i, hi⟩ := List.mem_iff_getElem?.1 hx
      rw [all_cons s]
      simp [child_all hi x (self_mem x)]
    have memD : ∀ x ∈ d.subs, x ∈ s.all ++ d.all := by
      intro x hx
      obtain ⟨i, hi⟩ := List.mem_iff_getElem?.1 hx
      rw [all_cons d]
      simp [child_all hi x (self_mem x)]
    have nodS := subs_nodup hs
    have nodD := subs_nodup hd
    rw [← eS, List.map_append, List.nodup_append] at nodS
    rw [← eD, List.map_append, List.nodup_append] at nodD
    have hpS2 : ∀ x ∈ a :: restS, x.id ∉ pS := by
      intro x hx hc
      obtain ⟨t, ht, e⟩ := (hp _).1 hc
      exact nodS.2.2 _ (List.mem_map_of_mem (f := T.id) ht) _ (List.mem_map_of_mem (f := T.id) hx) e
    have hpD2 : ∀ x ∈ b :: restD, x.id ∉ pD := by
      intro x hx hc
      obtain ⟨t, ht, e⟩ := (hpD _).1 hc
      exact nodD.2.2 _ (List.mem_map_of_mem (f := T.id) ht) _ (List.mem_map_of_mem (f := T.id) hx) e
    obtain ⟨k1, k2, _⟩ := shape_parts hab
    have hbd : b ∈ s.all ++ d.all := memD b (List.mem_of_getElem? hb)
    have had : a ∈ s.all ++ d.all := memS a (List.mem_of_getElem? ha)
    have heq : eq a.id b.id = true := (v a had b hbd).2 k2
    have hbest : findBest eq b preD.length s.subs pS = some ⟨preD.length, true, false⟩ := by
      refine findBest_only ha ?_ ⟨hpS2 a (by simp), k1, heq⟩
      intro k x hx hne
      by_cases hk : x.kind = b.kind
      · right; right
        rw [Bool.eq_false_iff]
        intro he
        have := (v x (memS x (List.mem_of_getElem? hx)) b hbd).1 he
        exact hne (hdist s (self_mem s) k _ x a hx ha (hk.trans k1.symm) (this.trans k2.symm))
      · exact .inr (.inl hk)
    have hcount : ¬ (countUnprocessed eq b.id d.subs pD > countUnprocessed eq b.id s.subs pS) := by
      have e1 : countUnprocessed eq b.id d.subs pD = ((b :: restD).filter (fun x => eq x.id b.id)).length := by
        rw [countUnprocessed, ← eD, filter_processed (fun x hx => (hpD _).2 ⟨x, hx, rfl⟩) hpD2]
      have e2 : countUnprocessed eq b.id s.subs pS = ((a :: restS).filter (fun x => eq x.id b.id)).length := by
        rw [countUnprocessed, ← eS, filter_processed (fun x hx => (hp _).2 ⟨x, hx, rfl⟩) hpS2]
      rw [e1, e2, same_count v hbd (.cons hab htail) (fun x hx => memS x (by rw [← eS]; simp only [List.mem_append]; exact .inr hx))
        (fun x hx => memD x (by rw [← eD]; simp only [List.mem_append]; exact .inr hx))]
      omega
    have hstep : dstLoop eq recur s.subs d.subs preD.length (b :: restD) ⟨pS, pD, []⟩ =
        dstLoop eq recur s.subs d.subs (preD ++ [b]).length restD ⟨a.id :: pS, b.id :: pD, []⟩ := by
      rw [dstLoop, if_neg (by simpa using hpD2 b (by simp)), hbest]
      dsimp only
      rw [if_neg hcount, ha]
      dsimp only
      rw [hrec _ a b ha hb]
      simp [pairEdit, heq]
    rw [hstep]
    refine ih (preS ++ [a]) (preD ++ [b]) (a.id :: pS) (b.id :: pD) (by rw [← eS]; simp) (by rw [← eD]; simp) (by simp [hlen]) ?_ ?_
    · intro x
      rw [List.mem_cons, hp]
      constructor
      · rintro (rfl | ⟨t, ht, e⟩)
        · exact ⟨a, by simp, rfl⟩
        · exact ⟨t, by simp [ht], e⟩
      · rintro ⟨t, ht, e⟩
        rcases List.mem_append.1 ht with h | h
        · exact .inr ⟨t, h, e⟩
        · simp at h
          exact .inl (by rw [← e, h])
    · intro x
      rw [List.mem_cons, hpD]
      constructor
      · rintro (rfl | ⟨t, ht, e⟩)
        · exact ⟨b, by simp, rfl⟩
        · exact ⟨t, by simp [ht], e⟩
      · rintro ⟨t, ht, e⟩
        rcases List.mem_append.1 ht with h | h
        · exact .inr ⟨t, h, e⟩
        · simp at h
          exact .inl (by rw [← e, h])

theorem all_trans {t x y : T} (hx : x ∈ t.all) (hy : y ∈ x.all) : y ∈ t.all := by
  have : ∀ (n : Nat) (t : T), t.height ≤ n → x ∈ t.all → y ∈ t.all := by
    intro n
    induction n with
    | zero => intro t h; rw [height_eq] at h; omega
    | succ n ih =>
      intro t h hx
      rw [all_cons] at hx
      rcases List.mem_cons.1 hx with e | hx
      · rw [← e]; exact hy
      · obtain ⟨i, c, hc, hxc⟩ := mem_alls.1 hx
        have := heights_le hc
        rw [height_eq] at h
        rw [all_cons]
        exact List.mem_cons_of_mem _ (child_all hc y (ih c (by omega) hxc))
  exact this _ t (Nat.le_refl _) hx

theorem diffSub_same : ∀ (n : Nat) (s d : T), s.ids.Nodup → d.ids.Nodup →
    (∀ x ∈ s.all ++ d.all, ∀ y ∈ s.all ++ d.all, eq x.id y.id = true ↔ x.val = y.val) → DistinctSubs s → s.shape = d.shape →
    diffSub eq n s d = []
  | 0, s, d, _, _, _, _, _ => rfl
  | n + 1, s, d, hs, hd, v, hdist, hsh => by
    obtain ⟨k1, k2, k3⟩ := shape_parts hsh
    have hsA := alls_nodup (ids_nodup hs).1
    have hdA := alls_nodup (ids_nodup hd).1
    by_cases h : s.subs.isEmpty && d.subs.isEmpty
    · rw [diffSub, if_pos h]
    · have hrec : ∀ (i : Nat) (a b : T), s.subs[i]? = some a → d.subs[i]? = some b → diffSub eq n a b = [] := by
        intro i a b ha hb
        have hab : a.shape = b.shape := by
          have := (List.forall₂_iff_get.1 k3).2 i (List.getElem?_eq_some_iff.1 ha).1 (List.getElem?_eq_some_iff.1 hb).1
          simp only [List.get_eq_getElem] at this
          rw [(List.getElem?_eq_some_iff.1 ha).2, (List.getElem?_eq_some_iff.1 hb).2] at this
          exact this
        have ma : ∀ x ∈ a.all, x ∈ s.all := fun x hx => by rw [all_cons]; simp [child_all ha x hx]
        have mb : ∀ x ∈ b.all, x ∈ d.all := fun x hx => by rw [all_cons]; simp [child_all hb x hx]
        have mm : ∀ x ∈ a.all ++ b.all, x ∈ s.all ++ d.all := by
          intro x hx
          rcases List.mem_append.1 hx with h | h
          · exact List.mem_append.2 (.inl (ma x h))
          · exact List.mem_append.2 (.inr (mb x h))
        exact diffSub_same n a b (hsA.1 _ _ ha) (hdA.1 _ _ hb) (fun x hx y hy => v x (mm x hx) y (mm y hy))
          (fun x hx => hdist x (ma x hx)) hab
      obtain ⟨h1, h2⟩ := dstLoop_same hs hd v hdist (diffSub eq n) hrec [] s.subs [] d.subs [] [] (by simp) (by simp) k3 rfl
        (by simp) (by simp)
      simp only [List.length_nil] at h1 h2
      rw [diffSub, if_neg h, if_neg (by simp [k1])]
      dsimp only
      rw [h1, List.nil_append, List.eq_nil_iff_forall_not_mem]
      intro e he
      obtain ⟨k, x, hx, hp, _⟩ := (mem_deletes _ _).1 he
      exact hp (h2 x (List.mem_of_getElem? hx))

end

/-- **C100.** Equal trees need no edits, when no node has two equal subnodes. -/
theorem equal_no_edits_partial (eq : Nat → Nat → Bool) (s d : T) (hs : s.ids.Nodup) (hd : d.ids.Nodup) (hv : ComparesValues eq s d)
    (hsh : s.shape = d.shape) (hdist : DistinctSubs s) : getEdits eq s d = [] := by
  have : eq s.id d.id = true :=
    (hv s (List.mem_append.2 (.inl (self_mem s))) d (List.mem_append.2 (.inr (self_mem d)))).2 (shape_parts hsh).2.1
  rw [getEdits, diffSub_same _ s d hs hd hv hdist hsh]
  simp [this]

/-- The full property fails: two equal words under one node are reported as exchanged. -/
def ex3s : T := .node 1 0 1 [.node 2 0 2 [], .node 3 0 2 []]
def ex3d : T := .node 11 0 1 [.node 12 0 2 [], .node 13 0 2 []]
def ex3 : Nat → Nat → Bool := byVal [(1, 1), (2, 2), (3, 2), (11, 1), (12, 2), (13, 2)]

theorem ex3_edits : getEdits ex3 ex3s ex3d = [.move 3 12 1 0, .move 2 13 0 1] := by decide +kernel

theorem equalNoEdits_false : ¬ EqualNoEditsStatement := by
  intro h
  have := h ex3 ex3s ex3d (by decide) (by decide) (by
    have : ∀ x ∈ (ex3s.all ++ ex3d.all).map (fun t => (t.id, t.val)), ∀ y ∈ (ex3s.all ++ ex3d.all).map (fun t => (t.id, t.val)),
        ex3 x.1 y.1 = true ↔ x.2 = y.2 := by decide +kernel
    intro x hx y hy
    exact this _ (List.mem_map_of_mem (f := fun t : T => (t.id, t.val)) hx) _ (List.mem_map_of_mem (f := fun t : T => (t.id, t.val)) hy))
    (by simp [ex3s, ex3d, T.shape, shapes])
  rw [ex3_edits] at this
  simp at this

/-- The hypotheses of `equal_no_edits_partial` are met by a tree with its copy. -/
example : getEdits (byVal [(1, 1), (2, 2), (3, 3), (11, 1), (12, 2), (13, 3)])
    (.node 1 0 1 [.node 2 0 2 [.node 3 0 3 []]]) (.node 11 0 1 [.node 12 0 2 [.node 13 0 3 []]]) = [] := by
  refine equal_no_edits_partial _ _ _ (by decide) (by decide) ?_ (by simp [T.shape, shapes]) ?_
  · simp [ComparesValues, T.all, alls, T.id, T.val, byVal, List.lookup]
  · intro x hx i j a b ha hb _ _
    simp only [T.all, alls, List.append_nil, List.mem_cons, List.not_mem_nil, or_false] at hx
    rcases hx with rfl | rfl | rfl <;> simp only [T.subs] at ha hb <;>
      · have h1 := (List.getElem?_eq_some_iff.1 ha).1
        have h2 := (List.getElem?_eq_some_iff.1 hb).1
        simp at h1 h2
        try omega

end Verif.AstDiff
