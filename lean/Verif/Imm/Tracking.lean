import Verif.Imm.CascadeOk

/-! # The parents of the tracking map -/

namespace Verif.Imm

variable {D : Type} [DecidableEq D]

/-- No parent is listed twice. -/
def Once (m : Id → Option (List Id)) : Prop := ∀ q l, m q = some l → l.Nodup

theorem setMap_same (m : Id → Option (List Id)) (k : Id) (v : List Id) : setMap m k v k = some v := by
  simp [setMap]

theorem setMap_other (m : Id → Option (List Id)) {k k' : Id} (v : List Id) (h : k' ≠ k) : setMap m k v k' = m k' := by
  simp [setMap, h]

theorem once_setMap {m : Id → Option (List Id)} (h : Once m) {k : Id} {v : List Id} (hv : v.Nodup) : Once (setMap m k v) := by
  intro q l hl
  by_cases hq : q = k
  · rw [hq, setMap_same] at hl
    injection hl with hl
    rw [← hl]
    exact hv
  · rw [setMap_other m v hq] at hl
    exact h q l hl

theorem once_remove {s : Store D} {parent sub : Id} {m : Id → Option (List Id)} (h : Once m) :
    Once (removeParent s parent m sub) := by
  unfold removeParent
  split
  · exact h
  · rename_i l hl
    split
    · exact once_setMap h ((h sub l hl).erase _)
    · exact h

theorem lists_remove {s : Store D} {parent sub : Id} {m : Id → Option (List Id)} (h : Once m) (p q : Id) :
    Lists (removeParent s parent m sub) p q ↔ Lists m p q ∧ ¬ (p = parent ∧ q = sub ∧ s.tracked sub = true) := by
  unfold removeParent
  split
  · rename_i hn
    constructor
    · rintro ⟨l, hl, hp⟩
      refine ⟨⟨l, hl, hp⟩, ?_⟩
      rintro ⟨_, rfl, _⟩
      rw [hn] at hl
      simp at hl
    · exact fun h => h.1
  · rename_i l hl
    split
    · rename_i ht
      by_cases hq : q = sub
      · subst hq
        constructor
        · rintro ⟨l', hl', hp⟩
          rw [setMap_same] at hl'
          injection hl' with hl'
          subst hl'
          have := (h q l hl).mem_erase_iff.1 hp
          exact ⟨⟨l, hl, this.2⟩, fun hx => this.1 hx.1⟩
        · rintro ⟨⟨l', hl', hp⟩, hx⟩
          rw [hl] at hl'
          injection hl' with hl'
          subst hl'
          refine ⟨l.erase parent, setMap_same _ _ _, ?_⟩
          rw [(h q l hl).mem_erase_iff]
          exact ⟨fun he => hx ⟨he, rfl, ht.1⟩, hp⟩
      · constructor
        · rintro ⟨l', hl', hp⟩
          rw [setMap_other _ _ hq] at hl'
          exact ⟨⟨l', hl', hp⟩, fun hx => hq hx.2.1⟩
        · rintro ⟨⟨l', hl', hp⟩, _⟩
          exact ⟨l', by rw [setMap_other _ _ hq]; exact hl', hp⟩
    · rename_i ht
      constructor
      · rintro ⟨l', hl', hp⟩
        refine ⟨⟨l', hl', hp⟩, ?_⟩
        rintro ⟨rfl, rfl, ht'⟩
        rw [hl] at hl'
        injection hl' with hl'
        rw [← hl'] at hp
        exact ht ⟨ht', hp⟩
      · exact fun h => h.1

theorem fold_remove {s : Store D} {parent : Id} : ∀ (subs : List Id) {m : Id → Option (List Id)}, Once m →
    Once (subs.foldl (removeParent s parent) m) ∧ ∀ p q, Lists (subs.foldl (removeParent s parent) m) p q ↔
      Lists m p q ∧ ¬ (p = parent ∧ q ∈ subs ∧ s.tracked q = true) := by
  intro subs
  induction subs with
  | nil => intro m h; exact ⟨h, by simp⟩
  | cons sub subs ih =>
    intro m h
    obtain ⟨h1, h2⟩ := ih (m := removeParent s parent m sub) (once_remove h)
    refine ⟨h1, ?_⟩
    intro p q
    rw [List.foldl_cons, h2, lists_remove h, List.mem_cons]
    constructor
    · rintro ⟨⟨h3, h4⟩, h5⟩
      refine ⟨h3, ?_⟩
      rintro ⟨rfl, rfl | hq, ht⟩
      · exact h4 ⟨rfl, rfl, ht⟩
      · exact h5 ⟨rfl, hq, ht⟩
    · rintro ⟨h3, h4⟩
      refine ⟨⟨h3, ?_⟩, ?_⟩
      · rintro ⟨rfl, rfl, ht⟩
        exact h4 ⟨rfl, .inl rfl, ht⟩
      · rintro ⟨rfl, hq, ht⟩
        exact h4 ⟨rfl, .inr hq, ht⟩

theorem once_insert {s : Store D} {parent sub : Id} {m : Id → Option (List Id)} (h : Once m) :
    Once (insertParent s parent m sub) := by
  unfold insertParent setAsParentOf
  split
  · split
    · exact once_setMap h (by simp)
    · rename_i l hl
      split
      · exact h
      · rename_i hn
        refine once_setMap h ?_
        rw [List.nodup_append]
        refine ⟨h sub l hl, by simp, ?_⟩
        intro a ha b hb he
        simp only [List.mem_singleton] at hb
        rw [he, hb] at ha
        exact hn ha
  · exact h

theorem lists_insert {s : Store D} {parent sub : Id} {m : Id → Option (List Id)} (p q : Id) :
    Lists (insertParent s parent m sub) p q ↔ Lists m p q ∨ (p = parent ∧ q = sub ∧ s.tracked sub = true) := by
  unfold insertParent setAsParentOf
  split
  · rename_i ht
    split
    · rename_i hn
      by_cases hq : q = sub
      · subst hq
        constructor
        · rintro ⟨l, hl, hp⟩
          rw [setMap_same] at hl
          injection hl with hl
          rw [← hl] at hp
          exact .inr ⟨by simpa using hp, rfl, ht⟩
        · rintro (⟨l, hl, _⟩ | ⟨rfl, _, _⟩)
          · rw [hn] at hl; simp at hl
          · exact ⟨_, setMap_same _ _ _, by simp⟩
      · constructor
        · rintro ⟨l, hl, hp⟩
          rw [setMap_other _ _ hq] at hl
          exact .inl ⟨l, hl, hp⟩
        · rintro (⟨l, hl, hp⟩ | ⟨_, h, _⟩)
          · exact ⟨l, by rw [setMap_other _ _ hq]; exact hl, hp⟩
          · exact absurd h hq
    · rename_i l hl
      split
      · rename_i hin
        constructor
        · exact .inl
        · rintro (h | ⟨rfl, rfl, _⟩)
          · exact h
          · exact ⟨l, hl, hin⟩
      · by_cases hq : q = sub
        · subst hq
          constructor
          · rintro ⟨l', hl', hp⟩
            rw [setMap_same] at hl'
            injection hl' with hl'
            rw [← hl'] at hp
            rcases List.mem_append.1 hp with hp | hp
            · exact .inl ⟨l, hl, hp⟩
            · exact .inr ⟨by simpa using hp, rfl, ht⟩
          · rintro (⟨l', hl', hp⟩ | ⟨rfl, _, _⟩)
            · rw [hl] at hl'
              injection hl' with hl'
              rw [← hl'] at hp
              exact ⟨_, setMap_same _ _ _, by simp [hp]⟩
            · exact ⟨_, setMap_same _ _ _, by simp⟩
        · constructor
          · rintro ⟨l', hl', hp⟩
            rw [setMap_other _ _ hq] at hl'
            exact .inl ⟨l', hl', hp⟩
          · rintro (⟨l', hl', hp⟩ | ⟨_, h, _⟩)
            · exact ⟨l', by rw [setMap_other _ _ hq]; exact hl', hp⟩
            · exact absurd h hq
  · rename_i ht
    constructor
    · exact .inl
    · rintro (h | ⟨_, _, h⟩)
      · exact h
      · exact absurd h ht

theorem fold_insert {s : Store D} {parent : Id} : ∀ (subs : List Id) {m : Id → Option (List Id)}, Once m →
    Once (subs.foldl (insertParent s parent) m) ∧ ∀ p q, Lists (subs.foldl (insertParent s parent) m) p q ↔
      Lists m p q ∨ (p = parent ∧ q ∈ subs ∧ s.tracked q = true) := by
  intro subs
  induction subs with
  | nil => intro m h; exact ⟨h, by simp⟩
  | cons sub subs ih =>
    intro m h
    obtain ⟨h1, h2⟩ := ih (m := insertParent s parent m sub) (once_insert h)
    refine ⟨h1, ?_⟩
    intro p q
    rw [List.foldl_cons, h2, lists_insert, List.mem_cons]
    constructor
    · rintro ((h3 | ⟨h3, rfl, h5⟩) | ⟨h3, h4, h5⟩)
      · exact .inl h3
      · exact .inr ⟨h3, .inl rfl, h5⟩
      · exact .inr ⟨h3, .inr h4, h5⟩
    · rintro (h3 | ⟨h3, rfl | h4, h5⟩)
      · exact .inl (.inl h3)
      · exact .inl (.inr ⟨h3, rfl, h5⟩)
      · exact .inr ⟨h3, h4, h5⟩

theorem mem_subs {s : Store D} {p q : Id} : q ∈ (s.kids p).map (·.2) ↔ ∃ st, (st, q) ∈ s.kids p := by
  simp

theorem remove_lists {c : Ctx D} (h : Once c.parents) (x : Id) : Once (c.removeAllSubnodesOf x).parents ∧
    ∀ p q, Lists (c.removeAllSubnodesOf x).parents p q ↔ Lists c.parents p q ∧ ¬ (p = x ∧ ChildOf c.store x q) := by
  unfold Ctx.removeAllSubnodesOf
  split
  · rename_i ht
    obtain ⟨h1, h2⟩ := fold_remove (s := c.store) (parent := x) ((c.store.kids x).map (·.2)) h
    refine ⟨h1, ?_⟩
    intro p q
    rw [h2, mem_subs]
    unfold ChildOf
    simp only [ht, true_and]
    rw [and_comm (a := ∃ st, _)]
  · rename_i ht
    refine ⟨h, ?_⟩
    intro p q
    unfold ChildOf
    simp [ht]

theorem insert_lists {c : Ctx D} (h : Once c.parents) (x : Id) : Once (c.insertAllSubnodesOf x).parents ∧
    ∀ p q, Lists (c.insertAllSubnodesOf x).parents p q ↔ Lists c.parents p q ∨ (p = x ∧ ChildOf c.store x q) := by
  unfold Ctx.insertAllSubnodesOf
  split
  · rename_i ht
    obtain ⟨h1, h2⟩ := fold_insert (s := c.store) (parent := x) ((c.store.kids x).map (·.2)) h
    refine ⟨h1, ?_⟩
    intro p q
    rw [h2, mem_subs]
    unfold ChildOf
    simp only [ht, true_and]
    rw [and_comm (a := ∃ st, _)]
  · rename_i ht
    refine ⟨h, ?_⟩
    intro p q
    unfold ChildOf
    simp [ht]

/-- The whole effect of replacing a node on the parents. -/
theorem setNode_parents {c : Ctx D} (h : Once c.parents) (target : Uniq) (v : Val D) :
    Once (setNode c target v).2.parents ∧ ∀ p q, Lists (setNode c target v).2.parents p q ↔
      (Lists c.parents p q ∧ ¬ (p = target.id ∧ ChildOf (c.store.add v).2 target.id q)) ∨
      (p = (c.store.add v).1 ∧ ChildOf (c.store.add v).2 (c.store.add v).1 q) := by
  rw [setNode_ctx]
  obtain ⟨h1, h2⟩ := remove_lists (c := { c with store := (c.store.add v).2 }) h target.id
  obtain ⟨h3, h4⟩ := insert_lists h1 (c.store.add v).1
  refine ⟨h3, ?_⟩
  intro p q
  rw [h4, h2, remove_store]

theorem kids_prefix {s s' : Store D} (h : s <+: s') {i : Id} (hi : i < s.length) : s'.kids i = s.kids i := by
  unfold Store.kids
  rw [List.getElem?_eq_getElem hi, getElem?_prefix h (List.getElem?_eq_getElem hi)]

theorem tracked_prefix {s s' : Store D} (h : s <+: s') {i : Id} (hi : i < s.length) : s'.tracked i = s.tracked i := by
  unfold Store.tracked
  rw [List.getElem?_eq_getElem hi, getElem?_prefix h (List.getElem?_eq_getElem hi)]

theorem tracked_lt {s : Store D} {i : Id} (h : s.tracked i = true) : i < s.length := by
  unfold Store.tracked at h
  split at h
  · rename_i v hv
    exact stored_lt hv
  · simp at h

theorem childOf_prefix {s s' : Store D} (h : s <+: s') {p q : Id} (hc : ChildOf s p q) : ChildOf s' p q := by
  obtain ⟨h1, h2, st, h3⟩ := hc
  exact ⟨by rw [tracked_prefix h (tracked_lt h1)]; exact h1, by rw [tracked_prefix h (tracked_lt h2)]; exact h2,
    st, by rw [kids_prefix h (tracked_lt h1)]; exact h3⟩

/-- Every listed parent is one, and none is listed twice. -/
structure Sound (c : Ctx D) : Prop where
  once : Once c.parents
  sound : ∀ p q, Lists c.parents p q → ChildOf c.store p q

theorem setNode_sound {c : Ctx D} (h : Sound c) (target : Uniq) (v : Val D) : Sound (setNode c target v).2 := by
  obtain ⟨h1, h2⟩ := setNode_parents h.once target v
  refine ⟨h1, ?_⟩
  intro p q hl
  rw [setNode_store]
  rcases (h2 p q).1 hl with ⟨h3, _⟩ | ⟨rfl, h3⟩
  · exact childOf_prefix (add_prefix _ _) (h.sound p q h3)
  · exact h3

theorem evolves_sound {c c' : Ctx D} (h : Evolves c c') (hs : Sound c) : Sound c' := by
  induction h with
  | refl => exact hs
  | tail _ h ih =>
    obtain ⟨t, v, _, rfl⟩ := h
    exact setNode_sound ih t v

/-- The listed parents are all of them. -/
structure Exact (c : Ctx D) : Prop where
  good : Good c.store
  once : Once c.parents
  exact : ∀ p q, Lists c.parents p q ↔ ChildOf c.store p q

/-- The parents that are right for all nodes but the replaced ones. -/
structure ExactBut (R : List Id) (c : Ctx D) : Prop where
  good : Good c.store
  once : Once c.parents
  sound : ∀ p q, Lists c.parents p q → ChildOf c.store p q
  exact : ∀ p q, p ∉ R → ChildOf c.store p q → Lists c.parents p q

theorem exactBut_nil {c : Ctx D} (h : ExactBut [] c) : Exact c :=
  ⟨h.good, h.once, fun p q => ⟨h.sound p q, h.exact p q (by simp)⟩⟩

theorem setNode_exactBut {R : List Id} {c : Ctx D} (h : ExactBut R c) {v : Val D} (hv : Proper c.store v.kids) (target : Uniq)
    (hR : target.id = (c.store.add v).1 ∨ target.id ∈ R) : ExactBut R (setNode c target v).2 := by
  obtain ⟨h1, h2⟩ := setNode_parents h.once target v
  refine ⟨setNode_good h.good target hv, h1, (setNode_sound ⟨h.once, h.sound⟩ target v).sound, ?_⟩
  intro p q hp h3
  rw [setNode_store] at h3
  rw [h2]
  by_cases hpn : p = (c.store.add v).1
  · right
    exact ⟨hpn, by rw [← hpn]; exact h3⟩
  · left
    have hlt : p < c.store.length := by
      have h4 := tracked_lt h3.1
      unfold Store.add at h4 hpn
      split at h4
      · exact h4
      · rename_i hn
        rw [hn] at hpn
        simp only at hpn
        simp only [List.length_append, List.length_cons, List.length_nil] at h4
        exact Nat.lt_of_le_of_ne (Nat.le_of_lt_succ h4) hpn
    have hc : ChildOf c.store p q := by
      obtain ⟨h4, h5, st, h6⟩ := h3
      rw [kids_prefix (add_prefix _ _) hlt] at h6
      have hq : q < c.store.length := Nat.lt_trans (kids_lt h.good.below h6).1 hlt
      rw [tracked_prefix (add_prefix _ _) hlt] at h4
      rw [tracked_prefix (add_prefix _ _) hq] at h5
      exact ⟨h4, h5, st, h6⟩
    refine ⟨h.exact p q hp hc, ?_⟩
    rintro ⟨hx, _⟩
    rcases hR with hR | hR
    · exact hpn (hx.trans hR)
    · exact hp (by rw [hx]; exact hR)

theorem addTree_exactBut {R : List Id} {b : Bool} (t : Tree D b) : ShapedTree t → ∀ c : Ctx D, ExactBut R c →
    ExactBut R (addTree c t).2 := by
  induction t with
  | node k d l ks ih =>
    intro hsh c hc
    have h1 := ih hsh.2 c hc
    have hv : Proper (addTree c ks).2.store (addTree c ks).1 :=
      ⟨(addTree_evolves ks hsh.2 c).2, by rw [steps_eq (addTree_reads ks c)]; exact hsh.1⟩
    have h2 := setNode_exactBut h1 (v := ⟨k, d, l, (addTree c ks).1⟩) hv
      ⟨((addTree c ks).2.store.add ⟨k, d, l, (addTree c ks).1⟩).1, 0, []⟩ (.inl rfl)
    rw [setNode_ctx] at h2
    simpa only [addTree] using h2
  | nil => intro _ c hc; exact hc
  | cons st t rest ih1 ih2 =>
    intro hsh c hc
    exact ih2 hsh.2 _ (ih1 hsh.1 c hc)

end Verif.Imm
