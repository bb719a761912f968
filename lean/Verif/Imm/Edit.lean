import Verif.Imm.Evolve
import Mathlib.Data.List.Basic
import Mathlib.Data.List.InsertIdx

/-! # Edits of the subnodes of a node -/

namespace Verif.Imm

variable {D : Type} [DecidableEq D]

theorem setSubs_subs (v : Val D) (ids : List Id) : (v.setSubs ids).subs = ids := by
  simp only [Val.subs, Val.setSubs, List.filter_append, List.filter_filter]
  have h1 : (number ids).filter (fun k => decide (k.1.field = 0)) = number ids := by
    rw [List.filter_eq_self]
    intro k hk
    simp only [number] at hk
    obtain ⟨i, hi, rfl⟩ := List.mem_mapIdx.1 hk
    rfl
  have h2 : v.kids.filter (fun k => decide (k.1.field = 0) && decide (k.1.field ≠ 0)) = [] := by
    rw [List.filter_eq_nil_iff]
    intro k _
    simp
  rw [h1, h2, List.append_nil]
  refine List.ext_getElem (by simp [number]) ?_
  intro n h1 h2
  simp [number]

theorem setSubs_rest (v : Val D) (ids : List Id) : (v.setSubs ids).kids.filter (fun k => decide (k.1.field ≠ 0))
    = v.kids.filter (fun k => decide (k.1.field ≠ 0)) := by
  simp only [Val.setSubs, List.filter_append, List.filter_filter]
  have h1 : (number ids).filter (fun k => decide (k.1.field ≠ 0)) = [] := by
    rw [List.filter_eq_nil_iff]
    intro k hk
    simp only [number] at hk
    obtain ⟨i, hi, rfl⟩ := List.mem_mapIdx.1 hk
    simp [subStep]
  rw [h1]
  simp

/-- The subnodes are the first children. -/
theorem shaped_subs {v : Val D} (hv : Shaped (v.kids.map (·.1))) : (v.setSubs v.subs).kids = v.kids := by
  have key : ∀ (l : List (Step × Id)), (l.map (·.1)).Pairwise (fun a b => a.field ≤ b.field) →
      l.filter (fun k => decide (k.1.field = 0)) ++ l.filter (fun k => decide (k.1.field ≠ 0)) = l := by
    intro l
    induction l with
    | nil => intro _; rfl
    | cons k l ih =>
      intro h
      rw [List.map_cons, List.pairwise_cons] at h
      by_cases hk : k.1.field = 0
      · rw [List.filter_cons_of_pos (by simpa using hk), List.filter_cons_of_neg (by simpa using hk), List.cons_append, ih h.2]
      · rw [List.filter_cons_of_neg (by simpa using hk), List.filter_cons_of_pos (by simpa using hk)]
        have : l.filter (fun k => decide (k.1.field = 0)) = [] := by
          rw [List.filter_eq_nil_iff]
          intro x hx
          have := h.1 x.1 (List.mem_map_of_mem hx)
          simp only [decide_eq_true_eq]
          omega
        rw [this] at ih ⊢
        have := ih h.2
        rw [List.nil_append] at this ⊢
        rw [this]
  simp only [Val.setSubs]
  conv_rhs => rw [← key v.kids hv.order]
  congr 1
  have h0 := hv.fields 0
  rw [← filter_map_fst] at h0
  have hidx : (v.kids.filter (fun k => decide (k.1.field = 0))).map (·.1)
      = (List.range (v.kids.filter (fun k => decide (k.1.field = 0))).length).map (fun i => (⟨0, .idx i⟩ : Step)) := by
    rcases h0 with h | h | h
    · rw [List.length_map] at h; exact h
    · have hm : (⟨0, .deref⟩ : Step) ∈ (v.kids.filter (fun k => decide (k.1.field = 0))).map (·.1) := by rw [h]; simp
      rw [filter_map_fst] at hm
      obtain ⟨i, hi⟩ := hv.subs _ (List.mem_of_mem_filter hm) rfl
      simp at hi
    · cases hl : v.kids.filter (fun k => decide (k.1.field = 0)) with
      | nil => rfl
      | cons k ks =>
        have hm : k.1 ∈ (v.kids.filter (fun k => decide (k.1.field = 0))).map (·.1) := by rw [hl]; simp
        obtain ⟨s, hs⟩ := h.2 _ hm
        rw [filter_map_fst] at hm
        obtain ⟨i, hi⟩ := hv.subs _ (List.mem_of_mem_filter hm) (by rw [hs])
        rw [hs] at hi
        simp at hi
  refine List.ext_getElem (by simp [number, Val.subs]) ?_
  intro n h1 h2
  have := congrArg (fun l => l[n]?) hidx
  simp only [List.getElem?_map, List.getElem?_range h2, List.getElem?_eq_getElem h2, Option.map_some, Option.some.injEq] at this
  simp only [number, List.getElem_mapIdx, Val.subs, List.getElem_map, subStep]
  exact Prod.ext this.symm rfl

/-- Setting the subnodes: a replacement if the list changes, an exception otherwise. -/
theorem setSubnodes_ok {c : Ctx D} (hg : Good c.store) {node : Uniq} (hn : node.id < c.store.length) (ids : List Id) :
    (ids ≠ c.store.subs node.id → ∃ r c', setSubnodes c node ids = .ok (r, c') ∧ Edited c c' node ids r) ∧
    (ids = c.store.subs node.id → setSubnodes c node ids = .error .throws) := by
  have hv : c.store[node.id]? = some c.store[node.id] := List.getElem?_eq_getElem hn
  generalize c.store[node.id] = v at hv
  have hsub : c.store.subs node.id = v.subs := by unfold Store.subs; rw [hv]
  have hpre : (c.store.add (v.setSubs ids)).2[node.id]? = some v := getElem?_prefix (add_prefix _ _) hv
  have hint := add_interned hg.interned (v.setSubs ids)
  obtain ⟨w, hw1, hw2⟩ := add_val c.store (v.setSubs ids)
  constructor
  · intro hne
    have hid : (c.store.add (v.setSubs ids)).1 ≠ node.id := by
      intro he
      rw [he, hpre] at hw1
      injection hw1 with hw1
      subst hw1
      have := (same_iff.1 hw2).2.2
      apply hne
      rw [hsub, ← setSubs_subs v ids]
      unfold Val.subs
      rw [this]
    unfold setSubnodes
    rw [hv]
    simp only
    have hst := setNode_store c node (v.setSubs ids)
    unfold setNode at hst ⊢
    simp only at hst ⊢
    rw [if_neg hid] at hst ⊢
    obtain ⟨k1, k2, k3⟩ := same_iff.1 hw2
    refine ⟨_, _, rfl, rfl, rfl, rfl, hid, v, w, hv, ?_, k1.symm, k2.symm, ?_, ?_⟩
    · simp only at hst ⊢
      rw [hst]
      exact hw1
    · unfold Val.subs
      rw [← k3]
      exact setSubs_subs v ids
    · rw [← k3]
      exact setSubs_rest v ids
  · intro he
    have hid : (c.store.add (v.setSubs ids)).1 = node.id := by
      refine hint _ _ _ _ hw1 hpre ?_
      refine same_trans (same_symm hw2) ?_
      rw [same_iff]
      refine ⟨rfl, rfl, ?_⟩
      rw [he, hsub]
      exact shaped_subs (hg.shaped _ v hv)
    unfold setSubnodes
    rw [hv]
    simp only
    unfold setNode
    simp only
    rw [if_pos hid]

theorem insertIdx_take (l : List Id) (x : Id) (n : Nat) (h : n ≤ l.length) : l.insertIdx n x = l.take n ++ x :: l.drop n := by
  induction l generalizing n with
  | nil =>
    have : n = 0 := by simpa using h
    subst this
    rfl
  | cons a l ih =>
    cases n with
    | zero => rfl
    | succ n =>
      simp only [List.insertIdx_succ_cons, List.take_succ_cons, List.drop_succ_cons, List.cons_append]
      rw [ih n (by simpa using h)]

theorem eraseIdx_idxOf (l : List Id) (x : Id) (h : x ∈ l) : l.eraseIdx (l.idxOf x)
    = l.takeWhile (· ≠ x) ++ (l.dropWhile (· ≠ x)).tail := by
  induction l with
  | nil => simp at h
  | cons a l ih =>
    by_cases ha : a = x
    · subst ha
      simp
    · have hx : x ∈ l := by
        rcases List.mem_cons.1 h with h | h
        · exact absurd h.symm ha
        · exact h
      rw [List.idxOf_cons_ne _ ha, List.eraseIdx_cons_succ, ih hx]
      simp [ha]

theorem swap_mapIdx (l : List Id) (i j : Nat) (a b : Id) (ha : l[i]? = some a) (hb : l[j]? = some b) (hij : i ≠ j) :
    (l.set i b).set j a = l.mapIdx (fun n x => if (n : Int) = (i : Int) then l.getD j x else if (n : Int) = (j : Int) then l.getD i x else x) := by
  refine List.ext_getElem (by simp) ?_
  intro n h1 h2
  rw [List.getElem_mapIdx, List.getElem_set, List.getElem_set]
  have hga : ∀ x, l.getD i x = a := by intro x; rw [List.getD_eq_getElem?_getD, ha]; rfl
  have hgb : ∀ x, l.getD j x = b := by intro x; rw [List.getD_eq_getElem?_getD, hb]; rfl
  rw [hga, hgb]
  by_cases hni : n = i
  · subst hni
    rw [if_neg (fun h => hij h.symm), if_pos rfl, if_pos rfl]
  · by_cases hnj : n = j
    · subst hnj
      rw [if_pos rfl, if_neg (by omega), if_pos rfl]
    · rw [if_neg (fun h => hnj h.symm), if_neg (fun h => hni h.symm), if_neg (by omega), if_neg (by omega)]

/-- What an edit does, in terms of setting the subnodes. -/
theorem run_eq {c : Ctx D} {node : Uniq} (op : EditOp) :
    match op.result (c.store.subs node.id) with
    | some ids =>
      op.run c node = (setSubnodes c node ids).map (fun r => (some r.1, r.2)) ∨
      (ids = c.store.subs node.id ∧ op.run c node = .ok (none, c))
    | none => ∃ e, op.run c node = .error e := by
  generalize hl : c.store.subs node.id = l
  cases op with
  | set x pos =>
    simp only [EditOp.result, EditOp.run, setSubnode, hl]
    by_cases h : 0 ≤ pos ∧ pos < l.length
    · rw [if_pos h, if_pos h]
      left
      rw [List.set_eq_take_append_cons_drop, if_pos (by omega)]
    · rw [if_neg h, if_neg h]
      exact ⟨_, rfl⟩
  | insert x pos =>
    simp only [EditOp.result, EditOp.run, insertSubnode, hl]
    by_cases h : 0 ≤ pos ∧ pos ≤ l.length
    · rw [if_pos h, if_pos h]
      left
      rw [insertIdx_take _ _ _ (by omega)]
    · rw [if_neg h, if_neg h]
      exact ⟨_, rfl⟩
  | insertMany xs pos =>
    simp only [EditOp.result, EditOp.run, insertSubnodes, hl]
    by_cases h : 0 ≤ pos
    · by_cases h' : pos ≤ l.length
      · rw [if_pos ⟨h, h'⟩, if_pos h, if_pos h']
        left
        rfl
      · rw [if_neg (fun hx => h' hx.2), if_pos h, if_neg h']
        exact ⟨_, rfl⟩
    · rw [if_neg (fun hx => h hx.1), if_neg h]
      exact ⟨_, rfl⟩
  | append x =>
    simp only [EditOp.result, EditOp.run, appendSubnode, insertSubnode, hl]
    rw [if_pos ⟨by omega, by omega⟩]
    left
    rw [insertIdx_take _ _ _ (by omega)]
    simp
  | drop pos =>
    simp only [EditOp.result, EditOp.run, dropSubnode, hl]
    by_cases h : 0 ≤ pos ∧ pos < l.length
    · rw [if_pos h, if_pos h]
      left
      rw [List.eraseIdx_eq_take_drop_succ]
    · rw [if_neg h, if_neg h]
      exact ⟨_, rfl⟩
  | dropId x =>
    simp only [EditOp.result, EditOp.run, dropSubnodeId, dropSubnode, hl]
    by_cases h : x ∈ l
    · rw [if_pos h, if_pos h]
      left
      have := List.idxOf_lt_length_of_mem h
      rw [if_pos ⟨by omega, by omega⟩]
      have e : ((l.idxOf x : Nat) : Int).toNat = l.idxOf x := by simp
      rw [e, eraseIdx_idxOf l x h]
    · rw [if_neg h, if_neg h]
      exact ⟨_, rfl⟩
  | pop pos =>
    simp only [EditOp.result, EditOp.run, popSubnode, dropSubnode, hl]
    by_cases h : 0 ≤ pos ∧ pos < l.length
    · rw [if_pos h, if_pos h.1]
      left
      have hlt : pos.toNat < l.length := by omega
      rw [List.getElem?_eq_getElem hlt]
      simp only
      rw [if_pos h, List.eraseIdx_eq_take_drop_succ]
      cases setSubnodes c node (l.take pos.toNat ++ l.drop (pos.toNat + 1)) <;> rfl
    · rw [if_neg h]
      by_cases h0 : 0 ≤ pos
      · rw [if_pos h0, List.getElem?_eq_none (by omega)]
        exact ⟨_, rfl⟩
      · rw [if_neg h0]
        exact ⟨_, rfl⟩
  | move pos off bounded =>
    simp only [EditOp.result, EditOp.run, moveSubnode, hl]
    by_cases h : 0 ≤ pos ∧ pos < l.length
    · rw [if_pos h]
      by_cases hb : bounded = true ∧ ¬ (0 ≤ pos + off ∧ pos + off < l.length)
      · rw [if_pos hb, if_neg (fun hx => hb.2 (hx.2.2 hb.1))]
        exact ⟨_, rfl⟩
      · rw [if_neg hb, if_pos ⟨h.1, h.2, fun hx => by
          by_contra hc
          exact hb ⟨hx, hc⟩⟩]
        have hlt : pos.toNat < l.length := by omega
        have hone : (l.drop pos.toNat).take 1 = [l[pos.toNat]] := by
          rw [List.drop_eq_getElem_cons hlt, List.take_succ_cons, List.take_zero]
        have hlen : (l.take pos.toNat ++ l.drop (pos.toNat + 1)).length = l.length - 1 := by
          simp only [List.length_append, List.length_take, List.length_drop]
          omega
        by_cases ht : max 0 (min (pos + off) ((l.length : Int) - 1)) = pos
        · rw [if_pos ht]
          right
          refine ⟨?_, rfl⟩
          rw [ht, hone, List.take_left' (by simp; omega), List.drop_left' (by simp; omega)]
          rw [List.append_assoc, List.singleton_append, ← List.drop_eq_getElem_cons hlt, List.take_append_drop]
        · rw [if_neg ht, List.getElem?_eq_getElem hlt]
          left
          simp only
          rw [insertIdx_take _ _ _ (by rw [List.eraseIdx_eq_take_drop_succ, hlen]; omega), List.eraseIdx_eq_take_drop_succ,
            hone, List.append_assoc, List.singleton_append]
          cases setSubnodes c node _ <;> rfl
    · rw [if_neg h, if_neg (fun hx => h ⟨hx.1, hx.2.1⟩)]
      exact ⟨_, rfl⟩
  | swap i j =>
    simp only [EditOp.result, EditOp.run, swapSubnode, hl]
    by_cases hij : i = j
    · rw [if_pos hij, if_neg (fun h => h.2.2.2.2 hij)]
      exact ⟨_, rfl⟩
    · rw [if_neg hij]
      by_cases hj : 0 ≤ j
      · rw [if_pos hj]
        by_cases hj' : j < l.length
        · have hjl : j.toNat < l.length := by omega
          rw [List.getElem?_eq_getElem hjl]
          simp only
          by_cases hi : 0 ≤ i
          · rw [if_pos hi]
            by_cases hi' : i < l.length
            · have hil : i.toNat < l.length := by omega
              rw [if_pos ⟨hi, hi', hj, hj', hij⟩, List.getElem?_eq_getElem hil]
              simp only
              left
              rw [swap_mapIdx l i.toNat j.toNat _ _ (List.getElem?_eq_getElem hil) (List.getElem?_eq_getElem hjl) (by omega),
                Int.toNat_of_nonneg hi, Int.toNat_of_nonneg hj]
            · rw [if_neg (fun h => hi' h.2.1), List.getElem?_eq_none (by omega)]
              exact ⟨_, rfl⟩
          · rw [if_neg hi, if_neg (fun h => hi h.1)]
            exact ⟨_, rfl⟩
        · rw [if_neg (fun h => hj' h.2.2.2.1), List.getElem?_eq_none (by omega)]
          exact ⟨_, rfl⟩
      · rw [if_neg hj, if_neg (fun h => hj h.2.2.1)]
        exact ⟨_, rfl⟩

end Verif.Imm
