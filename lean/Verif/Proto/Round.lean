import Verif.Proto.Message

/-! # Values: what was written is read back -/

namespace Verif.Proto

theorem any_nodes : ∀ t ∈ anyTable.map (·.2), isNode t = true ∧ t ∉ abstract := by decide +kernel

theorem abstract_nodes : ∀ t ∈ abstract, isNode t = true := by decide +kernel

theorem any_types : (anyTable.map (·.2)).Nodup := by decide +kernel

theorem any_fields : (anyTable.map (·.1)).Nodup := by decide +kernel

theorem find_snd {α β : Type} [DecidableEq β] (l : List (α × β)) (b : β) (h : b ∈ l.map (·.2)) :
    ∃ a, (l.find? fun e => decide (e.2 = b)) = some (a, b) ∧ (a, b) ∈ l := by
  induction l with
  | nil => simp at h
  | cons e l ih =>
    obtain ⟨a, b'⟩ := e
    rw [List.find?_cons]
    by_cases hb : b' = b
    · subst hb
      exact ⟨a, by simp, by simp⟩
    · simp only [List.map_cons, List.mem_cons] at h
      obtain ⟨a', h1, h2⟩ := ih (h.resolve_left fun e => hb e.symm)
      exact ⟨a', by simp [hb, h1], by simp [h2]⟩

theorem find_fst {α β : Type} [DecidableEq α] (l : List (α × β)) (hd : (l.map (·.1)).Nodup) (a : α) (b : β) (h : (a, b) ∈ l) :
    (l.find? fun e => decide (e.1 = a)) = some (a, b) := by
  induction l with
  | nil => simp at h
  | cons e l ih =>
    obtain ⟨a', b'⟩ := e
    rw [List.map_cons, List.nodup_cons] at hd
    rw [List.find?_cons]
    rcases List.mem_cons.1 h with e | h
    · injection e with e1 e2
      subst e1 e2
      simp
    · have : a' ≠ a := by
        intro e
        subst e
        exact hd.1 (List.mem_map.2 ⟨_, h, rfl⟩)
      simp [this, ih hd.2 h]

theorem finite_max {α : Type} (l : List α) (P : α → Nat → Prop) (h : ∀ a ∈ l, ∃ n0, ∀ n, n0 ≤ n → P a n) :
    ∃ N, ∀ a ∈ l, ∀ n, N ≤ n → P a n := by
  induction l with
  | nil => exact ⟨0, by simp⟩
  | cons a l ih =>
    obtain ⟨n0, h0⟩ := h a (by simp)
    obtain ⟨N, hN⟩ := ih fun b hb => h b (by simp [hb])
    refine ⟨max n0 N, ?_⟩
    intro b hb n hn
    rcases List.mem_cons.1 hb with e | hb
    · subst e
      exact h0 n (by omega)
    · exact hN b hb n (by omega)

theorem members_max (t : Ty) (fs : List (Fld × Val)) (P : FTy → Val → Nat → Prop)
    (h : ∀ f ty v, (f, ty) ∈ allMembers t → (f, v) ∈ fs → ∃ n0, ∀ n, n0 ≤ n → P ty v n) :
    ∃ N, ∀ n, N ≤ n → ∀ f ty v, (f, ty) ∈ allMembers t → (f, v) ∈ fs → P ty v n := by
  obtain ⟨N, hN⟩ := finite_max (allMembers t) (fun m n => ∀ v, (m.1, v) ∈ fs → P m.2 v n) (by
    intro m hm
    obtain ⟨N, hN⟩ := finite_max fs (fun e n => e.1 = m.1 → P m.2 e.2 n) (by
      intro e he
      by_cases hk : e.1 = m.1
      · obtain ⟨n0, h0⟩ := h m.1 m.2 e.2 hm (by rw [← hk]; exact he)
        exact ⟨n0, fun n hn _ => h0 n hn⟩
      · exact ⟨0, fun n _ e => absurd e hk⟩)
    exact ⟨N, fun n hn v hv => hN (m.1, v) hv n hn rfl⟩)
  exact ⟨N, fun n hn f ty v hm hv => hN (f, ty) hm n hn v hv⟩

theorem not_nil (nils : Bool) (c : Codec) (v : Val) (h : Has nils (.one c) v) : v ≠ .nil := by
  cases h <;> simp

/-- Every value of a declared type without nil nodes survives, whatever (large enough) bound is used. -/
theorem round (ty : FTy) (v : Val) (h : Has false ty v) :
    ∃ n0, ∀ n, n0 ≤ n → Good (writeN n) (readN n) ty v := by
  induction h with
  | num k =>
    refine ⟨1, fun n hn => ?_⟩
    obtain ⟨m, rfl⟩ : ∃ m, n = m + 1 := ⟨n - 1, by omega⟩
    exact ⟨.num k, rfl, rfl⟩
  | str s =>
    refine ⟨1, fun n hn => ?_⟩
    obtain ⟨m, rfl⟩ : ∃ m, n = m + 1 := ⟨n - 1, by omega⟩
    exact ⟨.str s, rfl, rfl⟩
  | msg t fs ht hn _ ih =>
    obtain ⟨N, hN⟩ := members_max t fs _ ih
    refine ⟨N + 1, fun n hn' => ?_⟩
    obtain ⟨m, rfl⟩ : ∃ m, n = m + 1 := ⟨n - 1, by omega⟩
    have hok := (tables_ok t).resolve_left fun ha => by
      rw [abstract_nodes t ha] at ht
      cases ht
    obtain ⟨x, h1, h2⟩ := msg_good (writeN m) (readN m) t hok fs hn (hN m (by omega))
    refine ⟨.msg x, h1, ?_⟩
    simp only [readN, h2, bind, Except.bind]
    rw [unlocated, unlocatedT, if_neg (by simp [ht])]
  | node t fs ht hn _ ih =>
    obtain ⟨N, hN⟩ := members_max t fs _ ih
    refine ⟨N + 1, fun n hn' => ?_⟩
    obtain ⟨m, rfl⟩ : ∃ m, n = m + 1 := ⟨n - 1, by omega⟩
    obtain ⟨hnode, hab⟩ := any_nodes t ht
    have hok := (tables_ok t).resolve_left hab
    obtain ⟨x, h1, h2⟩ := msg_good (writeN m) (readN m) t hok fs hn (hN m (by omega))
    refine ⟨.msg x, ?_, ?_⟩
    · simp only [writeN, if_true]
      exact h1
    · simp only [readN, h2, bind, Except.bind]
      rw [unlocated, unlocatedT, if_pos hnode]
  | any t fs ht hn _ ih =>
    obtain ⟨N, hN⟩ := members_max t fs _ ih
    refine ⟨N + 1, fun n hn' => ?_⟩
    obtain ⟨m, rfl⟩ : ∃ m, n = m + 1 := ⟨n - 1, by omega⟩
    obtain ⟨hnode, hab⟩ := any_nodes t ht
    have hok := (tables_ok t).resolve_left hab
    obtain ⟨x, h1, h2⟩ := msg_good (writeN m) (readN m) t hok fs hn (hN m (by omega))
    obtain ⟨q, h3, h4⟩ := find_snd anyTable t ht
    refine ⟨.msg [(q, .msg x)], ?_, ?_⟩
    · simp only [writeN, h3, h1, bind, Except.bind]
    · simp only [readN, oneof, find_fst anyTable any_fields q t h4, h2, bind, Except.bind]
      rw [unlocated, unlocatedT, if_pos hnode]
  | none c => exact ⟨0, fun n _ => Or.inl rfl⟩
  | some c v _ ih =>
    obtain ⟨n0, h0⟩ := ih
    exact ⟨n0, fun n hn => Or.inr ⟨v, rfl, h0 n hn⟩⟩
  | vec c l _ ih =>
    obtain ⟨N, hN⟩ := finite_max l _ ih
    exact ⟨N, fun n hn => ⟨l, rfl, fun u hu => hN u hu n hn⟩⟩
  | map c l hd _ ih =>
    obtain ⟨N, hN⟩ := finite_max l (fun e n => Good (writeN n) (readN n) (.one c) e.2) fun e he => ih e.1 e.2 he
    exact ⟨N, fun n hn => ⟨l, rfl, hd, fun k u hu => hN (k, u) hu n hn⟩⟩
  | alt l i c v hc _ ih =>
    obtain ⟨n0, h0⟩ := ih
    exact ⟨n0, fun n hn => ⟨i, v, c, rfl, hc, h0 n hn⟩⟩
  | ref c v hv ih =>
    obtain ⟨n0, h0⟩ := ih
    exact ⟨n0, fun n hn => ⟨not_nil false c v hv, h0 n hn⟩⟩
  | nil c h => cases h

end Verif.Proto
