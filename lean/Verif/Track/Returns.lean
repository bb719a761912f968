import Verif.Track.Versions

/-!
# When the names can be updated
-/

namespace Verif.Track

open Verif.Imm

variable {stmt : Kind → Bool} {s s' : Store Info} {x : Id}

theorem put_ok {id : Id} : ∀ {ms : List Mark} {n : Names}, (∃ n', each (Names.put id) n ms = .ok n') ↔ ∀ t, Mark.radio [] t ∉ ms := by
  intro ms
  induction ms with
  | nil => intro n; simp [each]
  | cons m ms ih =>
    intro n
    cases m with
    | «at» sl k =>
      simp only [each, Names.put, List.mem_cons, reduceCtorEq, false_or]
      exact ih
    | radio ws t =>
      cases ws with
      | nil =>
        simp only [each, Names.put, reduceCtorEq, exists_false, false_iff, not_forall]
        exact ⟨t, by simp⟩
      | cons w ws =>
        have : (∀ t', Mark.radio [] t' ∉ Mark.radio (w :: ws) t :: ms) ↔ ∀ t', Mark.radio [] t' ∉ ms := by simp
        rw [this]
        simp only [each, Names.put]
        cases hr : n.radio w with
        | none => dsimp only; exact ih
        | some l =>
          dsimp only
          split <;> rename_i h <;> split at h <;> simp only [Except.ok.injEq, reduceCtorEq] at h
          · subst h; exact ih
          · subst h; exact ih

/-- Entries without words. -/
theorem blank_iff {v : Val Info} (hv : s[x]? = some v) : (∃ t, Mark.radio [] t ∈ marks stmt s x) ↔ ¬ ValWords s v := by
  unfold marks ValWords
  rw [hv]
  dsimp only
  constructor
  · rintro ⟨t, ht⟩
    rcases List.mem_append.mp ht with ht | ht
    · exact absurd ht nameMarks_radio
    · rintro ⟨h1, h2⟩
      split at ht
      · rename_i hk
        simp only [List.mem_append, List.mem_map, reduceCtorEq, and_false, exists_false, false_or, or_false] at ht
        obtain ⟨ws, h3, h4⟩ := ht
        simp only [Mark.radio.injEq] at h4
        exact h1 hk ws h3 h4.1
      · rename_i hk
        rcases List.mem_append.mp ht with ht | ht
        · simp at ht
        · obtain ⟨h3, w, h4, h5, h6⟩ := targetMarks_radio.mp ht
          exact h2 hk t h3 w h4 h5 h6
      · simp at ht
  · intro h
    rw [not_and_or] at h
    rcases h with h | h
    · push_neg at h
      obtain ⟨hk, ws, h1, h2⟩ := h
      subst h2
      refine ⟨x, List.mem_append_right _ ?_⟩
      rw [hk]
      simp [h1]
    · push_neg at h
      obtain ⟨hk, t, h1, w, h2, h3, h4⟩ := h
      refine ⟨t, List.mem_append_right _ ?_⟩
      rw [hk]
      exact List.mem_append_right _ (targetMarks_radio.mpr ⟨h1, w, h2, h3, h4⟩)

theorem add_ok_iff {v : Val Info} (hv : s[x]? = some v) {n : Names} : (∃ n', updateTracking stmt s x true n = .ok n') ↔ ValWords s v := by
  unfold updateTracking
  rw [if_pos rfl, put_ok]
  have := blank_iff (stmt := stmt) hv
  constructor
  · intro h
    by_contra hc
    obtain ⟨t, ht⟩ := this.mpr hc
    exact h t ht
  · intro h t ht
    exact this.mp ⟨t, ht⟩ h

/-! ## Adding a document -/

theorem targets_iff : ∀ (ks : Tree Info false) {kids : List (Step × Id)}, Reads s (b := false) kids ks → (targetsOk ks ↔
    ∀ k ∈ kids, k.1.field = 0 → ∀ w, s[k.2]? = some w → w.kind = .RadioTarget → w.data.words ≠ [])
  | .nil, kids, h => by
    simp only [Reads] at h
    subst h
    simp [targetsOk]
  | .cons st (.node k d l ks) rest, kids, h => by
    obtain ⟨id, tl, rfl, h1, h2⟩ := h
    obtain ⟨v, hv, hk, hd, _⟩ := h1
    simp only [targetsOk, List.mem_cons, forall_eq_or_imp]
    rw [targets_iff rest h2]
    have : (st.field = 0 → k = .RadioTarget → d.words ≠ []) ↔
        (st.field = 0 → ∀ w, s[id]? = some w → w.kind = .RadioTarget → w.data.words ≠ []) := by
      constructor
      · intro h hf w hw hwk
        rw [hv] at hw
        injection hw with hw
        subst hw
        rw [hd]
        exact h hf (hk.symm.trans hwk)
      · intro h hf hkk
        rw [← hd]
        exact h hf v hv (hk.trans hkk)
    rw [this]

theorem valWords_iff {v : Val Info} {ks : Tree Info false} (hr : Reads s (b := false) v.kids ks) : ValWords s v ↔
    (v.kind = .Subtree → ∀ ws ∈ v.data.radioIds, ws ≠ []) ∧ (v.kind = .Paragraph → targetsOk ks) := by
  unfold ValWords
  rw [targets_iff ks hr]
  have : (∀ t ∈ v.subs, ∀ w, s[t]? = some w → w.kind = .RadioTarget → w.data.words ≠ []) ↔
      ∀ k ∈ v.kids, k.1.field = 0 → ∀ w, s[k.2]? = some w → w.kind = .RadioTarget → w.data.words ≠ [] := by
    unfold Val.subs
    constructor
    · intro h k hk hf
      refine h k.2 ?_
      simp only [List.mem_map, List.mem_filter, decide_eq_true_eq]
      exact ⟨k, ⟨hk, hf⟩, rfl⟩
    · intro h t ht
      simp only [List.mem_map, List.mem_filter, decide_eq_true_eq] at ht
      obtain ⟨k, ⟨hk, hf⟩, rfl⟩ := ht
      exact h k hk hf
  rw [this]

theorem addTree_ok_iff {b : Bool} (t : Tree Info b) : ∀ (c : TCtx), ((∃ r, addTree stmt c t = .ok r) ↔ WordsOk t) ∧
    ∀ r, addTree stmt c t = .ok r → (Imm.addTree c.ctx t) = (r.1, r.2.ctx) := by
  induction t with
  | nil =>
    intro c
    refine ⟨by simp [addTree, WordsOk], ?_⟩
    intro r hr
    simp only [addTree, Except.ok.injEq] at hr
    subst hr
    rfl
  | cons st t rest ih1 ih2 =>
    intro c
    obtain ⟨a1, a2⟩ := ih1 c
    simp only [addTree, WordsOk]
    cases h1 : addTree stmt c t with
    | error e =>
      refine ⟨?_, by simp⟩
      rw [h1] at a1
      simp only [reduceCtorEq, exists_false, false_iff] at a1
      simp [a1]
    | ok a =>
      rw [h1] at a1
      have w1 : WordsOk t := a1.mp ⟨_, rfl⟩
      obtain ⟨b1, b2⟩ := ih2 a.2
      dsimp only
      cases h2 : addTree stmt a.2 rest with
      | error e =>
        refine ⟨?_, by simp⟩
        rw [h2] at b1
        simp only [reduceCtorEq, exists_false, false_iff] at b1
        simp [b1]
      | ok b =>
        rw [h2] at b1
        refine ⟨by simp [w1, b1.mp ⟨_, rfl⟩], ?_⟩
        intro r hr
        simp only [Except.ok.injEq] at hr
        subst hr
        have := a2 a h1
        have hb := b2 b h2
        simp only [Imm.addTree]
        rw [this]
        simp only
        rw [hb]
  | node k d l ks ih =>
    intro c
    obtain ⟨a1, a2⟩ := ih c
    simp only [addTree, WordsOk]
    cases h1 : addTree stmt c ks with
    | error e =>
      refine ⟨?_, by simp⟩
      rw [h1] at a1
      simp only [reduceCtorEq, exists_false, false_iff] at a1
      simp [a1]
    | ok a =>
      rw [h1] at a1
      have w1 : WordsOk ks := a1.mp ⟨_, rfl⟩
      have ha := a2 a h1
      dsimp only
      have hr : Reads a.2.ctx.store (b := false) a.1 ks := by
        have := addTree_reads ks c.ctx
        rw [ha] at this
        exact this
      obtain ⟨w, hw1, hw2⟩ := add_val a.2.ctx.store ⟨k, d, l, a.1⟩
      obtain ⟨k1, k2, k3⟩ := same_iff.1 hw2
      simp only at k1 k2 k3
      have hiff := add_ok_iff (stmt := stmt) hw1 (n := a.2.names)
      rw [valWords_iff (ks := ks) (by rw [← k3]; exact reads_mono (add_prefix _ _) hr), ← k1, ← k2] at hiff
      cases h2 : updateTracking stmt (a.2.ctx.store.add ⟨k, d, l, a.1⟩).2 (a.2.ctx.store.add ⟨k, d, l, a.1⟩).1 true a.2.names with
      | error e =>
        rw [h2] at hiff
        refine ⟨?_, by simp⟩
        simp only [reduceCtorEq, exists_false, false_iff] at hiff ⊢
        rintro ⟨g1, g2, _⟩
        exact hiff ⟨g1, g2⟩
      | ok n =>
        rw [h2] at hiff
        obtain ⟨g1, g2⟩ := hiff.mp ⟨_, rfl⟩
        refine ⟨⟨fun _ => ⟨g1, g2, w1⟩, fun _ => ⟨_, rfl⟩⟩, ?_⟩
        intro r hr
        simp only [Except.ok.injEq] at hr
        subst hr
        simp only [Imm.addTree]
        rw [ha]

/-! ## Replacing a node -/

/-- The radio names in their order. -/
def radioKeys (ms : List Mark) : List (Option Text × Id) :=
  ms.filterMap fun m =>
    match m with
    | .radio ws t => some (ws.head?, t)
    | .at _ _ => none

theorem drop_ok {id : Id} : ∀ {ms : List Mark} {n : Names}, (∀ t, Mark.radio [] t ∉ ms) →
    (∀ w ws t, Mark.radio (w :: ws) t ∈ ms → Has n w t) → (radioKeys ms).Nodup → ∃ n', each (Names.drop id) n ms = .ok n' := by
  intro ms
  induction ms with
  | nil => intro n _ _ _; exact ⟨n, rfl⟩
  | cons m ms ih =>
    intro n h1 h2 h3
    have h1' : ∀ t, Mark.radio [] t ∉ ms := fun t ht => h1 t (by simp [ht])
    cases m with
    | «at» sl k =>
      have h3' : (radioKeys ms).Nodup := by simpa [radioKeys] using h3
      simp only [each]
      obtain ⟨n1, hn1, hr⟩ : ∃ n1, Names.drop id n (.at sl k) = .ok n1 ∧ n1.radio = n.radio := by
        cases sl <;> exact ⟨_, rfl, rfl⟩
      rw [hn1]
      dsimp only
      refine ih h1' ?_ h3'
      intro w ws t ht
      have := h2 w ws t (by simp [ht])
      unfold Has at this ⊢
      rw [hr]
      exact this
    | radio ws t =>
      cases ws with
      | nil => exact absurd (by simp) (h1 t)
      | cons w ws =>
        have h3' : (some w, t) ∉ radioKeys ms ∧ (radioKeys ms).Nodup := by simpa [radioKeys] using h3
        obtain ⟨l, hl1, hl2⟩ := h2 w ws t (by simp)
        simp only [each, Names.drop]
        rw [hl1]
        dsimp only
        rw [if_pos hl2]
        dsimp only
        refine ih h1' ?_ h3'.2
        intro w' ws' t' ht'
        obtain ⟨l', hl1', hl2'⟩ := h2 w' ws' t' (by simp [ht'])
        by_cases hw : w' = w
        · subst hw
          rw [hl1] at hl1'
          injection hl1' with hl1'
          subst hl1'
          have hne : t' ≠ t := by
            rintro rfl
            refine h3'.1 ?_
            unfold radioKeys
            rw [List.mem_filterMap]
            exact ⟨_, ht', rfl⟩
          have hm : t' ∈ l.erase t := (List.mem_erase_of_ne hne).mpr hl2'
          have hnn : l.erase t ≠ [] := List.ne_nil_of_mem hm
          exact ⟨l.erase t, by simp [Names.setRadio, hnn], hm⟩
        · exact ⟨l', by simp [Names.setRadio, hw, hl1'], hl2'⟩

theorem radioKeys_at {f : α → Mark} (hf : ∀ a, ∃ sl k, f a = .at sl k) (l : List α) : radioKeys (l.map f) = [] := by
  induction l with
  | nil => rfl
  | cons a l ih =>
    obtain ⟨sl, k, h⟩ := hf a
    simpa [radioKeys, h] using ih

theorem radioKeys_append (a b : List Mark) : radioKeys (a ++ b) = radioKeys a ++ radioKeys b := by simp [radioKeys]

theorem radioKeys_name (v : Val Info) : radioKeys (nameMarks stmt s v) = [] := by
  unfold radioKeys
  rw [List.filterMap_eq_nil_iff]
  intro m hm
  cases m with
  | «at» => rfl
  | radio ws t => exact absurd hm nameMarks_radio

theorem radioKeys_once {v : Val Info} (hv : s[x]? = some v) (h : RadioOnce s v) : (radioKeys (marks stmt s x)).Nodup := by
  unfold marks
  rw [hv]
  dsimp only
  rw [radioKeys_append, radioKeys_name, List.nil_append]
  split
  · rename_i hk
    have h1 := h.1 hk
    rw [radioKeys_append, radioKeys_append, radioKeys_append, radioKeys_at (fun a => ⟨_, _, rfl⟩), radioKeys_at (fun a => ⟨_, _, rfl⟩),
      radioKeys_at (fun a => ⟨_, _, rfl⟩)]
    simp only [List.nil_append, List.append_nil]
    have : radioKeys (v.data.radioIds.map (Mark.radio · x)) = (v.data.radioIds.map (·.head?)).map (fun h => (h, x)) := by
      unfold radioKeys
      rw [List.filterMap_map, List.map_map]
      induction v.data.radioIds with
      | nil => rfl
      | cons a l ih => simpa using ih
    rw [this]
    exact h1.map (fun a b hab => by simpa using hab)
  · rename_i hk
    have h1 := h.2 hk
    rw [radioKeys_append, radioKeys_at (fun a => ⟨_, _, rfl⟩), List.nil_append]
    unfold targetMarks radioKeys
    rw [List.filterMap_filterMap]
    generalize v.subs = subs at h1
    induction subs with
    | nil => simp
    | cons t subs ih =>
      cases hw : s[t]? with
      | none =>
        simp only [List.filter_cons, hw, Option.any_none, Bool.false_eq_true, if_false] at h1
        simp only [List.filterMap_cons, hw, Option.bind_none]
        exact ih h1
      | some w =>
        by_cases hwk : w.kind = .RadioTarget
        · simp only [List.filter_cons, hw, Option.any_some, hwk, decide_true, if_true, List.nodup_cons] at h1
          simp only [List.filterMap_cons, hw, hwk, if_true, Option.bind_some, List.nodup_cons]
          refine ⟨?_, ih h1.2⟩
          intro hm
          refine h1.1 ?_
          rw [List.mem_filterMap] at hm
          obtain ⟨t', ht', he⟩ := hm
          cases hw' : s[t']? with
          | none => rw [hw'] at he; simp at he
          | some w' =>
            rw [hw'] at he
            dsimp only at he
            split at he
            · rename_i hk'
              simp only [Option.bind_some, Option.some.injEq, Prod.mk.injEq] at he
              obtain ⟨-, rfl⟩ := he
              simp [List.mem_filter, ht', hw', hk']
            · simp at he
        · simp only [List.filter_cons, hw, Option.any_some, hwk, decide_false, Bool.false_eq_true, if_false] at h1
          simp only [List.filterMap_cons, hw, hwk, if_false, Option.bind_none]
          exact ih h1
  · simp [radioKeys]

theorem runs_has {w : Text} {t : Id} : ∀ {E : List Ev} {n n' : Names}, runs stmt s E n = .ok n' → (∀ e ∈ E, e.1 = none) →
    (Has n w t ∨ ∃ e ∈ E, Named stmt s e.2 (.radio w t)) → Has n' w t := by
  intro E n n' h hn hs
  refine runs_found (x := 0) (key := .radio w t) h (by simp) ?_ hs
  intro e he o ho
  rw [hn e he] at ho
  cases ho

theorem edit_ok {c : TCtx} {roots : List Id} (h : Adds stmt c roots) {r : Id} (hr : r ∈ roots) {target : Uniq} {v0 v : Val Info}
    (hx : InDoc c.ctx.store r target.id) (hv0 : c.ctx.store[target.id]? = some v0) (honce : RadioOnce c.ctx.store v0)
    (hw : ValWords c.ctx.store v) (hk : ∀ k ∈ v.kids, k.2 < c.ctx.store.length) : ∃ r, setNode stmt c target v = .ok r := by
  obtain ⟨hg, hl, E, e1, e2, e3, e4⟩ := adds_post h
  have hpre := add_prefix c.ctx.store v
  have hlt : target.id < c.ctx.store.length := stored_lt hv0
  unfold setNode
  dsimp only
  rw [updateTracking_mono hg.below hpre hlt]
  obtain ⟨e, he, hex⟩ := (e4 target.id).mp ⟨r, hr, hx⟩
  have hdrop : ∃ n1, updateTracking stmt c.ctx.store target.id false c.names = .ok n1 := by
    unfold updateTracking
    rw [if_neg (by simp)]
    refine drop_ok ?_ ?_ (radioKeys_once hv0 honce)
    · -- the node was added, so its radio targets have words
      have key : ∀ {E : List Ev} {n n' : Names}, runs stmt c.ctx.store E n = .ok n' → (∀ e ∈ E, e.1 = none) → e ∈ E →
          ∃ m m', updateTracking stmt c.ctx.store e.2 true m = .ok m' := by
        intro E
        induction E with
        | nil => intro n n' _ _ h; simp at h
        | cons a es ih =>
          intro n n' h hn hm
          simp only [runs] at h
          cases ho : occur stmt c.ctx.store a n with
          | error e => rw [ho] at h; simp at h
          | ok n1 =>
            rw [ho] at h
            rcases List.mem_cons.mp hm with rfl | hm
            · unfold occur at ho
              rw [hn e (by simp)] at ho
              exact ⟨_, _, ho⟩
            · exact ih h (fun e he => hn e (by simp [he])) hm
      obtain ⟨m, m', hm⟩ := key e2 e3 he
      rw [hex] at hm
      unfold updateTracking at hm
      rw [if_pos rfl] at hm
      exact put_ok.mp ⟨_, hm⟩
    · intro w ws t ht
      refine runs_has e2 e3 (.inr ⟨e, he, ?_⟩)
      rw [hex]
      exact marks_radio.mp ⟨ws, ht⟩
  obtain ⟨n1, hn1⟩ := hdrop
  rw [hn1]
  dsimp only
  obtain ⟨w, hw1, hw2⟩ := add_val c.ctx.store v
  obtain ⟨k1, k2, k3⟩ := same_iff.1 hw2
  have hword : ValWords (c.ctx.store.add v).2 w := by
    unfold ValWords Val.subs at hw ⊢
    rw [← k1, ← k2, ← k3]
    refine ⟨hw.1, fun hp t ht u hu => hw.2 hp t ht u ?_⟩
    simp only [List.mem_map, List.mem_filter, decide_eq_true_eq] at ht
    obtain ⟨kk, ⟨hkk, _⟩, rfl⟩ := ht
    obtain ⟨rest, hrest⟩ := hpre
    rw [← hrest, List.getElem?_append_left (hk kk hkk)] at hu
    exact hu
  obtain ⟨n2, hn2⟩ := (add_ok_iff (stmt := stmt) hw1 (n := n1)).mpr hword
  rw [hn2]
  exact ⟨_, rfl⟩

end Verif.Track
