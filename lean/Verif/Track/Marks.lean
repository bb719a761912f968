import Verif.Track.Spec
import Verif.Imm.Evolve

/-!
# The entries of a node, and what an update does
-/

namespace Verif.Track

open Verif.Imm

variable {stmt : Kind → Bool} {s s' : Store Info} {x : Id}

/-! ## Entries are names -/

theorem nameMarks_at {v : Val Info} {sl : Slot} {k : Text} : Mark.at sl k ∈ nameMarks stmt s v ↔
    sl = .name ∧ stmt v.kind = true ∧ ∃ st a w, (st, a) ∈ v.kids ∧ st.field = 1 ∧ s[a]? = some w ∧ w.kind = cmdName ∧ w.data.name = k := by
  unfold nameMarks
  by_cases hs : stmt v.kind = true
  · rw [if_pos hs, List.mem_filterMap]
    constructor
    · rintro ⟨⟨st, a⟩, hm, he⟩
      simp only [List.mem_filter, decide_eq_true_eq] at hm
      dsimp only at he
      cases hw : s[a]? with
      | none => rw [hw] at he; simp at he
      | some w =>
        rw [hw] at he
        dsimp only at he
        by_cases hk : w.kind = cmdName
        · rw [if_pos hk] at he
          simp only [Option.some.injEq, Mark.at.injEq] at he
          exact ⟨he.1.symm, hs, st, a, w, hm.1, hm.2, hw, hk, he.2⟩
        · rw [if_neg hk] at he; simp at he
    · rintro ⟨rfl, -, st, a, w, hm, hf, hw, hk, rfl⟩
      refine ⟨(st, a), by simp [hm, hf], ?_⟩
      dsimp only
      rw [hw]
      simp [hk]
  · rw [if_neg hs]
    simp [hs]

theorem nameMarks_radio {v : Val Info} {ws : List Text} {t : Id} : Mark.radio ws t ∉ nameMarks stmt s v := by
  unfold nameMarks
  split
  · intro h
    rw [List.mem_filterMap] at h
    obtain ⟨⟨st, a⟩, -, he⟩ := h
    dsimp only at he
    split at he
    · split at he <;> simp at he
    · simp at he
  · simp

theorem targetMarks_at {v : Val Info} {sl : Slot} {k : Text} : Mark.at sl k ∉ targetMarks s v := by
  unfold targetMarks
  intro h
  rw [List.mem_filterMap] at h
  obtain ⟨a, -, he⟩ := h
  split at he
  · split at he <;> simp at he
  · simp at he

theorem targetMarks_radio {v : Val Info} {ws : List Text} {t : Id} : Mark.radio ws t ∈ targetMarks s v ↔
    t ∈ v.subs ∧ ∃ w, s[t]? = some w ∧ w.kind = .RadioTarget ∧ w.data.words = ws := by
  unfold targetMarks
  rw [List.mem_filterMap]
  constructor
  · rintro ⟨a, ha, he⟩
    cases hw : s[a]? with
    | none => rw [hw] at he; simp at he
    | some w =>
      rw [hw] at he
      dsimp only at he
      by_cases hk : w.kind = .RadioTarget
      · rw [if_pos hk] at he
        simp only [Option.some.injEq, Mark.radio.injEq] at he
        obtain ⟨h1, rfl⟩ := he
        exact ⟨ha, w, hw, hk, h1⟩
      · rw [if_neg hk] at he; simp at he
  · rintro ⟨ha, w, hw, hk, rfl⟩
    exact ⟨t, ha, by rw [hw]; simp [hk]⟩

theorem footnoteOf_some {v : Val Info} {k : Text} : footnoteOf s v = some k ↔
    ∃ l w, v.subs.head? = some l ∧ s[l]? = some w ∧ w.kind = link ∧ w.data.footnote = some k := by
  unfold footnoteOf
  constructor
  · intro h
    cases hl : v.subs.head? with
    | none => rw [hl] at h; simp at h
    | some l =>
      rw [hl] at h
      dsimp only at h
      cases hw : s[l]? with
      | none => rw [hw] at h; simp at h
      | some w =>
        rw [hw] at h
        dsimp only at h
        by_cases hk : w.kind = link
        · rw [if_pos hk] at h
          exact ⟨l, w, rfl, hw, hk, h⟩
        · rw [if_neg hk] at h; simp at h
  · rintro ⟨l, w, hl, hw, hk, hf⟩
    rw [hl]
    dsimp only
    rw [hw]
    simp [hk, hf]

theorem marks_at {sl : Slot} {k : Text} : Mark.at sl k ∈ marks stmt s x ↔ Named stmt s x (.slot sl k) := by
  unfold marks
  constructor
  · intro h
    cases hv : s[x]? with
    | none => rw [hv] at h; simp at h
    | some v =>
      rw [hv] at h
      dsimp only at h
      rw [List.mem_append] at h
      rcases h with h | h
      · obtain ⟨rfl, h1, st, a, w, h2, h3, h4, h5, rfl⟩ := nameMarks_at.mp h
        exact .name hv h1 h2 h3 h4 h5
      · split at h
        · rename_i hk
          simp only [List.mem_append, List.mem_map, Option.mem_toList] at h
          rcases h with ((⟨k', hk', he⟩ | ⟨k', hk', he⟩) | ⟨k', hk', he⟩) | ⟨k', hk', he⟩
          · cases he; exact .subtree hv hk hk'
          · cases he; exact .customId hv hk hk'
          · cases he
          · cases he; exact .hashtag hv hk hk'
        · rename_i hk
          rw [List.mem_append] at h
          rcases h with h | h
          · simp only [List.mem_map, Option.mem_toList] at h
            obtain ⟨k', hk', he⟩ := h
            cases he
            obtain ⟨l, w, h1, h2, h3, h4⟩ := footnoteOf_some.mp hk'
            exact .footnote hv hk h1 h2 h3 h4
          · exact absurd h targetMarks_at
        · simp at h
  · intro h
    cases h with
    | subtree hv hk h => rw [hv]; simp [hk, h]
    | customId hv hk h => rw [hv]; simp [hk, h]
    | hashtag hv hk h => rw [hv]; simp [hk, h]
    | footnote hv hk h1 h2 h3 h4 =>
      rw [hv]
      simp [hk, footnoteOf_some.mpr ⟨_, _, h1, h2, h3, h4⟩]
    | name hv h1 h2 h3 h4 h5 =>
      rw [hv]
      dsimp only
      rw [List.mem_append]
      exact .inl (nameMarks_at.mpr ⟨rfl, h1, _, _, _, h2, h3, h4, h5, rfl⟩)

theorem marks_radio {w : Text} {t : Id} : (∃ ws, Mark.radio (w :: ws) t ∈ marks stmt s x) ↔ Named stmt s x (.radio w t) := by
  unfold marks
  constructor
  · rintro ⟨ws, h⟩
    cases hv : s[x]? with
    | none => rw [hv] at h; simp at h
    | some v =>
      rw [hv] at h
      dsimp only at h
      rw [List.mem_append] at h
      rcases h with h | h
      · exact absurd h nameMarks_radio
      · split at h
        · rename_i hk
          simp only [List.mem_append, List.mem_map, Option.mem_toList] at h
          rcases h with ((⟨k', hk', he⟩ | ⟨k', hk', he⟩) | ⟨k', hk', he⟩) | ⟨k', hk', he⟩
          · cases he
          · cases he
          · cases he; exact .radioId hv hk hk'
          · cases he
        · rename_i hk
          rw [List.mem_append] at h
          rcases h with h | h
          · simp at h
          · obtain ⟨h1, u, h2, h3, h4⟩ := targetMarks_radio.mp h
            exact .target hv hk h1 h2 h3 h4
        · simp at h
  · intro h
    cases h with
    | radioId hv hk h => rw [hv]; exact ⟨_, by simp [hk]; exact .inr h⟩
    | @target v t u f ws hv hk h1 h2 h3 h4 =>
      rw [hv]
      refine ⟨ws, ?_⟩
      dsimp only
      rw [List.mem_append, hk]
      right
      dsimp only
      rw [List.mem_append]
      exact .inr (targetMarks_radio.mpr ⟨h1, u, h2, h3, h4⟩)

/-- Empty targets. -/
def Blank (stmt : Kind → Bool) (s : Store Info) (x : Id) : Prop := ∃ t, Mark.radio [] t ∈ marks stmt s x

/-! ## Entries of a stored node do not change -/

theorem subs_kids {v : Val Info} {t : Id} (h : t ∈ v.subs) : ∃ st, (st, t) ∈ v.kids := by
  unfold Val.subs at h
  simp only [List.mem_map, List.mem_filter] at h
  obtain ⟨⟨st, a⟩, ⟨h1, -⟩, rfl⟩ := h
  exact ⟨st, h1⟩

theorem marks_mono (hb : Below s) (hp : s <+: s') (hx : x < s.length) : marks stmt s' x = marks stmt s x := by
  obtain ⟨v, hv⟩ : ∃ v, s[x]? = some v := ⟨s[x], by simp [hx]⟩
  have hk : ∀ k ∈ v.kids, s'[k.2]? = s[k.2]? := by
    intro k hk
    have := hb x v hv k hk
    have hl : k.2 < s.length := Nat.lt_trans this hx
    obtain ⟨r, rfl⟩ := hp
    rw [List.getElem?_append_left hl]
  unfold marks
  rw [hv, getElem?_prefix hp hv]
  dsimp only
  have h1 : nameMarks stmt s' v = nameMarks stmt s v := by
    unfold nameMarks
    split
    · apply List.filterMap_congr
      intro k hm
      rw [hk k (List.mem_of_mem_filter hm)]
    · rfl
  have h2 : footnoteOf s' v = footnoteOf s v := by
    unfold footnoteOf
    cases hl : v.subs.head? with
    | none => rfl
    | some l =>
      obtain ⟨st, hm⟩ := subs_kids (List.mem_of_mem_head? (by rw [hl]; rfl))
      dsimp only
      rw [hk _ hm]
  have h3 : targetMarks s' v = targetMarks s v := by
    unfold targetMarks
    apply List.filterMap_congr
    intro t ht
    obtain ⟨st, hm⟩ := subs_kids ht
    rw [hk _ hm]
  rw [h1, h2, h3]

theorem named_mono (hb : Below s) (hp : s <+: s') (hx : x < s.length) {key : Key} : Named stmt s' x key ↔ Named stmt s x key := by
  cases key with
  | slot sl k => rw [← marks_at, ← marks_at, marks_mono hb hp hx]
  | radio w t => rw [← marks_radio, ← marks_radio, marks_mono hb hp hx]

/-! ## Making and removing entries -/

/-- The radio map leads from the word to the target. -/
def Has (n : Names) (w : Text) (t : Id) : Prop := ∃ l, n.radio w = some l ∧ t ∈ l

theorem each_put {id : Id} : ∀ {ms : List Mark} {n n' : Names}, each (Names.put id) n ms = .ok n' →
    (∀ sl k, n'.slots sl k = if Mark.at sl k ∈ ms then some id else n.slots sl k) ∧
    (∀ w t, Has n' w t ↔ Has n w t ∨ ∃ ws, Mark.radio (w :: ws) t ∈ ms) := by
  intro ms
  induction ms with
  | nil =>
    intro n n' h
    simp only [each, Except.ok.injEq] at h
    subst h
    simp
  | cons m ms ih =>
    intro n n' h
    simp only [each] at h
    cases hm : Names.put id n m with
    | error e => rw [hm] at h; simp at h
    | ok n1 =>
      rw [hm] at h
      dsimp only at h
      obtain ⟨i1, i2⟩ := ih h
      cases m with
      | «at» slot key =>
        simp only [Names.put, Except.ok.injEq] at hm
        subst hm
        refine ⟨fun sl k => ?_, fun w t => ?_⟩
        · rw [i1]
          simp only [Names.setSlot, List.mem_cons, Mark.at.injEq]
          by_cases h1 : Mark.at sl k ∈ ms
          · simp [h1]
          · simp [h1]
        · rw [i2]
          simp [Has, Names.setSlot]
      | radio ws' t' =>
        cases ws' with
        | nil => simp [Names.put] at hm
        | cons w' ws' =>
          simp only [Names.put] at hm
          have hslots : n1.slots = n.slots := by
            split at hm
            · simp only [Except.ok.injEq] at hm; subst hm; rfl
            · split at hm <;> simp only [Except.ok.injEq] at hm <;> subst hm <;> rfl
          have hrad : ∀ w t, Has n1 w t ↔ Has n w t ∨ (w = w' ∧ t = t') := by
            intro w t
            split at hm
            · rename_i hn
              simp only [Except.ok.injEq] at hm
              subst hm
              simp only [Has, Names.setRadio]
              by_cases hw : w = w'
              · subst hw; simp [hn]
              · simp [hw]
            · rename_i l hn
              split at hm
              · rename_i ht
                simp only [Except.ok.injEq] at hm
                subst hm
                constructor
                · exact .inl
                · rintro (h | ⟨rfl, rfl⟩)
                  · exact h
                  · exact ⟨l, hn, ht⟩
              · simp only [Except.ok.injEq] at hm
                subst hm
                simp only [Has, Names.setRadio]
                by_cases hw : w = w'
                · subst hw; simp [hn]
                · simp [hw]
          refine ⟨fun sl k => ?_, fun w t => ?_⟩
          · rw [i1, hslots]
            simp
          · rw [i2, hrad]
            simp only [List.mem_cons, Mark.radio.injEq, List.cons.injEq]
            constructor
            · rintro ((h | ⟨rfl, rfl⟩) | ⟨ws, h⟩)
              · exact .inl h
              · exact .inr ⟨ws', .inl ⟨⟨rfl, rfl⟩, rfl⟩⟩
              · exact .inr ⟨ws, .inr h⟩
            · rintro (h | ⟨ws, (⟨⟨rfl, rfl⟩, rfl⟩ | h)⟩)
              · exact .inl (.inl h)
              · exact .inl (.inr ⟨rfl, rfl⟩)
              · exact .inr ⟨ws, h⟩

theorem each_drop {id : Id} : ∀ {ms : List Mark} {n n' : Names}, each (Names.drop id) n ms = .ok n' →
    (∀ sl k, n'.slots sl k = if Mark.at sl k ∈ ms then (if sl = .hashtag then some id else none) else n.slots sl k) ∧
    (∀ w t, Has n' w t → Has n w t) ∧
    (∀ w t, Has n w t → (∀ ws, Mark.radio (w :: ws) t ∉ ms) → Has n' w t) := by
  intro ms
  induction ms with
  | nil =>
    intro n n' h
    simp only [each, Except.ok.injEq] at h
    subst h
    simp
  | cons m ms ih =>
    intro n n' h
    simp only [each] at h
    cases hm : Names.drop id n m with
    | error e => rw [hm] at h; simp at h
    | ok n1 =>
      rw [hm] at h
      dsimp only at h
      obtain ⟨i1, i2, i3⟩ := ih h
      cases m with
      | «at» slot key =>
        have hn1 : n1 = n.setSlot slot key (if slot = .hashtag then some id else none) := by
          cases slot <;> simp only [Names.drop, Except.ok.injEq] at hm <;> subst hm <;> rfl
        subst hn1
        refine ⟨fun sl k => ?_, fun w t hh => i2 w t hh, fun w t hh hms => i3 w t hh (fun ws hm => hms ws (by simp [hm]))⟩
        rw [i1]
        simp only [Names.setSlot, List.mem_cons, Mark.at.injEq]
        by_cases h1 : Mark.at sl k ∈ ms
        · simp [h1]
        · by_cases h2 : sl = slot ∧ k = key
          · simp [h2]
          · simp [h1, h2]
      | radio ws' t' =>
        cases ws' with
        | nil => simp [Names.drop] at hm
        | cons w' ws' =>
          simp only [Names.drop] at hm
          split at hm
          · simp at hm
          · rename_i l hn
            split at hm
            · simp only [Except.ok.injEq] at hm
              subst hm
              have hsub : ∀ w t, Has (n.setRadio w' (if l.erase t' = [] then none else some (l.erase t'))) w t → Has n w t := by
                rintro w t ⟨l', h1, h2⟩
                simp only [Names.setRadio] at h1
                by_cases hw : w = w'
                · subst hw
                  rw [if_pos rfl] at h1
                  split at h1
                  · simp at h1
                  · simp only [Option.some.injEq] at h1
                    subst h1
                    exact ⟨l, hn, List.mem_of_mem_erase h2⟩
                · rw [if_neg hw] at h1
                  exact ⟨l', h1, h2⟩
              refine ⟨fun sl k => ?_, fun w t hh => hsub w t (i2 w t hh), fun w t hh hms => i3 w t ?_ (fun ws hm => hms ws (by simp [hm]))⟩
              · rw [i1]
                simp [Names.setRadio]
              · obtain ⟨l', h1, h2⟩ := hh
                by_cases hw : w = w'
                · subst hw
                  have ht : t ≠ t' := fun he => hms ws' (by simp [he])
                  rw [hn] at h1
                  simp only [Option.some.injEq] at h1
                  subst h1
                  have hmem : t ∈ l.erase t' := (List.mem_erase_of_ne ht).mpr h2
                  refine ⟨l.erase t', ?_, hmem⟩
                  simp only [Names.setRadio, if_true]
                  rw [if_neg (List.ne_nil_of_mem hmem)]
                · exact ⟨l', by simp [Names.setRadio, hw, h1], h2⟩
            · simp at hm

end Verif.Track
