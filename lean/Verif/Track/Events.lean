import Verif.Track.Marks
import Verif.Imm.History

/-!
# Updates as a list of events
-/

namespace Verif.Track

open Verif.Imm

variable {stmt : Kind → Bool} {s s' : Store Info}

/-- A node takes the place of another one, or is added. -/
abbrev Ev := Option Id × Id

def occur (stmt : Kind → Bool) (s : Store Info) (e : Ev) (n : Names) : Except Err Names :=
  match e.1 with
  | none => updateTracking stmt s e.2 true n
  | some o =>
    match updateTracking stmt s o false n with
    | .error e => .error e
    | .ok n => updateTracking stmt s e.2 true n

def runs (stmt : Kind → Bool) (s : Store Info) : List Ev → Names → Except Err Names
  | [], n => .ok n
  | e :: es, n =>
    match occur stmt s e n with
    | .error e => .error e
    | .ok n => runs stmt s es n

theorem runs_append (es fs : List Ev) (n : Names) : runs stmt s (es ++ fs) n =
    match runs stmt s es n with
    | .error e => .error e
    | .ok n => runs stmt s fs n := by
  induction es generalizing n with
  | nil => rfl
  | cons e es ih =>
    simp only [List.cons_append, runs]
    cases occur stmt s e n with
    | error e => rfl
    | ok n => exact ih n

/-- The nodes of the events are stored. -/
def EvValid (s : Store Info) (es : List Ev) : Prop := ∀ e ∈ es, e.2 < s.length ∧ ∀ o, e.1 = some o → o < s.length

theorem evValid_mono (hp : s <+: s') {es : List Ev} (h : EvValid s es) : EvValid s' es :=
  fun e he => ⟨Nat.lt_of_lt_of_le (h e he).1 hp.length_le, fun o ho => Nat.lt_of_lt_of_le ((h e he).2 o ho) hp.length_le⟩

theorem updateTracking_mono (hb : Below s) (hp : s <+: s') {x : Id} (hx : x < s.length) (b : Bool) (n : Names) :
    updateTracking stmt s' x b n = updateTracking stmt s x b n := by
  unfold updateTracking
  rw [marks_mono hb hp hx]

theorem occur_mono (hb : Below s) (hp : s <+: s') {e : Ev} (h : e.2 < s.length ∧ ∀ o, e.1 = some o → o < s.length) (n : Names) :
    occur stmt s' e n = occur stmt s e n := by
  obtain ⟨o, x⟩ := e
  unfold occur
  cases o with
  | none => exact updateTracking_mono hb hp h.1 _ _
  | some o =>
    dsimp only
    rw [updateTracking_mono hb hp (h.2 o rfl)]
    cases updateTracking stmt s o false n with
    | error e => rfl
    | ok n => exact updateTracking_mono hb hp h.1 _ _

theorem runs_mono (hb : Below s) (hp : s <+: s') {es : List Ev} (h : EvValid s es) (n : Names) : runs stmt s' es n = runs stmt s es n := by
  induction es generalizing n with
  | nil => rfl
  | cons e es ih =>
    simp only [runs]
    rw [occur_mono hb hp (h e (by simp))]
    cases occur stmt s e n with
    | error e => rfl
    | ok n => exact ih (fun e he => h e (by simp [he])) n

/-! ## Effect on what is found -/

/-- The new node of the event has the name: it is found. -/
theorem occur_new {e : Ev} {n n' : Names} (h : occur stmt s e n = .ok n') {key : Key} (hk : Named stmt s e.2 key) : Found n' e.2 key := by
  have put : ∀ {n n' : Names}, updateTracking stmt s e.2 true n = .ok n' → Found n' e.2 key := by
    intro n n' h
    obtain ⟨h1, h2⟩ := each_put h
    cases key with
    | slot sl k =>
      show n'.slots sl k = some e.2
      rw [h1, if_pos (marks_at.mpr hk)]
    | radio w t => exact (h2 w t).mpr (.inr (marks_radio.mpr hk))
  unfold occur at h
  split at h
  · exact put h
  · split at h
    · simp at h
    · exact put h

/-- The name is touched neither by the old node nor by a new one with the same key. -/
theorem occur_keep {e : Ev} {n n' : Names} (h : occur stmt s e n = .ok n') {x : Id} {key : Key} (hf : Found n x key)
    (hold : ∀ o, e.1 = some o → ¬ Named stmt s o key) (hnew : ∀ sl k, key = .slot sl k → ¬ Named stmt s e.2 key) : Found n' x key := by
  have put : ∀ {n n' : Names}, Found n x key → updateTracking stmt s e.2 true n = .ok n' → Found n' x key := by
    intro n n' hf h
    obtain ⟨h1, h2⟩ := each_put h
    cases key with
    | slot sl k =>
      show n'.slots sl k = some x
      rw [h1, if_neg (fun hm => hnew sl k rfl (marks_at.mp hm))]
      exact hf
    | radio w t => exact (h2 w t).mpr (.inl hf)
  unfold occur at h
  split at h
  · exact put hf h
  · rename_i o ho
    split at h
    · simp at h
    · rename_i n1 h1
      refine put ?_ h
      obtain ⟨d1, d2, d3⟩ := each_drop h1
      have hno := hold o ho
      cases key with
      | slot sl k =>
        show n1.slots sl k = some x
        rw [d1, if_neg (fun hm => hno (marks_at.mp hm))]
        exact hf
      | radio w t => exact d3 w t hf (fun ws hm => hno (marks_radio.mp ⟨ws, hm⟩))

/-- A name is found at the end if it was found before or one of the events makes it, no event makes it for
another node and every event that removes it makes it again. -/
theorem runs_found {x : Id} {key : Key} : ∀ {es : List Ev} {n n' : Names}, runs stmt s es n = .ok n' →
    (∀ e ∈ es, ∀ sl k, key = .slot sl k → Named stmt s e.2 key → e.2 = x) →
    (∀ e ∈ es, ∀ o, e.1 = some o → Named stmt s o key → Named stmt s e.2 key) →
    (Found n x key ∨ ∃ e ∈ es, Named stmt s e.2 key) → Found n' x key := by
  intro es
  induction es with
  | nil =>
    intro n n' h _ _ hs
    simp only [runs, Except.ok.injEq] at h
    subst h
    rcases hs with h | ⟨e, he, _⟩
    · exact h
    · simp at he
  | cons e es ih =>
    intro n n' h hnew hold hs
    simp only [runs] at h
    cases ho : occur stmt s e n with
    | error e => rw [ho] at h; simp at h
    | ok n1 =>
      rw [ho] at h
      dsimp only at h
      refine ih h (fun e he => hnew e (by simp [he])) (fun e he => hold e (by simp [he])) ?_
      by_cases hk : Named stmt s e.2 key
      · left
        have := occur_new ho hk
        cases key with
        | slot sl k => rw [hnew e (by simp) sl k rfl hk] at this; exact this
        | radio w t => exact this
      · rcases hs with hs | ⟨e', he', hk'⟩
        · left
          exact occur_keep ho hs (fun o ho' hn => hk (hold e (by simp) o ho' hn)) (fun _ _ _ => hk)
        · rcases List.mem_cons.mp he' with rfl | he'
          · exact absurd hk' hk
          · exact .inr ⟨e', he', hk'⟩

/-- What is found at the end is the name of a node of an event, or was found before. -/
theorem runs_sound : ∀ {es : List Ev} {n n' : Names}, runs stmt s es n = .ok n' →
    (∀ sl k x, n'.slots sl k = some x → n.slots sl k = some x ∨
      ((∃ e ∈ es, e.2 = x ∨ e.1 = some x) ∧ Named stmt s x (.slot sl k))) ∧
    (∀ w t, Has n' w t → Has n w t ∨ ∃ e ∈ es, Named stmt s e.2 (.radio w t)) := by
  intro es
  induction es with
  | nil =>
    intro n n' h
    simp only [runs, Except.ok.injEq] at h
    subst h
    exact ⟨fun _ _ _ h => .inl h, fun _ _ h => .inl h⟩
  | cons e es ih =>
    intro n n' h
    simp only [runs] at h
    cases ho : occur stmt s e n with
    | error e => rw [ho] at h; simp at h
    | ok n1 =>
      rw [ho] at h
      dsimp only at h
      obtain ⟨i1, i2⟩ := ih h
      have step : (∀ sl k x, n1.slots sl k = some x → n.slots sl k = some x ∨
          ((e.2 = x ∨ e.1 = some x) ∧ Named stmt s x (.slot sl k))) ∧
          (∀ w t, Has n1 w t → Has n w t ∨ Named stmt s e.2 (.radio w t)) := by
        have put : ∀ {n n' : Names}, updateTracking stmt s e.2 true n = .ok n' →
            (∀ sl k x, n'.slots sl k = some x → n.slots sl k = some x ∨ (e.2 = x ∧ Named stmt s x (.slot sl k))) ∧
            (∀ w t, Has n' w t → Has n w t ∨ Named stmt s e.2 (.radio w t)) := by
          intro n n' h
          obtain ⟨h1, h2⟩ := each_put h
          refine ⟨fun sl k x hx => ?_, fun w t ht => ?_⟩
          · rw [h1] at hx
            split at hx
            · rename_i hm
              simp only [Option.some.injEq] at hx
              subst hx
              exact .inr ⟨rfl, marks_at.mp hm⟩
            · exact .inl hx
          · rcases (h2 w t).mp ht with h | h
            · exact .inl h
            · exact .inr (marks_radio.mp h)
        unfold occur at ho
        split at ho
        · obtain ⟨p1, p2⟩ := put ho
          refine ⟨fun sl k x hx => ?_, p2⟩
          rcases p1 sl k x hx with h | ⟨h, h'⟩
          · exact .inl h
          · exact .inr ⟨.inl h, h'⟩
        · rename_i o hoe
          split at ho
          · simp at ho
          · rename_i n2 hd
            obtain ⟨p1, p2⟩ := put ho
            obtain ⟨d1, d2, d3⟩ := each_drop hd
            refine ⟨fun sl k x hx => ?_, fun w t ht => ?_⟩
            · rcases p1 sl k x hx with h | ⟨h, h'⟩
              · rw [d1] at h
                split at h
                · rename_i hm
                  split at h
                  · simp only [Option.some.injEq] at h
                    subst h
                    exact .inr ⟨.inr hoe, marks_at.mp hm⟩
                  · simp at h
                · exact .inl h
              · exact .inr ⟨.inl h, h'⟩
            · rcases p2 w t ht with h | h
              · exact .inl (d2 w t h)
              · exact .inr h
      refine ⟨fun sl k x hx => ?_, fun w t ht => ?_⟩
      · rcases i1 sl k x hx with h | ⟨⟨e', he', hx'⟩, h⟩
        · rcases step.1 sl k x h with h | ⟨h, h'⟩
          · exact .inl h
          · exact .inr ⟨⟨e, by simp, h⟩, h'⟩
        · exact .inr ⟨⟨e', by simp [he'], hx'⟩, h⟩
      · rcases i2 w t ht with h | ⟨e', he', h⟩
        · rcases step.2 w t h with h | h
          · exact .inl h
          · exact .inr ⟨e, by simp, h⟩
        · exact .inr ⟨e', by simp [he'], h⟩

/-! ## Nodes of a document -/

theorem atStep_kid {v : Val Info} {x : Id} (hv : s[x]? = some v) (hnd : (v.kids.map (·.1)).Nodup) {k : Step × Id} (hk : k ∈ v.kids) :
    s.atStep x k.1 = some k.2 := by
  simp only [Store.atStep, Store.kids]
  rw [hv]
  dsimp only
  rw [find_self hnd k hk]
  rfl

theorem atStep_inv {v : Val Info} {x y : Id} {st : Step} (hv : s[x]? = some v) (h : s.atStep x st = some y) : (st, y) ∈ v.kids := by
  simp only [Store.atStep, Store.kids] at h
  rw [hv] at h
  dsimp only at h
  rw [Option.map_eq_some_iff] at h
  obtain ⟨k, h1, h2⟩ := h
  have h3 := List.find?_some h1
  simp only [decide_eq_true_eq] at h3
  have h4 := List.mem_of_find?_eq_some h1
  obtain ⟨a, b⟩ := k
  simp only at h2 h3
  subst h2 h3
  exact h4

theorem inDoc_refl (x : Id) : InDoc s x x := ⟨[], rfl⟩

theorem inDoc_trans {a b x : Id} (h : InDoc s a b) (h' : InDoc s b x) : InDoc s a x := by
  obtain ⟨p, hp⟩ := h
  obtain ⟨q, hq⟩ := h'
  refine ⟨p ++ q, ?_⟩
  rw [at_append, hp]
  exact hq

theorem inDoc_kid {a x : Id} {v : Val Info} (hv : s[a]? = some v) (hnd : (v.kids.map (·.1)).Nodup) :
    InDoc s a x ↔ x = a ∨ ∃ k ∈ v.kids, InDoc s k.2 x := by
  constructor
  · rintro ⟨p, hp⟩
    cases p with
    | nil => simp only [Store.at, Option.some.injEq] at hp; exact .inl hp.symm
    | cons st p =>
      simp only [Store.at] at hp
      cases hs : s.atStep a st with
      | none => rw [hs] at hp; simp at hp
      | some b =>
        rw [hs] at hp
        exact .inr ⟨(st, b), atStep_inv hv hs, p, hp⟩
  · rintro (rfl | ⟨k, hk, p, hp⟩)
    · exact inDoc_refl _
    · refine ⟨k.1 :: p, ?_⟩
      simp only [Store.at, atStep_kid hv hnd hk]
      exact hp

theorem atStep_mono (hp : s <+: s') {x : Id} (hx : x < s.length) (st : Step) : s'.atStep x st = s.atStep x st := by
  obtain ⟨r, rfl⟩ := hp
  simp only [Store.atStep, Store.kids]
  rw [List.getElem?_append_left hx]

theorem at_lt (hb : Below s) {p : List Step} {x y : Id} (hx : x < s.length) (h : s.at x p = some y) : y < s.length := by
  induction p generalizing x with
  | nil => simp only [Store.at, Option.some.injEq] at h; exact h ▸ hx
  | cons st p ih =>
    simp only [Store.at] at h
    cases hs : s.atStep x st with
    | none => rw [hs] at h; simp at h
    | some z =>
      rw [hs] at h
      obtain ⟨v, hv⟩ : ∃ v, s[x]? = some v := ⟨s[x], by simp [hx]⟩
      have := hb x v hv _ (atStep_inv hv hs)
      exact ih (Nat.lt_trans this hx) h

theorem at_mono_iff (hb : Below s) (hp : s <+: s') : ∀ (p : List Step) {x : Id}, x < s.length → s'.at x p = s.at x p := by
  intro p
  induction p with
  | nil => intro x _; rfl
  | cons st p ih =>
    intro x hx
    simp only [Store.at]
    rw [atStep_mono hp hx]
    cases hs : s.atStep x st with
    | none => rfl
    | some z =>
      obtain ⟨v, hv⟩ : ∃ v, s[x]? = some v := ⟨s[x], by simp [hx]⟩
      exact ih (Nat.lt_trans (hb x v hv _ (atStep_inv hv hs)) hx)

theorem inDoc_mono (hb : Below s) (hp : s <+: s') {a x : Id} (ha : a < s.length) : InDoc s' a x ↔ InDoc s a x := by
  unfold InDoc
  constructor <;> rintro ⟨p, h⟩ <;> refine ⟨p, ?_⟩
  · rwa [at_mono_iff hb hp p ha] at h
  · rwa [at_mono_iff hb hp p ha]

theorem inDoc_lt (hb : Below s) {a x : Id} (ha : a < s.length) (h : InDoc s a x) : x < s.length := by
  obtain ⟨p, h⟩ := h
  exact at_lt hb ha h

/-! ## Adding a document -/

/-- The nodes of one document or of a list of them. -/
def InAny (s : Store Info) (x : Id) : {b : Bool} → Added b → Prop
  | true, id => InDoc s id x
  | false, kids => ∃ k ∈ (show List (Step × Id) from kids), InDoc s k.2 x

theorem addTree_events {b : Bool} (t : Tree Info b) (hsh : ShapedTree t) : ∀ (c : Ctx Info), Good c.store →
    ∃ E : List Ev, (∀ n, addTree stmt ⟨c, n⟩ t =
        match runs stmt (Imm.addTree c t).2.store E n with
        | .error e => .error e
        | .ok n' => .ok ((Imm.addTree c t).1, ⟨(Imm.addTree c t).2, n'⟩)) ∧
      (∀ e ∈ E, e.1 = none) ∧ ∀ x, InAny (Imm.addTree c t).2.store x (Imm.addTree c t).1 ↔ ∃ e ∈ E, e.2 = x := by
  induction t with
  | nil =>
    intro c hg
    refine ⟨[], fun n => rfl, by simp, fun x => ?_⟩
    simp [InAny, Imm.addTree]
  | cons st t rest ih1 ih2 =>
    intro c hg
    obtain ⟨E, e1, e2, e3⟩ := ih1 hsh.1 c hg
    obtain ⟨ev1, va1⟩ := addTree_evolves t hsh.1 c
    have hg1 := evolves_good ev1 hg
    obtain ⟨F, f1, f2, f3⟩ := ih2 hsh.2 (Imm.addTree c t).2 hg1
    obtain ⟨ev2, va2⟩ := addTree_evolves rest hsh.2 (Imm.addTree c t).2
    have hp2 := evolves_prefix ev2
    have hvE : EvValid (Imm.addTree c t).2.store E := by
      intro e he
      refine ⟨?_, fun o ho => ?_⟩
      · exact inDoc_lt hg1.below va1 ((e3 e.2).mpr ⟨e, he, rfl⟩)
      · rw [e2 e he] at ho; cases ho
    refine ⟨E ++ F, fun n => ?_, ?_, fun x => ?_⟩
    · simp only [addTree, Imm.addTree]
      rw [e1 n, runs_append, runs_mono hg1.below hp2 hvE]
      cases hr : runs stmt (Imm.addTree c t).2.store E n with
      | error e => rfl
      | ok n1 =>
        dsimp only
        rw [f1 n1]
        cases runs stmt (Imm.addTree (Imm.addTree c t).2 rest).2.store F n1 with
        | error e => rfl
        | ok n2 => rfl
    · intro e he
      rcases List.mem_append.mp he with h | h
      · exact e2 e h
      · exact f2 e h
    · have h1 : InAny (Imm.addTree c (.cons st t rest)).2.store x (Imm.addTree c (.cons st t rest)).1 ↔
          InDoc (Imm.addTree (Imm.addTree c t).2 rest).2.store (Imm.addTree c t).1 x ∨
            InAny (Imm.addTree (Imm.addTree c t).2 rest).2.store x (Imm.addTree (Imm.addTree c t).2 rest).1 := by
        constructor
        · rintro ⟨k, hk, hd⟩
          rcases List.mem_cons.mp (show k ∈ (st, (Imm.addTree c t).1) :: (Imm.addTree (Imm.addTree c t).2 rest).1 from hk) with rfl | hk
          · exact .inl hd
          · exact .inr ⟨k, hk, hd⟩
        · rintro (h | ⟨k, hk, hd⟩)
          · exact ⟨(st, (Imm.addTree c t).1), List.mem_cons_self, h⟩
          · exact ⟨k, List.mem_cons_of_mem _ hk, hd⟩
      rw [h1, inDoc_mono hg1.below hp2 va1, f3 x]
      simp only [List.mem_append, or_and_right, exists_or]
      rw [← e3 x]
      rfl
  | node k d l ks ih =>
    intro c hg
    obtain ⟨E, e1, e2, e3⟩ := ih hsh.2 c hg
    obtain ⟨ev1, va1⟩ := addTree_evolves ks hsh.2 c
    have hg1 := evolves_good ev1 hg
    obtain ⟨ev2, va2⟩ := addTree_evolves (.node k d l ks) hsh c
    have hg2 := evolves_good ev2 hg
    have hstore : (Imm.addTree c (.node k d l ks)).2.store = ((Imm.addTree c ks).2.store.add ⟨k, d, l, (Imm.addTree c ks).1⟩).2 := by
      simp only [Imm.addTree, insert_store, remove_store]
    have hid : (Imm.addTree c (.node k d l ks)).1 = ((Imm.addTree c ks).2.store.add ⟨k, d, l, (Imm.addTree c ks).1⟩).1 := rfl
    have hp : (Imm.addTree c ks).2.store <+: ((Imm.addTree c ks).2.store.add ⟨k, d, l, (Imm.addTree c ks).1⟩).2 := add_prefix _ _
    have hvE : EvValid (Imm.addTree c ks).2.store E := by
      intro e he
      refine ⟨?_, fun o ho => ?_⟩
      · obtain ⟨kk, hk, hd⟩ := (e3 e.2).mpr ⟨e, he, rfl⟩
        exact inDoc_lt hg1.below (va1 kk hk) hd
      · rw [e2 e he] at ho; cases ho
    refine ⟨E ++ [(none, (Imm.addTree c (.node k d l ks)).1)], fun n => ?_, ?_, fun x => ?_⟩
    · rw [hstore, runs_append, runs_mono hg1.below hp hvE]
      conv_lhs => simp only [addTree]
      rw [e1 n]
      cases hr : runs stmt (Imm.addTree c ks).2.store E n with
      | error e => rfl
      | ok n1 =>
        dsimp only
        simp only [runs, occur]
        rw [hid]
        cases updateTracking stmt ((Imm.addTree c ks).2.store.add ⟨k, d, l, (Imm.addTree c ks).1⟩).2
          ((Imm.addTree c ks).2.store.add ⟨k, d, l, (Imm.addTree c ks).1⟩).1 true n1 with
        | error e => rfl
        | ok n2 => rfl
    · intro e he
      rcases List.mem_append.mp he with h | h
      · exact e2 e h
      · simp only [List.mem_singleton] at h
        rw [h]
    · obtain ⟨w, hw1, hw2⟩ := add_val (Imm.addTree c ks).2.store ⟨k, d, l, (Imm.addTree c ks).1⟩
      obtain ⟨-, -, k3⟩ := same_iff.1 hw2
      simp only at k3
      show InDoc _ _ _ ↔ _
      have hw1' : (Imm.addTree c (.node k d l ks)).2.store[(Imm.addTree c (.node k d l ks)).1]? = some w := by
        rw [hstore]; exact hw1
      rw [inDoc_kid hw1' (shaped_nodup (hg2.shaped _ _ hw1')), ← k3]
      simp only [List.mem_append, List.mem_singleton, or_and_right, exists_or, exists_eq_left]
      rw [← e3 x, hstore]
      have : (∃ k' ∈ (Imm.addTree c ks).1, InDoc ((Imm.addTree c ks).2.store.add ⟨k, d, l, (Imm.addTree c ks).1⟩).2 k'.2 x) ↔
          InAny (Imm.addTree c ks).2.store x (Imm.addTree c ks).1 := by
        simp only [InAny]
        constructor <;> rintro ⟨k', h1, h2⟩ <;> refine ⟨k', h1, ?_⟩
        · rwa [inDoc_mono hg1.below hp (va1 k' h1)] at h2
        · rwa [inDoc_mono hg1.below hp (va1 k' h1)]
      rw [this]
      constructor
      · rintro (h | h)
        · exact .inr h.symm
        · exact .inl h
      · rintro (h | h)
        · exact .inr h
        · exact .inl h.symm

/-! ## Replacing a node -/

theorem setNode_events (c : Ctx Info) (target : Uniq) (v : Val Info) (n : Names) : setNode stmt ⟨c, n⟩ target v =
    match runs stmt (Imm.setNode c target v).2.store [(some target.id, (c.store.add v).1)] n with
    | .error e => .error e
    | .ok n' => .ok ((Imm.setNode c target v).1, ⟨(Imm.setNode c target v).2, n'⟩) := by
  rw [setNode_store]
  unfold setNode
  simp only [runs, occur]
  cases updateTracking stmt (c.store.add v).2 target.id false n with
  | error e => rfl
  | ok n1 =>
    dsimp only
    cases updateTracking stmt (c.store.add v).2 (c.store.add v).1 true n1 with
    | error e => rfl
    | ok n2 => rfl

end Verif.Track
