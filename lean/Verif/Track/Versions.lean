import Verif.Track.Cascade

/-!
# The names of documents and of their versions
-/

namespace Verif.Track

open Verif.Imm

variable {stmt : Kind → Bool} {s s' : Store Info}

theorem start_store_good : Good TCtx.start.ctx.store :=
  ⟨fun i j v w h => by simp [TCtx.start] at h, fun i v h => by simp [TCtx.start] at h, fun i v h => by simp [TCtx.start] at h⟩

/-- Adding a document to a context. -/
theorem add_events {c c' : TCtx} {t : Tree Info true} {id : Id} (hg : Good c.ctx.store) (hsh : ShapedTree t)
    (h : addRoot stmt c t = .ok (id, c')) : c.ctx.store <+: c'.ctx.store ∧ Good c'.ctx.store ∧ id < c'.ctx.store.length ∧
    ∃ E, EvValid c'.ctx.store E ∧ runs stmt c'.ctx.store E c.names = .ok c'.names ∧ (∀ e ∈ E, e.1 = none) ∧
      ∀ x, InDoc c'.ctx.store id x ↔ ∃ e ∈ E, e.2 = x := by
  obtain ⟨ct, n⟩ := c
  obtain ⟨E, e1, e2, e3⟩ := addTree_events (stmt := stmt) t hsh ct hg
  obtain ⟨ev, va⟩ := addTree_evolves t hsh ct
  unfold addRoot at h
  rw [e1 n] at h
  cases hr : runs stmt (Imm.addTree ct t).2.store E n with
  | error e => rw [hr] at h; simp at h
  | ok n' =>
    rw [hr] at h
    simp only [Except.ok.injEq, Prod.mk.injEq] at h
    obtain ⟨rfl, rfl⟩ := h
    have hg' := evolves_good ev hg
    refine ⟨evolves_prefix ev, hg', va, E, ?_, hr, e2, e3⟩
    intro e he
    refine ⟨inDoc_lt hg'.below va ((e3 e.2).mpr ⟨e, he, rfl⟩), fun o ho => ?_⟩
    rw [e2 e he] at ho
    cases ho

structure AddsPost (stmt : Kind → Bool) (c : TCtx) (roots : List Id) : Prop where
  good : Good c.ctx.store
  lt : ∀ r ∈ roots, r < c.ctx.store.length
  ev : ∃ E, EvValid c.ctx.store E ∧ runs stmt c.ctx.store E .empty = .ok c.names ∧ (∀ e ∈ E, e.1 = none) ∧
    ∀ x, (∃ r ∈ roots, InDoc c.ctx.store r x) ↔ ∃ e ∈ E, e.2 = x

theorem adds_post {c : TCtx} {roots : List Id} (h : Adds stmt c roots) : AddsPost stmt c roots := by
  induction h with
  | start => exact ⟨start_store_good, by simp, [], by simp [EvValid], rfl, by simp, by simp⟩
  | @add c roots t id c' _ hsh hadd ih =>
    obtain ⟨p, g, l, E, e1, e2, e3, e4⟩ := add_events ih.good hsh hadd
    obtain ⟨F, f1, f2, f3, f4⟩ := ih.ev
    refine ⟨g, ?_, F ++ E, ?_, ?_, ?_, ?_⟩
    · intro r hr
      rcases List.mem_append.mp hr with hr | hr
      · exact Nat.lt_of_lt_of_le (ih.lt r hr) p.length_le
      · simp only [List.mem_singleton] at hr
        exact hr ▸ l
    · intro e he
      rcases List.mem_append.mp he with he | he
      · exact evValid_mono p f1 e he
      · exact e1 e he
    · rw [runs_append, runs_mono ih.good.below p f1, f2]
      exact e2
    · intro e he
      rcases List.mem_append.mp he with he | he
      · exact f3 e he
      · exact e3 e he
    · intro x
      simp only [List.mem_append, or_and_right, exists_or, List.mem_singleton, exists_eq_left]
      rw [e4 x, ← f4 x]
      have : (∃ r ∈ roots, InDoc c'.ctx.store r x) ↔ ∃ r ∈ roots, InDoc c.ctx.store r x := by
        constructor <;> rintro ⟨r, hr, hd⟩ <;> refine ⟨r, hr, ?_⟩
        · rwa [inDoc_mono ih.good.below p (ih.lt r hr)] at hd
        · rwa [inDoc_mono ih.good.below p (ih.lt r hr)]
      rw [this]

theorem adds_complete {c : TCtx} {roots : List Id} (h : Adds stmt c roots) (hu : Unique stmt c.ctx.store roots) {r : Id} (hr : r ∈ roots) :
    Complete stmt c r := by
  obtain ⟨hg, hl, E, e1, e2, e3, e4⟩ := adds_post h
  intro x key hx hk
  refine runs_found e2 ?_ ?_ ?_
  · intro e he sl k hkey hk'
    subst hkey
    obtain ⟨r', hr', hx'⟩ := (e4 e.2).mpr ⟨e, he, rfl⟩
    exact hu r' hr' r hr _ _ sl k hx' hx hk' hk
  · intro e he o ho
    rw [e3 e he] at ho
    cases ho
  · obtain ⟨e, he, rfl⟩ := (e4 x).mp ⟨r, hr, hx⟩
    exact .inr ⟨e, he, hk⟩

theorem adds_sound {c : TCtx} {roots : List Id} (h : Adds stmt c roots) :
    (∀ sl k x, c.names.slots sl k = some x → (∃ r ∈ roots, InDoc c.ctx.store r x) ∧ Named stmt c.ctx.store x (.slot sl k)) ∧
    (∀ w t, Has c.names w t → ∃ r ∈ roots, ∃ x, InDoc c.ctx.store r x ∧ Named stmt c.ctx.store x (.radio w t)) := by
  obtain ⟨hg, hl, E, e1, e2, e3, e4⟩ := adds_post h
  obtain ⟨s1, s2⟩ := runs_sound e2
  refine ⟨fun sl k x hx => ?_, fun w t ht => ?_⟩
  · rcases s1 sl k x hx with h | ⟨⟨e, he, hx'⟩, hn⟩
    · simp [Names.empty] at h
    · rcases hx' with rfl | hx'
      · exact ⟨(e4 e.2).mpr ⟨e, he, rfl⟩, hn⟩
      · rw [e3 e he] at hx'; cases hx'
  · rcases s2 w t ht with h | ⟨e, he, hn⟩
    · obtain ⟨l, h, _⟩ := h
      simp [Names.empty] at h
    · obtain ⟨r, hr, hd⟩ := (e4 e.2).mpr ⟨e, he, rfl⟩
      exact ⟨r, hr, e.2, hd, hn⟩

/-- Without removals, a name that is made is found. -/
theorem runs_some {sl : Slot} {k : Text} : ∀ {E : List Ev} {n n' : Names}, runs stmt s E n = .ok n' → (∀ e ∈ E, e.1 = none) →
    ((n.slots sl k).isSome ∨ ∃ e ∈ E, Named stmt s e.2 (.slot sl k)) → (n'.slots sl k).isSome := by
  intro E
  induction E with
  | nil =>
    intro n n' h _ hs
    simp only [runs, Except.ok.injEq] at h
    subst h
    rcases hs with h | ⟨e, he, _⟩
    · exact h
    · simp at he
  | cons e es ih =>
    intro n n' h hn hs
    simp only [runs] at h
    cases ho : occur stmt s e n with
    | error e => rw [ho] at h; simp at h
    | ok n1 =>
      rw [ho] at h
      dsimp only at h
      refine ih h (fun e he => hn e (by simp [he])) ?_
      have h0 := hn e (by simp)
      unfold occur at ho
      rw [h0] at ho
      dsimp only at ho
      obtain ⟨p1, _⟩ := each_put ho
      rcases hs with hs | ⟨e', he', hk⟩
      · left
        rw [p1]
        split
        · rfl
        · exact hs
      · rcases List.mem_cons.mp he' with rfl | he'
        · left
          rw [p1, if_pos (marks_at.mpr hk)]
          rfl
        · exact .inr ⟨e', he', hk⟩

theorem adds_some {c : TCtx} {roots : List Id} (h : Adds stmt c roots) {r x : Id} (hr : r ∈ roots) {sl : Slot} {k : Text}
    (hx : InDoc c.ctx.store r x) (hk : Named stmt c.ctx.store x (.slot sl k)) : ∃ y, c.names.slots sl k = some y := by
  obtain ⟨hg, hl, E, e1, e2, e3, e4⟩ := adds_post h
  obtain ⟨e, he, rfl⟩ := (e4 x).mp ⟨r, hr, hx⟩
  exact Option.isSome_iff_exists.mp (runs_some e2 e3 (.inr ⟨e, he, hk⟩))

/-! ## Replacements and additions before a version is made -/

structure WorkPost (stmt : Kind → Bool) (root : Id) (c : TCtx) (made : List Id) (rs : List Replace) (c1 : TCtx) : Prop where
  pre : c.ctx.store <+: c1.ctx.store
  good : Good c1.ctx.store
  group : Group c1.ctx.store root rs
  lt : ∀ a ∈ made, a < c1.ctx.store.length
  ev : ∃ E, EvValid c1.ctx.store E ∧ runs stmt c1.ctx.store E c.names = .ok c1.names ∧
    (∀ e ∈ E, (e.1 = none ∧ ∃ a ∈ made, InDoc c1.ctx.store a e.2) ∨ ∃ r ∈ rs, e = (some r.original.id, r.replaced.id)) ∧
    (∀ a ∈ made, ∀ y, InDoc c1.ctx.store a y → ∃ e ∈ E, e.2 = y) ∧
    (∀ r ∈ rs, ∀ y, InDoc c1.ctx.store r.replaced.id y → (∃ e ∈ E, e.2 = y) ∨ InDoc c.ctx.store root y) ∧
    (∀ r ∈ rs, (some r.original.id, r.replaced.id) ∈ E)

theorem group_mono {root : Id} {rs : List Replace} (hb : Below s) (hp : s <+: s') (hl : root < s.length) (h : Group s root rs) : Group s' root rs :=
  ⟨fun r hr => ⟨(h.orig r hr).1, by rw [at_mono_iff hb hp _ hl]; exact (h.orig r hr).2⟩, h.repl,
    fun r hr => Nat.lt_of_lt_of_le (h.stored r hr) hp.length_le⟩

theorem work_post {root : Id} {c c1 : TCtx} {made : List Id} {rs : List Replace} (hg : Good c.ctx.store) (hl : root < c.ctx.store.length)
    (h : Work stmt c.ctx.store root c made rs c1) : WorkPost stmt root c made rs c1 := by
  induction h with
  | nil =>
    exact ⟨List.prefix_refl _, hg, ⟨by simp, by simp, by simp⟩, by simp, [], by simp [EvValid], rfl, by simp, by simp, by simp, by simp⟩
  | @add made rs c1 t id c2 _ hsh hadd ih =>
    obtain ⟨p, g, l, E, e1, e2, e3, e4⟩ := add_events ih.good hsh hadd
    obtain ⟨F, f1, f2, f3, f4, f5, f6⟩ := ih.ev
    refine ⟨ih.pre.trans p, g, group_mono ih.good.below p (Nat.lt_of_lt_of_le hl ih.pre.length_le) ih.group, ?_, F ++ E, ?_, ?_, ?_, ?_, ?_, ?_⟩
    · intro a ha
      rcases List.mem_append.mp ha with ha | ha
      · exact Nat.lt_of_lt_of_le (ih.lt a ha) p.length_le
      · simp only [List.mem_singleton] at ha
        exact ha ▸ l
    · intro e he
      rcases List.mem_append.mp he with he | he
      · exact evValid_mono p f1 e he
      · exact e1 e he
    · rw [runs_append, runs_mono ih.good.below p f1, f2]
      exact e2
    · intro e he
      rcases List.mem_append.mp he with he | he
      · rcases f3 e he with ⟨g1, a, ha, g2⟩ | g1
        · exact .inl ⟨g1, a, by simp [ha], by rw [inDoc_mono ih.good.below p (ih.lt a ha)]; exact g2⟩
        · exact .inr g1
      · exact .inl ⟨e3 e he, id, by simp, (e4 e.2).mpr ⟨e, he, rfl⟩⟩
    · intro a ha y hy
      rcases List.mem_append.mp ha with ha | ha
      · rw [inDoc_mono ih.good.below p (ih.lt a ha)] at hy
        obtain ⟨e, he, g⟩ := f4 a ha y hy
        exact ⟨e, by simp [he], g⟩
      · simp only [List.mem_singleton] at ha
        subst ha
        obtain ⟨e, he, g⟩ := (e4 y).mp hy
        exact ⟨e, by simp [he], g⟩
    · intro r hr y hy
      rw [inDoc_mono ih.good.below p (ih.group.stored r hr)] at hy
      rcases f5 r hr y hy with ⟨e, he, g⟩ | g
      · exact .inl ⟨e, by simp [he], g⟩
      · exact .inr g
    · intro r hr
      exact List.mem_append_left _ (f6 r hr)
  | @set made rs c1 target v r c2 _ hsh hkids htr hat hset ih =>
    obtain ⟨F, f1, f2, f3, f4, f5, f6⟩ := ih.ev
    obtain ⟨ct, nn⟩ := c1
    dsimp only at ih hkids f1 f2 f3 f4 f5
    have hpre0 : c.ctx.store <+: ct.store := ih.pre
    have hgood0 : Good ct.store := ih.good
    have hl1 : root < ct.store.length := Nat.lt_of_lt_of_le hl hpre0.length_le
    have hval : ∀ k ∈ v.kids, k.2 < ct.store.length := by
      intro k hk
      rcases hkids k hk with h | ⟨a, ha, h⟩ | ⟨r, hr, h⟩
      · exact Nat.lt_of_lt_of_le (inDoc_lt hg.below hl h) hpre0.length_le
      · exact inDoc_lt hgood0.below (ih.lt a ha) h
      · exact h ▸ ih.group.stored r hr
    rw [setNode_events] at hset
    have hgood := setNode_good hgood0 target (v := v) ⟨hval, hsh⟩
    have hpre : ct.store <+: (Imm.setNode ct target v).2.store := setNode_prefix _ _ _
    obtain ⟨w, hw1, hw2⟩ := add_val ct.store v
    obtain ⟨-, -, k3⟩ := same_iff.1 hw2
    have hst := setNode_store ct target v
    have hlt := add_lt ct.store v
    rw [← hst] at hw1 hlt
    have hndw : (w.kids.map (·.1)).Nodup := shaped_nodup (hgood.shaped _ _ hw1)
    cases hrun : runs stmt (Imm.setNode ct target v).2.store [(some target.id, (ct.store.add v).1)] nn with
    | error e => rw [hrun] at hset; simp at hset
    | ok n' =>
      rw [hrun] at hset
      simp only [Except.ok.injEq, Prod.mk.injEq] at hset
      obtain ⟨hm1, rfl⟩ := hset
      have hr : r = ⟨target, { target with id := (ct.store.add v).1 }⟩ := by
        unfold Imm.setNode at hm1
        dsimp only at hm1
        split at hm1
        · simp at hm1
        · simp only [Option.some.injEq] at hm1
          exact hm1.symm
      have hro : r.original = target := by rw [hr]
      have hri : r.replaced.id = (ct.store.add v).1 := by rw [hr]
      have hgm := group_mono hgood0.below hpre hl1 ih.group
      refine ⟨hpre0.trans hpre, hgood, ⟨?_, ?_, ?_⟩, ?_, F ++ [(some target.id, (ct.store.add v).1)], ?_, ?_, ?_, ?_, ?_, ?_⟩
      · intro x hx
        rcases List.mem_append.mp hx with hx | hx
        · exact hgm.orig x hx
        · simp only [List.mem_singleton] at hx
          subst hx
          rw [hro]
          refine ⟨htr, ?_⟩
          dsimp only
          rw [at_mono_iff hg.below (hpre0.trans hpre) _ hl]
          exact hat
      · intro x hx
        rcases List.mem_append.mp hx with hx | hx
        · exact hgm.repl x hx
        · simp only [List.mem_singleton] at hx
          subst hx
          rw [hr]
          exact ⟨htr, rfl⟩
      · intro x hx
        rcases List.mem_append.mp hx with hx | hx
        · exact hgm.stored x hx
        · simp only [List.mem_singleton] at hx
          subst hx
          rw [hri]
          exact hlt
      · intro a ha
        exact Nat.lt_of_lt_of_le (ih.lt a ha) hpre.length_le
      · intro e he
        rcases List.mem_append.mp he with he | he
        · exact evValid_mono hpre f1 e he
        · simp only [List.mem_singleton] at he
          subst he
          refine ⟨hlt, ?_⟩
          intro o ho
          simp only [Option.some.injEq] at ho
          subst ho
          exact Nat.lt_of_lt_of_le (at_lt hg.below hl hat) (hpre0.trans hpre).length_le
      · dsimp only
        rw [runs_append, runs_mono hgood0.below hpre f1, f2]
        exact hrun
      · intro e he
        rcases List.mem_append.mp he with he | he
        · rcases f3 e he with ⟨g1, a, ha, g2⟩ | ⟨x, hx, g⟩
          · exact .inl ⟨g1, a, ha, by dsimp only; rw [inDoc_mono hgood0.below hpre (ih.lt a ha)]; exact g2⟩
          · exact .inr ⟨x, by simp [hx], g⟩
        · simp only [List.mem_singleton] at he
          exact .inr ⟨r, by simp, by rw [he, hro, hri]⟩
      · intro a ha y hy
        dsimp only at hy
        rw [inDoc_mono hgood0.below hpre (ih.lt a ha)] at hy
        obtain ⟨e, he, g⟩ := f4 a ha y hy
        exact ⟨e, by simp [he], g⟩
      · intro x hx y hy
        dsimp only at hy
        rcases List.mem_append.mp hx with hx | hx
        · rw [inDoc_mono hgood0.below hpre (ih.group.stored x hx)] at hy
          rcases f5 x hx y hy with ⟨e, he, g⟩ | g
          · exact .inl ⟨e, by simp [he], g⟩
          · exact .inr g
        · simp only [List.mem_singleton] at hx
          subst hx
          rw [hri, inDoc_kid hw1 hndw] at hy
          rcases hy with rfl | ⟨k, hk, hy⟩
          · exact .inl ⟨_, List.mem_append_right _ (List.mem_singleton.mpr rfl), rfl⟩
          · rw [← k3] at hk
            rw [inDoc_mono hgood0.below hpre (hval k hk)] at hy
            rcases hkids k hk with h | ⟨a, ha, h⟩ | ⟨z, hz, h⟩
            · rw [inDoc_mono hg.below hpre0 (inDoc_lt hg.below hl h)] at hy
              exact .inr (inDoc_trans h hy)
            · obtain ⟨e, he, g⟩ := f4 a ha y (inDoc_trans h hy)
              exact .inl ⟨e, by simp [he], g⟩
            · rw [← h] at hy
              rcases f5 z hz y hy with ⟨e, he, g⟩ | g
              · exact .inl ⟨e, by simp [he], g⟩
              · exact .inr g
      · intro x hx
        rcases List.mem_append.mp hx with hx | hx
        · exact List.mem_append_left _ (f6 x hx)
        · simp only [List.mem_singleton] at hx
          subst hx
          exact List.mem_append_right _ (List.mem_singleton.mpr (by rw [hro, hri]))

/-! ## A new version -/

structure VersionPost (stmt : Kind → Bool) (c : TCtx) (root : Id) (rs : List Replace) (c' : TCtx) (root' : Id) : Prop where
  pre : c.ctx.store <+: c'.ctx.store
  good : Good c'.ctx.store
  lt : root' < c'.ctx.store.length
  ev : ∃ E, EvValid c'.ctx.store E ∧ runs stmt c'.ctx.store E c.names = .ok c'.names ∧
    /- what is made is in the new version -/
    (∀ e ∈ E, InDoc c'.ctx.store root' e.2) ∧
    /- what is removed has been replaced at its position -/
    (∀ e ∈ E, ∀ o, e.1 = some o → ∃ p, c.ctx.store.at root p = some o ∧ Affected rs p ∧ c'.ctx.store.at root' p = some e.2) ∧
    /- what is in the new version is made or was there before -/
    (∀ y, InDoc c'.ctx.store root' y → (∃ e ∈ E, e.2 = y) ∨ InDoc c.ctx.store root y) ∧
    /- all affected nodes are removed -/
    (∀ p o, c.ctx.store.at root p = some o → Affected rs p → ∃ e ∈ E, e.1 = some o)

theorem version_post {srt : List (Step × Id) → List (Step × Id)} (hsrt : Keeps srt) {c c' : TCtx} {root root' : Id} {made : List Id}
    {rs : List Replace} (hg : Good c.ctx.store) (hl : root < c.ctx.store.length) (h : NewVersion stmt srt c root made rs c' root') :
    VersionPost stmt c root rs c' root' := by
  obtain ⟨⟨c1, fuel, hw, hc⟩, hap, hused⟩ := h
  have w := work_post hg hl hw
  have hl1 : root < c1.ctx.store.length := Nat.lt_of_lt_of_le hl w.pre.length_le
  have p := cascade_post hsrt w.good hl1 w.group hap hc
  obtain ⟨E, e1, e2, e3, e4, e5, e6⟩ := w.ev
  obtain ⟨F, f1, f2, f3, f4, f5⟩ := p.ev
  have hat : ∀ q, c1.ctx.store.at root q = c.ctx.store.at root q := fun q => at_mono_iff hg.below w.pre q hl
  have hhere := p.here _ (List.mem_singleton.mpr rfl)
  have hdoc : ∀ y, InDoc c1.ctx.store root y ↔ InDoc c.ctx.store root y := fun y => inDoc_mono hg.below w.pre hl
  refine ⟨w.pre.trans p.pre, p.good, p.valid _ (List.mem_singleton.mpr rfl), E ++ F, ?_, ?_, ?_, ?_, ?_, ?_⟩
  · intro e he
    rcases List.mem_append.mp he with he | he
    · exact evValid_mono p.pre e1 e he
    · exact f1 e he
  · rw [runs_append, runs_mono w.good.below p.pre e1, e2]
    exact f2
  · intro e he
    rcases List.mem_append.mp he with he | he
    · rcases e3 e he with ⟨_, a, ha, hd⟩ | ⟨r, hr, rfl⟩
      · rw [← inDoc_mono w.good.below p.pre (w.lt a ha)] at hd
        exact inDoc_trans (hused a ha) hd
      · exact ⟨r.original.path, hhere r hr _ (by simp)⟩
    · obtain ⟨x, hx, q, o, _, _, _, g⟩ := f3 e he
      simp only [List.mem_singleton] at hx
      subst hx
      exact ⟨q, g⟩
  · intro e he o ho
    rcases List.mem_append.mp he with he | he
    · rcases e3 e he with ⟨h0, _⟩ | ⟨r, hr, rfl⟩
      · rw [h0] at ho; cases ho
      · simp only [Option.some.injEq] at ho
        subst ho
        refine ⟨r.original.path, ?_, ⟨r, hr, List.prefix_refl _⟩, hhere r hr _ (by simp)⟩
        rw [← hat]
        exact (w.group.orig r hr).2
    · obtain ⟨x, hx, q, o', g1, g2, g3, g4⟩ := f3 e he
      simp only [List.mem_singleton] at hx
      subst hx
      rw [ho] at g1
      injection g1 with g1
      subst g1
      simp only [List.nil_append] at g2 g3
      exact ⟨q, by rw [← hat]; exact g2, g3, g4⟩
  · intro y hy
    rcases f4 _ (List.mem_singleton.mpr rfl) y hy with ⟨e, he, g⟩ | ⟨r, hr, g⟩ | g
    · exact .inl ⟨e, by simp [he], g⟩
    · rw [inDoc_mono w.good.below p.pre (w.group.stored r hr)] at g
      rcases e5 r hr y g with ⟨e, he, g⟩ | g
      · exact .inl ⟨e, by simp [he], g⟩
      · exact .inr g
    · exact .inr ((hdoc y).mp g)
  · intro q o ho hq
    obtain ⟨r, hr, hpre⟩ := hq
    by_cases he : q = r.original.path
    · refine ⟨_, List.mem_append_left _ (e6 r hr), ?_⟩
      have := (w.group.orig r hr).2
      rw [hat, ← he, ho] at this
      exact this.symm
    · obtain ⟨e, he, g⟩ := f5 _ (List.mem_singleton.mpr rfl) r hr q o (by simpa using hpre) (by simpa using he) (by simpa [hat] using ho)
      exact ⟨e, by simp [he], g⟩

theorem version_complete {srt : List (Step × Id) → List (Step × Id)} (hsrt : Keeps srt) {c c' : TCtx} {root root' : Id} {made : List Id}
    {rs : List Replace} (hg : Good c.ctx.store) (hl : root < c.ctx.store.length) (h : NewVersion stmt srt c root made rs c' root')
    (hc : Complete stmt c root) (hu : Unique stmt c'.ctx.store [root']) (hst : Stay stmt c root rs c' root') : Complete stmt c' root' := by
  have v := version_post hsrt hg hl h
  obtain ⟨E, e1, e2, e3, e4, e5, e6⟩ := v.ev
  intro x key hx hk
  refine runs_found e2 ?_ ?_ ?_
  · intro e he sl k hkey hk'
    subst hkey
    exact hu root' (by simp) root' (by simp) _ _ sl k (e3 e he) hx hk' hk
  · intro e he o ho hno
    obtain ⟨p, p1, p2, p3⟩ := e4 e he o ho
    obtain ⟨q, hq⟩ := hx
    rw [named_mono hg.below v.pre (at_lt hg.below hl p1)] at hno
    rcases hst key p q o x p1 hno hq hk with rfl | hna
    · rw [p3] at hq
      injection hq with hq
      exact hq ▸ hk
    · exact absurd p2 hna
  · rcases e5 x hx with ⟨e, he, rfl⟩ | hd
    · exact .inr ⟨e, he, hk⟩
    · left
      rw [named_mono hg.below v.pre (inDoc_lt hg.below hl hd)] at hk
      exact hc x key hd hk

theorem history_complete {srt : List (Step × Id) → List (Step × Id)} (hsrt : Keeps srt) {c : TCtx} {root : Id} (h : History stmt srt c root) :
    Good c.ctx.store ∧ root < c.ctx.store.length ∧ Complete stmt c root := by
  induction h with
  | start hsh hadd hu =>
    have ha : Adds stmt _ ([] ++ [_]) := .add .start hsh hadd
    have hp := adds_post ha
    exact ⟨hp.good, hp.lt _ (by simp), adds_complete ha (by simpa using hu) (by simp)⟩
  | step _ hv hu hst ih =>
    obtain ⟨hg, hl, hc⟩ := ih
    have v := version_post hsrt hg hl hv
    exact ⟨v.good, v.lt, version_complete hsrt hg hl hv hc hu hst⟩

theorem any_sound {srt : List (Step × Id) → List (Step × Id)} (hsrt : Keeps srt) {c : TCtx} {root : Id} (h : AnyHistory stmt srt c root) :
    Good c.ctx.store ∧ root < c.ctx.store.length ∧
    ∀ sl k x, c.names.slots sl k = some x → x < c.ctx.store.length ∧ Named stmt c.ctx.store x (.slot sl k) := by
  induction h with
  | start hsh hadd =>
    have ha : Adds stmt _ ([] ++ [_]) := .add .start hsh hadd
    have hp := adds_post ha
    refine ⟨hp.good, hp.lt _ (by simp), fun sl k x hx => ?_⟩
    obtain ⟨⟨r, hr, hd⟩, hn⟩ := (adds_sound ha).1 sl k x hx
    exact ⟨inDoc_lt hp.good.below (hp.lt r hr) hd, hn⟩
  | step _ hv ih =>
    obtain ⟨hg, hl, hs⟩ := ih
    have v := version_post hsrt hg hl hv
    obtain ⟨E, e1, e2, _⟩ := v.ev
    refine ⟨v.good, v.lt, fun sl k x hx => ?_⟩
    rcases (runs_sound e2).1 sl k x hx with h | ⟨⟨e, he, h⟩, hn⟩
    · obtain ⟨h1, h2⟩ := hs sl k x h
      exact ⟨Nat.lt_of_lt_of_le h1 v.pre.length_le, (named_mono hg.below v.pre h1).mpr h2⟩
    · refine ⟨?_, hn⟩
      rcases h with rfl | h
      · exact (e1 e he).1
      · exact (e1 e he).2 x h

/-- What is found was found before and has not been removed, or is a new node of an event. -/
theorem runs_current {sl : Slot} (hsl : sl ≠ .hashtag) {k : Text} {x : Id} : ∀ {E : List Ev} {n n' : Names}, runs stmt s E n = .ok n' →
    n'.slots sl k = some x → (n.slots sl k = some x ∧ ∀ e ∈ E, e.1 = some x → ¬ Named stmt s x (.slot sl k)) ∨ ∃ e ∈ E, e.2 = x := by
  intro E
  induction E with
  | nil =>
    intro n n' h hx
    simp only [runs, Except.ok.injEq] at h
    subst h
    exact .inl ⟨hx, by simp⟩
  | cons e es ih =>
    intro n n' h hx
    simp only [runs] at h
    cases ho : occur stmt s e n with
    | error e => rw [ho] at h; simp at h
    | ok n1 =>
      rw [ho] at h
      dsimp only at h
      rcases ih h hx with ⟨h1, h2⟩ | ⟨e', he', h1⟩
      · have put : ∀ {n n' : Names}, updateTracking stmt s e.2 true n = .ok n' → n'.slots sl k = some x → e.2 = x ∨ n.slots sl k = some x := by
          intro n n' h hx
          rw [(each_put h).1] at hx
          split at hx
          · simp only [Option.some.injEq] at hx; exact .inl hx
          · exact .inr hx
        unfold occur at ho
        split at ho
        · rename_i hnone
          rcases put ho h1 with h3 | h3
          · exact .inr ⟨e, by simp, h3⟩
          · refine .inl ⟨h3, fun e' he' => ?_⟩
            rcases List.mem_cons.mp he' with rfl | he'
            · rw [hnone]; intro h; cases h
            · exact h2 e' he'
        · rename_i o hsome
          split at ho
          · simp at ho
          · rename_i n2 hd
            rcases put ho h1 with h3 | h3
            · exact .inr ⟨e, by simp, h3⟩
            · rw [(each_drop hd).1] at h3
              split at h3
              · simp [hsl] at h3
              · rename_i hm
                refine .inl ⟨h3, fun e' he' => ?_⟩
                rcases List.mem_cons.mp he' with rfl | he'
                · rw [hsome]
                  intro h hn
                  injection h with h
                  subst h
                  exact hm (marks_at.mpr hn)
                · exact h2 e' he'
      · exact .inr ⟨e', by simp [he'], h1⟩

theorem kept_current {srt : List (Step × Id) → List (Step × Id)} (hsrt : Keeps srt) {c : TCtx} {root : Id} (h : KeptHistory stmt srt c root) :
    Good c.ctx.store ∧ root < c.ctx.store.length ∧
    ∀ sl k x, sl ≠ .hashtag → c.names.slots sl k = some x → InDoc c.ctx.store root x ∧ Named stmt c.ctx.store x (.slot sl k) := by
  induction h with
  | start hsh hadd =>
    have ha : Adds stmt _ ([] ++ [_]) := .add .start hsh hadd
    have hp := adds_post ha
    refine ⟨hp.good, hp.lt _ (by simp), fun sl k x _ hx => ?_⟩
    obtain ⟨⟨r, hr, hd⟩, hn⟩ := (adds_sound ha).1 sl k x hx
    simp only [List.nil_append, List.mem_singleton] at hr
    exact ⟨hr ▸ hd, hn⟩
  | @step c root made rs c' root' _ hv hk ih =>
    obtain ⟨hg, hl, hs⟩ := ih
    have v := version_post hsrt hg hl hv
    obtain ⟨E, e1, e2, e3, e4, e5, e6⟩ := v.ev
    refine ⟨v.good, v.lt, fun sl k x hsl hx => ?_⟩
    have hn : Named stmt c'.ctx.store x (.slot sl k) := by
      rcases (runs_sound e2).1 sl k x hx with h | ⟨_, hn⟩
      · obtain ⟨h1, h2⟩ := hs sl k x hsl h
        exact (named_mono hg.below v.pre (inDoc_lt hg.below hl h1)).mpr h2
      · exact hn
    refine ⟨?_, hn⟩
    rcases runs_current hsl e2 hx with ⟨h1, h2⟩ | ⟨e, he, rfl⟩
    · obtain ⟨⟨p, hp⟩, h3⟩ := hs sl k x hsl h1
      rcases hk p x sl k hp h3 with ha | hd
      · obtain ⟨e, he, ho⟩ := e6 p x hp ha
        exact absurd hn (h2 e he ho)
      · exact hd
    · exact e3 e he

end Verif.Track
