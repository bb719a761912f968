import Verif.Track.Events
import Verif.Imm.CascadeOk

/-!
# The names after a cascade
-/

namespace Verif.Track

open Verif.Imm

variable {stmt : Kind → Bool} {s : Store Info} {root : Id} {rs : List Replace} {ps : List Uniq}

/-- The replacements of a group. -/
structure Setup (s : Store Info) (root : Id) (rs : List Replace) (ps : List Uniq) : Prop where
  below : Below s
  lt : root < s.length
  orig : ∀ r ∈ rs, r.original.root = root ∧ s.at root r.original.path = some r.original.id
  repl : ∀ r ∈ rs, r.replaced.root = root ∧ r.replaced.path = r.original.path
  stored : ∀ r ∈ rs, r.replaced.id < s.length
  apart : Apart rs
  above : ∀ u : Uniq, u ∈ ps ↔ ∃ r ∈ rs, u.root = root ∧ s.at root u.path = some u.id ∧
    ((u.path <+: r.original.path ∧ u.path ≠ r.original.path) ∨ u.path = [])

theorem setup_find (h : Setup s root rs ps) {r : Replace} (hr : r ∈ rs) {u : Uniq} (hu : u.root = root)
    (hat : s.at root u.path = some u.id) (hp : r.original.path = u.path) : edit? rs u = some r.replaced := by
  have he : r.original = u := by
    obtain ⟨o1, o2⟩ := h.orig r hr
    rw [hp, hat] at o2
    injection o2 with o2
    cases hro : r.original with
    | mk i ro pa =>
      rw [hro] at o1 o2 hp
      cases u with
      | mk i' ro' pa' =>
        simp only at o1 o2 hp hu
        rw [o1, ← o2, hp, hu]
  unfold edit?
  cases hf : rs.find? (fun x => decide (x.original = u)) with
  | none =>
    rw [List.find?_eq_none] at hf
    exact absurd (hf r hr) (by simp [he])
  | some x =>
    have h1 := List.mem_of_find?_eq_some hf
    have h2 := List.find?_some hf
    simp only [decide_eq_true_eq] at h2
    have := apart_eq h.apart h1 hr (by rw [h2, hp])
    rw [this]
    rfl

/-- What is known after the positions have been updated. -/
structure Post (stmt : Kind → Bool) (s : Store Info) (root : Id) (rs : List Replace) (c c' : TCtx) (l : List (Uniq × Id)) : Prop where
  pre : c.ctx.store <+: c'.ctx.store
  good : Good c'.ctx.store
  valid : ∀ x ∈ l, x.2 < c'.ctx.store.length
  ev : ∃ E, EvValid c'.ctx.store E ∧ runs stmt c'.ctx.store E c.names = .ok c'.names ∧
    (∀ e ∈ E, ∃ x ∈ l, ∃ q o, e.1 = some o ∧ s.at root (x.1.path ++ q) = some o ∧ Affected rs (x.1.path ++ q) ∧
      c'.ctx.store.at x.2 q = some e.2) ∧
    (∀ x ∈ l, ∀ y, InDoc c'.ctx.store x.2 y → (∃ e ∈ E, e.2 = y) ∨ (∃ r ∈ rs, InDoc c'.ctx.store r.replaced.id y) ∨ InDoc s root y) ∧
    (∀ x ∈ l, ∀ r ∈ rs, ∀ q o, x.1.path ++ q <+: r.original.path → x.1.path ++ q ≠ r.original.path → s.at root (x.1.path ++ q) = some o →
      ∃ e ∈ E, e.1 = some o)
  here : ∀ x ∈ l, ∀ r ∈ rs, ∀ q, r.original.path = x.1.path ++ q → c'.ctx.store.at x.2 q = some r.replaced.id

theorem post_nil {c : TCtx} (hg : Good c.ctx.store) : Post stmt s root rs c c [] :=
  ⟨List.prefix_refl _, hg, by simp, ⟨[], by simp [EvValid], rfl, by simp, by simp, by simp⟩, by simp⟩

theorem post_cons (h : Setup s root rs ps) {c c1 c2 : TCtx} {x : Uniq × Id} {l : List (Uniq × Id)} (hs : s <+: c.ctx.store)
    (h1 : Post stmt s root rs c c1 [x]) (h2 : Post stmt s root rs c1 c2 l) : Post stmt s root rs c c2 (x :: l) := by
  obtain ⟨E, e1, e2, e3, e4, e5⟩ := h1.ev
  obtain ⟨F, f1, f2, f3, f4, f5⟩ := h2.ev
  have hx : x.2 < c1.ctx.store.length := h1.valid x (by simp)
  have hs1 := hs.trans h1.pre
  refine ⟨h1.pre.trans h2.pre, h2.good, ?_, ⟨E ++ F, ?_, ?_, ?_, ?_, ?_⟩, ?_⟩
  · intro y hy
    rcases List.mem_cons.mp hy with rfl | hy
    · exact Nat.lt_of_lt_of_le hx h2.pre.length_le
    · exact h2.valid y hy
  · intro e he
    rcases List.mem_append.mp he with he | he
    · exact evValid_mono h2.pre e1 e he
    · exact f1 e he
  · rw [runs_append, runs_mono h1.good.below h2.pre e1, e2]
    exact f2
  · intro e he
    rcases List.mem_append.mp he with he | he
    · obtain ⟨y, hy, q, o, g1, g2, g3, g4⟩ := e3 e he
      simp only [List.mem_singleton] at hy
      subst hy
      refine ⟨y, by simp, q, o, g1, g2, g3, ?_⟩
      rw [at_mono_iff h1.good.below h2.pre q hx]
      exact g4
    · obtain ⟨y, hy, g⟩ := f3 e he
      exact ⟨y, by simp [hy], g⟩
  · intro y hy z hz
    rcases List.mem_cons.mp hy with rfl | hy
    · rw [inDoc_mono h1.good.below h2.pre hx] at hz
      rcases e4 y (by simp) z hz with ⟨e, he, g⟩ | ⟨r, hr, g⟩ | g
      · exact .inl ⟨e, by simp [he], g⟩
      · refine .inr (.inl ⟨r, hr, ?_⟩)
        rw [inDoc_mono h1.good.below h2.pre (Nat.lt_of_lt_of_le (h.stored r hr) hs1.length_le)]
        exact g
      · exact .inr (.inr g)
    · rcases f4 y hy z hz with ⟨e, he, g⟩ | g
      · exact .inl ⟨e, by simp [he], g⟩
      · exact .inr g
  · intro y hy r hr q o g1 g2 g3
    rcases List.mem_cons.mp hy with rfl | hy
    · obtain ⟨e, he, g⟩ := e5 y (by simp) r hr q o g1 g2 g3
      exact ⟨e, by simp [he], g⟩
    · obtain ⟨e, he, g⟩ := f5 y hy r hr q o g1 g2 g3
      exact ⟨e, by simp [he], g⟩
  · intro y hy r hr q hq
    rcases List.mem_cons.mp hy with rfl | hy
    · rw [at_mono_iff h1.good.below h2.pre q hx]
      exact h1.here y (by simp) r hr q hq
    · exact h2.here y hy r hr q hq

theorem affected_above (h : Setup s root rs ps) {u : Uniq} (hu : u ∈ ps) : Affected rs u.path := by
  obtain ⟨r, hr, _, _, hx⟩ := (h.above u).mp hu
  refine ⟨r, hr, ?_⟩
  rcases hx with hx | hx
  · exact hx.1
  · rw [hx]; exact List.nil_prefix

/-- The loop over the children. -/
theorem updateAll_post (h : Setup s root rs ps) {f : Uniq → TCtx → Except Err (Id × TCtx)}
    (hf : ∀ (u : Uniq) (c c' : TCtx) (id' : Id), s <+: c.ctx.store → Good c.ctx.store → u.root = root → s.at root u.path = some u.id →
      f u c = .ok (id', c') → Post stmt s root rs c c' [(u, id')]) :
    ∀ (us : List Uniq) (c c' : TCtx) (ids : List Id), s <+: c.ctx.store → Good c.ctx.store →
      (∀ u ∈ us, u.root = root ∧ s.at root u.path = some u.id) → updateAll f us c = .ok (ids, c') →
      Post stmt s root rs c c' (List.zip us ids) ∧ ids.length = us.length := by
  intro us
  induction us with
  | nil =>
    intro c c' ids _ hg _ hr
    simp only [updateAll, Except.ok.injEq, Prod.mk.injEq] at hr
    obtain ⟨rfl, rfl⟩ := hr
    exact ⟨post_nil hg, rfl⟩
  | cons u us ihu =>
    intro c c' ids hs hg hus hr
    rw [updateAll] at hr
    split at hr
    · simp at hr
    · rename_i id c1 h1
      split at hr
      · simp at hr
      · rename_i ids' c2 h2
        simp only [Except.ok.injEq, Prod.mk.injEq] at hr
        obtain ⟨rfl, rfl⟩ := hr
        have p1 := hf u c c1 id hs hg (hus u (by simp)).1 (hus u (by simp)).2 h1
        obtain ⟨p2, l2⟩ := ihu c1 c2 ids' (hs.trans p1.pre) p1.good (fun x hx => hus x (by simp [hx])) h2
        exact ⟨post_cons h hs p1 p2, by simp [l2]⟩

theorem recurse_post {srt : List (Step × Id) → List (Step × Id)} (hsrt : Keeps srt) (h : Setup s root rs ps)
    (hnr : ∀ r ∈ rs, r.original.path ≠ []) : ∀ (fuel : Nat),
    (∀ (u : Uniq) (c c' : TCtx) (id' : Id), s <+: c.ctx.store → Good c.ctx.store → u.root = root → s.at root u.path = some u.id →
      recurse stmt srt rs ps fuel u c = .ok (id', c') → Post stmt s root rs c c' [(u, id')]) := by
  intro fuel
  induction fuel with
  | zero => exact fun u c c' id' _ _ _ _ hr => by simp [recurse] at hr
  | succ fuel ih =>
    intro u c c' id' hs hg hu hat hr
    rw [recurse] at hr
    have hult : u.id < s.length := at_lt h.below h.lt hat
    split at hr
    · rename_i hin
      have hnone : edit? rs u = none := by
        cases he : edit? rs u with
        | none => rfl
        | some e =>
          exfalso
          obtain ⟨r, hr, h1, _⟩ := edit?_mem he
          obtain ⟨r', hr', _, _, hx⟩ := (h.above _).mp hin
          rcases hx with hx | hx
          · have := apart_eq h.apart hr hr' (by rw [h1]; exact hx.1)
            rw [← this, h1] at hx
            exact hx.2 rfl
          · exact hnr r hr (by rw [h1, hx])
      rw [hnone] at hr
      simp only [Option.getD_none] at hr
      obtain ⟨v, hv⟩ : ∃ v, s[u.id]? = some v := ⟨s[u.id], by simp [hult]⟩
      have hvc := getElem?_prefix hs hv
      have hsub : c.ctx.store.subnodes u = v.kids.map (fun k : Step × Id => (⟨k.2, u.root, u.path ++ [k.1]⟩ : Uniq)) := by
        simp only [Store.subnodes, Store.kids]
        rw [hvc]
      have hnd : (v.kids.map (·.1)).Nodup := shaped_nodup (hg.shaped _ _ hvc)
      split at hr
      · simp at hr
      · rename_i ids c1 hl
        rw [hsub] at hl
        obtain ⟨hp, hlen⟩ := updateAll_post h ih _ c c1 ids hs hg (by
          intro w hw
          simp only [List.mem_map] at hw
          obtain ⟨k, hk, rfl⟩ := hw
          refine ⟨hu, ?_⟩
          simp only
          rw [at_append, hat]
          simp only [Option.bind_some, Store.at]
          rw [atStep_kid hv hnd hk]) hl
        rw [List.length_map] at hlen
        have hv1 := getElem?_prefix hp.pre hvc
        split at hr
        · split at hr
          · rename_i hok
            simp [replaceOk] at hok
          · simp at hr
        · rw [hv1] at hr
          dsimp only at hr
          have hzip : (List.zip (v.kids.map (·.1)) ids).map (·.1) = v.kids.map (·.1) := by
            rw [List.map_fst_zip]
            rw [hlen, List.length_map]
          have hsh : Shaped ((List.zip (v.kids.map (·.1)) ids).map (·.1)) := by
            rw [hzip]; exact hg.shaped _ _ hvc
          rw [newKids_self hsrt hsh hzip.symm] at hr
          dsimp only at hr
          have hmem : ∀ k ∈ List.zip (v.kids.map (·.1)) ids, ∃ x ∈ List.zip (v.kids.map (fun k : Step × Id => (⟨k.2, u.root, u.path ++ [k.1]⟩ : Uniq))) ids,
              x.1.path = u.path ++ [k.1] ∧ x.2 = k.2 := by
            intro k hk
            rw [List.zip_map_left] at hk ⊢
            simp only [List.mem_map] at hk ⊢
            obtain ⟨a, ha, rfl⟩ := hk
            exact ⟨_, ⟨a, ha, rfl⟩, rfl, rfl⟩
          have hmem' : ∀ x ∈ List.zip (v.kids.map (fun k : Step × Id => (⟨k.2, u.root, u.path ++ [k.1]⟩ : Uniq))) ids,
              ∃ st, (st, x.2) ∈ List.zip (v.kids.map (·.1)) ids ∧ x.1.path = u.path ++ [st] := by
            intro x hx
            rw [List.zip_map_left] at hx ⊢
            simp only [List.mem_map] at hx ⊢
            obtain ⟨a, ha, rfl⟩ := hx
            exact ⟨a.1.1, ⟨a, ha, rfl⟩, rfl⟩
          have hval : ∀ k ∈ List.zip (v.kids.map (·.1)) ids, k.2 < c1.ctx.store.length := by
            intro k hk
            obtain ⟨x, hx, _, hx2⟩ := hmem k hk
            rw [← hx2]
            exact hp.valid x hx
          have hprop : Proper c1.ctx.store (List.zip (v.kids.map (·.1)) ids) := ⟨hval, hsh⟩
          obtain ⟨ct, nn⟩ := c1
          dsimp only at hp hval hprop hv1
          rw [setNode_events] at hr
          generalize hn : ({ v with kids := List.zip (v.kids.map (·.1)) ids } : Val Info) = nv at hr
          have hnk : nv.kids = List.zip (v.kids.map (·.1)) ids := by rw [← hn]
          have hgood := setNode_good hp.good u (v := nv) (by rw [hnk]; exact hprop)
          have hpre : ct.store <+: (Imm.setNode ct u nv).2.store := setNode_prefix _ _ _
          obtain ⟨w, hw1, hw2⟩ := add_val ct.store nv
          obtain ⟨-, -, k3⟩ := same_iff.1 hw2
          rw [hnk] at k3
          have hst := setNode_store ct u nv
          have hlt := add_lt ct.store nv
          have hnew : (Imm.setNode ct u nv).2.store[(ct.store.add nv).1]? = some w := by rw [hst]; exact hw1
          have hndw : (w.kids.map (·.1)).Nodup := shaped_nodup (hgood.shaped _ _ hnew)
          cases hrun : runs stmt (Imm.setNode ct u nv).2.store [(some u.id, (ct.store.add nv).1)] nn with
          | error e => rw [hrun] at hr; simp at hr
          | ok n' =>
            rw [hrun] at hr
            dsimp only at hr
            split at hr
            · simp at hr
            · rename_i rr cc hmatch
              simp only [Except.ok.injEq, Prod.mk.injEq] at hmatch
              obtain ⟨hm1, rfl⟩ := hmatch
              split at hr
              · simp only [Except.ok.injEq, Prod.mk.injEq] at hr
                obtain ⟨rfl, rfl⟩ := hr
                have hid : (ct.store.add nv).1 = rr.replaced.id := by
                  unfold Imm.setNode at hm1
                  dsimp only at hm1
                  split at hm1
                  · simp at hm1
                  · simp only [Option.some.injEq] at hm1
                    rw [← hm1]
                rw [← hid]
                obtain ⟨E, e1, e2, e3, e4, e5⟩ := hp.ev
                refine ⟨hp.pre.trans hpre, hgood, ?_, ⟨E ++ [(some u.id, (ct.store.add nv).1)], ?_, ?_, ?_, ?_, ?_⟩, ?_⟩
                · intro x hx
                  simp only [List.mem_singleton] at hx
                  subst hx
                  dsimp only
                  rw [hst]; exact hlt
                · intro e he
                  rcases List.mem_append.mp he with he | he
                  · exact evValid_mono hpre e1 e he
                  · simp only [List.mem_singleton] at he
                    subst he
                    refine ⟨by dsimp only; rw [hst]; exact hlt, ?_⟩
                    intro o ho
                    simp only [Option.some.injEq] at ho
                    subst ho
                    exact Nat.lt_of_lt_of_le hult ((hs.trans hp.pre).trans hpre).length_le
                · dsimp only
                  rw [runs_append, runs_mono hp.good.below hpre e1, e2]
                  exact hrun
                · intro e he
                  refine ⟨_, List.mem_singleton.mpr rfl, ?_⟩
                  dsimp only
                  rcases List.mem_append.mp he with he | he
                  · obtain ⟨x, hx, q, o, g1, g2, g3, g4⟩ := e3 e he
                    obtain ⟨st, hst1, hst2⟩ := hmem' x hx
                    rw [hst2] at g2 g3
                    refine ⟨st :: q, o, g1, by simpa using g2, by simpa using g3, ?_⟩
                    have : (Imm.setNode ct u nv).2.store.atStep (ct.store.add nv).1 st = some x.2 :=
                      atStep_kid hnew hndw (by rw [← k3]; exact hst1)
                    simp only [Store.at, this]
                    rw [at_mono_iff hp.good.below hpre q (hp.valid x hx)]
                    exact g4
                  · simp only [List.mem_singleton] at he
                    subst he
                    refine ⟨[], u.id, rfl, by simpa using hat, by simpa using affected_above h hin, rfl⟩
                · intro x hx y hy
                  simp only [List.mem_singleton] at hx
                  subst hx
                  dsimp only at hy
                  rw [inDoc_kid hnew hndw] at hy
                  rcases hy with rfl | ⟨k, hk, hy⟩
                  · exact .inl ⟨_, List.mem_append_right _ (List.mem_singleton.mpr rfl), rfl⟩
                  · rw [← k3] at hk
                    rw [inDoc_mono hp.good.below hpre (hval k hk)] at hy
                    obtain ⟨x, hx, _, hx2⟩ := hmem k hk
                    rw [← hx2] at hy
                    rcases e4 x hx y hy with ⟨e, he, g⟩ | ⟨r, hr, g⟩ | g
                    · exact .inl ⟨e, List.mem_append_left _ he, g⟩
                    · refine .inr (.inl ⟨r, hr, ?_⟩)
                      rw [inDoc_mono hp.good.below hpre (Nat.lt_of_lt_of_le (h.stored r hr) (hs.trans hp.pre).length_le)]
                      exact g
                    · exact .inr (.inr g)
                · intro x hx r hr q o g1 g2 g3
                  simp only [List.mem_singleton] at hx
                  subst hx
                  dsimp only at g1 g2 g3
                  cases q with
                  | nil =>
                    refine ⟨_, List.mem_append_right _ (List.mem_singleton.mpr rfl), ?_⟩
                    rw [List.append_nil, hat] at g3
                    exact g3
                  | cons st q =>
                    have g4 := g3
                    rw [at_append, hat] at g4
                    simp only [Option.bind_some, Store.at] at g4
                    cases hk : s.atStep u.id st with
                    | none => rw [hk] at g4; simp at g4
                    | some kid =>
                      have hkm := atStep_inv hv hk
                      have hkm1 : st ∈ v.kids.map (·.1) := List.mem_map.mpr ⟨_, hkm, rfl⟩
                      rw [← hzip, List.mem_map] at hkm1
                      obtain ⟨k', hk', rfl⟩ := hkm1
                      obtain ⟨x, hx, hx1, hx2⟩ := hmem k' hk'
                      have hpath : x.1.path ++ q = u.path ++ k'.1 :: q := by rw [hx1]; simp
                      obtain ⟨e, he, g⟩ := e5 x hx r hr q o (by rw [hpath]; exact g1) (by rw [hpath]; exact g2) (by rw [hpath]; exact g3)
                      exact ⟨e, List.mem_append_left _ he, g⟩
                · intro x hx r hr q hq
                  simp only [List.mem_singleton] at hx
                  subst hx
                  dsimp only at hq ⊢
                  cases q with
                  | nil =>
                    have := setup_find h hr hu hat (by simpa using hq)
                    rw [hnone] at this
                    cases this
                  | cons st q =>
                    have ho := (h.orig r hr).2
                    rw [hq, at_append, hat] at ho
                    simp only [Option.bind_some, Store.at] at ho
                    cases hk : s.atStep u.id st with
                    | none => rw [hk] at ho; simp at ho
                    | some kid =>
                      have hkm := atStep_inv hv hk
                      have hkm1 : st ∈ v.kids.map (·.1) := List.mem_map.mpr ⟨_, hkm, rfl⟩
                      rw [← hzip, List.mem_map] at hkm1
                      obtain ⟨k', hk', rfl⟩ := hkm1
                      obtain ⟨x, hx, hx1, hx2⟩ := hmem k' hk'
                      have := hp.here x hx r hr q (by rw [hx1, hq]; simp)
                      simp only [Store.at, atStep_kid hnew hndw (by rw [← k3]; exact hk')]
                      rw [at_mono_iff hp.good.below hpre q (hval k' hk'), ← hx2]
                      exact this
              · simp at hr
            · simp at hr
    · rename_i hout
      split at hr
      · rename_i e he
        split at hr
        · simp only [Except.ok.injEq, Prod.mk.injEq] at hr
          obtain ⟨rfl, rfl⟩ := hr
          obtain ⟨r, hr, h1, h2⟩ := edit?_mem he
          refine ⟨List.prefix_refl _, hg, ?_, ⟨[], by simp [EvValid], rfl, by simp, ?_, ?_⟩, ?_⟩
          · intro x hx
            simp only [List.mem_singleton] at hx
            subst hx
            dsimp only
            rw [← h2]
            exact Nat.lt_of_lt_of_le (h.stored r hr) hs.length_le
          · intro x hx y hy
            simp only [List.mem_singleton] at hx
            subst hx
            exact .inr (.inl ⟨r, hr, by rw [h2]; exact hy⟩)
          · intro x hx r' hr' q o g1 g2 _
            simp only [List.mem_singleton] at hx
            subst hx
            dsimp only at g1 g2
            have := apart_eq h.apart hr hr' (by rw [h1]; exact (List.prefix_append _ _).trans g1)
            subst this
            rw [h1] at g1 g2
            exact absurd (g1.eq_of_length_le (by simp)) g2
          · intro x hx r' hr' q hq
            simp only [List.mem_singleton] at hx
            subst hx
            dsimp only at hq ⊢
            have := apart_eq h.apart hr hr' (by rw [h1, hq]; exact List.prefix_append _ _)
            subst this
            rw [h1] at hq
            have : q = [] := by simpa using hq
            subst this
            simp [Store.at, h2]
        · simp at hr
      · rename_i hnone
        simp only [Except.ok.injEq, Prod.mk.injEq] at hr
        obtain ⟨rfl, rfl⟩ := hr
        refine ⟨List.prefix_refl _, hg, ?_, ⟨[], by simp [EvValid], rfl, by simp, ?_, ?_⟩, ?_⟩
        · intro x hx
          simp only [List.mem_singleton] at hx
          subst hx
          exact Nat.lt_of_lt_of_le hult hs.length_le
        · intro x hx y hy
          simp only [List.mem_singleton] at hx
          subst hx
          dsimp only at hy
          rw [inDoc_mono h.below hs hult] at hy
          exact .inr (.inr (inDoc_trans ⟨_, hat⟩ hy))
        · intro x hx r hr q o g1 g2 _
          simp only [List.mem_singleton] at hx
          subst hx
          dsimp only at g1 g2
          exfalso
          have hpre : u.path <+: r.original.path := (List.prefix_append _ _).trans g1
          by_cases hpe : u.path = r.original.path
          · have := setup_find h hr hu hat hpe.symm
            rw [hnone] at this
            cases this
          · exact hout ((h.above u).mpr ⟨r, hr, hu, hat, .inl ⟨hpre, hpe⟩⟩)
        · intro x hx r hr q hq
          simp only [List.mem_singleton] at hx
          subst hx
          dsimp only at hq
          exfalso
          by_cases hq0 : q = []
          · have := setup_find h hr hu hat (by rw [hq, hq0]; simp)
            rw [hnone] at this
            cases this
          · refine hout ((h.above u).mpr ⟨r, hr, hu, hat, .inl ⟨by rw [hq]; exact List.prefix_append _ _, ?_⟩⟩)
            rw [hq]
            intro he
            exact hq0 (by simpa using he.symm)

/-- The recursion does nothing where nothing is replaced. -/
theorem updateAll_idle {srt : List (Step × Id) → List (Step × Id)} {c : TCtx} {fuel : Nat} : ∀ {us : List Uniq} {ids : List Id} {c' : TCtx},
    (∀ u ∈ us, u ∉ ps ∧ edit? rs u = none) → updateAll (recurse stmt srt rs ps fuel) us c = .ok (ids, c') → ids = us.map (·.id) ∧ c' = c := by
  intro us
  induction us with
  | nil =>
    intro ids c' _ h
    simp only [updateAll, Except.ok.injEq, Prod.mk.injEq] at h
    exact ⟨h.1.symm, h.2.symm⟩
  | cons u us ih =>
    intro ids c' hus h
    obtain ⟨h1, h2⟩ := hus u (by simp)
    rw [updateAll] at h
    cases fuel with
    | zero => simp [recurse] at h
    | succ fuel =>
      rw [recurse, if_neg h1, h2] at h
      dsimp only at h
      split at h
      · simp at h
      · rename_i ids' c2 h3
        simp only [Except.ok.injEq, Prod.mk.injEq] at h
        obtain ⟨rfl, rfl⟩ := h
        obtain ⟨g1, g2⟩ := ih (fun x hx => hus x (by simp [hx])) h3
        exact ⟨by simp [g1], g2⟩

theorem inclAll_eq {s : Store Info} : ∀ {rs acc l : List Replace}, inclAll s acc rs = .ok l → l = acc ++ rs := by
  intro rs
  induction rs with
  | nil => intro acc l h; simp only [inclAll, Except.ok.injEq] at h; simp [h]
  | cons r rs ih =>
    intro acc l h
    simp only [inclAll] at h
    split at h
    · simp at h
    · split at h
      · rw [ih h]; simp
      · simp at h

/-- The replacements as they are made by `setNode`. -/
structure Group (s : Store Info) (root : Id) (rs : List Replace) : Prop where
  orig : ∀ r ∈ rs, r.original.root = root ∧ s.at root r.original.path = some r.original.id
  repl : ∀ r ∈ rs, r.replaced.root = root ∧ r.replaced.path = r.original.path
  stored : ∀ r ∈ rs, r.replaced.id < s.length

theorem cascade_post {srt : List (Step × Id) → List (Step × Id)} (hsrt : Keeps srt) {c c' : TCtx} {root' : Id} {fuel : Nat}
    (hg : Good c.ctx.store) (hlt : root < c.ctx.store.length) (hgr : Group c.ctx.store root rs) (hap : Apart rs)
    (h : cascade stmt srt fuel c root rs = .ok (root', c')) :
    Post stmt c.ctx.store root rs c c' [(⟨root, root, []⟩, root')] := by
  unfold cascade at h
  split at h
  · simp at h
  · rename_i rs' hi
    have := inclAll_eq hi
    simp only [List.nil_append] at this
    subst this
    split at h
    · simp at h
    · rename_i ps hps
      obtain ⟨pl, hpl, hplm⟩ := mapM_ok_iff (f := fun r : Replace => c.ctx.store.parentChain r.original) (l := rs') (by
        intro r hr
        obtain ⟨l, h, _⟩ := parentChain_mem (s := c.ctx.store) (u := r.original) (by
          rw [(hgr.orig r hr).1]; exact (hgr.orig r hr).2)
        exact ⟨l, h⟩)
      have hps' : editParents c.ctx.store rs' = .ok pl.flatten := by
        unfold editParents
        rw [hpl]
        rfl
      rw [hps] at hps'
      injection hps' with hps'
      subst hps'
      have habove : ∀ u : Uniq, u ∈ pl.flatten ↔ ∃ r ∈ rs', u.root = root ∧ c.ctx.store.at root u.path = some u.id ∧
          ((u.path <+: r.original.path ∧ u.path ≠ r.original.path) ∨ u.path = []) := by
        intro u
        rw [List.mem_flatten]
        constructor
        · rintro ⟨l, hl, hu⟩
          obtain ⟨r, hr, he⟩ := (hplm l).1 hl
          have hpos := hgr.orig r hr
          obtain ⟨l', h1, h2⟩ := parentChain_mem (s := c.ctx.store) (u := r.original) (by rw [hpos.1]; exact hpos.2)
          rw [he] at h1
          injection h1 with h1
          subst h1
          have := (h2 u).1 hu
          rw [hpos.1] at this
          exact ⟨r, hr, this⟩
        · rintro ⟨r, hr, hx⟩
          have hpos := hgr.orig r hr
          obtain ⟨l', h1, h2⟩ := parentChain_mem (s := c.ctx.store) (u := r.original) (by rw [hpos.1]; exact hpos.2)
          refine ⟨l', (hplm l').2 ⟨r, hr, h1⟩, (h2 u).2 ?_⟩
          rw [hpos.1]
          exact hx
      have hS : Setup c.ctx.store root rs' pl.flatten := ⟨hg.below, hlt, hgr.orig, hgr.repl, hgr.stored, hap, habove⟩
      by_cases hre : ∃ r ∈ rs', r.original.path = []
      · obtain ⟨r, hr, hrp⟩ := hre
        have hall : ∀ r' ∈ rs', r' = r := fun r' hr' =>
          (apart_eq hap hr hr' (by rw [hrp]; exact List.nil_prefix)).symm
        cases fuel with
        | zero => simp [recurse] at h
        | succ fuel =>
          have hin : (⟨root, root, []⟩ : Uniq) ∈ pl.flatten := (habove _).2 ⟨r, hr, rfl, rfl, .inr rfl⟩
          have hfind := setup_find hS hr (u := ⟨root, root, []⟩) rfl rfl hrp
          rw [recurse, if_pos hin, hfind] at h
          simp only [Option.getD_some] at h
          split at h
          · simp at h
          · rename_i ids c1 hl
            obtain ⟨rfl, rfl⟩ := updateAll_idle (by
              intro u hu
              simp only [Store.subnodes, List.mem_map] at hu
              obtain ⟨k, hk, rfl⟩ := hu
              refine ⟨?_, ?_⟩
              · intro hin
                obtain ⟨r', hr', _, _, hx⟩ := (habove _).1 hin
                rw [hall r' hr', hrp] at hx
                rcases hx with hx | hx
                · simp at hx
                · simp at hx
              · cases he : edit? rs' ⟨k.2, r.replaced.root, r.replaced.path ++ [k.1]⟩ with
                | none => rfl
                | some e =>
                  obtain ⟨x, hx, h1, _⟩ := edit?_mem he
                  rw [hall x hx] at h1
                  have := congrArg Uniq.path h1
                  rw [hrp] at this
                  simp at this) hl
            have : List.map (fun x : Uniq => x.id) (c1.ctx.store.subnodes r.replaced) = (c1.ctx.store.kids r.replaced.id).map (·.2) := by
              simp [Store.subnodes]
            rw [this, if_pos rfl] at h
            split at h
            · simp only [Except.ok.injEq, Prod.mk.injEq] at h
              obtain ⟨rfl, rfl⟩ := h
              refine ⟨List.prefix_refl _, hg, ?_, ⟨[], by simp [EvValid], rfl, by simp, ?_, ?_⟩, ?_⟩
              · intro x hx
                simp only [List.mem_singleton] at hx
                subst hx
                exact hgr.stored r hr
              · intro x hx y hy
                simp only [List.mem_singleton] at hx
                subst hx
                exact .inr (.inl ⟨r, hr, hy⟩)
              · intro x hx r' hr' q o g1 g2 _
                simp only [List.mem_singleton] at hx
                subst hx
                rw [hall r' hr', hrp] at g1 g2
                exact absurd (by simpa using g1) g2
              · intro x hx r' hr' q hq
                simp only [List.mem_singleton] at hx
                subst hx
                simp only [List.nil_append] at hq
                rw [hall r' hr', hrp] at hq
                subst hq
                rw [hall r' hr']
                rfl
            · simp at h
      · exact recurse_post hsrt hS (fun r hr he => hre ⟨r, hr, he⟩) fuel ⟨root, root, []⟩ c c' root' (List.prefix_refl _) hg rfl rfl h

end Verif.Track
