import Verif.Radio.Spec
import Mathlib.Data.List.Basic

/-! # Properties of the grouping (C32) -/

namespace Verif.Radio

variable {α : Type} {v : View α}

/-! ## The search -/

theorem search_some : ∀ {xs : List α} {ws : List String} {off k : Nat}, searchLoop v xs ws off = .ok (some k) →
    off ≤ k ∧ k - off < xs.length ∧ Spells v (xs.take (k - off + 1)) ws ∧
      ∃ y w, (xs.take (k - off + 1)).getLast? = some y ∧ ws.getLast? = some w ∧ v.leaf y = some w := by
  intro xs
  induction xs with
  | nil =>
    intro ws off k h
    cases ws <;> simp [searchLoop] at h
  | cons x xs ih =>
    intro ws off k h
    cases ws with
    | nil => simp [searchLoop] at h
    | cons w ws =>
      rw [searchLoop] at h
      split at h
      · simp at h
      · rename_i text ht
        split at h
        · rename_i hw
          subst hw
          split at h
          · rename_i he
            simp only [Except.ok.injEq, Option.some.injEq] at h
            subst h
            rw [List.isEmpty_iff] at he
            subst he
            refine ⟨Nat.le_refl _, by simp, ?_, ?_⟩
            · simp only [Nat.sub_self, Nat.zero_add, List.take_succ_cons, List.take_zero]
              exact .word ht .nil
            · exact ⟨x, text, by simp, by simp, ht⟩
          · rename_i he
            obtain ⟨h1, h2, h3, y, w', h4, h5, h6⟩ := ih h
            have e : k - off = k - (off + 1) + 1 := by omega
            rw [e]
            refine ⟨by omega, by simp only [List.length_cons]; omega, ?_, y, w', ?_, ?_, h6⟩
            · rw [List.take_succ_cons]
              exact .word ht h3
            · rw [List.take_succ_cons, List.getLast?_cons, h4]
              rfl
            · rw [List.getLast?_cons, h5]
              rfl
        · split at h
          · rename_i hs
            obtain ⟨h1, h2, h3, y, w', h4, h5, h6⟩ := ih h
            have e : k - off = k - (off + 1) + 1 := by omega
            rw [e]
            refine ⟨by omega, by simp only [List.length_cons]; omega, ?_, y, w', ?_, h5, h6⟩
            · rw [List.take_succ_cons]
              exact .space hs (by rw [ht]; rfl) h3
            · rw [List.take_succ_cons, List.getLast?_cons, h4]
              rfl
          · simp at h

theorem search_none : ∀ {xs : List α} {ws : List String} {off : Nat}, searchLoop v xs ws off = .ok none → ws ≠ [] →
    (∀ x ∈ xs, v.space x = true → ∀ w ∈ ws, v.leaf x ≠ some w) → ∀ ns, ns <+: xs → ¬ Spells v ns ws := by
  intro xs
  induction xs with
  | nil =>
    intro ws off h hne _ ns hns hsp
    rw [List.prefix_nil] at hns
    subst hns
    cases hsp
    exact hne rfl
  | cons x xs ih =>
    intro ws off h hne hsp ns hns hs
    cases ws with
    | nil => exact hne rfl
    | cons w ws =>
      cases ns with
      | nil => cases hs
      | cons n ns =>
        rw [List.cons_prefix_cons] at hns
        obtain ⟨rfl, hns⟩ := hns
        rw [searchLoop] at h
        cases hs with
        | word hl hs =>
          rw [hl] at h
          simp only [if_true] at h
          split at h
          · simp at h
          · rename_i he
            exact ih h (by simpa using he) (fun x hx hxs w hw => hsp x (by simp [hx]) hxs w (by simp [hw])) ns hns hs
        | space hsx hl hs =>
          obtain ⟨text, ht⟩ := Option.isSome_iff_exists.1 hl
          rw [ht] at h
          have : text ≠ w := fun he => hsp n (by simp) hsx w (by simp) (by rw [ht, he])
          simp only [this, if_false, hsx, if_true] at h
          exact ih h (by simp) (fun x hx hxs w hw => hsp x (by simp [hx]) hxs w hw) ns hns hs

theorem search_error : ∀ {xs : List α} {ws : List String} {off : Nat} {e : Err}, searchLoop v xs ws off = .error e → Overrun v xs ws := by
  intro xs
  induction xs with
  | nil =>
    intro ws off e h
    cases ws with
    | nil => simp [searchLoop] at h
    | cons w ws => exact ⟨[], w :: ws, rfl, by simp, .nil⟩
  | cons x xs ih =>
    intro ws off e h
    cases ws with
    | nil => simp [searchLoop] at h
    | cons w ws =>
      rw [searchLoop] at h
      split at h
      · simp at h
      · rename_i text ht
        split at h
        · rename_i hw
          subst hw
          split at h
          · simp at h
          · obtain ⟨ws₁, ws₂, h1, h2, h3⟩ := ih h
            exact ⟨text :: ws₁, ws₂, by rw [h1]; rfl, h2, .word ht h3⟩
        · split at h
          · rename_i hs
            obtain ⟨ws₁, ws₂, h1, h2, h3⟩ := ih h
            exact ⟨ws₁, ws₂, h1, h2, .space hs (by rw [ht]; rfl) h3⟩
          · simp at h

/-! ## The loops over the targets -/

/-- A found group is right, as far as its last node. -/
def FoundOk (v : View α) (t : Track) (rest : List α) (r : List α × Nat) : Prop :=
  r.1 <+: rest ∧ r.1 ≠ [] ∧ ∃ ws, (t.node r.2).Has ws ∧ Spells v r.1 ws ∧
    ∃ y w, r.1.getLast? = some y ∧ ws.getLast? = some w ∧ v.leaf y = some w

/-- No spaces are words. -/
def Plain (v : View α) (xs : List α) (ws : List String) : Prop := ∀ x ∈ xs, v.space x = true → ∀ w ∈ ws, v.leaf x ≠ some w

/-- The words are not at the beginning. -/
def Absent (v : View α) (xs : List α) (ws : List String) : Prop :=
  ws ≠ [] → Plain v xs ws → ∀ ns, ns <+: xs → ¬ Spells v ns ws

theorem trySearch_ok {ws : List String} {sub : List α} {idx id : Nat} :
    (∀ r, trySearch v ws sub idx id = .ok (some r) → r.2 = id ∧ r.1 <+: sub.drop idx ∧ r.1 ≠ [] ∧ Spells v r.1 ws ∧
      ∃ y w, r.1.getLast? = some y ∧ ws.getLast? = some w ∧ v.leaf y = some w) ∧
    (trySearch v ws sub idx id = .ok none → Absent v (sub.drop idx) ws) ∧
    (∀ e, trySearch v ws sub idx id = .error e → Overrun v (sub.drop idx) ws) := by
  refine ⟨?_, ?_, ?_⟩
  · intro r h
    unfold trySearch at h
    split at h
    · simp at h
    · simp at h
    · rename_i off hoff
      simp only [Except.ok.injEq, Option.some.injEq] at h
      subst h
      obtain ⟨_, h2, h3, h4⟩ := search_some hoff
      rw [Nat.sub_zero] at h2 h3 h4
      refine ⟨rfl, List.take_prefix _ _, ?_, h3, h4⟩
      intro he
      rw [List.take_eq_nil_iff] at he
      rcases he with he | he
      · omega
      · rw [he] at h2
        simp at h2
  · intro h hne hp
    unfold trySearch at h
    split at h
    · simp at h
    · rename_i hn
      exact search_none hn hne hp
    · simp at h
  · intro e h
    unfold trySearch at h
    split at h
    · rename_i e' he
      exact search_error he
    · simp at h
    · simp at h

theorem tryIds_ok {t : Track} {sub : List α} {idx id : Nat} : ∀ {wss : List (List String)},
    (∀ ws ∈ wss, (t.node id).Has ws) →
    (∀ r, tryIds v sub idx id wss = .ok (some r) → r.2 = id ∧ FoundOk v t (sub.drop idx) r) ∧
    (tryIds v sub idx id wss = .ok none → ∀ ws ∈ wss, Absent v (sub.drop idx) ws) ∧
    (∀ e, tryIds v sub idx id wss = .error e → ∃ ws ∈ wss, Overrun v (sub.drop idx) ws) := by
  intro wss
  induction wss with
  | nil => intro _; simp [tryIds]
  | cons ws wss ih =>
    intro hws
    obtain ⟨i1, i2, i3⟩ := ih (fun x hx => hws x (by simp [hx]))
    obtain ⟨j1, j2, j3⟩ := trySearch_ok (v := v) (ws := ws) (sub := sub) (idx := idx) (id := id)
    rw [tryIds]
    cases h : trySearch v ws sub idx id with
    | error e =>
      simp only
      refine ⟨by simp, by simp, ?_⟩
      intro e' he'
      exact ⟨ws, by simp, j3 e h⟩
    | ok o =>
      cases o with
      | some r =>
        simp only
        refine ⟨?_, by simp, by simp⟩
        intro r' hr'
        simp only [Except.ok.injEq, Option.some.injEq] at hr'
        subst hr'
        obtain ⟨k1, k2, k3, k4, k5⟩ := j1 _ h
        exact ⟨k1, k2, k3, ws, by rw [k1]; exact hws ws (by simp), k4, k5⟩
      | none =>
        simp only
        refine ⟨i1, ?_, ?_⟩
        · intro hn x hx
          rcases List.mem_cons.1 hx with rfl | hx
          · exact j2 h
          · exact i2 hn x hx
        · intro e he
          obtain ⟨x, hx, hy⟩ := i3 e he
          exact ⟨x, by simp [hx], hy⟩

theorem tryTargets_ok {t : Track} {sub : List α} {idx : Nat} : ∀ {ids : List Nat},
    (∀ r, tryTargets v t sub idx ids = .ok (some r) → r.2 ∈ ids ∧ FoundOk v t (sub.drop idx) r) ∧
    (tryTargets v t sub idx ids = .ok none → ∀ id ∈ ids, ∀ ws, (t.node id).Has ws → Absent v (sub.drop idx) ws) ∧
    (∀ e, tryTargets v t sub idx ids = .error e →
      (∃ id ∈ ids, ∃ ws, (t.node id).Has ws ∧ Overrun v (sub.drop idx) ws) ∨ ∃ id ∈ ids, t.node id = .bad) := by
  intro ids
  induction ids with
  | nil => simp [tryTargets]
  | cons id ids ih =>
    obtain ⟨i1, i2, i3⟩ := ih
    have key : ∀ o, tryNode v t sub idx id = o →
        (∀ r, o = .ok (some r) → r.2 = id ∧ FoundOk v t (sub.drop idx) r) ∧
        (o = .ok none → ∀ ws, (t.node id).Has ws → Absent v (sub.drop idx) ws) ∧
        (∀ e, o = .error e → (∃ ws, (t.node id).Has ws ∧ Overrun v (sub.drop idx) ws) ∨ t.node id = .bad) := by
      rintro _ rfl
      unfold tryNode
      cases ht : t.node id with
      | radio ws =>
        simp only
        obtain ⟨j1, j2, j3⟩ := trySearch_ok (v := v) (ws := ws) (sub := sub) (idx := idx) (id := id)
        refine ⟨?_, ?_, ?_⟩
        · intro r hr
          obtain ⟨k1, k2, k3, k4, k5⟩ := j1 r hr
          exact ⟨k1, k2, k3, ws, by rw [k1, ht]; rfl, k4, k5⟩
        · intro hn ws' hws
          rw [show ws' = ws from hws]
          exact j2 hn
        · intro e he
          exact .inl ⟨ws, rfl, j3 e he⟩
      | subtree wss =>
        simp only
        obtain ⟨j1, j2, j3⟩ := tryIds_ok (v := v) (t := t) (sub := sub) (idx := idx) (id := id) (wss := wss)
          (fun ws hws => by rw [ht]; exact hws)
        refine ⟨j1, fun hn ws hws => j2 hn ws hws, ?_⟩
        intro e he
        obtain ⟨ws, h1, h2⟩ := j3 e he
        exact .inl ⟨ws, h1, h2⟩
      | bad =>
        simp only
        refine ⟨by simp, by simp, ?_⟩
        intro e _
        exact .inr trivial
    rw [tryTargets]
    generalize hm : tryNode v t sub idx id = o
    obtain ⟨j1, j2, j3⟩ := key o hm
    cases o with
    | error e =>
      refine ⟨by simp, by simp, ?_⟩
      intro e' he'
      rcases j3 e rfl with ⟨ws, h1, h2⟩ | hb
      · exact .inl ⟨id, by simp, ws, h1, h2⟩
      · exact .inr ⟨id, by simp, hb⟩
    | ok o =>
      cases o with
      | some r =>
        refine ⟨?_, by simp, by simp⟩
        intro r' hr'
        simp only [Except.ok.injEq, Option.some.injEq] at hr'
        subst hr'
        obtain ⟨k1, k2⟩ := j1 _ rfl
        exact ⟨by simp [k1], k2⟩
      | none =>
        refine ⟨?_, ?_, ?_⟩
        · intro r hr
          obtain ⟨k1, k2⟩ := i1 r hr
          exact ⟨by simp [k1], k2⟩
        · intro hn x hx
          rcases List.mem_cons.1 hx with rfl | hx
          · exact j2 rfl
          · exact i2 hn x hx
        · intro e he
          rcases i3 e he with ⟨x, hx, hy⟩ | ⟨x, hx, hy⟩
          · exact .inl ⟨x, by simp [hx], hy⟩
          · exact .inr ⟨x, by simp [hx], hy⟩

/-! ## The main loop -/

/-- A child that is alone is not the first word of a target. -/
def Alone (v : View α) (t : Track) (rest : List α) : Group α → Prop
  | .single x => v.space x = false → ∀ ws, Tracked v t x ws → Absent v rest ws
  | _ => True

theorem step_ok {t : Track} {sub : List α} {idx : Nat} {x : α} (hx : sub[idx]? = some x) :
    (∀ g last, step v t sub idx x = .ok (g, last) → g.Right v t ∧ g.nodes <+: sub.drop idx ∧ last + 1 = idx + g.nodes.length ∧
      g.nodes ≠ [] ∧ Alone v t (sub.drop idx) g) ∧
    (∀ e, step v t sub idx x = .error e → (∃ ws, Tracked v t x ws ∧ v.space x = false ∧ Overrun v (sub.drop idx) ws) ∨
      ∃ text ids id, v.leaf x = some text ∧ t.targets text = some ids ∧ id ∈ ids ∧ t.node id = .bad) := by
  have hd : sub.drop idx = x :: sub.drop (idx + 1) := by
    obtain ⟨h, rfl⟩ := List.getElem?_eq_some_iff.1 hx
    exact List.drop_eq_getElem_cons h
  have hone : [x] <+: sub.drop idx := by rw [hd]; simp
  have single : ∀ (P : Prop), (P → Alone v t (sub.drop idx) (.single x)) → P →
      (Group.single x).Right v t ∧ (Group.single x).nodes <+: sub.drop idx ∧ idx + 1 = idx + (Group.single x).nodes.length ∧
      (Group.single x).nodes ≠ [] ∧ Alone v t (sub.drop idx) (.single x) :=
    fun P h hp => ⟨trivial, hone, rfl, by simp [Group.nodes], h hp⟩
  unfold step
  split
  · rename_i text htext
    have hl : v.leaf x = some text ∧ v.space x = false := by
      split at htext
      · rename_i t' ht'
        split at htext
        · simp at htext
        · rename_i hs
          exact ⟨by rw [ht', htext], by simpa using hs⟩
      · simp at htext
    split
    · rename_i hn
      refine ⟨?_, by simp⟩
      intro g last h
      simp only [Except.ok.injEq, Prod.mk.injEq] at h
      obtain ⟨rfl, rfl⟩ := h
      refine single True (fun _ => ?_) trivial
      rintro _ ws ⟨text', ids, id, h1, h2, _⟩
      rw [hl.1] at h1
      injection h1 with h1
      rw [← h1, hn] at h2
      simp at h2
    · rename_i ids hids
      obtain ⟨k1, k2, k3⟩ := tryTargets_ok (v := v) (t := t) (sub := sub) (idx := idx) (ids := ids)
      split
      · rename_i e he
        refine ⟨by simp, ?_⟩
        intro e' _
        rcases k3 e he with ⟨id, h1, ws, h2, h3⟩ | ⟨id, h1, h2⟩
        · exact .inl ⟨ws, ⟨text, ids, id, hl.1, hids, h1, h2⟩, hl.2, h3⟩
        · exact .inr ⟨text, ids, id, hl.1, hids, h1, h2⟩
      · rename_i nodes id hr
        refine ⟨?_, by simp⟩
        intro g last h
        simp only [Except.ok.injEq, Prod.mk.injEq] at h
        obtain ⟨rfl, rfl⟩ := h
        obtain ⟨_, h1, h2, ws, h3, h4, h5⟩ := k1 _ hr
        have hlen : 0 < nodes.length := List.length_pos_iff.2 h2
        refine ⟨⟨ws, h3, h4, ⟨x, ?_, hl.2⟩, h5⟩, h1, by simp only [Group.nodes]; omega, h2, trivial⟩
        simp only at h1
        rw [hd] at h1
        cases nodes with
        | nil => simp at h2
        | cons n ns =>
          rw [List.cons_prefix_cons] at h1
          rw [h1.1]
          rfl
      · rename_i hr
        refine ⟨?_, by simp⟩
        intro g last h
        simp only [Except.ok.injEq, Prod.mk.injEq] at h
        obtain ⟨rfl, rfl⟩ := h
        refine single True (fun _ => ?_) trivial
        rintro _ ws ⟨text', ids', id, h1, h2, h3, h4⟩
        rw [hl.1] at h1
        injection h1 with h1
        rw [← h1, hids] at h2
        injection h2 with h2
        rw [← h2] at h3
        exact k2 hr id h3 ws h4
  · rename_i hnone
    have hal : Alone v t (sub.drop idx) (.single x) := by
      rintro hs ws ⟨text, ids, id, h1, _⟩
      rw [h1, hs] at hnone
      simp at hnone
    split
    · rename_i ts hts
      split
      · refine ⟨?_, by simp⟩
        intro g last h
        simp only [Except.ok.injEq, Prod.mk.injEq] at h
        obtain ⟨rfl, rfl⟩ := h
        exact single True (fun _ => hal) trivial
      · rename_i hne
        refine ⟨?_, by simp⟩
        intro g last h
        simp only [Except.ok.injEq, Prod.mk.injEq] at h
        obtain ⟨rfl, rfl⟩ := h
        exact ⟨⟨hts, by simpa using hne⟩, hone, rfl, by simp [Group.nodes], trivial⟩
    · refine ⟨?_, by simp⟩
      intro g last h
      simp only [Except.ok.injEq, Prod.mk.injEq] at h
      obtain ⟨rfl, rfl⟩ := h
      exact single True (fun _ => hal) trivial

/-- The groups from some child on. -/
def GroupsOk (v : View α) (t : Track) : List (Group α) → Prop
  | [] => True
  | g :: gs => g.Right v t ∧ Alone v t ((g :: gs).flatMap Group.nodes) g ∧ GroupsOk v t gs

theorem groupsOk_suffix {t : Track} {pre post : List (Group α)} (h : GroupsOk v t (pre ++ post)) : GroupsOk v t post := by
  induction pre with
  | nil => exact h
  | cons g gs ih => exact ih h.2.2

theorem loop_ok {t : Track} {sub : List α} : ∀ {fuel idx : Nat} {acc gs : List (Group α)}, loop v t sub fuel idx acc = .ok gs →
    ∃ gs', gs = acc ++ gs' ∧ gs'.flatMap Group.nodes = sub.drop idx ∧ GroupsOk v t gs' := by
  intro fuel
  induction fuel with
  | zero => intro idx acc gs h; simp [loop] at h
  | succ fuel ih =>
    intro idx acc gs h
    rw [loop] at h
    split at h
    · rename_i hn
      simp only [Except.ok.injEq] at h
      subst h
      refine ⟨[], by simp, ?_, trivial⟩
      rw [List.getElem?_eq_none_iff] at hn
      simp [List.drop_eq_nil_of_le hn]
    · rename_i x hx
      split at h
      · simp at h
      · rename_i g last hs
        obtain ⟨h1, h2, h3, h4, h5⟩ := (step_ok hx).1 g last hs
        obtain ⟨gs', e1, e2, e3⟩ := ih h
        have hcat : (g :: gs').flatMap Group.nodes = sub.drop idx := by
          rw [List.flatMap_cons, e2, h3, ← List.drop_drop]
          obtain ⟨r, hr⟩ := h2
          rw [← hr, List.drop_left]
        refine ⟨g :: gs', by rw [e1]; simp, hcat, h1, ?_, e3⟩
        rw [hcat]
        exact h5

theorem size_nodes (gs : List (Group α)) : (gs.map Group.size).sum = (gs.flatMap Group.nodes).length := by
  induction gs with
  | nil => rfl
  | cons g gs ih =>
    rw [List.map_cons, List.sum_cons, ih, List.flatMap_cons, List.length_append]
    cases g <;> rfl

theorem loop_error {t : Track} {sub : List α} (hno : ∀ idx x, sub[idx]? = some x → ∀ e, step v t sub idx x ≠ .error e) :
    ∀ {fuel idx : Nat} {acc : List (Group α)}, sub.length - idx < fuel → ∃ gs, loop v t sub fuel idx acc = .ok gs := by
  intro fuel
  induction fuel with
  | zero => intro idx acc h; omega
  | succ fuel ih =>
    intro idx acc hf
    rw [loop]
    split
    · exact ⟨acc, rfl⟩
    · rename_i x hx
      cases hs : step v t sub idx x with
      | error e => exact absurd hs (hno idx x hx e)
      | ok r =>
        obtain ⟨g, last⟩ := r
        obtain ⟨_, _, h3, h4, _⟩ := (step_ok hx).1 g last hs
        have hlen : 0 < g.nodes.length := List.length_pos_iff.2 h4
        have hi := (List.getElem?_eq_some_iff.1 hx).1
        exact ih (by omega)

/-! ## C32 -/

/-- C32: every paragraph is grouped. -/
def GroupsStatement (α : Type) : Prop :=
  ∀ (v : View α) (t : Track), (∀ id, t.node id ≠ .bad) → ∀ sub : List α,
    ∃ gs, getGroups v t sub = .ok gs ∧ gs.flatMap Group.nodes = sub ∧ ∀ g ∈ gs, g.Right v t

/-- **C32** (when grouping returns): the groups are the children in order, and each is what
it says. -/
theorem groups_partition {t : Track} {sub : List α} {gs : List (Group α)} (h : getGroups v t sub = .ok gs) :
    gs.flatMap Group.nodes = sub ∧ ∀ g ∈ gs, g.Right v t := by
  unfold getGroups at h
  split at h
  · simp at h
  · rename_i gs' hl
    split at h
    · simp only [Except.ok.injEq] at h
      subst h
      obtain ⟨gs'', h1, h2, h3⟩ := loop_ok hl
      rw [List.nil_append] at h1
      subst h1
      refine ⟨h2, ?_⟩
      clear hl h2
      rename_i hsz
      clear hsz
      induction gs' with
      | nil => simp
      | cons g gs ih =>
        intro x hx
        rcases List.mem_cons.1 hx with rfl | hx
        · exact h3.1
        · exact ih h3.2.2 x hx
    · simp at h

/-- **C32** (when grouping returns): a word is alone only if no target that is tracked under
it follows (for targets whose words are not the text of a space). -/
theorem groups_complete {t : Track} {sub : List α} {pre post : List (Group α)} {x : α}
    (h : getGroups v t sub = .ok (pre ++ .single x :: post)) (hx : v.space x = false) {ws : List String}
    (hws : Tracked v t x ws) (hne : ws ≠ [])
    (hp : ∀ y ∈ x :: post.flatMap Group.nodes, v.space y = true → ∀ w ∈ ws, v.leaf y ≠ some w) (ns : List α)
    (hns : ns <+: x :: post.flatMap Group.nodes) : ¬ Spells v ns ws := by
  unfold getGroups at h
  split at h
  · simp at h
  · rename_i gs' hl
    split at h
    · simp only [Except.ok.injEq] at h
      subst h
      obtain ⟨gs'', h1, _, h3⟩ := loop_ok hl
      rw [List.nil_append] at h1
      subst h1
      exact (groupsOk_suffix h3).2.1 hx ws hws hne hp ns hns
    · simp at h

/-- **C32**: grouping returns unless the children end within the words of a target that is
tracked under one of them.  Missing: this case, in which `Vec::at` throws. -/
theorem groups_partial {t : Track} {sub : List α} (hbad : ∀ id, t.node id ≠ .bad)
    (hno : ∀ pre x post, sub = pre ++ x :: post → v.space x = false → ∀ ws, Tracked v t x ws → ¬ Overrun v (x :: post) ws) :
    ∃ gs, getGroups v t sub = .ok gs ∧ gs.flatMap Group.nodes = sub ∧ ∀ g ∈ gs, g.Right v t := by
  have hstep : ∀ idx x, sub[idx]? = some x → ∀ e, step v t sub idx x ≠ .error e := by
    intro idx x hx e he
    obtain ⟨hi, rfl⟩ := List.getElem?_eq_some_iff.1 hx
    have hd := List.drop_eq_getElem_cons hi
    rcases (step_ok hx).2 e he with ⟨ws, h1, h2, h3⟩ | ⟨_, _, id, _, _, _, hb⟩
    · rw [hd] at h3
      exact hno (sub.take idx) _ _ (by rw [← hd, List.take_append_drop]) h2 ws h1 h3
    · exact hbad id hb
  obtain ⟨gs, hgs⟩ := loop_error hstep (fuel := sub.length + 1) (idx := 0) (acc := []) (by omega)
  obtain ⟨gs', h1, h2, _⟩ := loop_ok hgs
  rw [List.nil_append] at h1
  subst h1
  have hg : getGroups v t sub = .ok gs := by
    unfold getGroups
    rw [hgs]
    simp only
    rw [if_pos (by rw [size_nodes, h2]; rfl)]
  exact ⟨gs, hg, groups_partition hg⟩

/-! ## Witnesses -/

/-- Children as texts; `" "` and `"  "` are spaces, `"#"` is a hash tag, `"*"` a node that is no leaf. -/
def sample : View String where
  leaf s := if s = "*" ∨ s = "#" then none else some s
  space s := decide (s = " " ∨ s = "  ")
  tags s := if s = "#" then some [("tag", 7)] else none

/-- Two targets that begin with the same word. -/
def track : Track where
  targets s := if s = "human" then some [1, 2] else none
  node id := if id = 1 then .radio ["human", "being"] else .subtree [["human", "rights", "law"]]

example : getGroups sample track ["*", " ", "human", "  ", "rights", " ", "law", "#", "human", " ", "*", "human", " ", "being"]
    = .ok [.single "*", .single " ", .radio ["human", "  ", "rights", " ", "law"] 2, .hashtag "#" [("tag", 7)], .single "human",
      .single " ", .single "*", .radio ["human", " ", "being"] 1] := by rfl

/-- A paragraph that ends with the first word of a target. -/
theorem groups_false : ¬ GroupsStatement String := by
  intro h
  obtain ⟨gs, h1, _⟩ := h sample track (by intro id; unfold track; simp only; split <;> simp) ["a", " ", "human"]
  have : getGroups sample track ["a", " ", "human"] = .error .range := by rfl
  rw [this] at h1
  simp at h1

/-- The hypotheses of `groups_partial` are met when a full stop ends the paragraph. -/
example : ∃ gs, getGroups sample track ["human", " ", "being", "."] = .ok gs ∧
    gs.flatMap Group.nodes = ["human", " ", "being", "."] ∧ ∀ g ∈ gs, g.Right sample track := by
  refine groups_partial (by intro id; unfold track; simp only; split <;> simp) ?_
  intro pre x post he hx ws hws
  have hend : ∀ (ys : List String) (ws : List String), Spells sample (ys ++ ["."]) ws → "." ∈ ws := by
    intro ys
    induction ys with
    | nil =>
      intro ws hs
      cases hs with
      | word hl hs => simp [sample] at hl; simp [hl]
      | space hs _ _ => simp [sample] at hs
    | cons y ys ih =>
      intro ws hs
      cases hs with
      | word hl hs => simp [ih _ hs]
      | space _ _ hs => exact ih _ hs
  rintro ⟨ws₁, ws₂, rfl, h2, h3⟩
  have hlast : ∃ ys, x :: post = ys ++ ["."] := by
    have := congrArg List.getLast? he
    rw [List.getLast?_append_of_ne_nil _ (by simp)] at this
    refine ⟨(x :: post).dropLast, ?_⟩
    have hl : (x :: post).getLast (by simp) = "." := by
      rw [List.getLast?_eq_some_getLast (l := x :: post) (by simp)] at this
      injection this with this
      exact this.symm
    rw [← hl, List.dropLast_append_getLast]
  obtain ⟨ys, hys⟩ := hlast
  rw [hys] at h3
  have hdot := hend ys ws₁ h3
  obtain ⟨text, ids, id, _, ht, hi, hh⟩ := hws
  unfold track at ht hh
  simp only at ht hh
  split at hh
  · have : ws₁ ++ ws₂ = ["human", "being"] := hh
    have hd : "." ∈ ws₁ ++ ws₂ := by simp [hdot]
    rw [this] at hd
    simp at hd
  · have : ws₁ ++ ws₂ ∈ [["human", "rights", "law"]] := hh
    rw [List.mem_singleton] at this
    have hd : "." ∈ ws₁ ++ ws₂ := by simp [hdot]
    rw [this] at hd
    simp at hd

end Verif.Radio
