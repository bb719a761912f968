import Verif.Demote.Spec
import Verif.Demote.Above
import Verif.Eval.Lemmas
import Verif.Eval.Loop
import Verif.Imm.Edit

/-! # Changing the levels of a subtree and of all below it -/

namespace Verif.Demote

open Verif.Imm
open Verif.Eval (kidList ofKids results withResults ReadsKid reads_kids field_reads numbered_forall₂ append_forall₂
  filter_forall₂ kidList_ofKids)

variable {E : Type}

/-- the subtree with one level more, and all below it -/
def bump : {b : Bool} → Tree (Data E) b → Tree (Data E) b
  | true, .node k d l ks => .node k (d.1 + 1, d.2) l (bump ks)
  | false, .nil => .nil
  | false, .cons st t rest => .cons st (if st.field = 0 then bump t else t) (bump rest)

theorem strip_bump {b : Bool} (t : Tree (Data E) b) : strip (bump t) = bump (strip t) := by
  induction t with
  | node k d l ks ih => simp only [bump, strip, ih]
  | nil => rfl
  | cons st t rest ih1 ih2 =>
    simp only [bump, strip, ih2]
    split
    · rw [ih1]
    · rfl

theorem kidList_bump (ks : Tree (Data E) false) :
    kidList (bump ks) = (kidList ks).map (fun k => (k.1, if k.1.field = 0 then bump k.2 else k.2)) := by
  have key : ∀ {b : Bool} (t : Tree (Data E) b), b = false →
      kidList (bump t) = (kidList t).map (fun k => (k.1, if k.1.field = 0 then bump k.2 else k.2)) := by
    intro b t
    induction t with
    | node => intro h; exact absurd h (by simp)
    | nil => intro _; simp [bump, kidList]
    | cons st t rest _ ih => intro _; rw [bump, kidList, kidList, List.map_cons, ih rfl]
  exact key ks rfl

theorem steps_kidList {D : Type} : ∀ (ks : Tree D false), (kidList ks).map (·.1) = steps ks := by
  have key : ∀ {b : Bool} (t : Tree D b) (h : b = false), (kidList t).map (·.1) = steps (h ▸ t) := by
    intro b t
    induction t with
    | node => intro h; exact absurd h (by simp)
    | nil => intro _; simp [kidList, steps]
    | cons st t rest _ ih => intro _; simp only [kidList, List.map_cons, steps]; rw [ih rfl]
  exact fun ks => key ks rfl

theorem split_zero {X : Type} : ∀ (l : List (Step × X)), (l.map (·.1)).Pairwise (fun a b => a.field ≤ b.field) →
    l.filter (fun k => decide (k.1.field = 0)) ++ l.filter (fun k => decide (k.1.field ≠ 0)) = l := by
  intro l
  induction l with
  | nil => intro _; rfl
  | cons k l ih =>
    intro h
    rw [List.map_cons, List.pairwise_cons] at h
    by_cases hk : k.1.field = 0
    · rw [List.filter_cons_of_pos (by simpa using hk), List.filter_cons_of_neg (by simpa using hk), List.cons_append, ih h.2]
    · rw [List.filter_cons_of_neg (by simpa using hk), List.filter_cons_of_pos (by simpa using hk)]
      have : l.filter (fun k => decide (k.1.field = 0)) = [] := by
        rw [List.filter_eq_nil_iff]
        intro x hx
        have := h.1 x.1 (List.mem_map_of_mem hx)
        simp only [decide_eq_true_eq]
        omega
      rw [this] at ih ⊢
      have := ih h.2
      rw [List.nil_append] at this ⊢
      rw [this]

/-- The subnodes come first, numbered. -/
theorem split_numbered {X : Type} (l : List (Step × X)) (hv : Shaped (l.map (·.1))) :
    l.filter (fun k => decide (k.1.field = 0)) =
      ((l.filter (fun k => decide (k.1.field = 0))).map (·.2)).mapIdx (fun i x => (subStep i, x)) := by
  have h0 := hv.fields 0
  have hfm : ∀ l : List (Step × X), (l.map (·.1)).filter (fun st => decide (st.field = 0)) =
      (l.filter (fun k => decide (k.1.field = 0))).map (·.1) := by
    intro l
    rw [List.filter_map]
    rfl
  rw [hfm] at h0
  have hmem : ∀ st ∈ (l.filter (fun k => decide (k.1.field = 0))).map (·.1), ∃ i, st.key = .idx i := by
    intro st hst
    rw [← hfm] at hst
    have := List.mem_filter.1 hst
    exact hv.subs st this.1 (by simpa using this.2)
  have hidx : (l.filter (fun k => decide (k.1.field = 0))).map (·.1)
      = (List.range (l.filter (fun k => decide (k.1.field = 0))).length).map (fun i => (⟨0, .idx i⟩ : Step)) := by
    rcases h0 with h | h | h
    · rw [List.length_map] at h; exact h
    · obtain ⟨i, hi⟩ := hmem ⟨0, .deref⟩ (by rw [h]; simp)
      simp at hi
    · cases hl : l.filter (fun k => decide (k.1.field = 0)) with
      | nil => rfl
      | cons k ks =>
        have hm : k.1 ∈ (l.filter (fun k => decide (k.1.field = 0))).map (·.1) := by rw [hl]; simp
        obtain ⟨s, hs⟩ := h.2 _ hm
        obtain ⟨i, hi⟩ := hmem _ hm
        rw [hs] at hi
        simp at hi
  refine List.ext_getElem (by simp) ?_
  intro n h1 h2
  have := congrArg (fun l => l[n]?) hidx
  simp only [List.getElem?_map, List.getElem?_range h1, List.getElem?_eq_getElem h1, Option.map_some, Option.some.injEq] at this
  simp only [List.getElem_mapIdx, List.getElem_map, subStep]
  exact Prod.ext this rfl

variable [DecidableEq E]

/-- Other subnodes of a stored value. -/
theorem setSubs_reads {D : Type} [DecidableEq D] {s : Store D} {v : Val D} {ks : Tree D false} (h : Reads s (b := false) v.kids ks)
    {ids : List Id} {ts : List (Tree D true)}
    (hts : List.Forall₂ (fun (a : Id) (b : Tree D true) => Reads s (b := true) a b) ids ts) :
    Reads s (b := false) (v.setSubs ids).kids (withResults 0 ks ts) := by
  rw [reads_kids, withResults, kidList_ofKids, Val.setSubs]
  have hk := reads_kids.1 h
  have e1 : (kidList ks).filter (fun k => decide (k.1.field < 0)) = [] := by
    rw [List.filter_eq_nil_iff]
    intro a _
    simp
  have e2 : (kidList ks).filter (fun k => decide (0 < k.1.field)) = (kidList ks).filter (fun k => decide (k.1.field ≠ 0)) := by
    congr 1
    funext k
    simp only [Nat.pos_iff_ne_zero]
  rw [e1, e2, List.nil_append]
  exact append_forall₂ (numbered_forall₂ 0 id hts) (filter_forall₂ (fun a b hab => by rw [hab.1]) hk)

theorem withResults_bump {ks : Tree (Data E) false} (hs : Shaped (steps ks)) :
    withResults 0 ks ((results 0 ks).map bump) = bump ks := by
  have hinj : ∀ (a b : Tree (Data E) false), kidList a = kidList b → a = b := by
    have hof : ∀ {c : Bool} (t : Tree (Data E) c) (h : c = false), ofKids (kidList t) = h ▸ t := by
      intro c t
      induction t with
      | node => intro h; exact absurd h (by simp)
      | nil => intro _; simp [kidList, ofKids]
      | cons st t rest _ ih => intro _; simp only [kidList, ofKids]; rw [ih rfl]
    intro a b hab
    have h1 := hof a rfl
    have h2 := hof b rfl
    simp only at h1 h2
    rw [← h1, ← h2, hab]
  apply hinj
  have hsh : Shaped ((kidList ks).map (·.1)) := by rw [steps_kidList]; exact hs
  rw [withResults, kidList_ofKids, kidList_bump]
  have e1 : (kidList ks).filter (fun k => decide (k.1.field < 0)) = [] := by
    rw [List.filter_eq_nil_iff]
    intro a _
    simp
  have e2 : (kidList ks).filter (fun k => decide (0 < k.1.field)) = (kidList ks).filter (fun k => decide (k.1.field ≠ 0)) := by
    congr 1
    funext k
    simp only [Nat.pos_iff_ne_zero]
  rw [e1, e2, List.nil_append]
  conv_rhs => rw [← split_zero (kidList ks) hsh.order, List.map_append]
  congr 1
  · conv_rhs => rw [split_numbered (kidList ks) hsh]
    rw [results]
    refine List.ext_getElem (by simp) ?_
    intro n h1 h2
    simp [subStep]
  · rw [List.map_congr_left (g := id)]
    · simp
    · intro k hk
      have := (List.mem_filter.1 hk).2
      simp only [ne_eq, decide_eq_true_eq] at this
      simp [this]

/-- A replacement of a node by the same node with one level more. -/
structure Bumped (s0 s : Store (Data E)) (root : Id) (r : Replace) : Prop where
  pos : r.original.root = root ∧ s0.at root r.original.path = some r.original.id
  same : r.replaced = { r.original with id := r.replaced.id }
  nonroot : r.original.path ≠ []
  outline : ∀ x ∈ r.original.path, x.field = 0
  reads : ∃ t, Reads s0 (b := true) r.original.id t ∧ Reads s (b := true) r.replaced.id (bump t)

/-- What holds of all states. -/
structure Inv (s0 : Store (Data E)) (root : Id) (st : St E) : Prop where
  good : Good st.ctx.store
  ext : s0 <+: st.ctx.store
  bumped : ∀ r ∈ st.edits, Bumped s0 st.ctx.store root r
  nodup : (st.edits.map (·.original)).Nodup

theorem bump_differs {s : Store (Data E)} {i : Id} {t : Tree (Data E) true} (h : Reads s (b := true) i t)
    (h' : Reads s (b := true) i (bump t)) : False := by
  cases t with
  | node k d l ks =>
    simp only [bump] at h'
    obtain ⟨v, h1, _, h3, _⟩ := h
    obtain ⟨w, h1', _, h3', _⟩ := h'
    rw [h1] at h1'
    injection h1' with h1'
    subst h1'
    rw [h3] at h3'
    have := congrArg Prod.fst h3'
    simp only at this
    omega

theorem bumped_differs {s0 s : Store (Data E)} {root : Id} {r : Replace} (h : Bumped s0 s root r) (hs : s0 <+: s) :
    r.replaced.id ≠ r.original.id := by
  obtain ⟨t, h1, h2⟩ := h.reads
  intro he
  rw [he] at h2
  exact bump_differs (reads_mono hs h1) h2

theorem bumped_mono {s0 s s' : Store (Data E)} {root : Id} {r : Replace} (h : Bumped s0 s root r) (hs : s <+: s') :
    Bumped s0 s' root r := by
  obtain ⟨t, h1, h2⟩ := h.reads
  exact ⟨h.pos, h.same, h.nonroot, h.outline, t, h1, reads_mono hs h2⟩

theorem bumped_replaceOk {s0 s s' : Store (Data E)} {root : Id} {r : Replace} (h : Bumped s0 s root r) (hs : s0 <+: s) :
    replaceOk s' r = true := by
  have h1 := h.nonroot
  have h2 : r.replaced.path = r.original.path := by rw [h.same]
  have h3 : r.original ≠ r.replaced := by
    intro he
    exact bumped_differs h hs (by rw [← he])
  simp only [replaceOk, h2, h3, ne_eq, not_false_eq_true, decide_true, Bool.and_true, Bool.and_eq_true,
    Bool.or_eq_true, Bool.not_eq_eq_eq_not, Bool.not_true, List.isEmpty_eq_false_iff]
  exact ⟨.inr h1, .inr h1⟩

theorem incl_ok {s : Store (Data E)} {rs : List Replace} {r : Replace} (hn : ∀ x ∈ rs, x.original ≠ r.original)
    (hok : replaceOk s r = true) : incl s rs r = .ok (rs ++ [r]) := by
  unfold incl
  rw [inclAll]
  have : edit? rs r.original = none := by
    cases he : edit? rs r.original with
    | none => rfl
    | some e =>
      obtain ⟨x, hx, h1, _⟩ := edit?_mem he
      exact absurd h1 (hn x hx)
  rw [this]
  simp only [Option.isSome_none, Bool.false_eq_true, if_false]
  rw [if_pos hok, inclAll]

theorem results_of_kidList {D : Type} {f : Nat} {ks : Tree D false} {t : Tree D true} (h : t ∈ results f ks) :
    ∃ st, st.field = f ∧ (st, t) ∈ kidList ks := by
  rw [results, List.mem_map] at h
  obtain ⟨k, hk, rfl⟩ := h
  have := List.mem_filter.1 hk
  exact ⟨k.1, by simpa using this.2, this.1⟩

theorem kid_depth {D : Type} : ∀ {b : Bool} (ks : Tree D b), b = false → ∀ k ∈ kidList ks, depth k.2 ≤ depth ks := by
  intro b ks
  induction ks with
  | node => intro h; exact absurd h (by simp)
  | nil => intro _ k hk; simp [kidList] at hk
  | cons st t rest _ ih =>
    intro _ k hk
    rw [kidList, List.mem_cons] at hk
    rw [depth]
    rcases hk with rfl | hk
    · exact Nat.le_max_left _ _
    · exact Nat.le_trans (ih rfl k hk) (Nat.le_max_right _ _)

omit [DecidableEq E] in
theorem kid_only : ∀ {b : Bool} (ks : Tree (Data E) b), b = false → OnlyHeadlines ks → ∀ k ∈ kidList ks, k.1.field = 0 →
    OnlyHeadlines k.2 := by
  intro b ks
  induction ks with
  | node => intro h; exact absurd h (by simp)
  | nil => intro _ _ k hk; simp [kidList] at hk
  | cons st t rest _ ih =>
    intro _ ho k hk hf
    rw [kidList, List.mem_cons] at hk
    rcases hk with rfl | hk
    · exact ho.1 hf
    · exact ih rfl ho.2 k hk hf

/-- The position of a subnode. -/
theorem at_sub {D : Type} [DecidableEq D] {s : Store D} (hg : Good s) {root : Id} {p : List Step} {i : Id} {v : Val D} (hat : s.at root p = some i)
    (hv : s[i]? = some v) {j : Nat} {id : Id} (hj : v.subs[j]? = some id) : s.at root (p ++ [subStep j]) = some id := by
  have hsh := hg.shaped i v hv
  have hmem : (subStep j, id) ∈ v.kids := by
    rw [← shaped_subs hsh, Val.setSubs]
    refine List.mem_append_left _ ?_
    rw [number, List.mem_mapIdx]
    obtain ⟨h1, h2⟩ := List.getElem?_eq_some_iff.1 hj
    exact ⟨j, h1, by rw [h2]⟩
  rw [at_append, hat]
  simp only [Option.bind_some, Store.at, Store.atStep, Store.kids]
  rw [hv]
  simp only
  rw [find_self (shaped_nodup hsh) _ hmem]
  rfl

/-- The replacements that are added below a node, from an index on. -/
def Added' (u : Uniq) (i : Nat) (old new : List Replace) : Prop :=
  ∃ l, new = old ++ l ∧ ∀ r ∈ l, ∃ j, i ≤ j ∧ u.path ++ [subStep j] <+: r.original.path

/-- What the recursion does. -/
def AuxOk (s0 : Store (Data E)) (root : Id) (fuel : Nat) : Prop :=
  ∀ (t : Tree (Data E) true) (u : Uniq) (st : St E), Inv s0 root st → OnlyHeadlines t → Reads s0 (b := true) u.id t →
    u.root = root → s0.at root u.path = some u.id → u.path ≠ [] → (∀ x ∈ u.path, x.field = 0) → (∀ r ∈ st.edits, ¬ u.path <+: r.original.path) →
    2 * depth t ≤ fuel →
    ∃ r st', aux fuel u st = .ok (some r, st') ∧ st.ctx.store <+: st'.ctx.store ∧ Inv s0 root st' ∧ r ∈ st'.edits ∧
      r.original = u ∧ Reads st'.ctx.store (b := true) r.replaced.id (bump t) ∧
      ∃ l, st'.edits = st.edits ++ l ∧ ∀ x ∈ l, u.path <+: x.original.path

theorem snoc_ne {p : List Step} {i j : Nat} {l : List Step} (h : p ++ [subStep i] <+: l) (h' : p ++ [subStep j] <+: l) : i = j := by
  obtain ⟨a, ha⟩ := h
  obtain ⟨b, hb⟩ := h'
  rw [← ha, List.append_assoc, List.append_assoc, List.append_cancel_left_eq] at hb
  simp only [List.cons_append, List.nil_append, List.cons.injEq, subStep, Step.mk.injEq, Key.idx.injEq, true_and] at hb
  exact hb.1.symm

theorem auxList_ok {s0 : Store (Data E)} {root : Id} {m : Nat} (H : AuxOk s0 root m) (u : Uniq) (hu : u.root = root)
    (hout : ∀ x ∈ u.path, x.field = 0) :
    ∀ (ids : List Id) (ts : List (Tree (Data E) true)) (i : Nat) (st : St E), Inv s0 root st →
      List.Forall₂ (fun (a : Id) (b : Tree (Data E) true) => Reads s0 (b := true) a b) ids ts →
      (∀ t ∈ ts, OnlyHeadlines t ∧ 2 * depth t ≤ m) →
      (∀ j id, ids[j]? = some id → s0.at root (u.path ++ [subStep (i + j)]) = some id) →
      (∀ r ∈ st.edits, ∀ j, i ≤ j → ¬ u.path ++ [subStep j] <+: r.original.path) →
      ∃ st', auxList (m + 1) u i ids st = .ok st' ∧ st.ctx.store <+: st'.ctx.store ∧ Inv s0 root st' ∧
        Added' u i st.edits st'.edits ∧ ∀ id ∈ ids, ∃ r ∈ st'.edits, r.original.id = id := by
  intro ids
  induction ids with
  | nil =>
    intro ts i st hinv _ _ _ _
    exact ⟨st, by rw [auxList], List.prefix_refl _, hinv, ⟨[], by simp, by simp⟩, by simp⟩
  | cons id ids ih =>
    intro ts i st hinv hf hts hat hfresh
    cases hf with
    | cons hab hf =>
      rename_i t ts
      obtain ⟨r, st1, e1, p1, i1, m1, o1, _, l, hl, hl'⟩ := H t ⟨id, u.root, u.path ++ [subStep i]⟩ st hinv (hts t (by simp)).1 hab
        hu (hat 0 id (by simp)) (by simp) (by
          intro x hx
          rcases List.mem_append.1 hx with hx | hx
          · exact hout x hx
          · rw [List.mem_singleton] at hx; rw [hx]; rfl) (fun r hr => hfresh r hr i (Nat.le_refl _)) (hts t (by simp)).2
      obtain ⟨st2, e2, p2, i2, ⟨l2, a2, b2⟩, m2⟩ := ih ts (i + 1) st1 i1 hf (fun x hx => hts x (by simp [hx]))
        (by
          intro j x hx
          have := hat (j + 1) x (by simpa using hx)
          rw [show i + 1 + j = i + (j + 1) by omega]
          exact this)
        (by
          intro x hx j hj hpre
          rw [hl] at hx
          rcases List.mem_append.1 hx with hx | hx
          · exact hfresh x hx j (by omega) hpre
          · have := snoc_ne (hl' x hx) hpre
            omega)
      refine ⟨st2, ?_, p1.trans p2, i2, ⟨l ++ l2, ?_, ?_⟩, ?_⟩
      · rw [auxList, e1]
        exact e2
      · rw [a2, hl, List.append_assoc]
      · intro x hx
        rcases List.mem_append.1 hx with hx | hx
        · exact ⟨i, Nat.le_refl _, hl' x hx⟩
        · obtain ⟨j, h1, h2⟩ := b2 x hx
          exact ⟨j, by omega, h2⟩
      · intro x hx
        rcases List.mem_cons.1 hx with rfl | hx
        · exact ⟨r, by rw [a2]; exact List.mem_append_left _ m1, by rw [o1]⟩
        · exact m2 x hx

/-- Replaced ids stand for the changed subtrees. -/
theorem newSubnodes_reads {s0 : Store (Data E)} {root : Id} {st : St E} (hinv : Inv s0 root st) :
    ∀ {ids : List Id} {ts : List (Tree (Data E) true)},
      List.Forall₂ (fun (a : Id) (b : Tree (Data E) true) => Reads s0 (b := true) a b) ids ts →
      (∀ id ∈ ids, ∃ r ∈ st.edits, r.original.id = id) →
      List.Forall₂ (fun (a : Id) (b : Tree (Data E) true) => Reads st.ctx.store (b := true) a b) (newSubnodes st.edits ids) (ts.map bump) := by
  intro ids ts h
  induction h with
  | nil => intro _; exact .nil
  | cons hab _ ih =>
    rename_i id t ids ts _
    intro hm
    rw [newSubnodes, List.map_cons, List.map_cons]
    refine .cons ?_ (ih (fun x hx => hm x (by simp [hx])))
    cases hf : st.edits.reverse.find? (fun r => decide (r.original.id = id)) with
    | none =>
      rw [List.find?_eq_none] at hf
      obtain ⟨r, hr, he⟩ := hm id (by simp)
      exact absurd (hf r (by simpa using hr)) (by simpa using he)
    | some r =>
      have h1 := List.mem_of_find?_eq_some hf
      have h2 := List.find?_some hf
      simp only [decide_eq_true_eq] at h2
      simp only [Option.map_some, Option.getD_some]
      obtain ⟨t', ht1, ht2⟩ := (hinv.bumped r (by simpa using h1)).reads
      rw [h2] at ht1
      refine reads_of_strip ht2 ?_
      rw [strip_bump, strip_bump, reads_strip hab ht1]

theorem aux_ok {s0 : Store (Data E)} (hg0 : Good s0) (root : Id) : ∀ fuel, AuxOk s0 root fuel := by
  intro fuel
  induction fuel using Nat.strong_induction_on with
  | _ fuel IH =>
    intro t u st hinv hon hr hroot hat hne hout hfresh hf
    cases t with
    | node k d l ks =>
      obtain ⟨v, hv, hk, hd, hkids⟩ := hr
      obtain ⟨hon1, hon2⟩ := hon
      rw [depth] at hf
      obtain ⟨m, rfl⟩ : ∃ m, fuel = m + 2 := ⟨fuel - 2, by omega⟩
      have hsubs : List.Forall₂ (fun (a : Id) (b : Tree (Data E) true) => Reads s0 (b := true) a b) v.subs (results 0 ks) := field_reads hkids 0
      have hvs : st.ctx.store[u.id]? = some v := getElem?_prefix hinv.ext hv
      have hsub : st.ctx.store.subs u.id = v.subs := by unfold Store.subs; rw [hvs]
      have hfr : ∀ r ∈ st.edits, ∀ j, 0 ≤ j → ¬ u.path ++ [subStep j] <+: r.original.path := fun r hr j _ hx =>
        hfresh r hr ((List.prefix_append _ _).trans hx)
      obtain ⟨st1, e1, p1, i1, ⟨l1, a1, b1⟩, m1⟩ := auxList_ok (IH m (by omega)) u hroot hout v.subs (results 0 ks) 0 st hinv hsubs
        (by
          intro t ht
          obtain ⟨stp, hs1, hs2⟩ := results_of_kidList ht
          refine ⟨kid_only ks rfl hon2 _ hs2 hs1, ?_⟩
          have := kid_depth ks rfl _ hs2
          simp only at this
          omega)
        (by
          intro j id hj
          rw [Nat.zero_add]
          exact at_sub hg0 hat hv hj) hfr
      have hv1 : st1.ctx.store[u.id]? = some v := getElem?_prefix i1.ext hv
      have hids := newSubnodes_reads i1 hsubs m1
      have hsh : Shaped (steps ks) := by rw [← steps_eq hkids]; exact hg0.shaped _ _ hv
      have hread := setSubs_reads (reads_mono i1.ext hkids) hids
      rw [withResults_bump hsh] at hread
      generalize hids' : newSubnodes st1.edits v.subs = ids at hids hread
      have hlt : ∀ i ∈ ids, i < st1.ctx.store.length := by
        have key : ∀ {ids : List Id} {ts : List (Tree (Data E) true)},
            List.Forall₂ (fun (a : Id) (b : Tree (Data E) true) => Reads st1.ctx.store (b := true) a b) ids ts →
            ∀ i ∈ ids, i < st1.ctx.store.length := by
          intro ids ts h
          induction h with
          | nil => intro i hi; simp at hi
          | cons hab _ ih =>
            intro i hi
            rcases List.mem_cons.1 hi with rfl | hi
            · exact Verif.Eval.reads_lt hab
            · exact ih i hi
        exact key hids
      let w : Val (Data E) := { v.setSubs ids with data := (v.data.1 + 1, v.data.2) }
      have hproper : Proper st1.ctx.store w.kids := ⟨setSubs_valid i1.good.below hv1 hlt, setSubs_shaped (i1.good.shaped _ _ hv1) ids⟩
      have hgood := setNode_good i1.good u hproper
      obtain ⟨x, hx1, hx2⟩ := add_val st1.ctx.store w
      obtain ⟨k1, k2, k3⟩ := same_iff.1 hx2
      have hneq : (st1.ctx.store.add w).1 ≠ u.id := by
        intro he
        rw [he, getElem?_prefix (add_prefix _ _) hv1] at hx1
        injection hx1 with hx1
        subst hx1
        have := congrArg Prod.fst k2
        simp only [w] at this
        omega
      have hset : setNode st1.ctx u w = (some ⟨u, { u with id := (st1.ctx.store.add w).1 }⟩, (setNode st1.ctx u w).2) := by
        unfold setNode
        simp only
        rw [if_neg hneq]
      have hst := setNode_store st1.ctx u w
      generalize hc2 : (setNode st1.ctx u w).2 = c2 at hset hst hgood
      have hpre : st1.ctx.store <+: c2.store := by rw [hst]; exact add_prefix _ _
      generalize hnid : (st1.ctx.store.add w).1 = nid at hset hx1 hneq
      have hrd : Reads c2.store (b := true) nid (bump (.node k d l ks)) := by
        rw [bump]
        refine ⟨x, by rw [hst]; exact hx1, k1.symm.trans ?_, k2.symm.trans ?_, ?_⟩
        · exact hk
        · simp only [w, hd]
        · rw [← k3]
          exact reads_mono hpre hread
      have hb : Bumped s0 c2.store root ⟨u, { u with id := nid }⟩ :=
        ⟨⟨hroot, hat⟩, rfl, hne, hout, .node k d l ks, ⟨v, hv, hk, hd, hkids⟩, hrd⟩
      have hnew : ∀ r ∈ st1.edits, r.original ≠ u := by
        intro r hr he
        rw [a1] at hr
        rcases List.mem_append.1 hr with hr | hr
        · exact hfresh r hr (by rw [he])
        · obtain ⟨j, _, hj⟩ := b1 r hr
          rw [he] at hj
          have := hj.length_le
          simp at this
          omega
      refine ⟨⟨u, { u with id := nid }⟩, ⟨c2, st1.edits ++ [⟨u, { u with id := nid }⟩]⟩, ?_, p1.trans hpre, ⟨hgood, i1.ext.trans hpre, ?_, ?_⟩,
        by simp, rfl, hrd, l1 ++ [⟨u, { u with id := nid }⟩], ?_, ?_⟩
      · rw [aux, hsub, e1]
        simp only
        have hup : update st1.ctx u (newSubnodes st1.edits) = .ok (some ⟨u, { u with id := nid }⟩, c2) := by
          unfold update
          rw [hv1]
          simp only
          rw [if_pos (hk.trans hon1), hids']
          exact congrArg Except.ok hset
        rw [hup]
        simp only [inclOpt]
        rw [incl_ok hnew (bumped_replaceOk hb (i1.ext.trans hpre))]
      · intro r hr
        rcases List.mem_append.1 hr with hr | hr
        · exact bumped_mono (i1.bumped r hr) hpre
        · rw [List.mem_singleton] at hr
          subst hr
          exact hb
      · rw [List.map_append, List.nodup_append]
        refine ⟨i1.nodup, by simp, ?_⟩
        intro a ha b hb'
        simp only [List.map_cons, List.map_nil, List.mem_singleton] at hb'
        subst hb'
        obtain ⟨r, hr, rfl⟩ := List.mem_map.1 ha
        exact hnew r hr
      · simp only [a1, List.append_assoc]
      · intro y hy
        rcases List.mem_append.1 hy with hy | hy
        · obtain ⟨j, _, hj⟩ := b1 y hy
          exact (List.prefix_append _ _).trans hj
        · rw [List.mem_singleton] at hy
          subst hy
          exact List.prefix_refl _

end Verif.Demote
