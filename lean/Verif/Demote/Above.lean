import Verif.Imm.History
import Verif.Eval.Spec

/-! # Cascading from one position up to the root

The replacements may be nested, as long as it is known what happens at one position `q` that is above all of them. -/

namespace Verif.Demote

open Verif.Imm
open Verif.Eval (putAt)

variable {D : Type} [DecidableEq D]

/-- What is known: the recursion at `q` returns, and it is the only place where something happens. -/
structure Single (srt : List (Step × Id) → List (Step × Id)) (s : Store D) (root : Id) (rs : List Replace) (ps : List Uniq)
    (q : List Step) (idq : Id) (new : Tree D true) (F : Nat) : Prop where
  here : ∀ (c : Ctx D) (fuel : Nat), s <+: c.store → Interned c.store → F ≤ fuel →
    ∃ id' c', recurse srt rs ps fuel ⟨idq, root, q⟩ c = .ok (id', c') ∧ c.store <+: c'.store ∧ Interned c'.store ∧
      Reads c'.store (b := true) id' new ∧ id' ≠ idq
  pos : s.at root q = some idq
  above : ∀ u : Uniq, u.root = root → s.at root u.path = some u.id → ¬ q <+: u.path →
    (u ∈ ps ↔ u.path <+: q) ∧ edit? rs u = none
  rootOk : rootKind s root = true

section
variable {srt : List (Step × Id) → List (Step × Id)} {s : Store D} {root : Id} {rs : List Replace} {ps : List Uniq}
  {q : List Step} {idq : Id} {new : Tree D true} {F : Nat}

omit [DecidableEq D] in
theorem putAt_untouched {b : Bool} (t : Tree D b) : ∀ p, ¬ p <+: q → substitute (putAt q new) p t = t := by
  induction t with
  | node k d l ks ih =>
    intro p hp
    have : putAt q new p = none := by
      unfold putAt
      rw [if_neg]
      intro he
      exact hp (by rw [he])
    simp only [substitute, this, ih p hp]
  | nil => intro p hp; rfl
  | cons st t rest ih1 ih2 =>
    intro p hp
    have : ¬ p ++ [st] <+: q := fun h => hp ((List.prefix_append _ _).trans h)
    simp only [substitute, ih1 _ this, ih2 p hp]

/-- What a run on one node or on a list of them achieves. -/
def Reaches (srt : List (Step × Id) → List (Step × Id)) (root : Id) (rs : List Replace) (ps : List Uniq)
    (q : List Step) (new : Tree D true) (c : Ctx D) (fuel : Nat) (p : List Step) : {b : Bool} → Added b → Tree D b → Prop
  | true, id, t => ∃ (id' : Id) (c' : Ctx D), recurse srt rs ps fuel ⟨id, root, p⟩ c = .ok (id', c') ∧
      c.store <+: c'.store ∧ Interned c'.store ∧ Reads c'.store (b := true) id' (substitute (putAt q new) p t) ∧
      (id' = id ↔ ¬ p <+: q)
  | false, kids, ks => ∃ (ids : List Id) (c' : Ctx D), recurseList srt rs ps fuel
        (List.map (fun k : Step × Id => (⟨k.2, root, p ++ [k.1]⟩ : Uniq)) kids) c = .ok (ids, c') ∧
      c.store <+: c'.store ∧ Interned c'.store ∧
      Reads c'.store (b := false) (List.zip (List.map (·.1) kids) ids : List (Step × Id)) (substitute (putAt q new) p ks) ∧
      ids.length = List.length kids ∧
      (ids = List.map (·.2) kids ↔ ∀ k ∈ kids, ¬ p ++ [k.1] <+: q)

/-- The fuel for one node or for a list of them. -/
def enoughFor (F : Nat) {b : Bool} (t : Tree D b) (fuel : Nat) : Prop :=
  match b with
  | true => F + 2 * depth t ≤ fuel
  | false => F + 2 * depth t + 1 ≤ fuel

/-- The position is that of the node or of the parent of the list. -/
def Over (s : Store D) (root : Id) (q p : List Step) : {b : Bool} → Added b → Prop
  | true, id => s.at root p = some id ∧ (q <+: p → q = p)
  | false, kids => (∀ k ∈ kids, s.at root (p ++ [k.1]) = some k.2) ∧ ¬ q <+: p

theorem recurse_single (hsrt : ∀ l, l.Pairwise (fun a b => a.1.field ≤ b.1.field) → srt l = l)
    (h : Single srt s root rs ps q idq new F) {b : Bool} (t : Tree D b) :
    ∀ (a : Added b) (p : List Step) (c : Ctx D) (fuel : Nat), s <+: c.store → Interned c.store → Reads s a t →
      ShapedTree t → Over s root q p a → enoughFor F t fuel → Reaches srt root rs ps q new c fuel p a t := by
  induction t with
  | nil =>
    intro a p c fuel hs hi hr hsh hat hf
    simp only [Reads] at hr
    subst hr
    refine ⟨[], c, ?_, List.prefix_refl _, hi, rfl, rfl, by simp⟩
    simp [recurseList]
  | cons st t rest ih1 ih2 =>
    intro a p c fuel hs hi hr hsh hat hf
    obtain ⟨id, tl, rfl, hr1, hr2⟩ := hr
    simp only [enoughFor, depth] at hf
    obtain ⟨fuel, rfl⟩ : ∃ f, fuel = f + 1 := ⟨fuel - 1, by omega⟩
    obtain ⟨hat1, hat2⟩ := hat
    obtain ⟨id', c1, e1, p1, i1, r1, x1⟩ := ih1 id (p ++ [st]) c fuel hs hi hr1 hsh.1
      ⟨hat1 (st, id) (by simp), by
        intro hpre
        rcases prefix_snoc hpre with hx | hx
        · exact absurd hx hat2
        · exact hx⟩ (by simp only [enoughFor]; omega)
    obtain ⟨ids, c2, e2, p2, i2, r2, l2, x2⟩ := ih2 tl p c1 (fuel + 1) (hs.trans p1) i1 hr2 hsh.2
      ⟨fun k hk => hat1 k (List.mem_cons_of_mem _ hk), hat2⟩ (by simp only [enoughFor]; omega)
    refine ⟨id' :: ids, c2, ?_, p1.trans p2, i2, ?_, ?_, ?_⟩
    · rw [List.map_cons, recurseList, e1]
      simp only
      rw [e2]
    · exact ⟨id', List.zip (List.map (·.1) tl) ids, rfl, reads_mono p2 r1, r2⟩
    · simp [l2]
    · simp only [List.map_cons, List.cons.injEq, List.mem_cons, forall_eq_or_imp]
      rw [x1, x2]
  | node k d l ks ih =>
    intro a p c fuel hs hi hr hsh hat hf
    obtain ⟨v, hv, hk, hd, hkids⟩ := hr
    simp only [enoughFor, depth] at hf
    obtain ⟨hat1, hat2⟩ := hat
    have hsteps := steps_eq hkids
    have hnd : (v.kids.map (·.1)).Nodup := by rw [hsteps]; exact shaped_nodup hsh.1
    have hstep : ∀ k ∈ v.kids, s.at root (p ++ [k.1]) = some k.2 := by
      intro k hk
      rw [at_append, hat1]
      simp only [Option.bind_some, Store.at, Store.atStep, Store.kids]
      rw [hv]
      simp only
      rw [find_self hnd k hk]
      rfl
    show ∃ (id' : Id) (c' : Ctx D), recurse srt rs ps fuel ⟨a, root, p⟩ c = .ok (id', c') ∧
      c.store <+: c'.store ∧ Interned c'.store ∧
      Reads c'.store (b := true) id' (substitute (putAt q new) p (.node k d l ks)) ∧ (id' = a ↔ ¬ p <+: q)
    by_cases hedit : q = p
    · -- the position itself
      subst hedit
      have ha : a = idq := by
        have := h.pos
        rw [hat1] at this
        injection this
      obtain ⟨id', c', e1, e2, e3, e4, e5⟩ := h.here c fuel hs hi (by omega)
      refine ⟨id', c', by rw [ha]; exact e1, e2, e3, ?_, ?_⟩
      · simp only [substitute, putAt, if_true]
        exact e4
      · constructor
        · intro he; exact absurd (he.trans ha) e5
        · intro he; exact absurd (List.prefix_refl _) he
    · have hbel : ¬ q <+: p := fun hx => hedit (hat2 hx)
      obtain ⟨hps, hnone⟩ := h.above ⟨a, root, p⟩ rfl hat1 hbel
      have hnew : putAt q new p = none := by
        unfold putAt
        rw [if_neg (fun he => hedit he.symm)]
      obtain ⟨fuel, rfl⟩ : ∃ f, fuel = f + 1 := ⟨fuel - 1, by omega⟩
      rw [recurse]
      by_cases htouch : p <+: q
      · -- a node above
        rw [if_pos (hps.2 htouch), hnone]
        simp only [Option.getD_none]
        have hsub : c.store.subnodes ⟨a, root, p⟩ = List.map (fun k : Step × Id => (⟨k.2, root, p ++ [k.1]⟩ : Uniq)) v.kids := by
          simp only [Store.subnodes, Store.kids]
          rw [getElem?_prefix hs hv]
        obtain ⟨ids, c1, e1, p1, i1, r1, l1, x1⟩ := ih v.kids p c fuel hs hi hkids hsh.2
          ⟨hstep, hbel⟩ (by simp only [enoughFor]; omega)
        rw [hsub, e1]
        simp only
        have hchg : ids ≠ v.kids.map (·.2) := by
          intro he
          rw [x1] at he
          obtain ⟨r, hq⟩ := htouch
          cases r with
          | nil => exact hedit (by simpa using hq.symm)
          | cons st r =>
            have ho := h.pos
            rw [← hq, at_append, hat1] at ho
            simp only [Option.bind_some, Store.at, Store.atStep, Store.kids] at ho
            rw [hv] at ho
            simp only at ho
            cases hf : v.kids.find? (fun k => decide (k.1 = st)) with
            | none => rw [hf] at ho; simp at ho
            | some x =>
              have hx1 := List.mem_of_find?_eq_some hf
              have hx2 := List.find?_some hf
              simp only [decide_eq_true_eq] at hx2
              refine he x hx1 ?_
              rw [hx2, ← hq]
              exact ⟨r, by simp⟩
        have hv1 : c1.store[a]? = some v := getElem?_prefix (hs.trans p1) hv
        have hkk : c1.store.kids a = v.kids := by simp only [Store.kids]; rw [hv1]
        rw [hkk, if_neg hchg]
        rw [show c1.store[a]? = some v from hv1]
        simp only
        have hzip : (List.zip (v.kids.map (·.1)) ids).map (·.1) = v.kids.map (·.1) := by
          rw [List.map_fst_zip]
          rw [l1, List.length_map]
        rw [newKids_self hsrt (by rw [hzip, hsteps]; exact hsh.1) hzip.symm]
        simp only
        have hneq : (c1.store.add { v with kids := List.zip (v.kids.map (·.1)) ids }).1 ≠ a := by
          intro he
          obtain ⟨w, hw1, hw2⟩ := add_val c1.store { v with kids := List.zip (v.kids.map (·.1)) ids }
          rw [he, show ((c1.store.add { v with kids := List.zip (v.kids.map (·.1)) ids }).2)[a]? = some v from
            getElem?_prefix (add_prefix _ _) hv1] at hw1
          injection hw1 with hw1
          subst hw1
          have := (same_iff.1 hw2).2.2
          simp only at this
          apply hchg
          have h2 := congrArg (List.map (·.2)) this
          rw [List.map_snd_zip (by rw [l1, List.length_map])] at h2
          exact h2
        unfold setNode
        simp only
        rw [if_neg hneq]
        simp only
        have hrk : p = [] → rootKind s a = true := by
          intro hp
          rw [hp] at hat1
          simp only [Store.at] at hat1
          injection hat1 with hat1
          rw [← hat1]
          exact h.rootOk
        obtain ⟨w, hw1, hw2⟩ := add_val c1.store { v with kids := List.zip (v.kids.map (·.1)) ids }
        obtain ⟨k1, k2, k3⟩ := same_iff.1 hw2
        simp only at k1 k2 k3
        have hst := setNode_store c1 ⟨a, root, p⟩ { v with kids := List.zip (v.kids.map (·.1)) ids }
        rw [setNode_ctx] at hst
        have hok : ∀ s' : Store D, s' = (c1.store.add { v with kids := List.zip (v.kids.map (·.1)) ids }).2 →
            replaceOk s' ⟨⟨a, root, p⟩, ⟨(c1.store.add { v with kids := List.zip (v.kids.map (·.1)) ids }).1, root, p⟩⟩ = true := by
          intro s' hs'
          have hpre : s <+: s' := by rw [hs']; exact (hs.trans p1).trans (add_prefix _ _)
          have h3 : (⟨a, root, p⟩ : Uniq) ≠ ⟨(c1.store.add { v with kids := List.zip (v.kids.map (·.1)) ids }).1, root, p⟩ := by
            intro he
            injection he with he
            exact hneq he.symm
          simp only [replaceOk, h3, ne_eq, not_false_eq_true, decide_true, Bool.and_true, Bool.and_eq_true,
            Bool.or_eq_true, Bool.not_eq_eq_eq_not, Bool.not_true, List.isEmpty_eq_false_iff]
          by_cases hp : p = []
          · refine ⟨.inl (rootKind_prefix hpre (hrk hp)), .inl ?_⟩
            have := hrk hp
            unfold rootKind at this ⊢
            rw [hv] at this
            rw [hs', hw1]
            simp only at this ⊢
            rw [← k1]
            exact this
          · exact ⟨.inr hp, .inr hp⟩
        rw [if_pos (hok _ hst)]
        refine ⟨_, _, rfl, ?_, ?_, ?_, ?_⟩
        · rw [hst]
          exact p1.trans (add_prefix _ _)
        · rw [hst]
          exact add_interned i1 _
        · simp only [substitute, hnew]
          rw [hst]
          refine ⟨w, hw1, k1.symm.trans hk, k2.symm.trans hd, ?_⟩
          rw [← k3]
          exact reads_mono (add_prefix _ _) r1
        · constructor
          · intro he; exact absurd he hneq
          · intro he; exact absurd htouch he
      · -- nothing to do
        rw [if_neg (fun hin => htouch (hps.1 hin)), hnone]
        simp only
        refine ⟨a, c, rfl, List.prefix_refl _, hi, ?_, by simp [htouch]⟩
        rw [putAt_untouched _ p htouch]
        exact ⟨v, getElem?_prefix hs hv, hk, hd, reads_mono hs hkids⟩

/-- What is left alone: neither replaced nor above a replacement. -/
def Idle (rs : List Replace) (ps : List Uniq) (u : Uniq) : Prop := u ∉ ps ∧ edit? rs u = none

theorem recurseList_idle {us : List Uniq} (hus : ∀ u ∈ us, Idle rs ps u) (c : Ctx D) (fuel : Nat) :
    recurseList srt rs ps (fuel + 2) us c = .ok (us.map (·.id), c) := by
  induction us with
  | nil => simp [recurseList]
  | cons u us ih =>
    rw [recurseList, recurse]
    obtain ⟨h1, h2⟩ := hus u (by simp)
    rw [if_neg h1, h2]
    simp only
    rw [ih (fun x hx => hus x (by simp [hx]))]
    simp

/-- A replaced node below which nothing happens. -/
theorem recurse_replaced {u e : Uniq} {c : Ctx D} (he : edit? rs u = some e) (hok : replaceOk c.store ⟨u, e⟩ = true)
    (hidle : ∀ k ∈ c.store.kids e.id, Idle rs ps ⟨k.2, e.root, e.path ++ [k.1]⟩) (fuel : Nat) :
    recurse srt rs ps (fuel + 3) u c = .ok (e.id, c) := by
  rw [recurse, he]
  simp only [Option.getD_some]
  have hl : recurseList srt rs ps (fuel + 2) (c.store.subnodes e) c = .ok ((c.store.kids e.id).map (·.2), c) := by
    rw [recurseList_idle]
    · simp [Store.subnodes]
    · intro x hx
      simp only [Store.subnodes, List.mem_map] at hx
      obtain ⟨k, hk, rfl⟩ := hx
      exact hidle k hk
  split
  · rw [hl]
    simp only [if_true]
    rw [if_pos hok]
  · simp only

end
end Verif.Demote
