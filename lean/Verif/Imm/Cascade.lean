import Verif.Imm.Evolve
import Mathlib.Data.List.Infix
import Mathlib.Data.List.Nodup
import Mathlib.Data.List.Range
import Mathlib.Tactic.SplitIfs

/-! # Cascading replacements up to the root -/

namespace Verif.Imm

variable {D : Type} [DecidableEq D]

/-! ## The recursion -/

theorem at_append (s : Store D) : ∀ (p : List Step) (id : Id) (q : List Step),
    s.at id (p ++ q) = (s.at id p).bind (fun i => s.at i q) := by
  intro p
  induction p with
  | nil => intro id q; simp [Store.at]
  | cons st p ih =>
    intro id q
    simp only [List.cons_append, Store.at]
    cases s.atStep id st with
    | none => rfl
    | some i => exact ih i q

/-- The replacements of a group and the nodes above them. -/
structure Edits (s : Store D) (root : Id) (rs : List Replace) (ps : List Uniq)
    (new : List Step → Option (Tree D true)) : Prop where
  orig : ∀ r ∈ rs, r.original.root = root ∧ s.at root r.original.path = some r.original.id
  repl : ∀ r ∈ rs, r.replaced = { r.original with id := r.replaced.id }
  differs : ∀ r ∈ rs, r.replaced.id ≠ r.original.id
  apart : ∀ r ∈ rs, ∀ r' ∈ rs, r.original.path <+: r'.original.path → r = r'
  reads : ∀ r ∈ rs, ∃ t, new r.original.path = some t ∧ Reads s (b := true) r.replaced.id t
  only : ∀ p t, new p = some t → ∃ r ∈ rs, r.original.path = p
  above : ∀ u, u ∈ ps ↔ ∃ r ∈ rs, u.root = root ∧ s.at root u.path = some u.id ∧
    ((u.path <+: r.original.path ∧ u.path ≠ r.original.path) ∨ u.path = [])
  rootOk : rootKind s root = true

section
variable {s : Store D} {root : Id} {rs : List Replace} {ps : List Uniq} {new : List Step → Option (Tree D true)}

theorem edits_find (h : Edits s root rs ps new) {r : Replace} (hr : r ∈ rs) : edit? rs r.original = some r.replaced := by
  unfold edit?
  cases hf : rs.find? (fun x => decide (x.original = r.original)) with
  | none =>
    rw [List.find?_eq_none] at hf
    exact absurd (hf r hr) (by simp)
  | some x =>
    have h1 := List.mem_of_find?_eq_some hf
    have h2 := List.find?_some hf
    simp only [decide_eq_true_eq] at h2
    have := h.apart x h1 r hr (by rw [h2])
    rw [this]
    rfl

/-- An edit at or below the position. -/
def Touched (rs : List Replace) (p : List Step) : Prop := ∃ r ∈ rs, p <+: r.original.path

theorem new_none (h : Edits s root rs ps new) {p : List Step} (hp : ∀ r ∈ rs, r.original.path ≠ p) : new p = none := by
  cases hn : new p with
  | none => rfl
  | some t =>
    obtain ⟨r, hr, he⟩ := h.only p t hn
    exact absurd he (hp r hr)

theorem substitute_untouched (h : Edits s root rs ps new) {b : Bool} (t : Tree D b) : ∀ p, ¬ Touched rs p →
    substitute new p t = t := by
  induction t with
  | node k d l ks ih =>
    intro p hp
    have : new p = none := new_none h (fun r hr he => hp ⟨r, hr, by rw [he]⟩)
    simp only [substitute, this, ih p hp]
  | nil => intro p hp; rfl
  | cons st t rest ih1 ih2 =>
    intro p hp
    have : ¬ Touched rs (p ++ [st]) := by
      rintro ⟨r, hr, hx⟩
      exact hp ⟨r, hr, (List.prefix_append _ _).trans hx⟩
    simp only [substitute, ih1 _ this, ih2 p hp]

theorem rootKind_prefix {s s' : Store D} (h : s <+: s') {i : Id} (hr : rootKind s i = true) : rootKind s' i = true := by
  unfold rootKind at hr
  split at hr
  · rename_i v hv
    unfold rootKind
    rw [getElem?_prefix h hv]
    exact hr
  · simp at hr

/-- What a run on one node or on a list of them achieves. -/
def Achieves (srt : List (Step × Id) → List (Step × Id)) (s : Store D) (root : Id) (rs : List Replace) (ps : List Uniq)
    (new : List Step → Option (Tree D true)) (c : Ctx D) (fuel : Nat) (p : List Step) : {b : Bool} → Added b → Tree D b → Prop
  | true, id, t => ∃ (id' : Id) (c' : Ctx D), recurse srt rs ps fuel ⟨id, root, p⟩ c = .ok (id', c') ∧
      c.store <+: c'.store ∧ Interned c'.store ∧ Reads c'.store (b := true) id' (substitute new p t) ∧
      (id' = id ↔ ¬ Touched rs p)
  | false, kids, ks => ∃ (ids : List Id) (c' : Ctx D), recurseList srt rs ps fuel
        (List.map (fun k : Step × Id => (⟨k.2, root, p ++ [k.1]⟩ : Uniq)) kids) c = .ok (ids, c') ∧
      c.store <+: c'.store ∧ Interned c'.store ∧
      Reads c'.store (b := false) (List.zip (List.map (·.1) kids) ids : List (Step × Id)) (substitute new p ks) ∧
      ids.length = List.length kids ∧
      (ids = List.map (·.2) kids ↔ ∀ k ∈ kids, ¬ Touched rs (p ++ [k.1]))

/-- The fuel for one node or for a list of them. -/
def enough {b : Bool} (t : Tree D b) (fuel : Nat) : Prop :=
  match b with
  | true => 2 * depth t ≤ fuel
  | false => 2 * depth t + 1 ≤ fuel

/-- The position is that of the node or of the parent of the list. -/
def AtPos (s : Store D) (root : Id) (rs : List Replace) (p : List Step) : {b : Bool} → Added b → Prop
  | true, id => s.at root p = some id ∧ ∀ r ∈ rs, r.original.path <+: p → r.original.path = p
  | false, kids => (∀ k ∈ kids, s.at root (p ++ [k.1]) = some k.2) ∧ ∀ r ∈ rs, ¬ r.original.path <+: p

theorem prefix_snoc {α : Type} {a p : List α} {x : α} (h : a <+: p ++ [x]) : a <+: p ∨ a = p ++ [x] := by
  rw [List.prefix_concat_iff] at h
  rcases h with h | h
  · exact .inr h
  · exact .inl h

theorem recurse_ok {srt : List (Step × Id) → List (Step × Id)}
    (hsrt : ∀ l, l.Pairwise (fun a b => a.1.field ≤ b.1.field) → srt l = l)
    (h : Edits s root rs ps new) (hnr : ∀ r ∈ rs, r.original.path ≠ []) {b : Bool} (t : Tree D b) :
    ∀ (a : Added b) (p : List Step) (c : Ctx D) (fuel : Nat), s <+: c.store → Interned c.store → Reads s a t →
      ShapedTree t → AtPos s root rs p a → enough t fuel → Achieves srt s root rs ps new c fuel p a t := by
  induction t with
  | nil =>
    intro a p c fuel hs hi hr hsh hat hf
    simp only [Reads] at hr
    subst hr
    refine ⟨[], c, ?_, List.prefix_refl _, hi, rfl, rfl, by simp⟩
    simp [recurseList]
  | cons st t rest ih1 ih2 =>
    intro a p c fuel hs hi hr hsh hat hf
    obtain ⟨id, tl, rfl, hr1, hr2⟩ := hr
    simp only [enough, depth] at hf
    obtain ⟨fuel, rfl⟩ : ∃ f, fuel = f + 1 := ⟨fuel - 1, by omega⟩
    obtain ⟨hat1, hat2⟩ := hat
    obtain ⟨id', c1, e1, p1, i1, r1, x1⟩ := ih1 id (p ++ [st]) c fuel hs hi hr1 hsh.1
      ⟨hat1 (st, id) (by simp), by
        intro r hr hpre
        rcases prefix_snoc hpre with hx | hx
        · exact absurd hx (hat2 r hr)
        · exact hx⟩ (by simp only [enough]; omega)
    obtain ⟨ids, c2, e2, p2, i2, r2, l2, x2⟩ := ih2 tl p c1 (fuel + 1) (hs.trans p1) i1 hr2 hsh.2
      ⟨fun k hk => hat1 k (List.mem_cons_of_mem _ hk), hat2⟩ (by simp only [enough]; omega)
    refine ⟨id' :: ids, c2, ?_, p1.trans p2, i2, ?_, ?_, ?_⟩
    · rw [List.map_cons, recurseList, e1]
      simp only
      rw [e2]
    · exact ⟨id', List.zip (List.map (·.1) tl) ids, rfl, reads_mono p2 r1, r2⟩
    · simp [l2]
    · simp only [List.map_cons, List.cons.injEq, List.mem_cons, forall_eq_or_imp]
      rw [x1, x2]
  | node k d l ks ih =>
    intro a p c fuel hs hi hr hsh hat hf
    obtain ⟨v, hv, hk, hd, hkids⟩ := hr
    simp only [enough, depth] at hf
    obtain ⟨fuel, rfl⟩ : ∃ f, fuel = f + 1 := ⟨fuel - 1, by omega⟩
    obtain ⟨hat1, hat2⟩ := hat
    have hsteps := steps_eq hkids
    have hnd : (v.kids.map (·.1)).Nodup := by rw [hsteps]; exact shaped_nodup hsh.1
    have hstep : ∀ k ∈ v.kids, s.at root (p ++ [k.1]) = some k.2 := by
      intro k hk
      rw [at_append, hat1]
      simp only [Option.bind_some, Store.at, Store.atStep, Store.kids]
      rw [hv]
      simp only
      rw [find_self hnd k hk]
      rfl
    show ∃ (id' : Id) (c' : Ctx D), recurse srt rs ps (fuel + 1) ⟨a, root, p⟩ c = .ok (id', c') ∧
      c.store <+: c'.store ∧ Interned c'.store ∧
      Reads c'.store (b := true) id' (substitute new p (.node k d l ks)) ∧ (id' = a ↔ ¬ Touched rs p)
    rw [recurse]
    by_cases hedit : ∃ r ∈ rs, r.original.path = p
    · -- the node is replaced
      obtain ⟨r, hr, hrp⟩ := hedit
      have hu : r.original = ⟨a, root, p⟩ := by
        obtain ⟨o1, o2⟩ := h.orig r hr
        rw [hrp, hat1] at o2
        injection o2 with o2
        cases hro : r.original with
        | mk i ro pa =>
          rw [hro] at o1 o2 hrp
          simp only at o1 o2 hrp
          rw [o1, ← o2, hrp]
      have hnot : (⟨a, root, p⟩ : Uniq) ∉ ps := by
        intro hin
        obtain ⟨r', hr', _, _, hx⟩ := (h.above _).1 hin
        rcases hx with hx | hx
        · simp only at hx
          have := h.apart r hr r' hr' (by rw [hrp]; exact hx.1)
          rw [← this, hrp] at hx
          exact hx.2 rfl
        · simp only at hx
          rw [hx] at hrp
          exact hnr r hr hrp
      rw [if_neg hnot, ← hu, edits_find h hr]
      have hok : replaceOk c.store ⟨r.original, r.replaced⟩ = true := by
        have h1 := hnr r hr
        have h2 : r.replaced.path = r.original.path := by rw [h.repl r hr]
        have h3 : r.original ≠ r.replaced := by
          intro he
          exact h.differs r hr (by rw [← he])
        simp only [replaceOk, h2, h3, ne_eq, not_false_eq_true, decide_true, Bool.and_true, Bool.and_eq_true,
          Bool.or_eq_true, Bool.not_eq_eq_eq_not, Bool.not_true, List.isEmpty_eq_false_iff]
        exact ⟨.inr h1, .inr h1⟩
      simp only [hok, if_true]
      obtain ⟨t, ht1, ht2⟩ := h.reads r hr
      refine ⟨r.replaced.id, c, rfl, List.prefix_refl _, hi, ?_, ?_⟩
      · simp only [substitute]
        rw [hrp] at ht1
        rw [ht1]
        exact reads_mono hs ht2
      · have := h.differs r hr
        rw [hu] at this
        simp only at this
        constructor
        · intro he; exact absurd he this
        · intro he; exact absurd ⟨r, hr, by rw [hrp]⟩ he
    · have hedit' : ∀ r ∈ rs, r.original.path ≠ p := fun r hr he => hedit ⟨r, hr, he⟩
      have hnone : edit? rs ⟨a, root, p⟩ = none := by
        cases he : edit? rs ⟨a, root, p⟩ with
        | none => rfl
        | some e =>
          obtain ⟨r, hr, h1, _⟩ := edit?_mem he
          exact absurd (by rw [h1]) (hedit' r hr)
      have hnew : new p = none := new_none h hedit'
      by_cases htouch : Touched rs p
      · -- a node above an edit
        obtain ⟨r, hr, hrp⟩ := htouch
        have hin : (⟨a, root, p⟩ : Uniq) ∈ ps := (h.above _).2 ⟨r, hr, rfl, hat1, .inl ⟨hrp, fun he => hedit' r hr he.symm⟩⟩
        rw [if_pos hin, hnone]
        simp only [Option.getD_none]
        have hsub : c.store.subnodes ⟨a, root, p⟩ = List.map (fun k : Step × Id => (⟨k.2, root, p ++ [k.1]⟩ : Uniq)) v.kids := by
          simp only [Store.subnodes, Store.kids]
          rw [getElem?_prefix hs hv]
        obtain ⟨ids, c1, e1, p1, i1, r1, l1, x1⟩ := ih v.kids p c fuel hs hi hkids hsh.2
          ⟨hstep, fun r hr hx => hedit' r hr (hat2 r hr hx)⟩ (by simp only [enough]; omega)
        rw [hsub, e1]
        simp only
        have hchg : ids ≠ v.kids.map (·.2) := by
          intro he
          rw [x1] at he
          obtain ⟨q, hq⟩ := hrp
          cases q with
          | nil => exact hedit' r hr (by simpa using hq.symm)
          | cons st q =>
            have ho := (h.orig r hr).2
            rw [← hq, at_append, hat1] at ho
            simp only [Option.bind_some, Store.at, Store.atStep, Store.kids] at ho
            rw [hv] at ho
            simp only at ho
            cases hf : v.kids.find? (fun k => decide (k.1 = st)) with
            | none => rw [hf] at ho; simp at ho
            | some x =>
              have hx1 := List.mem_of_find?_eq_some hf
              have hx2 := List.find?_some hf
              simp only [decide_eq_true_eq] at hx2
              refine he x hx1 ⟨r, hr, ?_⟩
              rw [hx2, ← hq]
              exact ⟨q, by simp⟩
        have hv1 : c1.store[a]? = some v := getElem?_prefix (hs.trans p1) hv
        have hkk : c1.store.kids a = v.kids := by simp only [Store.kids]; rw [hv1]
        rw [hkk, if_neg hchg]
        rw [show c1.store[a]? = some v from hv1]
        simp only
        have hzip : (List.zip (v.kids.map (·.1)) ids).map (·.1) = v.kids.map (·.1) := by
          rw [List.map_fst_zip]
          rw [l1, List.length_map]
        rw [newKids_self hsrt (by rw [hzip, hsteps]; exact hsh.1) hzip.symm]
        simp only
        have hneq : (c1.store.add { v with kids := List.zip (v.kids.map (·.1)) ids }).1 ≠ a := by
          intro he
          obtain ⟨w, hw1, hw2⟩ := add_val c1.store { v with kids := List.zip (v.kids.map (·.1)) ids }
          rw [he, show ((c1.store.add { v with kids := List.zip (v.kids.map (·.1)) ids }).2)[a]? = some v from
            getElem?_prefix (add_prefix _ _) hv1] at hw1
          injection hw1 with hw1
          subst hw1
          have := (same_iff.1 hw2).2.2
          simp only at this
          apply hchg
          have h2 := congrArg (List.map (·.2)) this
          rw [List.map_snd_zip (by rw [l1, List.length_map])] at h2
          exact h2
        unfold setNode
        simp only
        rw [if_neg hneq]
        simp only
        have hrk : p = [] → rootKind s a = true := by
          intro hp
          rw [hp] at hat1
          simp only [Store.at] at hat1
          injection hat1 with hat1
          rw [← hat1]
          exact h.rootOk
        obtain ⟨w, hw1, hw2⟩ := add_val c1.store { v with kids := List.zip (v.kids.map (·.1)) ids }
        obtain ⟨k1, k2, k3⟩ := same_iff.1 hw2
        simp only at k1 k2 k3
        have hst := setNode_store c1 ⟨a, root, p⟩ { v with kids := List.zip (v.kids.map (·.1)) ids }
        rw [setNode_ctx] at hst
        have hok : ∀ s' : Store D, s' = (c1.store.add { v with kids := List.zip (v.kids.map (·.1)) ids }).2 →
            replaceOk s' ⟨⟨a, root, p⟩, ⟨(c1.store.add { v with kids := List.zip (v.kids.map (·.1)) ids }).1, root, p⟩⟩ = true := by
          intro s' hs'
          have hpre : s <+: s' := by rw [hs']; exact (hs.trans p1).trans (add_prefix _ _)
          have h3 : (⟨a, root, p⟩ : Uniq) ≠ ⟨(c1.store.add { v with kids := List.zip (v.kids.map (·.1)) ids }).1, root, p⟩ := by
            intro he
            injection he with he
            exact hneq he.symm
          simp only [replaceOk, h3, ne_eq, not_false_eq_true, decide_true, Bool.and_true, Bool.and_eq_true,
            Bool.or_eq_true, Bool.not_eq_eq_eq_not, Bool.not_true, List.isEmpty_eq_false_iff]
          by_cases hp : p = []
          · refine ⟨.inl (rootKind_prefix hpre (hrk hp)), .inl ?_⟩
            have := hrk hp
            unfold rootKind at this ⊢
            rw [hv] at this
            rw [hs', hw1]
            simp only at this ⊢
            rw [← k1]
            exact this
          · exact ⟨.inr hp, .inr hp⟩
        rw [if_pos (hok _ hst)]
        refine ⟨_, _, rfl, ?_, ?_, ?_, ?_⟩
        · rw [hst]
          exact p1.trans (add_prefix _ _)
        · rw [hst]
          exact add_interned i1 _
        · simp only [substitute, hnew]
          rw [hst]
          refine ⟨w, hw1, k1.symm.trans hk, k2.symm.trans hd, ?_⟩
          rw [← k3]
          exact reads_mono (add_prefix _ _) r1
        · constructor
          · intro he; exact absurd he hneq
          · intro he; exact absurd ⟨r, hr, hrp⟩ he
      · -- nothing to do
        have hroot : p ≠ [] ∨ rs = [] := by
          by_cases hp : p = []
          · right
            cases hrs : rs with
            | nil => rfl
            | cons r rs' => exact absurd ⟨r, by rw [hrs]; simp, by rw [hp]; exact List.nil_prefix⟩ htouch
          · exact .inl hp
        have hnot : (⟨a, root, p⟩ : Uniq) ∉ ps := by
          intro hin
          obtain ⟨r', hr', _, _, hx⟩ := (h.above _).1 hin
          rcases hx with hx | hx
          · exact htouch ⟨r', hr', hx.1⟩
          · simp only at hx
            exact htouch ⟨r', hr', by rw [hx]; exact List.nil_prefix⟩
        rw [if_neg hnot, hnone]
        simp only
        refine ⟨a, c, rfl, List.prefix_refl _, hi, ?_, by simp [htouch]⟩
        rw [substitute_untouched h _ p htouch]
        exact ⟨v, getElem?_prefix hs hv, hk, hd, reads_mono hs hkids⟩

end
end Verif.Imm
