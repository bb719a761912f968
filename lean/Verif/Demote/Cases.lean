import Verif.Demote.Levels

/-! # The new version: the subtree stays, or goes below the headline before it -/

namespace Verif.Demote

open Verif.Imm
open Verif.Eval (kidList ofKids results withResults ReadsKid reads_kids field_reads append_forall₂ putAt isRoot isRoot_kind)

section
variable {D : Type} [DecidableEq D]

/-- Storing another value in the place of a node. -/
theorem setNode_new {c : Ctx D} (hg : Good c.store) (u : Uniq) {v w : Val D} (hv : c.store[u.id]? = some v)
    (hp : Proper c.store w.kids) (hne : w.same v = false) :
    ∃ n c2 x, setNode c u w = (some ⟨u, { u with id := n }⟩, c2) ∧ c.store <+: c2.store ∧ Good c2.store ∧
      c2.store[n]? = some x ∧ x.kind = w.kind ∧ x.data = w.data ∧ x.kids = w.kids ∧ n ≠ u.id := by
  obtain ⟨x, hx1, hx2⟩ := add_val c.store w
  obtain ⟨k1, k2, k3⟩ := same_iff.1 hx2
  have hneq : (c.store.add w).1 ≠ u.id := by
    intro he
    rw [he, getElem?_prefix (add_prefix _ _) hv] at hx1
    injection hx1 with hx1
    rw [hx1, hx2] at hne
    simp at hne
  have hst := setNode_store c u w
  have hgood := setNode_good hg u hp
  refine ⟨(c.store.add w).1, (setNode c u w).2, x, ?_, ?_, hgood, by rw [hst]; exact hx1, k1.symm, k2.symm, k3.symm, hneq⟩
  · unfold setNode
    simp only
    rw [if_neg hneq]
  · rw [hst]
    exact add_prefix _ _

theorem inclAll_nodup {s : Store D} : ∀ {rs acc : List Replace}, (∀ r ∈ rs, replaceOk s r = true) →
    ((acc ++ rs).map (·.original)).Nodup → inclAll s acc rs = .ok (acc ++ rs) := by
  intro rs
  induction rs with
  | nil => intro acc _ _; simp [inclAll]
  | cons r rs ih =>
    intro acc hok hnd
    rw [inclAll]
    have hnone : edit? acc r.original = none := by
      cases he : edit? acc r.original with
      | none => rfl
      | some e =>
        obtain ⟨x, hx, h1, _⟩ := edit?_mem he
        rw [List.map_append, List.map_cons] at hnd
        have := (List.nodup_append.1 hnd).2.2 x.original (List.mem_map_of_mem hx) r.original (by simp)
        exact absurd h1 this
    rw [hnone]
    simp only [Option.isSome_none, Bool.false_eq_true, if_false]
    rw [if_pos (hok r (by simp)), ih (fun x hx => hok x (by simp [hx])) (by simpa using hnd)]
    simp

/-- The cascade is a run from the root with the positions above the replacements. -/
theorem cascade_pos {srt : List (Step × Id) → List (Step × Id)} {c : Ctx D} {root : Id} {rs : List Replace}
    (hpos : ∀ r ∈ rs, r.original.root = root ∧ c.store.at root r.original.path = some r.original.id)
    (hnd : (rs.map (·.original)).Nodup) (hok : ∀ r ∈ rs, replaceOk c.store r = true) :
    ∃ ps, (∀ fuel, cascade srt fuel c root rs = recurse srt rs ps fuel ⟨root, root, []⟩ c) ∧
      ∀ u, u ∈ ps ↔ ∃ r ∈ rs, u.root = root ∧ c.store.at root u.path = some u.id ∧
        ((u.path <+: r.original.path ∧ u.path ≠ r.original.path) ∨ u.path = []) := by
  have hincl := inclAll_nodup (s := c.store) (acc := []) hok (by simpa using hnd)
  simp only [List.nil_append] at hincl
  obtain ⟨pl, hpl, hplm⟩ := mapM_ok_iff (f := fun r : Replace => c.store.parentChain r.original) (l := rs) (by
    intro r hr
    obtain ⟨l, h, _⟩ := parentChain_mem (s := c.store) (u := r.original) (by
      rw [(hpos r hr).1]; exact (hpos r hr).2)
    exact ⟨l, h⟩)
  have hps : editParents c.store rs = .ok pl.flatten := by
    unfold editParents
    rw [hpl]
    rfl
  refine ⟨pl.flatten, ?_, ?_⟩
  · intro fuel
    unfold cascade
    rw [hincl]
    simp only
    rw [hps]
  · intro u
    rw [List.mem_flatten]
    constructor
    · rintro ⟨l, hl, hu⟩
      obtain ⟨r, hr, he⟩ := (hplm l).1 hl
      obtain ⟨l', h1, h2⟩ := parentChain_mem (s := c.store) (u := r.original) (by rw [(hpos r hr).1]; exact (hpos r hr).2)
      rw [he] at h1
      injection h1 with h1
      subst h1
      have := (h2 u).1 hu
      rw [(hpos r hr).1] at this
      exact ⟨r, hr, this⟩
    · rintro ⟨r, hr, hx⟩
      obtain ⟨l', h1, h2⟩ := parentChain_mem (s := c.store) (u := r.original) (by rw [(hpos r hr).1]; exact (hpos r hr).2)
      refine ⟨l', (hplm l').2 ⟨r, hr, h1⟩, (h2 u).2 ?_⟩
      rw [(hpos r hr).1]
      exact hx

theorem edit?_self {rs : List Replace} (hnd : (rs.map (·.original)).Nodup) {r : Replace} (hr : r ∈ rs) :
    edit? rs r.original = some r.replaced := by
  unfold edit?
  induction rs with
  | nil => simp at hr
  | cons a rs ih =>
    rw [List.map_cons, List.nodup_cons] at hnd
    rcases List.mem_cons.1 hr with rfl | hr
    · rw [List.find?_cons_of_pos (by simp)]
      rfl
    · rw [List.find?_cons_of_neg]
      · exact ih hnd.2 hr
      · simp only [decide_eq_true_eq]
        intro he
        exact hnd.1 (by rw [he]; exact List.mem_map_of_mem hr)

/-- If all replacements are at or below one position, the new version differs there only. -/
theorem cascade_single {srt : List (Step × Id) → List (Step × Id)} (hk : Keeps srt) {c : Ctx D} (hg : Good c.store)
    {root : Id} {T : Tree D true} (hT : Reads c.store (b := true) root T) (hroot : isRoot T = true)
    {rs : List Replace} (hne : rs ≠ [])
    (hpos : ∀ r ∈ rs, r.original.root = root ∧ c.store.at root r.original.path = some r.original.id)
    (hnd : (rs.map (·.original)).Nodup) (hok : ∀ r ∈ rs, replaceOk c.store r = true)
    {q : List Step} {idq : Id} (hq : c.store.at root q = some idq) (hbelow : ∀ r ∈ rs, q <+: r.original.path)
    {new : Tree D true} {F : Nat}
    (hhere : ∀ ps : List Uniq, (∀ u, u ∈ ps ↔ ∃ r ∈ rs, u.root = root ∧ c.store.at root u.path = some u.id ∧
        ((u.path <+: r.original.path ∧ u.path ≠ r.original.path) ∨ u.path = [])) →
      ∀ (c1 : Ctx D) (fuel : Nat), c.store <+: c1.store → Interned c1.store → F ≤ fuel →
        ∃ id' c', recurse srt rs ps fuel ⟨idq, root, q⟩ c1 = .ok (id', c') ∧ c1.store <+: c'.store ∧ Interned c'.store ∧
          Reads c'.store (b := true) id' new ∧ id' ≠ idq)
    {fuel : Nat} (hf : F + 2 * depth T ≤ fuel) :
    ∃ id' c', cascade srt fuel c root rs = .ok (id', c') ∧ c.store <+: c'.store ∧
      Reads c'.store (b := true) id' (substitute (putAt q new) [] T) := by
  obtain ⟨ps, hcas, hps⟩ := cascade_pos (srt := srt) hpos hnd hok
  have hS : Single srt c.store root rs ps q idq new F := by
    refine ⟨hhere ps hps, hq, ?_, isRoot_kind hT hroot⟩
    intro u hu hat hnq
    constructor
    · rw [hps]
      constructor
      · rintro ⟨r, hr, _, _, ⟨h1, _⟩ | h1⟩
        · rcases List.prefix_or_prefix_of_prefix h1 (hbelow r hr) with h | h
          · exact h
          · exact absurd h hnq
        · rw [h1]; exact List.nil_prefix
      · intro hp
        obtain ⟨r, hr⟩ := List.exists_mem_of_ne_nil rs hne
        refine ⟨r, hr, hu, hat, .inl ⟨hp.trans (hbelow r hr), ?_⟩⟩
        intro he
        exact hnq (by rw [he]; exact hbelow r hr)
    · cases he : edit? rs u with
      | none => rfl
      | some e =>
        obtain ⟨r, hr, h1, _⟩ := edit?_mem he
        exact absurd (by rw [← h1]; exact hbelow r hr) hnq
  have := recurse_single (srt := srt) hk hS T root [] c fuel (List.prefix_refl _) hg.interned hT
    (reads_shaped hg.shaped hT) ⟨by simp [Store.at], by
      intro h
      simpa using h⟩ hf
  obtain ⟨id', c', e1, e2, _, e4, _⟩ := this
  exact ⟨id', c', by rw [hcas]; exact e1, e2, e4⟩

/-- The members of the children, from both sides. -/
theorem reads_kid_mem {s : Store D} {kids : List (Step × Id)} {ks : Tree D false} (h : Reads s (b := false) kids ks)
    {k : Step × Id} (hk : k ∈ kids) : ∃ t, (k.1, t) ∈ kidList ks ∧ Reads s (b := true) k.2 t := by
  replace h := reads_kids.1 h
  generalize kidList ks = m at h
  induction h with
  | nil => simp at hk
  | cons hab _ ih =>
    rename_i a b l m _
    rcases List.mem_cons.1 hk with rfl | hk
    · exact ⟨b.2, by rw [hab.1]; simp, hab.2⟩
    · obtain ⟨t, h1, h2⟩ := ih hk
      exact ⟨t, List.mem_cons_of_mem _ h1, h2⟩

theorem kid_reads_mem {s : Store D} {kids : List (Step × Id)} {ks : Tree D false} (h : Reads s (b := false) kids ks)
    {k : Step × Tree D true} (hk : k ∈ kidList ks) : ∃ i, (k.1, i) ∈ kids ∧ Reads s (b := true) i k.2 := by
  replace h := reads_kids.1 h
  generalize kidList ks = m at h hk
  induction h with
  | nil => simp at hk
  | cons hab _ ih =>
    rename_i a b l m _
    rcases List.mem_cons.1 hk with rfl | hk
    · exact ⟨a.2, by rw [← hab.1]; simp, hab.2⟩
    · obtain ⟨t, h1, h2⟩ := ih hk
      exact ⟨t, List.mem_cons_of_mem _ h1, h2⟩

theorem at_kid {s : Store D} (hg : Good s) {root : Id} {p : List Step} {i : Id} {v : Val D} (hat : s.at root p = some i)
    (hv : s[i]? = some v) {k : Step × Id} (hk : k ∈ v.kids) : s.at root (p ++ [k.1]) = some k.2 := by
  have hsh := hg.shaped i v hv
  rw [at_append, hat]
  simp only [Option.bind_some, Store.at, Store.atStep, Store.kids]
  rw [hv]
  simp only
  rw [find_self (shaped_nodup hsh) _ hk]
  rfl

/-- Several runs that change nothing in the store. -/
theorem recurseList_map {srt : List (Step × Id) → List (Step × Id)} {rs : List Replace} {ps : List Uniq} {f : Uniq → Id}
    {c : Ctx D} {fuel : Nat} : ∀ {us : List Uniq}, (∀ u ∈ us, recurse srt rs ps fuel u c = .ok (f u, c)) →
      recurseList srt rs ps (fuel + 1) us c = .ok (us.map f, c) := by
  intro us
  induction us with
  | nil => intro _; simp [recurseList]
  | cons u us ih =>
    intro h
    rw [recurseList, h u (by simp)]
    simp only
    rw [ih (fun x hx => h x (by simp [hx]))]
    simp

end

variable {E : Type} [DecidableEq E]

omit [DecidableEq E] in
theorem mem_bump {ks : Tree (Data E) false} {st : Step} {t : Tree (Data E) true} (h : (st, t) ∈ kidList (bump ks)) :
    ∃ t', (st, t') ∈ kidList ks ∧ t = if st.field = 0 then bump t' else t' := by
  rw [kidList_bump, List.mem_map] at h
  obtain ⟨k, hk, he⟩ := h
  injection he with h1 h2
  subst h1
  exact ⟨k.2, hk, h2.symm⟩

/-- The subtree stays where it is. -/
theorem case_stay {srt : List (Step × Id) → List (Step × Id)} (hk : Keeps srt) {s0 : Store (Data E)} (hg0 : Good s0)
    {root : Id} {st : St E} (hinv : Inv s0 root st) {T : Tree (Data E) true} (hT : Reads s0 (b := true) root T)
    (hroot : isRoot T = true) {node : Uniq} (hat : s0.at root node.path = some node.id)
    {t : Tree (Data E) true} (ht : Reads s0 (b := true) node.id t) {r : Replace} (hr : r ∈ st.edits) (hro : r.original = node)
    (hrd : Reads st.ctx.store (b := true) r.replaced.id (bump t)) (hbelow : ∀ x ∈ st.edits, node.path <+: x.original.path)
    {fuel : Nat} (hf : 3 + 2 * depth T ≤ fuel) :
    ∃ id' c', cascade srt fuel st.ctx root st.edits = .ok (id', c') ∧ st.ctx.store <+: c'.store ∧
      Reads c'.store (b := true) id' (substitute (putAt node.path (bump t)) [] T) := by
  have hpos : ∀ x ∈ st.edits, x.original.root = root ∧ st.ctx.store.at root x.original.path = some x.original.id :=
    fun x hx => ⟨(hinv.bumped x hx).pos.1, at_mono hinv.ext (hinv.bumped x hx).pos.2⟩
  refine cascade_single hk hinv.good (reads_mono hinv.ext hT) hroot (by intro he; rw [he] at hr; simp at hr) hpos hinv.nodup
    (fun x hx => bumped_replaceOk (hinv.bumped x hx) hinv.ext) (at_mono hinv.ext hat) hbelow (new := bump t) (F := 3) ?_ hf
  intro ps hps c1 fuel1 hpre hint hf1
  obtain ⟨n, rfl⟩ : ∃ n, fuel1 = n + 3 := ⟨fuel1 - 3, by omega⟩
  have hb := hinv.bumped r hr
  have hnroot : node.root = root := by rw [← hro]; exact hb.pos.1
  have hnode : (⟨node.id, root, node.path⟩ : Uniq) = node := by cases node; simp only at hnroot; rw [hnroot]
  rw [hnode]
  refine ⟨r.replaced.id, c1, ?_, List.prefix_refl _, hint, reads_mono hpre hrd, ?_⟩
  · refine recurse_replaced ?_ ?_ ?_ n
    · rw [← hro]
      exact edit?_self hinv.nodup hr
    · rw [← hro]
      exact bumped_replaceOk hb hinv.ext
    · intro k hkm
      have hrep : r.replaced = ⟨r.replaced.id, root, node.path⟩ := by
        have := hb.same
        rw [hro] at this
        rw [← hnroot]
        exact this
      rw [hrep]
      simp only
      -- no replacement is at or below this
      have hno : ∀ x ∈ st.edits, node.path ++ [k.1] <+: x.original.path →
          st.ctx.store.at root (node.path ++ [k.1]) = some k.2 → False := by
        intro x hx hxp hka
        have hf0 : k.1.field = 0 := (hinv.bumped x hx).outline k.1 (hxp.subset (by simp))
        cases t with
        | node kd d l ks =>
          rw [bump] at hrd
          obtain ⟨w, hw, _, _, hwk⟩ := hrd
          obtain ⟨v, hv, _, _, hvk⟩ := ht
          have hkk : c1.store.kids r.replaced.id = w.kids := by
            unfold Store.kids
            rw [getElem?_prefix hpre hw]
          rw [hkk] at hkm
          obtain ⟨t1, h1, h2⟩ := reads_kid_mem hwk hkm
          obtain ⟨t2, h3, h4⟩ := mem_bump h1
          rw [if_pos hf0] at h4
          obtain ⟨i, h5, h6⟩ := kid_reads_mem hvk h3
          have h7 := at_mono hinv.ext (at_kid hg0 hat hv h5)
          simp only at h7
          rw [hka] at h7
          injection h7 with h7
          rw [h4, h7] at h2
          exact bump_differs (reads_mono hinv.ext h6) h2
      constructor
      · intro hin
        obtain ⟨x, hx, _, ha, ⟨h1, _⟩ | h1⟩ := (hps _).1 hin
        · exact hno x hx h1 ha
        · simp at h1
      · cases he : edit? st.edits ⟨k.2, root, node.path ++ [k.1]⟩ with
        | none => rfl
        | some e =>
          obtain ⟨x, hx, h1, _⟩ := edit?_mem he
          have h2 := (hpos x hx).2
          rw [h1] at h2
          exact (hno x hx (by rw [h1]) h2).elim
  · have := bumped_differs hb hinv.ext
    rw [hro] at this
    exact this

end Verif.Demote
