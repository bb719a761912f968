import Verif.Imm.Cascade

/-! # A group of replacements gives the substituted document -/

namespace Verif.Imm

variable {D : Type} [DecidableEq D]

theorem mapM_ok_iff {α β : Type} {f : α → Except Err β} : ∀ {l : List α}, (∀ a ∈ l, ∃ b, f a = .ok b) → ∃ r, l.mapM f = .ok r ∧
    ∀ b, b ∈ r ↔ ∃ a ∈ l, f a = .ok b := by
  intro l
  induction l with
  | nil =>
    intro _
    exact ⟨[], rfl, by simp⟩
  | cons a l ih =>
    intro h
    obtain ⟨b, hb⟩ := h a (by simp)
    obtain ⟨r, hr, hm⟩ := ih (fun x hx => h x (by simp [hx]))
    refine ⟨b :: r, ?_, ?_⟩
    · simp only [List.mapM_cons, bind, Except.bind, pure, Except.pure, hb, hr]
    · intro x
      rw [List.mem_cons, hm]
      constructor
      · rintro (h | ⟨y, hy, he⟩)
        · exact ⟨a, by simp, by rw [h, hb]⟩
        · exact ⟨y, by simp [hy], he⟩
      · rintro ⟨y, hy, he⟩
        rcases List.mem_cons.1 hy with hy | hy
        · rw [hy, hb] at he
          injection he with he
          exact .inl he.symm
        · exact .inr ⟨y, hy, he⟩

theorem at_prefix {s : Store D} {root : Id} {p q : List Step} {i : Id} (h : s.at root q = some i) (hp : p <+: q) :
    ∃ j, s.at root p = some j := by
  obtain ⟨r, rfl⟩ := hp
  rw [at_append] at h
  cases hj : s.at root p with
  | none => rw [hj] at h; simp at h
  | some j => exact ⟨j, rfl⟩

theorem parentChain_mem {s : Store D} {u : Uniq} (h : s.at u.root u.path = some u.id) : ∃ l, s.parentChain u = .ok l ∧
    ∀ x, x ∈ l ↔ x.root = u.root ∧ s.at u.root x.path = some x.id ∧ ((x.path <+: u.path ∧ x.path ≠ u.path) ∨ x.path = []) := by
  have hmem : ∀ p, p ∈ pathSpans u.path ++ [[]] ↔ (p <+: u.path ∧ p ≠ u.path) ∨ p = [] := by
    intro p
    simp only [pathSpans, List.mem_append, List.mem_map, List.mem_reverse, List.mem_range, List.mem_singleton]
    constructor
    · rintro (⟨i, hi, rfl⟩ | h)
      · left
        refine ⟨List.take_prefix _ _, ?_⟩
        intro he
        have := congrArg List.length he
        rw [List.length_take] at this
        omega
      · exact .inr h
    · rintro (⟨h1, h2⟩ | h)
      · left
        refine ⟨p.length, ?_, (List.prefix_iff_eq_take.1 h1).symm⟩
        rcases Nat.lt_or_ge p.length u.path.length with h | h
        · exact h
        · exact absurd (h1.eq_of_length (Nat.le_antisymm h1.length_le h)) h2
      · exact .inr h
  have hok : ∀ p ∈ pathSpans u.path ++ [[]], ∃ b, s.adapter u.root p = .ok b := by
    intro p hp
    have : p <+: u.path := by
      rcases (hmem p).1 hp with h | h
      · exact h.1
      · rw [h]; exact List.nil_prefix
    obtain ⟨j, hj⟩ := at_prefix h this
    exact ⟨⟨j, u.root, p⟩, by unfold Store.adapter; rw [hj]⟩
  obtain ⟨r, hr, hm⟩ := mapM_ok_iff hok
  refine ⟨r, hr, ?_⟩
  intro x
  rw [hm]
  constructor
  · rintro ⟨p, hp, he⟩
    unfold Store.adapter at he
    split at he
    · rename_i id hid
      injection he with he
      subst he
      exact ⟨rfl, hid, (hmem p).1 hp⟩
    · simp at he
  · rintro ⟨h1, h2, h3⟩
    refine ⟨x.path, (hmem _).2 h3, ?_⟩
    unfold Store.adapter
    rw [h2]
    simp only
    cases x with
    | mk i ro pa => simp only at h1; rw [h1]

theorem isEdit_replaceOk {s : Store D} {root : Id} (hroot : rootKind s root = true) {r : Replace} (h : IsEdit s root r) :
    replaceOk s r = true := by
  have h3 : r.original ≠ r.replaced := fun he => h.changed (by rw [← he])
  simp only [replaceOk, h3, ne_eq, not_false_eq_true, decide_true, Bool.and_true, Bool.and_eq_true,
    Bool.or_eq_true, Bool.not_eq_eq_eq_not, Bool.not_true, List.isEmpty_eq_false_iff, h.same.2]
  by_cases hp : r.original.path = []
  · refine ⟨.inl ?_, .inl (h.root hp)⟩
    have := h.position.2
    rw [hp] at this
    simp only [Store.at] at this
    injection this with this
    rw [← this]
    exact hroot
  · exact ⟨.inr hp, .inr hp⟩

theorem apart_eq {rs : List Replace} (h : Apart rs) {r r' : Replace} (hr : r ∈ rs) (hr' : r' ∈ rs)
    (hp : r.original.path <+: r'.original.path) : r = r' := by
  induction rs with
  | nil => simp at hr
  | cons a rs ih =>
    obtain ⟨h1, h2⟩ := List.pairwise_cons.1 h
    rcases List.mem_cons.1 hr with e | hr
    · rcases List.mem_cons.1 hr' with e' | hr'
      · rw [e, e']
      · rw [e] at hp
        exact absurd hp (h1 r' hr').1
    · rcases List.mem_cons.1 hr' with e' | hr'
      · rw [e'] at hp
        exact absurd hp (h1 r hr).2
      · exact ih h2 hr hr'

theorem inclAll_ok {s : Store D} : ∀ {rs acc : List Replace}, (∀ r ∈ rs, replaceOk s r = true) → Apart (acc ++ rs) →
    inclAll s acc rs = .ok (acc ++ rs) := by
  intro rs
  induction rs with
  | nil => intro acc _ _; simp [inclAll]
  | cons r rs ih =>
    intro acc hok hap
    rw [inclAll]
    have hnone : edit? acc r.original = none := by
      cases he : edit? acc r.original with
      | none => rfl
      | some e =>
        obtain ⟨x, hx, h1, _⟩ := edit?_mem he
        have := (List.pairwise_append.1 hap).2.2 x hx r (by simp)
        rw [h1] at this
        exact absurd (List.prefix_refl _) this.1
    rw [hnone]
    simp only [Option.isSome_none, Bool.false_eq_true, if_false]
    rw [if_pos (hok r (by simp)), ih (fun x hx => hok x (by simp [hx])) (by simpa using hap)]
    simp

theorem below_get {s : Store D} (hs : Below s) : ∀ (fuel : Nat) (id : Id), id < s.length → id < fuel → (s.get fuel id).isSome := by
  intro fuel
  induction fuel with
  | zero => intro id _ h; exact absurd h (Nat.not_lt_zero _)
  | succ fuel ih =>
    intro id hid hf
    rw [get_succ]
    have hv : s[id]? = some s[id] := List.getElem?_eq_getElem hid
    rw [hv]
    simp only [Option.isSome_map]
    have key : ∀ kids : List (Step × Id), (∀ k ∈ kids, k.2 < id) → (getKids s fuel kids).isSome := by
      intro kids
      induction kids with
      | nil => intro _; rfl
      | cons k ks ihk =>
        intro hk
        rw [getKids_cons]
        have hlt : k.2 < id := hk k (by simp)
        have h1 := ih k.2 (Nat.lt_trans hlt hid) (Nat.lt_of_lt_of_le hlt (Nat.le_of_lt_succ hf))
        have h2 := ihk (fun x hx => hk x (by simp [hx]))
        obtain ⟨a, ha⟩ := Option.isSome_iff_exists.1 h1
        obtain ⟨b, hb⟩ := Option.isSome_iff_exists.1 h2
        rw [ha, hb]
        rfl
    exact key _ (hs id _ hv)

theorem cascade_ok {srt : List (Step × Id) → List (Step × Id)} (hsrt : Keeps srt) {c : Ctx D} (hg : Good c.store)
    {root : Id} {T : Tree D true} (hT : Reads c.store (b := true) root T) (hsh : ShapedTree T)
    (hroot : rootKind c.store root = true) {rs : List Replace} (hed : ∀ r ∈ rs, IsEdit c.store root r) (hap : Apart rs)
    {fuel : Nat} (hf : 2 * depth T + 1 ≤ fuel) :
    ∃ id' c', cascade srt fuel c root rs = .ok (id', c') ∧ c.store <+: c'.store ∧
      Reads c'.store (b := true) id' (substitute (newTrees c.store c.store.length rs) [] T) ∧
      (id' = root ↔ rs = []) := by
  have hincl := inclAll_ok (acc := []) (fun r hr => isEdit_replaceOk hroot (hed r hr)) (by simpa using hap)
  simp only [List.nil_append] at hincl
  obtain ⟨pl, hpl, hplm⟩ := mapM_ok_iff (f := fun r : Replace => c.store.parentChain r.original) (l := rs) (by
    intro r hr
    obtain ⟨l, h, _⟩ := parentChain_mem (s := c.store) (u := r.original) (by
      rw [(hed r hr).position.1]; exact (hed r hr).position.2)
    exact ⟨l, h⟩)
  have hps : editParents c.store rs = .ok pl.flatten := by
    unfold editParents
    rw [hpl]
    rfl
  have habove : ∀ u, u ∈ pl.flatten ↔ ∃ r ∈ rs, u.root = root ∧ c.store.at root u.path = some u.id ∧
      ((u.path <+: r.original.path ∧ u.path ≠ r.original.path) ∨ u.path = []) := by
    intro u
    rw [List.mem_flatten]
    constructor
    · rintro ⟨l, hl, hu⟩
      obtain ⟨r, hr, he⟩ := (hplm l).1 hl
      have hpos := (hed r hr).position
      obtain ⟨l', h1, h2⟩ := parentChain_mem (s := c.store) (u := r.original) (by rw [hpos.1]; exact hpos.2)
      rw [he] at h1
      injection h1 with h1
      subst h1
      have := (h2 u).1 hu
      rw [hpos.1] at this
      exact ⟨r, hr, this⟩
    · rintro ⟨r, hr, hx⟩
      have hpos := (hed r hr).position
      obtain ⟨l', h1, h2⟩ := parentChain_mem (s := c.store) (u := r.original) (by rw [hpos.1]; exact hpos.2)
      refine ⟨l', (hplm l').2 ⟨r, hr, h1⟩, (h2 u).2 ?_⟩
      rw [hpos.1]
      exact hx
  have hE : Edits c.store root rs pl.flatten (newTrees c.store c.store.length rs) := by
    refine ⟨fun r hr => (hed r hr).position, ?_, fun r hr => (hed r hr).changed, fun r hr r' hr' hp => apart_eq hap hr hr' hp,
      ?_, ?_, habove, hroot⟩
    · intro r hr
      have h1 := (hed r hr).same
      have h2 := (hed r hr).position.1
      cases hx : r.replaced with
      | mk i ro pa =>
        rw [hx] at h1
        simp only at h1 ⊢
        rw [h1.1, h1.2, h2]
    · intro r hr
      obtain ⟨t, ht⟩ := Option.isSome_iff_exists.1 (below_get hg.below c.store.length r.replaced.id (hed r hr).stored (hed r hr).stored)
      refine ⟨t, ?_, get_reads ht⟩
      unfold newTrees
      cases hfind : rs.find? (fun x => decide (x.original.path = r.original.path)) with
      | none =>
        rw [List.find?_eq_none] at hfind
        exact absurd (hfind r hr) (by simp)
      | some x =>
        have h1 := List.mem_of_find?_eq_some hfind
        have h2 := List.find?_some hfind
        simp only [decide_eq_true_eq] at h2
        have := apart_eq hap h1 hr (by rw [h2])
        rw [this]
        exact ht
    · intro p t ht
      unfold newTrees at ht
      rw [Option.bind_eq_some_iff] at ht
      obtain ⟨r, h1, _⟩ := ht
      refine ⟨r, List.mem_of_find?_eq_some h1, ?_⟩
      have := List.find?_some h1
      simpa using this
  unfold cascade
  rw [hincl]
  simp only
  rw [hps]
  simp only
  by_cases hre : ∃ r ∈ rs, r.original.path = []
  · -- the root itself is replaced
    obtain ⟨r, hr, hrp⟩ := hre
    have hall : ∀ r' ∈ rs, r' = r := fun r' hr' =>
      (apart_eq hap hr hr' (by rw [hrp]; exact List.nil_prefix)).symm
    have hpos := (hed r hr).position
    rw [hrp] at hpos
    simp only [Store.at, Option.some.injEq] at hpos
    have hu : r.original = ⟨root, root, []⟩ := by
      cases hx : r.original with
      | mk i ro pa =>
        rw [hx] at hpos hrp
        simp only at hpos hrp
        rw [← hpos.2, hpos.1, hrp]
    have hin : (⟨root, root, []⟩ : Uniq) ∈ pl.flatten := (habove _).2 ⟨r, hr, rfl, rfl, .inr rfl⟩
    obtain ⟨fuel, rfl⟩ : ∃ f, fuel = f + 3 := ⟨fuel - 3, by cases T; simp only [depth] at hf; omega⟩
    rw [recurse, if_pos hin, ← hu, edits_find hE hr]
    simp only [Option.getD_some]
    have hlist : ∀ us : List Uniq, (∀ u ∈ us, u.path ≠ []) →
        recurseList srt rs pl.flatten (fuel + 2) us c = .ok (us.map (·.id), c) := by
      intro us
      induction us with
      | nil => intro _; simp [recurseList]
      | cons u us ih =>
        intro hus
        have hne := hus u (by simp)
        rw [recurseList, recurse]
        have hnot : u ∉ pl.flatten := by
          intro hin
          obtain ⟨r', hr', _, _, hx⟩ := (habove _).1 hin
          rw [hall r' hr', hrp] at hx
          rcases hx with hx | hx
          · exact hne (by simpa using hx.1)
          · exact hne hx
        have hnone : edit? rs u = none := by
          cases he : edit? rs u with
          | none => rfl
          | some e =>
            obtain ⟨x, hx, h1, _⟩ := edit?_mem he
            rw [hall x hx, hu] at h1
            rw [← h1] at hne
            exact absurd rfl hne
        rw [if_neg hnot, hnone]
        simp only
        rw [ih (fun x hx => hus x (by simp [hx]))]
        simp
    rw [hlist]
    · simp only
      have : List.map (fun x : Uniq => x.id) (c.store.subnodes r.replaced) = (c.store.kids r.replaced.id).map (·.2) := by
        simp [Store.subnodes]
      rw [this, if_pos rfl]
      have hok := isEdit_replaceOk hroot (hed r hr)
      have : (⟨r.original, r.replaced⟩ : Replace) = r := rfl
      rw [this, if_pos hok]
      refine ⟨_, _, rfl, List.prefix_refl _, ?_, ?_⟩
      · obtain ⟨t, h1, h2⟩ := hE.reads r hr
        rw [hrp] at h1
        cases T with
        | node k d l ks =>
          simp only [substitute, h1]
          exact h2
      · constructor
        · intro he
          have := (hed r hr).changed
          rw [hu] at this
          exact absurd he this
        · intro he
          rw [he] at hr
          simp at hr
    · intro u hu'
      simp only [Store.subnodes, List.mem_map] at hu'
      obtain ⟨k, _, rfl⟩ := hu'
      simp
  · have hnr : ∀ r ∈ rs, r.original.path ≠ [] := fun r hr he => hre ⟨r, hr, he⟩
    obtain ⟨id', c', h1, h2, _, h3, h4⟩ := recurse_ok hsrt hE hnr T root [] c fuel (List.prefix_refl _) hg.interned hT hsh
      ⟨rfl, by
        intro r hr hp
        simpa using hp⟩ (by simp only [enough]; omega)
    refine ⟨id', c', h1, h2, h3, ?_⟩
    rw [h4]
    constructor
    · intro h
      cases hrs : rs with
      | nil => rfl
      | cons r rs' => exact absurd ⟨r, by rw [hrs]; simp, List.nil_prefix⟩ h
    · intro h
      rintro ⟨r, hr, _⟩
      rw [h] at hr
      simp at hr

end Verif.Imm
