import Verif.Eval.Lemmas

/-! # The loop over the blocks -/

namespace Verif.Eval

open Verif.Imm

variable {D : Type} [DecidableEq D]

/-- what is at a position stands for the part at that position -/
def ReadsAt (s : Store D) (u : Tree D true) (q : List Step) (j : Id) : {b : Bool} → Added b → Tree D b → Prop
  | true, id, t => subtree? t q = some u → s.at id q = some j → Reads s (b := true) j u
  | false, kids, ts => ∀ st q', q = st :: q' → subtree? ts q = some u →
      ((kids.find? (fun k => decide (k.1 = st))).map (·.2)).bind (fun i => s.at i q') = some j → Reads s (b := true) j u

theorem reads_at {s : Store D} {u : Tree D true} {j : Id} {b : Bool} (t : Tree D b) :
    ∀ (a : Added b) (q : List Step), Reads s a t → ReadsAt s u q j a t := by
  induction t with
  | node k d l ks ih =>
    intro id q hr hsub hat
    cases q with
    | nil =>
      rw [subtree?] at hsub
      rw [Store.at] at hat
      injection hsub with hsub
      injection hat with hat
      subst hsub hat
      exact hr
    | cons st q =>
      obtain ⟨v, h1, h2, h3, h4⟩ := hr
      rw [subtree?] at hsub
      refine ih v.kids (st :: q) h4 st q rfl hsub ?_
      rw [Store.at, Store.atStep, Store.kids] at hat
      have h1' : s[(id : Nat)]? = some v := h1
      rw [h1'] at hat
      simp only at hat
      cases hfd : v.kids.find? (fun k => decide (k.1 = st)) with
      | none => rw [hfd] at hat; simp at hat
      | some k => rw [hfd] at hat; exact hat
  | nil =>
    intro kids q _ st q' _ hsub _
    rw [subtree?] at hsub
    cases hsub
  | cons st t rest ih1 ih2 =>
    intro kids q hr st' q' hq hsub hat
    obtain ⟨id, tl, rfl, h2, h3⟩ := hr
    subst hq
    rw [subtree?] at hsub
    by_cases h : st = st'
    · subst h
      rw [if_pos rfl] at hsub
      rw [List.find?_cons] at hat
      simp only [decide_true, Option.map_some, Option.bind_some] at hat
      exact ih1 id q' h2 hsub hat
    · rw [if_neg h] at hsub
      refine ih2 tl (st' :: q') h3 st' q' rfl hsub ?_
      rw [List.find?_cons] at hat
      simpa [h] using hat

/-- a block of the document: its node, and the part of the document there -/
structure IsBlock (s : Store D) (root : Id) (doc : Tree D true) (b : Uniq) (u : Tree D true) : Prop where
  top : b.root = root
  here : s.at root b.path = some b.id
  part : subtree? doc b.path = some u
  inner : b.path ≠ []

theorem isBlock_mono {s s' : Store D} (h : s <+: s') {root : Id} {doc u : Tree D true} {b : Uniq}
    (hb : IsBlock s root doc b u) : IsBlock s' root doc b u := ⟨hb.top, at_mono h hb.here, hb.part, hb.inner⟩

/-- what setting the output of a block stores and replaces -/
structure Prep (K : Kinds) (srt : List (Step × Id) → List (Step × Id)) (fuel : Nat) (ver : Ver D) (b : Uniq) (h : Handling)
    (t u : Tree D true) (r : Option Replace) (c : Ctx D) : Prop where
  reach : Reach srt c
  grows : ver.ctx.store <+: c.store
  runs : setOutput K srt fuel ver b h t = match cascade srt fuel c ver.root r.toList with
    | .error e => .error e
    | .ok (root, c) => .ok ⟨root, c⟩
  new : (r = none ∧ strip (placed K h t u) = strip u) ∨
    ∃ j, r = some ⟨b, { b with id := j }⟩ ∧ j ≠ b.id ∧ Reads c.store (b := true) j (placed K h t u) ∧
      strip (placed K h t u) ≠ strip u

theorem setOutput_prep {K : Kinds} {srt : List (Step × Id) → List (Step × Id)} (hsrt : Sorts srt) {fuel : Nat} {ver : Ver D}
    (hreach : Reach srt ver.ctx) {root : Id} {doc : Tree D true} (hdoc : Reads ver.ctx.store (b := true) root doc) {b : Uniq}
    {u : Tree D true} (hb : IsBlock ver.ctx.store root doc b u) (h : Handling) {t : Tree D true} (ht : ShapedTree t) :
    ∃ r c, Prep K srt fuel ver b h t u r c := by
  have hp1 : ver.ctx.store <+: (addTree ver.ctx t).2.store := addTree_prefix t ver.ctx
  have hr1 : Reach srt (addTree ver.ctx t).2 := Relation.ReflTransGen.tail hreach (.add ver.ctx t ht)
  have ht1 := addTree_reads t ver.ctx
  have hv1 := (addTree_evolves t ht ver.ctx).2
  generalize ha : (addTree ver.ctx t : Id × Ctx D) = a at hp1 hr1 ht1 hv1
  have hbu : Reads a.2.store (b := true) b.id u :=
    reads_mono hp1 (reads_at doc root b.path hdoc hb.part hb.here)
  cases u with
  | node k d l ks =>
    obtain ⟨v, e1, e2, e3, e4⟩ := hbu
    have e1 : a.2.store[b.id]? = some v := e1
    have hg := reach_good hsrt hr1
    have hid : (a.1 : Nat) < a.2.store.length := hv1
    have hmem : ∀ i ∈ handle h (fieldIds v (K.resField v.kind)) a.1, i < a.2.store.length := by
      intro i hi
      rcases handle_mem hi with hi | rfl
      · obtain ⟨k', hk', rfl⟩ := List.mem_map.1 hi
        have := hg.below b.id v e1 k' (List.mem_filter.1 hk').1
        exact Nat.lt_trans this (stored_lt e1)
      · exact hid
    have hval := setField_valid (fun k' hk' => Nat.lt_trans (hg.below b.id v e1 k' hk') (stored_lt e1)) (K.resField v.kind) hmem
    have hshp := setField_shaped (hg.shaped b.id v e1) (K.resField v.kind) (handle h (fieldIds v (K.resField v.kind)) a.1)
    have hkids : Reads a.2.store (b := false) (setField v (K.resField v.kind) (handle h (fieldIds v (K.resField v.kind)) a.1)).kids
        (withResults (K.resField k) ks (combined (results (K.resField k) ks) t h)) := by
      rw [← e2]
      exact setField_reads e4 _ (combined_forall₂ (field_reads e4 _) ht1 h)
    have hkind : (setField v (K.resField v.kind) (handle h (fieldIds v (K.resField v.kind)) a.1)).kind = v.kind := rfl
    have hdata : (setField v (K.resField v.kind) (handle h (fieldIds v (K.resField v.kind)) a.1)).data = v.data := rfl
    have hdef : setOutput K srt fuel ver b h t = match cascade srt fuel
          (setNode a.2 b (setField v (K.resField v.kind) (handle h (fieldIds v (K.resField v.kind)) a.1))).2 ver.root
          (setNode a.2 b (setField v (K.resField v.kind) (handle h (fieldIds v (K.resField v.kind)) a.1))).1.toList with
        | .error e => .error e
        | .ok (root, c) => .ok ⟨root, c⟩ := by
      unfold setOutput
      have hat0 : ver.ctx.store.at b.root b.path = some b.id := by rw [hb.top]; exact hb.here
      rw [hat0]
      simp only
      rw [ha]
      rw [e1]
      rfl
    generalize hw : setField v (K.resField v.kind) (handle h (fieldIds v (K.resField v.kind)) a.1) = w at hval hshp hkids hkind hdata hdef
    have hr2 : Reach srt (setNode a.2 b w).2 := Relation.ReflTransGen.tail hr1 (.set _ _ _ hval hshp)
    have hst := setNode_store a.2 b w
    have hpl : Reads (setNode a.2 b w).2.store (b := true) (a.2.store.add w).1 (placed K h t (.node k d l ks)) := by
      obtain ⟨x, x1, x2⟩ := add_val a.2.store w
      rw [same_iff] at x2
      refine ⟨x, ?_, ?_, ?_, ?_⟩
      · rw [hst]; exact x1
      · rw [← x2.1, hkind, e2]
      · rw [← x2.2.1, hdata, e3]
      · rw [← x2.2.2]
        exact reads_mono (setNode_prefix a.2 b w) hkids
    have hu2 : Reads (setNode a.2 b w).2.store (b := true) b.id (.node k d l ks) :=
      reads_mono (setNode_prefix a.2 b w) (t := .node k d l ks) ⟨v, e1, e2, e3, e4⟩
    refine ⟨(setNode a.2 b w).1, (setNode a.2 b w).2, hr2, hp1.trans (setNode_prefix _ _ _), hdef, ?_⟩
    by_cases heq : (a.2.store.add w).1 = b.id
    · left
      refine ⟨?_, ?_⟩
      · unfold setNode
        simp only [heq, if_true]
      · rw [heq] at hpl
        exact reads_strip hpl hu2
    · right
      refine ⟨(a.2.store.add w).1, ?_, heq, hpl, ?_⟩
      · unfold setNode
        simp only [heq, if_false]
      · intro hs
        exact heq (reads_inj (reach_good hsrt hr2).interned hpl hu2 hs)

theorem strip_putAt {t t' : Tree D true} (h : strip t = strip t') (p : List Step) {b : Bool} (T : Tree D b) :
    ∀ q, strip (substitute (putAt p t) q T) = strip (substitute (putAt p t') q T) := by
  induction T with
  | node k d l ks ih =>
    intro q
    simp only [substitute, putAt]
    by_cases hq : q = p
    · simp only [hq, if_true]; exact h
    · simp only [hq, if_false, strip]; rw [ih q]
  | nil => intro q; rfl
  | cons st t rest ih1 ih2 =>
    intro q
    simp only [substitute, strip]
    rw [ih1, ih2]

theorem isRoot_kind {s : Store D} {root : Id} {doc : Tree D true} (h : Reads s (b := true) root doc) (hr : isRoot doc = true) :
    rootKind s root = true := by
  cases doc with
  | node k d l ks =>
    obtain ⟨v, e1, e2, _⟩ := h
    unfold rootKind
    have e1 : s[root]? = some v := e1
    rw [e1]
    simp only [e2]
    exact hr

theorem reads_lt {s : Store D} {id : Id} {t : Tree D true} (h : Reads s (b := true) id t) : id < s.length := by
  cases t with
  | node k d l ks =>
    obtain ⟨v, hv, _⟩ := h
    exact stored_lt hv

/-- while nothing has changed yet -/
theorem setOutput_first {K : Kinds} {srt : List (Step × Id) → List (Step × Id)} (hsrt : Sorts srt) (hk : Keeps srt) {fuel : Nat}
    {ver : Ver D} (hreach : Reach srt ver.ctx) {doc : Tree D true} (hdoc : Reads ver.ctx.store (b := true) ver.root doc)
    (hroot : isRoot doc = true) (hf : 2 * depth doc + 1 ≤ fuel) {b : Uniq} {u : Tree D true}
    (hb : IsBlock ver.ctx.store ver.root doc b u) (h : Handling) {t : Tree D true} (ht : ShapedTree t) :
    ∃ ver', setOutput K srt fuel ver b h t = .ok ver' ∧ Reach srt ver'.ctx ∧ ver.ctx.store <+: ver'.ctx.store ∧
      ((strip (placed K h t u) = strip u ∧ ver'.root = ver.root) ∨
        (strip (placed K h t u) ≠ strip u ∧ ver'.root ≠ ver.root ∧
          Reads ver'.ctx.store (b := true) ver'.root (substitute (putAt b.path (placed K h t u)) [] doc))) := by
  obtain ⟨r, c, hP⟩ := setOutput_prep (K := K) hsrt (fuel := fuel) hreach hdoc hb h ht
  have hdoc' := reads_mono hP.grows hdoc
  have hg := reach_good hsrt hP.reach
  have hlt := reads_lt hdoc'
  have hat := at_mono hP.grows hb.here
  have hrk := isRoot_kind hdoc' hroot
  rcases hP.new with ⟨rfl, hs⟩ | ⟨j, rfl, hj, hjr, hs⟩
  · obtain ⟨id', c', h1, h2, h3, h4⟩ := cascade_ok hk hg hdoc' (reads_shaped hg.shaped hdoc') hrk (rs := []) (by simp)
      (by simp [Apart]) hf
    have hrun := hP.runs
    rw [Option.toList_none, h1] at hrun
    refine ⟨⟨id', c'⟩, hrun, ?_, hP.grows.trans h2, .inl ⟨hs, h4.2 rfl⟩⟩
    exact Relation.ReflTransGen.tail hP.reach (.cascade c fuel ver.root [] id' c' hlt (by simp) h1)
  · have hed : ∀ r ∈ [(⟨b, { b with id := j }⟩ : Replace)], IsEdit c.store ver.root r := by
      intro r hr
      rw [List.mem_singleton] at hr
      subst hr
      exact ⟨⟨hb.top, hat⟩, ⟨hb.top, rfl⟩, hj, reads_lt hjr, fun he => absurd he hb.inner⟩
    obtain ⟨id', c', h1, h2, h3, h4⟩ := cascade_ok hk hg hdoc' (reads_shaped hg.shaped hdoc') hrk hed
      (by simp [Apart]) hf
    obtain ⟨t', d1, d2⟩ := reads_denotes hjr
    have hnew : NewAt c.store [(⟨b, { b with id := j }⟩ : Replace)] (putAt b.path t') := by
      refine ⟨?_, ?_⟩
      · intro r hr
        rw [List.mem_singleton] at hr
        subst hr
        exact ⟨t', by simp [putAt], d1⟩
      · intro p hp
        have := hp _ (List.mem_singleton.2 rfl)
        simp only [putAt]
        rw [if_neg (fun he => this he.symm)]
    rw [newTrees_eq hg.below hnew] at h3
    have hrun := hP.runs
    rw [Option.toList_some, h1] at hrun
    refine ⟨⟨id', c'⟩, hrun, ?_, hP.grows.trans h2, .inr ⟨hs, fun he => ?_, ?_⟩⟩
    · exact Relation.ReflTransGen.tail hP.reach (.cascade c fuel ver.root _ id' c' hlt
        (by intro r hr; rw [List.mem_singleton] at hr; subst hr; exact reads_lt hjr) h1)
    · exact absurd (h4.1 he) (by simp)
    · exact reads_of_strip h3 (strip_putAt d2 b.path doc [])

/-- once the document has changed, nothing is replaced -/
theorem setOutput_later {K : Kinds} {srt : List (Step × Id) → List (Step × Id)} (hsrt : Sorts srt) {fuel : Nat}
    {ver : Ver D} (hreach : Reach srt ver.ctx) {root : Id} {doc : Tree D true} (hdoc : Reads ver.ctx.store (b := true) root doc)
    (hne : ver.root ≠ root) (hlt : ver.root < ver.ctx.store.length) {b : Uniq} {u : Tree D true}
    (hb : IsBlock ver.ctx.store root doc b u) (h : Handling) {t : Tree D true} (ht : ShapedTree t) (hf : 1 ≤ fuel) :
    ∃ ver', setOutput K srt fuel ver b h t = .ok ver' ∧ Reach srt ver'.ctx ∧ ver.ctx.store <+: ver'.ctx.store ∧
      ver'.root = ver.root := by
  obtain ⟨r, c, hP⟩ := setOutput_prep (K := K) hsrt (fuel := fuel) hreach hdoc hb h ht
  have hat := at_mono hP.grows hb.here
  have hlt' := Nat.lt_of_lt_of_le hlt hP.grows.length_le
  have hcas : cascade srt fuel c ver.root r.toList = .ok (ver.root, c) := by
    obtain ⟨fuel, rfl⟩ : ∃ f, fuel = f + 1 := ⟨fuel - 1, by omega⟩
    rcases hP.new with ⟨rfl, _⟩ | ⟨j, rfl, hj, _, _⟩
    · unfold cascade
      rw [Option.toList_none, inclAll]
      simp only
      have : editParents c.store [] = .ok [] := rfl
      rw [this]
      simp only
      rw [recurse, if_neg (by simp)]
      rfl
    · unfold cascade
      rw [Option.toList_some]
      have hok : replaceOk c.store (⟨b, { b with id := j }⟩ : Replace) = true := by
        have : (b : Uniq) ≠ { b with id := j } := fun he => hj (by rw [he])
        have hi : b.path.isEmpty = false := by
          cases hbp : b.path with
          | nil => exact absurd hbp hb.inner
          | cons _ _ => rfl
        simp [replaceOk, hi, this]
      rw [inclAll_ok (acc := []) (by intro r hr; rw [List.mem_singleton] at hr; subst hr; exact hok) (by simp [Apart])]
      simp only [List.nil_append]
      obtain ⟨l, l1, l2⟩ := parentChain_mem (s := c.store) (u := b) (by rw [hb.top]; exact hat)
      have hep : editParents c.store [(⟨b, { b with id := j }⟩ : Replace)] = .ok l := by
        unfold editParents
        simp only [List.mapM_cons, List.mapM_nil, l1, bind, Except.bind, pure, Except.pure, Except.map, List.flatten_cons,
          List.flatten_nil, List.append_nil]
      rw [hep]
      simp only
      rw [recurse]
      have hnot : (⟨ver.root, ver.root, []⟩ : Uniq) ∉ l := by
        intro hin
        have := ((l2 _).1 hin).1
        rw [hb.top] at this
        exact hne this
      rw [if_neg hnot]
      have hnone : edit? [(⟨b, { b with id := j }⟩ : Replace)] ⟨ver.root, ver.root, []⟩ = none := by
        cases he : edit? [(⟨b, { b with id := j }⟩ : Replace)] ⟨ver.root, ver.root, []⟩ with
        | none => rfl
        | some e =>
          obtain ⟨x, hx, h1, _⟩ := edit?_mem he
          rw [List.mem_singleton] at hx
          subst hx
          simp only at h1
          exact absurd (congrArg Uniq.path h1) hb.inner
      rw [hnone]
  have hrun := hP.runs
  rw [hcas] at hrun
  exact ⟨⟨ver.root, c⟩, hrun, hP.reach, hP.grows, rfl⟩

/-- the version while the blocks are evaluated -/
structure Inv (srt : List (Step × Id) → List (Step × Id)) (root : Id) (doc : Tree D true)
    (cur : Option (List Step × Tree D true)) (ver : Ver D) : Prop where
  reach : Reach srt ver.ctx
  first : Reads ver.ctx.store (b := true) root doc
  now : Reads ver.ctx.store (b := true) ver.root (withChange doc cur)
  moved : cur = none ↔ ver.root = root

/-- the first one that is there -/
def orFirst {X : Type} : Option X → Option X → Option X
  | some x, _ => some x
  | none, y => y

/-- the evaluator gives proper documents of bounded depth -/
def Gives' (E : Evaluator D) (m : Nat) : Prop := ∀ k ver b h t, E k ver b = some (h, t) → ShapedTree t ∧ depth t ≤ m

theorem evalLoop_ok {K : Kinds} {srt : List (Step × Id) → List (Step × Id)} (hsrt : Sorts srt) (hk : Keeps srt) {fuel m : Nat}
    {E : Evaluator D} (hE : Gives' E m) {root : Id} {doc : Tree D true} (hroot : isRoot doc = true)
    (hf : 2 * depth doc + 1 ≤ fuel) (bs : List Uniq) :
    ∀ (n : Nat) (ver : Ver D) (cur : Option (List Step × Tree D true)), Inv srt root doc cur ver →
      (∀ b ∈ bs, ∃ u, IsBlock ver.ctx.store root doc b u) →
      ∃ ver' out, evalLoop K srt fuel E n bs ver = .ok (ver', out) ∧ out.map (·.1) = bs ∧
        Inv srt root doc (orFirst cur (firstChange K doc (posLog out))) ver' ∧
        ∀ i b o, out[i]? = some (b, o) →
          ∃ v u, E (n + i) v b = o ∧ subtree? doc b.path = some u ∧ Reads v.ctx.store (b := true) b.id u := by
  induction bs with
  | nil =>
    intro n ver cur hI _
    refine ⟨ver, [], rfl, rfl, ?_, by intro i b o h; simp at h⟩
    cases cur <;> exact hI
  | cons b bs ih =>
    intro n ver cur hI hbs
    obtain ⟨u, hb⟩ := hbs b (by simp)
    rw [evalLoop]
    cases hEv : E n ver b with
    | none =>
      obtain ⟨ver', out, h1, h2, h3, h4⟩ := ih (n + 1) ver cur hI (fun x hx => hbs x (by simp [hx]))
      simp only
      rw [h1]
      refine ⟨ver', (b, none) :: out, rfl, by simp [h2], by rw [posLog, List.map_cons, firstChange]; exact h3, ?_⟩
      intro i b' o hio
      cases i with
      | zero =>
        rw [List.getElem?_cons_zero] at hio
        injection hio with hio
        injection hio with e1 e2
        subst e1 e2
        exact ⟨ver, u, by rw [Nat.add_zero]; exact hEv, hb.part, reads_at doc root b.path hI.first hb.part hb.here⟩
      | succ i =>
        rw [List.getElem?_cons_succ] at hio
        obtain ⟨v, u', hv, hv'⟩ := h4 i b' o hio
        exact ⟨v, u', by rw [← hv]; congr 1; omega, hv'⟩
    | some ht =>
      obtain ⟨h, t⟩ := ht
      simp only
      have hsh := (hE _ _ _ _ _ hEv).1
      have hstep : ∃ ver' cur', setOutput K srt fuel ver b h t = .ok ver' ∧ ver.ctx.store <+: ver'.ctx.store ∧
          Inv srt root doc cur' ver' ∧
          ∀ out, orFirst cur (firstChange K doc (posLog ((b, some (h, t)) :: out))) = orFirst cur' (firstChange K doc (posLog out)) := by
        cases cur with
        | none =>
          have hrt := hI.moved.1 rfl
          obtain ⟨ver', h1, h2, h3, h4⟩ := setOutput_first (K := K) hsrt hk (fuel := fuel) hI.reach (doc := doc)
            (by rw [hrt]; exact hI.first) hroot hf (by rw [hrt]; exact hb) h hsh
          rcases h4 with ⟨hs, hr'⟩ | ⟨hs, hr', hrd⟩
          · refine ⟨ver', none, h1, h3, ⟨h2, reads_mono h3 hI.first, ?_, by simp [hr', hrt]⟩, ?_⟩
            · rw [hr']; exact reads_mono h3 hI.now
            · intro out
              rw [posLog, List.map_cons, firstChange, hb.part]
              simp only [hs, if_true, orFirst]
              rfl
          · refine ⟨ver', some (b.path, placed K h t u), h1, h3, ⟨h2, reads_mono h3 hI.first, hrd, ?_⟩, ?_⟩
            · constructor
              · intro hc; cases hc
              · intro hc; rw [hrt] at hr'; exact absurd hc hr'
            · intro out
              rw [posLog, List.map_cons, firstChange, hb.part]
              simp only [hs, if_false, orFirst]
        | some c =>
          have hne : ver.root ≠ root := fun he => by have := hI.moved.2 he; cases this
          obtain ⟨ver', h1, h2, h3, h4⟩ := setOutput_later (K := K) hsrt hI.reach hI.first hne (reads_lt hI.now) hb h hsh
            (fuel := fuel) (by omega)
          refine ⟨ver', some c, h1, h3, ⟨h2, reads_mono h3 hI.first, ?_, ?_⟩, fun out => rfl⟩
          · rw [h4]; exact reads_mono h3 hI.now
          · rw [h4]; exact hI.moved
      obtain ⟨ver1, cur1, s1, s2, s3, s4⟩ := hstep
      obtain ⟨ver', out, h1, h2, h3, h4⟩ := ih (n + 1) ver1 cur1 s3 (fun x hx => by
        obtain ⟨u, hu⟩ := hbs x (by simp [hx])
        exact ⟨u, isBlock_mono s2 hu⟩)
      rw [s1]
      simp only
      rw [h1]
      refine ⟨ver', (b, some (h, t)) :: out, rfl, by simp [h2], by rw [s4]; exact h3, ?_⟩
      intro i b' o hio
      cases i with
      | zero =>
        rw [List.getElem?_cons_zero] at hio
        injection hio with hio
        injection hio with e1 e2
        subst e1 e2
        exact ⟨ver, u, by rw [Nat.add_zero]; exact hEv, hb.part, reads_at doc root b.path hI.first hb.part hb.here⟩
      | succ i =>
        rw [List.getElem?_cons_succ] at hio
        obtain ⟨v, u', hv, hv'⟩ := h4 i b' o hio
        exact ⟨v, u', by rw [← hv]; congr 1; omega, hv'⟩

end Verif.Eval
