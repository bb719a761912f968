import Verif.Imm.History
import Mathlib.Data.List.Sort

/-!
# Properties of the immutable document store (C25 – C31)

`D` is whatever a node holds besides its children, kind and location.
-/

namespace Verif.Imm

/-- Equality of results, by evaluation in the kernel. -/
instance instDecEqExcept {ε α : Type} [DecidableEq ε] [DecidableEq α] : DecidableEq (Except ε α) := fun a b =>
  match a, b with
  | .ok x, .ok y => if h : x = y then isTrue (by rw [h]) else isFalse (fun he => h (by injection he))
  | .error x, .error y => if h : x = y then isTrue (by rw [h]) else isFalse (fun he => h (by injection he))
  | .ok _, .error _ => isFalse (fun he => by injection he)
  | .error _, .ok _ => isFalse (fun he => by injection he)

variable {D : Type} [DecidableEq D]

/-! ## Sorting -/

/-- A stable sort by field. -/
def stable (l : List (Step × Id)) : List (Step × Id) := l.insertionSort (fun a b => a.1.field ≤ b.1.field)

theorem stable_sorts : Sorts stable := by
  intro l
  have : Std.Total (fun a b : Step × Id => a.1.field ≤ b.1.field) := ⟨fun a b => Nat.le_total _ _⟩
  have : IsTrans (Step × Id) (fun a b => a.1.field ≤ b.1.field) := ⟨fun a b c h1 h2 => Nat.le_trans h1 h2⟩
  exact ⟨List.perm_insertionSort _ l, List.pairwise_insertionSort _ l⟩

theorem stable_keeps : Keeps stable := fun _ h => h.insertionSort_eq

/-- Another sort that meets the contract of `std::sort`: equal elements are reversed. -/
def unstable (l : List (Step × Id)) : List (Step × Id) := stable l.reverse

theorem unstable_sorts : Sorts unstable := fun l =>
  ⟨(stable_sorts l.reverse).1.trans (List.reverse_perm l), (stable_sorts l.reverse).2⟩

/-! ## A small document for the examples -/

/-- A document of two equal paragraphs with one bold child (kind 1), without text. -/
def two : Tree Unit true :=
  let bold : Tree Unit true := .node (.other 1) () none .nil
  let par : Tree Unit true := .node .Paragraph () none (.cons (subStep 0) bold .nil)
  .node .Document () none (.cons (subStep 0) par (.cons (subStep 1) par .nil))

theorem shaped_subSteps (n : Nat) : Shaped ((List.range n).map subStep) := by
  refine ⟨?_, ?_, ?_⟩
  · rw [List.pairwise_map]
    exact List.pairwise_of_forall (fun _ _ => Nat.le_refl _)
  · intro f
    by_cases hf : f = 0
    · subst hf
      left
      have : ((List.range n).map subStep).filter (fun st => decide (st.field = 0)) = (List.range n).map subStep := by
        rw [List.filter_eq_self]
        intro st hst
        obtain ⟨i, _, rfl⟩ := List.mem_map.1 hst
        rfl
      rw [this]
      simp [subStep]
    · left
      have : ((List.range n).map subStep).filter (fun st => decide (st.field = f)) = [] := by
        rw [List.filter_eq_nil_iff]
        intro st hst
        obtain ⟨i, _, rfl⟩ := List.mem_map.1 hst
        intro h
        exact hf (of_decide_eq_true h).symm
      rw [this]
      rfl
  · intro st hst _
    obtain ⟨i, _, rfl⟩ := List.mem_map.1 hst
    exact ⟨i, rfl⟩

theorem shaped0 : Shaped [] := shaped_subSteps 0

theorem shaped1 : Shaped [subStep 0] := by
  have h := shaped_subSteps 1
  rwa [show (List.range 1).map subStep = [subStep 0] by decide] at h

theorem shaped2 : Shaped [subStep 0, subStep 1] := by
  have h := shaped_subSteps 2
  rwa [show (List.range 2).map subStep = [subStep 0, subStep 1] by decide] at h

theorem two_shaped : ShapedTree two := by
  simp only [two, ShapedTree, steps]
  exact ⟨shaped2, ⟨shaped1, ⟨shaped0, trivial⟩, trivial⟩, ⟨shaped1, ⟨shaped0, trivial⟩, trivial⟩, trivial⟩

/-- The context with that document. -/
def c1 : Ctx Unit := (addRoot (start Unit) two).2

theorem c1_reach (srt : List (Step × Id) → List (Step × Id)) : Reach srt c1 := .single (.add _ _ two_shaped)

/-- The document is node 2, its paragraph node 1, which occurs twice. -/
example : (addRoot (start Unit) two).1 = 2 ∧ c1.store.at 2 [subStep 0] = some 1 ∧ c1.store.at 2 [subStep 1] = some 1 := by
  decide +kernel

/-! ## C25: conversion and back -/

/-- C25: a document reads back as it was added, also its locations. -/
def RoundtripStatement (D : Type) [DecidableEq D] : Prop :=
  ∀ (srt : List (Step × Id) → List (Step × Id)), Sorts srt → ∀ (c : Ctx D), Reach srt c → ∀ t, ShapedTree t →
    Denotes (addRoot c t).2.store (addRoot c t).1 t

/-- **C25** (without locations): whatever was stored before, the id of an added document
reads back as this document.  Missing: the locations, which are those of the structurally
equal nodes added first. -/
theorem roundtrip_partial (c : Ctx D) (t : Tree D true) :
    ∃ t', Denotes (addRoot c t).2.store (addRoot c t).1 t' ∧ strip t' = strip t :=
  reads_denotes (addTree_reads t c)

theorem roundtrip_false : ¬ RoundtripStatement Unit := by
  intro h
  have ht : ∀ l, ShapedTree (.node .Document () l .nil : Tree Unit true) := fun l => by
    simp only [ShapedTree, steps]
    exact ⟨shaped0, trivial⟩
  have h1 := h stable stable_sorts (addRoot (start Unit) (.node .Document () (some 1) .nil)).2
    (.single (.add _ _ (ht _))) (.node .Document () (some 2) .nil) (ht _)
  have h2 : Denotes (addRoot (addRoot (start Unit) (.node .Document () (some 1) .nil)).2 (.node .Document () (some 2) .nil)).2.store
      (addRoot (addRoot (start Unit) (.node .Document () (some 1) .nil)).2 (.node .Document () (some 2) .nil)).1
      (.node .Document () (some 1) .nil) := ⟨1, by decide +kernel⟩
  exact absurd (denotes_unique h1 h2) (by decide)

example : c1.store.get 3 2 = some two := by decide +kernel

/-! ## C26: ids and structure -/

/-- **C26**: two ids of one store are equal iff the documents are (up to locations). -/
theorem ids_structure {srt : List (Step × Id) → List (Step × Id)} (hsrt : Sorts srt) {c : Ctx D} (hc : Reach srt c)
    {i j : Id} {t u : Tree D true} (ht : Denotes c.store i t) (hu : Denotes c.store j u) : i = j ↔ strip t = strip u := by
  constructor
  · rintro rfl
    rw [denotes_unique ht hu]
  · exact reads_inj (reach_good hsrt hc).interned (denotes_reads ht) (denotes_reads hu)

/-- **C26**: two documents added to a store, at any time, get the same id iff they are equal
up to locations. -/
theorem added_ids {srt : List (Step × Id) → List (Step × Id)} (hsrt : Sorts srt) {c c' : Ctx D} (hc : Reach srt c)
    {t u : Tree D true} (ht : ShapedTree t) (hl : Later srt (addRoot c t).2 c') (hu : ShapedTree u) :
    (addRoot c t).1 = (addRoot c' u).1 ↔ strip t = strip u := by
  have hr : Reach srt (addRoot c t).2 := Relation.ReflTransGen.tail hc (.add c t ht)
  have hr' : Reach srt c' := Relation.ReflTransGen.trans hr hl
  have hr2 : Reach srt (addRoot c' u).2 := Relation.ReflTransGen.tail hr' (.add c' u hu)
  have hp := (evolves_prefix (later_evolves hsrt hl (reach_good hsrt hr))).trans (addTree_prefix u c')
  have h1 : Reads (addRoot c' u).2.store (b := true) (addRoot c t).1 t := reads_mono hp (addTree_reads t c)
  have h2 : Reads (addRoot c' u).2.store (b := true) (addRoot c' u).1 u := addTree_reads u c'
  constructor
  · intro he
    rw [he] at h1
    exact reads_strip h1 h2
  · exact reads_inj (reach_good hsrt hr2).interned h1 h2

/-- Every stored id stands for a document. -/
theorem stored_denotes {srt : List (Step × Id) → List (Step × Id)} (hsrt : Sorts srt) {c : Ctx D} (hc : Reach srt c)
    {i : Id} (hi : i < c.store.length) : ∃ t, Denotes c.store i t := by
  obtain ⟨t, ht⟩ := below_denotes (reach_good hsrt hc).below hi
  exact ⟨t, _, ht⟩

/-- The hypotheses: two paragraphs that are equal share an id, the other nodes do not. -/
example : c1.store.length = 3 ∧ (addRoot c1 two).1 = 2 := by decide +kernel

/-! ## C27: older versions -/

/-- **C27**: whatever is added, edited and cascaded later, an id stands for the same document. -/
theorem older_versions {srt : List (Step × Id) → List (Step × Id)} (hsrt : Sorts srt) {c c' : Ctx D} (hc : Reach srt c)
    (hl : Later srt c c') {i : Id} (hi : i < c.store.length) (t : Tree D true) : Denotes c'.store i t ↔ Denotes c.store i t := by
  have hp := evolves_prefix (later_evolves hsrt hl (reach_good hsrt hc))
  constructor
  · intro h
    obtain ⟨u, hu⟩ := stored_denotes hsrt hc hi
    rw [denotes_unique h (denotes_mono hp hu)]
    exact hu
  · exact denotes_mono hp

/-- The edit operations on subnodes are operations of such histories. -/
theorem edits_are_ops {srt : List (Step × Id) → List (Step × Id)} (hsrt : Sorts srt) {c c' : Ctx D} (hc : Reach srt c)
    {node : Uniq} {op : EditOp} {ids : List Id} (hres : op.result (c.store.subs node.id) = some ids)
    (hids : ∀ i ∈ ids, i < c.store.length) {r : Replace} (h : op.run c node = .ok (some r, c')) : Later srt c c' :=
  .single (edit_op (reach_good hsrt hc) hres hids h)

/-! ## C28: cascading -/

/-- C28 for all sorts that meet the contract of `std::sort`. -/
def CascadeStatement (D : Type) [DecidableEq D] : Prop :=
  ∀ (srt : List (Step × Id) → List (Step × Id)), Sorts srt → ∀ (c : Ctx D), Reach srt c →
    ∀ (root : Id) (T : Tree D true), Denotes c.store root T → rootKind c.store root = true →
    ∀ (rs : List Replace), (∀ r ∈ rs, IsEdit c.store root r) → Apart rs → ∀ new, NewAt c.store rs new →
    ∀ fuel, 2 * depth T + 1 ≤ fuel →
    ∃ id' c' T', cascade srt fuel c root rs = .ok (id', c') ∧ Denotes c'.store id' T' ∧
      strip T' = strip (substitute new [] T) ∧ (id' = root ↔ rs = [])

/-- **C28** (for a sort that leaves sorted lists alone): the replacements, at positions none
of which is above another, give the document with exactly those positions substituted.
Missing: `std::sort` need not be stable (`cascade_false`), and replacements inside of replaced
nodes. -/
theorem cascade_partial {srt : List (Step × Id) → List (Step × Id)} (hsrt : Sorts srt) (hk : Keeps srt) {c : Ctx D}
    (hc : Reach srt c) {root : Id} {T : Tree D true} (hT : Denotes c.store root T) (hroot : rootKind c.store root = true)
    {rs : List Replace} (hed : ∀ r ∈ rs, IsEdit c.store root r) (hap : Apart rs) {new : List Step → Option (Tree D true)}
    (hnew : NewAt c.store rs new) {fuel : Nat} (hf : 2 * depth T + 1 ≤ fuel) :
    ∃ id' c' T', cascade srt fuel c root rs = .ok (id', c') ∧ Denotes c'.store id' T' ∧
      strip T' = strip (substitute new [] T) ∧ (id' = root ↔ rs = []) := by
  have hg := reach_good hsrt hc
  have hT' := denotes_reads hT
  obtain ⟨id', c', h1, _, h3, h4⟩ := cascade_ok hk hg hT' (reads_shaped hg.shaped hT') hroot hed hap hf
  rw [newTrees_eq hg.below hnew] at h3
  obtain ⟨T', h5, h6⟩ := reads_denotes h3
  exact ⟨id', c', T', h1, h5, h6, h4⟩

/-- **C28**: at a replaced position there is the new document. -/
theorem substitute_at {new : List Step → Option (Tree D true)} {T t u : Tree D true} {p : List Step} (hT : subtree? T p = some u)
    (hp : new p = some t) (hap : ∀ q, q <+: p → q ≠ p → new q = none) : subtree? (substitute new [] T) p = some t := by
  rw [subtree?_substitute T [] p (by simpa using hap), hT]
  cases u with
  | node k d l ks => simp [substitute, hp]

/-- **C28**: positions that are not above or below a replaced one keep their content. -/
theorem substitute_elsewhere {new : List Step → Option (Tree D true)} {T u : Tree D true} {p : List Step}
    (hT : subtree? T p = some u) (hn : ∀ q, new q ≠ none → ¬ q <+: p ∧ ¬ p <+: q) :
    subtree? (substitute new [] T) p = some u := by
  have h1 : ∀ q, q <+: p → new q = none := fun q hq => by
    by_contra hc
    exact (hn q hc).1 hq
  have h2 : ∀ q, new (p ++ q) = none := fun q => by
    by_contra hc
    exact (hn _ hc).2 (List.prefix_append _ _)
  rw [subtree?_substitute T [] p (by intro q hq _; simpa using h1 q hq), hT]
  simp only [Option.map_some, List.nil_append]
  rw [substitute_none u p h2]

/-- The edit used in the examples: the children of the first paragraph are dropped. -/
def cleared : Except Err (Replace × Ctx Unit) := dropSubnode c1 ⟨1, 2, [subStep 0]⟩ 0

/-- Node 3 is the paragraph without children. -/
theorem cleared_eq : (cleared.map (·.1)) = .ok ⟨⟨1, 2, [subStep 0]⟩, ⟨3, 2, [subStep 0]⟩⟩ := by decide +kernel

/-- The context after the edit. -/
def c2 : Ctx Unit := (setNode c1 ⟨1, 2, [subStep 0]⟩ ⟨.Paragraph, (), none, []⟩).2

theorem c2_reach (srt : List (Step × Id) → List (Step × Id)) : Reach srt c2 :=
  Relation.ReflTransGen.tail (c1_reach srt) (.set _ _ _ (by simp) shaped0)

/-- The replacement. -/
def rep : Replace := ⟨⟨1, 2, [subStep 0]⟩, ⟨3, 2, [subStep 0]⟩⟩

theorem rep_edit : IsEdit c2.store 2 rep :=
  ⟨by decide +kernel, by decide +kernel, by decide +kernel, by decide +kernel, by decide +kernel⟩

/-- The new paragraph at its position. -/
def newPar (p : List Step) : Option (Tree Unit true) :=
  if [subStep 0] = p then some (.node .Paragraph () none .nil) else none

theorem rep_new : NewAt c2.store [rep] newPar := by
  refine ⟨?_, ?_⟩
  · intro r hr
    rw [List.mem_singleton] at hr
    subst hr
    exact ⟨.node .Paragraph () none .nil, by decide +kernel, 1, by decide +kernel⟩
  · intro p hp
    have h1 : [subStep 0] ≠ p := hp rep (by simp)
    unfold newPar
    rw [if_neg h1]

theorem two_denoted : Denotes c2.store 2 two := ⟨3, by decide +kernel⟩

example : ∃ id' c' T', cascade stable 7 c2 2 [rep] = .ok (id', c') ∧ Denotes c'.store id' T' ∧
    strip T' = strip (substitute newPar [] two) ∧ (id' = 2 ↔ [rep] = []) :=
  cascade_partial stable_sorts stable_keeps (c2_reach _) two_denoted (by decide +kernel)
    (fun r hr => by rw [List.mem_singleton] at hr; subst hr; exact rep_edit) (by simp [Apart]) rep_new (by decide +kernel)

/-- Cascading this replacement stores a new document with the children that `newKids` gives. -/
theorem cascade_rep (srt : List (Step × Id) → List (Step × Id)) (kids : List (Step × Id))
    (h : newKids srt [(subStep 0, 1), (subStep 1, 1)] [(subStep 0, 3), (subStep 1, 1)] = .ok kids)
    (h' : (setNode c2 ⟨2, 2, []⟩ ⟨.Document, (), none, kids⟩).1 = some ⟨⟨2, 2, []⟩, ⟨4, 2, []⟩⟩)
    (h'' : rootKind (setNode c2 ⟨2, 2, []⟩ ⟨.Document, (), none, kids⟩).2.store 4 = true) :
    cascade srt 7 c2 2 [rep] = .ok (4, (setNode c2 ⟨2, 2, []⟩ ⟨.Document, (), none, kids⟩).2) := by
  have hr : rootKind (setNode c2 ⟨2, 2, []⟩ ⟨.Document, (), none, kids⟩).2.store 2 = true :=
    rootKind_prefix (setNode_prefix _ _ _) (by decide +kernel)
  have e1 : inclAll c2.store [] [rep] = .ok [rep] := by decide +kernel
  have e2 : editParents c2.store [rep] = .ok [⟨2, 2, []⟩, ⟨2, 2, []⟩] := by decide +kernel
  have e3 : c2.store.subnodes ⟨2, 2, []⟩ = [⟨1, 2, [subStep 0]⟩, ⟨1, 2, [subStep 1]⟩] := by decide +kernel
  have e4 : c2.store[2]? = some ⟨.Document, (), none, [(subStep 0, 1), (subStep 1, 1)]⟩ := by decide +kernel
  have e5 : (edit? [rep] ⟨2, 2, []⟩) = none := by decide +kernel
  have e6 : (edit? [rep] ⟨1, 2, [subStep 0]⟩) = some ⟨3, 2, [subStep 0]⟩ := by decide +kernel
  have e7 : (edit? [rep] ⟨1, 2, [subStep 1]⟩) = none := by decide +kernel
  have e8 : (c2.store.kids 2).map (·.2) = [1, 1] := by decide +kernel
  have e9 : replaceOk c2.store ⟨⟨1, 2, [subStep 0]⟩, ⟨3, 2, [subStep 0]⟩⟩ = true := by decide +kernel
  unfold cascade
  rw [e1]
  simp only
  rw [e2]
  simp only
  rw [recurse, if_pos (by decide), e5]
  simp only [Option.getD_none]
  rw [e3, recurseList, recurse, if_neg (by decide), e6]
  simp only
  rw [if_pos e9]
  simp only
  rw [recurseList, recurse, if_neg (by decide), e7]
  simp only
  rw [recurseList]
  simp only
  rw [e8, if_neg (by decide), e4]
  simp only [List.map_cons, List.map_nil, List.zip_cons_cons, List.zip_nil_right]
  rw [h]
  simp only
  generalize hg : setNode c2 ⟨2, 2, []⟩ ⟨.Document, (), none, kids⟩ = x at *
  obtain ⟨y, z⟩ := x
  simp only at h' h'' hr
  subst h'
  simp only
  rw [if_pos]
  simp [replaceOk, h'', hr]

theorem cascade_false : ¬ CascadeStatement Unit := by
  intro h
  obtain ⟨id', c', T', h1, h2, h3, _⟩ := h unstable unstable_sorts c2 (c2_reach _) 2 two two_denoted (by decide +kernel) [rep]
    (fun r hr => by rw [List.mem_singleton] at hr; subst hr; exact rep_edit) (by simp [Apart]) newPar rep_new 7 (by decide +kernel)
  rw [cascade_rep unstable [(subStep 0, 1), (subStep 1, 3)] (by decide +kernel) (by decide +kernel) (by decide +kernel)] at h1
  injection h1 with h1
  injection h1 with e1 e2
  have e3 : (setNode c2 ⟨2, 2, []⟩ ⟨.Document, (), none, [(subStep 0, 1), (subStep 1, 3)]⟩).2.store
      = c2.store ++ [⟨.Document, (), none, [(subStep 0, 1), (subStep 1, 3)]⟩] := by decide +kernel
  obtain ⟨f, h2⟩ := h2
  rw [← e1, ← e2, e3] at h2
  have h4 := get_mono (List.prefix_refl _) (Nat.le_max_left f 3) h2
  have h5 : Store.get (c2.store ++ [⟨.Document, (), none, [(subStep 0, 1), (subStep 1, 3)]⟩]) 3 4
      = some (.node .Document () none (.cons (subStep 0)
          (.node .Paragraph () none (.cons (subStep 0) (.node (.other 1) () none .nil) .nil))
          (.cons (subStep 1) (.node .Paragraph () none .nil) .nil))) := by decide +kernel
  have h6 := get_mono (List.prefix_refl _) (Nat.le_max_right f 3) h5
  rw [h4] at h6
  injection h6 with h6
  rw [h6] at h3
  exact absurd h3 (by decide +kernel)

/-! ## C29: the subnode edits -/

/-- C29: an edit gives the list of that name, with a replacement unless nothing changes; what
cannot be done is reported by an exception. -/
def EditsStatement (D : Type) [DecidableEq D] : Prop :=
  ∀ (srt : List (Step × Id) → List (Step × Id)), Sorts srt → ∀ (c : Ctx D), Reach srt c →
    ∀ (node : Uniq), node.id < c.store.length → ∀ op : EditOp,
    match op.result (c.store.subs node.id) with
    | some ids => (∃ r c', op.run c node = .ok (some r, c') ∧ Edited c c' node ids r) ∨
        (ids = c.store.subs node.id ∧ ∃ c', op.run c node = .ok (none, c'))
    | none => op.run c node = .error .throws

/-- **C29** (apart from the kinds of errors): a change of the list of children gives exactly
the expected list and a replacement of the node; an edit that cannot be done fails.  Missing:
an edit that changes nothing fails too (except for moves), and some positions out of range are
not checked. -/
theorem edits_partial {srt : List (Step × Id) → List (Step × Id)} (hsrt : Sorts srt) {c : Ctx D} (hc : Reach srt c)
    {node : Uniq} (hn : node.id < c.store.length) (op : EditOp) :
    match op.result (c.store.subs node.id) with
    | some ids =>
      (ids ≠ c.store.subs node.id → ∃ r c', op.run c node = .ok (some r, c') ∧ Edited c c' node ids r) ∧
      (ids = c.store.subs node.id → op.run c node = .error .throws ∨ op.run c node = .ok (none, c))
    | none => ∃ e, op.run c node = .error e := by
  have h := run_eq (c := c) (node := node) op
  split
  · rename_i ids hids
    rw [hids] at h
    simp only at h
    obtain ⟨k1, k2⟩ := setSubnodes_ok (reach_good hsrt hc) hn ids
    constructor
    · intro hne
      rcases h with h | h
      · obtain ⟨r, c', h3, h4⟩ := k1 hne
        rw [h, h3]
        exact ⟨r, c', rfl, h4⟩
      · exact absurd h.1 hne
    · intro he
      rcases h with h | h
      · rw [h, k2 he]
        exact .inl rfl
      · exact .inr h.2
  · rename_i hids
    rw [hids] at h
    exact h

/-- **C29**: `popSubnode` returns the child at the position. -/
theorem pop_returns {c c' : Ctx D} {node : Uniq} {pos : Int} {r : Replace} {id : Id}
    (h : popSubnode c node pos = .ok ((r, id), c')) : 0 ≤ pos ∧ (c.store.subs node.id)[pos.toNat]? = some id := by
  unfold popSubnode at h
  split at h
  · rename_i h0
    refine ⟨h0, ?_⟩
    split at h
    · simp at h
    · rename_i x hx
      split at h
      · simp at h
      · injection h with h
        injection h with h _
        injection h with _ h
        rw [hx, h]
  · simp at h

/-- A position out of range. -/
theorem edits_false : ¬ EditsStatement Unit := by
  intro h
  have := h stable stable_sorts c1 (c1_reach _) ⟨2, 2, []⟩ (by decide +kernel) (.drop 2)
  have e : (EditOp.drop 2).result (c1.store.subs 2) = none := by decide +kernel
  rw [e] at this
  simp only at this
  have e' : ((EditOp.drop 2).run c1 ⟨2, 2, []⟩).map (·.1) = .error .unchecked := by decide +kernel
  rw [this] at e'
  simp [Except.map] at e'

/-- The same child once more. -/
theorem edits_same_false : ¬ EditsStatement Unit := by
  intro h
  have := h stable stable_sorts c1 (c1_reach _) ⟨2, 2, []⟩ (by decide +kernel) (.set 1 0)
  have e : (EditOp.set 1 0).result (c1.store.subs 2) = some [1, 1] := by decide +kernel
  rw [e] at this
  simp only at this
  have e' : ((EditOp.set 1 0).run c1 ⟨2, 2, []⟩).map (·.1) = .error .throws := by decide +kernel
  rcases this with ⟨r, c', h1, _⟩ | ⟨_, c', h1⟩ <;> rw [h1] at e' <;> simp [Except.map] at e'

example : (EditOp.insert 0 1).result (c1.store.subs 2) = some [1, 0, 1] ∧
    ((EditOp.insert 0 1).run c1 ⟨2, 2, []⟩).map (·.1) = .ok (some ⟨⟨2, 2, []⟩, ⟨3, 2, []⟩⟩) := by decide +kernel

/-- An edit at a position of a document, followed by cascading it, gives the document in which
the node at this position has the new list of children. -/
theorem edit_cascade {srt : List (Step × Id) → List (Step × Id)} (hsrt : Sorts srt) (hk : Keeps srt) {c : Ctx D}
    (hc : Reach srt c) {node : Uniq} {T : Tree D true} (hT : Denotes c.store node.root T)
    (hroot : rootKind c.store node.root = true) (hat : c.store.at node.root node.path = some node.id)
    {op : EditOp} {ids : List Id} (hres : op.result (c.store.subs node.id) = some ids) (hids : ∀ i ∈ ids, i < c.store.length)
    (hne : ids ≠ c.store.subs node.id) {fuel : Nat} (hf : 2 * depth T + 1 ≤ fuel) :
    ∃ r c' t id' c'' T', op.run c node = .ok (some r, c') ∧ Edited c c' node ids r ∧ Denotes c'.store r.replaced.id t ∧
      cascade srt fuel c' node.root [r] = .ok (id', c'') ∧ Denotes c''.store id' T' ∧
      strip T' = strip (substitute (fun p => if node.path = p then some t else none) [] T) := by
  have hnl : node.id < c.store.length := by
    by_contra hcon
    have hn : c.store[node.id]? = none := List.getElem?_eq_none (Nat.le_of_not_lt hcon)
    have hs : c.store.subs node.id = [] := by simp [Store.subs, hn]
    cases hp : node.path with
    | nil =>
      rw [hp, Store.at] at hat
      injection hat with hat
      exact hcon (by rw [← hat]; exact denotes_lt hT)
    | cons st p =>
      have hd := good_distinct (reach_good hsrt hc)
      rw [← List.dropLast_append_getLast (l := node.path) (by rw [hp]; simp), at_snoc hd] at hat
      obtain ⟨j, _, hj⟩ := hat
      have := kids_lt (reach_good hsrt hc).below hj
      exact hcon (Nat.lt_trans this.1 this.2)
  have h := edits_partial hsrt hc hnl op
  rw [hres] at h
  simp only at h
  obtain ⟨r, c', h1, h2⟩ := h.1 hne
  have hl := edits_are_ops hsrt hc hres hids h1
  have hc' : Reach srt c' := Relation.ReflTransGen.trans hc hl
  have hp := evolves_prefix (later_evolves hsrt hl (reach_good hsrt hc))
  obtain ⟨e1, e2, e3, e4, v, w, e5, e6, e7, _⟩ := h2
  have hst : r.replaced.id < c'.store.length := stored_lt e6
  obtain ⟨t, ht⟩ := stored_denotes hsrt hc' hst
  have hed : IsEdit c'.store node.root r := by
    refine ⟨by rw [e1]; exact ⟨rfl, at_mono hp hat⟩, by rw [e1]; exact ⟨e2, e3⟩, by rw [e1]; exact e4, hst, ?_⟩
    intro hnil
    rw [e1] at hnil
    rw [hnil, Store.at] at hat
    injection hat with hat
    rw [hat] at hroot
    unfold rootKind at hroot ⊢
    rw [e5] at hroot
    rw [e6]
    simpa [e7] using hroot
  have hnew : NewAt c'.store [r] (fun p => if node.path = p then some t else none) := by
    refine ⟨?_, ?_⟩
    · intro x hx
      rw [List.mem_singleton] at hx
      subst hx
      exact ⟨t, by rw [e1]; simp, ht⟩
    · intro p hpp
      have := hpp r (by simp)
      rw [e1] at this
      simp only
      rw [if_neg this]
  obtain ⟨id', c'', T', k1, k2, k3, _⟩ := cascade_partial hsrt hk hc' (denotes_mono hp hT) (rootKind_prefix hp hroot)
    (rs := [r]) (fun x hx => by rw [List.mem_singleton] at hx; subst hx; exact hed) (by simp [Apart]) hnew hf
  exact ⟨r, c', t, id', c'', T', h1, ⟨e1, e2, e3, e4, v, w, e5, e6, e7, by assumption⟩, ht, k1, k2, k3⟩

example : ∃ r c' t id' c'' T', (EditOp.drop 0).run c1 ⟨1, 2, [subStep 0]⟩ = .ok (some r, c') ∧
    Edited c1 c' ⟨1, 2, [subStep 0]⟩ [] r ∧ Denotes c'.store r.replaced.id t ∧
    cascade stable 7 c' 2 [r] = .ok (id', c'') ∧ Denotes c''.store id' T' ∧
    strip T' = strip (substitute (fun p => if [subStep 0] = p then some t else none) [] two) :=
  edit_cascade stable_sorts stable_keeps (c1_reach _) (node := ⟨1, 2, [subStep 0]⟩) ⟨3, by decide +kernel⟩ (by decide +kernel)
    (by decide +kernel) (by decide +kernel) (by simp) (by decide +kernel) (by decide +kernel)

/-! ## C30: tracked parents -/

/-- C30. -/
def ParentsStatement (D : Type) [DecidableEq D] : Prop :=
  ∀ (srt : List (Step × Id) → List (Step × Id)), Sorts srt → ∀ (c : Ctx D), Reach srt c →
    (∀ p q, Lists c.parents p q ↔ ChildOf c.store p q) ∧ ∀ q l, c.parents q = some l → l.Nodup

/-- **C30** (one direction, all histories): a tracked parent has the node among its children,
and is listed once. -/
theorem parents_sound {srt : List (Step × Id) → List (Step × Id)} (hsrt : Sorts srt) {c : Ctx D} (hc : Reach srt c) :
    (∀ p q, Lists c.parents p q → ChildOf c.store p q) ∧ ∀ q l, c.parents q = some l → l.Nodup :=
  ⟨(reach_sound hsrt hc).sound, (reach_sound hsrt hc).once⟩

/-- **C30** (as long as nothing is edited). -/
theorem parents_exact_partial {c : Ctx D} (hc : Adds c) :
    (∀ p q, Lists c.parents p q ↔ ChildOf c.store p q) ∧ ∀ q l, c.parents q = some l → l.Nodup :=
  ⟨(adds_exact hc).exact, (adds_exact hc).once⟩

/-- **C30** (with edits of nodes): every parent is listed that was not itself replaced by an
edit.  Missing: replaced nodes that are still used elsewhere. -/
theorem parents_edited_partial {c : Ctx D} {R : List Id} (hc : Trail c R) :
    (∀ p q, Lists c.parents p q → ChildOf c.store p q) ∧ (∀ p q, p ∉ R → ChildOf c.store p q → Lists c.parents p q) ∧
    ∀ q l, c.parents q = some l → l.Nodup :=
  ⟨(trail_exactBut hc).sound, (trail_exactBut hc).exact, (trail_exactBut hc).once⟩

/-- The context after the edit of the first paragraph and cascading it. -/
def c3 : Ctx Unit := (setNode c2 ⟨2, 2, []⟩ ⟨.Document, (), none, [(subStep 0, 3), (subStep 1, 1)]⟩).2

theorem c3_reach : Reach stable c3 := by
  have h := cascade_rep stable [(subStep 0, 3), (subStep 1, 1)] (by decide +kernel) (by decide +kernel) (by decide +kernel)
  refine Relation.ReflTransGen.tail (c2_reach _) (.cascade _ 7 2 [rep] 4 _ (by decide +kernel) ?_ h)
  intro r hr
  rw [List.mem_singleton] at hr
  subst hr
  decide +kernel

/-- The first of two equal paragraphs is edited; the second one, still in the document, is
no longer a parent of its child. -/
theorem parents_false : ¬ ParentsStatement Unit := by
  intro h
  have h1 := ((h stable stable_sorts c3 c3_reach).1 1 0).2 ⟨by decide +kernel, by decide +kernel, subStep 0, by decide +kernel⟩
  obtain ⟨l, h2, h3⟩ := h1
  have h4 : c3.parents 0 = some [] := by decide +kernel
  rw [h4] at h2
  injection h2 with h2
  rw [← h2] at h3
  simp at h3

/-- Node 1 is still in the document 4. -/
example : c3.store.at 4 [subStep 1] = some 1 ∧ c3.store.at 4 [subStep 1, subStep 0] = some 0 ∧
    c3.store.at 4 [subStep 0] = some 3 := by decide +kernel

example : Adds c1 := .add _ _ .start two_shaped
example : Trail c2 [1] := .set _ _ ⟨1, 2, [subStep 0]⟩ _ (.add _ _ _ .start two_shaped) (by simp) shaped0
example : c1.parents 0 = some [1] ∧ c1.parents 1 = some [2] := by decide +kernel

/-! ## C31: paths -/

/-- C31. -/
def PathsStatement (D : Type) [DecidableEq D] : Prop :=
  ∀ (srt : List (Step × Id) → List (Step × Id)), Sorts srt → ∀ (c : Ctx D), Reach srt c →
    ∀ (id fuel : Nat), c.store.length - id < fuel →
    ∃ l, c.pathsFor fuel id = some l ∧ l.Nodup ∧ ∀ x, x ∈ l ↔ Occurs c.store x.1 x.2 id

/-- **C31** (one direction, all histories): every reported path leads to the node. -/
theorem paths_sound {srt : List (Step × Id) → List (Step × Id)} (hsrt : Sorts srt) {c : Ctx D} (hc : Reach srt c)
    {id fuel : Nat} (hf : c.store.length - id < fuel) :
    ∃ l, c.pathsFor fuel id = some l ∧ ∀ x ∈ l, x.2 ≠ [] ∧ c.store.at x.1 x.2 = some id := by
  have hg := reach_good hsrt hc
  obtain ⟨l, hl⟩ := pathsFor_some hg.below (reach_sound hsrt hc) fuel id hf
  exact ⟨l, hl, pathsFor_sound hg.below (good_distinct hg) (reach_sound hsrt hc) fuel id l hf hl⟩

/-- **C31** (as long as nothing is edited): exactly the occurrences below topmost nodes
through nodes of tracked kinds, each once. -/
theorem paths_exact_partial {c : Ctx D} (hc : Adds c) {id fuel : Nat} (hf : c.store.length - id < fuel) :
    ∃ l, c.pathsFor fuel id = some l ∧ l.Nodup ∧ ∀ x, x ∈ l ↔ Occurs c.store x.1 x.2 id := by
  obtain ⟨l, h1, h2, _, h3⟩ := pathsFor_exact (good_distinct (adds_exact hc).good) (adds_exact hc) fuel id hf
  exact ⟨l, h1, h2, h3⟩

/-- After the edit of the first paragraph the child of the second one has no path. -/
theorem paths_false : ¬ PathsStatement Unit := by
  intro h
  obtain ⟨l, h1, _, h2⟩ := h stable stable_sorts c3 c3_reach 0 6 (by decide +kernel)
  have e : c3.pathsFor 6 0 = some [] := by decide +kernel
  rw [e] at h1
  injection h1 with h1
  have h3 := (h2 (4, [subStep 1, subStep 0])).2 ⟨by decide, by decide +kernel, ?_, ?_⟩
  · rw [← h1] at h3
    simp at h3
  · intro q hq
    simp only at hq
    rw [List.prefix_iff_eq_take] at hq
    generalize q.length = n at hq
    match n, hq with
    | 0, hq => exact ⟨4, by rw [hq]; decide +kernel, by decide +kernel⟩
    | 1, hq => exact ⟨1, by rw [hq]; decide +kernel, by decide +kernel⟩
    | n + 2, hq => exact ⟨0, by rw [hq]; simp only [List.take_succ_cons, List.take_nil]; decide +kernel, by decide +kernel⟩
  · rintro x ⟨h4, _, st, h5⟩
    have hlt := kids_lt (reach_good stable_sorts c3_reach).below h5
    have hlen : c3.store.length = 5 := by decide +kernel
    have h6 : (show Nat from x) < 5 := by rw [← hlen]; exact hlt.2
    have h7 : 4 < (show Nat from x) := hlt.1
    exact absurd h6 (by omega)

example : c1.pathsFor 4 0 = some [(2, [subStep 0, subStep 0]), (2, [subStep 1, subStep 0])] := by decide +kernel

end Verif.Imm
