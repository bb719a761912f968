import Verif.Track.Returns
import Verif.Imm.Props
import Mathlib.Data.List.Nodup

/-!
# Finding nodes by name: properties

C118: names in documents that are added.  C119: names in the versions of a document.
-/

namespace Verif.Track

open Verif.Imm

variable {stmt : Kind → Bool} {srt : List (Step × Id) → List (Step × Id)}

/-! ## C118 -/

/-- C118: a document can be added exactly if its radio targets have words. -/
theorem add_returns (c : TCtx) (t : Tree Info true) : (∃ r, addRoot stmt c t = .ok r) ↔ WordsOk t := (addTree_ok_iff t c).1

/-- C118: adding a document with names stores the same nodes as adding it without. -/
theorem add_same {c : TCtx} {t : Tree Info true} {r : Id × TCtx} (h : addRoot stmt c t = .ok r) : Imm.addRoot c.ctx t = (r.1, r.2.ctx) :=
  (addTree_ok_iff t c).2 r h

/-- C118: if no two nodes of the documents have the same name, every name in them is found. -/
theorem add_found {c : TCtx} {roots : List Id} (h : Adds stmt c roots) (hu : Unique stmt c.ctx.store roots) {r x : Id} (hr : r ∈ roots)
    {key : Key} (hx : InDoc c.ctx.store r x) (hk : Named stmt c.ctx.store x key) : Found c.names x key := adds_complete h hu hr x key hx hk

/-- C118: every name of a node in the documents leads to some node with this name. -/
theorem add_found_some {c : TCtx} {roots : List Id} (h : Adds stmt c roots) {r x : Id} (hr : r ∈ roots) {sl : Slot} {k : Text}
    (hx : InDoc c.ctx.store r x) (hk : Named stmt c.ctx.store x (.slot sl k)) :
    ∃ y, c.names.slots sl k = some y ∧ (∃ r' ∈ roots, InDoc c.ctx.store r' y) ∧ Named stmt c.ctx.store y (.slot sl k) := by
  obtain ⟨y, hy⟩ := adds_some h hr hx hk
  exact ⟨y, hy, (adds_sound h).1 sl k y hy⟩

/-- C118: what is found by a name is in one of the documents and has the name. -/
theorem add_sound {c : TCtx} {roots : List Id} (h : Adds stmt c roots) {sl : Slot} {k : Text} {x : Id} (hx : c.names.slots sl k = some x) :
    (∃ r ∈ roots, InDoc c.ctx.store r x) ∧ Named stmt c.ctx.store x (.slot sl k) := (adds_sound h).1 sl k x hx

/-- C118: a radio target that is found belongs to a node of one of the documents. -/
theorem add_radio_sound {c : TCtx} {roots : List Id} (h : Adds stmt c roots) {w : Text} {l : List Id} {t : Id} (hl : c.names.radio w = some l)
    (ht : t ∈ l) : ∃ r ∈ roots, ∃ x, InDoc c.ctx.store r x ∧ Named stmt c.ctx.store x (.radio w t) := (adds_sound h).2 w t ⟨l, hl, ht⟩

/-- A headline with an empty property `radio_id`. -/
def blankRadio : Tree Info true := .node .Document {} none (.cons ⟨0, .idx 0⟩ (.node .Subtree { radioIds := [[]] } none .nil) .nil)

theorem shaped_nil : Shaped [] := shaped0

theorem shaped_one : Shaped [⟨0, .idx 0⟩] := shaped1

theorem shaped_two : Shaped [⟨0, .idx 0⟩, ⟨0, .idx 1⟩] := shaped2

/-- C118: not every document can be added: an empty `:RADIO_ID:` throws. -/
theorem add_returns_false : ¬ AddReturnsStatement := by
  intro h
  obtain ⟨r, hr⟩ := h (fun _ => false) blankRadio (by
    simp only [blankRadio, ShapedTree, steps]
    exact ⟨shaped_one, ⟨shaped_nil, trivial⟩, trivial⟩)
  have := (add_returns .start blankRadio).mp ⟨r, hr⟩
  exact this.2.2.1.1 rfl [] (by simp) rfl

/-! ## C119 -/

/-- C119: through all versions of a document every name is found, if in every version no two nodes have the
same name and a name that stays does not move from a node that is replaced. -/
theorem version_partial (hk : Keeps srt) {c : TCtx} {root : Id} (h : History stmt srt c root) {x : Id} {key : Key}
    (hx : InDoc c.ctx.store root x) (hn : Named stmt c.ctx.store x key) : Found c.names x key := (history_complete hk h).2.2 x key hx hn

/-- C119: whatever is done, a node that is found by a name has it. -/
theorem version_sound (hk : Keeps srt) {c : TCtx} {root : Id} (h : AnyHistory stmt srt c root) {x : Id} {sl : Slot} {k : Text}
    (hx : c.names.slots sl k = some x) : Named stmt c.ctx.store x (.slot sl k) := ((any_sound hk h).2.2 sl k x hx).2

/-- C119: if no nodes with names leave the document, what is found is in the current version (definitions of
tags are not removed). -/
theorem current_partial (hk : Keeps srt) {c : TCtx} {root : Id} (h : KeptHistory stmt srt c root) {x : Id} {sl : Slot} {k : Text}
    (hsl : sl ≠ .hashtag) (hx : c.names.slots sl k = some x) : InDoc c.ctx.store root x ∧ Named stmt c.ctx.store x (.slot sl k) :=
  (kept_current hk h).2.2 sl k x hsl hx

/-- C119: a node of a document can be replaced, if its radio targets are different. -/
theorem edit_returns_partial {c : TCtx} {roots : List Id} (h : Adds stmt c roots) {r : Id} (hr : r ∈ roots) {target : Uniq} {v0 v : Val Info}
    (hx : InDoc c.ctx.store r target.id) (hv0 : c.ctx.store[target.id]? = some v0) (honce : RadioOnce c.ctx.store v0)
    (hw : ValWords c.ctx.store v) (hk : ∀ k ∈ v.kids, k.2 < c.ctx.store.length) : ∃ r, setNode stmt c target v = .ok r :=
  edit_ok h hr hx hv0 honce hw hk

/-! ## Concrete documents -/

theorem inDoc_closed {s : Store Info} {L : List Id} {root x : Id} (hr : root ∈ L) (hL : ∀ y ∈ L, ∀ k ∈ s.kids y, k.2 ∈ L)
    (h : InDoc s root x) : x ∈ L := by
  obtain ⟨p, hp⟩ := h
  induction p generalizing root with
  | nil => simp only [Store.at, Option.some.injEq] at hp; exact hp ▸ hr
  | cons st p ih =>
    simp only [Store.at] at hp
    cases hs : s.atStep root st with
    | none => rw [hs] at hp; simp at hp
    | some z =>
      rw [hs] at hp
      simp only [Store.atStep, Option.map_eq_some_iff] at hs
      obtain ⟨k, hk, rfl⟩ := hs
      exact ih (hL root hr k (List.mem_of_find?_eq_some hk)) hp

theorem unique_closed {s : Store Info} {L : List Id} {root : Id} (hr : root ∈ L) (hL : ∀ y ∈ L, ∀ k ∈ s.kids y, k.2 ∈ L)
    (hm : ∀ x ∈ L, ∀ y ∈ L, x ≠ y → ∀ m ∈ marks stmt s x, m ∉ marks stmt s y) : Unique stmt s [root] := by
  intro r hr1 r' hr2 x y sl k hx hy hnx hny
  simp only [List.mem_singleton] at hr1 hr2
  subst hr1 hr2
  by_contra hne
  exact hm x (inDoc_closed hr hL hx) y (inDoc_closed hr hL hy) hne _ (marks_at.mpr hnx) (marks_at.mpr hny)

/-- The positions in a document of two levels. -/
theorem at_cases {s : Store Info} {root x : Id} {p : List Step} {a b : Id}
    (hk : s.kids root = [(⟨0, .idx 0⟩, a), (⟨0, .idx 1⟩, b)]) (ha : s.kids a = []) (hb : s.kids b = [])
    (h : s.at root p = some x) : (p = [] ∧ x = root) ∨ (p = [⟨0, .idx 0⟩] ∧ x = a) ∨ (p = [⟨0, .idx 1⟩] ∧ x = b) := by
  have leaf : ∀ {y : Id} {q : List Step}, s.kids y = [] → s.at y q = some x → q = [] ∧ x = y := by
    intro y q hy hq
    cases q with
    | nil => simp only [Store.at, Option.some.injEq] at hq; exact ⟨rfl, hq.symm⟩
    | cons st q => simp [Store.at, Store.atStep, hy] at hq
  cases p with
  | nil => simp only [Store.at, Option.some.injEq] at h; exact .inl ⟨rfl, h.symm⟩
  | cons st q =>
    simp only [Store.at, Store.atStep, hk, List.find?_cons, List.find?_nil] at h
    by_cases h0 : (⟨0, .idx 0⟩ : Step) = st
    · simp only [h0, decide_true, Option.map_some] at h
      obtain ⟨rfl, rfl⟩ := leaf ha h
      exact .inr (.inl ⟨by rw [h0], rfl⟩)
    · by_cases h1 : (⟨0, .idx 1⟩ : Step) = st
      · simp only [h1, decide_true, h0, decide_false, Option.map_some] at h
        obtain ⟨rfl, rfl⟩ := leaf hb h
        exact .inr (.inr ⟨by rw [h1], rfl⟩)
      · simp [h0, h1] at h

def st0 (i : Nat) : Step := ⟨0, .idx i⟩

/-- Headlines are statements. -/
def stm : Kind → Bool := fun k => decide (k = .Subtree)

/-- A headline with an id and one without. -/
def doc : Tree Info true :=
  .node .Document {} none (.cons (st0 0) (.node .Subtree { treeId := some ['i'], tags := [['t']] } none .nil)
    (.cons (st0 1) (.node .Subtree { rest := 1 } none .nil) .nil))

theorem doc_shaped : ShapedTree doc := by
  simp only [doc, ShapedTree, steps]
  exact ⟨shaped_two, ⟨shaped_nil, trivial⟩, ⟨shaped_nil, trivial⟩, trivial⟩

def addedCtx (r : Except Err (Id × TCtx)) : TCtx :=
  match r with
  | .ok r => r.2
  | .error _ => .start

def setCtx (r : Except Err (Option Replace × TCtx)) : TCtx :=
  match r with
  | .ok r => r.2
  | .error _ => .start

def ctx0 : TCtx := addedCtx (addRoot stm .start doc)

theorem ctx0_eq : addRoot stm .start doc = .ok (2, ctx0) := rfl

theorem doc_unique : Unique stm ctx0.ctx.store [2] :=
  unique_closed (L := [0, 1, 2]) (by simp) (by decide +kernel) (by decide +kernel)

/-- The id is found, as `add_found` says. -/
example : Found ctx0.names 0 (.slot .subtree ['i']) :=
  add_found (.add .start doc_shaped ctx0_eq) doc_unique (r := 2) (by simp) ⟨[st0 0], by decide +kernel⟩ (.subtree (by rfl) rfl rfl)

example : ∃ y, ctx0.names.slots .subtree ['i'] = some y ∧ Named stm ctx0.ctx.store y (.slot .subtree ['i']) := by
  obtain ⟨y, h1, _, h2⟩ := add_found_some (.add .start doc_shaped ctx0_eq) (r := 2) (x := 0) (sl := .subtree) (k := ['i']) (by simp)
    ⟨[st0 0], by decide +kernel⟩ (.subtree (by rfl) rfl rfl)
  exact ⟨y, h1, h2⟩

/-- The other headline gets the id, then the first one loses it. -/
def moved1 : TCtx := setCtx (setNode stm ctx0 ⟨1, 2, [st0 1]⟩ ⟨.Subtree, { treeId := some ['i'], rest := 1 }, none, []⟩)

def moved2 : TCtx := setCtx (setNode stm moved1 ⟨0, 2, [st0 0]⟩ ⟨.Subtree, { rest := 2 }, none, []⟩)

def rep1 : Replace := ⟨⟨1, 2, [st0 1]⟩, ⟨3, 2, [st0 1]⟩⟩

def rep0 : Replace := ⟨⟨0, 2, [st0 0]⟩, ⟨4, 2, [st0 0]⟩⟩

def moved3 : TCtx := addedCtx (cascade stm id 10 moved2 2 [rep1, rep0])

theorem moved_version : NewVersion stm id ctx0 2 [] [rep1, rep0] moved3 5 := by
  refine ⟨⟨moved2, 10, ?_, by rfl⟩, ?_, by simp⟩
  · have h1 : Work stm ctx0.ctx.store 2 ctx0 [] ([] ++ [rep1]) moved1 :=
      .set (.nil _) shaped_nil (by simp) rfl (by decide +kernel) (target := ⟨1, 2, [st0 1]⟩)
        (v := ⟨.Subtree, { treeId := some ['i'], rest := 1 }, none, []⟩) (by rfl)
    exact .set h1 shaped_nil (by simp) rfl (by decide +kernel) (target := ⟨0, 2, [st0 0]⟩) (v := ⟨.Subtree, { rest := 2 }, none, []⟩) (by rfl)
  · unfold Apart
    decide +kernel

theorem moved_unique : Unique stm moved3.ctx.store [5] :=
  unique_closed (L := [3, 4, 5]) (by simp) (by decide +kernel) (by decide +kernel)

theorem id_keeps : Keeps (id : List (Step × Id) → List (Step × Id)) := fun _ _ => rfl

/-- C119: an id that moves to another headline, which is replaced first, is lost. -/
theorem version_false : ¬ VersionStatement := by
  intro h
  have := h stm id doc 2 ctx0 [] [rep1, rep0] moved3 5 id_keeps doc_shaped ctx0_eq doc_unique moved_version moved_unique 3
    (.slot .subtree ['i']) ⟨[st0 1], by decide +kernel⟩ (.subtree (by rfl) rfl rfl)
  have h2 : moved3.names.slots .subtree ['i'] = none := by rfl
  rw [Found, h2] at this
  cases this

/-- The first headline is removed. -/
def dropped1 : TCtx := setCtx (setNode stm ctx0 ⟨2, 2, []⟩ ⟨.Document, {}, none, [(st0 0, 1)]⟩)

def repDoc : Replace := ⟨⟨2, 2, []⟩, ⟨3, 2, []⟩⟩

def dropped2 : TCtx := addedCtx (cascade stm id 10 dropped1 2 [repDoc])

theorem dropped_version : NewVersion stm id ctx0 2 [] [repDoc] dropped2 3 := by
  refine ⟨⟨dropped1, 10, ?_, by rfl⟩, ?_, by simp⟩
  · refine .set (made := []) (rs := []) (.nil _) shaped_one ?_ rfl (by decide +kernel) (target := ⟨2, 2, []⟩)
      (v := ⟨.Document, {}, none, [(st0 0, 1)]⟩) (by rfl)
    intro k hk
    simp only [List.mem_singleton] at hk
    subst hk
    exact .inl ⟨[st0 1], by decide +kernel⟩
  · unfold Apart
    simp

/-- C119: a headline that was removed from the document is still found by its id. -/
theorem current_false : ¬ CurrentStatement := by
  intro h
  have := h stm id doc 2 ctx0 [] [repDoc] dropped2 3 id_keeps doc_shaped ctx0_eq doc_unique dropped_version
    (unique_closed (L := [1, 3]) (by simp) (by decide +kernel) (by decide +kernel)) .subtree ['i'] 0 (by rfl)
  have := inDoc_closed (L := [1, 3]) (by simp) (by decide +kernel) this
  simp at this

/-- A paragraph with the same radio target twice. -/
def twice : Tree Info true :=
  .node .Paragraph {} none (.cons (st0 0) (.node .RadioTarget { words := [['a']] } none .nil)
    (.cons (st0 1) (.node .RadioTarget { words := [['a']] } none .nil) .nil))

def twiceCtx : TCtx := addedCtx (addRoot stm .start twice)

/-- C119: a paragraph with the same radio target twice cannot be replaced. -/
theorem edit_returns_false : ¬ EditReturnsStatement := by
  intro h
  obtain ⟨r, hr⟩ := h stm twice 1 twiceCtx ⟨1, 1, []⟩ ⟨.Paragraph, {}, none, []⟩
    (by
      simp only [twice, ShapedTree, steps]
      exact ⟨shaped_two, ⟨shaped_nil, trivial⟩, ⟨shaped_nil, trivial⟩, trivial⟩) (by rfl) rfl rfl shaped_nil (by simp)
    ⟨by simp, by simp [Val.subs]⟩
  have : setNode stm twiceCtx ⟨1, 1, []⟩ ⟨.Paragraph, {}, none, []⟩ = .error .throws := by rfl
  rw [this] at hr
  cases hr

/-- The headline with the id is replaced and keeps it. -/
def kept1 : TCtx := setCtx (setNode stm ctx0 ⟨0, 2, [st0 0]⟩ ⟨.Subtree, { treeId := some ['i'], rest := 7 }, none, []⟩)

def repKept : Replace := ⟨⟨0, 2, [st0 0]⟩, ⟨3, 2, [st0 0]⟩⟩

def kept2 : TCtx := addedCtx (cascade stm id 10 kept1 2 [repKept])

theorem kept_version : NewVersion stm id ctx0 2 [] [repKept] kept2 4 := by
  refine ⟨⟨kept1, 10, ?_, by rfl⟩, ?_, by simp⟩
  · exact .set (made := []) (rs := []) (.nil _) shaped_nil (by simp) rfl (by decide +kernel) (target := ⟨0, 2, [st0 0]⟩)
      (v := ⟨.Subtree, { treeId := some ['i'], rest := 7 }, none, []⟩) (by rfl)
  · unfold Apart
    simp

theorem kept_stay : Stay stm ctx0 2 [repKept] kept2 4 := by
  intro key p q x y hp hx hq hy
  have m0 : marks stm ctx0.ctx.store 2 = [] := by decide +kernel
  have m1 : marks stm ctx0.ctx.store 1 = [] := by decide +kernel
  have n0 : marks stm kept2.ctx.store 4 = [] := by decide +kernel
  have n1 : marks stm kept2.ctx.store 1 = [] := by decide +kernel
  have none_of : ∀ {s : Store Info} {z : Id}, marks stm s z = [] → ¬ Named stm s z key := by
    intro s z hz hn
    cases key with
    | slot sl k => rw [← marks_at, hz] at hn; simp at hn
    | radio w t => rw [← marks_radio, hz] at hn; simp at hn
  rcases at_cases (a := 0) (b := 1) (by decide +kernel) (by decide +kernel) (by decide +kernel) hp with ⟨rfl, rfl⟩ | ⟨rfl, rfl⟩ | ⟨rfl, rfl⟩
  · exact absurd hx (none_of m0)
  · rcases at_cases (a := 3) (b := 1) (by decide +kernel) (by decide +kernel) (by decide +kernel) hq with ⟨rfl, rfl⟩ | ⟨rfl, rfl⟩ | ⟨rfl, rfl⟩
    · exact absurd hy (none_of n0)
    · exact .inl rfl
    · exact absurd hy (none_of n1)
  · exact absurd hx (none_of m1)

theorem kept_unique : Unique stm kept2.ctx.store [4] :=
  unique_closed (L := [1, 3, 4]) (by simp) (by decide +kernel) (by decide +kernel)

/-- The new headline is found by its id, as `version_partial` says. -/
example : Found kept2.names 3 (.slot .subtree ['i']) :=
  version_partial id_keeps (.step (.start doc_shaped ctx0_eq doc_unique) kept_version kept_unique kept_stay)
    ⟨[st0 0], by decide +kernel⟩ (.subtree (by rfl) rfl rfl)

theorem kept_kept : Kept stm ctx0 2 [repKept] kept2 4 := by
  intro p x sl k hp hx
  rcases at_cases (a := 0) (b := 1) (by decide +kernel) (by decide +kernel) (by decide +kernel) hp with ⟨rfl, rfl⟩ | ⟨rfl, rfl⟩ | ⟨rfl, rfl⟩
  · exact .inl ⟨repKept, by simp, List.nil_prefix⟩
  · exact .inl ⟨repKept, by simp, List.prefix_refl _⟩
  · exact .inr ⟨[st0 1], by decide +kernel⟩

example : InDoc kept2.ctx.store 4 3 ∧ Named stm kept2.ctx.store 3 (.slot .subtree ['i']) :=
  current_partial id_keeps (.step (.start doc_shaped ctx0_eq) kept_version kept_kept) (by simp) (by rfl)

example : Named stm kept2.ctx.store 0 (.slot .hashtag ['t']) :=
  version_sound id_keeps (.step (.start doc_shaped ctx0_eq) kept_version) (by rfl)

/-- C119: the definition of a tag is found although no node of the document has it any more, and although
no named node was removed other than by replacing it. -/
theorem hashtag_stays : ∃ c root x, KeptHistory stm id c root ∧ c.names.slots .hashtag ['t'] = some x ∧ ¬ InDoc c.ctx.store root x ∧
    ∀ y, InDoc c.ctx.store root y → ¬ Named stm c.ctx.store y (.slot .hashtag ['t']) := by
  have hL := fun {x} h => inDoc_closed (s := kept2.ctx.store) (L := [1, 3, 4]) (root := 4) (x := x) (by simp) (by decide +kernel) h
  refine ⟨kept2, 4, 0, .step (.start doc_shaped ctx0_eq) kept_version kept_kept, by rfl, ?_, ?_⟩
  · intro h
    have := hL h
    simp at this
  · intro y hy hn
    have hy := hL hy
    rw [← marks_at] at hn
    have : ∀ y ∈ [1, 3, 4], Mark.at .hashtag ['t'] ∉ marks stm kept2.ctx.store y := by decide +kernel
    exact this y hy hn

/-- A node of the document can be replaced, as `edit_returns_partial` says. -/
example : ∃ r, setNode stm ctx0 ⟨0, 2, [st0 0]⟩ ⟨.Subtree, { radioIds := [[['w']]] }, none, []⟩ = .ok r :=
  edit_returns_partial (.add .start doc_shaped ctx0_eq) (r := 2) (by simp) ⟨[st0 0], by decide +kernel⟩ (v0 := ⟨.Subtree, { treeId := some ['i'], tags := [['t']] }, none, []⟩)
    (by rfl) ⟨by simp, by simp⟩ ⟨by simp, by simp⟩ (by simp)

/-- Two headlines with the same id: the second one is found. -/
def both : Tree Info true :=
  .node .Document {} none (.cons (st0 0) (.node .Subtree { treeId := some ['i'] } none .nil)
    (.cons (st0 1) (.node .Subtree { treeId := some ['i'], rest := 1 } none .nil) .nil))

/-- C118: with two equal names, one of the nodes is not found. -/
theorem add_found_unique : ∃ c, Adds stm c [2] ∧ ¬ Complete stm c 2 := by
  refine ⟨addedCtx (addRoot stm .start both), .add (roots := []) (t := both) .start (by
    simp only [both, ShapedTree, steps]
    exact ⟨shaped_two, ⟨shaped_nil, trivial⟩, ⟨shaped_nil, trivial⟩, trivial⟩) (by rfl), ?_⟩
  intro h
  have := h 0 (.slot .subtree ['i']) ⟨[st0 0], by decide +kernel⟩ (.subtree (by rfl) rfl rfl)
  have h2 : (addedCtx (addRoot stm .start both)).names.slots .subtree ['i'] = some 1 := by rfl
  rw [Found, h2] at this
  cases this

end Verif.Track
