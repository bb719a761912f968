import Verif.Tokenizer.Props

/-!
# The structure of lists by indentation (C53)

A list is described as a forest of items, independently of the tokenizer; `Forest.render`
is the token stream the list stands for.
-/

namespace Verif.Tokenizer
open Verif.Token

/-! ## Specification -/

/-- A list as a forest: an item made of several lines of tokens, the items nested in it, and
the items after it on the same level. -/
inductive Forest where
  | nil
  | cons (lines : List (List Tok)) (kids next : Forest)

/-- The lines of the document. -/
def Forest.lines : Forest → List (List Tok)
  | .nil => []
  | .cons ls kids next => ls ++ (kids.lines ++ next.lines)

/-- The kinds of tokens a list item starts with. -/
def markers : List TK := [.LeadingMinus, .LeadingPlus, .LeadingNumber]

/-- Kinds that give a meaning of its own to a line whose indentation they follow. -/
def ownMeaning : List TK :=
  [.TreeClock, .Minus, .ColonEnd, .ColonPropertyText, .ColonProperties, .ColonLogbook, .LineCommand] ++ cmdBlockClose

/-- Exactly one line of the document. -/
def WholeLine (l : List Tok) : Prop :=
  ∃ init last, l = init ++ [last] ∧ (∀ t ∈ init, t.kind ∉ lineEnd) ∧ last.kind ∈ lineEnd

/-- The lines of one list item indented by `i` spaces: a marker with text, then plain lines
indented to the text of the item or more. -/
def ItemLines (i : Nat) (ls : List (List Tok)) : Prop :=
  (∀ l ∈ ls, WholeLine l) ∧
  ∃ m first tl, ls = (m :: first) :: tl ∧ m.kind ∈ markers ∧ m.text.count ' ' = i ∧
    ∀ l ∈ tl, ∃ sp nx rest, l = sp :: nx :: rest ∧ sp.kind = .LeadingSpace ∧ i + 2 ≤ sp.text.length ∧ nx.kind ∉ ownMeaning

/-- All items of a level are indented by `i`, nested ones by more. -/
def Forest.Indented : Nat → Forest → Prop
  | _, .nil => True
  | i, .cons ls kids next =>
    ItemLines i ls ∧ (kids = .nil ∨ ∃ j, i < j ∧ kids.Indented j) ∧ next.Indented i

/-- Does an item of one line end with more than one empty line? -/
def breaksList (ls : List (List Tok)) : Prop :=
  ∃ l, ls = [l] ∧ ∃ init last, l = init ++ [last] ∧ last.kind = .LongNewline

instance (ls : List (List Tok)) : Decidable (breaksList ls) :=
  decidable_of_iff (ls.length = 1 ∧ ∃ t, (ls.head?.bind List.getLast?) = some t ∧ t.kind = .LongNewline) (by
    unfold breaksList
    constructor
    · rintro ⟨h1, t, h2, h3⟩
      obtain ⟨l, rfl⟩ := List.length_eq_one_iff.1 h1
      simp only [List.head?_cons, Option.bind_some] at h2
      obtain ⟨ys, hys⟩ := List.getLast?_eq_some_iff.1 h2
      exact ⟨l, rfl, ys, t, hys, h3⟩
    · rintro ⟨l, rfl, init, last, rfl, h⟩
      exact ⟨rfl, last, by simp, h⟩)

/-- Between an item and the next one on its level: after nested items the parent item is
closed explicitly; otherwise the list goes on, or a new list starts after a list break. -/
def separator (ls : List (List Tok)) (kids : Forest) : List Tok :=
  match kids with
  | .cons _ _ _ => [.fake .ListItemEnd]
  | .nil => if breaksList ls then [.fake .Dedent, .fake .Indent] else [.fake .SameIndent]

/-- A list in its brackets; nothing for no items. -/
def bracketed (f : Forest) (items : List Tok) : List Tok :=
  match f with
  | .nil => []
  | .cons _ _ _ => .fake .Indent :: (items ++ [.fake .Dedent])

/-- `sep` before the items of `f`, if there are any. -/
def following (sep : List Tok) (f : Forest) (items : List Tok) : List Tok :=
  match f with
  | .nil => []
  | .cons _ _ _ => sep ++ items

/-- The items of a level. -/
def Forest.items : Forest → List Tok
  | .nil => []
  | .cons ls kids next => ls.flatten ++ bracketed kids kids.items ++ following (separator ls kids) next next.items

/-- The stream for a list: an opening token, the items, a closing token. -/
def Forest.render (f : Forest) : List Tok := bracketed f f.items

/-! ## Lines -/

/-- The line object made from a line of tokens of a list. -/
def itemLine (l : List Tok) : Line :=
  match l with
  | [] => .empty
  | t :: _ => ⟨l, if t.kind = .LeadingSpace then t.text.length else t.text.count ' ' + 2,
      if t.kind = .LeadingSpace then .indentedLine else .listItem⟩

theorem mkLine_marker (m : Tok) (rest : List Tok) (h : m.kind ∈ markers) :
    mkLine (m :: rest) = .ok (itemLine (m :: rest)) := by
  simp only [markers, List.mem_cons, List.not_mem_nil, or_false] at h
  rcases h with h | h | h <;>
    simp [mkLine, lineKindOf, indentOf, itemLine, h, bind, Except.bind]

theorem mkLine_cont (sp nx : Tok) (rest : List Tok) (h : sp.kind = .LeadingSpace) (hn : nx.kind ∉ ownMeaning) :
    mkLine (sp :: nx :: rest) = .ok (itemLine (sp :: nx :: rest)) := by
  simp only [ownMeaning, List.mem_append, List.mem_cons, List.not_mem_nil, or_false, not_or] at hn
  obtain ⟨⟨h1, h2, h3, h4, h5, h6, h7⟩, h8⟩ := hn
  have : setLeadingSpaceKind (sp :: nx :: rest) = .ok .indentedLine := by
    unfold setLeadingSpaceKind
    simp only [List.getElem?_cons_succ, List.getElem?_cons_zero]
    split <;> first | contradiction | simp_all
  simp [mkLine, lineKindOf, indentOf, itemLine, h, bind, Except.bind, this]

theorem itemLine_tokens (l : List Tok) : (itemLine l).tokens = l := by
  cases l <;> rfl

theorem mkLine_item {i : Nat} {ls : List (List Tok)} (h : ItemLines i ls) :
    ∀ l ∈ ls, mkLine l = .ok (itemLine l) := by
  obtain ⟨_, m, first, tl, rfl, hm, _, htl⟩ := h
  intro l hl
  rcases List.mem_cons.1 hl with rfl | hl
  · exact mkLine_marker m first hm
  · obtain ⟨sp, nx, rest, rfl, h1, _, h2⟩ := htl l hl
    exact mkLine_cont sp nx rest h1 h2

theorem toLinesLoop_line (init : List Tok) (last : Tok) (ts cur : List Tok) (hi : ∀ t ∈ init, t.kind ∉ lineEnd)
    (hl : last.kind ∈ lineEnd) :
    toLinesLoop cur (init ++ last :: ts) =
      (mkLine (cur ++ init ++ [last])).bind (fun l => (toLinesLoop [] ts).bind (fun ls => .ok (l :: ls))) := by
  induction init generalizing cur with
  | nil =>
    simp only [List.nil_append, List.append_nil]
    rw [toLinesLoop, if_pos hl]
    rfl
  | cons a init ih =>
    rw [List.cons_append, toLinesLoop, if_neg (hi a List.mem_cons_self), ih _ (fun t ht => hi t (List.mem_cons_of_mem _ ht))]
    simp

theorem toLines_whole (ls : List (List Tok)) (hw : ∀ l ∈ ls, WholeLine l) (hm : ∀ l ∈ ls, mkLine l = .ok (itemLine l)) :
    toLines ls.flatten = .ok (ls.map itemLine) := by
  unfold toLines
  induction ls with
  | nil => rfl
  | cons l ls ih =>
    obtain ⟨init, last, he, h1, h2⟩ := hw l List.mem_cons_self
    have h3 := hm l List.mem_cons_self
    rw [List.flatten_cons, he, List.append_assoc, List.singleton_append, toLinesLoop_line _ _ _ _ h1 h2]
    rw [List.nil_append, ← he, h3, ih (fun l hl => hw l (List.mem_cons_of_mem _ hl)) (fun l hl => hm l (List.mem_cons_of_mem _ hl))]
    rfl

/-! ## Groups -/

/-- The items one after another. -/
def Forest.flat : Forest → List (List (List Tok))
  | .nil => []
  | .cons ls kids next => ls :: (kids.flat ++ next.flat)

theorem Forest.flat_lines (f : Forest) : f.flat.flatten = f.lines := by
  induction f with
  | nil => rfl
  | cons ls kids next ih1 ih2 => simp [Forest.flat, Forest.lines, ih1, ih2]

theorem Forest.Indented.flat {i : Nat} {f : Forest} (h : f.Indented i) : ∀ ls ∈ f.flat, ∃ j, ItemLines j ls := by
  induction f generalizing i with
  | nil => simp [Forest.flat]
  | cons ls kids next ih1 ih2 =>
    obtain ⟨h1, h2, h3⟩ := h
    intro l hl
    simp only [Forest.flat, List.mem_cons, List.mem_append] at hl
    rcases hl with rfl | hl | hl
    · exact ⟨i, h1⟩
    · rcases h2 with rfl | ⟨j, _, h2⟩
      · simp [Forest.flat] at hl
      · exact ih1 h2 l hl
    · exact ih2 h3 l hl

theorem takeWhile_append_stop {α : Type} (p : α → Bool) (a b : List α) (ha : ∀ x ∈ a, p x = true)
    (hb : ∀ x t, b = x :: t → p x = false) : (a ++ b).takeWhile p = a ∧ (a ++ b).dropWhile p = b := by
  induction a with
  | nil =>
    cases b with
    | nil => simp
    | cons x t => simp [hb x t rfl]
  | cons x a ih =>
    have := ih (fun y hy => ha y (List.mem_cons_of_mem _ hy))
    simp [ha x List.mem_cons_self, this]

theorem marker_not_space {k : TK} (h : k ∈ markers) : k ≠ .LeadingSpace := by
  rintro rfl; revert h; decide

theorem toGroups_items (items : List (List (List Tok))) (h : ∀ ls ∈ items, ∃ i, ItemLines i ls) :
    ∀ fuel, 2 * items.flatten.length + 2 ≤ fuel →
      toGroups fuel (items.flatten.map itemLine) = .ok (itemRun (items.map (·.map itemLine))) := by
  induction items with
  | nil => intro fuel hf; obtain ⟨f, rfl⟩ : ∃ f, fuel = f + 1 := ⟨fuel - 1, by omega⟩; rfl
  | cons ls items ih =>
    intro fuel hf
    obtain ⟨i, _, m, first, tl, rfl, hm, hi, htl⟩ := h ls List.mem_cons_self
    have hkind : (itemLine (m :: first)).kind = .listItem := by simp [itemLine, marker_not_space hm]
    have hind : (itemLine (m :: first)).indent = i + 2 := by simp [itemLine, marker_not_space hm, hi]
    simp only [List.flatten_cons, List.cons_append, List.map_cons, List.length_cons, List.map_append, List.length_append] at hf ⊢
    obtain ⟨f, rfl⟩ : ∃ f, fuel = f + 2 := ⟨fuel - 2, by omega⟩
    have hstop := takeWhile_append_stop
      (fun l : Line => decide (l.kind = .indentedLine) && decide ((itemLine (m :: first)).indent ≤ l.indent))
      (tl.map itemLine) (items.flatten.map itemLine)
      (by
        intro l hl
        obtain ⟨l', hl', rfl⟩ := List.mem_map.1 hl
        obtain ⟨sp, nx, rest, rfl, h1, h2, _⟩ := htl l' hl'
        rw [hind]
        simp [itemLine, h1, h2])
      (by
        intro x t hx
        cases items with
        | nil => simp at hx
        | cons ls' items' =>
          obtain ⟨_, _, m', first', tl', rfl, hm', _, _⟩ := h ls' (by simp)
          simp only [List.flatten_cons, List.cons_append, List.map_cons, List.cons.injEq] at hx
          rw [← hx.1]
          simp [itemLine, marker_not_space hm'])
    rw [toGroups, recGroup]
    simp only [hkind, bind, Except.bind, hstop.1, hstop.2]
    rw [if_neg (by simp; omega), ih (fun ls hls => h ls (List.mem_cons_of_mem _ hls)) (f + 1) (by omega)]
    rfl

/-! ## Tokens -/

theorem recAddLine_closed (gk : GK) (prev : Option Tok) (l : List Tok) (hl : ∀ init last, l = init ++ [last] → last.kind ∈ lineEnd) :
    recAddLine gk prev l = .ok l := by
  suffices H : ∃ out, recAddLine gk prev l = .ok out by
    obtain ⟨out, h⟩ := H
    rw [h, recAddLine_ok gk prev l out h]
  have htail : ∀ (a : Tok) (r : List Tok), (∀ init last, a :: r = init ++ [last] → last.kind ∈ lineEnd) →
      ∀ init last, r = init ++ [last] → last.kind ∈ lineEnd :=
    fun a r h init last he => h (a :: init) last (by rw [he]; rfl)
  induction hn : l.length using Nat.strongRecOn generalizing prev l with
  | _ n ih =>
    cases l with
    | nil => exact ⟨[], by simp [recAddLine]⟩
    | cons tok rest =>
      have go : ∀ (p : Option Tok) (r : List Tok), r.length < n →
          (∀ init last, r = init ++ [last] → last.kind ∈ lineEnd) → ∃ out, recAddLine gk p r = .ok out :=
        fun p r h1 h2 => ih r.length h1 p r h2 rfl
      simp only [List.length_cons] at hn
      rw [recAddLine.eq_def]
      dsimp only
      have h1 := htail tok rest hl
      split
      all_goals first
        | (obtain ⟨o, ho⟩ := go (some tok) rest (by omega) h1
           exact ⟨tok :: o, by rw [ho]; rfl⟩)
        | (cases rest with
           | nil =>
             first
              | exact ⟨_, rfl⟩
              | (exfalso
                 rename_i hk
                 have := hl [] tok rfl
                 rw [hk] at this
                 revert this; decide)
           | cons nx rest' =>
             simp only [List.length_cons] at hn
             obtain ⟨o, ho⟩ := go (some nx) rest' (by omega) (htail nx rest' h1)
             obtain ⟨o', ho'⟩ := go (some tok) (nx :: rest') (by simp only [List.length_cons]; omega) h1
             simp only [ho, ho', bind, Except.bind]
             repeat' split
             all_goals exact ⟨_, rfl⟩)

theorem wholeLine_last {l : List Tok} (h : WholeLine l) : ∀ init last, l = init ++ [last] → last.kind ∈ lineEnd := by
  obtain ⟨i, la, rfl, _, h⟩ := h
  intro init last he
  have := List.append_inj_right' he rfl
  simp only [List.cons.injEq, and_true] at this
  rwa [← this]

theorem recAddLines_items {i : Nat} {ls : List (List Tok)} (h : ItemLines i ls) (gk : GK) :
    recAddLines gk (ls.map itemLine) = .ok ls.flatten := by
  have hw := h.1
  clear h
  induction ls with
  | nil => rfl
  | cons l ls ih =>
    rw [List.map_cons, recAddLines, itemLine_tokens,
      recAddLine_closed gk none l (wholeLine_last (hw l List.mem_cons_self)),
      ih (fun x hx => hw x (List.mem_cons_of_mem _ hx))]
    rfl

/-- `convertLoop` on list items, keeping the state instead of closing the lists. -/
def runItems : List (List Line) → Prev → List Nat → Except Err (List Tok × Prev × List Nat)
  | [], prev, ind => .ok ([], prev, ind)
  | ls :: rest, prev, ind =>
    match ls with
    | [] => .error .range
    | first :: _ =>
      match preGroup .listItem first.indent prev ind with
      | .error e => .error e
      | .ok (pre, ind) =>
        match recAddLines .listItem ls with
        | .error e => .error e
        | .ok body =>
          match runItems rest (some (.listItem, some ls)) ind with
          | .error e => .error e
          | .ok (out, prev, ind) => .ok (pre ++ body ++ out, prev, ind)

theorem convertLoop_run (items : List (List Line)) : ∀ (prev : Prev) (ind : List Nat),
    convertLoop (itemRun items) prev ind =
      (runItems items prev ind).map (fun r => r.1 ++ List.replicate r.2.2.length (.fake .Dedent)) := by
  induction items with
  | nil => intro prev ind; simp [itemRun, convertLoop, runItems, Except.map]
  | cons ls rest ih =>
    intro prev ind
    cases ls with
    | nil => simp [itemRun, convertLoop, runItems, Except.map]
    | cons first tl =>
      simp only [itemRun, convertLoop, runItems, bind, Except.bind]
      cases hp : preGroup .listItem first.indent prev ind with
      | error e => rfl
      | ok r =>
        obtain ⟨pre, ind'⟩ := r
        dsimp only
        cases hb : recAddLines .listItem (first :: tl) with
        | error e => rfl
        | ok body =>
          dsimp only
          rw [ih]
          cases runItems rest (some (.listItem, some (first :: tl))) ind' with
          | error e => rfl
          | ok r => simp [Except.map]

theorem runItems_append (a b : List (List Line)) : ∀ (prev : Prev) (ind : List Nat),
    runItems (a ++ b) prev ind =
      (runItems a prev ind).bind (fun r => (runItems b r.2.1 r.2.2).map (fun q => (r.1 ++ q.1, q.2))) := by
  induction a with
  | nil =>
    intro prev ind
    simp only [List.nil_append, runItems, Except.bind, Except.map]
    cases runItems b prev ind <;> rfl
  | cons ls rest ih =>
    intro prev ind
    cases ls with
    | nil => simp [runItems, Except.bind]
    | cons first tl =>
      simp only [List.cons_append, runItems]
      cases hp : preGroup .listItem first.indent prev ind with
      | error e => rfl
      | ok r =>
        obtain ⟨pre, ind'⟩ := r
        dsimp only
        cases hb : recAddLines .listItem (first :: tl) with
        | error e => rfl
        | ok body =>
          dsimp only
          rw [ih]
          cases runItems rest (some (.listItem, some (first :: tl))) ind' with
          | error e => rfl
          | ok r =>
            obtain ⟨o, p, i⟩ := r
            simp only [Except.bind, Except.map]
            cases runItems b p i with
            | error e => rfl
            | ok q => simp

theorem popCount_all (i : Nat) (s below : List Nat) (hs : ∀ x ∈ s, i < x) :
    popCount i (s ++ i :: below) = s.length := by
  unfold popCount
  rw [(takeWhile_append_stop _ s (i :: below) (by simpa using hs) (by
    intro x t h; injection h with h1 h2; rw [← h1]; simp)).1]

/-- What comes before the next item of a level, when `s` are the open nested lists. -/
theorem preGroup_next (i : Nat) (s below : List Nat) (hs : ∀ x ∈ s, i < x) (prev : Prev) (hne : s ≠ []) :
    preGroup .listItem i prev (s ++ i :: below) =
      .ok (List.replicate s.length (.fake .Dedent) ++ [.fake .ListItemEnd], i :: below) := by
  cases s with
  | nil => exact absurd rfl hne
  | cons a s =>
    have ha := hs a List.mem_cons_self
    unfold preGroup
    rw [if_pos rfl]
    simp only [List.cons_append]
    rw [if_neg (by omega), if_pos ha, ← List.cons_append, popCount_all i (a :: s) below hs]
    simp

theorem breaks_iff (ls : List (List Tok)) (i : Nat) (h : ItemLines i ls) :
    ∃ l, (ls.map itemLine).getLast? = some l ∧ (l.isListBreakingItem = true ↔ breaksList ls) := by
  obtain ⟨hw, m, first, tl, rfl, hm, hi, htl⟩ := h
  rcases List.eq_nil_or_concat tl with rfl | ⟨init, last, rfl⟩
  · refine ⟨itemLine (m :: first), rfl, ?_⟩
    obtain ⟨ini, la, he, _, _⟩ := hw (m :: first) List.mem_cons_self
    have hk : (itemLine (m :: first)).kind = .listItem := by simp [itemLine, marker_not_space hm]
    unfold Line.isListBreakingItem
    rw [itemLine_tokens, hk, he]
    simp only [List.getLast?_append, List.getLast?_singleton, Option.some_or, decide_true, Bool.true_and, decide_eq_true_eq]
    unfold breaksList
    constructor
    · intro h; exact ⟨_, rfl, ini, la, rfl, h⟩
    · rintro ⟨l, hl, ini', la', h1, h2⟩
      simp only [List.cons.injEq, and_true] at hl
      rw [← hl] at h1
      have := List.append_inj_right' h1 rfl
      simp only [List.cons.injEq, and_true] at this
      rw [this]; exact h2
  · rw [List.concat_eq_append] at *
    refine ⟨itemLine last, by rw [List.map_cons, List.map_append, ← List.cons_append]; exact List.getLast?_concat, ?_⟩
    obtain ⟨sp, nx, rest, rfl, h1, _, _⟩ := htl last (by simp)
    have hk : (itemLine (sp :: nx :: rest)).kind = .indentedLine := by simp [itemLine, h1]
    constructor
    · intro h
      unfold Line.isListBreakingItem at h
      split at h
      · rw [hk] at h; simp at h
      · cases h
    · rintro ⟨l, hl, _⟩
      simp at hl

theorem item_first {i : Nat} {ls : List (List Tok)} (h : ItemLines i ls) :
    ∃ first tl, ls.map itemLine = first :: tl ∧ first.indent = i + 2 := by
  obtain ⟨_, m, first, tl, rfl, hm, hi, _⟩ := h
  exact ⟨itemLine (m :: first), tl.map itemLine, rfl, by simp [itemLine, marker_not_space hm, hi]⟩

theorem replicate_snoc {α : Type} (n : Nat) (a : α) : List.replicate (n + 1) a = List.replicate n a ++ [a] := by
  rw [List.replicate_succ']

theorem run_forest (f : Forest) : ∀ (i : Nat), f.Indented i → ∀ (hne : f ≠ .nil) (prev : Prev) (ind below : List Nat) (pre : List Tok),
    preGroup .listItem (i + 2) prev ind = .ok (pre, (i + 2) :: below) →
    ∃ out s prev', runItems (f.flat.map (·.map itemLine)) prev ind = .ok (pre ++ out, prev', s ++ (i + 2) :: below) ∧
      (∀ x ∈ s, i + 2 < x) ∧ out ++ List.replicate s.length (.fake .Dedent) = f.items := by
  induction f with
  | nil => intro i _ h; exact absurd rfl h
  | cons ls kids next ih1 ih2 =>
    intro i hf _ prev ind below pre hpre
    obtain ⟨h1, h2, h3⟩ := hf
    obtain ⟨first, tl, hls, hind⟩ := item_first h1
    -- the item and its nested items
    have hA : ∃ out s prev', runItems ((ls :: kids.flat).map (·.map itemLine)) prev ind =
          .ok (pre ++ (ls.flatten ++ out), prev', s ++ (i + 2) :: below) ∧
        (∀ x ∈ s, i + 2 < x) ∧
        (kids = .nil → s = [] ∧ out = [] ∧ prev' = some (.listItem, some (ls.map itemLine))) ∧
        (kids ≠ .nil → s ≠ [] ∧ out ++ List.replicate s.length (.fake .Dedent) = .fake .Indent :: (kids.items ++ [.fake .Dedent])) := by
      rw [List.map_cons, hls]
      simp only [runItems]
      rw [hind, hpre]
      dsimp only
      rw [← hls, recAddLines_items h1]
      dsimp only
      rcases h2 with rfl | ⟨j, hj, h2⟩
      · refine ⟨[], [], _, ?_, by simp, fun _ => ⟨rfl, rfl, rfl⟩, fun h => absurd rfl h⟩
        simp [Forest.flat, runItems]
      · by_cases hk : kids = .nil
        · subst hk
          refine ⟨[], [], _, ?_, by simp, fun _ => ⟨rfl, rfl, rfl⟩, fun h => absurd rfl h⟩
          simp [Forest.flat, runItems]
        · obtain ⟨out, s, prev', hr, hs, ho⟩ := ih1 j h2 hk (some (.listItem, some (ls.map itemLine)))
            ((i + 2) :: below) ((i + 2) :: below) [.fake .Indent] (by
              unfold preGroup
              rw [if_pos rfl]
              dsimp only
              rw [if_pos (by omega)])
          refine ⟨.fake .Indent :: out, s ++ [j + 2], prev', ?_, ?_, fun h => absurd h hk, fun _ => ⟨by simp, ?_⟩⟩
          · rw [hr]; simp
          · intro x hx
            rcases List.mem_append.1 hx with hx | hx
            · have := hs x hx; omega
            · simp at hx; omega
          · rw [List.length_append, List.length_singleton, replicate_snoc, List.cons_append, ← List.append_assoc, ho]
    obtain ⟨outA, sA, prevA, hrA, hsA, hnil, hcons⟩ := hA
    have hflat : (Forest.cons ls kids next).flat.map (·.map itemLine) =
        (ls :: kids.flat).map (·.map itemLine) ++ next.flat.map (·.map itemLine) := by
      simp [Forest.flat]
    rw [hflat, runItems_append, hrA]
    simp only [Except.bind]
    have hitems : (Forest.cons ls kids next).items = ls.flatten ++ (outA ++ List.replicate sA.length (.fake .Dedent)) ++
        following (separator ls kids) next next.items := by
      rw [Forest.items]
      congr 2
      cases kids with
      | nil => obtain ⟨h, h', _⟩ := hnil rfl; simp [h, h', bracketed]
      | cons a b c => rw [(hcons (by simp)).2]; rfl
    by_cases hn : next = .nil
    · subst hn
      refine ⟨ls.flatten ++ outA, sA, prevA, ?_, hsA, ?_⟩
      · simp [Forest.flat, runItems, Except.map]
      · rw [hitems]; simp [following]
    · have hsep : preGroup .listItem (i + 2) prevA (sA ++ (i + 2) :: below) =
          .ok (List.replicate sA.length (.fake .Dedent) ++ separator ls kids, (i + 2) :: below) := by
        cases kids with
        | nil =>
          obtain ⟨h, h', h''⟩ := hnil rfl
          subst h h''
          obtain ⟨l, hl, hb⟩ := breaks_iff ls i h1
          unfold preGroup
          simp only [if_true, List.nil_append, hl, List.length_nil, List.replicate_zero]
          rw [if_neg (by omega), if_neg (by omega)]
          unfold separator
          by_cases hbr : breaksList ls
          · rw [if_pos (hb.2 hbr), if_pos hbr]
          · rw [if_neg (fun h => hbr (hb.1 h)), if_neg hbr]
        | cons a b c =>
          rw [preGroup_next (i + 2) sA below hsA prevA (hcons (by simp)).1]
          rfl
      obtain ⟨out, s, prev', hr, hs, ho⟩ := ih2 i h3 hn prevA _ below _ hsep
      rw [hr]
      refine ⟨ls.flatten ++ outA ++ (List.replicate sA.length (.fake .Dedent) ++ separator ls kids ++ out), s, prev', ?_, hs, ?_⟩
      · simp [Except.map]
      · rw [hitems]
        cases next with
        | nil => exact absurd rfl hn
        | cons a b c => simp only [List.append_assoc, ho, following]

/-! ## The property -/

/-- **C53.** The stream for a list contains its items in order, with nested lists in their
own brackets after the text of the item that contains them, and separators between the items
of a level. -/
theorem list_structure (f : Forest) (i : Nat) (h : f.Indented i) : regroup f.lines.flatten = .ok f.render := by
  unfold regroup
  have hf := h.flat
  have hw : ∀ l ∈ f.lines, WholeLine l ∧ mkLine l = .ok (itemLine l) := by
    intro l hl
    rw [← f.flat_lines] at hl
    obtain ⟨ls, hls, hl⟩ := List.mem_flatten.1 hl
    obtain ⟨j, hj⟩ := hf ls hls
    exact ⟨hj.1 l hl, mkLine_item hj l hl⟩
  rw [toLines_whole f.lines (fun l hl => (hw l hl).1) (fun l hl => (hw l hl).2)]
  simp only [bind, Except.bind]
  rw [List.length_map, ← f.flat_lines, toGroups_items f.flat hf _ (Nat.le_refl _)]
  dsimp only
  unfold convertGroups
  rw [convertLoop_run]
  cases f with
  | nil => rfl
  | cons a b c =>
    obtain ⟨out, s, prev', hr, hs, ho⟩ := run_forest _ i h (by simp) none [] [] [.fake .Indent] (by
      unfold preGroup; rfl)
    rw [hr]
    simp only [Except.map, Forest.render, bracketed]
    rw [← ho, List.length_append, List.length_singleton, replicate_snoc]
    simp

/-- `- a` with a second line, nested `+ b`, then `- c`. -/
def sampleForest : Forest :=
  .cons [[⟨.LeadingMinus, ['-'], some 0⟩, ⟨.Word, ['a'], some 1⟩, ⟨.Newline, ['\n'], some 2⟩],
      [⟨.LeadingSpace, [' ', ' '], some 3⟩, ⟨.Word, ['x'], some 4⟩, ⟨.Newline, ['\n'], some 5⟩]]
    (.cons [[⟨.LeadingPlus, [' ', ' ', '+'], some 6⟩, ⟨.Word, ['b'], some 7⟩, ⟨.Newline, ['\n'], some 8⟩]] .nil .nil)
    (.cons [[⟨.LeadingMinus, ['-'], some 9⟩, ⟨.Word, ['c'], some 10⟩, ⟨.LongNewline, ['\n', '\n', '\n'], some 11⟩]] .nil
      (.cons [[⟨.LeadingNumber, ['1', '.'], some 12⟩, ⟨.Newline, ['\n'], some 13⟩]] .nil .nil))

example : sampleForest.Indented 0 ∧ sampleForest.render.map (·.kind) =
    [.Indent, .LeadingMinus, .Word, .Newline, .LeadingSpace, .Word, .Newline, .Indent, .LeadingPlus, .Word, .Newline,
      .Dedent, .ListItemEnd, .LeadingMinus, .Word, .LongNewline, .Dedent, .Indent, .LeadingNumber, .Newline, .Dedent] := by
  constructor
  · have w : ∀ (init : List Tok) (last : Tok), (∀ t ∈ init, t.kind ∉ lineEnd) → last.kind ∈ lineEnd → WholeLine (init ++ [last]) :=
      fun init last h1 h2 => ⟨init, last, rfl, h1, h2⟩
    refine ⟨⟨?_, _, _, _, rfl, by decide, by decide, ?_⟩, Or.inr ⟨2, by decide, ⟨?_, _, _, _, rfl, by decide, by decide, by simp⟩, Or.inl rfl, trivial⟩,
      ⟨?_, _, _, _, rfl, by decide, by decide, by simp⟩, Or.inl rfl, ⟨?_, _, _, _, rfl, by decide, by decide, by simp⟩, Or.inl rfl, trivial⟩
    · intro l hl
      simp only [List.mem_cons, List.not_mem_nil, or_false] at hl
      rcases hl with rfl | rfl
      · exact w [_, _] _ (by decide) (by decide)
      · exact w [_, _] _ (by decide) (by decide)
    · intro l hl
      simp only [List.mem_cons, List.not_mem_nil, or_false] at hl
      subst hl
      exact ⟨_, _, _, rfl, rfl, by decide, by decide⟩
    · intro l hl
      simp only [List.mem_cons, List.not_mem_nil, or_false] at hl
      subst hl
      exact w [_, _] _ (by decide) (by decide)
    · intro l hl
      simp only [List.mem_cons, List.not_mem_nil, or_false] at hl
      subst hl
      exact w [_, _] _ (by decide) (by decide)
    · intro l hl
      simp only [List.mem_cons, List.not_mem_nil, or_false] at hl
      subst hl
      exact w [_] _ (by decide) (by decide)
  · decide +kernel

end Verif.Tokenizer
