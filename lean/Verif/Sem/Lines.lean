import Verif.Sem.Spec
import Verif.Layout.Returns

/-!
# The formatter writes the lines of the specification
-/

namespace Verif.Sem
open Verif.Layout

/-- The block is one line with the given text. -/
structure Single (b : Block) (t : List Char) : Prop where
  filled : Filled b
  shows : picture b = some [t]
  solid : hollow b = false

/-- Each block is one line with the corresponding text. -/
inductive Singles : List Block → List (List Char) → Prop where
  | nil : Singles [] []
  | cons {b t bs ts} (h : Single b t) (hs : Singles bs ts) : Singles (b :: bs) (t :: ts)

theorem chars_str (s : List Char) : chars [Piece.str s] = s := by simp [chars, Piece.chars]

theorem single_str (s : List Char) : Single (str s) s :=
  ⟨trivial, by simp [str, picture, shownText, chars_str], rfl⟩

theorem Singles.filled {bs : List Block} {ts : List (List Char)} (h : Singles bs ts) : AllFilled bs := by
  induction h with
  | nil => trivial
  | cons h _ ih => exact ⟨h.filled, ih⟩

theorem Singles.append {as bs : List Block} {ts us : List (List Char)} (h : Singles as ts) (h' : Singles bs us) :
    Singles (as ++ bs) (ts ++ us) := by
  induction h with
  | nil => exact h'
  | cons h _ ih => exact .cons h ih

theorem Singles.row {bs : List Block} {ts : List (List Char)} (h : Singles bs ts) (hne : bs ≠ []) :
    rowPicture bs = some [ts.flatten] := by
  induction h with
  | nil => exact absurd rfl hne
  | @cons b t bs ts h hs ih =>
    cases hs with
    | nil => simp [rowPicture, h.shows, besideO]
    | cons h' hs' =>
      have := ih (by simp)
      rw [rowPicture, h.shows, this]
      simp [besideO, beside]

theorem Singles.line {bs : List Block} {ts : List (List Char)} (h : Singles bs ts) (hne : bs ≠ []) :
    Single (.line bs) ts.flatten := by
  refine ⟨⟨h.filled, fun _ => ?_⟩, ?_, ?_⟩
  · rw [h.row hne]; simp
  · rw [picture, h.row hne]
  · cases bs with
    | nil => exact absurd rfl hne
    | cons => rfl

theorem Singles.added {bs : List Block} {ts : List (List Char)} (h : Singles bs ts) : added bs = bs := by
  induction h with
  | nil => rfl
  | cons h _ ih => rw [Sem.added, List.filter_cons, h.solid]; simpa [Sem.added] using ih

theorem Singles.ne {bs : List Block} {ts : List (List Char)} (h : Singles bs ts) : bs = [] ↔ ts = [] := by
  cases h <;> simp

theorem sepBy_cons (sep t : List Char) (ts : List (List Char)) (h : ts ≠ []) : sepBy sep (t :: ts) = t ++ sep ++ sepBy sep ts := by
  cases ts with
  | nil => exact absurd rfl h
  | cons => rfl

theorem Singles.joined {bs : List Block} {ts : List (List Char)} (h : Singles bs ts) {sep : Block} {u : List Char} (hs : Single sep u) :
    ∃ us, Singles (joined sep bs) us ∧ us.flatten = sepBy u ts ∧ (us = [] ↔ ts = []) := by
  induction h with
  | nil => exact ⟨[], .nil, rfl, by simp⟩
  | @cons b t bs ts h hs' ih =>
    obtain ⟨us, h1, h2, h3⟩ := ih
    cases hs' with
    | nil => exact ⟨[t], .cons h .nil, by simp [sepBy], by simp⟩
    | cons h' hs'' =>
      refine ⟨(t ++ u) :: us, ?_, ?_, by simp⟩
      · refine .cons ?_ h1
        have := Singles.line (.cons h (.cons hs .nil)) (by simp)
        simpa using this
      · rw [List.flatten_cons, h2, sepBy_cons u t _ (by simp)]

theorem allInline_iff (ss : List Sem) : AllInline ss ↔ ∀ s ∈ ss, Inline s := by
  induction ss with
  | nil => simp [AllInline]
  | cons s ss ih => simp [AllInline, ih]

theorem allOutline_iff (ss : List Sem) : AllOutline ss ↔ ∀ s ∈ ss, Outline s := by
  induction ss with
  | nil => simp [AllOutline]
  | cons s ss ih => simp [AllOutline, ih]

/-- A block for a node inside of a line: one line, or (for line breaks) nothing. -/
def Inl (b : Block) (s : Sem) : Prop :=
  if s.isNewline then b = stack [] else Single b (flat s)

/-- The blocks for nodes inside of a line. -/
def Inls : List Block → List Sem → Prop
  | [], [] => True
  | b :: bs, s :: ss => Inl b s ∧ Inls bs ss
  | _, _ => False

theorem flat_newline {s : Sem} (h : s.isNewline = true) : flat s = [] := by
  cases s with
  | leaf k t => cases k <;> simp_all [Sem.isNewline, flat]
  | _ => simp [Sem.isNewline] at h

theorem Inls.filled : ∀ {bs : List Block} {ss : List Sem}, Inls bs ss → AllFilled bs
  | [], [], _ => trivial
  | b :: bs, s :: ss, h => by
    refine ⟨?_, h.2.filled⟩
    have := h.1
    unfold Inl at this
    split at this
    · subst this
      exact ⟨by decide, trivial, by simp⟩
    · exact this.filled

theorem Inls.row : ∀ {bs : List Block} {ss : List Sem}, Inls bs ss → ∀ tail : List Block, ∀ t : List Char,
    rowPicture tail = some [t] → rowPicture (bs ++ tail) = some [flats ss ++ t]
  | [], [], _, tail, t, ht => by simpa [flats] using ht
  | b :: bs, s :: ss, h, tail, t, ht => by
    have ih := h.2.row tail t ht
    have h1 := h.1
    unfold Inl at h1
    rw [List.cons_append, rowPicture, ih]
    split at h1
    · next hn =>
      subst h1
      simp [stack, picture, columnPicture, besideO, flats, flat_newline hn]
    · rw [h1.shows]
      simp [besideO, beside, flats]

theorem Inls.append_filled {bs : List Block} (h : AllFilled bs) {cs : List Block} (h' : AllFilled cs) : AllFilled (bs ++ cs) := by
  induction bs with
  | nil => exact h'
  | cons b bs ih => exact ⟨h.1, ih h.2⟩

/-- Text in marks. -/
theorem Inls.marked {bs : List Block} {ss : List Sem} (h : Inls bs ss) (c : Char) :
    Single (.line (str [c] :: bs ++ [str [c]])) ([c] ++ flats ss ++ [c]) := by
  have hrow : rowPicture (str [c] :: bs ++ [str [c]]) = some [[c] ++ flats ss ++ [c]] := by
    have := h.row [str [c]] [c] (by simp [rowPicture, (single_str [c]).shows, besideO])
    rw [List.cons_append, rowPicture, this, (single_str [c]).shows]
    simp [besideO, beside]
  refine ⟨⟨⟨trivial, Inls.append_filled h.filled ⟨trivial, trivial⟩⟩, fun _ => ?_⟩, ?_, rfl⟩
  · rw [hrow]; simp
  · rw [picture]; exact hrow

mutual

theorem inline_fmt (name : BK → List Char) (s : Sem) (h : Inline s) : Inl (fmt name s) s := by
  match s with
  | .leaf k t =>
    cases k
    case Newline =>
      have h : t = ['\n'] := h
      subst h
      rfl
    case Placeholder =>
      have := Singles.line (.cons (single_str ['<']) (.cons (single_str t) (.cons (single_str ['>']) .nil))) (by simp)
      simpa [Inl, Sem.isNewline, fmt, flat, leafText] using this
    all_goals exact single_str _
  | .tree k subs =>
    have h : mark k ≠ none ∧ AllInline subs := h
    have ih := inline_fmtAll name subs h.2
    cases k
    case Bold => exact ih.marked '*'
    case Italic => exact ih.marked '/'
    case Strike => exact ih.marked '+'
    case Underline => exact ih.marked '_'
    case Monospace => exact ih.marked '~'
    case Verbatim => exact ih.marked '='
    all_goals exact absurd rfl h.1
  | .item .. => exact h.elim
  | .head .. => exact h.elim

theorem inline_fmtAll (name : BK → List Char) (ss : List Sem) (h : AllInline ss) : Inls (fmtAll name ss) ss := by
  match ss with
  | [] => trivial
  | s :: ss => exact ⟨inline_fmt name s h.1, inline_fmtAll name ss h.2⟩

end

/-- A picture of lines. -/
def box : List (List Char) → Option Box
  | [] => none
  | ls => some ls

theorem box_append (a b : List (List Char)) : aboveO (box a) (box b) = box (a ++ b) := by
  cases a <;> cases b <;> simp [box, aboveO]

theorem box_eq_none {a : List (List Char)} : box a = none ↔ a = [] := by
  cases a <;> simp [box]

/-- The block shows these lines; it is empty only if there are none. -/
structure ShowsLines (b : Block) (ls : List (List Char)) : Prop where
  filled : Filled b
  shows : picture b = box ls
  solid : hollow b = true ↔ ls = []

theorem Single.lines {b : Block} {t : List Char} (h : Single b t) : ShowsLines b [t] :=
  ⟨h.filled, h.shows, by simp [h.solid]⟩

/-- Each block shows the corresponding lines. -/
inductive AllLines : List Block → List (List (List Char)) → Prop where
  | nil : AllLines [] []
  | cons {b l bs ls} (h : ShowsLines b l) (hs : AllLines bs ls) : AllLines (b :: bs) (l :: ls)

theorem AllLines.added {bs : List Block} {ls : List (List (List Char))} (h : AllLines bs ls) :
    ∃ ls', AllLines (added bs) ls' ∧ ls'.flatten = ls.flatten ∧ ∀ l ∈ ls', l ≠ [] := by
  induction h with
  | nil => exact ⟨[], .nil, rfl, by simp⟩
  | @cons b l bs ls h _ ih =>
    obtain ⟨ls', h1, h2, h3⟩ := ih
    by_cases hl : l = []
    · refine ⟨ls', ?_, by simp [h2, hl], h3⟩
      rw [Sem.added, List.filter_cons, h.solid.mpr hl]
      exact h1
    · refine ⟨l :: ls', ?_, by simp [h2], by simpa using ⟨hl, h3⟩⟩
      have : hollow b = false := by
        cases hb : hollow b with
        | false => rfl
        | true => exact absurd (h.solid.mp hb) hl
      rw [Sem.added, List.filter_cons, this]
      exact .cons h h1

theorem AllLines.column {bs : List Block} {ls : List (List (List Char))} (h : AllLines bs ls) :
    columnPicture bs = box ls.flatten ∧ AllFilled bs := by
  induction h with
  | nil => exact ⟨rfl, trivial⟩
  | @cons b l bs ls h _ ih =>
    refine ⟨?_, h.filled, ih.2⟩
    rw [columnPicture, h.shows, ih.1, box_append, List.flatten_cons]

theorem AllLines.last {bs : List Block} {ls : List (List (List Char))} (h : AllLines bs ls) (hne : ∀ l ∈ ls, l ≠ []) :
    ∀ b, bs.getLast? = some b → picture b ≠ none := by
  induction h with
  | nil => simp
  | @cons b l bs ls h hs ih =>
    intro b' hb'
    cases hs with
    | nil =>
      simp only [List.getLast?_singleton, Option.some.injEq] at hb'
      subst hb'
      rw [h.shows, ne_eq, box_eq_none]
      exact hne l (by simp)
    | cons h' hs' =>
      rw [List.getLast?_cons_cons] at hb'
      exact ih (fun l hl => hne l (List.mem_cons_of_mem _ hl)) b' hb'

/-- A stack of blocks which all show something. -/
theorem AllLines.stack {bs : List Block} {ls : List (List (List Char))} (h : AllLines bs ls) (hne : ∀ l ∈ ls, l ≠ []) :
    ShowsLines (stack bs) ls.flatten := by
  obtain ⟨h1, h2⟩ := h.column
  refine ⟨⟨by decide, h2, h.last hne⟩, by rw [Sem.stack, picture, h1], ?_⟩
  cases h with
  | nil => simp [Sem.stack, hollow]
  | cons h' hs =>
    simp only [Sem.stack, hollow, Bool.false_eq_true, false_iff]
    intro he
    have := hne _ List.mem_cons_self
    simp at he
    exact this he.1

/-- A stack of the blocks which are not empty. -/
theorem AllLines.addedStack {bs : List Block} {ls : List (List (List Char))} (h : AllLines bs ls) :
    ShowsLines (Sem.stack (Sem.added bs)) ls.flatten := by
  obtain ⟨ls', h1, h2, h3⟩ := h.added
  rw [← h2]
  exact h1.stack h3

/-- The blocks of a line. -/
theorem Inls.zip_chunks : ∀ {bs : List Block} {ss : List Sem}, Inls bs ss →
    AllLines ((splitNewlines (ss.zip bs)).map lineOf) ((chunks ss).map fun l => if l.isEmpty then [] else [flats l]) ∧
    ∃ b l bs' ls', splitNewlines (ss.zip bs) = b :: bs' ∧ chunks ss = l :: ls' ∧ Singles b (l.map flat)
  | [], [], _ => by
    refine ⟨.cons ⟨⟨trivial, by simp [Sem.added]⟩, rfl, by simp [lineOf, Sem.added, hollow]⟩ .nil, ?_⟩
    exact ⟨[], [], [], [], rfl, rfl, .nil⟩
  | b :: bs, s :: ss, h => by
    obtain ⟨ih, b1, l1, bs1, ls1, e1, e2, hS⟩ := h.2.zip_chunks
    have h1 := h.1
    unfold Inl at h1
    split at h1
    · next hn =>
      have hs : splitNewlines ((s, b) :: ss.zip bs) = [] :: splitNewlines (ss.zip bs) := by
        cases s with
        | leaf k t => cases k <;> simp_all [Sem.isNewline, splitNewlines]
        | _ => simp [Sem.isNewline] at hn
      refine ⟨?_, [], [], splitNewlines (ss.zip bs), chunks ss, ?_, ?_, .nil⟩
      · rw [List.zip_cons_cons, hs, chunks, if_pos hn]
        exact .cons ⟨⟨trivial, by simp [Sem.added]⟩, rfl, by simp [lineOf, Sem.added, hollow]⟩ ih
      · rw [List.zip_cons_cons, hs]
      · rw [chunks, if_pos hn]
    · next hn =>
      have hs : splitNewlines ((s, b) :: ss.zip bs) = (b :: b1) :: bs1 := by
        rw [splitNewlines.eq_def]
        simp only
        rw [e1]
        cases s with
        | leaf k t => cases k <;> simp_all [Sem.isNewline]
        | _ => rfl
      have hc : chunks (s :: ss) = (s :: l1) :: ls1 := by
        rw [chunks, if_neg hn, e2]
      have hS' : Singles (b :: b1) ((s :: l1).map flat) := .cons h1 hS
      have hfl : ∀ l : List Sem, (l.map flat).flatten = flats l := by
        intro l
        induction l with
        | nil => rfl
        | cons s l ih => simp [flats, ih]
      refine ⟨?_, b :: b1, s :: l1, bs1, ls1, by rw [List.zip_cons_cons, hs], hc, hS'⟩
      rw [List.zip_cons_cons, hs, hc]
      rw [e1, e2] at ih
      cases ih with
      | cons _ ih =>
        refine .cons ?_ ih
        have := (hS'.line (by simp)).lines
        rw [hfl] at this
        rw [lineOf, hS'.added]
        simpa using this

theorem chunks_lines (cs : List (List Sem)) :
    (cs.map fun l => if l.isEmpty then [] else [flats l]).flatten = (cs.filter fun l => !l.isEmpty).map flats := by
  induction cs with
  | nil => rfl
  | cons c cs ih => cases c <;> rw [List.map_cons, List.flatten_cons, ih] <;> simp

/-- A paragraph. -/
theorem paragraph_lines (name : BK → List Char) (subs : List Sem) (h : AllInline subs) :
    ShowsLines (paragraph subs (fmtAll name subs)) (parLines subs) := by
  have := (inline_fmtAll name subs h).zip_chunks.1.addedStack
  rw [chunks_lines] at this
  exact this

theorem beside_single (p : List Char) (ls : List (List Char)) : besideO (some [p]) (box ls) = some (hang p ls) := by
  cases ls with
  | nil => simp [box, besideO, hang]
  | cons l r => simp [box, besideO, beside, hang]

theorem hang_ne (p : List Char) (ls : List (List Char)) : hang p ls ≠ [] := by
  cases ls <;> simp [hang]

/-- A text and a block beside it. -/
theorem hang_lines {b b' : Block} {p : List Char} {ls : List (List Char)} (h : Single b p) (h' : ShowsLines b' ls) :
    ShowsLines (.line [b, b']) (hang p ls) := by
  have hrow : rowPicture [b, b'] = some (hang p ls) := by
    rw [rowPicture, rowPicture, rowPicture, h.shows, h'.shows]
    rw [show besideO (box ls) none = box ls by cases ls <;> rfl, beside_single]
  refine ⟨⟨⟨h.filled, h'.filled, trivial⟩, fun _ => by rw [hrow]; simp⟩, ?_, ?_⟩
  · rw [picture, hrow]
    cases hc : hang p ls with
    | nil => exact absurd hc (hang_ne _ _)
    | cons => rfl
  · simp [hollow, hang_ne]

theorem chunks_single : ∀ {ss : List Sem}, (∀ s ∈ ss, s.isNewline = false) → chunks ss = [ss]
  | [], _ => rfl
  | s :: ss, h => by
    rw [chunks, if_neg (by simp [h s (by simp)]), chunks_single (fun s hs => h s (List.mem_cons_of_mem _ hs))]

/-- A title. -/
theorem title_single (name : BK → List Char) (title : List Sem) (hne : title ≠ []) (h : AllInline title)
    (hn : ∀ s ∈ title, s.isNewline = false) : Single (paragraph title (fmtAll name title)) (flats title) := by
  have := paragraph_lines name title h
  have e : parLines title = [flats title] := by
    rw [parLines, chunks_single hn]
    cases title with
    | nil => exact absurd rfl hne
    | cons => simp
  rw [e] at this
  refine ⟨this.filled, this.shows, ?_⟩
  cases hb : hollow (paragraph title (fmtAll name title)) with
  | false => rfl
  | true => simpa using this.solid.mp hb

theorem singles_map {α : Type} (f : α → List Char) (l : List α) : Singles (l.map fun a => str (f a)) (l.map f) := by
  induction l with
  | nil => exact .nil
  | cons a l ih => exact .cons (single_str _) ih

theorem sepBy_nested (sep : List Char) (xs ys : List (List Char)) (h : ys ≠ []) : sepBy sep (xs ++ [sepBy sep ys]) = sepBy sep (xs ++ ys) := by
  induction xs with
  | nil => rfl
  | cons x xs ih => rw [List.cons_append, sepBy_cons _ _ _ (by simp), List.cons_append, sepBy_cons _ _ _ (by simp [h]), ih]

/-- The tags, without the first and the last colon. -/
theorem tagParts_singles (info : HeadInfo) :
    ∃ ts, Singles (tagParts info) ts ∧ sepBy [':'] ts = sepBy [':'] ((if info.archived then [archiveTag] else []) ++ info.tags) ∧
      (ts = [] ↔ (if info.archived then [archiveTag] else []) ++ info.tags = []) := by
  have ha : Singles (if info.archived then [str archiveTag] else []) (if info.archived then [archiveTag] else []) := by
    split
    · exact .cons (single_str _) .nil
    · exact .nil
  unfold tagParts
  by_cases ht : info.tags = []
  · refine ⟨if info.archived then [archiveTag] else [], ?_, by simp [ht], by simp [ht]⟩
    simpa [ht] using ha
  · obtain ⟨us, j1, j2, j3⟩ := (singles_map (fun a => a) info.tags).joined (single_str [':'])
    simp only [List.map_id'] at j1 j2 j3
    have hus : us ≠ [] := fun h => ht (j3.mp h)
    have hln := j1.line (by rw [ne_eq, j1.ne]; exact hus)
    rw [j2] at hln
    refine ⟨_, ha.append (ts := _) (us := [sepBy [':'] info.tags]) ?_, sepBy_nested _ _ _ ht, by simp [ht]⟩
    rw [if_neg (by simpa using ht)]
    exact .cons hln .nil

theorem headParts_singles (info : HeadInfo) {b : Block} {t : List Char} (h : Single b t) :
    Singles (headParts info [b])
      (info.todo.toList ++ (if info.comment then [commentWord] else []) ++
        (info.priority.toList.map fun p => "[#".toList ++ p ++ "]".toList) ++ [t] ++ tagsText info) := by
  unfold headParts
  refine Singles.append (Singles.append (Singles.append (Singles.append ?_ ?_) ?_) (.cons h .nil)) ?_
  · simpa using singles_map (fun a => a) info.todo.toList
  · split
    · exact .cons (single_str _) .nil
    · exact .nil
  · exact singles_map _ _
  · unfold tagsText
    obtain ⟨ts, h1, h2, h3⟩ := tagParts_singles info
    generalize (if info.archived then [archiveTag] else []) ++ info.tags = us at h2 h3
    by_cases hts : ts = []
    · rw [h3.mp hts, (h1.ne).mpr hts]
      exact .nil
    · have hp : tagParts info ≠ [] := fun h => hts (h1.ne.mp h)
      obtain ⟨vs, k1, k2, k3⟩ := h1.joined (single_str [':'])
      have hl2 := k1.line (by rw [ne_eq, k1.ne, k3]; exact hts)
      rw [k2, h2] at hl2
      rw [if_neg (by simpa using hp)]
      have hfin := Singles.line (.cons (single_str [':']) (.cons hl2 (.cons (single_str [':']) .nil))) (by simp)
      cases us with
      | nil => exact absurd (h3.mpr rfl) hts
      | cons x xs =>
        refine .cons ?_ .nil
        simpa using hfin

/-- The first line of a headline. -/
theorem headFirst_single (name : BK → List Char) (info : HeadInfo) (title : List Sem) (hne : title ≠ []) (h : AllInline title)
    (hn : ∀ s ∈ title, s.isNewline = false) :
    Single (.line (added [.line (joined (str [' ']) (headParts info [paragraph title (fmtAll name title)]))])) (headLine info title) := by
  have h1 := headParts_singles info (title_single name title hne h hn)
  obtain ⟨us, j1, j2, j3⟩ := h1.joined (single_str [' '])
  have hus : us ≠ [] := fun h => by simpa using j3.mp h
  have hl := j1.line (by rw [ne_eq, j1.ne]; exact hus)
  rw [j2] at hl
  have hS : Singles [.line (joined (str [' ']) (headParts info [paragraph title (fmtAll name title)]))] _ := .cons hl .nil
  rw [hS.added]
  simpa [headLine] using hS.line (by simp)

theorem Inl.lines {b : Block} {s : Sem} (h : Inl b s) (hn : s.isNewline = false) : ShowsLines b [flat s] := by
  unfold Inl at h
  rw [if_neg (by simp [hn])] at h
  exact h.lines

theorem outline_leaf {k : LK} {t : List Char} (hk : k ≠ .Newline) (h : Outline (.leaf k t)) :
    Inline (.leaf k t) ∧ lines (.leaf k t) = [flat (.leaf k t)] := by
  cases k <;> first | exact absurd rfl hk | (refine ⟨?_, ?_⟩ <;> simp_all [Inline, Outline, lines, flat])

theorem outline_tree {k : BK} {subs : List Sem} (h1 : k ≠ .Paragraph) (h2 : k ≠ .List) (h : Outline (.tree k subs)) :
    Inline (.tree k subs) ∧ lines (.tree k subs) = [flat (.tree k subs)] := by
  cases k <;> first | exact absurd rfl h1 | exact absurd rfl h2 | (refine ⟨?_, ?_⟩ <;> simp_all [Inline, Outline, lines, flat])

theorem leaf_lines (name : BK → List Char) {k : LK} {t : List Char} (hk : k ≠ .Newline) (h : Outline (.leaf k t)) :
    ShowsLines (fmt name (.leaf k t)) (lines (.leaf k t)) := by
  obtain ⟨h1, h2⟩ := outline_leaf hk h
  rw [h2]
  exact (inline_fmt name _ h1).lines (by cases k <;> first | exact absurd rfl hk | rfl)

theorem tree_lines (name : BK → List Char) {k : BK} {subs : List Sem} (h1 : k ≠ .Paragraph) (h2 : k ≠ .List)
    (h : Outline (.tree k subs)) : ShowsLines (fmt name (.tree k subs)) (lines (.tree k subs)) := by
  obtain ⟨h3, h4⟩ := outline_tree h1 h2 h
  rw [h4]
  exact (inline_fmt name _ h3).lines rfl

/-- A header and the first node of an item. -/
theorem described_lines {p b : Block} {t u : List Char} {ls : List (List Char)} (h : Single p t) (hb : ShowsLines b ls) :
    ShowsLines (.line (added [p, str u, b])) (hang (t ++ u) ls) := by
  have hs := single_str u
  cases hh : hollow b with
  | true =>
    rw [hb.solid.mp hh]
    have : added [p, str u, b] = [p, str u] := by
      simp [added, h.solid, hs.solid, hh]
    rw [this]
    simpa [hang] using (Singles.line (.cons h (.cons hs .nil)) (by simp)).lines
  | false =>
    have : added [p, str u, b] = [p, str u, b] := by
      simp [added, h.solid, hs.solid, hh]
    rw [this]
    have hne : ls ≠ [] := fun e => by simp [hb.solid.mpr e] at hh
    obtain ⟨l, r, rfl⟩ := List.exists_cons_of_ne_nil hne
    have hrow : rowPicture [p, str u, b] = some (hang (t ++ u) (l :: r)) := by
      rw [rowPicture, rowPicture, rowPicture, rowPicture, h.shows, hs.shows, hb.shows]
      simp [box, besideO, beside, hang, blanks, ← List.append_assoc, List.replicate_append_replicate]
    refine ⟨⟨⟨h.filled, hs.filled, hb.filled, trivial⟩, fun _ => by rw [hrow]; simp⟩, ?_, ?_⟩
    · rw [picture, hrow]
      rfl
    · simp [hollow, hang_ne]

mutual

theorem outline_fmt (name : BK → List Char) (s : Sem) (h : Outline s) : ShowsLines (fmt name s) (lines s) := by
  match s with
  | .leaf k t =>
    cases k
    case Newline =>
      have hS : ∀ n, AllLines (List.replicate n (str [])) (List.replicate n [[]]) := by
        intro n
        induction n with
        | zero => exact .nil
        | succ n ih => exact .cons (single_str []).lines ih
      have := (hS (t.length - 1)).addedStack
      simpa [fmt, lines] using this
    all_goals exact leaf_lines name (by decide) h
  | .tree k subs =>
    cases k
    case Paragraph => exact paragraph_lines name subs h
    case List =>
      obtain ⟨ls, h1, h2⟩ := outline_fmtAll name subs h
      rw [lines, ← h2]
      exact h1.addedStack
    all_goals exact tree_lines name (by decide) (by decide) h
  | .item info header subs =>
    obtain ⟨hd, -, hs⟩ := h
    cases he : info.described with
    | false =>
      obtain ⟨ls, h1, h2⟩ := outline_fmtAll name subs hs
      have e : lines (.item info header subs) = hang (bulletText info) (linesAll subs) := by
        cases subs <;> simp [lines, linesAll, he]
      rw [e, fmt, he]
      simp only [Bool.false_eq_true, if_false]
      rw [← h2]
      exact hang_lines (single_str _) h1.addedStack
    | true =>
      obtain ⟨k1, k2, k3, k4⟩ := hd he
      match subs with
      | [] => exact absurd rfl k4
      | s :: ss =>
        obtain ⟨ls, h1, h2⟩ := outline_fmtAll name ss hs.2
        have h0 := outline_fmt name s hs.1
        have ht := title_single name header k1 k2 k3
        rw [lines, fmt, he]
        simp only [if_true, fmtAll]
        refine hang_lines (single_str _) ?_
        have := (AllLines.cons (described_lines (u := " :: ".toList) ht h0) (.cons (single_str []).lines h1)).addedStack
        simpa [h2] using this
  | .head info title subs =>
    obtain ⟨-, -, -, hne, hi, hn, hs⟩ := h
    obtain ⟨ls, h1, h2⟩ := outline_fmtAll name subs hs
    have hts : title.isEmpty = false := by
      cases title with
      | nil => exact absurd rfl hne
      | cons => rfl
    have hf := headFirst_single name info title hne hi hn
    have hst : Single (Sem.stack [.line (added [.line (joined (str [' ']) (headParts info [paragraph title (fmtAll name title)]))])])
        (headLine info title) := by
      have := (AllLines.cons hf.lines .nil).stack (by simp)
      refine ⟨this.filled, by simpa [box] using this.shows, rfl⟩
    have hline := Singles.line (.cons (single_str (List.replicate info.level '*')) (.cons (single_str [' ']) (.cons hst .nil))) (by simp)
    simp only [List.flatten_cons, List.flatten_nil, List.append_nil, List.singleton_append] at hline
    simp only [lines, fmt, hts, Bool.false_eq_true, if_false]
    cases subs with
    | nil =>
      have := (AllLines.cons hline.lines .nil).stack (by simp)
      simpa using this
    | cons s ss =>
      obtain ⟨ls', k1, k2, k3⟩ := h1.added
      have := (AllLines.cons hline.lines (.cons (single_str []).lines k1)).stack (by simpa using k3)
      rw [← h2]
      simpa [k2] using this

theorem outline_fmtAll (name : BK → List Char) (ss : List Sem) (h : AllOutline ss) :
    ∃ ls, AllLines (fmtAll name ss) ls ∧ ls.flatten = linesAll ss := by
  match ss with
  | [] => exact ⟨[], .nil, rfl⟩
  | s :: ss =>
    obtain ⟨ls, h1, h2⟩ := outline_fmtAll name ss h.2
    exact ⟨lines s :: ls, .cons (outline_fmt name s h.1) h1, by simp [linesAll, h2]⟩

end

end Verif.Sem
