import Verif.Sem.OutlineLines
import Verif.Sem.Props

/-!
# Properties C80–C82: outlines read, and written again
-/

namespace Verif.Sem
open Verif.Token Verif.NodeGroup Verif.NodeGroup.Spec
open Verif.Layout (Options Sane exact defaults joinLines)
open Verif.Pipeline (Piece render Pars Chunk Mark Entry Joined JoinedFrom)
open Verif.BaseLexer (stdLex)

/-! ## C80: reading headlines -/

/-- **C80**.  A document written with headlines is read as these headlines: with their levels, keywords, priorities, titles and tags, the
text below each of them, and nested as they were. -/
theorem outline_loaded (pre : Pars) (s : Secs) (hs : s.Nested) (hj : Joined (Pipeline.Outline.chunks ⟨pre, s.entries⟩))
    (hf : Pipeline.Outline.Fine ⟨pre, s.entries⟩) (hp : ∀ e ∈ s.entries, e.Plain) (n : Nat)
    (hn : (Pipeline.Outline.chunks ⟨pre, s.entries⟩).length + 4 ≤ n) :
    load stdLex n (Pipeline.written (Pipeline.Outline.chunks ⟨pre, s.entries⟩)) = .ok (pre.sems ++ s.sems) := by
  rw [load_outline ⟨pre, s.entries⟩ hj hf hp hn, Pipeline.Outline.sems, sections_nested s hs]

/-- Every document with headlines is written from nested headlines. -/
theorem nested_exists (n : Nat) : ∀ es : List Entry, es.length ≤ n → ∃ s : Secs, s.entries = es ∧ s.Nested := by
  induction n with
  | zero =>
    intro es h
    obtain rfl : es = [] := List.length_eq_zero_iff.mp (by omega)
    exact ⟨.nil, rfl, trivial⟩
  | succ n ih =>
    intro es h
    cases es with
    | nil => exact ⟨.nil, rfl, trivial⟩
    | cons e r =>
      have ht := Pipeline.takeWhile_le (Pipeline.below e.level) r
      have hd := Pipeline.dropWhile_le (Pipeline.below e.level) r
      simp only [List.length_cons] at h
      obtain ⟨s1, h1, k1⟩ := ih (r.takeWhile (Pipeline.below e.level)) (by omega)
      obtain ⟨s2, h2, k2⟩ := ih (r.dropWhile (Pipeline.below e.level)) (by omega)
      refine ⟨.sec e s1 s2, by rw [Secs.entries, h1, h2, List.takeWhile_append_dropWhile], ?_, ?_, k1, k2⟩
      · intro x hx
        rw [h1] at hx
        simpa [Pipeline.below] using List.mem_takeWhile_imp hx
      · intro x hx
        rw [h2] at hx
        have := List.head?_dropWhile_not (Pipeline.below e.level) r
        cases hdw : r.dropWhile (Pipeline.below e.level) with
        | nil => rw [hdw] at hx; cases hx
        | cons z l =>
          rw [hdw] at hx this
          cases hx
          simpa [Pipeline.below] using this

/-! ## C81, C82: writing them again -/

/-- Before the headlines. -/
theorem pre_prose {d : Pipeline.Outline} (hj : Joined d.chunks) : Pipeline.Prose d.pre.pieces :=
  prose_of_joined (starry_entries d.entries) hj

theorem entries_joined {d : Pipeline.Outline} (hj : Joined d.chunks) : ∃ bol, JoinedFrom bol (d.entries.flatMap Entry.chunks) :=
  ⟨_, Pipeline.joined_append hj⟩

theorem written_outline (d : Pipeline.Outline) :
    Pipeline.written d.chunks = render d.pre.pieces ++ Pipeline.written (d.entries.flatMap Entry.chunks) := by
  rw [Pipeline.Outline.chunks, written_append, written_txt]

/-- What is written for an outline. -/
theorem outline_lines (o : Options Rat) (ho : Sane o) (name : BK → List Char) (d : Pipeline.Outline) (hj : Joined d.chunks) (hf : d.Fine)
    (hp : ∀ e ∈ d.entries, e.Plain) (hsize : (Pipeline.written d.chunks).length < 25000000) (n : Nat) (hn : d.chunks.length + 4 ≤ n)
    (fuel : Nat) (hfuel : 4097 ≤ fuel) :
    resave stdLex n exact o fuel name (Pipeline.written d.chunks) = .ok (textOf (linesAll d.sems)) := by
  obtain ⟨p1, p2, -, -⟩ := pars_doc d.pre (pre_prose hj) hf.1
  obtain ⟨bol, he⟩ := entries_joined hj
  obtain ⟨e1, e2⟩ := entries_ok d.entries he hf.2
  have hall : AllOutline d.sems := by
    rw [allOutline_iff]
    intro s hs
    rcases List.mem_append.mp hs with hs | hs
    · exact (allOutline_iff _).mp p1 s hs
    · exact (allOutline_iff _).mp e1 s hs
  have hsz : sizes d.sems < 1000000000 := by
    rw [Pipeline.Outline.sems, sizes_append]
    rw [written_outline, List.length_append] at hsize
    omega
  unfold resave
  rw [load_outline d hj hf hp hn]
  simp only [format_writes o ho name _ hall hsz fuel hfuel]

/-- **C81**, in full: a document with headlines is read and written again with all its visible characters, in their order. -/
def OutlineTextStatement : Prop :=
  ∀ (o : Options Rat), Sane o → ∀ (name : BK → List Char) (d : Pipeline.Outline), Joined d.chunks → d.Fine →
    (Pipeline.written d.chunks).length < 25000000 → ∀ n, d.chunks.length + 4 ≤ n → ∀ fuel, 4097 ≤ fuel →
    ∃ out, resave stdLex n exact o fuel name (Pipeline.written d.chunks) = .ok out ∧ visible out = visible (Pipeline.written d.chunks)

/-- **C81**.  A document with headlines is read and written again with all its visible characters, in their order.  Missing: headlines
with the tag `ARCHIVE` after other tags, for which it is false, and comments. -/
theorem outline_keeps_text_partial (o : Options Rat) (ho : Sane o) (name : BK → List Char) (d : Pipeline.Outline) (hj : Joined d.chunks) (hf : d.Fine)
    (hp : ∀ e ∈ d.entries, e.Plain) (ha : ∀ e ∈ d.entries, Pipeline.archive ∉ e.tags.tail) (hsize : (Pipeline.written d.chunks).length < 25000000)
    (n : Nat) (hn : d.chunks.length + 4 ≤ n) (fuel : Nat) (hfuel : 4097 ≤ fuel) :
    ∃ out, resave stdLex n exact o fuel name (Pipeline.written d.chunks) = .ok out ∧ visible out = visible (Pipeline.written d.chunks) := by
  refine ⟨_, outline_lines o ho name d hj hf hp hsize n hn fuel hfuel, ?_⟩
  obtain ⟨-, -, p3, -⟩ := pars_doc d.pre (pre_prose hj) hf.1
  obtain ⟨bol, he⟩ := entries_joined hj
  rw [visible_textOf, Pipeline.Outline.sems, linesAll_append, List.flatten_append, visible_append, p3, sections_lines _ _ le_rfl,
    row_visible d.entries he hf.2 ha, written_outline, visible_append]

/-- **C82**, in full: a document with headlines is written as it was read, apart from the line break at the end. -/
def OutlineExactStatement : Prop :=
  ∀ (o : Options Rat), Sane o → ∀ (name : BK → List Char) (d : Pipeline.Outline), Joined d.chunks → d.Fine →
    (Pipeline.written d.chunks).length < 25000000 → ∀ n, d.chunks.length + 4 ≤ n → ∀ fuel, 4097 ≤ fuel →
    resave stdLex n exact o fuel name (Pipeline.written d.chunks) = .ok (dropNl (Pipeline.written d.chunks))

/-- **C82**.  A document with headlines in normal form is written as it was read, apart from the line break at the end.  In normal form there are
single spaces between the parts of a headline, and one empty line between a headline and what is below it.  Missing: other spacing, for which it is
false. -/
theorem outline_exact_partial (o : Options Rat) (ho : Sane o) (name : BK → List Char) (d : Pipeline.Outline) (hj : Joined d.chunks) (hf : d.Fine)
    (hp : ∀ e ∈ d.entries, e.Plain) (hneat : Pipeline.EntriesNeat d.entries) (ht : Tidy (Pipeline.written d.chunks)) (hpre : Unbroken d.pre.sems)
    (hbody : ∀ e ∈ d.entries, Unbroken e.body.sems) (hsize : (Pipeline.written d.chunks).length < 25000000)
    (n : Nat) (hn : d.chunks.length + 4 ≤ n) (fuel : Nat) (hfuel : 4097 ≤ fuel) :
    resave stdLex n exact o fuel name (Pipeline.written d.chunks) = .ok (dropNl (Pipeline.written d.chunks)) := by
  rw [outline_lines o ho name d hj hf hp hsize n hn fuel hfuel]
  congr 1
  obtain ⟨bol, he⟩ := entries_joined hj
  have hw := written_outline d
  have hlast : (Pipeline.written (d.entries.flatMap Entry.chunks)).getLast? ≠ some ' ' := by
    intro h
    apply ht.last
    rw [hw, getLast?_or, h]
    rfl
  have hrow := row_exact d.entries he hf.2 hneat hbody (fun h => ht.inside (by rw [hw]; exact h.trans (List.suffix_append _ _).isInfix)) hlast
  have hwne : d.entries ≠ [] → Pipeline.written (d.entries.flatMap Entry.chunks) ≠ [] := by
    intro h
    cases hd : d.entries with
    | nil => exact absurd hd h
    | cons x r => simp [Entry.chunks, written_cons, Chunk.text, List.replicate_succ]
  have hun : unl (linesAll d.sems) = closed (Pipeline.written d.chunks) := by
    rw [Pipeline.Outline.sems, linesAll_append, unl_append, sections_lines _ _ le_rfl, hrow, hw]
    by_cases hpe : d.pre.pieces = []
    · have : d.pre = .nil := by
        cases hd : d.pre with
        | nil => rfl
        | brk n r => rw [hd] at hpe; cases hpe
        | par t r =>
          have hfp := hf.1
          rw [hd] at hfp hpe
          obtain ⟨p, hp, -⟩ := hfp.1
          simp only [Pars.pieces, List.append_eq_nil_iff] at hpe
          rw [hpe.1] at hp
          cases hp
      rw [this]
      rfl
    · have hend : d.entries ≠ [] → (render d.pre.pieces).getLast? = some '\n' := by
        intro h
        cases hd : d.entries with
        | nil => exact absurd hd h
        | cons x r =>
          have := hj
          rw [Joined, Pipeline.Outline.chunks, hd, List.flatMap_cons, Entry.chunks, List.cons_append] at this
          exact starry_last this hpe
      have hrne : render d.pre.pieces ≠ [] := by
        cases hps : d.pre.pieces with
        | nil => exact absurd hps hpe
        | cons p ps =>
          have hv := (pre_prose hj)
          rw [hps] at hv
          by_cases hb : p.isBrk = true
          · cases p <;> first | (cases hb; done) | simp [render, Piece.text]
          · have := (piece_line hv.1 (by simpa using hb)).1
            rw [render_cons]
            simp [this]
      have htp : Tidy (render d.pre.pieces) := by
        refine ⟨?_, fun h => ht.inside (by rw [hw]; exact h.trans (List.prefix_append _ _).isInfix), ?_⟩
        · intro h
          apply ht.start
          rw [hw, List.head?_append, h]
          rfl
        · by_cases hd : d.entries = []
          · have := ht.last
            rw [hw, hd] at this
            simpa [Pipeline.written] using this
          · rw [hend hd]; simp
      rw [pars_closed (pre_prose hj) hf.1 htp hpre hpe]
      by_cases hd : d.entries = []
      · rw [hd]
        simp [Pipeline.written, closed]
      · rw [closed_append _ _ (hwne hd), closed_nl (hend hd)]
  have hjoin : joinLines (linesAll d.sems) = dropNl (Pipeline.written d.chunks) := by
    by_cases hW : Pipeline.written d.chunks = []
    · rw [hW, show closed [] = [] from rfl] at hun
      have : linesAll d.sems = [] := by
        cases hL : linesAll d.sems with
        | nil => rfl
        | cons l ls => rw [hL] at hun; simp [unl] at hun
      rw [this, hW]
      rfl
    · have hL : linesAll d.sems ≠ [] := by
        intro hL
        rw [hL, closed, if_neg hW] at hun
        simp [unl] at hun
      rw [unl_join hL, closed, if_neg hW] at hun
      exact List.append_cancel_right hun
  have hi : ¬ [' ', '\n'] <:+: dropNl (Pipeline.written d.chunks) := fun hi => ht.inside (hi.trans (dropNl_prefix _).isInfix)
  rw [textOf_tidy _ (by rw [hjoin]; exact hi) (by rw [hjoin]; exact dropNl_last ht), hjoin]

/-! ## A document to which the theorems apply -/

/-- Three headlines: `TODO [#A] Buy *tea*` with a tag and text, `Sub` below it, and `Next`. -/
def exBuy : Entry :=
  ⟨0, 0, .keyword "TODO".toList 0 'A' 0, .piece (.word "Buy".toList) (.piece (.gap 0) (.bold (.piece (.word "tea".toList) .nil) (.piece (.gap 0) .nil))),
    ["shop".toList], some 1, .par (.piece (.word "Now".toList) (.piece (.glyph ['.']) .nil)) (.brk 1 .nil)⟩

def exSub : Entry := ⟨1, 0, .none, .piece (.word "Sub".toList) .nil, [], some 0, .nil⟩

def exNext : Entry := ⟨0, 0, .none, .piece (.word "Next".toList) (.piece (.gap 0) .nil), ["x".toList], some 0, .nil⟩

def exPre : Pars := .par (.piece (.word "Go".toList) (.piece (.glyph ['.']) .nil)) (.brk 1 .nil)

def exSecs : Secs := .sec exBuy (.sec exSub .nil .nil) (.sec exNext .nil .nil)

def exDoc : Pipeline.Outline := ⟨exPre, exSecs.entries⟩

def exText : String := "Go.\n\n* TODO [#A] Buy *tea* :shop:\n\nNow.\n\n** Sub\n* Next :x:\n"

theorem exDoc_text : Pipeline.written exDoc.chunks = exText.toList := by decide +kernel

theorem exDoc_joined : Joined exDoc.chunks := by
  have w1 : Pipeline.IsWord ['G', 'o'] := Pipeline.word_of_letters _ (by simp) (by decide) (by decide) (by decide)
  have w2 : Pipeline.IsWord ['T', 'O', 'D', 'O'] := Pipeline.word_of_letters _ (by simp) (by decide) (by decide) (by decide)
  have w3 : Pipeline.IsWord ['B', 'u', 'y'] := Pipeline.word_of_letters _ (by simp) (by decide) (by decide) (by decide)
  have w4 : Pipeline.IsWord ['t', 'e', 'a'] := Pipeline.word_of_letters _ (by simp) (by decide) (by decide) (by decide)
  have w5 : Pipeline.IsWord ['s', 'h', 'o', 'p'] := Pipeline.word_of_letters _ (by simp) (by decide) (by decide) (by decide)
  have w6 : Pipeline.IsWord ['N', 'o', 'w'] := Pipeline.word_of_letters _ (by simp) (by decide) (by decide) (by decide)
  have w7 : Pipeline.IsWord ['S', 'u', 'b'] := Pipeline.word_of_letters _ (by simp) (by decide) (by decide) (by decide)
  have w8 : Pipeline.IsWord ['N', 'e', 'x', 't'] := Pipeline.word_of_letters _ (by simp) (by decide) (by decide) (by decide)
  have w9 : Pipeline.IsWord ['x'] := letter_word 'x' (by decide)
  simp only [exDoc, exPre, exSecs, exBuy, exSub, exNext, Secs.entries, Pipeline.Outline.chunks, Entry.chunks, Entry.tail, Pipeline.tagPieces, Pipeline.stopPieces,
    Mark.chunks, Pars.pieces, Pipeline.Inl.pieces, List.flatMap_cons, List.flatMap_nil, List.map_cons, List.map_nil,
    List.cons_append, List.nil_append, List.append_nil, reduceCtorEq, if_false, if_true, Joined, JoinedFrom, Chunk.Valid, Pipeline.joins,
    List.head?_cons, List.head?_nil, Chunk.isBrk, Piece.isBrk, Piece.Valid, Pipeline.fits]
  have g : Pipeline.IsGlyph ['.'] := .inl ⟨'.', rfl, by decide⟩
  have hA : BaseLexer.isAlpha 'A' = true := by decide
  simp [g, hA, w1, w2, w3, w4, w5, w6, w7, w8, w9, Piece.Alnum]

theorem title_of {t : Pipeline.Inl} (h1 : ∃ p ∈ t.pieces.head?, ∀ n, p ≠ .gap n) (h2 : ∀ p ∈ t.pieces, p.isBrk = false) (h3 : .colon ∉ t.pieces) :
    Pipeline.IsTitle t := by
  refine ⟨h1, h2, fun a b h => absurd ?_ h3⟩
  rw [h]
  simp

theorem exDoc_fine : exDoc.Fine := by
  refine ⟨?_, ⟨fun w g c g' h => ?_, title_of ?_ ?_ ?_, ?_, ?_, ?_⟩, ⟨?_, title_of ?_ ?_ ?_, ?_, ?_, ?_⟩, ⟨?_, title_of ?_ ?_ ?_, ?_, ?_, ?_⟩, trivial⟩
  rotate_left
  · cases h
    unfold Pipeline.Capital
    decide
  all_goals simp [exDoc, exPre, exBuy, exSub, exNext, exSecs, Secs.entries, Pars.Fine, Pipeline.Inl.pieces, Pipeline.Placed, Entry.tail,
    Pipeline.tagPieces, Pipeline.stopPieces, Pipeline.Airy, Piece.isBrk]

theorem exDoc_plain : ∀ e ∈ exDoc.entries, e.Plain := by
  unfold Entry.Plain
  decide

theorem exDoc_neat : Pipeline.EntriesNeat exDoc.entries := by
  refine ⟨⟨rfl, ⟨rfl, rfl⟩, by decide, by decide, fun _ => rfl, fun h => absurd ?_ h⟩,
    ⟨rfl, trivial, by decide, by decide, fun h => absurd h ?_, fun _ => .inl rfl⟩,
    ⟨rfl, trivial, by decide, by decide, fun h => absurd h ?_, fun _ => .inl rfl⟩, trivial⟩
  · exact .inl (by decide)
  · simp [Entry.Busy, exSub, exNext, Secs.entries]
  · simp [Entry.Busy, exNext, Secs.entries]

theorem exDoc_tidy : Tidy (Pipeline.written exDoc.chunks) := by
  rw [exDoc_text]
  exact ⟨by decide, by decide +kernel, by decide⟩

/-- The nodes of the document. -/
example : load stdLex 60 exText.toList = .ok
    [.tree .Paragraph [word "Go", .leaf .Punctuation ['.']], .leaf .Newline ['\n', '\n'],
     .head ⟨1, some "TODO".toList, some ['A'], false, false, ["shop".toList]⟩ [word "Buy", space, .tree .Bold [word "tea"]]
       [.tree .Paragraph [word "Now", .leaf .Punctuation ['.']], .leaf .Newline ['\n', '\n'],
        .head ⟨2, none, none, false, false, []⟩ [word "Sub"] []],
     .head ⟨1, none, none, false, false, ["x".toList]⟩ [word "Next"] []] := by
  rw [← exDoc_text]
  exact (outline_loaded exPre exSecs ⟨by decide, by decide, ⟨by decide, by decide, trivial, trivial⟩, by decide, by decide, trivial, trivial⟩
    exDoc_joined exDoc_fine exDoc_plain 60 (by decide)).trans rfl

example (name : BK → List Char) : resave stdLex 60 exact defaults 5000 name exText.toList = .ok (dropNl exText.toList) := by
  have := outline_exact_partial defaults sane_defaults name exDoc exDoc_joined exDoc_fine exDoc_plain exDoc_neat exDoc_tidy
    (unbroken_of (by decide)) (fun e he => unbroken_of (by revert e; decide)) (by decide +kernel) 60 (by decide) 5000 (by decide)
  rwa [exDoc_text] at this

example (name : BK → List Char) : ∃ out, resave stdLex 60 exact defaults 5000 name (Pipeline.written exDoc.chunks) = .ok out ∧
    visible out = visible (Pipeline.written exDoc.chunks) :=
  outline_keeps_text_partial defaults sane_defaults name exDoc exDoc_joined exDoc_fine exDoc_plain (by decide) (by decide +kernel) 60 (by decide)
    5000 (by decide)

/-! ## Where the full statements fail -/

/-- `* a :x:ARCHIVE:`. -/
def exArchive : Pipeline.Outline :=
  ⟨.nil, [⟨0, 0, .none, .piece (.word "a".toList) (.piece (.gap 0) .nil), ["x".toList, "ARCHIVE".toList], some 0, .nil⟩]⟩

theorem archive_joined : Joined exArchive.chunks := by
  have w1 : Pipeline.IsWord ['A', 'R', 'C', 'H', 'I', 'V', 'E'] := Pipeline.word_of_letters _ (by simp) (by decide) (by decide) (by decide)
  have w2 : Pipeline.IsWord ['a'] := letter_word 'a' (by decide)
  have w3 : Pipeline.IsWord ['x'] := letter_word 'x' (by decide)
  simp only [exArchive, Pipeline.Outline.chunks, Entry.chunks, Entry.tail, Pipeline.tagPieces, Pipeline.stopPieces,
    Mark.chunks, Pars.pieces, Pipeline.Inl.pieces, List.flatMap_cons, List.flatMap_nil, List.map_cons, List.map_nil,
    List.cons_append, List.nil_append, List.append_nil, reduceCtorEq, if_false, Joined, JoinedFrom, Chunk.Valid, Pipeline.joins,
    List.head?_cons, List.head?_nil, Chunk.isBrk, Piece.isBrk, Piece.Valid, Pipeline.fits]
  simp [w1, w2, w3, Piece.Alnum]

theorem archive_fine : exArchive.Fine := by
  refine ⟨trivial, ⟨?_, title_of ?_ ?_ ?_, ?_, ?_, ?_⟩, trivial⟩
  all_goals simp [Pars.Fine, Pipeline.Inl.pieces, Pipeline.Placed, Piece.isBrk]

/-- The tag `ARCHIVE` is moved before the others. -/
theorem outlineText_false : ¬ OutlineTextStatement := by
  intro h
  obtain ⟨out, h1, h2⟩ := h defaults sane_defaults (fun _ => []) exArchive archive_joined archive_fine (by decide) 40 (by decide) 5000 (by decide)
  rw [outline_lines defaults sane_defaults _ exArchive archive_joined archive_fine (by unfold Entry.Plain; decide) (by decide) 40 (by decide) 5000
    (by decide)] at h1
  obtain rfl : textOf (linesAll exArchive.sems) = out := by simpa using h1
  have h3 : exArchive.sems = [.head ⟨1, none, none, false, true, ["x".toList]⟩ [word "a"] []] :=
    sections_nested (.sec _ .nil .nil) ⟨by simp [Secs.entries], by simp [Secs.entries], trivial, trivial⟩
  rw [h3] at h2
  revert h2
  decide +kernel

/-- `* a`, and `b` in the next line. -/
def exTight : Pipeline.Outline :=
  ⟨.nil, [⟨0, 0, .none, .piece (.word "a".toList) .nil, [], some 0, .par (.piece (.word "b".toList) (.piece (.brk 0) .nil)) .nil⟩]⟩

theorem tight_joined : Joined exTight.chunks := by
  have w2 : Pipeline.IsWord ['a'] := letter_word 'a' (by decide)
  have w3 : Pipeline.IsWord ['b'] := letter_word 'b' (by decide)
  simp only [exTight, Pipeline.Outline.chunks, Entry.chunks, Entry.tail, Pipeline.tagPieces, Pipeline.stopPieces,
    Mark.chunks, Pars.pieces, Pipeline.Inl.pieces, List.flatMap_cons, List.flatMap_nil, List.map_cons, List.map_nil,
    List.cons_append, List.nil_append, List.append_nil, if_true, Joined, JoinedFrom, Chunk.Valid, Pipeline.joins,
    List.head?_cons, List.head?_nil, Chunk.isBrk, Piece.isBrk, Piece.Valid, Pipeline.fits]
  simp [w2, w3, Piece.Alnum]

theorem tight_fine : exTight.Fine := by
  refine ⟨trivial, ⟨?_, title_of ?_ ?_ ?_, ?_, ?_, ?_⟩, trivial⟩
  all_goals simp [Pars.Fine, Pipeline.Inl.pieces, Pipeline.Placed, Piece.isBrk]

/-- An empty line is added between a headline and its text. -/
theorem outlineExact_false : ¬ OutlineExactStatement := by
  intro h
  have h1 := h defaults sane_defaults (fun _ => []) exTight tight_joined tight_fine (by decide) 40 (by decide) 5000 (by decide)
  rw [outline_lines defaults sane_defaults _ exTight tight_joined tight_fine (by unfold Entry.Plain; decide) (by decide) 40 (by decide) 5000
    (by decide)] at h1
  have h2 : textOf (linesAll exTight.sems) = dropNl (Pipeline.written exTight.chunks) := by simpa using h1
  have h3 : exTight.sems = [.head ⟨1, none, none, false, false, []⟩ [word "a"] [.tree .Paragraph [word "b"]]] :=
    sections_nested (.sec _ .nil .nil) ⟨by simp [Secs.entries], by simp [Secs.entries], trivial, trivial⟩
  rw [h3] at h2
  revert h2
  decide +kernel

end Verif.Sem
