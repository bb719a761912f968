import Verif.Sem.Exact
import Verif.Sem.Ink

/-!
# Properties C77–C79: writing documents, and reading and writing them again
-/

namespace Verif.Sem
open Verif.Token Verif.NodeGroup Verif.NodeGroup.Spec
open Verif.Layout (Options Sane exact defaults)
open scoped List
open Verif.Pipeline (Piece render Prose)
open Verif.BaseLexer (stdLex)

/-! ## C77: the formatter writes the lines of the document -/

/-- **C77**, in full: a document is written with all its texts, in their order. -/
def WritesTextStatement : Prop :=
  ∀ (o : Options Rat), Sane o → ∀ (name : BK → List Char) (subs : List Sem), sizes subs < 1000000000 → ∀ fuel, 4097 ≤ fuel →
    ∃ out, format exact o fuel name subs = .ok out ∧ inksOf subs <+ visible out

/-- **C77**.  The formatter returns, and writes the lines of the document; all its texts are there, in their order.  Missing:
kinds of nodes without a formatter, items which have a header and nothing else, titles and headers over several lines,
headlines without a title. -/
theorem format_writes_partial (o : Options Rat) (ho : Sane o) (name : BK → List Char) (subs : List Sem) (h : AllOutline subs)
    (hsize : sizes subs < 1000000000) (fuel : Nat) (hf : 4097 ≤ fuel) :
    format exact o fuel name subs = .ok (textOf (linesAll subs)) ∧ inksOf subs <+ visible (textOf (linesAll subs)) :=
  ⟨format_writes o ho name subs h hsize fuel hf, by rw [visible_textOf]; exact ink_linesAll subs h⟩

theorem sane_defaults : Sane defaults := by
  refine ⟨?_, ?_, ?_, ?_, ?_, ?_⟩ <;> decide +kernel

/-- The words `a`, `b`, … -/
def word (s : String) : Sem := .leaf .Word s.toList

def space : Sem := .leaf .Space [' ']

/-- A document with a headline, a list and a list in it. -/
def sample : List Sem :=
  [.head { level := 2, todo := some "TODO".toList, priority := some ['A'], tags := ["x".toList, "y".toList] }
    [word "Buy", space, .tree .Bold [word "tea"]]
    [.tree .Paragraph [word "one", .leaf .Newline ['\n'], word "two"], .leaf .Newline "\n\n".toList,
      .tree .List
        [.item ⟨some ['-'], .done, false⟩ [] [.tree .Paragraph [word "p"],
          .tree .List [.item ⟨none, .none, false⟩ [] [.tree .Paragraph [word "q"]]]],
        .item ⟨some ['-'], .none, true⟩ [word "h"] [.tree .Paragraph [word "r"]]]]]

example : String.ofList (textOf (linesAll sample)) =
    "** TODO [#A] Buy *tea* :x:y:\n\none\ntwo\n\n- [x] p\n      - q\n- h :: r\n" := by decide +kernel

theorem sample_outline : AllOutline sample := by
  simp [sample, AllOutline, Outline, AllInline, Inline, word, space, mark, Sem.isNewline]

example (name : BK → List Char) : format exact defaults 5000 name sample = .ok (textOf (linesAll sample)) ∧
    inksOf sample <+ visible (textOf (linesAll sample)) :=
  format_writes_partial defaults sane_defaults name sample sample_outline (by decide) 5000 (by decide)

example : String.ofList (inksOf sample) = "Buyteaonetwopqhr" := by decide

/-- An item with a header and nothing else is written without the header. -/
theorem writesText_false : ¬ WritesTextStatement := by
  intro h
  have h1 : format exact defaults 5000 (fun _ => []) [.tree .List [.item ⟨some ['-'], .none, true⟩ [word "h"] []]] = .ok ['-'] := by
    decide +kernel
  obtain ⟨out, h2, h3⟩ := h defaults sane_defaults (fun _ => []) [.tree .List [.item ⟨some ['-'], .none, true⟩ [word "h"] []]]
    (by decide) 5000 (by decide)
  rw [h1] at h2
  obtain rfl : ['-'] = out := by simpa using h2
  revert h3
  decide

/-! ## C78: saving a document keeps its text -/

/-- **C78**.  Prose is read and written again with all its visible characters, in their order. -/
theorem resave_keeps_text (o : Options Rat) (ho : Sane o) (name : BK → List Char) (ps : List Piece) (hp : Prose ps)
    (hsize : (render ps).length < 200000000) (n : Nat) (hn : ps.length + 4 ≤ n) (fuel : Nat) (hf : 4097 ≤ fuel) :
    ∃ out, resave stdLex n exact o fuel name (render ps) = .ok out ∧ visible out = visible (render ps) := by
  obtain ⟨toks, f, h1, h2, h3, h4, h5⟩ := load_prose ps hp n hn
  have hd := doc_reads h3 h4
  have hs := hd.size
  rw [h5] at hs
  refine ⟨textOf (linesAll (semsOf toks f)), ?_, ?_⟩
  · unfold resave
    rw [h1]
    simp only [format_writes o ho name _ hd.outline (by omega) fuel hf]
  · rw [visible_textOf, hd.visible, h5]

/-! ## C79: saving a document does not change it -/

/-- **C79**, in full: prose is written as it was read, apart from the line break at the end. -/
def ResaveStatement : Prop :=
  ∀ (o : Options Rat), Sane o → ∀ (name : BK → List Char) (ps : List Piece), Prose ps → (render ps).length < 200000000 →
    ∀ n, ps.length + 4 ≤ n → ∀ fuel, 4097 ≤ fuel →
      resave stdLex n exact o fuel name (render ps) = .ok (dropNl (render ps))

/-- **C79**.  Tidy prose is written as it was read, apart from the line break at the end.  Missing: markup over the end of a line,
spaces at the ends of lines, a document starting with an empty line. -/
theorem resave_exact_partial (o : Options Rat) (ho : Sane o) (name : BK → List Char) (ps : List Piece) (hp : Prose ps)
    (hsize : (render ps).length < 200000000) (n : Nat) (hn : ps.length + 4 ≤ n) (fuel : Nat) (hf : 4097 ≤ fuel)
    (ht : Tidy (render ps)) (hu : ∀ subs, load stdLex n (render ps) = .ok subs → Unbroken subs) :
    resave stdLex n exact o fuel name (render ps) = .ok (dropNl (render ps)) := by
  obtain ⟨toks, f, h1, h2, h3, h4, h5⟩ := load_prose ps hp n hn
  have hd := doc_reads h3 h4
  have hs := hd.size
  rw [h5] at hs
  rw [← prose_exact ps hp n hn ht h1 (hu _ h1)]
  unfold resave
  rw [h1]
  simp only [format_writes o ho name _ hd.outline (by omega) fuel hf]

/-- What is written for prose. -/
theorem resave_lines (o : Options Rat) (ho : Sane o) (name : BK → List Char) (ps : List Piece) (hp : Prose ps)
    (hsize : (render ps).length < 200000000) (n : Nat) (hn : ps.length + 4 ≤ n) (fuel : Nat) (hf : 4097 ≤ fuel) :
    ∃ subs, load stdLex n (render ps) = .ok subs ∧ resave stdLex n exact o fuel name (render ps) = .ok (textOf (linesAll subs)) := by
  obtain ⟨toks, f, h1, h2, h3, h4, h5⟩ := load_prose ps hp n hn
  have hd := doc_reads h3 h4
  have hs := hd.size
  rw [h5] at hs
  refine ⟨_, h1, ?_⟩
  unfold resave
  rw [h1]
  simp only [format_writes o ho name _ hd.outline (by omega) fuel hf]

/-- `*a`, a line break, `b* c`. -/
def broken : List Piece := [.star, .word ['a'], .brk 0, .word ['b'], .star, .gap 0, .word ['c'], .brk 0]

theorem letter_word (c : Char) (h1 : BaseLexer.isAlpha c = true) : Pipeline.IsWord [c] :=
  Pipeline.word_of_letters _ (by simp) (by simpa using h1) (by simp [List.isPrefixOf]) (by simp [List.isPrefixOf])

theorem broken_prose : Prose broken := by
  have ha := letter_word 'a' (by decide)
  have hb := letter_word 'b' (by decide)
  have hc := letter_word 'c' (by decide)
  simp only [broken, Prose, Pipeline.ProseFrom, Piece.Valid, Pipeline.fits, Piece.isBrk, List.head?_cons]
  simp [ha, hb, hc, Piece.Alnum]

/-- The text written for a document. -/
def written (text : String) : Option String :=
  match load stdLex 40 text.toList with
  | .ok subs => some (String.ofList (textOf (linesAll subs)))
  | .error _ => none

/-- A line break in bold text is lost, and the words at it become one word. -/
theorem resave_false : ¬ ResaveStatement := by
  intro h
  have h1 := h defaults sane_defaults (fun _ => []) broken broken_prose (by decide) 40 (by decide) 5000 (by decide)
  obtain ⟨subs, h2, h3⟩ := resave_lines defaults sane_defaults (fun _ => []) broken broken_prose (by decide) 40 (by decide) 5000 (by decide)
  rw [h1] at h3
  have h4 : textOf (linesAll subs) = dropNl (render broken) := by simpa using h3.symm
  have h5 : written "*a\nb* c\n" = some "*ab* c" := by decide +kernel
  have h6 : render broken = "*a\nb* c\n".toList := by decide
  rw [h6] at h2 h4
  unfold written at h5
  rw [h2] at h5
  simp only [h4, Option.some.injEq] at h5
  revert h5
  decide

/-- Each time a document starting with empty lines is saved, one of them is lost. -/
example : written "\n\n\nA b\n" = some "\n\nA b" := by decide +kernel
example : written "\n\nA b" = some "\nA b" := by decide +kernel
/-- Spaces at the end of a line are lost. -/
example : written "A b  \nc\n" = some "A b\nc" := by decide +kernel

/-! A document to which the theorems apply. -/

theorem example1_text : render Pipeline.example1.pieces = "Be *very /calm/*.\nOr: 12?\n\n/END/\n".toList := by decide +kernel

theorem example1_tidy : Tidy (render Pipeline.example1.pieces) := by
  rw [example1_text]
  exact ⟨by decide, by decide +kernel, by decide⟩

/-- Is no markup over the end of a line? -/
def unbrokenB (subs : List Sem) : Bool :=
  subs.all fun
    | .tree .Paragraph ss => ss.all fun s => s.isNewline || !(source s).contains '\n'
    | _ => true

theorem unbroken_of {subs : List Sem} (h : unbrokenB subs = true) : Unbroken subs := by
  intro ss hss s hs
  have := List.all_eq_true.mp h _ hss
  have := List.all_eq_true.mp this s hs
  simpa using this

theorem example1_unbroken : ∀ subs, load stdLex 40 (render Pipeline.example1.pieces) = .ok subs → Unbroken subs := by
  intro subs h
  apply unbroken_of
  have : (match load stdLex 40 "Be *very /calm/*.\nOr: 12?\n\n/END/\n".toList with
    | .ok subs => unbrokenB subs
    | .error _ => false) = true := by decide +kernel
  rw [← example1_text, h] at this
  exact this

example (name : BK → List Char) : resave stdLex 40 exact defaults 5000 name "Be *very /calm/*.\nOr: 12?\n\n/END/\n".toList =
    .ok "Be *very /calm/*.\nOr: 12?\n\n/END/".toList := by
  have := resave_exact_partial defaults sane_defaults name Pipeline.example1.pieces Pipeline.example1_prose (by decide) 40 (by decide)
    5000 (by decide) example1_tidy example1_unbroken
  rw [example1_text] at this
  rw [this]
  decide

end Verif.Sem
