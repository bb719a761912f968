import Verif.Keywords.Again
import Verif.Sem.Props

/-!
# C165–C168: keyword lines of a document
-/

namespace Verif.Keywords
open Verif.Drawer (Text stripSpace)
open Verif.BaseLexer (normalize isAlnum)
open Verif.Stamp (Out)
open Verif.Layout (stripEnd)

/-- The text is read as the document `y`, however much the parser may look ahead. -/
def Reads (text : Text) (y : Doc) : Prop := ∀ n, 4 * text.length + 5 ≤ n → read n text = .ok (.ok y)

/-- The document is written as `text`, with any options. -/
def Writes (y : Doc) (text : Text) : Prop := ∀ o, Layout.Sane o → ∀ fuel, 4097 ≤ fuel → write Layout.exact o fuel y = .ok text

theorem Reads.only {text : Text} {a b : Doc} (h : Reads text a) (h' : Reads text b) : a = b := by
  have h1 := h _ (Nat.le_refl _)
  rw [h' _ (Nat.le_refl _)] at h1
  injection h1 with h1
  injection h1 with h1
  exact h1.symm

theorem Writes.only {y : Doc} {a b : Text} (h : Writes y a) (h' : Writes y b) : a = b := by
  have h1 := h _ Sem.sane_defaults 4097 (Nat.le_refl _)
  rw [h' _ Sem.sane_defaults 4097 (Nat.le_refl _)] at h1
  injection h1 with h1
  exact h1.symm

theorem doc_length (d : List Entry) : d.length ≤ (docText d).length := by
  induction d with
  | nil => exact Nat.le_refl _
  | cons e d ih =>
    have e0 : docText (e :: d) = e.line.text ++ docText d := rfl
    have e1 : e.line.text.length = 3 + e.name.length + e.said.text.length + e.after := by
      simp [Line.text, Entry.line]
      omega
    rw [e0, List.length_append, e1, List.length_cons]
    omega

theorem reads_said {d : List Entry} (h : EntriesValid d) (hp : Plain d) : ∃ y, Reads (docText d) y ∧ ReadAs d y := by
  have hl := doc_length d
  obtain ⟨y, h1, h2⟩ := read_said h hp (Nat.le_refl _)
  refine ⟨y, ?_, h2⟩
  intro n hn
  have e := docFin_le (d.map Entry.line)
  rw [List.length_map] at e
  unfold docText at h1 ⊢
  rw [read_doc (entries_lines h) (by omega)] at h1
  unfold docText at hl hn
  rw [read_doc (entries_lines h) (by omega)]
  exact h1

/-- What a document which is read is. -/
theorem reads_effects {d : List Entry} (h : EntriesValid d) {y : Doc} (hr : Reads (docText d) y) : effects (d.map Entry.line) {} = .ok y := by
  have hl := doc_length d
  have e := docFin_le (d.map Entry.line)
  rw [List.length_map] at e
  have h1 := hr _ (Nat.le_refl _)
  unfold docText at h1 hl
  rw [read_doc (entries_lines h) (by omega)] at h1
  injection h1

/-! ## A sample

```
#+STARTUP:  overview indent
#+options: toc:2 num:nil \n:t H:3
#+keywords: one, two
#+options: broken-links:mark num:t

#+email: a@b 
#+My_Command: text
``` -/

def sample : List Entry :=
  [⟨"STARTUP".toList, .startup ⟨2, "overview".toList, [(0, "indent".toList)], 0⟩, 1⟩,
   ⟨"options".toList, .options [⟨1, "toc".toList, "2".toList⟩, ⟨1, "num".toList, "nil".toList⟩, ⟨1, "\\n".toList, "t".toList⟩, ⟨1, "H".toList, "3".toList⟩] 0, 1⟩,
   ⟨"keywords".toList, .keywords " one, two".toList, 1⟩,
   ⟨"options".toList, .options [⟨1, "broken-links".toList, "mark".toList⟩, ⟨1, "num".toList, "t".toList⟩] 0, 2⟩,
   ⟨"email".toList, .email " a@b ".toList, 1⟩,
   ⟨"My_Command".toList, .custom " text".toList, 0⟩]

theorem sample_valid : EntriesValid sample := by
  refine ⟨⟨by decide, by decide, ⟨⟨by decide, by decide, by decide⟩, ?_, by decide⟩⟩, by decide, ?_⟩
  · intro w hw
    cases List.mem_singleton.mp hw
    exact ⟨by decide, by decide, by decide⟩
  refine ⟨⟨by decide, by decide, ?_⟩, by decide, ?_⟩
  · exact ⟨.inr (.inr (.inr (.inr (.inr (.inr ⟨by decide, by decide⟩))))), by decide, .inl ⟨.sectionNumbers, by decide, by decide⟩, by decide,
      .inl ⟨.preserveBreaks, by decide, by decide⟩, by decide, .inr (.inr (.inr (.inr (.inr (.inl ⟨by decide, by decide⟩))))), by decide, trivial⟩
  refine ⟨⟨by decide, by decide, by show '\n' ∉ " one, two".toList; decide⟩, by decide, ?_⟩
  refine ⟨⟨by decide, by decide, ?_⟩, by decide, ?_⟩
  · exact ⟨.inr (.inl ⟨by decide, by decide⟩), by decide, .inl ⟨.sectionNumbers, by decide, by decide⟩, by decide, trivial⟩
  refine ⟨⟨by decide, by decide, by show '\n' ∉ " a@b ".toList; decide⟩, by decide, ?_⟩
  exact ⟨⟨by decide, by decide, by show '\n' ∉ " text".toList; decide⟩, by decide, trivial⟩

theorem sample_plain : Plain sample := by
  constructor
  · intro s hs
    have : s = ⟨2, "overview".toList, [(0, "indent".toList)], 0⟩ := by simpa [startups, sample] using hs
    subst this
    exact ⟨by decide, by decide⟩
  · have : ∀ i ∈ itemsOf sample, i.key ∉ ["-".toList, "'".toList, ":".toList, "<".toList, "^".toList, "|".toList] ∧ ¬ (i.key = "tasks".toList ∧ i.value = "done".toList) := by decide
    exact this

/-! ## C165 -/

/-- The visibility is that of the last `#+startup`, and `indent` is noticed. -/
def StartupStatement : Prop :=
  ∀ d, EntriesValid d → ∃ y, Reads (docText d) y ∧ y.opts.visibility = visibilityIn d ∧ y.opts.indented = indentedIn d

/-- C165, if no line says `show5levels`, and `indent` is directly after the first word. -/
theorem startup_partial {d : List Entry} (h : EntriesValid d) (hp : Plain d) :
    ∃ y, Reads (docText d) y ∧ y.opts.visibility = visibilityIn d ∧ y.opts.indented = indentedIn d := by
  obtain ⟨y, h1, h2⟩ := reads_said h hp
  exact ⟨y, h1, h2.visibility, h2.indented⟩

example : ∃ y, Reads (docText sample) y ∧ y.opts.visibility = .overview ∧ y.opts.indented = some true := startup_partial sample_valid sample_plain

/-- `#+startup: show5levels` -/
def five : List Entry := [⟨"startup".toList, .startup ⟨1, "show5levels".toList, [], 0⟩, 0⟩]

theorem five_valid : EntriesValid five := ⟨⟨by decide, by decide, ⟨⟨by decide, by decide, by decide⟩, nofun, by decide⟩⟩, by decide, trivial⟩

/-- A document with `#+startup: show5levels` cannot be read. -/
theorem startup_false : ¬ StartupStatement := by
  intro h
  obtain ⟨y, h1, -⟩ := h five five_valid
  have h2 := reads_effects five_valid h1
  have h3 : effects (five.map Entry.line) {} = .throws := by rfl
  rw [h3] at h2
  cases h2

/-- `#+startup: overview  indent`, with two spaces -/
def wide : List Entry := [⟨"startup".toList, .startup ⟨1, "overview".toList, [(1, "indent".toList)], 0⟩, 0⟩]

theorem wide_valid : EntriesValid wide := ⟨⟨by decide, by decide, ⟨⟨by decide, by decide, by decide⟩, by
  intro w hw
  cases List.mem_singleton.mp hw
  exact ⟨by decide, by decide, by decide⟩, by decide⟩⟩, by decide, trivial⟩

/-- With two spaces before it, `indent` is not noticed. -/
theorem indent_wide {y : Doc} (h : Reads (docText wide) y) : indentedIn wide = some true ∧ y.opts.indented = none := by
  have h2 := reads_effects wide_valid h
  refine ⟨by decide, ?_⟩
  have h3 : (match effects (wide.map Entry.line) {} with | .ok y => y.opts.indented | _ => some true) = none := by rfl
  rw [h2] at h3
  exact h3

/-! ## C166 -/

/-- The options are those of the last item with each key; nothing else is set. -/
def OptionsStatement : Prop := ∀ d, EntriesValid d → ∃ y, Reads (docText d) y ∧ Shown (itemsOf d) y.opts ∧ y.opts.fixedSections = none

/-- C166, for items other than `-`, `'`, `:`, `<`, `^`, `|` and `tasks:done`; nothing is said about the sections of
fixed width. -/
theorem options_partial {d : List Entry} (h : EntriesValid d) (hp : Plain d) : ∃ y, Reads (docText d) y ∧ Shown (itemsOf d) y.opts := by
  obtain ⟨y, h1, h2⟩ := reads_said h hp
  exact ⟨y, h1, h2.shown⟩

example : ∃ y, Reads (docText sample) y ∧ y.opts.switch .sectionNumbers = some true ∧ y.opts.switch .preserveBreaks = some true ∧ y.opts.switch .emphasis = none ∧
    y.opts.levels = some 3 ∧ y.opts.toc = .levels 2 ∧ y.opts.broken = .mark := by
  obtain ⟨y, h1, h2⟩ := options_partial sample_valid sample_plain
  refine ⟨y, h1, ?_, ?_, ?_, ?_, ?_, ?_⟩
  · rw [h2.switch]; decide
  · rw [h2.switch]; decide
  · rw [h2.switch]; decide
  · rw [h2.levels]; decide
  · rw [h2.toc]; decide
  · rw [h2.broken]; decide

/-- `#+options: toc:t` -/
def spaced : List Entry := [⟨"options".toList, .options [⟨1, "toc".toList, "t".toList⟩] 0, 0⟩]

theorem spaced_valid : EntriesValid spaced :=
  ⟨⟨by decide, by decide, ⟨.inr (.inr (.inr (.inr (.inr (.inr ⟨by decide, by decide⟩))))), by decide, trivial⟩⟩, by decide, trivial⟩

/-- The space after `#+options:` turns the sections of fixed width on. -/
theorem options_false : ¬ OptionsStatement := by
  intro h
  obtain ⟨y, h1, -, h2⟩ := h spaced spaced_valid
  have h3 := reads_effects spaced_valid h1
  have h4 : (match effects (spaced.map Entry.line) {} with | .ok y => y.opts.fixedSections | _ => none) = some true := by rfl
  rw [h3] at h4
  dsimp only at h4
  rw [h2] at h4
  cases h4

/-- `#+options:-:t` -/
def minus : List Entry := [⟨"options".toList, .options [⟨0, "-".toList, "t".toList⟩] 0, 0⟩]

theorem minus_valid : EntriesValid minus := ⟨⟨by decide, by decide, ⟨.inl ⟨.specialStrings, by decide, by decide⟩, by decide, trivial⟩⟩, by decide, trivial⟩

/-- `-:t` turns the emphasis on, and not the special strings. -/
theorem options_minus {y : Doc} (h : Reads (docText minus) y) : y.opts.switch .specialStrings = none ∧ y.opts.switch .emphasis = some true := by
  have h2 := reads_effects minus_valid h
  have h3 : (match effects (minus.map Entry.line) {} with | .ok y => (y.opts.switch .specialStrings, y.opts.switch .emphasis) | _ => (none, none)) = (none, some true) := by rfl
  rw [h2] at h3
  exact Prod.mk.inj h3

/-- `#+options:tasks:done` -/
def done : List Entry := [⟨"options".toList, .options [⟨0, "tasks".toList, "done".toList⟩] 0, 0⟩]

theorem done_valid : EntriesValid done := ⟨⟨by decide, by decide, ⟨.inr (.inr (.inr (.inl ⟨by decide, by decide⟩))), by decide, trivial⟩⟩, by decide, trivial⟩

/-- `tasks:done` is not read; `tasks:todo` stands for the tasks which are done. -/
theorem options_done {y : Doc} (h : Reads (docText done) y) : y.opts.tasks = .all ∧
    ∀ o, (optionsLine "tasks:todo".toList o) = .ok { o with tasks := .done } := by
  have h2 := reads_effects done_valid h
  have h3 : (match effects (done.map Entry.line) {} with | .ok y => y.opts.tasks | _ => .none) = .all := by rfl
  rw [h2] at h3
  exact ⟨h3, fun o => rfl⟩

/-! ## C167 -/

/-- The e-mail addresses and the commands are nodes, in the order in which they are written; the other lines are not. -/
def NodesStatement : Prop := ∀ d, EntriesValid d → Plain d → ∃ y, Reads (docText d) y ∧ y.nodes = nodesOf d

/-- C167, with the colon at the end of the name. -/
theorem nodes_partial {d : List Entry} (h : EntriesValid d) (hp : Plain d) : ∃ y, Reads (docText d) y ∧ y.nodes = d.filterMap fun e =>
    match e.said with
    | .email t => some (.email (stripSpace t))
    | .custom t => some (.custom (e.name ++ ":".toList) t)
    | _ => none := by
  obtain ⟨y, h1, h2⟩ := reads_said h hp
  exact ⟨y, h1, h2.nodes⟩

example : ∃ y, Reads (docText sample) y ∧ y.nodes = [.email "a@b".toList, .custom "My_Command:".toList " text".toList] := by
  obtain ⟨y, h1, h2⟩ := nodes_partial sample_valid sample_plain
  exact ⟨y, h1, by rw [h2]; decide⟩

/-- The colon is part of the name. -/
theorem nodes_false : ¬ NodesStatement := by
  intro h
  obtain ⟨y, h1, h2⟩ := h sample sample_valid sample_plain
  obtain ⟨z, h3, h4⟩ := reads_said sample_valid sample_plain
  cases h1.only h3
  have h4 := h4.nodes
  rw [h2] at h4
  revert h4
  decide

/-! ## C168 -/

/-- What the keyword lines say is the same after the document is saved and read again. -/
def AgainStatement : Prop :=
  ∀ d, EntriesValid d → Plain d → 2 * (docText d).length < 999999900 → ∀ y, Reads (docText d) y →
    ∃ text, Writes y text ∧ ∃ z, Reads text z ∧ z.opts.visibility = y.opts.visibility ∧ z.opts.indented = y.opts.indented ∧ z.opts.switch = y.opts.switch ∧
      z.opts.broken = y.opts.broken ∧ z.nodes = y.nodes

/-- C168, for the visibility, the broken links if they are not ignored, and the nodes; two characters are put in front
of the text of each command. -/
theorem again_partial {d : List Entry} (h : EntriesValid d) (hp : Plain d) (hi : last "broken-links".toList brokenOf (itemsOf d) ≠ some .ignore)
    (hs : 2 * (docText d).length < 999999900) {y : Doc} (hr : Reads (docText d) y) :
    ∃ text, Writes y text ∧ ∃ z, Reads text z ∧ z.opts.visibility = y.opts.visibility ∧ z.opts.broken = y.opts.broken ∧ z.nodes = y.nodes.map fun x =>
      match x with
      | .email t => .email t
      | .custom n t => .custom n (stripEnd (": ".toList ++ t)) := by
  obtain ⟨y', h1, h2⟩ := reads_said h hp
  cases hr.only h1
  have hv : y.opts.visibility ≠ .show5 := by
    rw [h2.visibility]
    unfold visibilityIn
    cases hl : (startups d).getLast? with
    | none => decide
    | some s =>
      have := (hp.startup s (List.mem_of_getLast? hl)).five
      show s.meaning.getD _ ≠ _
      cases hm : s.meaning with
      | none => decide
      | some v =>
        rw [hm] at this
        exact fun hx => this (by rw [← hx]; rfl)
  have hb : y.opts.broken = .none ∨ y.opts.broken = .mark := by
    rw [h2.shown.broken]
    have hval : ∀ b, last "broken-links".toList brokenOf (itemsOf d) = some b → b = .mark ∨ b = .ignore := by
      intro b hl
      have := List.mem_of_getLast? hl
      obtain ⟨i, -, hx⟩ := List.mem_filterMap.mp this
      unfold brokenOf at hx
      split_ifs at hx <;> cases hx
      · exact .inl rfl
      · exact .inr rfl
    cases hl : last "broken-links".toList brokenOf (itemsOf d) with
    | none => exact .inl rfl
    | some b =>
      rcases hval b hl with rfl | rfl
      · exact .inr rfl
      · exact absurd hl hi
  obtain ⟨p1, p2, p3, p4⟩ := pieces_said hv hb h
  have hval := chain_valid (pieces_valid hv (b := y.opts.broken) h)
  obtain ⟨z, h3, h4⟩ := reads_said hval p4
  have ht := written_total h h2.nodes
  refine ⟨_, fun o ho fuel hf => write_text hb (written_no h h2.nodes) (by omega) o ho fuel hf, z, ?_, ?_, ?_, ?_⟩
  · rw [pieces_lines rfl rfl h2.nodes]
    exact h3
  · rw [h4.visibility, p1]
  · rw [h4.shown.broken, p2]
    rcases hb with h | h <;> rw [h] <;> rfl
  · rw [h4.nodes, p3, h2.nodes]
    rfl

example : ∃ y, Reads (docText sample) y ∧ ∃ text, Writes y text ∧ ∃ z, Reads text z ∧ z.opts.visibility = .overview ∧ z.opts.broken = .mark ∧
    z.nodes = [.email "a@b".toList, .custom "My_Command:".toList ":  text".toList] := by
  obtain ⟨y, h1, h2⟩ := reads_said sample_valid sample_plain
  obtain ⟨text, h3, z, h4, h5, h6, h7⟩ := again_partial sample_valid sample_plain (by decide) (by decide +kernel) h1
  refine ⟨y, h1, text, h3, z, h4, ?_, ?_, ?_⟩
  · rw [h5, h2.visibility]; decide
  · rw [h6, h2.shown.broken]; decide
  · rw [h7, h2.nodes]; decide

/-- Commands grow. -/
theorem again_false : ¬ AgainStatement := by
  intro h
  obtain ⟨y, h1, h2⟩ := reads_said sample_valid sample_plain
  obtain ⟨text, h3, z, h4, -, -, -, -, h7⟩ := h sample sample_valid sample_plain (by decide +kernel) y h1
  obtain ⟨text', k3, z', k4, k5, k6, k7⟩ := again_partial sample_valid sample_plain (by decide) (by decide +kernel) h1
  cases h3.only k3
  cases h4.only k4
  rw [h7, h2.nodes] at k7
  revert k7
  decide

end Verif.Keywords
