import Verif.Grid.Again
import Verif.Link.Props
import Verif.Sem.Props

/-!
# Theorems about tables
-/

namespace Verif.Grid
open Verif.Token
open Verif.Stamp (Out)
open Verif.Pipeline (Piece fits)
open Verif.Drawer (Text)
open Verif.Layout (joinLines)
open Verif.Link (Item LinkedFrom Linked Part render sample_words piece_step)

/-! ## C139 -/

/-- Every document of tables and paragraphs with an empty line after each of them is read. -/
def ReadStatement : Prop :=
  ∀ d : List Chunk, (∀ c ∈ d, c.Valid) → (∀ c ∈ d, ∃ t, c.text = t ++ ['\n', '\n']) → (∀ c ∈ d, Link.Known c.items) →
    ∀ n, (docText d).length + 5 ≤ n → readGrid n (docText d) = .ok (.ok (docNodes d))

theorem known_part {is : List Item} (hk : Link.Known is) : is.map Item.got = is.map Item.part := by
  refine List.map_congr_left fun i hi => ?_
  cases i with
  | link hd d =>
    cases hd with
    | user name ps => exact absurd hi (hk name ps d)
    | _ => rfl
  | _ => rfl

theorem known_nodes {c : Chunk} (hk : Link.Known c.items) : c.got = c.nodes := by
  cases c with
  | para is n =>
    show Node.para (is.map Item.got) :: _ = Node.para (is.map Item.part) :: _
    rw [known_part (is := is) hk]
  | table ls =>
    show [Node.table (ls.filterMap fun l => l.1.got)] = [Node.table (ls.filterMap fun l => l.1.cells)]
    congr 2
    refine List.filterMap_congr fun l hl => ?_
    obtain ⟨l, e⟩ := l
    cases l with
    | rule n ms => rfl
    | row n cs =>
      show some (cs.map fun c => [c.items.map Item.got]) = some (cs.map fun c => [c.items.map Item.part])
      congr 1
      refine List.map_congr_left fun c hc => ?_
      have : Link.Known c.items := by
        intro name ps x hx
        refine hk name ps x ?_
        exact List.mem_flatten.mpr ⟨_, List.mem_map.mpr ⟨_, hl, rfl⟩, List.mem_flatten.mpr ⟨_, List.mem_map.mpr ⟨c, hc, rfl⟩, hx⟩⟩
      rw [known_part this]

theorem doc_known {d : List Chunk} (hk : ∀ c ∈ d, Link.Known c.items) : (d.map Chunk.got).flatten = docNodes d := by
  unfold docNodes
  congr 1
  exact List.map_congr_left fun c hc => known_nodes (hk c hc)

/-- C139, when no table follows another table: the tables of a document are read with their rows, cells and
links, and the paragraphs around them stay outside. -/
theorem grid_read_partial {d : List Chunk} (h : DocValid d) (hk : ∀ c ∈ d, Link.Known c.items) {n : Nat} (hn : (docText d).length + 5 ≤ n) :
    readGrid n (docText d) = .ok (.ok (docNodes d)) := by
  rw [read_doc h hn, doc_known hk]

theorem word_the : Pipeline.IsWord "the".toList := sample_words.2.1
theorem word_plan : Pipeline.IsWord "plan".toList := sample_words.2.2.2

theorem the_cell (k : Nat) : (Cell.mk k [.piece (.word "the".toList)] 1).Valid :=
  ⟨piece_step word_the nofun nofun nofun (by simp [fits, tail, Item.like, Piece.Alnum]) (piece_step trivial nofun nofun nofun ⟨rfl, by simp⟩ trivial),
    (by simp [OneLine]), by intro i hi; cases hi; rfl, by intro i hi; cases hi; rfl, by simp⟩

def oneTable : Chunk := .table [(.row 0 [⟨1, [.piece (.word "the".toList)], 1⟩], 1)]

theorem one_valid : oneTable.Valid := by
  refine ⟨?_, _, List.mem_singleton.mpr rfl, rfl⟩
  intro l hl
  rw [List.mem_singleton.mp hl]
  refine ⟨by simp, ?_, by simp⟩
  intro c hc
  rw [List.mem_singleton.mp hc]
  exact the_cell 1

/-- Two tables with an empty line between them are read as one table. -/
theorem grid_read_false : ¬ ReadStatement := by
  intro h
  have h1 := h [oneTable, oneTable] ?_ ?_ ?_ 60 (by decide +kernel)
  · revert h1
    decide +kernel
  · intro c hc
    simp only [List.mem_cons, List.not_mem_nil, or_false, or_self] at hc
    rw [hc]
    exact one_valid
  · intro c hc
    simp only [List.mem_cons, List.not_mem_nil, or_false, or_self] at hc
    rw [hc]
    exact ⟨"| the |".toList, by decide +kernel⟩
  · intro c hc
    simp only [List.mem_cons, List.not_mem_nil, or_false, or_self] at hc
    rw [hc]
    intro name ps d
    simp [oneTable, Chunk.items]

/-- `n` empty lines between two tables do not keep them apart. -/
theorem tables_joined {ls ms : List (Line × Nat)} (h1 : (Chunk.table ls).Valid) (h2 : (Chunk.table ms).Valid)
    (hk : Link.Known (Chunk.table ls).items) (hm : Link.Known (Chunk.table ms).items) {n : Nat} (hn : (docText [.table ls, .table ms]).length + 5 ≤ n) :
    readGrid n (docText [.table ls, .table ms]) = .ok (.ok [.table ((ls ++ ms).filterMap fun l => l.1.cells)]) := by
  have e : docText [.table ls, .table ms] = docText [.table (ls ++ ms)] := by
    simp [docText, Chunk.text]
  rw [e] at hn ⊢
  refine (grid_read_partial (d := [.table (ls ++ ms)]) ⟨⟨?_, ?_⟩, by simp, trivial⟩ ?_ hn).trans rfl
  · intro l hl
    rcases List.mem_append.mp hl with hl | hl
    · exact h1.1 l hl
    · exact h2.1 l hl
  · obtain ⟨l, hl, hr⟩ := h1.2
    exact ⟨l, List.mem_append_left _ hl, hr⟩
  · intro c hc
    rw [List.mem_singleton.mp hc]
    intro name ps d hx
    have : (Chunk.table (ls ++ ms)).items = (Chunk.table ls).items ++ (Chunk.table ms).items := by
      simp [Chunk.items]
    rw [this] at hx
    rcases List.mem_append.mp hx with hx | hx
    · exact hk name ps d hx
    · exact hm name ps d hx

/-- A row without its last bar takes in the next line. -/
theorem open_row : readGrid 60 "| a | b\n| c | d |\n".toList = .ok (.ok [.table [[[[.leaf .Word ['a']]],
    [[.leaf .Word ['b'], .leaf .Newline ['\n'], .leaf .Punctuation ['|'], .leaf .Word ['c']]], [[.leaf .Word ['d']]]]]]) := by decide +kernel

/-- A table of nothing but rules ends the reading of the document with an exception. -/
theorem rules_fatal : readGrid 60 "|--+--|\n".toList = .ok .throws := by decide +kernel

/-- Without a space after its first bar a row is no row. -/
theorem tight_row : readGrid 60 "|a |\n".toList = .ok (.ok [.para [.leaf .Punctuation ['|'], .leaf .Word ['a'], .leaf .Space [' '], .leaf .Punctuation ['|']]]) := by
  decide +kernel

/-- ```
the
 | the |  |

|--+-|
|   [[id:plan]]|the |

the plan

``` -/
def sample : List Chunk :=
  [.para [.piece (.word "the".toList)] 0,
    .table [(.row 1 [⟨1, [.piece (.word "the".toList)], 1⟩, ⟨2, [], 0⟩], 1), (.rule 1 [0], 0),
      (.row 0 [⟨3, [.link (.id "plan".toList) none], 0⟩, ⟨0, [.piece (.word "the".toList)], 1⟩], 0)],
    .para [.piece (.word "the".toList), .piece (.gap 0), .piece (.word "plan".toList)] 1]

theorem sample_valid : DocValid sample := by
  have hbrk : LinkedFrom false [.piece (.brk 0)] := piece_step trivial nofun nofun nofun (by simp [fits]) trivial
  have hpar : LinkedFrom true [.piece (.word "the".toList), .piece (.brk 0)] :=
    piece_step word_the nofun nofun nofun (by simp [fits, Item.like, Piece.Alnum]) hbrk
  have hpar2 : LinkedFrom true [.piece (.word "the".toList), .piece (.gap 0), .piece (.word "plan".toList), .piece (.brk 0)] :=
    piece_step word_the nofun nofun nofun (by simp [fits, Item.like, Piece.Alnum])
      (piece_step trivial nofun nofun nofun ⟨rfl, by simp [Item.like]⟩ (piece_step word_plan nofun nofun nofun (by simp [fits, Item.like, Piece.Alnum]) hbrk))
  have hglyph : LinkedFrom false [tail 0] := ⟨.inl ⟨')', rfl, by decide⟩, nofun, nofun, nofun, trivial, trivial⟩
  refine ⟨⟨⟨hpar, by simp, by simp, by intro i hi; cases hi; rfl⟩, by simp [OneLine]⟩, by intro x hx; cases hx; intro _ l hl; cases hl; rfl, ⟨?_, _, List.mem_cons_self, rfl⟩,
    by intro x hx; cases hx; trivial, ⟨⟨hpar2, by simp, by simp, by intro i hi; cases hi; rfl⟩, by simp [OneLine]⟩, by simp, trivial⟩
  intro l hl
  simp only [List.mem_cons, List.not_mem_nil, or_false] at hl
  rcases hl with rfl | rfl | rfl
  · refine ⟨by simp, ?_, by simp⟩
    intro c hc
    simp only [List.mem_cons, List.not_mem_nil, or_false] at hc
    rcases hc with rfl | rfl
    · exact the_cell 1
    · exact ⟨hglyph, by simp [OneLine], by simp, by simp, fun _ => rfl⟩
  · trivial
  · refine ⟨by simp, ?_, by simp⟩
    intro c hc
    simp only [List.mem_cons, List.not_mem_nil, or_false] at hc
    rcases hc with rfl | rfl
    · refine ⟨⟨?_, by simp, hglyph⟩, by simp [OneLine], by intro i hi; cases hi; rfl, by intro i hi; cases hi; rfl, by simp⟩
      exact ⟨by decide +kernel, by decide +kernel, by decide +kernel, by decide +kernel⟩
    · exact the_cell 0

theorem sample_known : ∀ c ∈ sample, Link.Known c.items := by
  intro c hc name ps d
  simp only [sample, List.mem_cons, List.not_mem_nil, or_false] at hc
  rcases hc with rfl | rfl | rfl <;> simp [Chunk.items]

example : DocValid sample ∧ docText sample = "the\n | the |  |\n\n|--+-|\n|   [[id:plan]]|the |\nthe plan\n\n".toList ∧
    readGrid 400 (docText sample) = .ok (.ok [.para [.leaf .Word "the".toList],
      .table [[[[.leaf .Word "the".toList]], [[]]], [[[.link (.id "plan".toList) none]], [[.leaf .Word "the".toList]]]],
      .para [.leaf .Word "the".toList, .leaf .Space [' '], .leaf .Word "plan".toList], .newline "\n\n".toList]) :=
  ⟨sample_valid, by decide +kernel, (grid_read_partial sample_valid sample_known (by decide +kernel)).trans (by decide +kernel)⟩

/-! ## C140 -/

/-- The text with the default options of the writer. -/
def Writes (ns : List Node) (t : Text) : Prop := ∀ fuel, 4097 ≤ fuel → write Layout.exact Layout.defaults fuel ns = some (.ok t)

theorem Writes.only {ns : List Node} {t u : Text} (h : Writes ns t) (h' : Writes ns u) : t = u := by
  have := (h 4097 (Nat.le_refl _)).symm.trans (h' 4097 (Nat.le_refl _))
  exact Except.ok.inj (Option.some.inj this)

/-- What is expected to be written for a row: the texts of the cells between bars, with a space on each
side and another one after the first bar. -/
def rowLine (cells : List Text) : Text := "| ".toList ++ (cells.map fun t => ' ' :: t ++ " |".toList).flatten

/-- The lines of a table: its rows. -/
def Line.shown : Line → Option Text
  | .row _ cells => some (rowLine (cells.map fun c => render (c.items.map Item.again)))
  | .rule _ _ => none

/-- The lines of a table; a paragraph and the empty lines after it. -/
def Chunk.shown : Chunk → List Text
  | .table lines => lines.filterMap fun l => l.1.shown
  | .para items n => render (items.map Item.again) :: List.replicate n []

theorem shown_cell (c : Cell) : (c.canon 0).text = ' ' :: render (c.items.map Item.again) ++ [' '] := by
  unfold Cell.canon
  split_ifs with h0
  · rw [h0]; rfl
  · rfl

theorem shown_row {cs : List Cell} (hne : cs ≠ []) : (Line.row 0 (canonCells cs)).text = rowLine (cs.map fun c => render (c.items.map Item.again)) := by
  have key : ∀ cs : List Cell, ((cs.map (Cell.canon 0)).map fun c => c.text ++ ['|']).flatten =
      ((cs.map fun c => render (c.items.map Item.again)).map fun t => ' ' :: t ++ " |".toList).flatten := by
    intro cs
    rw [List.map_map, List.map_map]
    congr 1
    refine List.map_congr_left fun c _ => ?_
    rw [Function.comp_apply, shown_cell]
    simp
  cases cs with
  | nil => exact absurd rfl hne
  | cons c r =>
    have e : (Line.row 0 (canonCells (c :: r))).text = "| ".toList ++ (((c :: r).map (Cell.canon 0)).map fun c => c.text ++ ['|']).flatten := by
      show '|' :: ((c.canon 1).text ++ ['|'] ++ ((r.map (Cell.canon 0)).map fun c => c.text ++ ['|']).flatten) = _
      rw [canon_more]
      simp
    rw [e, key]
    rfl

theorem shown_chunk {c : Chunk} (h : c.Valid) : c.lines = c.shown := by
  cases c with
  | para is n => rfl
  | table ls =>
    show (ls.filterMap fun l => l.1.canon).map (fun l => l.1.text) = ls.filterMap fun l => l.1.shown
    rw [List.map_filterMap]
    refine List.filterMap_congr fun l hl => ?_
    have hv := h.1 l hl
    obtain ⟨l, e⟩ := l
    cases l with
    | rule n ms => rfl
    | row n cs => exact congrArg some (shown_row hv.1)

theorem shown_doc {d : List Chunk} (h : DocValid d) : (d.map Chunk.lines).flatten = (d.map Chunk.shown).flatten := by
  congr 1
  exact List.map_congr_left fun c hc => shown_chunk (chunks_valid h c hc)

/-- C140: what is written for a document that was read, line by line: the rows of its tables, with the texts of
all cells in their order, and the paragraphs with the empty lines after them. -/
theorem grid_written {d : List Chunk} (h : DocValid d) (hne : d ≠ []) (ha : ∀ c ∈ d, c.Apart) (hk : ∀ c ∈ d, Link.Known c.items)
    (hsize : (joinLines (d.map Chunk.shown).flatten).length < 1000000000) :
    Writes (docNodes d) (joinLines (d.map Chunk.shown).flatten) := by
  have hl := lines_ne h hne
  have hs : (docText (d.map Chunk.canon)).length ≤ 1000000000 := by
    rw [lines_doc, ← join_ends hl, List.length_append, List.length_singleton, shown_doc h]
    omega
  intro fuel hf
  obtain ⟨t, h1, h2⟩ := write_doc _ Sem.sane_defaults h hne ha hs fuel hf
  rw [doc_known hk] at h1
  rw [lines_doc, ← join_ends hl, shown_doc h] at h2
  rw [h1, List.append_cancel_right h2]

/-- A table of `n` lines is written with `n` lines. -/
def LinesStatement : Prop :=
  ∀ ls : List (Line × Nat), (Chunk.table ls).Valid → (Chunk.table ls).Apart → Link.Known (Chunk.table ls).items →
    ∀ t, Writes (Chunk.table ls).nodes t → (t.filter (· = '\n')).length + 1 = ls.length

def ruled : List (Line × Nat) := [(.row 0 [⟨1, [.piece (.word "the".toList)], 1⟩], 0), (.rule 0 [], 0)]

theorem ruled_valid : (Chunk.table ruled).Valid := by
  refine ⟨?_, _, List.mem_cons_self, rfl⟩
  intro l hl
  simp only [ruled, List.mem_cons, List.not_mem_nil, or_false] at hl
  rcases hl with rfl | rfl
  · refine ⟨by simp, ?_, by simp⟩
    intro c hc
    rw [List.mem_singleton.mp hc]
    exact the_cell 1
  · trivial

theorem ruled_apart : (Chunk.table ruled).Apart := by
  intro l hl
  simp only [ruled, List.mem_cons, List.not_mem_nil, or_false] at hl
  rcases hl with rfl | rfl
  · intro c hc
    rw [List.mem_singleton.mp hc]
    exact ⟨nofun, nofun, trivial⟩
  · trivial

/-- The rules of a table are not written. -/
theorem lines_false : ¬ LinesStatement := by
  intro h
  have hk : Link.Known (Chunk.table ruled).items := by
    intro name ps d
    simp [ruled, Chunk.items]
  have hw := grid_written (d := [.table ruled]) ⟨ruled_valid, by simp, trivial⟩ (by simp)
    (by intro c hc; rw [List.mem_singleton.mp hc]; exact ruled_apart) (by intro c hc; rw [List.mem_singleton.mp hc]; exact hk) (by decide +kernel)
  have e : docNodes [.table ruled] = (Chunk.table ruled).nodes := rfl
  rw [e] at hw
  exact absurd (h ruled ruled_valid ruled_apart hk _ hw) (by decide +kernel)

theorem sample_apart : ∀ c ∈ sample, c.Apart := by
  intro c hc
  simp only [sample, List.mem_cons, List.not_mem_nil, or_false] at hc
  rcases hc with rfl | rfl | rfl
  · exact ⟨nofun, nofun, trivial⟩
  · intro l hl
    simp only [List.mem_cons, List.not_mem_nil, or_false] at hl
    rcases hl with rfl | rfl | rfl
    · intro c hc
      simp only [List.mem_cons, List.not_mem_nil, or_false] at hc
      rcases hc with rfl | rfl
      · exact ⟨nofun, nofun, trivial⟩
      · trivial
    · trivial
    · intro c hc
      simp only [List.mem_cons, List.not_mem_nil, or_false] at hc
      rcases hc with rfl | rfl <;> exact ⟨nofun, nofun, trivial⟩
  · exact ⟨nofun, nofun, nofun, nofun, nofun, nofun, trivial⟩

example : DocValid sample ∧ (∀ c ∈ sample, c.Apart) ∧ Writes (docNodes sample) "the\n|  the |  |\n|  [[id:plan]] | the |\nthe plan\n".toList :=
  ⟨sample_valid, sample_apart, by
    have := grid_written sample_valid (by simp [sample]) sample_apart sample_known (by decide +kernel)
    have e : joinLines (sample.map Chunk.shown).flatten = "the\n|  the |  |\n|  [[id:plan]] | the |\nthe plan\n".toList := by decide +kernel
    rwa [e] at this⟩

/-! ## C141 -/

/-- What the reader makes of a text. -/
def Reads (t : Text) (ns : List Node) : Prop := ∀ n, t.length + 5 ≤ n → readGrid n t = .ok (.ok ns)

theorem Reads.only {t : Text} {ns ms : List Node} (h : Reads t ns) (h' : Reads t ms) : ns = ms := by
  have := (h _ (Nat.le_refl _)).symm.trans (h' _ (Nat.le_refl _))
  exact Out.ok.inj (Except.ok.inj this)

/-- A document that was read is written so that it is read again. -/
def AgainStatement : Prop :=
  ∀ d : List Chunk, DocValid d → d ≠ [] → (∀ c ∈ d, Link.Known c.items) → ∀ ns, Reads (docText d) ns → ∀ t, Writes ns t → Reads (t ++ ['\n']) ns

/-- C141, when the links of the document are read again: so are its tables. -/
theorem grid_again_partial {d : List Chunk} (h : DocValid d) (hne : d ≠ []) (ha : ∀ c ∈ d, c.Apart) (hk : ∀ c ∈ d, Link.Known c.items)
    (hsize : (joinLines (d.map Chunk.shown).flatten).length < 1000000000) :
    ∃ ns t, Reads (docText d) ns ∧ Writes ns t ∧ Reads (t ++ ['\n']) ns := by
  refine ⟨docNodes d, _, fun n hn => grid_read_partial h hk hn, grid_written h hne ha hk hsize, ?_⟩
  have e : joinLines (d.map Chunk.shown).flatten ++ ['\n'] = docText (d.map Chunk.canon) := by
    rw [lines_doc, ← join_ends (lines_ne h hne), shown_doc h]
  intro n hn
  rw [e] at hn ⊢
  rw [read_doc (canon_doc h ha) hn, got_doc ha, doc_known hk]

def starred : List Chunk := [.table [(.row 0 [⟨1, [.link (.title 1 0 ["Plan".toList]) none], 1⟩], 0)]]

theorem starred_valid : DocValid starred := by
  refine ⟨⟨?_, _, List.mem_cons_self, rfl⟩, by simp, trivial⟩
  intro l hl
  rw [List.mem_singleton.mp hl]
  refine ⟨by simp, ?_, by simp⟩
  intro c hc
  rw [List.mem_singleton.mp hc]
  exact ⟨⟨⟨by simp, by decide +kernel, by decide +kernel, by decide +kernel⟩, by simp, piece_step trivial nofun nofun nofun ⟨rfl, by simp⟩ trivial⟩,
    by simp [OneLine], by intro i hi; cases hi; rfl, by intro i hi; cases hi; rfl, by simp⟩

/-- The stars of a link to a title are lost (C131). -/
theorem grid_again_false : ¬ AgainStatement := by
  intro h
  have hk : ∀ c ∈ starred, Link.Known c.items := by
    intro c hc name ps d
    rw [List.mem_singleton.mp hc]
    simp [Chunk.items]
  have hr : Reads (docText starred) (docNodes starred) := fun n hn => grid_read_partial starred_valid hk hn
  have e : (starred.map Chunk.lines).flatten = ["|  [[*Plan]] |".toList] := by decide +kernel
  have hw : Writes (docNodes starred) "|  [[*Plan]] |".toList := by
    intro fuel hf
    have := write_lines Layout.defaults Sem.sane_defaults (chunks_valid starred_valid) (by
      rw [e]
      intro l hl
      rw [List.mem_singleton.mp hl]
      exact ⟨by decide +kernel, by decide +kernel⟩) (by rw [e]; decide +kernel) fuel hf
    rw [e, doc_known hk] at this
    exact this
  have := h starred starred_valid (by simp [starred]) hk _ hr _ hw 40 (by decide +kernel)
  revert this
  decide +kernel

example : (∀ c ∈ sample, c.Apart) ∧ DocValid sample ∧ (joinLines (sample.map Chunk.shown).flatten).length < 1000000000 :=
  ⟨sample_apart, sample_valid, by decide +kernel⟩

end Verif.Grid
