import Verif.Sem.Headlines
import Verif.Sem.Exact

/-!
# How outlines are written
-/

namespace Verif.Sem
open Verif.Token Verif.NodeGroup Verif.NodeGroup.Spec
open Verif.Pipeline (Piece Pars Chunk Mark Entry below tagPieces stopPieces sections render Prose ProseFrom JoinedFrom Joined)
open Verif.BaseLexer (stdLex)

/-! ## Nested headlines -/

theorem sections_nested (s : Secs) (h : s.Nested) : sections s.entries = s.sems := by
  induction s with
  | nil => simp only [Secs.entries, Secs.sems, sections]
  | sec e s r ihs ihr =>
    obtain ⟨h1, h2, h3, h4⟩ := h
    have ht : (s.entries ++ r.entries).takeWhile (below e.level) = s.entries := by
      rw [List.takeWhile_append_of_pos (by simpa [below] using h1)]
      cases hr : r.entries with
      | nil => simp
      | cons x l =>
        rw [hr] at h2
        have := h2 x rfl
        rw [List.takeWhile_cons_of_neg (by simp [below]; omega), List.append_nil]
    have hd : (s.entries ++ r.entries).dropWhile (below e.level) = r.entries := by
      rw [List.dropWhile_append_of_pos (by simpa [below] using h1)]
      cases hr : r.entries with
      | nil => simp
      | cons x l =>
        rw [hr] at h2
        have := h2 x rfl
        rw [List.dropWhile_cons_of_neg (by simp [below]; omega)]
    rw [Secs.entries, sections, ht, hd, ihs h3, ihr h4, Secs.sems]

/-! ## The lines -/

/-- Is there anything below the headline? -/
def busy (e : Entry) (r : List Entry) : Bool := !e.body.sems.isEmpty || (r.head?.any (below e.level))

/-- The lines of an entry, before the entries `r`. -/
def entryLines (e : Entry) (r : List Entry) : List (List Char) :=
  (List.replicate (e.level + 1) '*' ++ ' ' :: headLine e.info e.title.trim.sems) ::
    (if busy e r then [] :: linesAll e.body.sems else [])

def rowLines : List Entry → List (List Char)
  | [] => []
  | e :: r => entryLines e r ++ rowLines r

theorem linesAll_append (a b : List Sem) : linesAll (a ++ b) = linesAll a ++ linesAll b := by
  induction a with
  | nil => rfl
  | cons s a ih => simp [linesAll, ih]

theorem rowLines_append (a b : List Entry) (h : ∀ x ∈ a, ∀ y ∈ b.head?, below x.level y = false) : rowLines (a ++ b) = rowLines a ++ rowLines b := by
  induction a with
  | nil => rfl
  | cons x a ih =>
    have hb : busy x (a ++ b) = busy x a := by
      unfold busy
      cases a with
      | nil =>
        cases b with
        | nil => rfl
        | cons y b => simp [h x (by simp) y rfl]
      | cons z a => rfl
    simp only [List.cons_append, rowLines, entryLines, hb, ih (fun x hx => h x (by simp [hx])), List.append_assoc]

theorem sections_nil {l : List Entry} : sections l = [] ↔ l = [] := by
  cases l with
  | nil => rw [sections]; simp
  | cons e r => rw [sections]; simp

theorem sections_lines (n : Nat) : ∀ es : List Entry, es.length ≤ n → linesAll (sections es) = rowLines es := by
  induction n with
  | zero =>
    intro es h
    obtain rfl : es = [] := List.length_eq_zero_iff.mp (by omega)
    rw [sections]; rfl
  | succ n ih =>
    intro es h
    cases es with
    | nil => rw [sections]; rfl
    | cons e r =>
      have ht := Pipeline.takeWhile_le (below e.level) r
      have hd := Pipeline.dropWhile_le (below e.level) r
      simp only [List.length_cons] at h
      rw [sections, linesAll, lines, ih _ (by omega)]
      have hr : rowLines r = rowLines (r.takeWhile (below e.level)) ++ rowLines (r.dropWhile (below e.level)) := by
        rw [← rowLines_append, List.takeWhile_append_dropWhile]
        intro x hx y hy
        have h1 := List.mem_takeWhile_imp hx
        have h2 : below e.level y = false := by
          have := List.head?_dropWhile_not (below e.level) r
          cases hdw : r.dropWhile (below e.level) with
          | nil => rw [hdw] at hy; cases hy
          | cons z l =>
            rw [hdw] at hy this
            cases hy
            simpa using this
        simp only [below, decide_eq_true_eq, decide_eq_false_iff_not] at *
        omega
      have hb : (e.body.sems ++ sections (r.takeWhile (below e.level))).isEmpty = !busy e r := by
        unfold busy
        cases r with
        | nil => simp [sections]
        | cons x r =>
          by_cases hx : below e.level x = true
          · rw [List.takeWhile_cons_of_pos hx, sections]; simp [hx]
          · rw [List.takeWhile_cons_of_neg hx, sections]; simp [hx]
      rw [rowLines, entryLines, hr, hb]
      by_cases hbz : busy e r = true
      · simp [hbz, linesAll_append, ih (r.takeWhile (below e.level)) (by omega), Entry.info]
      · have hnil : r.takeWhile (below e.level) = [] := by
          rw [Bool.not_eq_true] at hbz
          rw [hbz] at hb
          simp only [Bool.not_false, List.isEmpty_iff, List.append_eq_nil_iff] at hb
          exact sections_nil.mp hb.2
        simp [hbz, hnil, rowLines, Entry.info]

/-! ## Texts of the parts -/

open Verif.Layout (joinLines)

theorem piece_ink {p : Piece} (hv : p.Valid) (h1 : ∀ n, p ≠ .gap n) (h2 : ∀ n, p ≠ .brk n) : p.text ≠ [] ∧ ∀ c ∈ p.text, c ≠ '\n' ∧ c ≠ ' ' := by
  cases p with
  | word w => exact word_chars hv
  | glyph u => exact glyph_chars hv
  | gap n => exact absurd rfl (h1 n)
  | brk n => exact absurd rfl (h2 n)
  | number ds =>
    refine ⟨hv.1, fun c hc => ?_⟩
    have := hv.2 c hc
    constructor <;> rintro rfl <;> revert this <;> decide
  | _ => exact ⟨by simp [Piece.text], by simp [Piece.text]⟩

theorem piece_line {p : Piece} (hv : p.Valid) (h2 : p.isBrk = false) : p.text ≠ [] ∧ '\n' ∉ p.text := by
  by_cases h : ∃ n, p = .gap n
  · obtain ⟨n, rfl⟩ := h
    exact ⟨by simp [Piece.text], by simp [Piece.text]⟩
  · have := piece_ink hv (fun n e => h ⟨n, e⟩) (fun n e => by subst e; cases h2)
    exact ⟨this.1, fun hc => (this.2 _ hc).1 rfl⟩

theorem render_append (a b : List Piece) : render (a ++ b) = render a ++ render b := by simp [render]

theorem render_cons (p : Piece) (b : List Piece) : render (p :: b) = p.text ++ render b := by simp [render]

theorem written_append (a b : List Chunk) : Pipeline.written (a ++ b) = Pipeline.written a ++ Pipeline.written b := by simp [Pipeline.written]

theorem written_cons (c : Chunk) (b : List Chunk) : Pipeline.written (c :: b) = c.text ++ Pipeline.written b := by simp [Pipeline.written]

theorem written_txt (ps : List Piece) : Pipeline.written (ps.map .txt) = render ps := by
  simp only [Pipeline.written, render, List.map_map]
  rfl

/-- Text before a headline or the end is prose. -/
theorem prose_of_joined {ps : List Piece} {cs : List Chunk} (hcs : Pipeline.Starry cs) : ∀ {bol : Bool}, JoinedFrom bol (ps.map .txt ++ cs) → ProseFrom bol ps := by
  induction ps with
  | nil => intro _ _; trivial
  | cons p ps ih =>
    intro bol h
    refine ⟨h.1, ?_, ih h.2.2⟩
    have hj := h.2.1
    cases ps with
    | nil =>
      rcases hcs with rfl | ⟨n, r, rfl⟩
      · exact hj
      · cases p with
        | brk n => intro n; exact ⟨by simp, by simp⟩
        | _ => cases hj
    | cons q ps => exact hj

theorem starry_last {ps : List Piece} {n : Nat} {b : List Chunk} {bol : Bool} (h : JoinedFrom bol (ps.map .txt ++ .stars n :: b)) (hne : ps ≠ []) :
    (render ps).getLast? = some '\n' := by
  induction ps generalizing bol with
  | nil => exact absurd rfl hne
  | cons p ps ih =>
    cases ps with
    | nil =>
      have hj : p.isBrk = true := h.2.1
      cases p with
      | brk m => simp [render, Piece.text, List.replicate_succ']
      | _ => cases hj
    | cons q ps =>
      rw [render_cons, getLast?_or, ih (bol := p.isBrk) h.2.2 (by simp)]
      rfl

/-- A text of its own. -/
theorem pars_doc (b : Pars) (hp : Prose b.pieces) (hf : b.Fine) :
    AllOutline b.sems ∧ sizes b.sems ≤ 5 * (render b.pieces).length ∧ visible (linesAll b.sems).flatten = visible (render b.pieces) ∧
    (Tidy (render b.pieces) → Unbroken b.sems → joinLines (linesAll b.sems) = dropNl (render b.pieces)) := by
  have hj : ∀ {ps : List Piece} {bol : Bool}, ProseFrom bol ps → JoinedFrom bol (ps.map Chunk.txt) := by
    intro ps
    induction ps with
    | nil => intro _ _; trivial
    | cons p ps ih =>
      intro bol h
      refine ⟨h.1, ?_, ih h.2.2⟩
      have := h.2.1
      cases ps <;> exact this
  have hload := load_outline ⟨b, []⟩ (by simpa [Pipeline.Outline.chunks, Joined] using hj hp) ⟨hf, trivial⟩ (fun e he => by cases he)
    (n := b.pieces.length + 4) (by simp [Pipeline.Outline.chunks])
  have e1 : Pipeline.written (Pipeline.Outline.chunks ⟨b, []⟩) = render b.pieces := by
    simp only [Pipeline.Outline.chunks, List.flatMap_nil, List.append_nil, written_txt]
  have e2 : Pipeline.Outline.sems ⟨b, []⟩ = b.sems := by simp [Pipeline.Outline.sems, sections]
  rw [e1, e2] at hload
  obtain ⟨toks, f, h1, h2, h3, h4, h5⟩ := load_prose b.pieces hp _ le_rfl
  have e3 : b.sems = semsOf toks f := by
    rw [hload] at h1
    exact Except.ok.inj h1
  have hd := doc_reads h3 h4
  refine ⟨by rw [e3]; exact hd.outline, by rw [e3, ← h5]; exact hd.size, by rw [e3, ← h5]; exact hd.visible, fun ht hu => ?_⟩
  exact prose_join b.pieces hp _ le_rfl ht hload hu

/-- Text in one line. -/
theorem inl_flats (t : Pipeline.Inl) (h : ∀ p ∈ t.pieces, p.isBrk = false) : flats t.sems = render t.pieces := by
  induction t with
  | nil => rfl
  | piece p r ih =>
    have hp := h p (by simp [Pipeline.Inl.pieces])
    rw [Pipeline.Inl.sems, flats, ih (fun q hq => h q (by simp [Pipeline.Inl.pieces, hq])), Pipeline.Inl.pieces, render_cons]
    congr 1
    cases p with
    | brk n => cases hp
    | word w =>
      simp only [Piece.semKind]
      split_ifs <;> rfl
    | _ => rfl
  | bold t r iht ihr =>
    rw [Pipeline.Inl.sems, flats, flat, iht (fun q hq => h q (by simp [Pipeline.Inl.pieces, hq])), ihr (fun q hq => h q (by simp [Pipeline.Inl.pieces, hq])), Pipeline.Inl.pieces,
      render_cons, render_append, render_cons]
    simp [mark, Piece.text]
  | italic t r iht ihr =>
    rw [Pipeline.Inl.sems, flats, flat, iht (fun q hq => h q (by simp [Pipeline.Inl.pieces, hq])), ihr (fun q hq => h q (by simp [Pipeline.Inl.pieces, hq])), Pipeline.Inl.pieces,
      render_cons, render_append, render_cons]
    simp [mark, Piece.text]

theorem inl_inline (t : Pipeline.Inl) (hv : ∀ p ∈ t.pieces, p.Valid) (h : ∀ p ∈ t.pieces, p.isBrk = false) :
    AllInline t.sems ∧ (∀ s ∈ t.sems, s.isNewline = false) ∧ sizes t.sems ≤ 3 * (render t.pieces).length := by
  induction t with
  | nil => exact ⟨trivial, by simp [Pipeline.Inl.sems], by simp [Pipeline.Inl.sems, sizes]⟩
  | piece p r ih =>
    obtain ⟨h1, h2, h3⟩ := ih (fun q hq => hv q (by simp [Pipeline.Inl.pieces, hq])) (fun q hq => h q (by simp [Pipeline.Inl.pieces, hq]))
    have hp := h p (by simp [Pipeline.Inl.pieces])
    obtain ⟨k1, k2⟩ := piece_line (hv p (by simp [Pipeline.Inl.pieces])) hp
    have hk : p.semKind ≠ .Newline := by
      cases p with
      | brk n => cases hp
      | word w => simp only [Piece.semKind]; split_ifs <;> simp
      | _ => simp [Piece.semKind]
    have hlen := List.length_pos_iff.mpr k1
    refine ⟨⟨?_, h1⟩, ?_, ?_⟩
    · cases hs : p.semKind <;> first | exact absurd hs hk | exact k2
    · intro s hs
      rcases List.mem_cons.mp hs with rfl | hs
      · cases hs : p.semKind <;> first | exact absurd hs hk | rfl
      · exact h2 s hs
    · simp only [Pipeline.Inl.sems, sizes, size, Pipeline.Inl.pieces, render_cons, List.length_append]
      omega
  | bold t r iht ihr =>
    obtain ⟨h1, h2, h3⟩ := ihr (fun q hq => hv q (by simp [Pipeline.Inl.pieces, hq])) (fun q hq => h q (by simp [Pipeline.Inl.pieces, hq]))
    obtain ⟨k1, k2, k3⟩ := iht (fun q hq => hv q (by simp [Pipeline.Inl.pieces, hq])) (fun q hq => h q (by simp [Pipeline.Inl.pieces, hq]))
    refine ⟨⟨⟨by simp [mark], k1⟩, h1⟩, ?_, ?_⟩
    · intro s hs
      rcases List.mem_cons.mp hs with rfl | hs
      · rfl
      · exact h2 s hs
    · simp only [Pipeline.Inl.sems, sizes, size, Pipeline.Inl.pieces, render_cons, render_append, List.length_append, Piece.text, List.length_cons, List.length_nil]
      omega
  | italic t r iht ihr =>
    obtain ⟨h1, h2, h3⟩ := ihr (fun q hq => hv q (by simp [Pipeline.Inl.pieces, hq])) (fun q hq => h q (by simp [Pipeline.Inl.pieces, hq]))
    obtain ⟨k1, k2, k3⟩ := iht (fun q hq => hv q (by simp [Pipeline.Inl.pieces, hq])) (fun q hq => h q (by simp [Pipeline.Inl.pieces, hq]))
    refine ⟨⟨⟨by simp [mark], k1⟩, h1⟩, ?_, ?_⟩
    · intro s hs
      rcases List.mem_cons.mp hs with rfl | hs
      · rfl
      · exact h2 s hs
    · simp only [Pipeline.Inl.sems, sizes, size, Pipeline.Inl.pieces, render_cons, render_append, List.length_append, Piece.text, List.length_cons, List.length_nil]
      omega

/-- Trimming drops blanks at the end. -/
theorem trim_split (t : Pipeline.Inl) : ∃ z, t.pieces = t.trim.pieces ++ z ∧ (∀ p ∈ z, (∃ n, p = .gap n) ∨ ∃ n, p = .brk n) := by
  induction t with
  | nil => exact ⟨[], rfl, by simp⟩
  | piece p r ih =>
    obtain ⟨z, h1, h2⟩ := ih
    by_cases hb : ((∃ n, p = .gap n) ∨ ∃ n, p = .brk n) ∧ r.trim = .nil
    · obtain ⟨hb, hr⟩ := hb
      refine ⟨p :: z, ?_, ?_⟩
      · rw [hr] at h1
        rcases hb with ⟨n, rfl⟩ | ⟨n, rfl⟩ <;> simp [Pipeline.Inl.pieces, Pipeline.Inl.trim, hr, h1]
      · intro q hq
        rcases List.mem_cons.mp hq with rfl | hq
        · exact hb
        · exact h2 q hq
    · refine ⟨z, ?_, h2⟩
      have : (Pipeline.Inl.piece p r).trim = .piece p r.trim := by
        cases p <;> cases hr : r.trim <;> first | (simp [hr] at hb; done) | simp [Pipeline.Inl.trim, hr]
      rw [this, Pipeline.Inl.pieces, Pipeline.Inl.pieces, h1]
      rfl
  | bold t r _ ih =>
    obtain ⟨z, h1, h2⟩ := ih
    exact ⟨z, by simp [Pipeline.Inl.pieces, Pipeline.Inl.trim, h1], h2⟩
  | italic t r _ ih =>
    obtain ⟨z, h1, h2⟩ := ih
    exact ⟨z, by simp [Pipeline.Inl.pieces, Pipeline.Inl.trim, h1], h2⟩

/-! ## Headlines -/

/-- The line of a headline. -/
def lineChunks (e : Entry) : List Chunk :=
  .stars e.level :: .txt (.gap e.gap) :: (e.mark.chunks ++ (e.title.pieces ++ tagPieces e.tags).map .txt)

theorem chunks_split (e : Entry) : e.chunks = lineChunks e ++ (stopPieces e.stop ++ e.body.pieces).map .txt := by
  simp [Entry.chunks, lineChunks, Entry.tail]

theorem tags_text (ts : List (List Char)) (h : ts ≠ []) : render (tagPieces ts) = [':'] ++ sepBy [':'] ts ++ [':'] := by
  simp only [tagPieces, h, if_false, render_cons, Piece.text]
  have key : ∀ ts : List (List Char), ts ≠ [] → render (ts.flatMap fun t => [Piece.word t, .colon]) = sepBy [':'] ts ++ [':'] := by
    intro ts
    induction ts with
    | nil => intro h; exact absurd rfl h
    | cons t ts ih =>
      intro _
      cases ts with
      | nil => simp [render, Piece.text, sepBy]
      | cons u ts =>
        rw [List.flatMap_cons, render_append, ih (by simp), sepBy_cons [':'] t (u :: ts) (by simp)]
        simp [render, Piece.text]
  rw [key ts h]
  simp

/-- The tags, with the one for archived headlines in front. -/
theorem tags_order {e : Entry} (h : Pipeline.archive ∉ e.tags.tail) :
    (if e.info.archived then [archiveTag] else []) ++ e.info.tags = e.tags := by
  have ha : archiveTag = Pipeline.archive := rfl
  unfold Entry.info
  rw [ha]
  simp only [decide_eq_true_eq]
  cases ht : e.tags with
  | nil => simp
  | cons x r =>
    rw [ht] at h
    have hr : r.filter (fun t => decide (t ≠ Pipeline.archive)) = r := by
      rw [List.filter_eq_self]
      intro t htr
      simp only [ne_eq, decide_eq_true_eq]
      rintro rfl
      exact h htr
    by_cases hx : x = Pipeline.archive
    · rw [if_pos (by simp [hx]), List.filter_cons_of_neg (by simp [hx]), hr, hx]
      rfl
    · rw [if_neg (by simp only [List.mem_cons, not_or]; exact ⟨fun e => hx e.symm, h⟩), List.filter_cons_of_pos (by simp [hx]), hr]
      rfl

theorem tagsText_eq {e : Entry} (h : Pipeline.archive ∉ e.tags.tail) : tagsText e.info = if e.tags = [] then [] else [render (tagPieces e.tags)] := by
  unfold tagsText
  rw [tags_order h]
  cases ht : e.tags with
  | nil => rfl
  | cons x r => simp [tags_text (x :: r) (by simp)]

theorem visible_spaces (n : Nat) : visible (List.replicate n ' ') = [] := by
  induction n with
  | zero => rfl
  | succ n ih => rw [List.replicate_succ]; exact ih

theorem visible_sepBy (ts : List (List Char)) : visible (sepBy [' '] ts) = visible ts.flatten := by
  induction ts with
  | nil => rfl
  | cons t ts ih =>
    cases ts with
    | nil => simp [sepBy]
    | cons u ts =>
      rw [sepBy_cons [' '] t (u :: ts) (by simp), visible_append, visible_append, ih, List.flatten_cons (l := t), visible_append,
        show visible [' '] = [] from rfl, List.append_nil]

theorem visible_trim (t : Pipeline.Inl) : visible (render t.trim.pieces) = visible (render t.pieces) := by
  obtain ⟨z, h1, h2⟩ := trim_split t
  rw [h1, render_append, visible_append]
  have : visible (render z) = [] := by
    clear h1
    induction z with
    | nil => rfl
    | cons p z ih =>
      rw [render_cons, visible_append, ih (fun q hq => h2 q (by simp [hq])), List.append_nil]
      rcases h2 p (by simp) with ⟨n, rfl⟩ | ⟨n, rfl⟩
      · exact visible_spaces _
      · simp [Piece.text, visible]
  rw [this, List.append_nil]

theorem trim_line {t : Pipeline.Inl} (h : ∀ p ∈ t.pieces, p.isBrk = false) : ∀ p ∈ t.trim.pieces, p.isBrk = false := by
  obtain ⟨z, h1, -⟩ := trim_split t
  intro p hp
  exact h p (by rw [h1]; simp [hp])

/-- The visible characters of the line of a headline. -/
theorem line_visible (e : Entry) (ht : ∀ p ∈ e.title.pieces, p.isBrk = false) (ha : Pipeline.archive ∉ e.tags.tail) :
    visible (List.replicate (e.level + 1) '*' ++ ' ' :: headLine e.info e.title.trim.sems) = visible (Pipeline.written (lineChunks e)) := by
  have htl := inl_flats e.title.trim (trim_line ht)
  have htv := visible_trim e.title
  have htags : visible (tagsText e.info).flatten = visible (render (tagPieces e.tags)) := by
    rw [tagsText_eq ha]
    by_cases h : e.tags = []
    · simp [h, tagPieces, render]
    · simp [h]
  have hs : ∀ (c : Char) (l : List Char), visible (c :: l) = visible [c] ++ visible l := fun c l => visible_append [c] l
  rw [lineChunks, written_cons, written_cons, written_append, written_txt, visible_append, visible_append, visible_append, visible_append,
    render_append, visible_append, ← htv, ← htags]
  simp only [Chunk.text, Piece.text, visible_spaces, List.nil_append]
  congr 1
  rw [hs, headLine, visible_sepBy, htl]
  simp only [Entry.info, List.flatten_append, visible_append, Bool.false_eq_true, if_false, List.flatten_nil, List.flatten_cons]
  have v0 : visible [] = [] := rfl
  have v1 : visible [' '] = [] := rfl
  simp only [v0, v1, List.append_nil, List.nil_append, List.append_assoc]
  rw [← List.append_assoc]
  congr 1
  cases e.mark with
  | none => rfl
  | priority c g =>
    rw [Mark.chunks, written_cons, written_cons, visible_append, visible_append]
    simp [Mark.todo, Mark.prio, Pipeline.written, Chunk.text, Piece.text, visible_spaces, v0]
  | keyword w g c g' =>
    rw [Mark.chunks, written_cons, written_cons, written_cons, written_cons, visible_append, visible_append, visible_append, visible_append]
    simp [Mark.todo, Mark.prio, Pipeline.written, Chunk.text, Piece.text, visible_spaces, v0]

/-- The line of a headline with single spaces between its parts. -/
theorem line_exact (e : Entry) (ht : ∀ p ∈ e.title.pieces, p.isBrk = false) (ha : Pipeline.archive ∉ e.tags.tail) (hg : e.gap = 0)
    (hm : e.mark.Neat) (hs : e.title.pieces = e.title.trim.pieces ++ if e.tags = [] then [] else [.gap 0]) :
    List.replicate (e.level + 1) '*' ++ ' ' :: headLine e.info e.title.trim.sems = Pipeline.written (lineChunks e) := by
  have htl := inl_flats e.title.trim (trim_line ht)
  rw [lineChunks, written_cons, written_cons, written_append, written_txt, headLine, htl, tagsText_eq ha, hs, render_append, render_append, hg]
  simp only [Chunk.text, Piece.text, Entry.info]
  congr 1
  simp only [List.replicate_one, Nat.zero_add, List.cons_append, List.nil_append, Bool.false_eq_true, if_false, List.append_nil]
  congr 1
  by_cases h : e.tags = []
  · cases hmk : e.mark with
    | none => simp [h, Mark.todo, Mark.prio, Mark.chunks, Pipeline.written, tagPieces, render, sepBy]
    | priority c g =>
      rw [hmk] at hm
      obtain rfl : g = 0 := hm
      simp [h, Mark.todo, Mark.prio, Mark.chunks, Pipeline.written, Chunk.text, Piece.text, tagPieces, render, sepBy]
    | keyword w g c g' =>
      rw [hmk] at hm
      obtain ⟨rfl, rfl⟩ : g = 0 ∧ g' = 0 := hm
      simp [h, Mark.todo, Mark.prio, Mark.chunks, Pipeline.written, Chunk.text, Piece.text, tagPieces, render, sepBy]
  · have h1 : render [Piece.gap 0] = [' '] := rfl
    simp only [h, if_false, h1]
    cases hmk : e.mark with
    | none => simp [Mark.todo, Mark.prio, Mark.chunks, Pipeline.written, sepBy]
    | priority c g =>
      rw [hmk] at hm
      obtain rfl : g = 0 := hm
      simp [Mark.todo, Mark.prio, Mark.chunks, Pipeline.written, Chunk.text, Piece.text, sepBy]
    | keyword w g c g' =>
      rw [hmk] at hm
      obtain ⟨rfl, rfl⟩ : g = 0 ∧ g' = 0 := hm
      simp [Mark.todo, Mark.prio, Mark.chunks, Pipeline.written, Chunk.text, Piece.text, sepBy]

/-! ## Entries -/

theorem starry_entries (r : List Entry) : Pipeline.Starry (r.flatMap Entry.chunks) := by
  cases r with
  | nil => exact .inl rfl
  | cons e r => exact .inr ⟨e.level, _, by rw [List.flatMap_cons, Entry.chunks, List.cons_append]⟩

theorem bolAfter_append (a b : List Chunk) (bol : Bool) : Pipeline.bolAfter bol (a ++ b) = Pipeline.bolAfter (Pipeline.bolAfter bol a) b := by
  induction a generalizing bol with
  | nil => rfl
  | cons c a ih => exact ih _

/-- The text of an entry. -/
theorem body_joined {e : Entry} {r : List Entry} {bol : Bool} (h : JoinedFrom bol ((e :: r).flatMap Entry.chunks)) (hf : e.Fine r) :
    e.body = .nil ∨ (JoinedFrom true (e.body.pieces.map .txt ++ r.flatMap Entry.chunks) ∧ ∃ n, e.stop = some n) := by
  by_cases hb : e.body = .nil
  · exact .inl hb
  · right
    obtain ⟨n, hn⟩ : ∃ n, e.stop = some n := by
      cases hs : e.stop with
      | none => exact absurd (hf.2.2.2.2 hs).1 hb
      | some n => exact ⟨n, rfl⟩
    refine ⟨?_, n, hn⟩
    rw [List.flatMap_cons, chunks_split, hn, List.map_append, List.append_assoc, List.append_assoc] at h
    have h1 := Pipeline.joined_append (Pipeline.joined_append h)
    exact h1

theorem body_prose {e : Entry} {r : List Entry} {bol : Bool} (h : JoinedFrom bol ((e :: r).flatMap Entry.chunks)) (hf : e.Fine r) : Prose e.body.pieces := by
  rcases body_joined h hf with hb | ⟨hb, -⟩
  · rw [hb]; trivial
  · exact prose_of_joined (starry_entries r) hb

theorem tail_joined {e : Entry} {r : List Entry} {bol : Bool} (h : JoinedFrom bol ((e :: r).flatMap Entry.chunks)) :
    ∃ bol', JoinedFrom bol' (r.flatMap Entry.chunks) := by
  rw [List.flatMap_cons] at h
  exact ⟨_, Pipeline.joined_append h⟩

theorem row_visible (es : List Entry) : ∀ {bol : Bool}, JoinedFrom bol (es.flatMap Entry.chunks) → Pipeline.EntriesFine es →
    (∀ e ∈ es, Pipeline.archive ∉ e.tags.tail) → visible (rowLines es).flatten = visible (Pipeline.written (es.flatMap Entry.chunks)) := by
  induction es with
  | nil => intro _ _ _ _; rfl
  | cons e r ih =>
    intro bol hj hf ha
    obtain ⟨bol', hj'⟩ := tail_joined hj
    have hr := ih hj' hf.2 (fun x hx => ha x (by simp [hx]))
    have hl := line_visible e hf.1.2.1.2.1 (ha e (by simp))
    obtain ⟨-, -, hb, -⟩ := pars_doc e.body (body_prose hj hf.1) hf.1.2.2.2.1
    rw [rowLines, List.flatten_append, visible_append, hr, List.flatMap_cons, written_append, visible_append]
    congr 1
    rw [chunks_split, written_append, visible_append, ← hl, entryLines, List.flatten_cons, visible_append, written_txt, render_append]
    congr 1
    have hs : visible (render (stopPieces e.stop)) = [] := by
      cases e.stop with
      | none => rfl
      | some n => simp [stopPieces, render, Piece.text, visible]
    rw [visible_append, hs, List.nil_append, ← hb]
    by_cases hbz : busy e r = true
    · simp [hbz]
    · have : e.body.sems = [] := by
        unfold busy at hbz
        simp at hbz
        exact hbz.1
      simp [hbz, this, linesAll]

/-- The parts of an entry which the formatter needs. -/
def entryCost (e : Entry) : Nat :=
  e.level + 1 + (e.mark.todo.getD []).length + (e.mark.prio.getD []).length + ((e.tags.filter (· ≠ Pipeline.archive)).map fun t => t.length + 1).sum +
    30 + sizes e.title.trim.sems + sizes e.body.sems

theorem sections_sizes (n : Nat) : ∀ es : List Entry, es.length ≤ n → sizes (sections es) = (es.map entryCost).sum := by
  induction n with
  | zero =>
    intro es h
    obtain rfl : es = [] := List.length_eq_zero_iff.mp (by omega)
    rw [sections]; rfl
  | succ n ih =>
    intro es h
    cases es with
    | nil => rw [sections]; rfl
    | cons e r =>
      have ht := Pipeline.takeWhile_le (below e.level) r
      have hd := Pipeline.dropWhile_le (below e.level) r
      simp only [List.length_cons] at h
      have hr : (r.map entryCost).sum = ((r.takeWhile (below e.level)).map entryCost).sum + ((r.dropWhile (below e.level)).map entryCost).sum := by
        conv_lhs => rw [← List.takeWhile_append_dropWhile (p := below e.level) (l := r)]
        rw [List.map_append, List.sum_append]
      rw [sections, sizes, size, sizes_append, ih _ (by omega), ih _ (by omega), List.map_cons, List.sum_cons, hr, entryCost]
      simp only [Entry.info]
      omega

theorem sections_outline (n : Nat) : ∀ es : List Entry, es.length ≤ n →
    (∀ e ∈ es, (∀ t ∈ e.mark.todo, '\n' ∉ t) ∧ (∀ t ∈ e.mark.prio, '\n' ∉ t) ∧ (∀ t ∈ e.tags, '\n' ∉ t) ∧
      e.title.trim.sems ≠ [] ∧ AllInline e.title.trim.sems ∧ (∀ s ∈ e.title.trim.sems, s.isNewline = false) ∧ AllOutline e.body.sems) →
    AllOutline (sections es) := by
  induction n with
  | zero =>
    intro es h _
    obtain rfl : es = [] := List.length_eq_zero_iff.mp (by omega)
    rw [sections]; trivial
  | succ n ih =>
    intro es h hok
    cases es with
    | nil => rw [sections]; trivial
    | cons e r =>
      have ht := Pipeline.takeWhile_le (below e.level) r
      have hd := Pipeline.dropWhile_le (below e.level) r
      simp only [List.length_cons] at h
      obtain ⟨h1, h2, h3, h4, h5, h6, h7⟩ := hok e (by simp)
      rw [sections]
      refine ⟨⟨h1, h2, ?_, h4, h5, h6, ?_⟩, ?_⟩
      · intro t ht
        exact h3 t (List.mem_of_mem_filter ht)
      · rw [allOutline_iff]
        intro s hs
        rcases List.mem_append.mp hs with hs | hs
        · exact (allOutline_iff _).mp h7 s hs
        · exact (allOutline_iff _).mp (ih _ (by omega) (fun x hx => hok x (by simp [(List.takeWhile_sublist _).subset hx]))) s hs
      · exact ih _ (by omega) (fun x hx => hok x (by simp [(List.dropWhile_sublist _).subset hx]))

theorem title_trim {t : Pipeline.Inl} (h : Pipeline.IsTitle t) : t.trim ≠ .nil := by
  intro he
  obtain ⟨z, h1, h2⟩ := trim_split t
  rw [he] at h1
  obtain ⟨p, hp, hg⟩ := h.1
  have hz : z.head? = some p := by rw [← hp, h1]; rfl
  have hm : p ∈ z := List.mem_of_mem_head? hz
  rcases h2 p hm with ⟨n, rfl⟩ | ⟨n, rfl⟩
  · exact hg n rfl
  · exact absurd (h.2.1 (.brk n) (by rw [h1]; simp [hm])) (by simp [Piece.isBrk])

theorem entries_ok (es : List Entry) : ∀ {bol : Bool}, JoinedFrom bol (es.flatMap Entry.chunks) → Pipeline.EntriesFine es →
    AllOutline (sections es) ∧ sizes (sections es) ≤ 40 * (Pipeline.written (es.flatMap Entry.chunks)).length := by
  have key : ∀ (es : List Entry) {bol : Bool}, JoinedFrom bol (es.flatMap Entry.chunks) → Pipeline.EntriesFine es →
      (∀ e ∈ es, (∀ t ∈ e.mark.todo, '\n' ∉ t) ∧ (∀ t ∈ e.mark.prio, '\n' ∉ t) ∧ (∀ t ∈ e.tags, '\n' ∉ t) ∧
        e.title.trim.sems ≠ [] ∧ AllInline e.title.trim.sems ∧ (∀ s ∈ e.title.trim.sems, s.isNewline = false) ∧ AllOutline e.body.sems) ∧
      (es.map entryCost).sum ≤ 40 * (Pipeline.written (es.flatMap Entry.chunks)).length := by
    intro es
    induction es with
    | nil => intro _ _ _; exact ⟨fun e he => (by cases he), by simp⟩
    | cons e r ih =>
      intro bol hj hf
      obtain ⟨bol', hj'⟩ := tail_joined hj
      obtain ⟨h1, h2⟩ := ih hj' hf.2
      have hv : ∀ c ∈ e.chunks, c.Valid := fun c hc => joined_valid hj c (by simp [hc])
      have hvt : ∀ p ∈ e.title.trim.pieces, p.Valid := by
        obtain ⟨z, hz, -⟩ := trim_split e.title
        intro p hp
        exact hv (.txt p) (by simp [Entry.chunks, hz, hp])
      obtain ⟨b1, b2, -, -⟩ := pars_doc e.body (body_prose hj hf.1) hf.1.2.2.2.1
      obtain ⟨t1, t2, t3⟩ := inl_inline e.title.trim hvt (trim_line hf.1.2.1.2.1)
      have hw : ∀ w, Pipeline.IsWord w → '\n' ∉ w := fun w hw hn => ((word_chars hw).2 _ hn).1 rfl
      refine ⟨?_, ?_⟩
      · intro x hx
        rcases List.mem_cons.mp hx with rfl | hx
        · refine ⟨?_, ?_, ?_, fun hn => title_trim hf.1.2.1 (sems_nil hn), t1, t2, b1⟩
          · intro t ht
            cases hm : x.mark with
            | keyword w g c g' =>
              rw [hm] at ht
              cases ht
              exact hw _ (hv (.txt (.word _)) (by simp [Entry.chunks, hm, Mark.chunks]))
            | _ => rw [hm] at ht; cases ht
          · intro t ht
            have hc : ∀ c : Char, (BaseLexer.isAlpha c = true ∨ c = '_') → '\n' ∉ [c] := by
              intro c hc hn
              obtain rfl := List.mem_singleton.mp hn
              revert hc
              decide
            cases hm : x.mark with
            | none => rw [hm] at ht; cases ht
            | priority c g =>
              rw [hm] at ht
              cases ht
              exact hc _ (hv (.prio _) (by simp [Entry.chunks, hm, Mark.chunks]))
            | keyword w g c g' =>
              rw [hm] at ht
              cases ht
              exact hc _ (hv (.prio _) (by simp [Entry.chunks, hm, Mark.chunks]))
          · intro t ht
            refine hw _ (hv (.txt (.word t)) ?_)
            have hne : x.tags ≠ [] := by rintro e; rw [e] at ht; cases ht
            have : Piece.word t ∈ tagPieces x.tags := by
              simp only [tagPieces, hne, if_false, List.mem_cons, reduceCtorEq, List.mem_flatMap, List.not_mem_nil, or_false, false_or]
              exact ⟨t, ht, rfl⟩
            simp [Entry.chunks, Entry.tail, this]
        · exact h1 x hx
      · rw [List.map_cons, List.sum_cons, List.flatMap_cons, written_append, List.length_append]
        have hlen : entryCost e ≤ 40 * (Pipeline.written e.chunks).length := by
          rw [chunks_split, lineChunks]
          simp only [List.cons_append, written_cons, written_append, written_txt, List.length_append, Chunk.text, Piece.text,
            List.length_replicate, List.map_append]
          have hz : (render e.title.trim.pieces).length ≤ (render e.title.pieces).length := by
            obtain ⟨z, hz, -⟩ := trim_split e.title
            rw [hz, render_append, List.length_append]
            omega
          have hts : ((e.tags.filter (· ≠ Pipeline.archive)).map fun t => t.length + 1).sum ≤ (render (tagPieces e.tags)).length := by
            have : ∀ ts : List (List Char), ((ts.filter (· ≠ Pipeline.archive)).map fun t => t.length + 1).sum ≤
                (render (ts.flatMap fun t => [Piece.word t, .colon])).length := by
              intro ts
              induction ts with
              | nil => simp
              | cons t ts ih =>
                rw [List.flatMap_cons, render_append, List.length_append]
                have : (render [Piece.word t, .colon]).length = t.length + 1 := by simp [render, Piece.text]
                rw [this, List.filter_cons]
                split
                · rw [List.map_cons, List.sum_cons]; omega
                · omega
            have := this e.tags
            unfold tagPieces
            split
            · next h => rw [h]; simp
            · rw [render_cons, List.length_append]; omega
          have hmk : (e.mark.todo.getD []).length + (e.mark.prio.getD []).length ≤ (Pipeline.written e.mark.chunks).length := by
            cases e.mark with
            | none => simp [Mark.todo, Mark.prio]
            | priority c g => simp [Mark.todo, Mark.prio, Mark.chunks, Pipeline.written, Chunk.text, Piece.text]
            | keyword w g c g' => simp [Mark.todo, Mark.prio, Mark.chunks, Pipeline.written, Chunk.text, Piece.text]; omega
          unfold entryCost
          omega
        omega
  intro bol hj hf
  obtain ⟨h1, h2⟩ := key es hj hf
  exact ⟨sections_outline _ es le_rfl h1, by rw [sections_sizes _ es le_rfl]; exact h2⟩

/-! ## Exactly -/

/-- The lines, each with a line break. -/
def unl (ls : List (List Char)) : List Char := (ls.map (· ++ ['\n'])).flatten

theorem unl_append (a b : List (List Char)) : unl (a ++ b) = unl a ++ unl b := by simp [unl]

theorem unl_join {ls : List (List Char)} (h : ls ≠ []) : unl ls = joinLines ls ++ ['\n'] := by
  induction ls with
  | nil => exact absurd rfl h
  | cons l ls ih =>
    cases ls with
    | nil => simp [unl, joinLines]
    | cons l' ls =>
      rw [Layout.joinLines_cons _ _ (by simp), show unl (l :: l' :: ls) = l ++ ['\n'] ++ unl (l' :: ls) from by simp [unl], ih (by simp)]
      simp

/-- The text with a line break at its end. -/
def closed (t : List Char) : List Char := if t = [] then [] else dropNl t ++ ['\n']

theorem closed_append (a b : List Char) (h : b ≠ []) : closed (a ++ b) = a ++ closed b := by
  unfold closed
  rw [if_neg h, if_neg (by simp [h]), dropNl_append a b h, List.append_assoc]

theorem closed_nl {t : List Char} (h : t.getLast? = some '\n') : closed t = t := by
  obtain ⟨u, rfl⟩ := List.getLast?_eq_some_iff.mp h
  simp [closed, dropNl]

theorem busy_iff (e : Entry) (r : List Entry) : busy e r = true ↔ e.Busy r := by
  have h1 : e.body.sems = [] ↔ e.body = .nil := by cases e.body <;> simp [Pars.sems]
  unfold busy Entry.Busy
  cases r with
  | nil => simp [h1]
  | cons x r => simp [h1, below]

/-- The lines of a text of its own. -/
theorem pars_closed {b : Pars} (hp : Prose b.pieces) (hf : b.Fine) (ht : Tidy (render b.pieces)) (hu : Unbroken b.sems) (hne : b.pieces ≠ []) :
    unl (linesAll b.sems) = closed (render b.pieces) := by
  obtain ⟨-, -, -, h⟩ := pars_doc b hp hf
  have hj := h ht hu
  obtain ⟨p, ps, hps⟩ : ∃ p ps, b.pieces = p :: ps := by
    cases h : b.pieces with
    | nil => exact absurd h hne
    | cons p ps => exact ⟨p, ps, rfl⟩
  have hpb : p.isBrk = false := by
    have := ht.start
    rw [hps] at this
    cases p with
    | brk n => exact absurd rfl this
    | _ => rfl
  have hpt := piece_line (show p.Valid by rw [hps] at hp; exact hp.1) hpb
  obtain ⟨c, cs, hcs⟩ : ∃ c cs, p.text = c :: cs := by
    cases h : p.text with
    | nil => exact absurd h hpt.1
    | cons c cs => exact ⟨c, cs, rfl⟩
  have hc : c ≠ '\n' := fun e => hpt.2 (by rw [hcs, e]; simp)
  have hr : render b.pieces = c :: (cs ++ render ps) := by rw [hps, render_cons, hcs]; rfl
  have hd : dropNl (render b.pieces) ≠ [] := by
    rw [hr]
    unfold dropNl
    split
    · next hl =>
      cases h : cs ++ render ps with
      | nil => rw [h] at hl; simp at hl; exact absurd hl hc
      | cons => simp
    · simp
  have hl : linesAll b.sems ≠ [] := by
    intro e
    rw [e] at hj
    exact hd hj.symm
  rw [unl_join hl, hj, closed, if_neg (by rw [hr]; simp)]

theorem line_written_nl (e : Entry) (hv : ∀ c ∈ e.chunks, c.Valid) (ht : ∀ p ∈ e.title.pieces, p.isBrk = false) :
    '\n' ∉ Pipeline.written (lineChunks e) ∧ Pipeline.written (lineChunks e) ≠ [] := by
  refine ⟨?_, by simp [lineChunks, written_cons, Chunk.text, List.replicate_succ]⟩
  intro hm
  rw [Pipeline.written, List.mem_flatten] at hm
  obtain ⟨t, h1, h2⟩ := hm
  obtain ⟨c, h3, rfl⟩ := List.mem_map.mp h1
  have hcv : c.Valid := hv c (by rw [chunks_split]; exact List.mem_append_left _ h3)
  have hb : c.isBrk = false := by
    simp only [lineChunks, List.mem_cons, List.mem_append, List.mem_map] at h3
    rcases h3 with rfl | rfl | h3 | ⟨p, h3 | h3, rfl⟩
    · rfl
    · rfl
    · cases hm : e.mark <;> rw [hm] at h3 <;> simp only [Mark.chunks, List.mem_cons, List.not_mem_nil, or_false] at h3
      · rcases h3 with rfl | rfl <;> rfl
      · rcases h3 with rfl | rfl | rfl | rfl <;> rfl
    · exact ht p h3
    · unfold tagPieces at h3
      split at h3
      · cases h3
      · simp only [List.mem_cons, List.mem_flatMap, List.not_mem_nil, or_false] at h3
        rcases h3 with rfl | ⟨t, -, rfl | rfl⟩ <;> rfl
  cases c with
  | txt p => exact (piece_line hcv hb).2 h2
  | stars n => simp [Chunk.text] at h2
  | prio c =>
    simp only [Chunk.text, List.mem_cons, List.not_mem_nil, or_false, Char.reduceEq, false_or] at h2
    subst h2
    revert hcv
    simp [Chunk.Valid]
    decide

theorem row_exact (es : List Entry) : ∀ {bol : Bool}, JoinedFrom bol (es.flatMap Entry.chunks) → Pipeline.EntriesFine es → Pipeline.EntriesNeat es →
    (∀ e ∈ es, Unbroken e.body.sems) → ¬ [' ', '\n'] <:+: Pipeline.written (es.flatMap Entry.chunks) →
    (Pipeline.written (es.flatMap Entry.chunks)).getLast? ≠ some ' ' →
    unl (rowLines es) = closed (Pipeline.written (es.flatMap Entry.chunks)) := by
  induction es with
  | nil => intro _ _ _ _ _ _ _; rfl
  | cons e r ih =>
    intro bol hj hf hn hu ht hlast
    obtain ⟨bol', hj'⟩ := tail_joined hj
    have hv : ∀ c ∈ e.chunks, c.Valid := fun c hc => joined_valid hj c (by simp [hc])
    have hbp := body_prose hj hf.1
    have hbj := body_joined hj hf.1
    rw [List.flatMap_cons, written_append] at ht hlast ⊢
    have hr := ih hj' hf.2 hn.2 (fun x hx => hu x (by simp [hx])) (fun h => ht (h.trans (List.suffix_append _ _).isInfix)) (by
      intro h
      apply hlast
      rw [getLast?_or, h]
      rfl)
    obtain ⟨hnl, hlne⟩ := line_written_nl e hv hf.1.2.1.2.1
    have hl := line_exact e hf.1.2.1.2.1 hn.1.tags hn.1.gap hn.1.mark hn.1.title
    -- the body
    have hbody : e.body ≠ .nil → unl (linesAll e.body.sems) = closed (render e.body.pieces) ∧ render e.body.pieces ≠ [] ∧
        (r ≠ [] → (render e.body.pieces).getLast? = some '\n') := by
      intro hne
      obtain ⟨hj1, n, hstop⟩ := hbj.resolve_left hne
      have hpne : e.body.pieces ≠ [] := by
        cases hb : e.body with
        | nil => exact absurd hb hne
        | brk n b => simp [Pars.pieces]
        | par t b =>
          have hbf := hf.1.2.2.2.1
          rw [hb] at hbf
          obtain ⟨p, hp, -⟩ := hbf.1
          intro h
          simp only [Pars.pieces, List.append_eq_nil_iff] at h
          rw [h.1] at hp
          cases hp
      have hend : r ≠ [] → (render e.body.pieces).getLast? = some '\n' := by
        intro hr
        cases r with
        | nil => exact absurd rfl hr
        | cons x r =>
          rw [List.flatMap_cons, Entry.chunks, List.cons_append] at hj1
          exact starry_last hj1 hpne
      obtain ⟨p, ps, hps⟩ : ∃ p ps, e.body.pieces = p :: ps := by
        cases h : e.body.pieces with
        | nil => exact absurd h hpne
        | cons p ps => exact ⟨p, ps, rfl⟩
      have hpb : p.isBrk = false := by
        have hjs := hj
        rw [List.flatMap_cons, chunks_split, hstop, List.map_append, List.append_assoc, List.append_assoc] at hjs
        have h1 := (Pipeline.joined_append hjs).2.1
        simp only [List.map_nil, List.nil_append, hps, List.map_cons, List.cons_append, List.head?_cons, Pipeline.joins] at h1
        cases p with
        | brk m => exact absurd rfl (h1 m).2
        | _ => rfl
      have hpt := piece_line (show p.Valid by rw [hps] at hbp; exact hbp.1) hpb
      have hrne : render e.body.pieces ≠ [] := by rw [hps, render_cons]; simp [hpt.1]
      have hsub : render e.body.pieces <:+: Pipeline.written e.chunks ++ Pipeline.written (r.flatMap Entry.chunks) := by
        rw [chunks_split, written_append, written_txt, render_append]
        exact ⟨Pipeline.written (lineChunks e) ++ render (stopPieces e.stop), Pipeline.written (r.flatMap Entry.chunks), by simp⟩
      refine ⟨pars_closed hbp hf.1.2.2.2.1 ⟨?_, fun h => ht (h.trans hsub), ?_⟩ (hu e (by simp)) hpne, hrne, hend⟩
      · rw [hps, render_cons]
        intro h
        cases hpx : p.text with
        | nil => exact hpt.1 hpx
        | cons c cs =>
          rw [hpx] at h
          simp only [List.cons_append, List.head?_cons, Option.some.injEq] at h
          exact hpt.2 (by rw [hpx, h]; simp)
      · by_cases hr : r = []
        · subst hr
          intro h
          apply hlast
          rw [chunks_split, written_append, written_txt, render_append, List.flatMap_nil,
            show Pipeline.written [] = [] from rfl, List.append_nil, getLast?_or, getLast?_or, h]
          rfl
        · rw [hend hr]; simp
    have hline : unl (entryLines e r) = Pipeline.written (lineChunks e) ++ ['\n'] ++ (if busy e r then ['\n'] ++ unl (linesAll e.body.sems) else []) := by
      rw [entryLines, hl]
      by_cases hbz : busy e r = true
      · simp [hbz, unl]
      · simp [hbz, unl]
    rw [rowLines, unl_append, hline, hr, chunks_split, written_append, written_txt, render_append]
    by_cases hbz : busy e r = true
    · have hstop := hn.1.busy ((busy_iff e r).mp hbz)
      have h2 : render (stopPieces e.stop) = ['\n', '\n'] := by rw [hstop]; rfl
      rw [if_pos hbz, h2]
      by_cases hb : e.body = .nil
      · -- there is another headline
        have hrne : r ≠ [] := by
          rcases (busy_iff e r).mp hbz with h | ⟨x, hx, -⟩
          · exact absurd hb h
          · rintro rfl; cases hx
        have hwne : Pipeline.written (r.flatMap Entry.chunks) ≠ [] := by
          cases r with
          | nil => exact absurd rfl hrne
          | cons x r => simp [Entry.chunks, written_cons, Chunk.text, List.replicate_succ]
        rw [closed_append _ _ hwne, hb]
        simp [Pars.sems, linesAll, unl, Pars.pieces, render]
      · obtain ⟨b1, b2, b3⟩ := hbody hb
        by_cases hrne : r = []
        · subst hrne
          rw [b1, List.flatMap_nil, show Pipeline.written [] = [] from rfl, List.append_nil, show closed [] = [] from rfl, List.append_nil,
            ← List.append_assoc (Pipeline.written (lineChunks e)), closed_append _ _ b2]
          simp
        · have hwne : Pipeline.written (r.flatMap Entry.chunks) ≠ [] := by
            cases r with
            | nil => exact absurd rfl hrne
            | cons x r => simp [Entry.chunks, written_cons, Chunk.text, List.replicate_succ]
          rw [closed_append _ _ hwne, b1, closed_nl (b3 hrne)]
          simp
    · have hfree := hn.1.free (fun h => hbz ((busy_iff e r).mpr h))
      have hb : e.body = .nil := by
        by_contra hb
        exact hbz ((busy_iff e r).mpr (.inl hb))
      have hp0 : render e.body.pieces = [] := by rw [hb]; rfl
      rw [if_neg hbz, hp0, List.append_nil, List.append_nil]
      by_cases hrne : r = []
      · subst hrne
        rw [List.flatMap_nil, show Pipeline.written [] = [] from rfl, List.append_nil, show closed [] = [] from rfl, List.append_nil]
        rcases hfree with h | ⟨-, h⟩
        · rw [h, show render (stopPieces (some 0)) = ['\n'] from rfl, closed_nl (by simp)]
        · rw [h, show render (stopPieces none) = [] from rfl, List.append_nil, closed, if_neg hlne, dropNl, if_neg]
          intro h
          exact hnl (List.mem_of_getLast? h)
      · have hwne : Pipeline.written (r.flatMap Entry.chunks) ≠ [] := by
          cases r with
          | nil => exact absurd rfl hrne
          | cons x r => simp [Entry.chunks, written_cons, Chunk.text, List.replicate_succ]
        rcases hfree with h | ⟨h, -⟩
        · rw [h, show render (stopPieces (some 0)) = ['\n'] from rfl, closed_append _ _ hwne]
        · exact absurd h hrne

end Verif.Sem
