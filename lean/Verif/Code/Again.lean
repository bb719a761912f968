import Verif.Code.Convert
import Verif.Sem.Exact

/-!
# The text of source blocks is read again
-/

namespace Verif.Code
open Verif.Token
open Verif.Stamp (Raw rawText)
open Verif.Drawer (Text)
open Verif.Sem (Single Singles ShowsLines AllLines str stack added box textOf)
open Verif.Layout (joinLines stripEnd volume volumes)

/-! ## The number of tokens -/

theorem segs_le {l : List Seg} (h : SegsValid l) : (segsRaw l).length ≤ (segsText l).length := by
  induction l with
  | nil => exact Nat.le_refl _
  | cons s l ih =>
    rw [segsRaw_cons]
    have e : segsText (s :: l) = s.text ++ segsText l := rfl
    rw [e, List.length_append, List.length_append]
    cases s with
    | code t =>
      have := ih h.2.2.2
      have h2 := List.length_pos_iff.mpr h.2.1
      simp only [Seg.raw, Seg.text, List.length_cons, List.length_nil]
      omega
    | ref n =>
      have := ih h.2.2.2
      simp only [Seg.raw, Seg.text, List.length_cons, List.length_nil, List.length_append]
      have : "<<".toList.length = 2 := rfl
      have : ">>".toList.length = 2 := rfl
      omega
    | left =>
      have := ih h.2
      simp only [Seg.raw, Seg.text, List.length_cons, List.length_nil]
      have : "<<".toList.length = 2 := rfl
      omega
    | right =>
      have := ih h
      simp only [Seg.raw, Seg.text, List.length_cons, List.length_nil]
      have : ">>".toList.length = 2 := rfl
      omega

theorem dedent_raw (m : Nat) (l : List Seg) : (lineRaw (dedent m l)).length = (lineRaw l).length := by
  cases l with
  | nil => rfl
  | cons s l =>
    cases s <;> simp [dedent, lineRaw, segsRaw, Seg.raw]

theorem linesRaw_le {ls : List (List Seg)} (h : ∀ l ∈ ls, SegsValid l) (m : Nat) : (linesRaw (ls.map (dedent m))).length ≤ 2 * (linesText ls).length := by
  induction ls with
  | nil => exact Nat.le_refl _
  | cons l ls ih =>
    have h1 := ih (fun x hx => h x (List.mem_cons_of_mem _ hx))
    have h2 : linesRaw ((l :: ls).map (dedent m)) = lineRaw (dedent m l) ++ [(TK.Newline, "\n".toList)] ++ linesRaw (ls.map (dedent m)) := rfl
    have h3 : linesText (l :: ls) = segsText l ++ "\n".toList ++ linesText ls := rfl
    have h4 : "\n".toList.length = 1 := rfl
    rw [h2, h3]
    simp only [List.length_append, List.length_cons, List.length_nil, dedent_raw, h4]
    have h5 : (lineRaw l).length ≤ (segsText l).length + 1 := by
      cases l with
      | nil => simp [lineRaw]
      | cons s r =>
        have := segs_le (h _ List.mem_cons_self)
        have e : lineRaw (s :: r) = segsRaw (s :: r) := rfl
        rw [e]; omega
    omega

theorem words_le {ws : Words} (h : ∀ w ∈ ws, WordOk w.2) : (wordsRaw ws).length ≤ (wordsText ws).length := by
  induction ws with
  | nil => exact Nat.le_refl _
  | cons w ws ih =>
    have h1 := ih (fun x hx => h x (List.mem_cons_of_mem _ hx))
    obtain ⟨c, u, h2, -⟩ := word_head (h w List.mem_cons_self)
    have h3 : wordsRaw (w :: ws) = [(TK.Whitespace, blanks (w.1 + 1)), w.2] ++ wordsRaw ws := rfl
    have h4 : wordsText (w :: ws) = blanks (w.1 + 1) ++ w.2.2 ++ wordsText ws := rfl
    rw [h3, h4, h2]
    simp only [List.length_append, List.length_cons, List.length_nil, blanks, List.length_replicate]
    omega

theorem fin_le {b : Block} (h : b.Valid) : b.fin.length ≤ 2 * b.text.length := by
  rw [fin_length]
  have h1 := linesRaw_le h.lines b.shift
  have h2 := words_le (words_ok h)
  rw [words_text, List.length_append] at h2
  have h3 : (gapRaw b.gap).length ≤ b.gap := by
    unfold gapRaw
    split_ifs <;> simp
    omega
  have h4 : (afterRaw b.after).length ≤ b.after := by
    cases b.after <;> simp [afterRaw]
  have h5 : lead b ≤ b.indent := by
    unfold lead
    split_ifs <;> omega
  have h6 : b.headSize = (wordsRaw b.words).length + (gapRaw b.gap).length := List.length_append
  have h7 : ((if b.upper then "#+BEGIN_SRC" else "#+begin_src").toList).length = 11 := by cases b.upper <;> rfl
  have h8 : ((if b.upper then "#+END_SRC" else "#+end_src").toList).length = 9 := by cases b.upper <;> rfl
  have h9 : b.text.length = b.indent + (11 + (langText b.lang).length + (argsText b.args).length + b.gap) + 1 + (linesText b.lines).length + (b.close + 9) + b.after := by
    unfold Block.text Block.head Block.foot linesText
    simp only [List.length_append, blanks, List.length_replicate, h7, h8]
    have : "\n".toList.length = 1 := rfl
    omega
  have h10 : linesRaw b.shifted = linesRaw (b.lines.map (dedent b.shift)) := rfl
  rw [h10]
  omega

theorem doc_le {d : List Block} (h : DocValid d) : (docFin d).length ≤ 2 * (render d).length := by
  induction d with
  | nil => exact Nat.le_refl _
  | cons b d ih =>
    have h1 := ih h.2.2
    have h2 := fin_le h.1
    have e : render (b :: d) = b.text ++ render d := rfl
    rw [docFin_cons, e, List.length_append, List.length_append]
    omega

/-! ## Writing -/

theorem single_parts (l : List Part) : ∃ ts, Singles (l.map Part.fmt).flatten ts ∧ ts.flatten = partsText l ∧ (l ≠ [] → (l.map Part.fmt).flatten ≠ []) := by
  induction l with
  | nil => exact ⟨[], .nil, rfl, fun h => absurd rfl h⟩
  | cons p l ih =>
    obtain ⟨ts, h1, h2, -⟩ := ih
    cases p with
    | raw t => exact ⟨t :: ts, .cons (Sem.single_str t) h1, by simp [h2, partsText, Part.text], fun _ => by simp [Part.fmt]⟩
    | tangle t =>
      exact ⟨"<<".toList :: t :: ">>".toList :: ts, .cons (Sem.single_str _) (.cons (Sem.single_str _) (.cons (Sem.single_str _) h1)),
        by simp [h2, partsText, Part.text], fun _ => by simp [Part.fmt]⟩

theorem single_line (l : List Part) : Single (fmtLine l) (partsText l) := by
  unfold fmtLine
  cases l with
  | nil =>
    have := (Singles.cons (Sem.single_str []) .nil).line (by simp)
    simpa [partsText] using this
  | cons p l =>
    obtain ⟨ts, h1, h2, h3⟩ := single_parts (p :: l)
    have := h1.line (h3 (by simp))
    rw [h2] at this
    simpa using this

def headText (lang : Option Text) : Text := "#+begin_src".toList ++ (match lang with | none => [] | some l => ' ' :: l)

theorem single_head (lang : Option Text) : Single (fmtHead lang) (headText lang) := by
  unfold fmtHead headText
  cases lang with
  | none =>
    have := (Singles.cons (Sem.single_str "#+begin_src".toList) .nil).line (by simp)
    simpa using this
  | some l =>
    have := (Singles.cons (Sem.single_str "#+begin_src".toList) (.cons (Sem.single_str (' ' :: l)) .nil)).line (by simp)
    simpa using this

/-- The lines which are written for a block. -/
def Source.shown (s : Source) : List Text := headText s.lang :: (s.lines.map partsText ++ ["#+end_src".toList])

theorem all_single {α : Type} {f : α → Layout.Block} {g : α → Text} (h : ∀ a, Single (f a) (g a)) (l : List α) : AllLines (l.map f) (l.map fun a => [g a]) := by
  induction l with
  | nil => exact .nil
  | cons a l ih => exact .cons (h a).lines ih

theorem all_append {as bs : List Layout.Block} {ls ms : List (List Text)} (h : AllLines as ls) (h' : AllLines bs ms) : AllLines (as ++ bs) (ls ++ ms) := by
  induction h with
  | nil => exact h'
  | cons h _ ih => exact .cons h ih

theorem flat_single {α : Type} (g : α → Text) (l : List α) : (l.map fun a => [g a]).flatten = l.map g := by
  induction l with
  | nil => rfl
  | cons a l ih => simp [ih]

theorem source_lines (s : Source) : ShowsLines s.fmt s.shown := by
  have h := AllLines.cons (single_head s.lang).lines (all_append (all_single single_line s.lines) (.cons (Sem.single_str "#+end_src".toList).lines .nil))
  have := h.addedStack
  simpa [Source.fmt, Source.shown, flat_single] using this

def Node.shown : Node → List Text
  | .code s => s.shown
  | .newline t => List.replicate (t.length - 1) []
  | .nothing => []

theorem node_lines (x : Node) : ShowsLines x.fmt x.shown := by
  cases x with
  | code s => exact source_lines s
  | newline t =>
    have hS : ∀ n, AllLines (List.replicate n (str [])) (List.replicate n [[]]) := by
      intro n
      induction n with
      | zero => exact .nil
      | succ n ih => exact .cons (Sem.single_str []).lines ih
    have := (hS (t.length - 1)).addedStack
    simpa [Node.fmt, Node.shown] using this
  | nothing => exact AllLines.nil.stack (by simp)

theorem nodes_lines (ns : List Node) : AllLines (ns.map Node.fmt) (ns.map Node.shown) := by
  induction ns with
  | nil => exact .nil
  | cons x ns ih => exact .cons (node_lines x) ih

/-! ## How much is written -/

theorem parts_volume (l : List Part) : volumes (l.map Part.fmt).flatten = (partsText l).length := by
  induction l with
  | nil => rfl
  | cons p l ih =>
    rw [List.map_cons, List.flatten_cons, Sem.volumes_append, ih]
    cases p <;> simp [Part.fmt, volumes, Sem.volume_str, partsText, Part.text]
    omega

theorem line_volume (l : List Part) : volume (fmtLine l) = (partsText l).length := by
  unfold fmtLine
  cases l with
  | nil => simp [volume, volumes, Sem.volume_str, partsText]
  | cons p l =>
    have := parts_volume (p :: l)
    simpa [volume] using this

theorem map_volume (ls : List (List Part)) : volumes (ls.map fmtLine) = ((ls.map partsText).map List.length).sum := by
  induction ls with
  | nil => rfl
  | cons l ls ih => simp only [List.map_cons, volumes, line_volume, ih, List.sum_cons]

/-- Number of characters in lines. -/
def total (ls : List Text) : Nat := (ls.map List.length).sum

theorem total_append (a b : List Text) : total (a ++ b) = total a + total b := by simp [total]

theorem source_volume (s : Source) : volume s.fmt ≤ total s.shown := by
  unfold Source.fmt
  rw [stack, volume]
  refine Nat.le_trans (Sem.volumes_added _) ?_
  rw [volumes, Sem.volumes_append, map_volume]
  have h1 : volume (fmtHead s.lang) = (headText s.lang).length := by
    unfold fmtHead headText
    cases s.lang with
    | none => simp [volume, volumes, Sem.volume_str]
    | some l => simp [volume, volumes, Sem.volume_str]; omega
  rw [h1]
  simp [volumes, Sem.volume_str, total, Source.shown, Function.comp_def]

theorem node_volume (x : Node) : volume x.fmt ≤ total x.shown := by
  cases x with
  | code s => exact source_volume s
  | newline t =>
    show volumes _ ≤ _
    refine Nat.le_trans (Sem.volumes_added _) ?_
    rw [Sem.volumes_replicate]
    exact Nat.zero_le _
  | nothing => exact Nat.zero_le _

theorem nodes_volume (ns : List Node) : volumes (ns.map Node.fmt) ≤ total (ns.map Node.shown).flatten := by
  induction ns with
  | nil => exact Nat.le_refl _
  | cons x ns ih =>
    have := node_volume x
    simp only [List.map_cons, volumes, List.flatten_cons, total_append]
    omega

/-- What is written: the lines, without spaces at their ends. -/
theorem write_lines (o : Layout.Options Rat) (ho : Layout.Sane o) (ns : List Node) (hp : ns.all Node.plain = true)
    (hnl : ∀ l ∈ (ns.map Node.shown).flatten, '\n' ∉ l) (hsize : total (ns.map Node.shown).flatten < 1000000000) (fuel : Nat) (hf : 4097 ≤ fuel) :
    write Layout.exact o fuel ns = some (.ok (textOf (ns.map Node.shown).flatten)) := by
  have h3 := (nodes_lines ns).addedStack
  have h4 := nodes_volume ns
  have h5 := Sem.volumes_added (ns.map Node.fmt)
  unfold write
  rw [if_pos hp]
  congr 1
  unfold fmtDocument
  split
  · next e =>
    rw [e] at h3
    have hnil : (ns.map Node.shown).flatten = [] := h3.solid.mp rfl
    rw [hnil, Layout.toString_returns_partial o ho _ ?_ ?_ fuel hf]
    · simp [stack, Layout.picture, Layout.columnPicture, str, Layout.shownText, Sem.chars_str, Layout.aboveO, Layout.printed, joinLines,
        Layout.splitLines, textOf, stripEnd]
    · exact ⟨by decide, ⟨trivial, trivial⟩, by simp [str, Layout.picture]⟩
    · simp [stack, volume, volumes, Sem.volume_str]
  · rw [Layout.toString_returns_partial o ho _ h3.filled (by simp only [stack, volume]; omega) fuel hf, h3.shows, Sem.printed_box _ hnl]

/-! ## The document which is written -/

theorem parts_line (l : List Seg) : partsText (lineParts l) = segsText l := by
  unfold lineParts
  cases l with
  | nil => rfl
  | cons s r =>
    have : ∀ l : List Seg, partsText (l.map Seg.part) = segsText l := by
      intro l
      induction l with
      | nil => rfl
      | cons s r ih =>
        have e : segsText (s :: r) = s.text ++ segsText r := rfl
        have e' : partsText ((s :: r).map Seg.part) = s.part.text ++ partsText (r.map Seg.part) := rfl
        rw [e, e', ih]
        cases s <;> rfl
    exact this (s :: r)

theorem segs_clean (l : List Seg) : segsText (clean l) = segsText l := by
  induction l with
  | nil => rfl
  | cons s r ih =>
    have e : segsText (s :: r) = s.text ++ segsText r := rfl
    unfold clean at ih ⊢
    rw [List.filter_cons]
    split_ifs with h
    · rw [e, ← ih]; rfl
    · have : s = .code [] := by simpa using h
      rw [e, ih, this]; rfl

theorem join_lines (h f : Text) (ls : List Text) : joinLines (h :: (ls ++ [f])) = h ++ "\n".toList ++ (ls.map fun l => l ++ "\n".toList).flatten ++ f := by
  induction ls generalizing h with
  | nil => simp [joinLines]
  | cons l ls ih =>
    rw [List.cons_append, Layout.joinLines_cons _ _ (by simp), ih]
    simp

theorem canon_text (b : Block) (k : Nat) : (b.canon k).text = joinLines b.code.shown ++ List.replicate k '\n' := by
  unfold Source.shown
  rw [join_lines]
  have h1 : ((b.canon k).lines.map fun l => segsText l ++ "\n".toList) = ((b.code.lines.map partsText).map fun l => l ++ "\n".toList) := by
    simp only [Block.canon, Block.code, List.map_map]
    refine List.map_congr_left fun l _ => ?_
    simp only [Function.comp, parts_line, segs_clean]
  have h2 : (b.canon k).head = headText b.code.lang := by
    unfold Block.head headText Block.canon Block.code
    cases b.lang with
    | none => simp [langText, argsText, blanks]
    | some l => simp [langText, argsText, blanks]
  have h3 : (b.canon k).foot = "#+end_src".toList := by simp [Block.foot, Block.canon, blanks]
  have h4 : (b.canon k).indent = 0 := rfl
  have h5 : (b.canon k).after = k := rfl
  unfold Block.text
  rw [h1, h2, h3, h4, h5]
  rfl

theorem join_breaks (a : List Text) (ha : a ≠ []) (n : Nat) : joinLines (a ++ List.replicate n []) = joinLines a ++ List.replicate n '\n' := by
  rw [Sem.joinLines_append a _ ha]
  congr 1
  induction n with
  | zero => rfl
  | succ n ih => simp [List.replicate_succ, ih]

theorem join_rest (a b : List Text) (ha : a ≠ []) (hb : b ≠ []) : joinLines (a ++ b) = joinLines a ++ '\n' :: joinLines b := by
  obtain ⟨x, b, rfl⟩ := List.exists_cons_of_ne_nil hb
  rw [Sem.joinLines_append a _ ha]
  have := Sem.joinLines_append [x] b (by simp)
  simp only [List.singleton_append] at this
  rw [this]
  simp [joinLines]

theorem block_shown (b : Block) : (b.nodes.map Node.shown).flatten = b.code.shown ++ List.replicate (b.after - 1) [] := by
  unfold Block.nodes
  split_ifs <;> simp_all [Node.shown]

theorem shown_ne (s : Source) : s.shown ≠ [] := by simp [Source.shown]

theorem doc_text {d : List Block} (h : DocValid d) : joinLines ((d.map Block.nodes).flatten.map Node.shown).flatten = render (canonDoc d) := by
  induction d with
  | nil => rfl
  | cons b d ih =>
    rw [List.map_cons, List.flatten_cons, List.map_append, List.flatten_append, block_shown]
    cases d with
    | nil =>
      simp only [List.map_nil, List.flatten_nil, List.append_nil]
      rw [join_breaks _ (shown_ne _), ← canon_text]
      simp [canonDoc, render]
    | cons c d =>
      have h1 := ih h.2.2
      rw [join_rest _ _ (by simp [shown_ne]) (by
        rw [List.map_cons, List.flatten_cons, List.map_append, List.flatten_append, block_shown]
        simp [shown_ne]), h1, join_breaks _ (shown_ne _)]
      have h2 : render (canonDoc (b :: c :: d)) = (b.canon b.after).text ++ render (canonDoc (c :: d)) := rfl
      rw [h2, canon_text]
      obtain ⟨k, hk⟩ : ∃ k, b.after = k + 1 := ⟨b.after - 1, by have := h.2.1 (by simp); omega⟩
      rw [hk, Nat.add_sub_cancel, List.replicate_succ', List.append_assoc, List.append_assoc, List.append_assoc]
      rfl

/-! ## It can be read -/

theorem ends_blank {t : Text} {m : Nat} (hm : m ≤ leading t) (h : Ends (t.drop m)) : Ends t := by
  obtain ⟨n, u, v, h1, h2⟩ := h
  refine ⟨m + n, u, v, ?_, h2⟩
  have h3 : t.take m = List.replicate m ' ' := by
    have : ∀ (t : Text) (m : Nat), m ≤ leading t → t.take m = List.replicate m ' ' := by
      intro t
      induction t with
      | nil => intro m hm; have : m = 0 := by simpa [leading] using hm
               subst this; rfl
      | cons c t ih =>
        intro m hm
        cases m with
        | zero => rfl
        | succ m =>
          by_cases hc : c = ' '
          · subst hc
            rw [List.take_succ_cons, ih m (by simp [leading] at hm ⊢; omega), List.replicate_succ]
          · simp [leading, hc] at hm
    exact this t m hm
  have := (List.take_append_drop m t).symm
  rw [h3, h1] at this
  rw [this, ← List.append_assoc, ← List.append_assoc, List.replicate_append_replicate]

theorem plain_drop {t : Text} {m : Nat} (hm : m ≤ leading t) (h : Plain t) : Plain (t.drop m) where
  line := fun hx => h.line (List.drop_subset _ _ hx)
  left := fun hx => h.left (hx.trans (List.drop_suffix _ _).isInfix)
  right := fun hx => h.right (hx.trans (List.drop_suffix _ _).isInfix)
  stays := fun hx => h.stays (ends_blank hm hx)

theorem valid_ne {l : List Seg} (h : SegsValid l) : Seg.code [] ∉ l := by
  induction l with
  | nil => simp
  | cons s r ih =>
    intro hm
    cases s with
    | code t =>
      rcases List.mem_cons.mp hm with e | hm
      · exact h.2.1 (by injection e with e; exact e.symm)
      · exact ih h.2.2.2 hm
    | ref n =>
      rcases List.mem_cons.mp hm with e | hm
      · cases e
      · exact ih h.2.2.2 hm
    | left =>
      rcases List.mem_cons.mp hm with e | hm
      · cases e
      · exact ih h.2 hm
    | right =>
      rcases List.mem_cons.mp hm with e | hm
      · cases e
      · exact ih h hm

theorem clean_id {l : List Seg} (h : Seg.code [] ∉ l) : clean l = l := by
  refine List.filter_eq_self.mpr fun s hs => ?_
  simp only [ne_eq, decide_not, Bool.not_eq_true', decide_eq_false_iff_not]
  rintro rfl
  exact h hs

theorem clean_valid {l : List Seg} (h : SegsValid l) {m : Nat} (hm : l ≠ [] → m ≤ leading (segsText l)) : SegsValid (clean (dedent m l)) := by
  cases l with
  | nil => trivial
  | cons s r =>
    have hm := hm (by simp)
    rw [leading_line h] at hm
    cases s with
    | code t =>
      have hr := valid_ne h.2.2.2
      by_cases ht : t.drop m = []
      · have : clean (dedent m (.code t :: r)) = r := by
          show clean (.code (t.drop m) :: r) = r
          rw [ht]
          exact (List.filter_cons_of_neg (by simp)).trans (clean_id hr)
        rw [this]
        exact h.2.2.2
      · have : clean (dedent m (.code t :: r)) = .code (t.drop m) :: r := by
          show clean (.code (t.drop m) :: r) = _
          refine clean_id fun hx => ?_
          rcases List.mem_cons.mp hx with e | hx
          · exact ht (by injection e with e; exact e.symm)
          · exact hr hx
        rw [this]
        refine ⟨plain_drop hm h.1, ht, fun s hs => ?_, h.2.2.2⟩
        obtain ⟨h1, h2, h3⟩ := h.2.2.1 s hs
        have hl : (t.drop m).getLast? = t.getLast? := by
          rw [List.getLast?_drop, if_neg]
          intro hle
          exact ht (List.drop_eq_nil_of_le hle)
        rw [hl]
        exact ⟨h1, h2, h3⟩
    | ref n => rw [dedent, clean_id (valid_ne h)]; exact h; simp
    | left => rw [dedent, clean_id (valid_ne h)]; exact h; simp
    | right => rw [dedent, clean_id (valid_ne h)]; exact h; simp

theorem canon_valid {b : Block} (h : b.Valid) (k : Nat) : (b.canon k).Valid where
  lang := by
    intro l hl
    simp only [Block.canon, Option.mem_def, Option.map_eq_some_iff] at hl
    obtain ⟨l', h1, rfl⟩ := hl
    exact h.lang l' h1
  args := trivial
  first := fun _ a ha => by cases ha
  lines := by
    intro l hl
    simp only [Block.canon, List.mem_map] at hl
    obtain ⟨l', hl', rfl⟩ := hl
    refine clean_valid (h.lines l' hl') fun hne => ?_
    refine shared_line (List.mem_map_of_mem hl') ?_
    obtain ⟨s, r, rfl⟩ := List.exists_cons_of_ne_nil hne
    exact segsText_ne (h.lines _ hl')

theorem doc_valid {d : List Block} (h : DocValid d) : DocValid (canonDoc d) := by
  induction d with
  | nil => trivial
  | cons b d ih =>
    cases d with
    | nil => exact ⟨canon_valid h.1 _, fun hx => absurd rfl hx, trivial⟩
    | cons c d => exact ⟨canon_valid h.1 _, fun _ => h.2.1 (by simp), ih h.2.2⟩

/-! ## The same code is read -/

theorem canon_shift (b : Block) (k : Nat) : (b.canon k).shift = 0 := Nat.eq_zero_of_le_zero (shared_le _ _)

theorem solid_parts (l : List Seg) : solid (lineParts l) = solid ((clean l).map Seg.part) := by
  have h1 : solid (lineParts l) = solid (l.map Seg.part) := by
    unfold lineParts
    cases l with
    | nil => rfl
    | cons s r => rfl
  rw [h1]
  induction l with
  | nil => rfl
  | cons s r ih =>
    have ih := ih (by unfold lineParts; cases r <;> rfl)
    unfold clean at ih ⊢
    by_cases hs : s = .code []
    · subst hs
      rw [List.filter_cons_of_neg (by simp), ← ih]
      rfl
    · rw [List.filter_cons_of_pos (by simpa using hs)]
      unfold solid at ih ⊢
      simp only [List.map_cons, List.filter_cons, ih]

theorem clean_twice (l : List Seg) : clean (clean l) = clean l := by simp [clean]

theorem canon_code {b : Block} (ha : b.args = []) (k : Nat) : (b.canon k).code.solid = b.code.solid := by
  unfold Block.code Source.solid
  rw [canon_shift, ha]
  have h1 : (b.canon k).lang.map Prod.snd = b.lang.map Prod.snd := by
    unfold Block.canon
    cases b.lang <;> rfl
  have h2 : (b.canon k).args = [] := rfl
  rw [h1, h2]
  congr 1
  simp only [Block.canon, List.map_map]
  refine List.map_congr_left fun l _ => ?_
  simp only [Function.comp, dedent_zero]
  rw [solid_parts, clean_twice, ← solid_parts]

theorem sources_nodes (b : Block) : sources b.nodes = [b.code] := by
  unfold Block.nodes sources
  split_ifs <;> simp

theorem sources_append (a b : List Node) : sources (a ++ b) = sources a ++ sources b := List.filterMap_append

theorem doc_codes {d : List Block} (ha : ∀ b ∈ d, b.args = []) :
    (sources ((canonDoc d).map Block.nodes).flatten).map Source.solid = (sources (d.map Block.nodes).flatten).map Source.solid := by
  induction d with
  | nil => rfl
  | cons b d ih =>
    have ih := ih fun x hx => ha x (List.mem_cons_of_mem _ hx)
    have hb := ha b List.mem_cons_self
    cases d with
    | nil => simp [canonDoc, sources_nodes, canon_code hb]
    | cons c d =>
      have e : canonDoc (b :: c :: d) = b.canon b.after :: canonDoc (c :: d) := rfl
      have e' : sources ((b :: c :: d).map Block.nodes).flatten = [b.code] ++ sources ((c :: d).map Block.nodes).flatten := by
        rw [List.map_cons, List.flatten_cons, sources_append, sources_nodes]
      rw [e', e, List.map_cons, List.flatten_cons, sources_append, sources_nodes, List.map_append, ih, List.map_append, List.map_singleton, canon_code hb]
      rfl

end Verif.Code
