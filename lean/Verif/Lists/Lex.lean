import Verif.Lists.Spec
import Verif.Grid.Again
import Verif.Tokenizer.ListTree

/-!
# Lexing of lists
-/

namespace Verif.Lists
open Verif.Token Verif.BaseLexer
open Verif.Pipeline hiding render render_cons
open Verif.Link (Item LinkedFrom render render_cons docRaw docRaw_cons RowFrom rowRaw descRaw)
open Verif.Stamp (Raw placed placed_append rawText Unit1 Run run_gap gapRaw unit_adv unit_congr)
open Verif.Code (breakKind spaces_blanks isAt_blanks)
open Verif.Grid (blanks OneLine run_before next_brk first_char run_breaks Starts isAny_blanks)
open Verif.Drawer (Text)

/-! ## Marks -/

def Mark.kind : Mark → TK
  | .minus => .LeadingMinus
  | .plus => .LeadingPlus
  | .number _ _ => .LeadingNumber

theorem digit_cases {c : Char} (h : isDigit c = true) : c ∈ ['0', '1', '2', '3', '4', '5', '6', '7', '8', '9'] := by
  have h1 : '0' ≤ c ∧ c ≤ '9' := by simpa [isDigit] using h
  obtain ⟨h1, h2⟩ := h1
  have h1 : 48 ≤ c.toNat := h1
  have h2 : c.toNat ≤ 57 := h2
  have hc : c = Char.ofNat c.toNat := (Char.ofNat_toNat c).symm
  have : c.toNat = 48 ∨ c.toNat = 49 ∨ c.toNat = 50 ∨ c.toNat = 51 ∨ c.toNat = 52 ∨ c.toNat = 53 ∨ c.toNat = 54 ∨ c.toNat = 55 ∨ c.toNat = 56 ∨ c.toNat = 57 := by omega
  rcases this with h | h | h | h | h | h | h | h | h | h <;> (rw [h] at hc; rw [hc]; decide)

theorem take_digits {ds : Text} (h : ∀ c ∈ ds, isDigit c = true) {x : Char} (hx : isDigit x = false) (v : Text) : ((ds ++ x :: v).takeWhile isDigit).length = ds.length := by
  induction ds with
  | nil => simp [hx]
  | cons d ds ih =>
    rw [List.cons_append, List.takeWhile_cons_of_pos (h d List.mem_cons_self), List.length_cons, ih fun c hc => h c (List.mem_cons_of_mem _ hc)]
    rfl

theorem number_found {ds : Text} (hne : ds ≠ []) (h : ∀ c ∈ ds, isDigit c = true) (p : Bool) (v : Text) :
    stdLex .leadingNumber (ds ++ (if p then ')' else '.') :: ' ' :: v) = some (ds.length + 2) := by
  obtain ⟨d, ds, rfl⟩ := List.exists_cons_of_ne_nil hne
  have hx : isDigit (if p then ')' else '.') = false := by cases p <;> decide
  have ht := take_digits (fun c hc => h c (List.mem_cons_of_mem _ hc)) hx (' ' :: v)
  have hd : digits.run (d :: ds ++ (if p then ')' else '.') :: ' ' :: v) = some (ds.length + 1) := by
    show (match (Rx.cls isDigit).run (d :: (ds ++ (if p then ')' else '.') :: ' ' :: v)) with | some n => ((Rx.many isDigit).run (List.drop n (d :: (ds ++ _)))).map (n + ·) | none => none) = _
    have : (Rx.cls isDigit).run (d :: (ds ++ (if p then ')' else '.') :: ' ' :: v)) = some 1 := by
      show (if isDigit d then some 1 else none) = _
      rw [if_pos (h d List.mem_cons_self)]
    rw [this]
    show some (1 + ((ds ++ (if p then ')' else '.') :: ' ' :: v).takeWhile isDigit).length) = _
    rw [ht, Nat.add_comm]
  show (match digits.run (d :: ds ++ (if p then ')' else '.') :: ' ' :: v) with | some n => ((seqs [.alt (.ch '.') (.ch ')'), .ch ' ']).run (List.drop n (d :: ds ++ _))).map (n + ·) | none => none) = _
  rw [hd]
  have hdrop : List.drop (ds.length + 1) (d :: ds ++ (if p then ')' else '.') :: ' ' :: v) = (if p then ')' else '.') :: ' ' :: v := by
    rw [show ds.length + 1 = (d :: ds).length from rfl, List.drop_left]
  dsimp only
  rw [hdrop]
  cases p <;> simp [seqs, Rx.run, Rx.ch]

theorem run_mark {m : Mark} (h : m.Valid) (i : Nat) (v : Text) : Run true (blanks i ++ m.text) (' ' :: v) false [(m.kind, blanks i ++ m.text)] := by
  have hsp : ∀ (n : Nat) (c : Char) (w : Text), c ≠ ' ' → spaces (blanks n ++ c :: w) = n := fun n c w hc => spaces_blanks n (by simpa using hc)
  have a : ∀ (n : Nat) (w : Text) (c : Char), isAt (blanks n ++ w) c n = isAt w c 0 := fun n w c => isAt_blanks n 0 w c
  have b := fun (n : Nat) (w : Text) => isAny_blanks n 1 w (fun a => a = ' ' || a = '\n')
  cases m with
  | minus =>
    refine Grid.Run.first (n := 1 + i) (by simp [blanks, Mark.text]; omega) (by simp [Mark.text]) (by simp [Mark.text]) ?_
    rw [List.append_assoc]
    show lineStart stdLex (blanks i ++ '-' :: ' ' :: v) (spaces (blanks i ++ '-' :: ' ' :: v)) = _
    rw [hsp _ _ _ (by decide)]
    unfold lineStart checkLeading
    rw [a, b]
    simp [isAt, isAtAny, Mark.kind]
  | plus =>
    refine Grid.Run.first (n := 1 + i) (by simp [blanks, Mark.text]; omega) (by simp [Mark.text]) (by simp [Mark.text]) ?_
    rw [List.append_assoc]
    show lineStart stdLex (blanks i ++ '+' :: ' ' :: v) (spaces (blanks i ++ '+' :: ' ' :: v)) = _
    rw [hsp _ _ _ (by decide)]
    unfold lineStart checkLeading
    rw [a, a, b]
    simp [isAt, isAtAny, Mark.kind]
  | number ds p =>
    obtain ⟨h1, h2⟩ := h
    have hnum := number_found h1 h2 p v
    obtain ⟨d, ds, rfl⟩ := List.exists_cons_of_ne_nil h1
    have hd := digit_cases (h2 d List.mem_cons_self)
    refine Grid.Run.first (n := (d :: ds).length + 2 - 1 + i) (by simp [blanks, Mark.text]; omega) (by simp [Mark.text]) (by
      rw [Mark.text, ← List.append_assoc, List.getLast?_append_of_ne_nil _ (by simp)]
      cases p <;> decide) ?_
    rw [show (blanks i ++ Mark.text (.number (d :: ds) p)) ++ ' ' :: v = blanks i ++ (d :: (ds ++ (if p then ')' else '.') :: ' ' :: v)) by simp [Mark.text]]
    rw [show d :: ds ++ (if p then ')' else '.') :: ' ' :: v = d :: (ds ++ (if p then ')' else '.') :: ' ' :: v) from rfl] at hnum
    generalize hw : ds ++ (if p then ')' else '.') :: ' ' :: v = w at hnum ⊢
    have hdc : d ≠ ' ' ∧ d ≠ '-' ∧ d ≠ '+' ∧ d ≠ '|' := by
      clear hnum h2 h1
      revert d
      decide
    rw [hsp _ _ _ hdc.1]
    have hdrop : List.drop i (blanks i ++ d :: w) = d :: w := by
      have : (blanks i).length = i := by simp [blanks]
      conv_lhs => rw [← this]
      simp [blanks]
    have hl : stdLex .clock (d :: w) = none ∧ stdLex .colonEnd (d :: w) = none ∧ stdLex .colonProperties (d :: w) = none := by
      clear hnum h2 h1 hdc hdrop
      simp only [List.mem_cons, List.not_mem_nil, or_false] at hd
      rcases hd with rfl | rfl | rfl | rfl | rfl | rfl | rfl | rfl | rfl | rfl <;> exact ⟨rfl, rfl, rfl⟩
    have hts : tableSep (blanks i ++ d :: w) i = none := by
      unfold tableSep
      rw [a, show isAt (d :: w) '|' 0 = false by simp [isAt, hdc]]
      rw [show (blanks i ++ d :: w).length = (i + w.length) + 1 by simp [blanks]; omega]
      simp only [Bool.false_eq_true, if_false, tableSepGo]
      rw [a, show isAt (d :: w) '-' 0 = false by simp [isAt, hdc]]
      rfl
    unfold lineStart checkLeading
    rw [a, a, a, hdrop, hl.1, hl.2.1, hl.2.2, hnum, hts]
    simp [isAt, hdc, Mark.kind]

/-! ## Boxes -/

theorem run_box (b : Box) (v : Text) : Run false b.text v false [(.Checkbox, b.text)] := by
  have key : Unit1 b.text v [(.Checkbox, b.text)] (charSwitch stdLex) := by
    refine unit_congr (unit_adv (by cases b <;> simp [Box.text])) (fun pos col prev out => ?_)
    cases b with
    | empty => rfl
    | done c => cases c <;> rfl
    | partly => rfl
  refine Stamp.Run.inner key (by cases b <;> simp [Box.text]) (by simp [rawText]) ?_
  cases b with
  | empty => decide
  | done c => cases c <;> decide
  | partly => decide

def boxRaw : Option Box → Raw
  | none => []
  | some b => (.Checkbox, b.text) :: gapRaw 1

theorem run_boxes (b : Option Box) {v : Text} (hv : v.head? ≠ some ' ') : Run false (boxText b) v false (boxRaw b) := by
  cases b with
  | none => exact Stamp.Run.nil _ _
  | some b => exact Stamp.Run.append (u' := [' ']) (run_box b _) (run_gap (n := 1) hv)

/-! ## Items -/

def Entry.empty (e : Entry) : Nat := if e.loose then 1 else 0

theorem entry_breaks (e : Entry) : e.breaks = Grid.breaks e.empty := by
  unfold Entry.breaks Entry.empty
  cases e.loose <;> rfl

def Entry.rest (e : Entry) : Raw := gapRaw (e.gap + 1) ++ (boxRaw e.box ++ (docRaw e.words ++ [(breakKind e.empty, e.breaks)]))

def Entry.raw (i : Nat) (e : Entry) : Raw := (e.mark.kind, blanks i ++ e.mark.text) :: e.rest

theorem words_first {e : Entry} (h : e.Valid) : ∃ c u, render e.words = c :: u ∧ c ≠ ' ' ∧ c ≠ '\n' := by
  obtain ⟨-, h1, -, h2, h3, -⟩ := h
  cases hw : e.words with
  | nil => exact absurd hw h2
  | cons i r =>
    rw [hw] at h1
    obtain ⟨c, u, hc, hs⟩ := first_char h1 (h3 i (by rw [hw]; rfl))
    exact ⟨c, u ++ render r, by rw [render_cons, hc]; rfl, hs⟩

theorem run_entry {e : Entry} (h : e.Valid) (i : Nat) {v : Text} (hv : Starts v) : Run true (blanks i ++ e.text) v true (e.raw i) := by
  obtain ⟨c, u, hc, hs, -⟩ := words_first h
  have r5 : Run false e.breaks v true [(breakKind e.empty, e.breaks)] := by
    rw [entry_breaks]
    exact run_breaks _ hv
  have r4 : Run false (render e.words) (e.breaks ++ v) false (docRaw e.words) := by
    have := run_before (x := .piece (.brk 0)) (v := e.breaks ++ v) (by rw [entry_breaks]; exact next_brk _ _) (fun _ => by
      intro c hc
      rw [entry_breaks] at hc
      cases hc
      exact .inr (.inr rfl)) h.from_ h.line
    rwa [Bool.false_and] at this
  have r45 := Stamp.Run.append r4 r5
  have r3 := Stamp.Run.append (run_boxes e.box (v := (render e.words ++ e.breaks) ++ v) (by rw [hc]; simpa using hs)) r45
  have hhd : (boxText e.box ++ (render e.words ++ e.breaks) ++ v).head? ≠ some ' ' := by
    cases e.box with
    | none => rw [hc]; simpa [boxText] using hs
    | some b =>
      cases b with
      | empty => simp [boxText, Box.text]
      | done c => simp [boxText, Box.text]
      | partly => simp [boxText, Box.text]
  have r2 := Stamp.Run.append (run_gap (n := e.gap + 1) hhd) r3
  have r1 := run_mark h.mark i (blanks e.gap ++ ((boxText e.box ++ (render e.words ++ e.breaks)) ++ v))
  have := Stamp.Run.append (u' := blanks (e.gap + 1) ++ (boxText e.box ++ (render e.words ++ e.breaks))) (v := v) (by
    rw [List.append_assoc]
    exact r1) r2
  rw [List.append_assoc] at this
  exact this

/-! ## Lists -/

def Tree.raw (i : Nat) : Tree → Raw
  | .nil => []
  | .cons e d sub next => e.raw i ++ (sub.raw (i + (d + 1)) ++ next.raw i)

theorem mark_first {m : Mark} (h : m.Valid) : ∃ c u, m.text = c :: u ∧ c ≠ ' ' ∧ c ≠ '\n' := by
  cases m with
  | minus => exact ⟨_, _, rfl, by decide, by decide⟩
  | plus => exact ⟨_, _, rfl, by decide, by decide⟩
  | number ds p =>
    obtain ⟨h1, h2⟩ := h
    obtain ⟨d, ds, rfl⟩ := List.exists_cons_of_ne_nil h1
    have hd := h2 d List.mem_cons_self
    refine ⟨d, _, rfl, ?_, ?_⟩ <;> (rintro rfl; exact absurd hd (by decide))

theorem tree_starts {t : Tree} (h : t.Valid) (i : Nat) {v : Text} (hv : Starts v) : Starts (t.text i ++ v) := by
  cases t with
  | nil => exact hv
  | cons e d sub next =>
    obtain ⟨c, u, hc, h1, h2⟩ := mark_first h.1.mark
    refine ⟨i, e.text ++ (sub.text (i + (d + 1)) ++ next.text i) ++ v, ?_, ?_, ?_⟩
    · simp only [Tree.text, List.append_assoc]
    · simpa [Entry.text, hc] using h2
    · simpa [Entry.text, hc] using h1

theorem run_tree {t : Tree} (h : t.Valid) : ∀ (i : Nat) {v : Text}, Starts v → Run true (t.text i) v true (t.raw i) := by
  induction t with
  | nil => intro i v hv; exact Stamp.Run.nil _ _
  | cons e d sub next ih1 ih2 =>
    intro i v hv
    have s2 := tree_starts h.2.2 i hv
    have r3 := ih2 h.2.2 i hv
    have r2 := ih1 h.2.1 (i + (d + 1)) s2
    have r1 := run_entry h.1 i (tree_starts h.2.1 (i + (d + 1)) s2)
    rw [← List.append_assoc] at r1
    have := Stamp.Run.append r1 (Stamp.Run.append r2 r3)
    rw [List.append_assoc] at this
    exact this

theorem tree_lexed {t : Tree} (h : t.Valid) (i : Nat) : tokenize stdLex (t.text i) = .ok (placed 0 (t.raw i)) := by
  obtain ⟨-, hr⟩ := run_tree h i (v := []) ⟨0, [], rfl, by simp, by simp⟩
  obtain ⟨j, col', prev', h1, -, h3⟩ := hr (t.text i).length 0 0 none [] (by simp)
  have := h3 ((t.text i).length + 1 - j)
  rw [show j + ((t.text i).length + 1 - j) = (t.text i).length + 1 by omega, List.append_nil] at this
  unfold tokenize tokenizeSt
  rw [this]
  obtain ⟨k, hk⟩ : ∃ k, (t.text i).length + 1 - j = k + 1 := ⟨(t.text i).length - j, by omega⟩
  rw [hk]
  simp [loop]

/-! ## Lines -/

theorem mark_quiet (m : Mark) : m.kind ∉ Tokenizer.lineEnd := by
  cases m with
  | minus => decide
  | plus => decide
  | number ds p => show TK.LeadingNumber ∉ _; decide

theorem mark_marker (m : Mark) : m.kind ∈ Tokenizer.markers := by
  cases m with
  | minus => decide
  | plus => decide
  | number ds p => show TK.LeadingNumber ∈ _; decide

theorem mark_known (m : Mark) : m.kind ∈ [TK.Indent, .Dedent, .SameIndent, .ListItemEnd, .LeadingMinus, .LeadingPlus, .LeadingNumber, .Checkbox, .MediumNewline] := by
  cases m with
  | minus => decide
  | plus => decide
  | number ds p => show TK.LeadingNumber ∈ _; decide

def quiet (r : Raw) : Prop := ∀ t ∈ r, t.1 ∉ Tokenizer.lineEnd

theorem quiet_append {a b : Raw} (ha : quiet a) (hb : quiet b) : quiet (a ++ b) := by
  intro t ht
  rcases List.mem_append.mp ht with ht | ht
  · exact ha t ht
  · exact hb t ht

theorem quiet_of {r : Raw} (h : ∀ k ∈ r.map Prod.fst, k ∉ Tokenizer.lineEnd) : quiet r := fun _ ht => h _ (List.mem_map_of_mem ht)

theorem quiet_piece {p : Piece} (h : p.Valid) (hb : ∀ n, p ≠ .brk n) : p.kind ∉ Tokenizer.lineEnd := by
  cases p with
  | brk n => exact absurd rfl (hb n)
  | glyph u =>
    rcases h with ⟨x, rfl, hx⟩ | ⟨a, b, rfl, -⟩ | ⟨a, b, d, rfl, -⟩
    · have : ∀ x ∈ marksTable.map (·.1), (Piece.glyph [x]).kind ∉ Tokenizer.lineEnd := by decide
      exact this x hx
    · show TK.AnyPunct ∉ _; decide
    · show TK.AnyPunct ∉ _; decide
  | word w => show TK.Word ∉ _; decide
  | number w => show TK.Number ∉ _; decide
  | gap w => show TK.Whitespace ∉ _; decide
  | colon => show TK.Colon ∉ _; decide
  | star => show TK.Asterisk ∉ _; decide
  | slash => show TK.ForwardSlash ∉ _; decide

theorem quiet_row {ps : List Piece} (h : RowFrom ps) : quiet (rowRaw ps) := by
  induction ps with
  | nil => intro t ht; cases ht
  | cons p r ih =>
    obtain ⟨h1, h2, h3, h4, h5, h6⟩ := h
    intro t ht
    rcases List.mem_cons.mp ht with rfl | ht
    · exact quiet_piece h1 h4
    · exact ih h6 t ht

theorem quiet_head (h : Link.Head) : quiet h.raw := by
  apply quiet_of
  cases h with
  | web s r => exact (show ∀ t ∈ [TK.LinkProtocolHttp, .LinkTarget], t ∉ Tokenizer.lineEnd by decide)
  | file p => exact (show ∀ t ∈ [TK.LinkProtocolFile, .LinkTarget], t ∉ Tokenizer.lineEnd by decide)
  | attachment p => exact (show ∀ t ∈ [TK.LinkProtocolAttachment, .LinkTarget], t ∉ Tokenizer.lineEnd by decide)
  | id t => exact (show ∀ t ∈ [TK.LinkProtocolId, .LinkTarget], t ∉ Tokenizer.lineEnd by decide)
  | custom t => exact (show ∀ t ∈ [TK.LinkProtocolCustomId, .LinkTarget], t ∉ Tokenizer.lineEnd by decide)
  | title m g ts => exact (show ∀ t ∈ [TK.LinkProtocolTitle], t ∉ Tokenizer.lineEnd by decide)
  | path p => exact (show ∀ t ∈ [TK.LinkTargetFile], t ∉ Tokenizer.lineEnd by decide)
  | internal t => exact (show ∀ t ∈ [TK.LinkProtocolInternal], t ∉ Tokenizer.lineEnd by decide)
  | person ps => exact (show ∀ t ∈ [TK.LinkProtocol], t ∉ Tokenizer.lineEnd by decide)
  | user n ps => exact (show ∀ t ∈ [TK.LinkProtocol], t ∉ Tokenizer.lineEnd by decide)

theorem quiet_items {b : Bool} {is js : List Item} (h : LinkedFrom b (is ++ js)) (ho : OneLine is) : quiet (docRaw is) := by
  induction is generalizing b with
  | nil => intro t ht; cases ht
  | cons i r ih =>
    have ih := fun {b} (h : LinkedFrom b (r ++ js)) => ih h (fun n hn => ho n (List.mem_cons_of_mem _ hn))
    rw [docRaw_cons]
    cases i with
    | piece p =>
      obtain ⟨h1, h2, h3, h4, h5, h6⟩ := h
      refine quiet_append (fun t ht => ?_) (ih h6)
      cases List.mem_singleton.mp ht
      exact quiet_piece h1 fun n hn => ho n (by rw [hn]; exact List.mem_cons_self)
    | link hd d =>
      obtain ⟨h1, h2, h3⟩ := h
      have hrow : RowFrom hd.row := by
        cases hd with
        | person ps => exact h1
        | user n ps => exact h1.2
        | _ => trivial
      have hdesc : quiet (descRaw d) := by
        cases d with
        | none => intro t ht; cases ht
        | some d => exact quiet_append (quiet_of (by simp; decide)) (quiet_row (h2 d rfl).1)
      exact quiet_append (quiet_append (quiet_append (quiet_of (by simp; decide)) (quiet_head hd))
        (quiet_append (quiet_row hrow) (quiet_append hdesc (quiet_of (by simp; decide))))) (ih h3)
    | url s u =>
      obtain ⟨h1, h2, h3⟩ := h
      exact quiet_append (quiet_head (.web s u)) (ih h3)
    | note t =>
      obtain ⟨h1, h2, h3⟩ := h
      exact quiet_append (quiet_of (by simp [Item.raw]; decide)) (ih h3)

theorem quiet_gap (n : Nat) : quiet (gapRaw n) := by
  intro t ht
  unfold gapRaw at ht
  split at ht
  · cases ht
  · cases List.mem_singleton.mp ht
    show TK.Whitespace ∉ _
    decide

theorem quiet_box (b : Option Box) : quiet (boxRaw b) := by
  cases b with
  | none => intro t ht; cases ht
  | some b => exact quiet_append (a := [(TK.Checkbox, b.text)]) (quiet_of (by simp; decide)) (quiet_gap 1)

/-! ## The tokens of a list -/

/-- The lines of the tokens, as the tokenizer sees them. -/
def Tree.forest (i pos : Nat) : Tree → Tokenizer.Forest
  | .nil => .nil
  | .cons e d sub next =>
    .cons [placed pos (e.raw i)] (sub.forest (i + (d + 1)) (pos + (rawText (e.raw i)).length))
      (next.forest i (pos + (rawText (e.raw i)).length + (rawText (sub.raw (i + (d + 1)))).length))

theorem forest_lines (t : Tree) : ∀ i pos, (t.forest i pos).lines.flatten = placed pos (t.raw i) := by
  induction t with
  | nil => intro i pos; rfl
  | cons e d sub next ih1 ih2 =>
    intro i pos
    rw [Tree.raw, placed_append, placed_append, ← ih1, ← ih2]
    simp [Tree.forest, Tokenizer.Forest.lines]

theorem placed_kind (r : Raw) : ∀ pos, ∀ t ∈ placed pos r, ∃ x ∈ r, t.kind = x.1 ∧ t.text = x.2 := by
  induction r with
  | nil => intro pos t ht; cases ht
  | cons x r ih =>
    intro pos t ht
    rcases List.mem_cons.mp ht with rfl | ht
    · exact ⟨x, List.mem_cons_self, rfl, rfl⟩
    · obtain ⟨y, hy, h⟩ := ih _ t ht
      exact ⟨y, List.mem_cons_of_mem _ hy, h⟩

theorem mark_blanks {m : Mark} (h : m.Valid) : m.text.count ' ' = 0 := by
  rw [List.count_eq_zero]
  cases m with
  | minus => decide
  | plus => decide
  | number ds p =>
    intro hm
    rcases List.mem_append.mp hm with hm | hm
    · exact absurd (h.2 _ hm) (by decide)
    · cases p <;> simp at hm

theorem entry_lines {e : Entry} (h : e.Valid) (i pos : Nat) : Tokenizer.ItemLines i [placed pos (e.raw i)] := by
  refine ⟨?_, ⟨e.mark.kind, blanks i ++ e.mark.text, some pos⟩, placed (pos + (blanks i ++ e.mark.text).length) e.rest, [], rfl, ?_, ?_, by simp⟩
  · intro l hl
    rw [List.mem_singleton.mp hl]
    have hr : e.raw i = ((e.mark.kind, blanks i ++ e.mark.text) :: (gapRaw (e.gap + 1) ++ (boxRaw e.box ++ docRaw e.words))) ++ [(breakKind e.empty, e.breaks)] := by
      simp [Entry.raw, Entry.rest]
    have hq : quiet ((e.mark.kind, blanks i ++ e.mark.text) :: (gapRaw (e.gap + 1) ++ (boxRaw e.box ++ docRaw e.words))) := by
      refine quiet_append (a := [(e.mark.kind, blanks i ++ e.mark.text)]) (b := gapRaw (e.gap + 1) ++ (boxRaw e.box ++ docRaw e.words)) (quiet_of ?_)
        (quiet_append (quiet_gap _) (quiet_append (quiet_box _) (quiet_items h.from_ h.line)))
      simp only [List.map_cons, List.map_nil, List.mem_singleton, forall_eq]
      exact mark_quiet _
    rw [hr, placed_append]
    refine ⟨_, _, rfl, ?_, ?_⟩
    · intro t ht
      obtain ⟨x, hx, hk, -⟩ := placed_kind _ _ t ht
      rw [hk]
      exact hq x hx
    · show breakKind e.empty ∈ _
      unfold Entry.empty
      cases e.loose <;> decide
  · exact mark_marker _
  · show List.count ' ' (blanks i ++ e.mark.text) = i
    rw [List.count_append, mark_blanks h.mark]
    simp [blanks]

theorem forest_indented {t : Tree} (h : t.Valid) : ∀ i pos, (t.forest i pos).Indented i := by
  induction t with
  | nil => intro i pos; trivial
  | cons e d sub next ih1 ih2 =>
    intro i pos
    exact ⟨entry_lines h.1 i pos, .inr ⟨i + (d + 1), by omega, ih1 h.2.1 _ _⟩, ih2 h.2.2 _ _⟩

/-- Around the items of a list, if there are any. -/
def wrap (t : Tree) (items : Raw) : Raw :=
  match t with
  | .nil => []
  | .cons _ _ _ _ => (.Indent, []) :: (items ++ [(.Dedent, [])])

/-- Between an item with the list `sub` below it and the next items. -/
def after (sub next : Tree) (items : Raw) : Raw :=
  match next with
  | .nil => []
  | .cons _ _ _ _ => (match sub with | .nil => (.SameIndent, []) | .cons _ _ _ _ => (.ListItemEnd, [])) :: items

def Tree.items (i : Nat) : Tree → Raw
  | .nil => []
  | .cons e d sub next => e.raw i ++ (wrap sub (sub.items (i + (d + 1))) ++ after sub next (next.items i))

/-- The tokens the list stands for. -/
def Tree.stream (i : Nat) (t : Tree) : Raw := wrap t (t.items i)

def plainTok (t : Tok) : TK × Text := (t.kind, t.text)

theorem placed_plain (r : Raw) : ∀ pos, (placed pos r).map plainTok = r := by
  induction r with
  | nil => intro pos; rfl
  | cons x r ih =>
    intro pos
    rw [placed, List.map_cons, ih]
    rfl

theorem breaks_no {e : Entry} (i pos : Nat) : ¬ Tokenizer.breaksList [placed pos (e.raw i)] := by
  rintro ⟨l, hl, init, last, rfl, hk⟩
  have hl := (List.cons.inj hl).1
  have : ((placed pos (e.raw i)).map plainTok).getLast? = some (plainTok last) := by
    rw [hl]
    simp
  rw [placed_plain] at this
  have hr : e.raw i = ((e.mark.kind, blanks i ++ e.mark.text) :: (gapRaw (e.gap + 1) ++ (boxRaw e.box ++ docRaw e.words))) ++ [(breakKind e.empty, e.breaks)] := by
    simp [Entry.raw, Entry.rest]
  rw [hr, List.getLast?_append_of_ne_nil _ (by simp)] at this
  have := Option.some.inj this
  have hb : breakKind e.empty = last.kind := congrArg Prod.fst this
  rw [hk] at hb
  revert hb
  unfold Entry.empty
  cases e.loose <;> decide

theorem forest_items (t : Tree) : ∀ i pos, (t.forest i pos).items.map plainTok = t.items i := by
  induction t with
  | nil => intro i pos; rfl
  | cons e d sub next ih1 ih2 =>
    intro i pos
    rw [Tree.forest, Tokenizer.Forest.items, Tree.items]
    simp only [List.map_append, List.flatten_cons, List.flatten_nil, List.append_nil, placed_plain, List.append_assoc]
    congr 1
    have h1 : (Tokenizer.bracketed (sub.forest (i + (d + 1)) (pos + (rawText (e.raw i)).length)) (sub.forest (i + (d + 1)) (pos + (rawText (e.raw i)).length)).items).map plainTok =
        wrap sub (sub.items (i + (d + 1))) := by
      have := ih1 (i + (d + 1)) (pos + (rawText (e.raw i)).length)
      cases sub with
      | nil => rfl
      | cons _ _ _ _ =>
        show plainTok _ :: (_ ++ [_]).map plainTok = (TK.Indent, []) :: (_ ++ [(TK.Dedent, [])])
        rw [List.map_append, this]
        rfl
    rw [h1]
    congr 1
    have := ih2 i (pos + (rawText (e.raw i)).length + (rawText (sub.raw (i + (d + 1)))).length)
    cases next with
    | nil => rfl
    | cons _ _ _ _ =>
      show (Tokenizer.separator _ _ ++ _).map plainTok = _
      rw [List.map_append, this]
      cases sub with
      | nil =>
        have : Tokenizer.separator [placed pos (e.raw i)] (Tree.nil.forest (i + (d + 1)) (pos + (rawText (e.raw i)).length)) = [.fake .SameIndent] := by
          show (if _ then _ else _) = _
          rw [if_neg (breaks_no i pos)]
        rw [this]
        rfl
      | cons _ _ _ _ => rfl

theorem forest_render (t : Tree) (i : Nat) : ((t.forest i 0).render).map plainTok = t.stream i := by
  have := forest_items t i 0
  unfold Tokenizer.Forest.render Tree.stream
  cases t with
  | nil => rfl
  | cons _ _ _ _ =>
    show plainTok _ :: (_ ++ [_]).map plainTok = (TK.Indent, []) :: (_ ++ [(TK.Dedent, [])])
    rw [List.map_append, this]
    rfl

/-! ## The tokens of the parser -/

def listKinds : List TK := [.Indent, .Dedent, .SameIndent, .ListItemEnd, .LeadingMinus, .LeadingPlus, .LeadingNumber, .Checkbox, .MediumNewline] ++ Link.calmKinds

def Known (r : Raw) : Prop := ∀ t ∈ r, t.1 ∈ listKinds

theorem Known.append {a b : Raw} (ha : Known a) (hb : Known b) : Known (a ++ b) := by
  intro t ht
  rcases List.mem_append.mp ht with ht | ht
  · exact ha t ht
  · exact hb t ht

theorem known_of {r : Raw} (h : ∀ k ∈ r.map Prod.fst, k ∈ listKinds) : Known r := fun _ ht => h _ (List.mem_map_of_mem ht)

theorem known_calm {r : Raw} (h : Link.Calm r) : Known r := fun t ht => List.mem_append_right _ (h t ht)

theorem known_gap (n : Nat) : Known (gapRaw n) := by
  intro t ht
  unfold gapRaw at ht
  split at ht
  · cases ht
  · cases List.mem_singleton.mp ht
    show TK.Whitespace ∈ listKinds
    decide

theorem known_entry {e : Entry} (h : e.Valid) (i : Nat) : Known (e.raw i) := by
  refine Known.append (a := [_]) (known_of ?_) ((known_gap _).append (Known.append ?_ ((known_calm (Grid.linked_left h.from_)).append (known_of ?_))))
  · simp only [List.map_cons, List.map_nil, List.mem_singleton, forall_eq]
    exact List.mem_append_left _ (mark_known _)
  · cases e.box with
    | none => intro t ht; cases ht
    | some b => exact Known.append (a := [(TK.Checkbox, b.text)]) (known_of (by simp; decide)) (known_gap 1)
  · simp only [List.map_cons, List.map_nil, List.mem_singleton, forall_eq]
    unfold Entry.empty
    cases e.loose <;> decide

theorem known_wrap {t : Tree} {r : Raw} (h : Known r) : Known (wrap t r) := by
  cases t with
  | nil => intro t ht; cases ht
  | cons _ _ _ _ => exact Known.append (a := [(TK.Indent, [])]) (known_of (by simp; decide)) (h.append (known_of (by simp; decide)))

theorem known_after {s t : Tree} {r : Raw} (h : Known r) : Known (after s t r) := by
  cases t with
  | nil => intro t ht; cases ht
  | cons _ _ _ _ =>
    cases s with
    | nil => exact Known.append (a := [(TK.SameIndent, [])]) (known_of (by simp; decide)) h
    | cons _ _ _ _ => exact Known.append (a := [(TK.ListItemEnd, [])]) (known_of (by simp; decide)) h

theorem known_items {t : Tree} (h : t.Valid) : ∀ i, Known (t.items i) := by
  induction t with
  | nil => intro i t ht; cases ht
  | cons e d sub next ih1 ih2 =>
    intro i
    exact (known_entry h.1 i).append ((known_wrap (ih1 h.2.1 _)).append (known_after (ih2 h.2.2 _)))

theorem known_stream {t : Tree} (h : t.Valid) (i : Nat) : Known (t.stream i) := known_wrap (known_items h i)

def finalTok (t : Tok) : Tok := ⟨Link.finalKind t.kind t.text, Link.finalText t.kind t.text, t.loc⟩

theorem becomes_known {b a : Option Tok} {t : Tok} (h : t.kind ∈ listKinds) : Recombine.becomes b t a = [finalTok t] := by
  obtain ⟨k, u, l⟩ := t
  rcases List.mem_append.mp h with h | h
  · simp only [List.mem_cons, List.not_mem_nil, or_false] at h
    rcases h with h | h | h | h | h | h | h | h | h <;> subst h <;> rfl
  · exact Link.becomes_calm h

theorem neighbours_known {ts : List Tok} (h : ∀ t ∈ ts, t.kind ∈ listKinds) : ∀ b, Recombine.byNeighbours b ts = ts.map finalTok := by
  induction ts with
  | nil => intro b; rfl
  | cons t ts ih =>
    intro b
    simp only [Recombine.byNeighbours, becomes_known (h t List.mem_cons_self), ih (fun x hx => h x (List.mem_cons_of_mem _ hx)), List.map_cons, List.singleton_append]

/-- The tokens of the parser. -/
theorem tree_tokens {t : Tree} (h : t.Valid) (i : Nat) : ∃ toks, tokens stdLex (t.text i) = .ok toks ∧ toks.map (·.kind) = Link.kinds (t.stream i) ∧
    toks.map (·.text) = (t.stream i).map fun x => Link.finalText x.1 x.2 := by
  have hr := forest_render t i
  have hk : ∀ x ∈ (t.forest i 0).render, x.kind ∈ listKinds := by
    intro x hx
    have : plainTok x ∈ t.stream i := by
      rw [← hr]
      exact List.mem_map_of_mem hx
    exact known_stream h i _ this
  refine ⟨((t.forest i 0).render).map finalTok, ?_, ?_, ?_⟩
  · unfold tokens
    rw [tree_lexed h i, ← forest_lines t i 0]
    simp only [Recombine.convert]
    rw [Tokenizer.list_structure _ i (forest_indented h i 0)]
    have h2 : ∀ k ∈ listKinds, k ≠ .LineCommand ∧ k ≠ .CmdRawArg := by decide
    have h3 : ∀ k ∈ listKinds, Recombine.leastLength k = 0 := by decide
    simp only [bind, Except.bind]
    rw [Recombine.recombine_local _ (fun t ht => h2 _ (hk t ht)) (fun t ht => by rw [h3 _ (hk t ht)]; omega), neighbours_known hk]
  · rw [← hr, Link.kinds, List.map_map, List.map_map]
    rfl
  · rw [← hr, List.map_map, List.map_map]
    rfl

end Verif.Lists
