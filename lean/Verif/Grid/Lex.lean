import Verif.Grid.Spec
import Verif.Link.LexDoc
import Verif.Code.LexDoc

/-!
# Lexing of tables
-/

namespace Verif.Grid
open Verif.Token Verif.BaseLexer
open Verif.Pipeline hiding render render_cons
open Verif.Link (Item LinkedFrom Linked render render_cons docRaw docRaw_cons run_link run_web run_note Address)
open Verif.Stamp (Raw placed placed_append rawText Unit1 Run Next next_begins run_piece run_gap gapRaw unit_adv unit_congr)
open Verif.Code (breakKind spaces_blanks isAt_blanks unit_break)
open Verif.Drawer (Text)

/-! ## Words and links -/

theorem next_item {b : Bool} {j : Item} {r : List Item} (h : LinkedFrom b (j :: r)) (v : Text) : Next (some j.like) (j.text ++ v) := by
  cases j with
  | piece p => exact next_begins (.inr ⟨p, v, rfl, h.1, rfl⟩)
  | link h d => exact Link.next_glyph (x := '(') (by decide) (.inl rfl)
  | url s u => exact Link.next_web s u _
  | note t => exact Link.next_glyph (x := '(') (by decide) (.inl rfl)

/-- An address ends here. -/
def Stops (v : Text) : Prop := ∀ c ∈ v.head?, c = ' ' ∨ c = ']' ∨ c = '\n'

theorem blank_stops {j : Item} (h : j.isBlank = true) (v : Text) : Stops (j.text ++ v) := by
  cases j with
  | piece p =>
    cases p with
    | gap n =>
      intro c hc
      simp only [Item.text, Piece.text, List.replicate_succ, List.cons_append, List.head?_cons] at hc
      cases hc
      exact .inl rfl
    | brk n =>
      intro c hc
      simp only [Item.text, Piece.text, List.replicate_succ, List.cons_append, List.head?_cons] at hc
      cases hc
      exact .inr (.inr rfl)
    | _ => cases h
  | _ => cases h

theorem one_cons {i : Item} {r : List Item} (h : OneLine (i :: r)) : OneLine r := fun n hn => h n (List.mem_cons_of_mem _ hn)

/-- The items of a line before the text `v`, which is like the item `x` for them. -/
theorem run_before {x : Item} {v : Text} (hn : Next (some x.like) v) (hx : x.isBlank = true → Stops v) {is : List Item} :
    ∀ {b : Bool}, LinkedFrom b (is ++ [x]) → OneLine is → Run b (render is) v (b && is.isEmpty) (docRaw is) := by
  induction is with
  | nil =>
    intro b h ho
    rw [show (b && ([] : List Item).isEmpty) = b from by simp]
    exact Run.nil _ _
  | cons i r ih =>
    intro b h ho
    have hne : Next ((r ++ [x]).head?.map Item.like) (render r ++ v) ∧ ((∃ j ∈ (r ++ [x]).head?, j.isBlank = true) → Stops (render r ++ v)) := by
      cases r with
      | nil => exact ⟨hn, fun ⟨j, hj, hb⟩ => by cases hj; exact hx hb⟩
      | cons j r =>
        rw [render_cons, List.append_assoc]
        have h6 : ∃ b, LinkedFrom b (j :: (r ++ [x])) := by
          cases i with
          | piece p => exact ⟨_, h.2.2.2.2.2⟩
          | _ => exact ⟨_, h.2.2⟩
        obtain ⟨b6, h6⟩ := h6
        exact ⟨next_item h6 _, fun ⟨k, hk, hb⟩ => by cases hk; exact blank_stops hb _⟩
    have step : ∀ {b1 : Bool}, b1 = false → LinkedFrom b1 (r ++ [x]) → Run b (i.text) (render r ++ v) b1 i.raw →
        Run b (render (i :: r)) v (b && (i :: r).isEmpty) (docRaw (i :: r)) := by
      intro b1 hb1 h6 hr
      subst hb1
      have := Run.append hr (ih h6 (one_cons ho))
      rw [Bool.false_and] at this
      rw [List.isEmpty_cons, Bool.and_false]
      exact this
    cases i with
    | piece p =>
      obtain ⟨h1, h2, h3, h4, h5, h6⟩ := h
      refine step ?_ h6 (run_piece h1 h2 h5 hne.1)
      cases p with
      | brk n => exact absurd List.mem_cons_self (ho n)
      | _ => rfl
    | link hd d =>
      obtain ⟨h1, h2, h3⟩ := h
      exact step rfl h3 (run_link h1 h2 _)
    | url s u =>
      obtain ⟨h1, h2, h3⟩ := h
      exact step rfl h3 (run_web h1 (hne.2 h2))
    | note t =>
      obtain ⟨h1, h2, h3⟩ := h
      exact step rfl h3 (run_note h1 h2 _)

theorem next_bar (v : Text) : Next (some (.glyph [')'])) ('|' :: v) := by
  refine ⟨by simp, fun _ => by simp, fun _ => by simp, fun _ => by simp, fun _ => ?_, nofun⟩
  intro y hy
  cases hy
  decide

theorem next_gap (n : Nat) (v : Text) : Next (some (.gap n)) (blanks (n + 1) ++ v) :=
  next_begins (.inr ⟨.gap n, v, rfl, trivial, rfl⟩)

theorem next_brk (n : Nat) (v : Text) : Next (some (.brk 0)) (breaks n ++ v) := by
  have : breaks n ++ v = '\n' :: (List.replicate n '\n' ++ v) := rfl
  rw [this]
  refine ⟨by simp, fun _ => by simp, fun h => absurd rfl (h 0), fun _ => by simp, fun _ => ?_, nofun⟩
  intro y hy
  cases hy
  decide

/-! ## Cells -/

/-- The tokens of a cell, `k` and the bar after it. -/
def Cell.raw (c : Cell) : Raw := gapRaw c.before ++ (docRaw c.items ++ gapRaw c.after)

theorem unit_pipe {v : Text} (h : ∃ c ∈ v.head?, c ≠ '\n') : Unit1 ['|'] v [(.Pipe, ['|'])] (charSwitch stdLex) := by
  obtain ⟨c, hc, hn⟩ := h
  refine unit_congr (unit_adv (by simp)) (fun pos col prev out => ?_)
  show casePipe _ = _
  unfold casePipe
  cases v with
  | nil => cases hc
  | cons d v =>
    cases hc
    rw [if_neg]
    · rfl
    · simp [isAt, hn]

theorem unit_trailing {v : Text} (h : v.head? = some '\n') : Unit1 ['|'] v [(.TrailingPipe, ['|'])] (charSwitch stdLex) := by
  refine unit_congr (unit_adv (by simp)) (fun pos col prev out => ?_)
  show casePipe _ = _
  unfold casePipe
  cases v with
  | nil => cases h
  | cons d v =>
    cases h
    rw [if_pos]
    · rfl
    · simp [isAt]

theorem first_char {b : Bool} {i : Item} {r : List Item} (h : LinkedFrom b (i :: r)) (hb : i.isBlank = false) :
    ∃ c u, i.text = c :: u ∧ c ≠ ' ' ∧ c ≠ '\n' := by
  have hnx := next_item h []
  rw [List.append_nil] at hnx
  have hne : i.text ≠ [] := hnx.ne nofun
  obtain ⟨c, u, hc⟩ := List.exists_cons_of_ne_nil hne
  have h1 := hnx.space (fun n hn => by
    cases i with
    | piece p => cases hn; cases hb
    | link _ _ => cases hn
    | url _ _ => cases hn
    | note _ => cases hn)
  have h2 := hnx.newline (fun n hn => by
    cases i with
    | piece p => cases hn; cases hb
    | link _ _ => cases hn
    | url _ _ => cases hn
    | note _ => cases hn)
  rw [hc] at h1 h2
  exact ⟨c, u, hc, fun h => h1 (by rw [h]; rfl), fun h => h2 (by rw [h]; rfl)⟩

/-- The text of a cell before a bar. -/
theorem run_cell {c : Cell} (h : c.Valid) (v : Text) : Run false c.text ('|' :: v) false c.raw := by
  obtain ⟨h1, h2, h3, h4, h5⟩ := h
  have r3 : Run false (blanks c.after) ('|' :: v) false (gapRaw c.after) := run_gap (by simp)
  have r2 : Run false (render c.items) (blanks c.after ++ '|' :: v) false (docRaw c.items) := by
    have : Next (some (tail c.after).like) (blanks c.after ++ '|' :: v) ∧ ((tail c.after).isBlank = true → Stops (blanks c.after ++ '|' :: v)) := by
      cases c.after with
      | zero => exact ⟨next_bar _, nofun⟩
      | succ n => exact ⟨next_gap n _, fun _ => blank_stops (j := .piece (.gap n)) rfl _⟩
    have := run_before this.1 this.2 h1 h2
    rwa [Bool.false_and] at this
  have r1 : Run false (blanks c.before) ((render c.items ++ blanks c.after) ++ '|' :: v) false (gapRaw c.before) := by
    refine run_gap ?_
    cases hi : c.items with
    | nil =>
      rw [h5 hi]
      simp [render, blanks]
    | cons i r =>
      rw [hi] at h1
      obtain ⟨x, u, hx, hs, -⟩ := first_char h1 (h3 i (by rw [hi]; rfl))
      rw [render_cons, hx]
      simp [hs]
  exact Run.append r1 (Run.append r2 r3)

/-! ## Rows -/

theorem Run.first {k : TK} {u v : Text} {n : Nat} (hn : u.length = n) (hne : u ≠ []) (hnl : u.getLast? ≠ some '\n')
    (hl : lineStart stdLex (u ++ v) (spaces (u ++ v)) = .adv k n) : Run true u v false [(k, u)] := by
  subst hn
  refine ⟨by simp [rawText], fun n pos col prev out hc => ?_⟩
  have hcol : col = 0 := hc.mpr rfl
  subst hcol
  obtain ⟨c1, p1, h1, h2⟩ := unit_adv (k := k) (u := u) (v := v) hne pos 0 prev out
  have hlen : u.length ≠ 0 := by simpa using hne
  refine ⟨1, c1, p1, by omega, ?_, fun k' => ?_⟩
  · rw [h2]; simp [hnl]
  have hstep : switchRegular stdLex (n + 1) ⟨⟨u ++ v, pos, 0, prev⟩, out⟩ = tokenAdv k u.length ⟨⟨u ++ v, pos, 0, prev⟩, out⟩ := by
    show regularBody stdLex (switchRegular stdLex n) _ = _
    unfold regularBody
    rw [if_pos rfl]
    simp only [hl]
  rw [Nat.add_comm 1 k']
  conv_lhs => unfold loop
  have hne2 : (!(u ++ v).isEmpty) = true := by cases u <;> simp_all
  simp only [hne2, if_true, hstep, h1]
  rw [if_neg (by omega)]

theorem isAny_blanks (n m : Nat) (r : Text) (f : Char → Bool) : isAtAny (blanks n ++ r) f (n + m) = isAtAny r f m := by
  unfold isAtAny blanks
  rw [List.getElem?_append_right (by simp)]
  simp

theorem run_leading (n : Nat) (v : Text) : Run true (blanks n ++ ['|']) (' ' :: v) false [(.LeadingPipe, blanks n ++ ['|'])] := by
  refine Run.first (n := 1 + n) (by simp [blanks]; omega) (by simp) (by simp) ?_
  rw [List.append_assoc]
  show lineStart stdLex (Code.blanks n ++ '|' :: ' ' :: v) (spaces (Code.blanks n ++ '|' :: ' ' :: v)) = _
  rw [spaces_blanks n (by simp)]
  unfold lineStart checkLeading
  have a := fun c => isAt_blanks n 0 ('|' :: ' ' :: v) c
  have b := isAny_blanks n 1 ('|' :: ' ' :: v)
  simp only [Nat.add_zero] at a
  rw [a, a, a]
  have hb : isAtAny (Code.blanks n ++ '|' :: ' ' :: v) (fun a => a = ' ' || a = '\n') (n + 1) = true := by
    have := b (fun a => a = ' ' || a = '\n')
    rw [show blanks n = Code.blanks n from rfl] at this
    rw [this]
    simp [isAtAny]
  rw [hb]
  simp [isAt]

def cellsRaw : List Cell → Raw
  | [] => []
  | [c] => c.raw ++ [(.TrailingPipe, ['|'])]
  | c :: d :: r => c.raw ++ ((.Pipe, ['|']) :: cellsRaw (d :: r))

def cellsText (cs : List Cell) : Text := (cs.map fun c => c.text ++ ['|']).flatten

theorem text_head {c : Cell} (h : c.Valid) (v : Text) : ∃ x ∈ (c.text ++ '|' :: v).head?, x ≠ '\n' := by
  obtain ⟨h1, h2, h3, h4, h5⟩ := h
  unfold Cell.text
  cases c.before with
  | succ n => exact ⟨' ', rfl, by decide⟩
  | zero =>
    cases hi : c.items with
    | nil =>
      rw [h5 hi]
      exact ⟨'|', rfl, by decide⟩
    | cons i r =>
      rw [hi] at h1
      obtain ⟨x, u, hx, -, hs⟩ := first_char h1 (h3 i (by rw [hi]; rfl))
      rw [render_cons, hx]
      exact ⟨x, rfl, hs⟩

theorem run_cells {cs : List Cell} (hne : cs ≠ []) (h : ∀ c ∈ cs, c.Valid) {v : Text} (hv : v.head? = some '\n') :
    Run false (cellsText cs) v false (cellsRaw cs) := by
  induction cs with
  | nil => exact absurd rfl hne
  | cons c r ih =>
    cases r with
    | nil =>
      have h1 := run_cell (h c List.mem_cons_self) v
      have h2 : Run false ['|'] v false [(.TrailingPipe, ['|'])] := Run.inner (unit_trailing hv) (by simp) rfl (by simp)
      have := Run.append (u' := ['|']) h1 h2
      simpa [cellsText, cellsRaw] using this
    | cons d r =>
      have h1 := run_cell (h c List.mem_cons_self) (cellsText (d :: r) ++ v)
      have h3 := ih (by simp) (fun x hx => h x (List.mem_cons_of_mem _ hx))
      have h2 : Run false ['|'] (cellsText (d :: r) ++ v) false [(.Pipe, ['|'])] := by
        refine Run.inner (unit_pipe ?_) (by simp) rfl (by simp)
        have := text_head (h d (by simp)) ((cellsText r) ++ v)
        simpa [cellsText] using this
      have := Run.append (u' := '|' :: cellsText (d :: r)) (v := v) h1 (Run.append (u := ['|']) h2 h3)
      simpa [cellsText, cellsRaw] using this

/-! ## Rules -/

theorem take_dashes (m : Nat) {v : Text} (hv : v.head? ≠ some '-') : ((List.replicate m '-' ++ v).takeWhile (· = '-')).length = m := by
  induction m with
  | zero =>
    cases v with
    | nil => rfl
    | cons c v =>
      have : c ≠ '-' := fun h => hv (by rw [h]; rfl)
      simp [this]
  | succ m ih =>
    rw [List.replicate_succ, List.cons_append, List.takeWhile_cons_of_pos (by simp), List.length_cons, ih]

theorem isAt_app (u v : Text) (c : Char) (m : Nat) : isAt (u ++ v) c (u.length + m) = isAt v c m := by
  unfold isAt
  rw [List.getElem?_append_right (by omega)]
  simp

def ruleRest : Nat → List Nat → Text
  | n, [] => dashes n ++ ['|']
  | n, m :: ms => dashes n ++ '+' :: ruleRest m ms

theorem rule_rest (n : Nat) (ms : List Nat) : Line.text (.rule n ms) = '|' :: ruleRest n ms := by
  show '|' :: dashes n ++ _ = _
  rw [List.cons_append]
  congr 1
  induction ms generalizing n with
  | nil => rfl
  | cons m ms ih =>
    rw [ruleRest, ← ih]
    simp [List.append_assoc]

theorem sep_step {u : Text} {n : Nat} {c : Char} {v : Text} (hc : c = '+' ∨ c = '|') (f cols : Nat) :
    tableSepGo (f + 1) (u ++ (dashes n ++ c :: v)) u.length cols =
      tableSepGo f ((u ++ (dashes n ++ [c])) ++ v) (u ++ (dashes n ++ [c])).length (cols + 1) := by
  have hcn : (c :: v).head? ≠ some '-' := by rcases hc with rfl | rfl <;> simp
  conv_lhs => rw [tableSepGo]
  have h1 : isAt (u ++ (dashes n ++ c :: v)) '-' u.length = true := by
    have := isAt_app u (dashes n ++ c :: v) '-' 0
    rw [Nat.add_zero] at this
    rw [this]; rfl
  rw [if_neg (by rw [h1]; decide)]
  dsimp only
  have h2 : ((u ++ (dashes n ++ c :: v)).drop u.length).takeWhile (· = '-') = (dashes n ++ c :: v).takeWhile (· = '-') := by
    rw [List.drop_left]
  rw [h2, show dashes n = List.replicate (n + 1) '-' from rfl, take_dashes _ hcn]
  have h3 : ∀ d, isAt (u ++ (List.replicate (n + 1) '-' ++ c :: v)) d (u.length + (n + 1)) = decide (c = d) := by
    intro d
    rw [isAt_app]
    have := isAt_app (List.replicate (n + 1) '-') (c :: v) d 0
    rw [List.length_replicate, Nat.add_zero] at this
    rw [this]
    simp [isAt]
  rw [h3, h3, if_pos (by rcases hc with rfl | rfl <;> simp)]
  congr 1
  · simp
  · simp [Nat.add_assoc]

theorem sep_stop {u v : Text} (hv : v.head? = some '\n') (f cols : Nat) : tableSepGo f (u ++ v) u.length cols = (u.length, cols) := by
  cases f with
  | zero => rfl
  | succ f =>
    unfold tableSepGo
    have := isAt_app u v '-' 0
    rw [Nat.add_zero] at this
    rw [this, if_pos]
    simp only [isAt]
    rw [← List.head?_eq_getElem?, hv]
    decide

theorem sep_rule (ms : List Nat) {v : Text} (hv : v.head? = some '\n') : ∀ (n : Nat) (u : Text) (f cols : Nat), ms.length < f →
    ∃ c, tableSepGo f (u ++ (ruleRest n ms ++ v)) u.length cols = ((u ++ ruleRest n ms).length, c) ∧ 0 < c := by
  induction ms with
  | nil =>
    intro n u f cols hf
    obtain ⟨f, rfl⟩ : ∃ g, f = g + 1 := ⟨f - 1, by omega⟩
    refine ⟨cols + 1, ?_, by omega⟩
    have := sep_step (u := u) (n := n) (v := v) (c := '|') (.inr rfl) f cols
    rw [show ruleRest n [] ++ v = dashes n ++ '|' :: v from by simp [ruleRest], this, sep_stop hv]
    rfl
  | cons m ms ih =>
    intro n u f cols hf
    obtain ⟨f, rfl⟩ : ∃ g, f = g + 1 := ⟨f - 1, by omega⟩
    simp only [List.length_cons] at hf
    obtain ⟨c, h1, h2⟩ := ih m (u ++ (dashes n ++ ['+'])) f (cols + 1) (by omega)
    refine ⟨c, ?_, h2⟩
    have := sep_step (u := u) (n := n) (v := ruleRest m ms ++ v) (c := '+') (.inl rfl) f cols
    rw [show ruleRest n (m :: ms) ++ v = dashes n ++ '+' :: (ruleRest m ms ++ v) from by simp [ruleRest], this, h1]
    congr 2
    simp [ruleRest]

theorem rest_len (n : Nat) (ms : List Nat) : ms.length < (ruleRest n ms).length := by
  induction ms generalizing n with
  | nil => simp [ruleRest]
  | cons m ms ih =>
    have := ih m
    simp only [ruleRest, List.length_append, List.length_cons]
    omega

theorem rest_last (n : Nat) (ms : List Nat) : (ruleRest n ms).getLast? = some '|' := by
  induction ms generalizing n with
  | nil => simp [ruleRest]
  | cons m ms ih =>
    rw [ruleRest, List.getLast?_append_of_ne_nil _ (by simp), List.getLast?_cons, ih]
    rfl

theorem rest_head (n : Nat) (ms : List Nat) : ∃ r, ruleRest n ms = '-' :: r := by
  cases ms with
  | nil => exact ⟨_, rfl⟩
  | cons m ms => exact ⟨_, rfl⟩

theorem run_rule (n : Nat) (ms : List Nat) {v : Text} (hv : v.head? = some '\n') :
    Run true (Line.text (.rule n ms)) v false [(.TableSeparator, Line.text (.rule n ms))] := by
  rw [rule_rest]
  refine Run.first rfl (by simp) ?_ ?_
  · rw [List.getLast?_cons, rest_last]
    simp
  rw [List.cons_append, Code.spaces_zero (by simp)]
  obtain ⟨c, h1, h2⟩ := sep_rule ms hv n ['|'] ('|' :: (ruleRest n ms ++ v)).length 0 (by
    have := rest_len n ms
    simp only [List.length_cons, List.length_append]
    omega)
  have hs : tableSep ('|' :: (ruleRest n ms ++ v)) 0 = some ('|' :: ruleRest n ms).length := by
    unfold tableSep
    rw [if_pos (by simp [isAt])]
    dsimp only
    rw [show tableSepGo _ ('|' :: (ruleRest n ms ++ v)) (0 + 1) 0 = _ from h1]
    dsimp only
    rw [if_pos h2]
    rfl
  unfold lineStart checkLeading
  obtain ⟨r, hr⟩ := rest_head n ms
  rw [hs, hr]
  simp [isAt, isAtAny]

/-! ## Lines -/

def Line.raw : Line → Raw
  | .row n cs => (.LeadingPipe, blanks n ++ ['|']) :: cellsRaw cs
  | .rule n ms => [(.TableSeparator, Line.text (.rule n ms))]

theorem run_line {l : Line} (h : l.Valid) {v : Text} (hv : v.head? = some '\n') : Run true l.text v false l.raw := by
  cases l with
  | rule n ms => exact run_rule n ms hv
  | row n cs =>
    obtain ⟨h1, h2, h3⟩ := h
    have r2 := run_cells h1 h2 hv
    obtain ⟨w, hw⟩ : ∃ w, cellsText cs ++ v = ' ' :: w := by
      cases cs with
      | nil => exact absurd rfl h1
      | cons c cs =>
        obtain ⟨m, hm⟩ : ∃ m, c.before = m + 1 := ⟨c.before - 1, by have := h3 c rfl; omega⟩
        exact ⟨_, by simp only [cellsText, List.map_cons, List.flatten_cons, Cell.text, hm]; rfl⟩
    have r1 : Run true (blanks n ++ ['|']) (cellsText cs ++ v) false [(.LeadingPipe, blanks n ++ ['|'])] := by
      rw [hw]; exact run_leading n w
    have := Run.append r1 r2
    rw [List.append_assoc] at this
    exact this

theorem run_break (n k : Nat) {v : Text} (hv : v.head? ≠ some '\n' ∧ v.head? ≠ some ' ') :
    Run false (breaks n) (blanks k ++ v) true [(breakKind n, breaks n)] := by
  have := Stamp.Run.unit (b := false) (unit_break n k hv) (by simp) (by simp [rawText]) (by simp)
  rwa [show decide ((List.replicate (n + 1) '\n').getLast? = some '\n') = true from by simp [List.getLast?_replicate]] at this

/-- The text starts with spaces and then something else. -/
def Starts (v : Text) : Prop := ∃ k w, v = blanks k ++ w ∧ w.head? ≠ some '\n' ∧ w.head? ≠ some ' '

theorem run_breaks (n : Nat) {v : Text} (hv : Starts v) : Run false (breaks n) v true [(breakKind n, breaks n)] := by
  obtain ⟨k, w, rfl, hw⟩ := hv
  exact run_break n k hw

def linesRaw (ls : List (Line × Nat)) : Raw := (ls.map fun l => l.1.raw ++ [(breakKind l.2, breaks l.2)]).flatten
def linesText (ls : List (Line × Nat)) : Text := (ls.map fun l => l.1.text ++ breaks l.2).flatten

theorem line_starts (l : Line) (v : Text) : Starts (l.text ++ v) := by
  cases l with
  | row n cs => exact ⟨n, '|' :: (cellsText cs ++ v), by simp [Line.text, cellsText], by simp, by simp⟩
  | rule n ms => exact ⟨0, Line.text (.rule n ms) ++ v, rfl, by rw [rule_rest]; simp, by rw [rule_rest]; simp⟩

theorem run_lines {ls : List (Line × Nat)} (h : ∀ l ∈ ls, l.1.Valid) {v : Text} (hv : Starts v) : Run true (linesText ls) v true (linesRaw ls) := by
  induction ls with
  | nil => exact Run.nil _ _
  | cons l ls ih =>
    have h2 := ih (fun x hx => h x (List.mem_cons_of_mem _ hx))
    have hs : Starts (linesText ls ++ v) := by
      cases ls with
      | nil => exact hv
      | cons m ls =>
        have := line_starts m.1 (breaks m.2 ++ (linesText ls ++ v))
        simpa [linesText] using this
    have h1 := run_line (v := (breaks l.2 ++ linesText ls) ++ v) (h l List.mem_cons_self) rfl
    have h3 := Run.append h1 (Run.append (v := v) (run_breaks l.2 hs) h2)
    simpa [linesText, linesRaw] using h3

/-! ## Documents -/

def Chunk.raw : Chunk → Raw
  | .table ls => linesRaw ls
  | .para is n => docRaw is ++ [(breakKind n, breaks n)]

def gridRaw (d : List Chunk) : Raw := (d.map Chunk.raw).flatten

theorem para_starts {is : List Item} (h : Linked is) (ho : OneLine is) : ∃ c u, render is = c :: u ∧ c ≠ ' ' ∧ c ≠ '\n' := by
  obtain ⟨h1, h2, h3, h4⟩ := h
  cases is with
  | nil => exact absurd rfl h2
  | cons i r =>
    have hb : i.isBlank = false := by
      cases i with
      | piece p =>
        cases p with
        | gap n => exact absurd h1.2.2.2.2.1.1 (by decide)
        | brk n => exact absurd List.mem_cons_self (ho n)
        | _ => rfl
      | _ => rfl
    obtain ⟨c, u, hc, hs⟩ := first_char h1 hb
    exact ⟨c, u ++ render r, by rw [render_cons, hc]; rfl, hs⟩

theorem chunk_starts {c : Chunk} (h : c.Valid) (v : Text) : Starts (c.text ++ v) := by
  cases c with
  | table ls =>
    obtain ⟨h1, l, hl, -⟩ := h
    cases ls with
    | nil => cases hl
    | cons m ls =>
      have := line_starts m.1 (breaks m.2 ++ (linesText ls ++ v))
      simpa [linesText, Chunk.text] using this
  | para is n =>
    obtain ⟨c, u, hc, h1, h2⟩ := para_starts h.1 h.2
    exact ⟨0, render is ++ (breaks n ++ v), by simp [Chunk.text, blanks], by rw [hc]; simpa using h2, by rw [hc]; simpa using h1⟩

theorem run_grid {d : List Chunk} (h : DocValid d) : Run true (docText d) [] true (gridRaw d) := by
  induction d with
  | nil => exact Run.nil _ _
  | cons c d ih =>
    obtain ⟨h1, h2, h3⟩ := h
    have hr := ih h3
    have hs : Starts (docText d) := by
      cases d with
      | nil => exact ⟨0, [], rfl, by simp, by simp⟩
      | cons e d => exact chunk_starts h3.1 _
    refine Run.append (u' := docText d) ?_ hr
    rw [List.append_nil]
    cases c with
    | table ls => exact run_lines h1.1 hs
    | para is n =>
      have r1 := run_before (x := .piece (.brk 0)) (v := breaks n ++ docText d) (next_brk n _) (fun _ => by
        intro c hc; cases hc; exact .inr (.inr rfl)) h1.1.from_ h1.2
      have he : (true && is.isEmpty) = false := by
        cases is with
        | nil => exact absurd rfl h1.1.ne
        | cons i r => rfl
      rw [he] at r1
      exact Run.append r1 (run_breaks n hs)

theorem grid_lexed {d : List Chunk} (h : DocValid d) : tokenize stdLex (docText d) = .ok (placed 0 (gridRaw d)) := by
  obtain ⟨-, hr⟩ := run_grid h
  obtain ⟨j, col', prev', h1, -, h3⟩ := hr (docText d).length 0 0 none [] (by simp)
  have := h3 ((docText d).length + 1 - j)
  rw [show j + ((docText d).length + 1 - j) = (docText d).length + 1 by omega, List.append_nil] at this
  unfold tokenize tokenizeSt
  rw [this]
  obtain ⟨k, hk⟩ : ∃ k, (docText d).length + 1 - j = k + 1 := ⟨(docText d).length - j, by omega⟩
  rw [hk]
  simp [loop]

/-! ## The tokens of the parser -/

/-- The kinds of tokens in such documents. -/
def gridKinds : List TK := [.LeadingPipe, .Pipe, .TrailingPipe, .TableSeparator, .MediumNewline, .LongNewline] ++ Link.calmKinds

def Known (r : Raw) : Prop := ∀ t ∈ r, t.1 ∈ gridKinds

theorem Known.append {a b : Raw} (ha : Known a) (hb : Known b) : Known (a ++ b) := by
  intro t ht
  rcases List.mem_append.mp ht with ht | ht
  · exact ha t ht
  · exact hb t ht

theorem becomes_known {b a : Option Tok} {k : TK} {u : Text} {l : Option Nat} (h : k ∈ gridKinds) :
    Recombine.becomes b ⟨k, u, l⟩ a = [⟨Link.finalKind k u, Link.finalText k u, l⟩] := by
  rcases List.mem_append.mp h with h | h
  · simp only [List.mem_cons, List.not_mem_nil, or_false] at h
    rcases h with h | h | h | h | h | h <;> subst h <;> rfl
  · exact Link.becomes_calm h

theorem neighbours_known {r : Raw} (h : Known r) : ∀ (b : Option Tok) (pos : Nat), Recombine.byNeighbours b (placed pos r) = Link.placedF pos r := by
  induction r with
  | nil => intro b pos; rfl
  | cons t r ih =>
    obtain ⟨k, u⟩ := t
    intro b pos
    simp only [placed, Recombine.byNeighbours, becomes_known (h (k, u) List.mem_cons_self), ih (fun x hx => h x (List.mem_cons_of_mem _ hx)), Link.placedF,
      List.singleton_append]

theorem known_calm {r : Raw} (h : Link.Calm r) : Known r := fun t ht => List.mem_append_right _ (h t ht)

theorem known_gap (n : Nat) : Known (gapRaw n) := by
  intro t ht
  unfold gapRaw at ht
  split at ht
  · cases ht
  · cases List.mem_singleton.mp ht
    show TK.Whitespace ∈ gridKinds
    decide

theorem known_one {k : TK} {u : Text} (h : k ∈ gridKinds) : Known [(k, u)] := by
  intro t ht
  cases List.mem_singleton.mp ht
  exact h

theorem linked_left {b : Bool} {is js : List Item} (h : LinkedFrom b (is ++ js)) : Link.Calm (docRaw is) := by
  have := Link.calm_items h
  intro t ht
  refine this t ?_
  unfold docRaw at ht ⊢
  rw [List.map_append, List.flatten_append]
  exact List.mem_append_left _ ht

theorem known_cell {c : Cell} (h : c.Valid) : Known c.raw :=
  (known_gap _).append ((known_calm (linked_left h.from_)).append (known_gap _))

theorem known_cells {cs : List Cell} (h : ∀ c ∈ cs, c.Valid) : Known (cellsRaw cs) := by
  induction cs with
  | nil => intro t ht; cases ht
  | cons c r ih =>
    cases r with
    | nil => exact (known_cell (h c List.mem_cons_self)).append (known_one (by decide))
    | cons d r => exact (known_cell (h c List.mem_cons_self)).append ((known_one (k := .Pipe) (by decide)).append (ih (fun x hx => h x (List.mem_cons_of_mem _ hx))))

theorem known_line {l : Line} (h : l.Valid) : Known l.raw := by
  cases l with
  | row n cs => exact (known_one (k := .LeadingPipe) (by decide)).append (known_cells h.2.1)
  | rule n ms => exact known_one (by decide)

theorem breakKind_known (n : Nat) : breakKind n ∈ gridKinds := by
  match n with
  | 0 => decide
  | 1 => decide
  | n + 2 => exact (show TK.LongNewline ∈ gridKinds by decide)

theorem known_lines {ls : List (Line × Nat)} (h : ∀ l ∈ ls, l.1.Valid) : Known (linesRaw ls) := by
  intro t ht
  obtain ⟨x, hx, ht⟩ := List.mem_flatten.mp ht
  obtain ⟨l, hl, rfl⟩ := List.mem_map.mp hx
  exact ((known_line (h l hl)).append (known_one (breakKind_known _))) t ht

theorem known_chunk {c : Chunk} (h : c.Valid) : Known c.raw := by
  cases c with
  | table ls => exact known_lines h.1
  | para is n => exact (known_calm (linked_left h.1.from_)).append (known_one (breakKind_known _))

theorem known_doc {d : List Chunk} (h : DocValid d) : Known (gridRaw d) := by
  induction d with
  | nil => intro t ht; cases ht
  | cons c d ih => exact (known_chunk h.1).append (ih h.2.2)

theorem placed_known {r : Raw} (h : Known r) : ∀ pos, ∀ t ∈ placed pos r, t.kind ∈ gridKinds := by
  induction r with
  | nil => intro pos t ht; cases ht
  | cons x r ih =>
    intro pos t ht
    rcases List.mem_cons.mp ht with rfl | ht
    · exact h x List.mem_cons_self
    · exact ih (fun y hy => h y (List.mem_cons_of_mem _ hy)) _ t ht

/-- The tokens of the parser. -/
theorem grid_tokens {d : List Chunk} (h : DocValid d) : tokens stdLex (docText d) = .ok (Link.placedF 0 (gridRaw d)) := by
  have hk := placed_known (known_doc h) 0
  unfold tokens
  rw [grid_lexed h]
  simp only [Recombine.convert]
  have h1 : ∀ k ∈ gridKinds, k ∉ structural := by decide
  have h2 : ∀ k ∈ gridKinds, k ≠ .LineCommand ∧ k ≠ .CmdRawArg := by decide
  have h3 : ∀ k ∈ gridKinds, Recombine.leastLength k = 0 := by decide
  rw [regroup_calm _ (fun t ht => h1 _ (hk t ht))]
  simp only [bind, Except.bind]
  rw [Recombine.recombine_local _ (fun t ht => h2 _ (hk t ht)) (fun t ht => by rw [h3 _ (hk t ht)]; omega), neighbours_known (known_doc h)]

end Verif.Grid
