import Verif.Stamp.Lex

/-!
# Lexing of documents with timestamps
-/

namespace Verif.Stamp
open Verif.Token Verif.BaseLexer Verif.Pipeline
open Verif.Drawer (Text showNat)

def Item.raw : Item → Raw
  | .piece p => [(p.kind, p.text)]
  | .stamp s => s.raw
  | .range a b => a.raw ++ ([(.DoubleDash, "--".toList)] ++ b.raw)

def docRaw (is : List Item) : Raw := (is.map Item.raw).flatten

/-! ## Pieces of prose -/

/-- What a piece needs of the text after it. -/
structure Next (next : Option Piece) (v : Text) : Prop where
  plus : v.head? ≠ some '+'
  space : (∀ n, next ≠ some (.gap n)) → v.head? ≠ some ' '
  newline : (∀ n, next ≠ some (.brk n)) → v.head? ≠ some '\n'
  colon : next ≠ some .colon → v.head? ≠ some ':'
  word : (∀ q ∈ next, ¬ q.Alnum) → EndsWord v
  ne : next ≠ none → v ≠ []

theorem next_begins {next : Option Piece} {v : Text} (h : Begins next v) : Next next v where
  plus := no_plus h
  space := no_space h
  newline := no_newline h
  colon := no_colon h
  word := ends_word h
  ne := by
    intro hn he
    rcases h with ⟨h, -⟩ | ⟨q, v', -, h, rfl⟩
    · exact hn h
    · obtain ⟨x, r, hx⟩ := piece_head h
      rw [hx] at he
      cases he

theorem next_stamp (s : Stamp) (v : Text) : Next (some (.glyph ['('])) (s.text ++ v) := by
  have hh : (s.text ++ v).head? = some '<' ∨ (s.text ++ v).head? = some '[' := by
    unfold Stamp.text Stamp.opening
    cases s.active <;> simp
  have hne : ∀ x, x ≠ '<' → x ≠ '[' → (s.text ++ v).head? ≠ some x := by
    intro x h1 h2 he
    rcases hh with hh | hh <;> rw [hh] at he <;> injection he with he
    · exact h1 he.symm
    · exact h2 he.symm
  refine ⟨hne _ (by decide) (by decide), fun _ => hne _ (by decide) (by decide), fun _ => hne _ (by decide) (by decide),
    fun _ => hne _ (by decide) (by decide), fun _ => ?_, fun _ he => by rw [he] at hh; simp at hh⟩
  intro c hc
  rcases hh with hh | hh <;> rw [hh] at hc <;> injection hc with hc <;> subst hc <;> decide

theorem render_cons (i : Item) (r : List Item) : render (i :: r) = i.text ++ render r := rfl

theorem next_items {b : Bool} {r : List Item} (h : DatedFrom b r) : Next (r.head?.map Item.like) (render r) := by
  cases r with
  | nil => exact next_begins (.inl ⟨rfl, rfl⟩)
  | cons i r =>
    rw [render_cons]
    cases i with
    | piece p => exact next_begins (.inr ⟨p, render r, rfl, h.1, rfl⟩)
    | stamp s => exact next_stamp s _
    | range x y => rw [Item.text, List.append_assoc, List.append_assoc]; exact next_stamp x _

theorem lexes_next {p : Piece} {next : Option Piece} {v : List Char} {bol : Bool} (col : Nat) (h1 : p.Valid) (hs : p ≠ .star) (h2 : fits bol p next)
    (h3 : Next next v) : Lexes p v col (charSwitch stdLex) := by
  cases p with
  | word w =>
    obtain ⟨h4, h5, h6⟩ := h2
    refine lexes_word h1 (h3.word h5) (h3.ne h4) (fun hc => (h6 ?_).1)
    by_contra hn
    exact h3.colon hn hc
  | number ds => exact lexes_number h1.1 h1.2 (h3.word h2.2.1) (h3.colon h2.2.2)
  | gap n => exact lexes_gap (h3.space h2.2)
  | brk n => exact lexes_brk (h3.newline (fun m => (h2 m).2)) (h3.space (fun m => (h2 m).1))
  | colon => exact lexes_colon (h3.colon h2.2)
  | star => exact absurd rfl hs
  | slash => exact lexes_slash
  | glyph u => exact lexes_glyph h1 h3.plus

theorem line_next {p : Piece} {next : Option Piece} {v : List Char} (h1 : p.Valid) (h2 : fits true p next) (h3 : Next next v) :
    lineStart stdLex (p.text ++ v) (spaces (p.text ++ v)) = .other := by
  have key : ∀ c r, p.text = c :: r → isAlnum c = false → c ∉ [' ', '-', '+', '|', ':', '#'] →
      lineStart stdLex (p.text ++ v) (spaces (p.text ++ v)) = .other := by
    intro c r hc ha hn
    rw [hc, List.cons_append]
    refine lineStart_text hn (alnum_digit ha) (fun hp => ?_)
    have : 'c' = toLower c := (List.cons_prefix_cons.mp hp).1
    rw [toLower_alnum ha] at this
    rw [← this] at ha
    exact absurd ha (by decide)
  cases p with
  | word w =>
    obtain ⟨c, r, hc⟩ := piece_head h1
    have hal := word_head h1 (show w.head? = some c from by rw [show w = c :: r from hc]; rfl)
    rw [hc, List.cons_append]
    refine lineStart_text ?_ (alpha_not_digit hal) (fun hp => ?_)
    · simp only [List.mem_cons, List.not_mem_nil, or_false, not_or]
      exact ⟨alpha_ne hal (by decide), alpha_ne hal (by decide), alpha_ne hal (by decide), alpha_ne hal (by decide),
        alpha_ne hal (by decide), alpha_ne hal (by decide)⟩
    · rw [← List.cons_append, ← hc] at hp
      obtain ⟨h4, h5⟩ := prefix_colon (t := "clock".toList) (w := w) toLower (fun c hc => toLower_alnum hc) toLower_colon (by decide)
        (word_colon h1) (endsWord_weak (h3.word h2.2.1)) hp
      refine (h2.2.2 ?_).2 rfl h4
      by_contra hn
      exact h3.colon hn h5
  | number ds => exact absurd h2.1 (by decide)
  | gap n => exact absurd h2.1 (by decide)
  | brk n => exact key '\n' (List.replicate n '\n') rfl (by decide) (by decide)
  | colon => exact absurd h2.1 (by decide)
  | star => exact key '*' [] rfl (by decide) (by decide)
  | slash => exact key '/' [] rfl (by decide) (by decide)
  | glyph u =>
    obtain ⟨c, r, hc⟩ := piece_head h1
    have hh : (Piece.glyph u).text.head? = some c := by rw [hc]; rfl
    have he := head_endsWord (q := .glyph u) h1 hh (fun hh => hh)
    refine key c r hc he.1 ?_
    simp only [List.mem_cons, List.not_mem_nil, or_false, not_or]
    exact ⟨glyph_ne h1 hh (by decide) (by decide), glyph_ne h1 hh (by decide) (by decide), glyph_ne h1 hh (by decide) (by decide),
      glyph_ne h1 hh (by decide) (by decide), glyph_ne h1 hh (by decide) (by decide), glyph_ne h1 hh (by decide) (by decide)⟩

theorem run_piece {p : Piece} {next : Option Piece} {v : Text} {bol : Bool} (h1 : p.Valid) (hs : p ≠ .star) (h2 : fits bol p next)
    (h3 : Next next v) : Run bol p.text v p.isBrk [(p.kind, p.text)] := by
  have hu := unit_piece h1 (fun col => lexes_next col h1 hs h2 h3)
  obtain ⟨x, r, hx⟩ := piece_head h1
  have := Run.unit (b := bol) hu (by rw [hx]; simp) (by simp [rawText]) (fun hb => by subst hb; exact line_next h1 h2 h3)
  rwa [show decide (p.text.getLast? = some '\n') = p.isBrk from by
    rw [Bool.eq_iff_iff, decide_eq_true_iff, ← piece_last h1]] at this

/-! ## Documents -/

theorem ends_piece {r : List Item} {b : Bool} (h : DatedFrom b r) (hp : ∃ i ∈ r.head?, i.isPiece = true) : Ends (render r) := by
  obtain ⟨i, hi, hp⟩ := hp
  cases r with
  | nil => cases hi
  | cons j r =>
    cases hi
    cases i with
    | stamp s => cases hp
    | range x y => cases hp
    | piece p =>
      have hb : Begins (some p) (render (.piece p :: r)) := .inr ⟨p, render r, rfl, h.1, rfl⟩
      have key : ∀ x, x ∉ marksTable.map (·.1) → x.toNat < 0xC0 → isAlpha x = false → isDigit x = false →
          x ∉ [' ', '\n', ':', '*', '/'] → (render (.piece p :: r)).head? ≠ some x := by
        intro x h1 h2 h3 h4 h5 hc
        obtain ⟨q, -, h6, h7⟩ := begins_head hb hc
        have := head_mark h6 h7 x h1 h2 h3 h4 rfl
        simp only [List.mem_cons, List.not_mem_nil, or_false, not_or] at h5
        simp [h5] at this
      exact ⟨key _ (by decide) (by decide) (by decide) (by decide) (by decide), key _ (by decide) (by decide) (by decide) (by decide) (by decide),
        key _ (by decide) (by decide) (by decide) (by decide) (by decide)⟩

theorem run_items {b : Bool} {is : List Item} (h : DatedFrom b is) : ∃ b', Run b (render is) [] b' (docRaw is) := by
  induction is generalizing b with
  | nil => exact ⟨b, Run.nil _ _⟩
  | cons i r ih =>
    cases i with
    | piece p =>
      obtain ⟨h1, h2, h3, h4, h5, h6⟩ := h
      obtain ⟨b', hr⟩ := ih h6
      exact ⟨b', Run.append (run_piece h1 h2 h5 (by rw [List.append_nil]; exact next_items h6)) hr⟩
    | stamp s =>
      obtain ⟨h1, h2, h3, h4⟩ := h
      obtain ⟨b', hr⟩ := ih h4
      exact ⟨b', Run.append (run_stamp h1 (by rw [List.append_nil]; exact ends_piece h4 h2)) hr⟩
    | range x y =>
      obtain ⟨h1, h2, h3, h4, h5⟩ := h
      obtain ⟨b', hr⟩ := ih h5
      refine ⟨b', Run.append (ts := Item.raw (.range x y)) ?_ hr⟩
      have hy : Run false y.text (render r ++ []) false y.raw := run_stamp h2 (by rw [List.append_nil]; exact ends_piece h5 h4)
      have hd : Run false "--".toList (y.text ++ (render r ++ [])) false [(.DoubleDash, "--".toList)] := by
        refine Run.inner (unit_dash ?_) (by simp) (by simp [rawText]) (by decide)
        unfold Stamp.text Stamp.opening
        cases y.active <;> simp
      have hx : Run b x.text ("--".toList ++ y.text ++ (render r ++ [])) false x.raw := run_stamp h1 (by simp [Ends])
      have := Run.append hx (Run.append hd hy)
      simp only [List.append_nil] at this
      rw [List.append_nil]
      show Run b (x.text ++ "--".toList ++ y.text) (render r) false _
      rw [List.append_assoc]
      exact this

theorem dated_lexed {is : List Item} (h : DatedFrom true is) : tokenize stdLex (render is) = .ok (placed 0 (docRaw is)) := by
  obtain ⟨b', -, hr⟩ := run_items h
  obtain ⟨j, col', prev', h1, -, h3⟩ := hr (render is).length 0 0 none [] (by simp)
  have := h3 ((render is).length + 1 - j)
  rw [show j + ((render is).length + 1 - j) = (render is).length + 1 by omega, List.append_nil] at this
  unfold tokenize tokenizeSt
  rw [this]
  obtain ⟨k, hk⟩ : ∃ k, (render is).length + 1 - j = k + 1 := ⟨(render is).length - j, by omega⟩
  rw [hk]
  simp [loop]

/-! ## Recombination -/

/-- The kinds of tokens in such documents. -/
def calmKinds : List TK :=
  [.Number, .Whitespace, .Newline, .Colon, .Comma, .Semicolon, .Exclamation, .ParBegin, .ParEnd, .DoubleQuote, .Percent, .Punctuation, .AnyPunct,
   .Word, .DoubleDash, .AngleBegin, .AngleEnd, .BraceBegin, .BraceEnd, .Date, .Time, .TimeRepeaterSpec, .TimeRepeaterDuration, .TimeWarnPeriod]

/-- `+` is only before a number and after a space. -/
inductive Calm : Raw → Prop where
  | nil : Calm []
  | one {k : TK} {u : Text} {r : Raw} (hk : k ∈ calmKinds) (hr : Calm r) : Calm ((k, u) :: r)
  | zone {g d : Text} {r : Raw} (hr : Calm r) : Calm ((.Whitespace, g) :: (.Plus, ['+']) :: (.Number, d) :: r)

theorem Calm.append {a b : Raw} (ha : Calm a) (hb : Calm b) : Calm (a ++ b) := by
  induction ha with
  | nil => exact hb
  | one hk _ ih => exact .one hk ih
  | zone _ ih => exact .zone ih

theorem calm_all {a : Raw} (h : ∀ t ∈ a, t.1 ∈ calmKinds) : Calm a := by
  induction a with
  | nil => exact .nil
  | cons t a ih => exact .one (h t List.mem_cons_self) (ih fun x hx => h x (List.mem_cons_of_mem _ hx))

/-- The final kind of a token. -/
def finalKind (k : TK) (u : Text) : TK :=
  if k = .Word then (if ∀ c ∈ u, ('A' ≤ c ∧ c ≤ 'Z') ∨ c = '_' then .BigIdent else .Word)
  else if k = .Plus then .StrikeBegin else k

def final (ts : Raw) : Raw := ts.map fun t => (finalKind t.1 t.2, t.2)

theorem becomes_calm {b a : Option Tok} {k : TK} {u : Text} {l : Option Nat} (h : k ∈ calmKinds) :
    Recombine.becomes b ⟨k, u, l⟩ a = [⟨finalKind k u, u, l⟩] := by
  simp only [calmKinds, List.mem_cons, List.not_mem_nil, or_false] at h
  rcases h with h | h | h | h | h | h | h | h | h | h | h | h | h | h | h | h | h | h | h | h | h | h | h | h <;> subst h <;> rfl

theorem becomes_plus {b a : Tok} (hb : b.kind = .Whitespace) (ha : a.kind = .Number) (l : Option Nat) :
    Recombine.becomes (some b) ⟨.Plus, ['+'], l⟩ (some a) = [⟨.StrikeBegin, ['+'], l⟩] := by
  obtain ⟨kb, ub, lb⟩ := b
  obtain ⟨ka, ua, la⟩ := a
  dsimp only at hb ha
  subst hb; subst ha
  rfl

theorem neighbours_calm {r : Raw} (h : Calm r) : ∀ (b : Option Tok) (pos : Nat), Recombine.byNeighbours b (placed pos r) = placed pos (final r) := by
  induction h with
  | nil => intro b pos; rfl
  | one hk _ ih =>
    intro b pos
    simp only [placed, Recombine.byNeighbours, becomes_calm hk, ih, final, List.map_cons, List.singleton_append]
  | zone _ ih =>
    intro b pos
    simp only [placed, Recombine.byNeighbours, becomes_calm (show TK.Whitespace ∈ calmKinds by decide),
      becomes_calm (show TK.Number ∈ calmKinds by decide), List.head?_cons, ih, final, List.map_cons, List.singleton_append]
    rw [becomes_plus rfl rfl]
    rfl

theorem calm_gap (n : Nat) : ∀ t ∈ gapRaw n, t.1 ∈ calmKinds := by
  unfold gapRaw
  split
  · simp
  · simp only [List.mem_singleton, forall_eq]; decide

theorem calm_stamp (s : Stamp) : Calm s.raw := by
  have hz : Calm (zoneRaw s) := by
    unfold zoneRaw
    cases s.zone with
    | none => exact .nil
    | some z => exact .zone .nil
  have hn : Calm (nameRaw s) := by
    unfold nameRaw
    cases s.dayName with
    | none => exact .nil
    | some w => exact .one (by decide) (.one (by decide) .nil)
  have hc : Calm (clockRaw s) := by
    unfold clockRaw
    cases s.clock with
    | none => exact .nil
    | some w => exact .one (by decide) (.one (by decide) .nil)
  have hr : Calm (repsRaw s) := by
    refine calm_all ?_
    intro t ht
    simp only [repsRaw, List.mem_flatten, List.mem_map] at ht
    obtain ⟨l, ⟨r, -, rfl⟩, ht⟩ := ht
    rcases List.mem_append.mp ht with ht | ht
    · exact calm_gap _ _ ht
    · simp only [List.mem_cons, List.not_mem_nil, or_false] at ht
      rcases ht with rfl | rfl
      · show TK.TimeRepeaterSpec ∈ calmKinds; decide
      · show TK.TimeRepeaterDuration ∈ calmKinds; decide
  have hw : Calm (warnRaw s) := by
    unfold warnRaw
    cases s.warning with
    | none => exact .nil
    | some w => exact (calm_all (calm_gap _)).append (.one (by decide) .nil)
  unfold Stamp.raw Stamp.inside
  refine Calm.append (a := [_]) (.one ?_ .nil) (Calm.append (Calm.append (a := [_]) (.one ?_ .nil) (hn.append (hc.append (hz.append (hr.append hw)))))
    (.one ?_ .nil))
  · split <;> decide
  · decide
  · split <;> decide

theorem calm_items {b : Bool} {is : List Item} (h : DatedFrom b is) : Calm (docRaw is) := by
  induction is generalizing b with
  | nil => exact .nil
  | cons i r ih =>
    show Calm (i.raw ++ docRaw r)
    cases i with
    | piece p =>
      obtain ⟨h1, h2, h3, h4, h5, h6⟩ := h
      refine Calm.append (.one ?_ .nil) (ih h6)
      have h7 : ∀ k ∈ proseKinds, k ∈ calmKinds ∨ k ∈ [TK.MediumNewline, .LongNewline, .Asterisk, .ForwardSlash] := by decide
      rcases h7 _ (kind_prose h1) with h8 | h8
      · exact h8
      · cases p with
        | star => exact absurd rfl h2
        | slash => exact absurd rfl h3
        | brk n =>
          cases n with
          | zero => decide
          | succ n => exact absurd rfl (h4 n)
        | word w => simp [Piece.kind] at h8
        | number w => simp [Piece.kind] at h8
        | gap w => simp [Piece.kind] at h8
        | colon => simp [Piece.kind] at h8
        | glyph u =>
          rcases h1 with ⟨x, rfl, hx⟩ | ⟨a, b, rfl, -⟩ | ⟨a, b, d, rfl, -⟩
          · have : ∀ x ∈ marksTable.map (·.1), (Piece.glyph [x]).kind ∈ calmKinds := by decide
            exact this x hx
          · simp [Piece.kind, glyphKind] at h8
          · simp [Piece.kind, glyphKind] at h8
    | stamp s =>
      obtain ⟨h1, h2, h3, h4⟩ := h
      exact (calm_stamp s).append (ih h4)
    | range x y =>
      obtain ⟨h1, h2, h3, h4, h5⟩ := h
      exact ((calm_stamp x).append (.one (by decide) (calm_stamp y))).append (ih h5)

theorem placed_kinds {r : Raw} (h : Calm r) : ∀ pos, ∀ t ∈ placed pos r, t.kind ∈ TK.Plus :: calmKinds := by
  have hk : ∀ t ∈ r, t.1 ∈ TK.Plus :: calmKinds := by
    induction h with
    | nil => simp
    | one hk _ ih =>
      intro t ht
      rcases List.mem_cons.mp ht with rfl | ht
      · exact List.mem_cons_of_mem _ hk
      · exact ih t ht
    | zone _ ih =>
      intro t ht
      simp only [List.mem_cons] at ht
      rcases ht with rfl | rfl | rfl | ht
      · show TK.Whitespace ∈ _; decide
      · show TK.Plus ∈ _; decide
      · show TK.Number ∈ _; decide
      · exact ih t ht
  clear h
  induction r with
  | nil => intro pos t ht; cases ht
  | cons x r ih =>
    intro pos t ht
    rcases List.mem_cons.mp ht with rfl | ht
    · exact hk x List.mem_cons_self
    · exact ih (fun y hy => hk y (List.mem_cons_of_mem _ hy)) _ t ht

/-- The tokens of the parser. -/
theorem dated_tokens {is : List Item} (h : DatedFrom true is) : tokens stdLex (render is) = .ok (placed 0 (final (docRaw is))) := by
  have hk := placed_kinds (calm_items h) 0
  unfold tokens
  rw [dated_lexed h]
  simp only [Recombine.convert]
  have h1 : ∀ k ∈ TK.Plus :: calmKinds, k ∉ structural := by decide
  have h2 : ∀ k ∈ TK.Plus :: calmKinds, k ≠ .LineCommand ∧ k ≠ .CmdRawArg := by decide
  have h3 : ∀ k ∈ TK.Plus :: calmKinds, Recombine.leastLength k = 0 := by decide
  rw [regroup_calm _ (fun t ht => h1 _ (hk t ht))]
  simp only [bind, Except.bind]
  rw [Recombine.recombine_local _ (fun t ht => h2 _ (hk t ht)) (fun t ht => by rw [h3 _ (hk t ht)]; omega), neighbours_calm (calm_items h)]

end Verif.Stamp
