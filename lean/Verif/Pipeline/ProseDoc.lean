import Verif.Pipeline.ProseStep
import Verif.Pipeline.Calm
import Verif.Pipeline.Model
import Verif.Recombine.Props
import Verif.Parser.Props

/-!
# A document of prose, from its text to its tree
-/

namespace Verif.Pipeline
open Verif.Token Verif.BaseLexer

/-! ## The character after a piece -/

/-- The first character of punctuation is not a character of other notation. -/
theorem glyph_head {u : List Char} {c : Char} (hu : IsGlyph u) (hc : u.head? = some c) : c ∈ marksTable.map (·.1) ∨ 0xC0 ≤ c.toNat := by
  rcases hu with ⟨x, rfl, hx⟩ | ⟨a, b, rfl, h1, -⟩ | ⟨a, b, d, rfl, h1, -⟩
  · simp only [List.head?_cons, Option.some.injEq] at hc
    subst hc
    exact .inl hx
  · simp only [List.head?_cons, Option.some.injEq] at hc
    subst hc
    exact .inr h1
  · simp only [List.head?_cons, Option.some.injEq] at hc
    subst hc
    exact .inr (by omega)

theorem glyph_ne {u : List Char} {c x : Char} (hu : IsGlyph u) (hc : u.head? = some c) (hx : x ∉ marksTable.map (·.1)) (hn : x.toNat < 0xC0) :
    c ≠ x := by
  rintro rfl
  rcases glyph_head hu hc with h | h
  · exact hx h
  · omega

theorem alpha_not_digit {c : Char} (h : isAlpha c = true) : isDigit c = false := by
  cases hd : isDigit c with
  | false => rfl
  | true =>
    simp only [isDigit, Bool.and_eq_true, decide_eq_true_eq] at hd
    have h2 : c.toNat ≤ 57 := hd.2
    simp only [isAlpha, isLower, isUpper, Bool.or_eq_true, Bool.and_eq_true, decide_eq_true_eq] at h
    rcases h with h | h
    · have : 97 ≤ c.toNat := h.1
      omega
    · have : 65 ≤ c.toNat := h.1
      omega

theorem alpha_ne {c x : Char} (h : isAlpha c = true) (hx : isAlpha x = false) : c ≠ x := by
  rintro rfl
  rw [h] at hx
  cases hx

theorem high_not_alnum {c : Char} (h : 0x80 ≤ c.toNat) : isAlnum c = false := by
  cases ha : isAlnum c with
  | false => rfl
  | true =>
    simp only [isAlnum, isAlpha, isLower, isUpper, isDigit, Bool.or_eq_true, Bool.and_eq_true, decide_eq_true_eq] at ha
    rcases ha with (ha | ha) | ha
    · have : c.toNat ≤ 122 := ha.2
      omega
    · have : c.toNat ≤ 90 := ha.2
      omega
    · have : c.toNat ≤ 57 := ha.2
      omega

theorem word_head {w : List Char} {c : Char} (hw : IsWord w) (hc : w.head? = some c) : isAlpha c = true := by
  obtain ⟨⟨x, hx, ha⟩, -⟩ := hw
  rw [hc] at hx
  cases hx
  exact ha

/-- The piece is written with a character of its own. -/
theorem head_mark {q : Piece} {c : Char} (hq : q.Valid) (hc : q.text.head? = some c) (x : Char) (hx : x ∉ marksTable.map (·.1))
    (hn : x.toNat < 0xC0) (ha : isAlpha x = false) (hd : isDigit x = false) (he : c = x) :
    (∃ n, q = .gap n ∧ x = ' ') ∨ (∃ n, q = .brk n ∧ x = '\n') ∨ (q = .colon ∧ x = ':') ∨ (q = .star ∧ x = '*') ∨ (q = .slash ∧ x = '/') := by
  subst he
  cases q with
  | word w => exact absurd rfl (alpha_ne (word_head hq hc) ha)
  | number ds => exact absurd rfl (digit_ne (hq.2 c (List.mem_of_mem_head? hc)) hd)
  | gap n =>
    simp only [Piece.text, List.replicate_succ, List.head?_cons, Option.some.injEq] at hc
    exact .inl ⟨n, rfl, hc.symm⟩
  | brk n =>
    simp only [Piece.text, List.replicate_succ, List.head?_cons, Option.some.injEq] at hc
    exact .inr (.inl ⟨n, rfl, hc.symm⟩)
  | colon => simp only [Piece.text, List.head?_cons, Option.some.injEq] at hc; simp [← hc]
  | star => simp only [Piece.text, List.head?_cons, Option.some.injEq] at hc; simp [← hc]
  | slash => simp only [Piece.text, List.head?_cons, Option.some.injEq] at hc; simp [← hc]
  | glyph u => exact absurd rfl (glyph_ne hq hc hx hn)

theorem head_endsWord {q : Piece} {c : Char} (hq : q.Valid) (hc : q.text.head? = some c) (hna : ¬ q.Alnum) :
    isAlnum c = false ∧ c ≠ '-' ∧ c ≠ '_' ∧ c ≠ '\'' := by
  cases q with
  | word w => exact absurd trivial hna
  | number ds => exact absurd trivial hna
  | gap n => simp only [Piece.text, List.replicate_succ, List.head?_cons, Option.some.injEq] at hc; subst hc; decide
  | brk n => simp only [Piece.text, List.replicate_succ, List.head?_cons, Option.some.injEq] at hc; subst hc; decide
  | colon => simp only [Piece.text, List.head?_cons, Option.some.injEq] at hc; subst hc; decide
  | star => simp only [Piece.text, List.head?_cons, Option.some.injEq] at hc; subst hc; decide
  | slash => simp only [Piece.text, List.head?_cons, Option.some.injEq] at hc; subst hc; decide
  | glyph u =>
    refine ⟨?_, glyph_ne hq hc (by decide) (by decide), glyph_ne hq hc (by decide) (by decide), glyph_ne hq hc (by decide) (by decide)⟩
    rcases glyph_head hq hc with h | h
    · revert h
      have : ∀ x ∈ marksTable.map (·.1), isAlnum x = false := by decide
      exact this c
    · exact high_not_alnum (by omega)

theorem render_cons (p : Piece) (ps : List Piece) : render (p :: ps) = p.text ++ render ps := rfl

/-- The text is empty, or starts with the piece. -/
def Begins (next : Option Piece) (v : List Char) : Prop :=
  (next = none ∧ v = []) ∨ ∃ q v', next = some q ∧ q.Valid ∧ v = q.text ++ v'

theorem prose_begins {ps : List Piece} {bol : Bool} (h : ProseFrom bol ps) : Begins ps.head? (render ps) := by
  cases ps with
  | nil => exact .inl ⟨rfl, rfl⟩
  | cons q ps => exact .inr ⟨q, render ps, rfl, h.1, rfl⟩

theorem begins_head {next : Option Piece} {v : List Char} (h : Begins next v) {c : Char} (hc : v.head? = some c) :
    ∃ q, next = some q ∧ q.Valid ∧ q.text.head? = some c := by
  rcases h with ⟨-, rfl⟩ | ⟨q, v', h1, h2, rfl⟩
  · cases hc
  · obtain ⟨x, r, hx⟩ := piece_head h2
    refine ⟨q, h1, h2, ?_⟩
    rw [hx] at hc ⊢
    exact hc

theorem no_plus {next : Option Piece} {v : List Char} (h : Begins next v) : v.head? ≠ some '+' := by
  intro hc
  obtain ⟨q, -, h2, h3⟩ := begins_head h hc
  have := head_mark h2 h3 '+' (by decide) (by decide) (by decide) (by decide) rfl
  simp at this

theorem no_space {next : Option Piece} {v : List Char} (h : Begins next v) (hg : ∀ n, next ≠ some (.gap n)) : v.head? ≠ some ' ' := by
  intro hc
  obtain ⟨q, h1, h2, h3⟩ := begins_head h hc
  have := head_mark h2 h3 ' ' (by decide) (by decide) (by decide) (by decide) rfl
  simp at this
  obtain ⟨n, rfl⟩ := this
  exact hg n h1

theorem no_newline {next : Option Piece} {v : List Char} (h : Begins next v) (hg : ∀ n, next ≠ some (.brk n)) : v.head? ≠ some '\n' := by
  intro hc
  obtain ⟨q, h1, h2, h3⟩ := begins_head h hc
  have := head_mark h2 h3 '\n' (by decide) (by decide) (by decide) (by decide) rfl
  simp at this
  obtain ⟨n, rfl⟩ := this
  exact hg n h1

theorem no_colon {next : Option Piece} {v : List Char} (h : Begins next v) (hg : next ≠ some .colon) : v.head? ≠ some ':' := by
  intro hc
  obtain ⟨q, h1, h2, h3⟩ := begins_head h hc
  have := head_mark h2 h3 ':' (by decide) (by decide) (by decide) (by decide) rfl
  simp at this
  subst this
  exact hg h1

theorem no_star {next : Option Piece} {v : List Char} (h : Begins next v) (hg : next ≠ some .star) : v.head? ≠ some '*' := by
  intro hc
  obtain ⟨q, h1, h2, h3⟩ := begins_head h hc
  have := head_mark h2 h3 '*' (by decide) (by decide) (by decide) (by decide) rfl
  simp at this
  subst this
  exact hg h1

theorem ends_word {next : Option Piece} {v : List Char} (h : Begins next v) (hg : ∀ q ∈ next, ¬ q.Alnum) : EndsWord v := by
  intro c hc
  obtain ⟨q, h1, h2, h3⟩ := begins_head h hc
  exact head_endsWord h2 h3 (hg q h1)

/-! ## One step of the lexer -/

theorem lexes_begins {p : Piece} {next : Option Piece} {v : List Char} {bol : Bool} {col : Nat} (h1 : p.Valid) (h2 : fits bol p next)
    (h3 : Begins next v) (hcol : col = 0 ↔ bol = true) : Lexes p v col (charSwitch stdLex) := by
  cases p with
  | word w =>
    obtain ⟨h4, h5, h6⟩ := h2
    refine lexes_word h1 (ends_word h3 h5) ?_ (fun hc => ?_)
    · intro he
      rcases h3 with ⟨h3, -⟩ | ⟨q, v', -, h3, rfl⟩
      · exact h4 h3
      · obtain ⟨x, r, hx⟩ := piece_head h3
        rw [hx] at he
        cases he
    · refine (h6 ?_).1
      by_contra hn
      exact no_colon h3 hn hc
  | number ds => exact lexes_number h1.1 h1.2 (ends_word h3 h2.2.1) (no_colon h3 h2.2.2)
  | gap n => exact lexes_gap (no_space h3 h2.2)
  | brk n => exact lexes_brk (no_newline h3 (fun m => (h2 m).2)) (no_space h3 (fun m => (h2 m).1))
  | colon => exact lexes_colon (no_colon h3 h2.2)
  | star => exact lexes_star (fun hc => ⟨no_star h3 (h2 (hcol.mp hc)).1, no_space h3 (h2 (hcol.mp hc)).2⟩)
  | slash => exact lexes_slash
  | glyph u => exact lexes_glyph h1 (no_plus h3)

theorem lexes_piece {p : Piece} {ps : List Piece} {bol : Bool} {col : Nat} (h : ProseFrom bol (p :: ps)) (hcol : col = 0 ↔ bol = true) :
    Lexes p (render ps) col (charSwitch stdLex) := lexes_begins h.1 h.2.1 (prose_begins h.2.2) hcol

theorem line_begins {p : Piece} {next : Option Piece} {v : List Char} (h1 : p.Valid) (h2 : fits true p next) (h3 : Begins next v) :
    lineStart stdLex (p.text ++ v) (spaces (p.text ++ v)) = .other := by
  have key : ∀ c r, p.text = c :: r → isAlnum c = false → c ∉ [' ', '-', '+', '|', ':', '#'] →
      lineStart stdLex (p.text ++ v) (spaces (p.text ++ v)) = .other := by
    intro c r hc ha hn
    rw [hc, List.cons_append]
    refine lineStart_text hn (alnum_digit ha) (fun hp => ?_)
    have : 'c' = toLower c := (List.cons_prefix_cons.mp hp).1
    rw [toLower_alnum ha] at this
    rw [← this] at ha
    exact absurd ha (by decide)
  cases p with
  | word w =>
    obtain ⟨c, r, hc⟩ := piece_head h1
    have hal := word_head h1 (show w.head? = some c from by rw [show w = c :: r from hc]; rfl)
    rw [hc, List.cons_append]
    refine lineStart_text ?_ (alpha_not_digit hal) (fun hp => ?_)
    · simp only [List.mem_cons, List.not_mem_nil, or_false, not_or]
      exact ⟨alpha_ne hal (by decide), alpha_ne hal (by decide), alpha_ne hal (by decide), alpha_ne hal (by decide),
        alpha_ne hal (by decide), alpha_ne hal (by decide)⟩
    · rw [← List.cons_append, ← hc] at hp
      obtain ⟨h4, h5⟩ := prefix_colon (t := "clock".toList) (w := w) toLower (fun c hc => toLower_alnum hc) toLower_colon (by decide)
        (word_colon h1) (endsWord_weak (ends_word h3 h2.2.1)) hp
      refine (h2.2.2 ?_).2 rfl h4
      by_contra hn
      exact no_colon h3 hn h5
  | number ds => exact absurd h2.1 (by decide)
  | gap n => exact absurd h2.1 (by decide)
  | brk n => exact key '\n' (List.replicate n '\n') rfl (by decide) (by decide)
  | colon => exact absurd h2.1 (by decide)
  | star => exact key '*' [] rfl (by decide) (by decide)
  | slash => exact key '/' [] rfl (by decide) (by decide)
  | glyph u =>
    obtain ⟨c, r, hc⟩ := piece_head h1
    have hh : (Piece.glyph u).text.head? = some c := by rw [hc]; rfl
    have he := head_endsWord (q := .glyph u) h1 hh (fun hh => hh)
    refine key c r hc he.1 ?_
    simp only [List.mem_cons, List.not_mem_nil, or_false, not_or]
    exact ⟨glyph_ne h1 hh (by decide) (by decide), glyph_ne h1 hh (by decide) (by decide), glyph_ne h1 hh (by decide) (by decide),
      glyph_ne h1 hh (by decide) (by decide), glyph_ne h1 hh (by decide) (by decide), glyph_ne h1 hh (by decide) (by decide)⟩

theorem line_other {p : Piece} {ps : List Piece} (h : ProseFrom true (p :: ps)) :
    lineStart stdLex (p.text ++ render ps) (spaces (p.text ++ render ps)) = .other := line_begins h.1 h.2.1 (prose_begins h.2.2)

theorem lexes_step {p : Piece} {ps : List Piece} {bol : Bool} {col : Nat} (h : ProseFrom bol (p :: ps)) (hcol : col = 0 ↔ bol = true)
    (n : Nat) : Lexes p (render ps) col (switchRegular stdLex (n + 1)) := by
  intro pos prev out
  obtain ⟨col', prev', h1, h2⟩ := lexes_piece h hcol pos prev out
  refine ⟨col', prev', ?_, h2⟩
  rw [← h1]
  show regularBody stdLex (switchRegular stdLex n) _ = _
  unfold regularBody
  by_cases hc : col = 0
  · have hb := hcol.mp hc
    subst hb
    rw [if_pos hc]
    simp only [line_other h]
  · rw [if_neg hc]

theorem prose_loop (n : Nat) (ps : List Piece) : ∀ (bol : Bool) (k pos col : Nat) (prev : Option Char) (out : List Tok),
    ProseFrom bol ps → (col = 0 ↔ bol = true) → ps.length < k →
    ∃ s, loop (fun r => !r.isEmpty) .abort (switchRegular stdLex (n + 1)) k ⟨⟨render ps, pos, col, prev⟩, out⟩ = .ok s ∧
      s.out = out ++ lexed pos ps := by
  induction ps with
  | nil =>
    intro bol k pos col prev out h hcol hk
    obtain ⟨k, rfl⟩ : ∃ j, k = j + 1 := ⟨k - 1, by simp at hk; omega⟩
    exact ⟨_, rfl, by simp [lexed]⟩
  | cons p ps ih =>
    intro bol k pos col prev out h hcol hk
    obtain ⟨k, rfl⟩ : ∃ j, k = j + 1 := ⟨k - 1, by simp at hk; omega⟩
    obtain ⟨x, r, hx⟩ := piece_head h.1
    obtain ⟨col', prev', h1, h2⟩ := lexes_step h hcol n pos prev out
    obtain ⟨s, h3, h4⟩ := ih p.isBrk k (pos + p.text.length) col' prev' (out ++ [⟨p.kind, p.text, some pos⟩]) h.2.2 h2
      (by simp at hk; omega)
    refine ⟨s, ?_, ?_⟩
    · unfold loop
      have hne : (!(render (p :: ps)).isEmpty) = true := by rw [render_cons, hx]; rfl
      have hlen : p.text.length ≠ 0 := by rw [hx]; simp
      simp only [hne, if_true]
      rw [render_cons, h1]
      simp only
      rw [if_neg (by omega), h3]
    · rw [h4]
      simp [lexed]

theorem render_length {ps : List Piece} {bol : Bool} (h : ProseFrom bol ps) : ps.length ≤ (render ps).length := by
  induction ps generalizing bol with
  | nil => simp
  | cons p ps ih =>
    obtain ⟨x, r, hx⟩ := piece_head h.1
    have := ih h.2.2
    rw [render_cons, hx]
    simp
    omega

/-- The lexer makes one token of every piece. -/
theorem prose_lexed {ps : List Piece} (h : Prose ps) : tokenize stdLex (render ps) = .ok (lexed 0 ps) := by
  obtain ⟨s, h1, h2⟩ := prose_loop (render ps).length ps true ((render ps).length + 1) 0 0 none [] h (by simp)
    (by have := render_length h; omega)
  unfold tokenize tokenizeSt
  rw [h1]
  simp [h2]

/-! ## The stages after the lexer -/

/-- The kinds of the tokens of prose. -/
def proseKinds : List TK :=
  [.Word, .Number, .Whitespace, .Newline, .MediumNewline, .LongNewline, .Colon, .Asterisk, .ForwardSlash, .Comma, .Semicolon, .Exclamation,
   .ParBegin, .ParEnd, .DoubleQuote, .Percent, .Punctuation, .AnyPunct]

theorem kind_prose {p : Piece} (hp : p.Valid) : p.kind ∈ proseKinds := by
  cases p with
  | brk n =>
    match n with
    | 0 => decide
    | 1 => decide
    | n + 2 => simp [Piece.kind, proseKinds]
  | glyph u =>
    rcases hp with ⟨x, rfl, hx⟩ | ⟨a, b, rfl, -⟩ | ⟨a, b, d, rfl, -⟩
    · have : ∀ x ∈ marksTable.map (·.1), (Piece.glyph [x]).kind ∈ proseKinds := by decide
      exact this x hx
    · simp [Piece.kind, glyphKind, proseKinds]
    · simp [Piece.kind, glyphKind, proseKinds]
  | word w => simp only [Piece.kind]; decide
  | number ds => simp only [Piece.kind]; decide
  | gap n => simp only [Piece.kind]; decide
  | colon => decide
  | star => decide
  | slash => decide

theorem lexed_kinds {ps : List Piece} {bol : Bool} (h : ProseFrom bol ps) : ∀ pos, ∀ t ∈ lexed pos ps, t.kind ∈ proseKinds := by
  induction ps generalizing bol with
  | nil => intro pos t ht; cases ht
  | cons p ps ih =>
    intro pos t ht
    rcases List.mem_cons.mp ht with rfl | ht
    · exact kind_prose h.1
    · exact ih h.2.2 _ t ht

theorem prose_tokens {ps : List Piece} (h : Prose ps) :
    tokens stdLex (render ps) = .ok (Recombine.byNeighbours none (lexed 0 ps)) := by
  have hk := lexed_kinds h 0
  unfold tokens
  rw [prose_lexed h]
  simp only [Recombine.convert]
  have h1 : ∀ k ∈ proseKinds, k ∉ structural := by decide
  have h2 : ∀ k ∈ proseKinds, k ≠ .LineCommand ∧ k ≠ .CmdRawArg := by decide
  have h3 : ∀ k ∈ proseKinds, Recombine.leastLength k = 0 := by decide
  rw [regroup_calm _ (fun t ht => h1 _ (hk t ht))]
  simp only [bind, Except.bind]
  rw [Recombine.recombine_local _ (fun t ht => h2 _ (hk t ht)) (fun t ht => by rw [h3 _ (hk t ht)]; omega)]

end Verif.Pipeline
