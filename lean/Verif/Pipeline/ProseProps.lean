import Verif.Pipeline.ProseDoc
import Verif.Pipeline.TreeSpec

/-!
# C74 – what is written as a tree of paragraphs is read as that tree
-/

namespace Verif.Pipeline
open Verif.Token Verif.BaseLexer Verif.NodeGroup Verif.NodeGroup.Spec
open Verif.Parser (NK)

/-! ## The kinds of the tokens of the parser -/

/-- The token of a piece, for its kind and text. -/
def Piece.tok (p : Piece) (pos : Nat := 0) : Tok := ⟨p.kind, p.text, some pos⟩

/-- The kinds of the tokens of some pieces between others. -/
def kindsOf (before : Option Piece) : List Piece → Option Piece → List TK
  | [], _ => []
  | p :: ps, after =>
    Recombine.kindBetween (before.map Piece.tok) p.tok ((ps.head?.or after).map Piece.tok) :: kindsOf (some p) ps after

/-- The last of some pieces, or what was before them. -/
def lastOf (before : Option Piece) : List Piece → Option Piece
  | [] => before
  | p :: ps => lastOf (some p) ps

theorem kindsOf_append (before after : Option Piece) (a b : List Piece) :
    kindsOf before (a ++ b) after = kindsOf before a (b.head?.or after) ++ kindsOf (lastOf before a) b after := by
  induction a generalizing before with
  | nil => rfl
  | cons p a ih =>
    simp only [List.cons_append, kindsOf, lastOf, ih]
    cases a <;> rfl

theorem kindsOf_length (before after : Option Piece) (a : List Piece) : (kindsOf before a after).length = a.length := by
  induction a generalizing before with
  | nil => rfl
  | cons p a ih => simp [kindsOf, ih]

/-- Only the kinds of the neighbours count. -/
theorem kindBetween_congr {a a' b b' : Option Tok} {t t' : Tok} (h1 : a.map (·.kind) = a'.map (·.kind)) (h2 : b.map (·.kind) = b'.map (·.kind))
    (h3 : t.kind = t'.kind) (h4 : t.text = t'.text) : Recombine.kindBetween a t b = Recombine.kindBetween a' t' b' := by
  have hb : ∀ {x y : Option Tok}, x.map (·.kind) = y.map (·.kind) → (Recombine.Blank x ↔ Recombine.Blank y) := by
    intro x y h
    cases x <;> cases y <;> simp [Recombine.Blank] at h ⊢
    rw [h]
  unfold Recombine.kindBetween
  simp only [h3, h4, hb h1, hb h2]

theorem becomes_prose {b a : Option Tok} {t : Tok} (h : t.kind ∈ proseKinds) :
    Recombine.becomes b t a = [⟨Recombine.kindBetween b t a, t.text, t.loc⟩] := by
  have h1 : ∀ k ∈ proseKinds, k ≠ .EndOfFile ∧ k ∉ [TK.CmdExampleEnd, .CmdExportEnd, .CmdSrcEnd] := by decide
  have h2 : Recombine.shown t = t.text := by
    obtain ⟨k, x, l⟩ := t
    simp only [proseKinds, List.mem_cons, List.not_mem_nil, or_false] at h
    rcases h with h | h | h | h | h | h | h | h | h | h | h | h | h | h | h | h | h | h <;> subst h <;> rfl
  unfold Recombine.becomes
  rw [if_neg (h1 _ h).1, if_neg (h1 _ h).2, h2]

theorem lexed_head (pos : Nat) (ps : List Piece) : (lexed pos ps).head?.map (·.kind) = ps.head?.map Piece.kind := by
  cases ps <;> rfl

theorem neighbours_kinds {ps : List Piece} {bol : Bool} (h : ProseFrom bol ps) (before : Option Piece) (b : Option Tok)
    (hb : b.map (·.kind) = before.map Piece.kind) (pos : Nat) :
    (Recombine.byNeighbours b (lexed pos ps)).map (·.kind) = kindsOf before ps none ∧
    (Recombine.byNeighbours b (lexed pos ps)).map (·.text) = ps.map Piece.text := by
  induction ps generalizing bol before b pos with
  | nil => exact ⟨rfl, rfl⟩
  | cons p ps ih =>
    obtain ⟨h1, h2⟩ := ih h.2.2 (some p) (some ⟨p.kind, p.text, some pos⟩) rfl (pos + p.text.length)
    simp only [lexed, Recombine.byNeighbours, becomes_prose (t := ⟨p.kind, p.text, some pos⟩) (kind_prose h.1), List.map_append,
      List.map_cons, List.map_nil, kindsOf, List.cons_append, List.nil_append]
    rw [h1, h2]
    refine ⟨?_, rfl⟩
    congr 1
    refine kindBetween_congr ?_ ?_ rfl rfl
    · rw [hb]; cases before <;> rfl
    · rw [lexed_head]; cases ps <;> rfl

/-! ## All prose has a reading -/

theorem text_between (b a : Option Tok) (t : Tok) (h : t.kind ∈ proseKinds) : Verif.Parser.IsText (Recombine.kindBetween b t a) := by
  obtain ⟨k, x, l⟩ := t
  simp only [proseKinds, List.mem_cons, List.not_mem_nil, or_false] at h
  unfold Recombine.kindBetween
  rcases h with h | h | h | h | h | h | h | h | h | h | h | h | h | h | h | h | h | h <;> subst h <;>
    simp only [Recombine.marks, reduceCtorEq, if_false, if_true] <;> (try split_ifs) <;>
    simp [Verif.Parser.IsText, Verif.Parser.role, Verif.Parser.lineBreaks]

theorem text_neighbours {ps : List Piece} {bol : Bool} (h : ProseFrom bol ps) (b : Option Tok) (pos : Nat) :
    ∀ t ∈ Recombine.byNeighbours b (lexed pos ps), Verif.Parser.IsText t.kind := by
  induction ps generalizing bol b pos with
  | nil => intro t ht; cases ht
  | cons p ps ih =>
    intro t ht
    simp only [lexed, Recombine.byNeighbours, becomes_prose (t := ⟨p.kind, p.text, some pos⟩) (kind_prose h.1), List.cons_append,
      List.nil_append, List.mem_cons] at ht
    rcases ht with rfl | ht
    · exact text_between _ _ _ (kind_prose h.1)
    · exact ih h.2.2 _ _ t ht

/-- **C74.** Prose never fails to parse: there is one token for each piece of the document, with
the text of the piece, the kind of the token is decided by the pieces around it, and the tree is the
reading of these tokens according to the grammar of paragraphs and markup. -/
theorem prose_tree (ps : List Piece) (h : Prose ps) (n : Nat) (hn : ps.length + 4 ≤ n) :
    ∃ toks f, parse stdLex n (render ps) = .ok (toks, (Forest.tree NK.StmtList f .nil).flat) ∧
      toks = Recombine.byNeighbours none (lexed 0 ps) ∧ toks.map (·.text) = ps.map Piece.text ∧
      Verif.Parser.Doc (Verif.Parser.number (toks.map (·.kind))) f := by
  have ht := neighbours_kinds h none none rfl 0
  have hlen : ((Recombine.byNeighbours none (lexed 0 ps)).map (·.kind)).length = ps.length := by rw [ht.1, kindsOf_length]
  obtain ⟨⟨f, hf⟩, h2⟩ := Verif.Parser.parse_text (texts (Recombine.byNeighbours none (lexed 0 ps)))
    ((Recombine.byNeighbours none (lexed 0 ps)).map (·.kind))
    (fun k hk => by
      obtain ⟨t, ht, rfl⟩ := List.mem_map.mp hk
      exact text_neighbours h none 0 t ht) n (by rw [hlen]; exact hn)
  obtain ⟨l, hl⟩ := h2 f hf
  refine ⟨_, f, ?_, rfl, ht.2, hf⟩
  unfold parse
  rw [prose_tokens h]
  simp only
  have hl' : Verif.Parser.parseTop (texts (Recombine.byNeighbours none (lexed 0 ps))) n
      ⟨Lexer.Lex.main ((Recombine.byNeighbours none (lexed 0 ps)).map (·.kind)), {}⟩
      = .ok (some (), ⟨l, ⟨(Forest.tree .StmtList f .nil).flat, []⟩⟩) := hl
  rw [hl']

/-! ## Trees -/

/-- Tokens with numbers from `i` on. -/
def numbered (i : Nat) (ks : List TK) : List (Nat × TK) := (List.range' i ks.length).zip ks

theorem numbered_cons (i : Nat) (k : TK) (ks : List TK) : numbered i (k :: ks) = (i, k) :: numbered (i + 1) ks := by
  simp [numbered, List.range'_succ]

theorem numbered_append (i : Nat) (a b : List TK) : numbered i (a ++ b) = numbered i a ++ numbered (i + a.length) b := by
  induction a generalizing i with
  | nil => rfl
  | cons k a ih =>
    rw [List.cons_append, numbered_cons, numbered_cons, ih, List.length_cons, List.cons_append, show i + 1 + a.length = i + (a.length + 1) from by omega]

theorem airy_blank {p : Option Piece} (hp : ∀ q ∈ p, q.Valid) : Recombine.Blank (p.map Piece.tok) ↔ Airy p := by
  cases p with
  | none => simp [Recombine.Blank, Airy]
  | some q =>
    have hq := hp q rfl
    have hb : Recombine.Blank ((some q).map Piece.tok) ↔ q.kind ∈ Recombine.blankKinds := by
      simp [Recombine.Blank, Piece.tok]
    rw [hb]
    cases q with
    | word w => simp [Piece.kind, Recombine.blankKinds, Airy]
    | number ds => simp [Piece.kind, Recombine.blankKinds, Airy]
    | gap n => simp [Piece.kind, Recombine.blankKinds, Airy]
    | brk n =>
      match n with
      | 0 => simp [Piece.kind, Recombine.blankKinds, Airy]
      | 1 => simp [Piece.kind, Recombine.blankKinds, Airy]
      | n + 2 => simp [Piece.kind, Recombine.blankKinds, Airy]
    | colon => simp [Piece.kind, Recombine.blankKinds, Airy]
    | star => simp [Piece.kind, Recombine.blankKinds, Airy]
    | slash => simp [Piece.kind, Recombine.blankKinds, Airy]
    | glyph u =>
      rcases hq with ⟨x, rfl, hx⟩ | ⟨a, b, rfl, -⟩ | ⟨a, b, d, rfl, -⟩
      · have : ∀ x ∈ marksTable.map (·.1), ((Piece.glyph [x]).kind ∈ Recombine.blankKinds ↔ ([x] ≠ ['!'] ∧ [x] ≠ ['"'] ∧ [x] ≠ ['%'])) := by decide
        exact this x hx
      · simp [Piece.kind, glyphKind, Recombine.blankKinds, Airy]
      · simp [Piece.kind, glyphKind, Recombine.blankKinds, Airy]

theorem word_kind (w : List Char) (b a : Option Tok) :
    Recombine.kindBetween b (Piece.word w).tok a = if ∀ c ∈ w, ('A' ≤ c ∧ c ≤ 'Z') ∨ c = '_' then .BigIdent else .Word := by
  unfold Recombine.kindBetween
  rw [if_pos (show (Piece.word w).tok.kind = .Word from rfl)]
  rfl

/-- A piece which is not markup is a leaf. -/
theorem plain_role {p : Piece} (hv : p.Valid) (h1 : p ≠ .star) (h2 : p ≠ .slash) (h3 : ∀ n, p ≠ .brk (n + 1)) (b a : Option Tok) :
    Verif.Parser.role (Recombine.kindBetween b p.tok a) = .plain p.leafKind := by
  cases p with
  | word w =>
    rw [word_kind]
    simp only [Piece.leafKind]
    by_cases hw : ∀ c ∈ w, ('A' ≤ c ∧ c ≤ 'Z') ∨ c = '_'
    · rw [if_pos hw, if_pos hw]; rfl
    · rw [if_neg hw, if_neg hw]; rfl
  | number ds => rfl
  | gap n => rfl
  | brk n =>
    match n with
    | 0 => rfl
    | n + 1 => exact absurd rfl (h3 n)
  | colon => rfl
  | star => exact absurd rfl h1
  | slash => exact absurd rfl h2
  | glyph u =>
    rcases hv with ⟨x, rfl, hx⟩ | ⟨a, b, rfl, -⟩ | ⟨a, b, d, rfl, -⟩
    · simp only [marksTable, List.map_cons, List.map_nil, List.mem_cons, List.not_mem_nil, or_false] at hx
      rcases hx with h | h | h | h | h | h | h | h | h <;> subst h <;> rfl
    · rfl
    · rfl

theorem open_role {b a : Option Tok} {p : Piece} {nk : NK} {e : Option NK} (hp : p = .star ∧ nk = .Bold ∨ p = .slash ∧ nk = .Italic)
    (hb : Recombine.Blank b) (he : e ≠ some nk) : Verif.Parser.IsOpen e nk (Recombine.kindBetween b p.tok a) := by
  rcases hp with ⟨rfl, rfl⟩ | ⟨rfl, rfl⟩ <;> by_cases ha : Recombine.Blank a <;>
    simp [Recombine.kindBetween, Piece.tok, Piece.kind, Recombine.marks, ha, hb, Verif.Parser.IsOpen, Verif.Parser.role, he]

theorem close_role {b a : Option Tok} {p : Piece} {nk : NK} (hp : p = .star ∧ nk = .Bold ∨ p = .slash ∧ nk = .Italic)
    (ha : Recombine.Blank a) : Verif.Parser.IsClose nk (Recombine.kindBetween b p.tok a) := by
  rcases hp with ⟨rfl, rfl⟩ | ⟨rfl, rfl⟩ <;> by_cases hb : Recombine.Blank b <;>
    simp [Recombine.kindBetween, Piece.tok, Piece.kind, Recombine.marks, ha, hb, Verif.Parser.IsClose, Verif.Parser.role]

theorem head_or_valid {ps : List Piece} {after : Option Piece} (h : ∀ p ∈ ps, p.Valid) (ha : ∀ q ∈ after, q.Valid) :
    ∀ q ∈ ps.head?.or after, q.Valid := by
  intro q hq
  cases ps with
  | nil => exact ha q (by simpa using hq)
  | cons p ps =>
    simp only [List.head?_cons, Option.some_or, Option.mem_def, Option.some.injEq] at hq
    subst hq
    exact h p (by simp)

/-- Markup which is written in its place is closed text. -/
theorem inl_closed (d : Inl) : ∀ (before after : Option Piece) (e : Option NK) (i : Nat), (∀ p ∈ d.pieces, p.Valid) →
    (∀ q ∈ before, q.Valid) → (∀ q ∈ after, q.Valid) → Placed before after e d →
    Verif.Parser.Closed e (numbered i (kindsOf before d.pieces after)) (d.forest i) := by
  have mark : ∀ (p : Piece) (nk : NK) (t r : Inl), (p = .star ∧ nk = .Bold ∨ p = .slash ∧ nk = .Italic) →
      (∀ (before after : Option Piece) (e : Option NK) (i : Nat), (∀ p ∈ t.pieces, p.Valid) → (∀ q ∈ before, q.Valid) →
        (∀ q ∈ after, q.Valid) → Placed before after e t →
        Verif.Parser.Closed e (numbered i (kindsOf before t.pieces after)) (t.forest i)) →
      (∀ (before after : Option Piece) (e : Option NK) (i : Nat), (∀ p ∈ r.pieces, p.Valid) → (∀ q ∈ before, q.Valid) →
        (∀ q ∈ after, q.Valid) → Placed before after e r →
        Verif.Parser.Closed e (numbered i (kindsOf before r.pieces after)) (r.forest i)) →
      ∀ (before after : Option Piece) (e : Option NK) (i : Nat), (∀ q ∈ p :: (t.pieces ++ p :: r.pieces), q.Valid) →
        (∀ q ∈ before, q.Valid) → (∀ q ∈ after, q.Valid) → e ≠ some nk → Airy before → Airy (r.pieces.head?.or after) →
        Placed (some p) (some p) (some nk) t → Placed (some p) after e r →
        Verif.Parser.Closed e (numbered i (kindsOf before (p :: (t.pieces ++ p :: r.pieces)) after))
          (.tree nk (t.forest (i + 1)) (r.forest (i + t.pieces.length + 2))) := by
    intro p nk t r hp iht ihr before after e i hv hb ha h1 h2 h3 h4 h5
    have hpv : p.Valid := hv p (by simp)
    have hrv : ∀ q ∈ r.pieces, q.Valid := fun q hq => hv q (by simp [hq])
    have htv : ∀ q ∈ t.pieces, q.Valid := fun q hq => hv q (by simp [hq])
    have hps : ∀ q ∈ some p, q.Valid := fun q hq => by cases hq; exact hpv
    have hblank : Recombine.Blank ((r.pieces.head?.or after).map Piece.tok) := (airy_blank (head_or_valid hrv ha)).mpr h3
    rw [kindsOf, kindsOf_append, kindsOf, numbered_cons, numbered_append, numbered_cons, kindsOf_length]
    have ht := iht (some p) (some p) (some nk) (i + 1) htv hps hps h4
    have hr := ihr (some p) after e (i + t.pieces.length + 2) hrv hps ha h5
    rw [show i + 1 + t.pieces.length + 1 = i + t.pieces.length + 2 from by omega]
    exact .pair (open_role hp ((airy_blank hb).mpr h2) h1) ht (close_role hp hblank) hr
  induction d with
  | nil => intro before after e i _ _ _ _; exact .nil
  | piece p r ih =>
    intro before after e i hv hb ha h
    obtain ⟨h1, h2, h3, h4⟩ := h
    have hpv : p.Valid := hv p (by simp [Inl.pieces])
    simp only [Inl.pieces, kindsOf, Inl.forest, numbered_cons]
    exact .plain (plain_role hpv h1 h2 h3 _ _)
      (ih (some p) after e (i + 1) (fun q hq => hv q (by simp [Inl.pieces, hq])) (fun q hq => by cases hq; exact hpv) ha h4)
  | bold t r iht ihr =>
    intro before after e i hv hb ha h
    obtain ⟨h1, h2, h3, h4, h5⟩ := h
    exact mark .star .Bold t r (.inl ⟨rfl, rfl⟩) iht ihr before after e i hv hb ha h1 h2 h3 h4 h5
  | italic t r iht ihr =>
    intro before after e i hv hb ha h
    obtain ⟨h1, h2, h3, h4, h5⟩ := h
    exact mark .slash .Italic t r (.inr ⟨rfl, rfl⟩) iht ihr before after e i hv hb ha h1 h2 h3 h4 h5

/-- What is before counts only by being blank or not. -/
theorem placed_before {b b' after : Option Piece} {e : Option NK} {d : Inl} (h : Airy b → Airy b') (hd : Placed b after e d) :
    Placed b' after e d := by
  cases d with
  | nil => trivial
  | piece p r => exact hd
  | bold t r => exact ⟨hd.1, h hd.2.1, hd.2.2⟩
  | italic t r => exact ⟨hd.1, h hd.2.1, hd.2.2⟩

theorem brk_kind (n : Nat) (b a : Option Tok) : Recombine.kindBetween b (Piece.brk n).tok a ∈ Verif.Parser.lineBreaks := by
  match n with
  | 0 => simp [Recombine.kindBetween, Piece.tok, Piece.kind, Recombine.marks, Verif.Parser.lineBreaks]
  | 1 => simp [Recombine.kindBetween, Piece.tok, Piece.kind, Recombine.marks, Verif.Parser.lineBreaks]
  | n + 2 => simp [Recombine.kindBetween, Piece.tok, Piece.kind, Recombine.marks, Verif.Parser.lineBreaks]

theorem empty_line_kind (n : Nat) (b a : Option Tok) :
    Recombine.kindBetween b (Piece.brk (n + 1)).tok a ∈ [TK.MediumNewline, .LongNewline] := by
  match n with
  | 0 => simp [Recombine.kindBetween, Piece.tok, Piece.kind, Recombine.marks]
  | n + 1 => simp [Recombine.kindBetween, Piece.tok, Piece.kind, Recombine.marks]

theorem first_kind {p : Piece} (hv : p.Valid) (h : ∀ n, p ≠ .gap n ∧ p ≠ .brk n) (b a : Option Tok) :
    Recombine.kindBetween b p.tok a ∉ Token.TK.Whitespace :: Verif.Parser.lineBreaks := by
  cases p with
  | word w =>
    rw [word_kind]
    split_ifs <;> simp [Verif.Parser.lineBreaks]
  | number ds => simp [Recombine.kindBetween, Piece.tok, Piece.kind, Recombine.marks, Verif.Parser.lineBreaks]
  | gap n => exact absurd rfl (h n).1
  | brk n => exact absurd rfl (h n).2
  | colon => simp [Recombine.kindBetween, Piece.tok, Piece.kind, Recombine.marks, Verif.Parser.lineBreaks]
  | star =>
    simp only [Recombine.kindBetween, Piece.tok, Piece.kind, Recombine.marks, reduceCtorEq, if_false]
    split_ifs <;> simp_all [Verif.Parser.lineBreaks]
  | slash =>
    simp only [Recombine.kindBetween, Piece.tok, Piece.kind, Recombine.marks, reduceCtorEq, if_false]
    split_ifs <;> simp_all [Verif.Parser.lineBreaks]
  | glyph u =>
    rcases hv with ⟨x, rfl, hx⟩ | ⟨a, b, rfl, -⟩ | ⟨a, b, d, rfl, -⟩
    · simp only [marksTable, List.map_cons, List.map_nil, List.mem_cons, List.not_mem_nil, or_false] at hx
      rcases hx with h | h | h | h | h | h | h | h | h <;> subst h <;>
        simp [Recombine.kindBetween, Piece.tok, Piece.kind, glyphKind, marksTable, Recombine.marks, Verif.Parser.lineBreaks]
    · simp [Recombine.kindBetween, Piece.tok, Piece.kind, glyphKind, Recombine.marks, Verif.Parser.lineBreaks]
    · simp [Recombine.kindBetween, Piece.tok, Piece.kind, glyphKind, Recombine.marks, Verif.Parser.lineBreaks]

theorem lastOf_valid {before : Option Piece} {ps : List Piece} (hb : ∀ q ∈ before, q.Valid) (h : ∀ p ∈ ps, p.Valid) :
    ∀ q ∈ lastOf before ps, q.Valid := by
  induction ps generalizing before with
  | nil => exact hb
  | cons p ps ih => exact ih (fun q hq => by cases hq; exact h _ (by simp)) (fun q hq => h q (by simp [hq]))

theorem pars_doc (d : Pars) : ∀ (before : Option Piece) (i : Nat), (∀ p ∈ d.pieces, p.Valid) → (∀ q ∈ before, q.Valid) →
    ((before = none ∨ ∃ n, before = some (.brk n)) ∨ d = .nil ∨ ∃ n r, d = .brk n r) → d.Fine →
    Verif.Parser.Doc (numbered i (kindsOf before d.pieces none)) (d.forest i) := by
  induction d with
  | nil => intro before i _ _ _ _; exact .nil
  | brk n r ih =>
    intro before i hv hb _ h
    simp only [Pars.pieces, kindsOf, Pars.forest, numbered_cons]
    refine .line (brk_kind n _ _) (ih (some (.brk n)) (i + 1) (fun q hq => hv q (by simp [Pars.pieces, hq])) (fun q hq => by cases hq; trivial)
      (.inl (.inr ⟨n, rfl⟩)) h)
  | par t r ih =>
    intro before i hv hb hc h
    obtain ⟨⟨p, hp, hne⟩, h2, h3, h4⟩ := h
    have htv : ∀ q ∈ t.pieces, q.Valid := fun q hq => hv q (by simp [Pars.pieces, hq])
    have hrv : ∀ q ∈ r.pieces, q.Valid := fun q hq => hv q (by simp [Pars.pieces, hq])
    have hbefore : Airy before := by
      rcases hc with (rfl | ⟨n, rfl⟩) | h | ⟨_, _, h⟩
      · trivial
      · trivial
      · cases h
      · cases h
    have hcl := inl_closed t before r.pieces.head? none i htv hb (fun q hq => hrv q (List.mem_of_mem_head? hq)) (placed_before (fun _ => hbefore) h2)
    have hr := ih (lastOf before t.pieces) (i + t.pieces.length) hrv (lastOf_valid hb htv)
      (.inr (by rcases h3 with h | ⟨n, r', h⟩; exacts [.inl h, .inr ⟨_, _, h⟩])) h4
    simp only [Pars.pieces, Pars.forest]
    rw [kindsOf_append, numbered_append, kindsOf_length, Option.or_none]
    obtain ⟨ps, hps⟩ : ∃ ps, t.pieces = p :: ps := by
      cases ht : t.pieces with
      | nil => rw [ht] at hp; cases hp
      | cons x ps => rw [ht] at hp; cases hp; exact ⟨ps, rfl⟩
    have hk : kindsOf before t.pieces r.pieces.head? =
        Recombine.kindBetween (before.map Piece.tok) p.tok ((ps.head?.or r.pieces.head?).map Piece.tok) :: kindsOf (some p) ps r.pieces.head? := by
      rw [hps]; rfl
    rw [hk, numbered_cons] at hcl ⊢
    rw [List.cons_append]
    refine .par (first_kind (htv p (by rw [hps]; simp)) hne _ _) (.closed hcl) ?_ hr
    rcases h3 with rfl | ⟨n, r', rfl⟩
    · intro x hx; cases hx
    · intro x hx
      simp only [Pars.pieces, kindsOf, numbered_cons, List.head?_cons, Option.mem_def, Option.some.injEq] at hx
      subst hx
      exact empty_line_kind n _ _

theorem prose_valid {ps : List Piece} {bol : Bool} (h : ProseFrom bol ps) : ∀ p ∈ ps, p.Valid := by
  induction ps generalizing bol with
  | nil => intro p hp; cases hp
  | cons q ps ih =>
    intro p hp
    rcases List.mem_cons.mp hp with rfl | hp
    · exact h.1
    · exact ih h.2.2 p hp

/-- **C74.** A document is written from a tree of paragraphs with nested bold and italic text; what
is read from the written text is this tree: the same paragraphs, the same markup around the same
pieces, and nothing else. -/
theorem document_round_trip (d : Pars) (hp : Prose d.pieces) (hd : d.Fine) (n : Nat) (hn : d.pieces.length + 4 ≤ n) :
    ∃ toks, parse stdLex n (render d.pieces) = .ok (toks, (Forest.tree NK.StmtList (d.forest 1) .nil).flat) ∧
      toks.map (·.text) = d.pieces.map Piece.text := by
  have hk := neighbours_kinds hp none none rfl 0
  have hdoc := pars_doc d none 1 (prose_valid hp) (by simp) (.inl (.inl rfl)) hd
  have hlen : ((Recombine.byNeighbours none (lexed 0 d.pieces)).map (·.kind)).length = d.pieces.length := by rw [hk.1, kindsOf_length]
  obtain ⟨l, hl⟩ := Verif.Parser.parse_doc (texts (Recombine.byNeighbours none (lexed 0 d.pieces))) n
    ((Recombine.byNeighbours none (lexed 0 d.pieces)).map (·.kind)) (by rw [hlen]; exact hn) (d.forest 1) (by rw [hk.1]; exact hdoc)
  refine ⟨_, ?_, hk.2⟩
  unfold parse
  rw [prose_tokens hp]
  simp only
  have hl' : Verif.Parser.parseTop (texts (Recombine.byNeighbours none (lexed 0 d.pieces))) n
      ⟨Lexer.Lex.main ((Recombine.byNeighbours none (lexed 0 d.pieces)).map (·.kind)), {}⟩
      = .ok (some (), ⟨l, ⟨(Forest.tree .StmtList (d.forest 1) .nil).flat, []⟩⟩) := hl
  rw [hl']

/-! ## A document -/

theorem word_of_letters (w : List Char) (hne : w ≠ []) (h : ∀ c ∈ w, isAlpha c = true) (h1 : "http".toList.isPrefixOf (w.map toLower) = false)
    (h2 : "src".toList.isPrefixOf (w.map toLower) = false) : IsWord w := by
  refine ⟨?_, ⟨w, [], by simp, ?_, .inl rfl⟩, ?_, ?_⟩
  · cases w with
    | nil => exact absurd rfl hne
    | cons c w => exact ⟨c, rfl, h c (by simp)⟩
  · clear h1 h2 hne
    induction w with
    | nil => trivial
    | cons a w ih =>
      have ha : isAlnum a = true := by simp [isAlnum, h a (by simp)]
      cases w with
      | nil => exact ha
      | cons b w => exact ⟨.inl ha, ih (fun c hc => h c (by simp only [List.mem_cons] at hc ⊢; exact .inr hc))⟩
  · rw [← List.isPrefixOf_iff_prefix, h1]; simp
  · rw [← List.isPrefixOf_iff_prefix, h2]; simp

/-- Two paragraphs, with italic text inside of bold text. -/
def example1 : Pars :=
  .par (.piece (.word "Be".toList) (.piece (.gap 0) (.bold (.piece (.word "very".toList) (.piece (.gap 0)
    (.italic (.piece (.word "calm".toList) .nil) .nil))) (.piece (.glyph ['.']) (.piece (.brk 0) (.piece (.word "Or".toList)
      (.piece (.colon) (.piece (.gap 0) (.piece (.number "12".toList) (.piece (.glyph ['?']) .nil)))))))))) <|
  .brk 1 (.par (.italic (.piece (.word "END".toList) .nil) (.piece (.brk 0) .nil)) .nil)

example : String.ofList (render example1.pieces) = "Be *very /calm/*.\nOr: 12?\n\n/END/\n" := by decide +kernel

theorem example1_prose : Prose example1.pieces := by
  have w1 : IsWord "Be".toList := word_of_letters _ (by decide) (by decide) (by decide) (by decide)
  have w2 : IsWord "very".toList := word_of_letters _ (by decide) (by decide) (by decide) (by decide)
  have w3 : IsWord "calm".toList := word_of_letters _ (by decide) (by decide) (by decide) (by decide)
  have w4 : IsWord "Or".toList := word_of_letters _ (by decide) (by decide) (by decide) (by decide)
  have w5 : IsWord "END".toList := word_of_letters _ (by decide) (by decide) (by decide) (by decide)
  have g1 : IsGlyph ['.'] := .inl ⟨'.', rfl, by decide⟩
  have g2 : IsGlyph ['?'] := .inl ⟨'?', rfl, by decide⟩
  have n1 : ∀ c ∈ "12".toList, isDigit c = true := by decide
  have e1 : "Or".toList ∉ ["SCHEDULED".toList, "DEADLINE".toList, "CLOSED".toList] := by decide
  have e2 : "Or".toList.map toLower ≠ "clock".toList := by decide
  simp only [example1, Pars.pieces, Inl.pieces, Prose, ProseFrom, Piece.Valid, fits, Piece.isBrk, List.cons_append, List.nil_append,
    List.head?_cons, Piece.Alnum]
  exact ⟨w1, by simp, trivial, by simp, trivial, by simp, w2, by simp [Piece.Alnum], trivial, by simp, trivial, trivial, w3, by simp [Piece.Alnum], trivial,
    trivial, trivial, by simp, g1, trivial, trivial, by simp, w4, ⟨by simp, by simp, fun _ => ⟨e1, fun _ => e2⟩⟩, trivial, by simp, trivial, by simp,
    ⟨by decide, n1⟩, by simp, g2, trivial, trivial, by simp, trivial, trivial, w5, by simp [Piece.Alnum], trivial, trivial, trivial, by simp, trivial⟩

theorem example1_fine : example1.Fine := by
  simp [example1, Pars.Fine, Placed, Inl.pieces, Pars.pieces, Airy]

example : ∃ toks, parse stdLex 40 "Be *very /calm/*.\nOr: 12?\n\n/END/\n".toList =
    .ok (toks, (Forest.tree NK.StmtList (example1.forest 1) .nil).flat) ∧ toks.map (·.text) = example1.pieces.map Piece.text :=
  document_round_trip example1 example1_prose example1_fine 40 (by decide)

end Verif.Pipeline
