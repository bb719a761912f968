import Verif.Pipeline.ProseProps
import Verif.Pipeline.OutlineSpec

/-!
# Lexing of outlines
-/

namespace Verif.Pipeline
open Verif.Token Verif.BaseLexer

/-- The kind of the token of a part of the document. -/
def Chunk.kind : Chunk → TK
  | .txt p => p.kind
  | .stars _ => .SubtreeStars
  | .prio _ => .SubtreePriority

/-- The tokens of the lexer: one for each part. -/
def lexedC : Nat → List Chunk → List Tok
  | _, [] => []
  | pos, c :: cs => ⟨c.kind, c.text, some pos⟩ :: lexedC (pos + c.text.length) cs

/-- Lexing a part: one token with its text, and the cursor behind it. -/
def LexesC (c : Chunk) (v : List Char) (col : Nat) (f : St → Except BaseLexer.Err St) : Prop :=
  ∀ pos prev out, ∃ col' prev', f ⟨⟨c.text ++ v, pos, col, prev⟩, out⟩ =
    .ok ⟨⟨v, pos + c.text.length, col', prev'⟩, out ++ [⟨c.kind, c.text, some pos⟩]⟩ ∧ (col' = 0 ↔ c.isBrk = true)

theorem lexesC_token {c : Chunk} {v : List Char} {col : Nat} {f : Cur → Cur} (hne : c.text ≠ [])
    (hl : ∀ x ∈ c.text.getLast?, x = '\n' ↔ c.isBrk = true)
    (h : ∀ pos prev, f ⟨c.text ++ v, pos, col, prev⟩ = Cur.adv c.text.length ⟨c.text ++ v, pos, col, prev⟩) :
    LexesC c v col (token c.kind f) := by
  intro pos prev out
  obtain ⟨col', prev', h1, h2⟩ := token_eq (k := c.kind) (out := out) (h pos prev)
  refine ⟨col', prev', h1, ?_⟩
  cases hx : c.text.getLast? with
  | none => exact absurd (List.getLast?_eq_none_iff.mp hx) hne
  | some x => rw [h2 x hx, hl x hx]

theorem takeWhile_stars (n : Nat) (v : List Char) (hv : v.head? ≠ some '*') :
    (List.replicate n '*' ++ v).takeWhile (fun c => decide (c = '*')) = List.replicate n '*' := by
  induction n with
  | zero =>
    cases v with
    | nil => rfl
    | cons x v =>
      simp only [List.head?_cons, ne_eq, Option.some.injEq] at hv
      simp [hv]
  | succ n ih => simp [List.replicate_succ, ih]

theorem lexes_stars (n : Nat) (v : List Char) : LexesC (.stars n) (' ' :: v) 0 (charSwitch stdLex) := by
  have h : LexesC (.stars n) (' ' :: v) 0 (token .SubtreeStars (advChar1 '*')) := by
    refine lexesC_token (c := .stars n) (by simp [Chunk.text]) (fun x hx => ?_) (fun pos prev => ?_)
    · simp only [Chunk.text, List.getLast?_replicate] at hx
      simp at hx
      subst hx
      simp [Chunk.isBrk]
    · refine advWhile_eq _ _ (' ' :: v) rfl (fun a b hab hb => ?_) (.inr (by simp [isAt]))
      cases b with
      | nil => exact absurd rfl hb
      | cons x b =>
        have : x ∈ (Chunk.stars n).text := by rw [hab]; simp
        simp only [Chunk.text, List.mem_replicate] at this
        simp [isAt, this.2]
  intro pos prev out
  obtain ⟨col', prev', h1, h2⟩ := h pos prev out
  refine ⟨col', prev', ?_, h2⟩
  rw [← h1]
  simp only [Chunk.text, List.replicate_succ, List.cons_append]
  show caseStar stdLex _ = _
  unfold caseStar
  rw [if_pos]
  refine ⟨rfl, ?_⟩
  simp only [stdLex, Pat.rx, Rx.many1, Rx.run]
  have e := takeWhile_stars n (' ' :: v) (by simp)
  simp only [decide_true, if_true, List.drop_succ_cons, List.drop_zero, e, Option.map_some, List.length_replicate]
  have : ('*' :: (List.replicate n '*' ++ ' ' :: v)).drop (1 + n) = ' ' :: v := by
    rw [Nat.add_comm, List.drop_succ_cons, List.drop_append]
    simp
  rw [this]
  simp [Rx.ch, Rx.run]

theorem lexes_prio {c : Char} (hc : isAlpha c = true ∨ c = '_') (v : List Char) (col : Nat) :
    LexesC (.prio c) v col (charSwitch stdLex) := by
  have hcn : c ≠ '\n' ∧ c ≠ '%' ∧ isDigit c = false := by
    rcases hc with h | rfl
    · exact ⟨alpha_ne h (by decide), alpha_ne h (by decide), alpha_not_digit h⟩
    · decide
  have h : LexesC (.prio c) v col (tokenAdv .SubtreePriority 4) := by
    refine lexesC_token (c := .prio c) (by simp [Chunk.text]) (fun x hx => ?_) (fun _ _ => rfl)
    simp only [Chunk.text, List.getLast?_cons_cons, List.getLast?_singleton, Option.mem_def, Option.some.injEq] at hx
    subst hx
    simp [Chunk.isBrk]
  intro pos prev out
  obtain ⟨col', prev', h1, h2⟩ := h pos prev out
  refine ⟨col', prev', ?_, h2⟩
  rw [← h1]
  simp only [Chunk.text, List.cons_append, List.nil_append]
  have e0 : ∀ s : St, s.cur.rest = '[' :: '#' :: c :: ']' :: v → charSwitch stdLex s = caseBraceBegin stdLex s := by
    intro s hs
    unfold charSwitch
    simp [hs, simpleKind]
  rw [e0 _ rfl]
  have e1 : stdLex .completionPercent ('[' :: '#' :: c :: ']' :: v) = none := by
    simp [stdLex, Pat.rx, seqs, Rx.run, Rx.ch, digits, Rx.many1, isDigit]
  have e2 : stdLex .completionRatio ('[' :: '#' :: c :: ']' :: v) = none := by
    simp [stdLex, Pat.rx, seqs, Rx.run, Rx.ch, digits, Rx.many1, isDigit]
  have e3 : stdLex .priority ('[' :: '#' :: c :: ']' :: v) = some 4 := by
    have hc2 : isAlpha c = true ∨ c = '_' := hc
    simp [stdLex, Pat.rx, seqs, Rx.run, Rx.ch, hc2]
  unfold caseBraceBegin
  simp only [e1, e2, e3]
  rw [if_neg (by simp [isAtStr])]

/-! ## One step of the lexer -/

theorem written_cons (c : Chunk) (cs : List Chunk) : written (c :: cs) = c.text ++ written cs := rfl

theorem chunk_head {c : Chunk} (h : c.Valid) : ∃ x r, c.text = x :: r := by
  cases c with
  | txt p => exact piece_head h
  | stars n => exact ⟨'*', List.replicate n '*', rfl⟩
  | prio x => exact ⟨_, _, rfl⟩

/-- A piece of text as in prose. -/
theorem txt_begins {p : Piece} {cs : List Chunk} {bol : Bool} (h : JoinedFrom bol (.txt p :: cs)) :
    (∃ next, fits bol p next ∧ Begins next (written cs)) ∨ (bol = false ∧ ∃ n, p = .gap n ∧ (written cs).head? ≠ some ' ') := by
  obtain ⟨h1, h2, h3⟩ := h
  cases cs with
  | nil => exact .inl ⟨none, h2, .inl ⟨rfl, rfl⟩⟩
  | cons c cs =>
    cases c with
    | txt q => exact .inl ⟨some q, h2, .inr ⟨q, written cs, rfl, h3.1, rfl⟩⟩
    | stars n =>
      refine .inl ⟨some .star, ?_, .inr ⟨.star, List.replicate n '*' ++ written cs, rfl, trivial, rfl⟩⟩
      have hp : p.isBrk = true := h2
      cases p <;> simp [Piece.isBrk] at hp
      intro n
      simp
    | prio x =>
      obtain ⟨hb, n, rfl⟩ : bol = false ∧ ∃ n, p = .gap n := h2
      exact .inr ⟨hb, n, rfl, by simp [written, Chunk.text]⟩

theorem lexes_chunk {c : Chunk} {cs : List Chunk} {bol : Bool} {col : Nat} (h : JoinedFrom bol (c :: cs)) (hcol : col = 0 ↔ bol = true)
    (n : Nat) : LexesC c (written cs) col (switchRegular stdLex (n + 1)) := by
  have key : LexesC c (written cs) col (charSwitch stdLex) →
      (bol = true → lineStart stdLex (c.text ++ written cs) (spaces (c.text ++ written cs)) = .other) →
      LexesC c (written cs) col (switchRegular stdLex (n + 1)) := by
    intro hs hl pos prev out
    obtain ⟨col', prev', h1, h2⟩ := hs pos prev out
    refine ⟨col', prev', ?_, h2⟩
    rw [← h1]
    show regularBody stdLex (switchRegular stdLex n) _ = _
    unfold regularBody
    by_cases hc : col = 0
    · have hb := hcol.mp hc
      rw [if_pos hc]
      simp only [hl hb]
    · rw [if_neg hc]
  cases c with
  | txt p =>
    rcases txt_begins h with ⟨next, h1, h2⟩ | ⟨rfl, n, rfl, h2⟩
    · refine key (lexes_begins h.1 h1 h2 hcol) (fun hb => ?_)
      subst hb
      exact line_begins h.1 h1 h2
    · exact key (lexes_gap h2) (fun hb => by cases hb)
  | stars m =>
    obtain ⟨-, h2, h3⟩ := h
    obtain ⟨hb, g, hg⟩ : bol = true ∧ ∃ g, cs.head? = some (.txt (.gap g)) := h2
    obtain ⟨cs', rfl⟩ : ∃ cs', cs = .txt (.gap g) :: cs' := by
      cases cs with
      | nil => cases hg
      | cons c cs => cases hg; exact ⟨cs, rfl⟩
    have hc := hcol.mpr hb
    subst hc
    refine key (lexes_stars m _) (fun _ => ?_)
    refine lineStart_text (by decide) (by decide) (fun hp => ?_)
    have : 'c' = toLower '*' := (List.cons_prefix_cons.mp hp).1
    exact absurd this (by decide)
  | prio x =>
    obtain ⟨h1, h2, -⟩ := h
    have hb : bol = false := h2.1
    subst hb
    exact key (lexes_prio h1 _ _) (fun hb => by cases hb)

theorem chunk_loop (n : Nat) (cs : List Chunk) : ∀ (bol : Bool) (k pos col : Nat) (prev : Option Char) (out : List Tok),
    JoinedFrom bol cs → (col = 0 ↔ bol = true) → cs.length < k →
    ∃ s, loop (fun r => !r.isEmpty) .abort (switchRegular stdLex (n + 1)) k ⟨⟨written cs, pos, col, prev⟩, out⟩ = .ok s ∧
      s.out = out ++ lexedC pos cs := by
  induction cs with
  | nil =>
    intro bol k pos col prev out h hcol hk
    obtain ⟨k, rfl⟩ : ∃ j, k = j + 1 := ⟨k - 1, by simp at hk; omega⟩
    exact ⟨_, rfl, by simp [lexedC]⟩
  | cons c cs ih =>
    intro bol k pos col prev out h hcol hk
    obtain ⟨k, rfl⟩ : ∃ j, k = j + 1 := ⟨k - 1, by simp at hk; omega⟩
    obtain ⟨x, r, hx⟩ := chunk_head h.1
    obtain ⟨col', prev', h1, h2⟩ := lexes_chunk h hcol n pos prev out
    obtain ⟨s, h3, h4⟩ := ih c.isBrk k (pos + c.text.length) col' prev' (out ++ [⟨c.kind, c.text, some pos⟩]) h.2.2 h2
      (by simp at hk; omega)
    refine ⟨s, ?_, ?_⟩
    · unfold loop
      have hne : (!(written (c :: cs)).isEmpty) = true := by rw [written_cons, hx]; rfl
      have hlen : c.text.length ≠ 0 := by rw [hx]; simp
      simp only [hne, if_true]
      rw [written_cons, h1]
      simp only
      rw [if_neg (by omega), h3]
    · rw [h4]
      simp [lexedC]

theorem written_length {cs : List Chunk} {bol : Bool} (h : JoinedFrom bol cs) : cs.length ≤ (written cs).length := by
  induction cs generalizing bol with
  | nil => simp
  | cons c cs ih =>
    obtain ⟨x, r, hx⟩ := chunk_head h.1
    have := ih h.2.2
    rw [written_cons, hx]
    simp
    omega

/-- The lexer makes one token of every part. -/
theorem chunks_lexed {cs : List Chunk} (h : Joined cs) : tokenize stdLex (written cs) = .ok (lexedC 0 cs) := by
  obtain ⟨s, h1, h2⟩ := chunk_loop (written cs).length cs true ((written cs).length + 1) 0 0 none [] h (by simp)
    (by have := written_length h; omega)
  unfold tokenize tokenizeSt
  rw [h1]
  simp [h2]

/-! ## The stages after the lexer -/

/-- The kinds of the tokens of outlines. -/
def outlineKinds : List TK := .SubtreeStars :: .SubtreePriority :: proseKinds

theorem chunk_kind {c : Chunk} (h : c.Valid) : c.kind ∈ outlineKinds := by
  cases c with
  | txt p => exact List.mem_cons_of_mem _ (List.mem_cons_of_mem _ (kind_prose h))
  | stars n => simp [Chunk.kind, outlineKinds]
  | prio x => simp [Chunk.kind, outlineKinds]

theorem lexedC_kinds {cs : List Chunk} {bol : Bool} (h : JoinedFrom bol cs) : ∀ pos, ∀ t ∈ lexedC pos cs, t.kind ∈ outlineKinds := by
  induction cs generalizing bol with
  | nil => intro pos t ht; cases ht
  | cons c cs ih =>
    intro pos t ht
    rcases List.mem_cons.mp ht with rfl | ht
    · exact chunk_kind h.1
    · exact ih h.2.2 _ t ht

theorem chunk_tokens {cs : List Chunk} (h : Joined cs) :
    tokens stdLex (written cs) = .ok (Recombine.byNeighbours none (lexedC 0 cs)) := by
  have hk := lexedC_kinds h 0
  unfold tokens
  rw [chunks_lexed h]
  simp only [Recombine.convert]
  have h1 : ∀ k ∈ outlineKinds, k ∉ structural := by decide
  have h2 : ∀ k ∈ outlineKinds, k ≠ .LineCommand ∧ k ≠ .CmdRawArg := by decide
  have h3 : ∀ k ∈ outlineKinds, Recombine.leastLength k = 0 := by decide
  rw [regroup_calm _ (fun t ht => h1 _ (hk t ht))]
  simp only [bind, Except.bind]
  rw [Recombine.recombine_local _ (fun t ht => h2 _ (hk t ht)) (fun t ht => by rw [h3 _ (hk t ht)]; omega)]

/-! ## The kinds of the tokens of the parser -/

/-- The token of a part, for its kind and text. -/
def Chunk.tok (c : Chunk) : Tok := ⟨c.kind, c.text, some 0⟩

/-- The kinds of the tokens of some parts between others. -/
def kindsC (before : Option Chunk) : List Chunk → Option Chunk → List TK
  | [], _ => []
  | c :: cs, after =>
    Recombine.kindBetween (before.map Chunk.tok) c.tok ((cs.head?.or after).map Chunk.tok) :: kindsC (some c) cs after

/-- The last of some parts, or what was before them. -/
def lastC (before : Option Chunk) : List Chunk → Option Chunk
  | [] => before
  | c :: cs => lastC (some c) cs

theorem kindsC_append (before after : Option Chunk) (a b : List Chunk) :
    kindsC before (a ++ b) after = kindsC before a (b.head?.or after) ++ kindsC (lastC before a) b after := by
  induction a generalizing before with
  | nil => rfl
  | cons p a ih =>
    simp only [List.cons_append, kindsC, lastC, ih]
    cases a <;> rfl

theorem kindsC_length (before after : Option Chunk) (a : List Chunk) : (kindsC before a after).length = a.length := by
  induction a generalizing before with
  | nil => rfl
  | cons p a ih => simp [kindsC, ih]

/-- Among pieces of text the kinds are those of prose. -/
theorem kindsC_txt (before after : Option Piece) (ps : List Piece) :
    kindsC (before.map .txt) (ps.map .txt) (after.map .txt) = kindsOf before ps after := by
  have e : ∀ x : Option Piece, (x.map Chunk.txt).map Chunk.tok = x.map Piece.tok := by
    intro x; cases x <;> rfl
  induction ps generalizing before with
  | nil => rfl
  | cons p ps ih =>
    simp only [List.map_cons, kindsC, kindsOf]
    have h1 := ih (some p)
    simp only [Option.map_some] at h1
    rw [h1, e]
    have h2 : ((ps.map Chunk.txt).head?.or (after.map Chunk.txt)).map Chunk.tok = (ps.head?.or after).map Piece.tok := by
      cases ps with
      | nil => simp [e]
      | cons q ps => rfl
    rw [h2]
    rfl

theorem becomes_outline {b a : Option Tok} {t : Tok} (h : t.kind ∈ outlineKinds) :
    Recombine.becomes b t a = [⟨Recombine.kindBetween b t a, t.text, t.loc⟩] := by
  simp only [outlineKinds, List.mem_cons] at h
  rcases h with h | h | h
  · obtain ⟨k, x, l⟩ := t
    subst h
    rfl
  · obtain ⟨k, x, l⟩ := t
    subst h
    rfl
  · exact becomes_prose h

theorem lexedC_head (pos : Nat) (cs : List Chunk) : (lexedC pos cs).head?.map (·.kind) = cs.head?.map Chunk.kind := by
  cases cs <;> rfl

theorem neighbours_kindsC {cs : List Chunk} {bol : Bool} (h : JoinedFrom bol cs) (before : Option Chunk) (b : Option Tok)
    (hb : b.map (·.kind) = before.map Chunk.kind) (pos : Nat) :
    (Recombine.byNeighbours b (lexedC pos cs)).map (·.kind) = kindsC before cs none ∧
    (Recombine.byNeighbours b (lexedC pos cs)).map (·.text) = cs.map Chunk.text := by
  induction cs generalizing bol before b pos with
  | nil => exact ⟨rfl, rfl⟩
  | cons p ps ih =>
    obtain ⟨h1, h2⟩ := ih h.2.2 (some p) (some ⟨p.kind, p.text, some pos⟩) rfl (pos + p.text.length)
    simp only [lexedC, Recombine.byNeighbours, becomes_outline (t := ⟨p.kind, p.text, some pos⟩) (chunk_kind h.1),
      List.map_cons, kindsC, List.cons_append, List.nil_append]
    rw [h1, h2]
    refine ⟨?_, rfl⟩
    congr 1
    refine kindBetween_congr ?_ ?_ rfl rfl
    · rw [hb]; cases before <;> rfl
    · rw [lexedC_head]; cases ps <;> rfl

end Verif.Pipeline
