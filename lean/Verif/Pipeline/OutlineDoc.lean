import Verif.Pipeline.OutlineLex
import Verif.Parser.HeadProps

/-!
# Outlines follow the grammar of headlines
-/

namespace Verif.Pipeline
open Verif.Token Verif.BaseLexer Verif.NodeGroup Verif.NodeGroup.Spec
open Verif.Parser (NK absent Heads)

/-! ## The expected nodes -/

def Mark.forest (i : Nat) (f : Forest NK Unit) : Mark → Forest NK Unit
  | .none => absent (absent f)
  | .priority _ _ => absent (.leaf .SubtreeUrgency (.tok i) f)
  | .keyword _ _ _ _ => .leaf .BigIdent (.tok i) (.leaf .SubtreeUrgency (.tok (i + 2)) f)

def tagList (i : Nat) : List (List Char) → Forest NK Unit
  | [] => .nil
  | _ :: r => .tree .HashTag (.leaf .RawText (.tok i) .nil) (tagList (i + 2) r)

def tagsForest (i : Nat) (f : Forest NK Unit) (ts : List (List Char)) : Forest NK Unit :=
  if ts = [] then absent f else .tree .InlineStmtList (tagList (i + 1) ts) f

/-- Where the title starts. -/
def Entry.titleAt (e : Entry) (i : Nat) : Nat := i + 2 + e.mark.chunks.length

/-- Where the tags start. -/
def Entry.tagsAt (e : Entry) (i : Nat) : Nat := e.titleAt i + e.title.pieces.length

/-- Where the text starts. -/
def Entry.bodyAt (e : Entry) (i : Nat) : Nat := e.tagsAt i + e.tail.length

/-- The fields of a headline before its text. -/
def Entry.fields (e : Entry) (i : Nat) (f : Forest NK Unit) : Forest NK Unit :=
  .leaf .RawText (.tok i) (e.mark.forest (i + 2) (.tree .Paragraph (e.title.forest (e.titleAt i))
    (absent (tagsForest (e.tagsAt i) (absent (absent f)) e.tags))))

def entriesForest (i : Nat) : List Entry → Forest NK Unit
  | [] => .nil
  | e :: r => .tree .Subtree (e.fields i (.tree .StmtList .nil .nil))
      ((e.body.forest (e.bodyAt i)).append (entriesForest (i + e.chunks.length) r))

/-! ## Kinds -/

theorem lastC_txt (before : Option Piece) (ps : List Piece) : lastC (before.map .txt) (ps.map .txt) = (lastOf before ps).map .txt := by
  induction ps generalizing before with
  | nil => rfl
  | cons p ps ih => exact ih (some p)

theorem brk_between (n : Nat) (b a b' a' : Option Tok) :
    Recombine.kindBetween b (Piece.brk n).tok a = Recombine.kindBetween b' (Piece.brk n).tok a' := by
  match n with
  | 0 => simp [Recombine.kindBetween, Piece.tok, Piece.kind, Recombine.marks]
  | 1 => simp [Recombine.kindBetween, Piece.tok, Piece.kind, Recombine.marks]
  | n + 2 => simp [Recombine.kindBetween, Piece.tok, Piece.kind, Recombine.marks]

/-- After a line break it does not count what comes next. -/
theorem kindsC_brk (ps : List Piece) : ∀ (before : Option Chunk) (p : Piece), lastOf none ps = some p → p.isBrk = true → ∀ a a' : Option Chunk,
    kindsC before (ps.map .txt) a = kindsC before (ps.map .txt) a' := by
  induction ps with
  | nil => intro before p hp; cases hp
  | cons q ps ih =>
    intro before p hp hb a a'
    cases ps with
    | nil =>
      have : q = p := by simpa [lastOf] using hp
      subst this
      cases q <;> simp [Piece.isBrk] at hb
      simp only [List.map_cons, List.map_nil, kindsC]
      exact congrArg (· :: []) (brk_between _ _ _ _ _)
    | cons r ps =>
      have h1 := ih (some (.txt q)) p hp hb a a'
      rw [List.map_cons, kindsC, kindsC, h1]
      rfl

theorem stars_between (n : Nat) (b a : Option Tok) : Recombine.kindBetween b (Chunk.stars n).tok a = .SubtreeStars := by
  simp [Recombine.kindBetween, Chunk.tok, Chunk.kind, Recombine.marks]

theorem prio_between (c : Char) (b a : Option Tok) : Recombine.kindBetween b (Chunk.prio c).tok a = .SubtreePriority := by
  simp [Recombine.kindBetween, Chunk.tok, Chunk.kind, Recombine.marks]

theorem gap_between (n : Nat) (b a : Option Tok) : Recombine.kindBetween b (Piece.gap n).tok a = .Whitespace := by
  simp [Recombine.kindBetween, Piece.tok, Piece.kind, Recombine.marks]

theorem colon_between (b a : Option Tok) : Recombine.kindBetween b Piece.colon.tok a = .Colon := by
  simp [Recombine.kindBetween, Piece.tok, Piece.kind, Recombine.marks]

/-- The kinds of tags are those of words and colons. -/
theorem tag_between {p : Piece} (hv : p.Valid) (b a : Option Tok) (h : Recombine.kindBetween b p.tok a ∈ Verif.Parser.tagKinds) :
    p = .colon ∨ ∃ w, p = .word w ∧ Recombine.kindBetween b p.tok a ∈ [TK.Word, .BigIdent] := by
  cases p with
  | word w =>
    refine .inr ⟨w, rfl, ?_⟩
    rw [word_kind]
    split_ifs <;> simp
  | colon => exact .inl rfl
  | number ds => simp [Recombine.kindBetween, Piece.tok, Piece.kind, Recombine.marks, Verif.Parser.tagKinds] at h
  | gap n => rw [gap_between] at h; exact absurd h (by decide)
  | brk n =>
    have := brk_kind n b a
    simp only [Verif.Parser.lineBreaks, List.mem_cons, List.not_mem_nil, or_false] at this
    rcases this with e | e | e <;> rw [e] at h <;> exact absurd h (by decide)
  | star =>
    simp only [Recombine.kindBetween, Piece.tok, Piece.kind, Recombine.marks, reduceCtorEq, if_false] at h
    split_ifs at h <;> exact absurd h (by decide)
  | slash =>
    simp only [Recombine.kindBetween, Piece.tok, Piece.kind, Recombine.marks, reduceCtorEq, if_false] at h
    split_ifs at h <;> exact absurd h (by decide)
  | glyph u =>
    exfalso
    rcases hv with ⟨x, rfl, hx⟩ | ⟨a', b', rfl, -⟩ | ⟨a', b', d, rfl, -⟩
    · simp only [marksTable, List.map_cons, List.map_nil, List.mem_cons, List.not_mem_nil, or_false] at hx
      rcases hx with e | e | e | e | e | e | e | e | e <;> subst e <;>
        simp [Recombine.kindBetween, Piece.tok, Piece.kind, glyphKind, marksTable, Recombine.marks, Verif.Parser.tagKinds] at h
    · simp [Recombine.kindBetween, Piece.tok, Piece.kind, glyphKind, Recombine.marks, Verif.Parser.tagKinds] at h
    · simp [Recombine.kindBetween, Piece.tok, Piece.kind, glyphKind, Recombine.marks, Verif.Parser.tagKinds] at h

theorem text_not {k : TK} (h : Verif.Parser.IsText k) :
    k ∉ [TK.TreeTime, .LeadingSpace, .ColonProperties, .ColonLogbook] := by
  intro hm
  simp only [List.mem_cons, List.not_mem_nil, or_false] at hm
  rcases hm with e | e | e | e <;> subst e <;> simp [Verif.Parser.IsText, Verif.Parser.role, Verif.Parser.lineBreaks] at h

theorem prio_not (b a : Option Tok) (t : Tok) (h : t.kind ∈ proseKinds) : Recombine.kindBetween b t a ≠ .SubtreePriority := by
  obtain ⟨k, x, l⟩ := t
  simp only [proseKinds, List.mem_cons, List.not_mem_nil, or_false] at h
  unfold Recombine.kindBetween
  rcases h with h | h | h | h | h | h | h | h | h | h | h | h | h | h | h | h | h | h <;> subst h <;>
    simp only [Recombine.marks, reduceCtorEq, if_false, if_true] <;> (try split_ifs) <;> simp

theorem text_piece {p : Piece} (hv : p.Valid) (b a : Option Tok) : Verif.Parser.IsText (Recombine.kindBetween b p.tok a) :=
  text_between b a p.tok (kind_prose hv)

/-! ## Titles -/

theorem mem_numbered {i : Nat} {before after : Option Piece} {ps : List Piece} {x : Nat × TK} (h : x ∈ numbered i (kindsOf before ps after)) :
    ∃ p ∈ ps, ∃ b a, x.2 = Recombine.kindBetween b p.tok a := by
  induction ps generalizing i before with
  | nil => simp [kindsOf, numbered] at h
  | cons p ps ih =>
    rw [kindsOf, numbered_cons] at h
    rcases List.mem_cons.mp h with rfl | h
    · exact ⟨p, by simp, _, _, rfl⟩
    · obtain ⟨q, hq, e⟩ := ih h
      exact ⟨q, by simp [hq], e⟩

theorem of_mem_numbered (i : Nat) (before after : Option Piece) {ps : List Piece} {p : Piece} (h : p ∈ ps) :
    ∃ x ∈ numbered i (kindsOf before ps after), ∃ b a, x.2 = Recombine.kindBetween b p.tok a := by
  induction ps generalizing i before with
  | nil => cases h
  | cons q ps ih =>
    rw [kindsOf, numbered_cons]
    rcases List.mem_cons.mp h with rfl | h
    · exact ⟨_, List.mem_cons_self, _, _, rfl⟩
    · obtain ⟨x, hx, e⟩ := ih (i + 1) (some q) h
      exact ⟨x, List.mem_cons_of_mem _ hx, e⟩

theorem numbered_split {ps : List Piece} (hv : ∀ p ∈ ps, p.Valid) {i : Nat} {before after : Option Piece} {a : List (Nat × TK)} {k : Nat}
    {b : List (Nat × TK)} (h : numbered i (kindsOf before ps after) = a ++ (k, .Colon) :: b) :
    ∃ a' b', ps = a' ++ .colon :: b' ∧ b = numbered (k + 1) (kindsOf (some .colon) b' after) := by
  induction ps generalizing i before a with
  | nil => simp [kindsOf, numbered] at h
  | cons p ps ih =>
    rw [kindsOf, numbered_cons] at h
    cases a with
    | nil =>
      simp only [List.nil_append, List.cons.injEq, Prod.mk.injEq] at h
      obtain ⟨⟨rfl, h1⟩, h2⟩ := h
      rcases tag_between (hv p (by simp)) _ _ (by rw [h1]; simp [Verif.Parser.tagKinds]) with rfl | ⟨w, rfl, h3⟩
      · exact ⟨[], ps, rfl, h2.symm⟩
      · rw [h1] at h3; exact absurd h3 (by decide)
    | cons x a =>
      simp only [List.cons_append, List.cons.injEq] at h
      obtain ⟨a', b', h1, h2⟩ := ih (fun q hq => hv q (by simp [hq])) h.2
      exact ⟨p :: a', b', by rw [h1]; rfl, h2⟩

theorem title_tokens {t : Inl} (ht : IsTitle t) (hv : ∀ p ∈ t.pieces, p.Valid) (i : Nat) (before after : Option Piece) :
    Verif.Parser.IsTitle (numbered i (kindsOf before t.pieces after)) := by
  obtain ⟨⟨p, hp, hp2⟩, h2, h3⟩ := ht
  refine ⟨?_, ?_, ?_⟩
  · intro x hx
    obtain ⟨q, hq, b, a, e⟩ := mem_numbered hx
    rw [e]
    refine ⟨fun hl => ?_, prio_not b a q.tok (kind_prose (hv q hq))⟩
    by_cases hg : ∃ n, q = .gap n
    · obtain ⟨n, rfl⟩ := hg
      rw [gap_between] at hl
      exact absurd hl (by decide)
    · have hb := h2 q hq
      exact first_kind (hv q hq) (fun n => ⟨fun e => hg ⟨n, e⟩, fun e => by rw [e] at hb; cases hb⟩) b a (List.mem_cons_of_mem _ hl)
  · cases hps : t.pieces with
    | nil => rw [hps] at hp; cases hp
    | cons q ps =>
      rw [hps] at hp
      cases hp
      have hb := h2 p (by rw [hps]; simp)
      rw [kindsOf, numbered_cons]
      refine ⟨_, rfl, fun he => ?_⟩
      exact first_kind (hv p (by rw [hps]; simp)) (fun n => ⟨hp2 n, fun e => by rw [e] at hb; cases hb⟩) _ _ (List.mem_cons.mpr (.inl he))
  · intro a k b h
    obtain ⟨a', b', e1, e2⟩ := numbered_split hv h
    obtain ⟨q, hq, hq1, hq2⟩ := h3 a' b' e1
    obtain ⟨x, hx, b1, a1, e⟩ := of_mem_numbered (k + 1) (some .colon) after hq
    refine ⟨x, by rw [e2]; exact hx, fun hm => ?_⟩
    rw [e] at hm
    rcases tag_between (hv q (by rw [e1]; simp [hq])) _ _ hm with h | ⟨w, h, -⟩
    · exact hq1 h
    · exact hq2 w h

/-! ## Tags -/

theorem tags_tokens (ts : List (List Char)) : ∀ (i : Nat) (before after : Option Piece),
    Verif.Parser.Tags (numbered i (kindsOf before (.colon :: ts.flatMap fun t => [.word t, .colon]) after)) (tagList (i + 1) ts) := by
  induction ts with
  | nil =>
    intro i before after
    simp only [List.flatMap_nil, kindsOf, numbered_cons, colon_between]
    exact .last
  | cons t ts ih =>
    intro i before after
    have h := ih (i + 2) (some (.word t)) after
    rw [List.flatMap_cons, List.cons_append, List.cons_append, List.nil_append, kindsOf, kindsOf, numbered_cons, numbered_cons, colon_between]
    refine .tag ?_ h
    rw [word_kind]
    split_ifs <;> simp

theorem tagPart_tokens (ts : List (List Char)) (i : Nat) (before after : Option Piece) :
    Verif.Parser.TagPart (numbered i (kindsOf before (tagPieces ts) after)) (fun f => tagsForest i f ts) := by
  cases ts with
  | nil => exact .none
  | cons t ts =>
    have h := tags_tokens (t :: ts) i before after
    simp only [tagPieces, tagsForest, reduceCtorEq, if_false]
    simp only [List.flatMap_cons, List.cons_append, List.nil_append] at h ⊢
    rw [kindsOf, kindsOf, numbered_cons, numbered_cons, colon_between] at h ⊢
    exact .tags h

/-! ## Parts between parts -/

theorem joined_valid {cs : List Chunk} {bol : Bool} (h : JoinedFrom bol cs) : ∀ c ∈ cs, c.Valid := by
  induction cs generalizing bol with
  | nil => intro c hc; cases hc
  | cons d cs ih =>
    intro c hc
    rcases List.mem_cons.mp hc with rfl | hc
    · exact h.1
    · exact ih h.2.2 c hc

/-- The end of a line, after some parts. -/
def bolAfter (bol : Bool) : List Chunk → Bool
  | [] => bol
  | c :: cs => bolAfter c.isBrk cs

theorem joined_append {a b : List Chunk} {bol : Bool} (h : JoinedFrom bol (a ++ b)) : JoinedFrom (bolAfter bol a) b := by
  induction a generalizing bol with
  | nil => exact h
  | cons c a ih => exact ih h.2.2

/-- Before stars there is a line break. -/
theorem joined_stars {ps : List Piece} {n : Nat} {b : List Chunk} {bol : Bool} (h : JoinedFrom bol (ps.map .txt ++ .stars n :: b)) (hne : ps ≠ []) :
    ∃ p, lastOf none ps = some p ∧ p.isBrk = true := by
  induction ps generalizing bol with
  | nil => exact absurd rfl hne
  | cons p ps ih =>
    cases ps with
    | nil => exact ⟨p, rfl, h.2.1⟩
    | cons q ps => exact ih (bol := p.isBrk) h.2.2 (by simp)

/-- What may come after text: nothing or a headline. -/
def Starry (cs : List Chunk) : Prop := cs = [] ∨ ∃ n r, cs = .stars n :: r

theorem append_assoc' (f g h : Forest NK Unit) : (f.append g).append h = f.append (g.append h) := by
  induction f with
  | nil => rfl
  | leaf k v f ih => simp [Forest.append, ih]
  | tree k c f ihc ih => simp [Forest.append, ih]

theorem pars_heads (d : Pars) : ∀ (before : Option Piece) (i : Nat) (cs : List Chunk) (f : Forest NK Unit) (bol : Bool),
    JoinedFrom bol (d.pieces.map .txt ++ cs) → (∀ q ∈ before, q.Valid) →
    ((before = none ∨ ∃ n, before = some (.brk n)) ∨ d = .nil ∨ ∃ n r, d = .brk n r) → d.Fine → Starry cs →
    Heads (numbered (i + d.pieces.length) (kindsC ((lastOf before d.pieces).map .txt) cs none)) f →
    Heads (numbered i (kindsC (before.map .txt) (d.pieces.map .txt ++ cs) none)) ((d.forest i).append f) := by
  induction d with
  | nil =>
    intro before i cs f bol _ _ _ _ _ hf
    exact hf
  | brk n r ih =>
    intro before i cs f bol hj hb _ h hcs hf
    have hr := ih (some (.brk n)) (i + 1) cs f true hj.2.2 (fun q hq => by cases hq; trivial) (.inl (.inr ⟨n, rfl⟩)) h hcs
      (by
        have e : i + (Pars.brk n r).pieces.length = i + 1 + r.pieces.length := by simp [Pars.pieces]; omega
        rw [e] at hf
        exact hf)
    simp only [Pars.pieces, List.map_cons, List.cons_append, kindsC, Pars.forest, numbered_cons]
    refine .line (brk_kind n _ _) hr
  | par t r ih =>
    intro before i cs f bol hj hb hc h hcs hf
    obtain ⟨⟨p, hp, hne⟩, h2, h3, h4⟩ := h
    have hv : ∀ q ∈ (Pars.par t r).pieces, q.Valid := fun q hq =>
      joined_valid hj (.txt q) (List.mem_append_left _ (List.mem_map_of_mem hq))
    have htv : ∀ q ∈ t.pieces, q.Valid := fun q hq => hv q (by simp [Pars.pieces, hq])
    have hrv : ∀ q ∈ r.pieces, q.Valid := fun q hq => hv q (by simp [Pars.pieces, hq])
    have hbefore : Airy before := by
      rcases hc with (rfl | ⟨n, rfl⟩) | h | ⟨_, _, h⟩
      · trivial
      · trivial
      · cases h
      · cases h
    have hcl := inl_closed t before r.pieces.head? none i htv hb (fun q hq => hrv q (List.mem_of_mem_head? hq)) (placed_before (fun _ => hbefore) h2)
    have hj' : JoinedFrom bol (t.pieces.map .txt ++ (r.pieces.map .txt ++ cs)) := by
      have := hj
      simpa [Pars.pieces] using this
    obtain ⟨ps, hps⟩ : ∃ ps, t.pieces = p :: ps := by
      cases ht : t.pieces with
      | nil => rw [ht] at hp; cases hp
      | cons x ps => rw [ht] at hp; cases hp; exact ⟨ps, rfl⟩
    have hlast : lastOf before (Pars.par t r).pieces = lastOf (lastOf before t.pieces) r.pieces := by
      simp only [Pars.pieces]
      generalize t.pieces = a
      clear * -
      induction a generalizing before with
      | nil => rfl
      | cons x a ih => exact ih (some x)
    rw [hlast] at hf
    have e : i + (Pars.par t r).pieces.length = i + t.pieces.length + r.pieces.length := by simp [Pars.pieces]; omega
    rw [e] at hf
    have hr := ih (lastOf before t.pieces) (i + t.pieces.length) cs f _ (joined_append hj') (lastOf_valid hb htv)
      (.inr (by rcases h3 with h | ⟨n, r', h⟩; exacts [.inl h, .inr ⟨_, _, h⟩])) h4 hcs hf
    simp only [Pars.pieces, Pars.forest, List.map_append, List.append_assoc]
    rw [kindsC_append, numbered_append, kindsC_length, List.length_map, lastC_txt, Option.or_none]
    have hafter : kindsC (before.map .txt) (t.pieces.map .txt) (r.pieces.map Chunk.txt ++ cs).head? = kindsOf before t.pieces r.pieces.head? := by
      rw [← kindsC_txt]
      rcases h3 with rfl | ⟨n, r', rfl⟩
      · rcases hcs with rfl | ⟨n, r', rfl⟩
        · rfl
        · obtain ⟨q, hq, hqb⟩ := joined_stars (ps := t.pieces) (n := n) (b := r') hj' (by rw [hps]; simp)
          exact kindsC_brk _ _ q hq hqb _ _
      · rfl
    rw [hafter]
    have hk : kindsOf before t.pieces r.pieces.head? =
        Recombine.kindBetween (before.map Piece.tok) p.tok ((ps.head?.or r.pieces.head?).map Piece.tok) :: kindsOf (some p) ps r.pieces.head? := by
      rw [hps]; rfl
    rw [hk, numbered_cons] at hcl ⊢
    rw [List.cons_append]
    refine .par (first_kind (htv p (by rw [hps]; simp)) hne _ _) (.closed hcl) ?_ hr
    intro x hx
    rcases h3 with rfl | ⟨n, r', rfl⟩
    · rcases hcs with rfl | ⟨n, r', rfl⟩
      · cases hx
      · simp only [Pars.pieces, List.map_nil, List.nil_append, kindsC, numbered_cons, List.head?_cons, Option.mem_def, Option.some.injEq] at hx
        subst hx
        rw [stars_between]
        simp
    · simp only [Pars.pieces, List.map_cons, List.cons_append, kindsC, numbered_cons, List.head?_cons, Option.mem_def, Option.some.injEq] at hx
      subst hx
      have := empty_line_kind n (((lastOf before t.pieces).map Chunk.txt).map Chunk.tok) (((r'.pieces.map Chunk.txt ++ cs).head?.or none).map Chunk.tok)
      simp only [List.mem_cons, List.not_mem_nil, or_false] at this ⊢
      rcases this with h | h
      · exact .inl h
      · exact .inr (.inl h)

/-! ## Entries -/

theorem mark_tokens {m : Mark} (hm : ∀ w g c g', m = .keyword w g c g' → Capital w) (i g : Nat) (after : Option Chunk) :
    Verif.Parser.Front (numbered i (kindsC (some (.txt (.gap g))) m.chunks after)) (fun f => m.forest i f) ∧
    ∃ g', lastC (some (.txt (.gap g))) m.chunks = some (.txt (.gap g')) := by
  cases m with
  | none => exact ⟨.none, g, rfl⟩
  | priority c h =>
    refine ⟨?_, h, rfl⟩
    have h1 := prio_between c
    have h2 : ∀ b a, Recombine.kindBetween b (Chunk.txt (.gap h)).tok a = .Whitespace := fun b a => gap_between h b a
    simp only [Mark.chunks, kindsC, numbered_cons, h1, h2]
    exact .priority
  | keyword w g1 c g2 =>
    refine ⟨?_, g2, rfl⟩
    have h1 := prio_between c
    have h2 : ∀ n b a, Recombine.kindBetween b (Chunk.txt (.gap n)).tok a = .Whitespace := fun n b a => gap_between n b a
    have h3 : ∀ b a, Recombine.kindBetween b (Chunk.txt (.word w)).tok a = .BigIdent := fun b a => by
      have := word_kind w b a
      have hw : ∀ c ∈ w, ('A' ≤ c ∧ c ≤ 'Z') ∨ c = '_' := hm w g1 c g2 rfl
      rw [if_pos hw] at this
      exact this
    simp only [Mark.chunks, kindsC, numbered_cons, h1, h2, h3]
    exact .keyword

theorem starry_entries (es : List Entry) : Starry (es.flatMap Entry.chunks) := by
  cases es with
  | nil => exact .inl rfl
  | cons e es => exact .inr ⟨e.level, _, rfl⟩

theorem body_follows {d : Pars} (hd : d.Fine) {cs : List Chunk} (hcs : Starry cs) {n : Nat} {bol : Bool}
    (hj : JoinedFrom bol (.txt (.brk n) :: (d.pieces.map .txt ++ cs))) (b : Option Chunk) (i : Nat) :
    ∀ p ∈ (numbered i (kindsC b (d.pieces.map .txt ++ cs) none)).head?, Verif.Parser.follows p.2 := by
  intro x hx
  cases d with
  | nil =>
    rcases hcs with rfl | ⟨m, r, rfl⟩
    · cases hx
    · simp only [Pars.pieces, List.map_nil, List.nil_append, kindsC, numbered_cons, List.head?_cons, Option.mem_def, Option.some.injEq] at hx
      subst hx
      rw [stars_between]
      simp [Verif.Parser.follows, Verif.Parser.lineBreaks]
  | brk m r => exact absurd rfl (hj.2.1 m).2
  | par t r =>
    obtain ⟨⟨p, hp, hne⟩, -⟩ := hd
    obtain ⟨ps, hps⟩ : ∃ ps, t.pieces = p :: ps := by
      cases ht : t.pieces with
      | nil => rw [ht] at hp; cases hp
      | cons x ps => rw [ht] at hp; cases hp; exact ⟨ps, rfl⟩
    have hpv : p.Valid := joined_valid hj (.txt p) (by simp [Pars.pieces, hps])
    simp only [Pars.pieces, hps, List.cons_append, List.map_cons, kindsC, numbered_cons, List.head?_cons, Option.mem_def, Option.some.injEq] at hx
    subst hx
    refine ⟨fun hm => first_kind hpv hne _ _ (List.mem_cons_of_mem _ hm), text_not (text_piece hpv _ _)⟩

theorem entries_heads (es : List Entry) : ∀ (before : Option Chunk) (i : Nat) (bol : Bool), JoinedFrom bol (es.flatMap Entry.chunks) →
    EntriesFine es → Heads (numbered i (kindsC before (es.flatMap Entry.chunks) none)) (entriesForest i es) := by
  induction es with
  | nil => intro before i bol _ _; exact .nil
  | cons e es ih =>
    intro before i bol hj hfine
    obtain ⟨⟨hmark, htitle, hplaced, hbody, hstop⟩, hrest⟩ := hfine
    have hsh : (e :: es).flatMap Entry.chunks = .stars e.level :: .txt (.gap e.gap) :: (e.mark.chunks ++ (e.title.pieces.map .txt ++
        ((tagPieces e.tags).map .txt ++ ((stopPieces e.stop).map .txt ++ (e.body.pieces.map .txt ++ es.flatMap Entry.chunks))))) := by
      simp [Entry.chunks, Entry.tail]
    have hlen : e.chunks.length = 2 + e.mark.chunks.length + e.title.pieces.length + e.tail.length + e.body.pieces.length := by
      simp [Entry.chunks]; omega
    rw [hsh] at hj ⊢
    have hvalid := joined_valid hj
    have htv : ∀ p ∈ e.title.pieces, p.Valid := fun p hp => hvalid (.txt p) (by simp [hp])
    have htlv : ∀ p ∈ e.tail, p.Valid := fun p hp => hvalid (.txt p) (by
      simp only [Entry.tail, List.mem_append] at hp
      simp only [List.mem_cons, List.mem_append, List.mem_map, Chunk.txt.injEq, exists_eq_right]
      rcases hp with hp | hp
      · exact .inr (.inr (.inr (.inr (.inl hp))))
      · exact .inr (.inr (.inr (.inr (.inr (.inl hp)))))) 
    have hjb := joined_append (joined_append (joined_append hj.2.2.2.2))
    -- front
    obtain ⟨hfront, g', hg'⟩ := mark_tokens hmark (i + 2) e.gap ((e.title.pieces.map Chunk.txt ++
        ((tagPieces e.tags).map Chunk.txt ++ ((stopPieces e.stop).map Chunk.txt ++ (e.body.pieces.map Chunk.txt ++ es.flatMap Entry.chunks)))).head?)
    -- what comes after the line
    have hnone : e.stop = none → e.body.pieces.map Chunk.txt ++ es.flatMap Entry.chunks = [] := by
      intro h
      obtain ⟨h1, h2⟩ := hstop h
      rw [h1, h2]; rfl
    have hafter2 : ((stopPieces e.stop).map Chunk.txt ++ (e.body.pieces.map Chunk.txt ++ es.flatMap Entry.chunks)).head?
        = (stopPieces e.stop).head?.map Chunk.txt := by
      cases hs : e.stop with
      | none => rw [hnone hs]; rfl
      | some n => rfl
    have hafter1 : ((tagPieces e.tags).map Chunk.txt ++ ((stopPieces e.stop).map Chunk.txt ++ (e.body.pieces.map Chunk.txt ++ es.flatMap Entry.chunks))).head?
        = e.tail.head?.map Chunk.txt := by
      unfold Entry.tail
      cases ht : tagPieces e.tags with
      | nil => simpa using hafter2
      | cons p ps => rfl
    -- the rest of the document
    have hR : Heads (numbered (e.bodyAt i) (kindsC (lastC (some (.txt (.gap g'))) (e.title.pieces.map .txt ++ ((tagPieces e.tags).map .txt ++
          (stopPieces e.stop).map .txt))) (e.body.pieces.map .txt ++ es.flatMap Entry.chunks) none))
        ((e.body.forest (e.bodyAt i)).append (entriesForest (i + e.chunks.length) es)) ∧
        (∀ p ∈ (numbered (e.bodyAt i) (kindsC (lastC (some (.txt (.gap g'))) (e.title.pieces.map .txt ++ ((tagPieces e.tags).map .txt ++
          (stopPieces e.stop).map .txt))) (e.body.pieces.map .txt ++ es.flatMap Entry.chunks) none)).head?, Verif.Parser.follows p.2) := by
      cases hs : e.stop with
      | none =>
        obtain ⟨h1, h2⟩ := hstop hs
        rw [h1, h2]
        exact ⟨.nil, fun p hp => by cases hp⟩
      | some n =>
        have hl : lastC (some (.txt (.gap g'))) (e.title.pieces.map .txt ++ ((tagPieces e.tags).map .txt ++ (stopPieces (some n)).map .txt))
            = (some (Piece.brk n)).map .txt := by
          rw [← List.append_assoc]
          generalize e.title.pieces.map Chunk.txt ++ (tagPieces e.tags).map Chunk.txt = a
          generalize some (Chunk.txt (Piece.gap g')) = x
          clear * -
          induction a generalizing x with
          | nil => rfl
          | cons y a ih => exact ih (some y)
        rw [hl]
        rw [hs] at hjb
        have hjd : JoinedFrom (bolAfter (bolAfter (bolAfter false e.mark.chunks) (e.title.pieces.map Chunk.txt)) ((tagPieces e.tags).map Chunk.txt))
            (.txt (.brk n) :: (e.body.pieces.map .txt ++ es.flatMap Entry.chunks)) := hjb
        refine ⟨pars_heads e.body (some (.brk n)) (e.bodyAt i) _ _ true hjd.2.2 (fun q hq => by cases hq; trivial) (.inl (.inr ⟨n, rfl⟩)) hbody
          (starry_entries es) ?_, body_follows hbody (starry_entries es) hjd _ _⟩
        have := ih ((lastOf (some (.brk n)) e.body.pieces).map .txt) (i + e.chunks.length) _ (joined_append hjd.2.2) hrest
        rw [show e.bodyAt i + e.body.pieces.length = i + e.chunks.length from by
          rw [hlen]; simp only [Entry.bodyAt, Entry.tagsAt, Entry.titleAt]; omega]
        exact this
    -- title
    have htk : kindsC (some (.txt (.gap g'))) (e.title.pieces.map .txt) (e.tail.head?.map Chunk.txt) = kindsOf (some (.gap g')) e.title.pieces e.tail.head? :=
      kindsC_txt (some (.gap g')) e.tail.head? e.title.pieces
    have hopen := inl_closed e.title (some (.gap g')) e.tail.head? none (e.titleAt i) htv (fun q hq => by cases hq; trivial)
      (fun q hq => htlv q (List.mem_of_mem_head? hq)) (placed_before (b := some (.gap 0)) (fun _ => trivial) hplaced)
    have htt := title_tokens htitle htv (e.titleAt i) (some (.gap g')) e.tail.head?
    -- tags
    have htg := tagPart_tokens e.tags (e.tagsAt i) (lastOf (some (.gap g')) e.title.pieces) (stopPieces e.stop).head?
    have htgk : kindsC (lastC (some (.txt (.gap g'))) (e.title.pieces.map .txt)) ((tagPieces e.tags).map .txt) ((stopPieces e.stop).head?.map Chunk.txt)
        = kindsOf (lastOf (some (.gap g')) e.title.pieces) (tagPieces e.tags) (stopPieces e.stop).head? := by
      rw [← kindsC_txt, ← lastC_txt]
      rfl
    have happ : ∀ (x : Option Chunk) (a b : List Chunk), lastC x (a ++ b) = lastC (lastC x a) b := by
      intro x a b
      induction a generalizing x with
      | nil => rfl
      | cons y a ih => exact ih (some y)
    simp only [kindsC, numbered_cons, stars_between]
    have hgap : ∀ b a, Recombine.kindBetween b (Chunk.txt (.gap e.gap)).tok a = .Whitespace := fun b a => gap_between e.gap b a
    rw [hgap]
    rw [kindsC_append, kindsC_append, kindsC_append, kindsC_append, numbered_append, numbered_append, numbered_append, numbered_append]
    simp only [kindsC_length, List.length_map, Option.or_none, hg']
    rw [hafter1, hafter2, htk, htgk]
    rw [happ, happ] at hR
    have hat1 : i + 1 + 1 + e.mark.chunks.length = e.titleAt i := rfl
    have hat2 : e.titleAt i + e.title.pieces.length = e.tagsAt i := rfl
    have hat3 : e.tagsAt i + (tagPieces e.tags).length + (stopPieces e.stop).length = e.bodyAt i := by
      simp only [Entry.bodyAt, Entry.tail, List.length_append]; omega
    rw [hat1, hat2, hat3]
    refine .head hfront (.closed hopen) htt htg ?_ hR.2 hR.1
    cases hs : e.stop with
    | none => exact .inl ⟨rfl, by rw [hnone hs]; rfl⟩
    | some n => exact .inr ⟨_, _, rfl, brk_kind n _ _⟩

/-- A written outline follows the grammar of headlines. -/
theorem outline_heads (d : Outline) (hj : Joined d.chunks) (hd : d.Fine) :
    Heads (numbered 1 (kindsC none d.chunks none)) ((d.pre.forest 1).append (entriesForest (1 + d.pre.pieces.length) d.entries)) := by
  refine pars_heads d.pre none 1 _ _ true hj (by simp) (.inl (.inl rfl)) hd.1 (starry_entries _) ?_
  exact entries_heads d.entries _ _ _ (joined_append hj) hd.2

/-- What is parsed from a written outline: one token for each part, and the expected nodes. -/
theorem outline_parsed (d : Outline) (hj : Joined d.chunks) (hd : d.Fine) (n : Nat) (hn : d.chunks.length + 4 ≤ n) :
    ∃ toks, parse stdLex n (written d.chunks) = .ok (toks, (Forest.tree NK.StmtList
        ((d.pre.forest 1).append (entriesForest (1 + d.pre.pieces.length) d.entries)) .nil).flat) ∧
      toks.map (·.text) = d.chunks.map Chunk.text := by
  have hk := neighbours_kindsC hj none none rfl 0
  have hdoc := outline_heads d hj hd
  have hlen : ((Recombine.byNeighbours none (lexedC 0 d.chunks)).map (·.kind)).length = d.chunks.length := by rw [hk.1, kindsC_length]
  obtain ⟨l, hl⟩ := Verif.Parser.parse_heads (texts (Recombine.byNeighbours none (lexedC 0 d.chunks))) n
    ((Recombine.byNeighbours none (lexedC 0 d.chunks)).map (·.kind)) (by rw [hlen]; exact hn) _ (by rw [hk.1]; exact hdoc)
  refine ⟨_, ?_, hk.2⟩
  unfold parse
  rw [chunk_tokens hj]
  simp only
  have hl' : Verif.Parser.parseTop (texts (Recombine.byNeighbours none (lexedC 0 d.chunks))) n
      ⟨Lexer.Lex.main ((Recombine.byNeighbours none (lexedC 0 d.chunks)).map (·.kind)), {}⟩
      = .ok (some (), ⟨l, ⟨(Forest.tree .StmtList ((d.pre.forest 1).append (entriesForest (1 + d.pre.pieces.length) d.entries)) .nil).flat, []⟩⟩) := hl
  rw [hl']

end Verif.Pipeline
