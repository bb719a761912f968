import Verif.Code.Lex

/-!
# Lexing of documents with source blocks
-/

namespace Verif.Code
open Verif.Token Verif.BaseLexer Verif.Pipeline
open Verif.Stamp (Raw placed placed_append rawText Unit1 unit_token unit_adv Run)
open Verif.Drawer (Text)

/-! ## Lines of code -/

def Seg.raw : Seg → Raw
  | .code t => [(.SrcContent, t)]
  | .ref name => [(.DoubleAngleBegin, "<<".toList), (.SrcContent, name), (.DoubleAngleEnd, ">>".toList)]
  | .left => [(.DoubleAngleBegin, "<<".toList)]
  | .right => [(.DoubleAngleEnd, ">>".toList)]

def segsRaw (l : List Seg) : Raw := (l.map Seg.raw).flatten

/-- What may follow a piece of code. -/
def Cut (t : Text) (v : Text) : Prop :=
  (∃ w, v = '\n' :: w) ∨ (∃ w, v = '<' :: '<' :: w ∧ t.getLast? ≠ some '<') ∨ (∃ w, v = '>' :: '>' :: w ∧ t.getLast? ≠ some '>')

theorem step_code {t v : Text} (h : Plain t) (hv : Cut t v) : Step (token .SrcContent advSrc) t v [(.SrcContent, t)] := by
  refine Step.token (fun pos col prev => advWhile_eq t _ v rfl (fun a b hab hb => ?_) (.inr ?_))
  · obtain ⟨x, b, rfl⟩ := List.exists_cons_of_ne_nil hb
    have hx : x ≠ '\n' := by
      rintro rfl
      exact h.line (by rw [hab]; simp)
    have hpair : ∀ y : Char, (y = '<' ∨ y = '>') → List.isPrefixOf [y, y] (x :: b ++ v) = false := by
      intro y hy
      rw [Bool.eq_false_iff]
      intro hp
      rw [List.isPrefixOf_iff_prefix] at hp
      cases b with
      | cons z b =>
        simp only [List.cons_append] at hp
        obtain ⟨e1, hp'⟩ := List.cons_prefix_cons.mp hp
        obtain ⟨e2, -⟩ := List.cons_prefix_cons.mp hp'
        subst e1; subst e2
        have hin : [y, y] <:+: t := ⟨a, b, by rw [hab]; simp⟩
        rcases hy with rfl | rfl
        · exact h.left hin
        · exact h.right hin
      | nil =>
        simp only [List.cons_append, List.nil_append] at hp
        obtain ⟨e1, hp'⟩ := List.cons_prefix_cons.mp hp
        subst e1
        have hl : t.getLast? = some y := by rw [hab]; simp
        rcases hv with ⟨w, rfl⟩ | ⟨w, rfl, hw⟩ | ⟨w, rfl, hw⟩
        · obtain ⟨rfl, -⟩ := List.cons_prefix_cons.mp hp'
          rcases hy with hy | hy <;> exact absurd hy (by decide)
        · obtain ⟨rfl, -⟩ := List.cons_prefix_cons.mp hp'
          exact hw hl
        · obtain ⟨rfl, -⟩ := List.cons_prefix_cons.mp hp'
          exact hw hl
    have p1 := hpair '<' (.inl rfl)
    have p2 := hpair '>' (.inr rfl)
    have p3 : isAt (x :: b ++ v) '\n' = false := by simp [isAt, hx]
    simp only [isAtStr, List.drop_zero, p3, Bool.false_or, Bool.not_eq_true']
    exact Bool.or_eq_false_iff.mpr ⟨p2, p1⟩
  · rcases hv with ⟨w, rfl⟩ | ⟨w, rfl, -⟩ | ⟨w, rfl, -⟩ <;> simp [isAt, isAtStr, List.isPrefixOf]

/-- Pieces of a line. -/
def Pieces : Raw → Prop
  | [] => True
  | (k, t) :: r => ((k = .SrcContent ∧ Plain t ∧ t ≠ [] ∧ ∀ p ∈ r.head?, (p.1 = .DoubleAngleBegin ∧ t.getLast? ≠ some '<') ∨
        (p.1 = .DoubleAngleEnd ∧ t.getLast? ≠ some '>')) ∨
      (k = .DoubleAngleBegin ∧ t = "<<".toList) ∨ (k = .DoubleAngleEnd ∧ t = ">>".toList)) ∧ Pieces r

theorem pieces_head {k : TK} {t : Text} {r : Raw} (h : Pieces ((k, t) :: r)) : ∃ c u, t = c :: u ∧ c ≠ '\n' := by
  obtain ⟨⟨-, h, hne, -⟩ | ⟨-, rfl⟩ | ⟨-, rfl⟩, -⟩ := h
  · obtain ⟨c, u, rfl⟩ := List.exists_cons_of_ne_nil hne
    exact ⟨c, u, rfl, by rintro rfl; exact h.line List.mem_cons_self⟩
  · exact ⟨'<', ['<'], rfl, by decide⟩
  · exact ⟨'>', ['>'], rfl, by decide⟩

theorem rawText_cons (k : TK) (t : Text) (r : Raw) : rawText ((k, t) :: r) = t ++ rawText r := rfl

theorem rawText_append (a b : Raw) : rawText (a ++ b) = rawText a ++ rawText b := by simp [rawText]

theorem step_piece {k : TK} {t : Text} {r : Raw} (h : Pieces ((k, t) :: r)) (w : Text) :
    Step srcPiece t (rawText r ++ '\n' :: w) [(k, t)] := by
  obtain ⟨⟨rfl, hp, hne, hr⟩ | ⟨rfl, rfl⟩ | ⟨rfl, rfl⟩, hrest⟩ := h
  · have hcut : Cut t (rawText r ++ '\n' :: w) := by
      cases r with
      | nil => exact .inl ⟨w, rfl⟩
      | cons p r =>
        obtain ⟨k', t'⟩ := p
        rcases hr _ rfl with ⟨rfl, hl⟩ | ⟨rfl, hl⟩
        · obtain ⟨⟨h0, -⟩ | ⟨-, rfl⟩ | ⟨h0, -⟩, -⟩ := hrest
          · cases h0
          · exact .inr (.inl ⟨_, rfl, hl⟩)
          · cases h0
        · obtain ⟨⟨h0, -⟩ | ⟨h0, -⟩ | ⟨-, rfl⟩, -⟩ := hrest
          · cases h0
          · cases h0
          · exact .inr (.inr ⟨_, rfl, hl⟩)
    refine Step.congr (step_code hp hcut) (fun pos col prev out => ?_)
    obtain ⟨c, u, rfl⟩ := List.exists_cons_of_ne_nil hne
    have hq : ∀ y : Char, (y = '<' ∨ y = '>') → isAtStr ((c :: u) ++ (rawText r ++ '\n' :: w)) [y, y] = false := by
      intro y hy
      unfold isAtStr
      rw [List.drop_zero, Bool.eq_false_iff]
      intro hpf
      rw [List.isPrefixOf_iff_prefix] at hpf
      obtain ⟨e1, hpf'⟩ := List.cons_prefix_cons.mp hpf
      subst e1
      cases u with
      | cons z u =>
        obtain ⟨e2, -⟩ := List.cons_prefix_cons.mp hpf'
        subst e2
        have hin : [y, y] <:+: y :: y :: u := ⟨[], u, rfl⟩
        rcases hy with rfl | rfl
        · exact hp.left hin
        · exact hp.right hin
      | nil =>
        rcases hcut with ⟨x, hx⟩ | ⟨x, hx, hl⟩ | ⟨x, hx, hl⟩
        · have hpf' : [y] <+: rawText r ++ '\n' :: w := hpf'
          rw [hx] at hpf'
          obtain ⟨rfl, -⟩ := List.cons_prefix_cons.mp hpf'
          rcases hy with hy | hy <;> exact absurd hy (by decide)
        · have hpf' : [y] <+: rawText r ++ '\n' :: w := hpf'
          rw [hx] at hpf'
          obtain ⟨rfl, -⟩ := List.cons_prefix_cons.mp hpf'
          exact hl rfl
        · have hpf' : [y] <+: rawText r ++ '\n' :: w := hpf'
          rw [hx] at hpf'
          obtain ⟨rfl, -⟩ := List.cons_prefix_cons.mp hpf'
          exact hl rfl
    have h1 := hq '<' (.inl rfl)
    have h2 := hq '>' (.inr rfl)
    unfold srcPiece
    rw [if_neg (by simpa using h1), if_neg (by simpa using h2)]
  · exact Step.congr (Step.adv .DoubleAngleBegin "<<".toList _) (fun _ _ _ _ => rfl)
  · refine Step.congr (Step.adv .DoubleAngleEnd ">>".toList _) (fun pos col prev out => ?_)
    unfold srcPiece
    rw [if_neg (by simp [isAtStr, List.isPrefixOf]), if_pos (by simp [isAtStr, List.isPrefixOf])]
    rfl

theorem piece_stays {k : TK} {t : Text} {r : Raw} (h : Pieces ((k, t) :: r)) (w : Text) :
    endBlockOffset "src".toList (t ++ (rawText r ++ '\n' :: w)) = .ok none := by
  have hang : ∀ c x : Text, c = "<<".toList ∨ c = ">>".toList → endBlockOffset "src".toList (c ++ x) = .ok none := by
    intro c x hc
    have hs : (c ++ x).head? ≠ some ' ' := by rcases hc with rfl | rfl <;> simp
    unfold endBlockOffset
    rw [spaces_zero hs]
    rcases hc with rfl | rfl <;> simp [isAt, pure, Except.pure]
  obtain ⟨⟨rfl, hp, hne, hr⟩ | ⟨rfl, rfl⟩ | ⟨rfl, rfl⟩, hrest⟩ := h
  · cases r with
    | nil => exact end_none hp.stays (.inl rfl) w
    | cons p r =>
      obtain ⟨k', t'⟩ := p
      rcases hr _ rfl with ⟨rfl, hl⟩ | ⟨rfl, hl⟩
      · obtain ⟨⟨h0, -⟩ | ⟨-, rfl⟩ | ⟨h0, -⟩, -⟩ := hrest
        · cases h0
        · exact end_none hp.stays (.inr (.inl rfl)) _
        · cases h0
      · obtain ⟨⟨h0, -⟩ | ⟨h0, -⟩ | ⟨-, rfl⟩, -⟩ := hrest
        · cases h0
        · cases h0
        · exact end_none hp.stays (.inr (.inr rfl)) _
  · exact hang _ _ (.inl rfl)
  · exact hang _ _ (.inr rfl)

theorem step_newline (v : Text) : Step optNewline "\n".toList v [(.Newline, "\n".toList)] :=
  Step.congr (Step.adv .Newline "\n".toList v) (fun _ _ _ _ => rfl)

theorem step_none {v : Text} (h : v.head? ≠ some '\n') : Step optNewline [] v [] := by
  intro pos col prev out
  refine ⟨col, prev, ?_⟩
  unfold optNewline
  rw [if_neg]
  · simp [placed]
  · simp only [isAt, decide_eq_true_eq, List.nil_append]
    rwa [← List.head?_eq_getElem?]

/-- The loop over the lines of a block. -/
abbrev srcLoop : Nat → St → Except BaseLexer.Err St := blockLoop "src".toList .CmdSrcEnd srcBlockBody

theorem steps_pieces (w : Text) : ∀ {ps : Raw}, Pieces ps → ps ≠ [] → Steps srcLoop (rawText ps ++ "\n".toList) w (ps ++ [(.Newline, "\n".toList)])
  | [(k, t)], h, _ => by
    have h1 := step_piece h w
    have h2 := step_newline w
    have h3 := Step.bind (u' := "\n".toList) (v := w) (by simp [rawText]) h1 h2
    obtain ⟨c, u, ht, -⟩ := pieces_head h
    have h4 := piece_stays h w
    have : Steps srcLoop (t ++ "\n".toList) w ([(k, t)] ++ [(.Newline, "\n".toList)]) :=
      Steps.block h3 (by simp) (by rw [List.append_assoc]; exact h4) (by simp [rawText])
    rwa [show rawText [(k, t)] = t from by simp [rawText]]
  | (k, t) :: (k', t') :: r, h, _ => by
    have ih := steps_pieces w h.2 (by simp)
    obtain ⟨c, u, ht, -⟩ := pieces_head h
    obtain ⟨c', u', ht', hc'⟩ := pieces_head h.2
    have h1 := step_piece h w
    have h2 : Step optNewline [] (rawText ((k', t') :: r) ++ '\n' :: w) [] := step_none (by rw [rawText_cons, ht']; simp [hc'])
    have h3 := Step.bind (by simp [rawText]) (show Step srcPiece t ([] ++ (rawText ((k', t') :: r) ++ '\n' :: w)) [(k, t)] from h1) h2
    rw [List.append_nil, List.append_nil] at h3
    have h4 : Steps srcLoop t (rawText ((k', t') :: r) ++ '\n' :: w) [(k, t)] :=
      Steps.block h3 (by rw [ht]; simp) (piece_stays h w) (by simp [rawText])
    have h5 := Steps.append (u' := rawText ((k', t') :: r) ++ "\n".toList) (v := w) (by rw [List.append_assoc]; exact h4) ih
    rw [rawText_cons, List.append_assoc]
    exact h5

/-- The tokens of a line. -/
def lineRaw (l : List Seg) : Raw := if l.isEmpty then [(.SrcContent, [])] else segsRaw l

theorem segsRaw_cons (s : Seg) (l : List Seg) : segsRaw (s :: l) = s.raw ++ segsRaw l := rfl

theorem segs_text (l : List Seg) : rawText (segsRaw l) = segsText l := by
  induction l with
  | nil => rfl
  | cons s l ih =>
    rw [segsRaw_cons, rawText_append, ih]
    cases s <;> simp [Seg.raw, rawText, segsText, Seg.text]

theorem segs_pieces {l : List Seg} (h : SegsValid l) : Pieces (segsRaw l) := by
  induction l with
  | nil => trivial
  | cons s l ih =>
    cases s with
    | code t =>
      obtain ⟨h1, h2, h3, h4⟩ := h
      refine ⟨.inl ⟨rfl, h1, h2, ?_⟩, ih h4⟩
      intro p hp
      cases l with
      | nil => cases hp
      | cons s l =>
        obtain ⟨g1, g2, g3⟩ := h3 s rfl
        cases s with
        | code t => cases g1
        | ref name => cases hp; exact .inl ⟨rfl, g2 rfl⟩
        | left => cases hp; exact .inl ⟨rfl, g2 rfl⟩
        | right => cases hp; exact .inr ⟨rfl, g3 rfl⟩
    | ref name =>
      obtain ⟨h1, h2, h3, h4⟩ := h
      refine ⟨.inr (.inl ⟨rfl, rfl⟩), ⟨.inl ⟨rfl, h1, h2, ?_⟩, ⟨.inr (.inr ⟨rfl, rfl⟩), ih h4⟩⟩⟩
      intro p hp
      cases hp
      exact .inr ⟨rfl, h3⟩
    | left => exact ⟨.inr (.inl ⟨rfl, rfl⟩), ih h.2⟩
    | right => exact ⟨.inr (.inr ⟨rfl, rfl⟩), ih h⟩

theorem steps_line {l : List Seg} (h : SegsValid l) (w : Text) :
    Steps srcLoop (segsText l ++ "\n".toList) w (lineRaw l ++ [(.Newline, "\n".toList)]) := by
  cases l with
  | nil =>
    have h1 : Step srcPiece [] ("\n".toList ++ w) [(.SrcContent, [])] :=
      Step.congr (Step.token (f := advSrc) (fun _ _ _ => rfl)) (fun _ _ _ _ => rfl)
    have h3 := Step.bind (by simp [rawText]) h1 (step_newline w)
    refine Steps.block h3 (by simp [segsText]) ?_ rfl
    exact end_none (t := []) (by
      rintro ⟨n, u, v, h1, h2⟩
      have : u = [] := by
        have := congrArg List.length h1
        simp only [List.length_append, List.length_nil, List.length_replicate] at this
        exact List.eq_nil_of_length_eq_zero (by omega)
      subst this
      rcases h2 with h2 | h2 <;> simp [sameText] at h2) (.inl rfl) w
  | cons s l =>
    have hne : segsRaw (s :: l) ≠ [] := by
      rw [segsRaw_cons]
      cases s <;> simp [Seg.raw]
    have := steps_pieces w (segs_pieces h) hne
    rwa [segs_text] at this

def linesText (ls : List (List Seg)) : Text := (ls.map fun l => segsText l ++ "\n".toList).flatten

def linesRaw (ls : List (List Seg)) : Raw := (ls.map fun l => lineRaw l ++ [(TK.Newline, "\n".toList)]).flatten

theorem steps_lines {ls : List (List Seg)} (h : ∀ l ∈ ls, SegsValid l) (w : Text) : Steps srcLoop (linesText ls) w (linesRaw ls) := by
  induction ls with
  | nil => exact Steps.nil _ _
  | cons l ls ih => exact Steps.append (steps_line (h l List.mem_cons_self) _) (ih (fun x hx => h x (List.mem_cons_of_mem _ hx)))

/-! ## The first line -/

/-- Words of the first line, with the spaces before them. -/
abbrev Words := List (Nat × TK × Text)

def wordsText (ws : Words) : Text := (ws.map fun w => blanks (w.1 + 1) ++ w.2.2).flatten

def wordsRaw (ws : Words) : Raw := (ws.map fun w => [(TK.Whitespace, blanks (w.1 + 1)), w.2]).flatten

def WordOk (w : TK × Text) : Prop := (w.1 = .CmdRawArg ∧ ArgText w.2) ∨ (w.1 = .CmdColonIdent ∧ ∃ n, w.2 = ':' :: n ∧ ArgName n)

/-- The end of a word. -/
def Shut (v : Text) : Prop := ∃ c w, v = c :: w ∧ (c = ' ' ∨ c = '\n')

theorem argChar_spec {c : Char} (h : argChar c = true) : argSimple c = none ∧ c ≠ ' ' ∧ c ≠ '\n' ∧ c ≠ '"' ∧ c ≠ ':' ∧ argDelim c = false := by
  unfold argChar at h
  simp only [Bool.not_eq_true', Bool.or_eq_false_iff, decide_eq_false_iff_not] at h
  obtain ⟨⟨⟨⟨⟨⟨⟨⟨⟨h1, h2⟩, h3⟩, h4⟩, h5⟩, h6⟩, h7⟩, h8⟩, h9⟩, h10⟩ := h
  exact ⟨by simp [argSimple, *], h7, h8, h10, h9, by simp [argDelim, *]⟩

theorem step_blanks (n : Nat) {v : Text} (hv : v.head? ≠ some ' ') :
    Step cmdArgument (blanks (n + 1)) v [(.Whitespace, blanks (n + 1))] := by
  have h : Step (token .Whitespace (advChar1 ' ')) (blanks (n + 1)) v [(.Whitespace, blanks (n + 1))] := by
    refine Step.token (fun pos col prev => advWhile_eq _ _ v rfl (fun a b hab hb => ?_) ?_)
    · obtain ⟨x, b, rfl⟩ := List.exists_cons_of_ne_nil hb
      have : x ∈ blanks (n + 1) := by rw [hab]; simp
      have := (List.mem_replicate.mp this).2
      subst this
      simp [isAt]
    · cases v with
      | nil => exact .inl rfl
      | cons x v => right; simpa [isAt] using hv
  refine Step.congr h (fun pos col prev out => ?_)
  simp only [blanks, List.replicate_succ, List.cons_append]
  rfl

theorem step_raw {t v : Text} (ht : ArgText t) (hv : Shut v) : Step cmdArgument t v [(.CmdRawArg, t)] := by
  obtain ⟨c, w, rfl, hc⟩ := hv
  have hd : argDelim c = true := by rcases hc with rfl | rfl <;> decide
  have h : Step (token .CmdRawArg (fun c => c.advWhile fun r => !isAtAny r argDelim)) t (c :: w) [(.CmdRawArg, t)] := by
    refine Step.token (fun pos col prev => advWhile_eq _ _ (c :: w) rfl (fun a b hab hb => ?_) (.inr (by simp [isAtAny, hd])))
    obtain ⟨x, b, rfl⟩ := List.exists_cons_of_ne_nil hb
    have hx : x ∈ t := by rw [hab]; simp
    have := (argChar_spec (ht.2 x hx)).2.2.2.2.2
    simp [isAtAny, this]
  refine Step.congr h (fun pos col prev out => ?_)
  obtain ⟨x, u, rfl⟩ := List.exists_cons_of_ne_nil ht.1
  obtain ⟨h1, h2, h3, h4, h5, -⟩ := argChar_spec (ht.2 x List.mem_cons_self)
  unfold cmdArgument
  simp only [List.cons_append, h1, if_neg h2, if_neg h3, if_neg h4, if_neg h5]

theorem step_ident {t v : Text} (ht : ArgName t) (hv : Shut v) : Step cmdArgument (':' :: t) v [(.CmdColonIdent, ':' :: t)] := by
  obtain ⟨c, w, rfl, hc⟩ := hv
  have hd : (isAlnum c || c = '_' || c = '-') = false := by rcases hc with rfl | rfl <;> decide
  obtain ⟨⟨x, hx, hal⟩, hall⟩ := ht
  obtain ⟨u, rfl⟩ : ∃ u, t = x :: u := by
    cases t with
    | nil => cases hx
    | cons y t => cases hx; exact ⟨t, rfl⟩
  have h : Step (token .CmdColonIdent (fun c => c.next.advWhile fun r => isAtAny r fun a => isAlnum a || a = '_' || a = '-')) (':' :: x :: u) (c :: w)
      [(.CmdColonIdent, ':' :: x :: u)] := by
    refine Step.token (fun pos col prev => ?_)
    have := advWhile_eq (p := fun r => isAtAny r fun a => isAlnum a || a = '_' || a = '-') (x :: u)
      (Cur.next ⟨':' :: (x :: u) ++ c :: w, pos, col, prev⟩) (c :: w) rfl (fun a b hab hb => ?_) (.inr (by simpa [isAtAny] using hd))
    · exact this
    · obtain ⟨y, b, rfl⟩ := List.exists_cons_of_ne_nil hb
      have hy : y ∈ x :: u := by rw [hab]; simp
      have := hall y hy
      simpa [isAtAny] using this
  refine Step.congr h (fun pos col prev out => ?_)
  unfold cmdArgument
  simp only [List.cons_append]
  rw [show argSimple ':' = none from rfl]
  simp only [show (':' = ' ') = False from by decide, show (':' = '\n') = False from by decide, show (':' = '"') = False from by decide, if_false, if_true]
  rw [if_pos (by simpa [isAtAny] using hal)]

/-- The loop over the arguments. -/
abbrev argLoop : Nat → St → Except BaseLexer.Err St := loop inLine .abort cmdArgument

theorem word_head {w : TK × Text} (h : WordOk w) : ∃ c u, w.2 = c :: u ∧ c ≠ ' ' ∧ c ≠ '\n' := by
  rcases h with ⟨-, h1, h2⟩ | ⟨-, n, h1, -⟩
  · obtain ⟨c, u, hc⟩ := List.exists_cons_of_ne_nil h1
    have := argChar_spec (h2 c (by rw [hc]; simp))
    exact ⟨c, u, hc, this.2.1, this.2.2.1⟩
  · exact ⟨':', n, h1, by decide, by decide⟩

theorem words_shut (ws : Words) (gap : Nat) (w : Text) : Shut (wordsText ws ++ (blanks gap ++ '\n' :: w)) := by
  cases ws with
  | nil =>
    cases gap with
    | zero => exact ⟨'\n', w, rfl, .inr rfl⟩
    | succ n => exact ⟨' ', blanks n ++ '\n' :: w, rfl, .inl rfl⟩
  | cons x ws => exact ⟨' ', blanks x.1 ++ (x.2.2 ++ (wordsText ws ++ (blanks gap ++ '\n' :: w))), by simp [wordsText, blanks, List.replicate_succ], .inl rfl⟩

def gapRaw (n : Nat) : Raw := if n = 0 then [] else [(.Whitespace, blanks n)]

theorem steps_words {ws : Words} (h : ∀ w ∈ ws, WordOk w.2) (gap : Nat) (v : Text) :
    Steps argLoop (wordsText ws ++ blanks gap) ('\n' :: v) (wordsRaw ws ++ gapRaw gap) := by
  induction ws with
  | nil =>
    cases gap with
    | zero => exact Steps.nil _ _
    | succ n =>
      show Steps argLoop (blanks (n + 1)) ('\n' :: v) [(TK.Whitespace, blanks (n + 1))]
      exact Steps.arg (step_blanks n (by simp)) (by simp [blanks]) (by simp [blanks, List.replicate_succ]) (by simp [rawText])
  | cons w ws ih =>
    obtain ⟨g, k, t⟩ := w
    have hw := h _ List.mem_cons_self
    obtain ⟨c, u, hc, hs, hn⟩ := word_head hw
    dsimp only at hc
    have ih := ih (fun x hx => h x (List.mem_cons_of_mem _ hx))
    have hsh := words_shut ws gap v
    have h1 : Steps argLoop (blanks (g + 1)) (t ++ (wordsText ws ++ (blanks gap ++ '\n' :: v))) [(.Whitespace, blanks (g + 1))] :=
      Steps.arg (step_blanks g (by rw [hc]; simp [hs])) (by simp [blanks]) (by simp [blanks, List.replicate_succ]) (by simp [rawText])
    have h2 : Steps argLoop t (wordsText ws ++ (blanks gap ++ '\n' :: v)) [(k, t)] := by
      refine Steps.arg ?_ (by rw [hc]; simp) (by rw [hc]; simp [hn]) (by simp [rawText])
      rcases hw with ⟨rfl, h1⟩ | ⟨rfl, n, h1, h2⟩
      · exact step_raw h1 hsh
      · dsimp only at h1
        subst h1
        exact step_ident h2 hsh
    rw [← List.append_assoc] at h2
    have h3 := Steps.append h2 ih
    have h4 := Steps.append (u' := t ++ (wordsText ws ++ blanks gap)) (v := '\n' :: v) (by simpa only [List.append_assoc] using h1) h3
    have e1 : wordsText ((g, k, t) :: ws) ++ blanks gap = blanks (g + 1) ++ (t ++ (wordsText ws ++ blanks gap)) := by
      simp [wordsText]
    have e2 : wordsRaw ((g, k, t) :: ws) ++ gapRaw gap = [(TK.Whitespace, blanks (g + 1))] ++ ([(k, t)] ++ (wordsRaw ws ++ gapRaw gap)) := by
      simp [wordsRaw]
    rw [e1, e2]
    exact h4

theorem headArgs_words {ws : Words} (h : ∀ w ∈ ws, WordOk w.2) (gap : Nat) (v : Text) :
    Step headArgs (wordsText ws ++ blanks gap) ('\n' :: v) (wordsRaw ws ++ gapRaw gap) := by
  intro pos col prev out
  obtain ⟨-, hs⟩ := steps_words h gap v
  obtain ⟨j, c, p, h1, h2⟩ := hs pos col prev out
  refine ⟨c, p, ?_⟩
  unfold headArgs lineLoop
  have hle : j ≤ ((wordsText ws ++ blanks gap) ++ '\n' :: v).length := by rw [List.length_append]; omega
  obtain ⟨k, hk⟩ : ∃ k, ((wordsText ws ++ blanks gap) ++ '\n' :: v).length + 1 = j + (k + 1) := ⟨((wordsText ws ++ blanks gap) ++ '\n' :: v).length - j, by omega⟩
  dsimp only
  rw [hk]
  have h3 := h2 (k + 1)
  unfold argLoop at h3
  rw [h3]
  simp [loop, inLine, isAt]

/-! ## Blocks -/

def Arg.words : Nat → Arg → Words
  | g, .pair n g' v => [(g, .CmdColonIdent, ':' :: n), (g', .CmdRawArg, v)]
  | g, .key n => [(g, .CmdColonIdent, ':' :: n)]
  | g, .word v => [(g, .CmdRawArg, v)]

def langWords : Option (Nat × Text) → Words
  | none => []
  | some (g, l) => [(g, .CmdRawArg, l)]

def argsWords (as : List (Nat × Arg)) : Words := (as.map fun a => a.2.words a.1).flatten

def Block.words (b : Block) : Words := langWords b.lang ++ argsWords b.args

theorem wordsText_append (a b : Words) : wordsText (a ++ b) = wordsText a ++ wordsText b := by simp [wordsText]

theorem words_text (b : Block) : wordsText b.words = langText b.lang ++ argsText b.args := by
  unfold Block.words
  rw [wordsText_append]
  congr 1
  · cases b.lang with
    | none => rfl
    | some l => simp [langWords, wordsText, langText]
  · unfold argsWords argsText
    induction b.args with
    | nil => rfl
    | cons a as ih =>
      obtain ⟨g, a⟩ := a
      rw [List.map_cons, List.flatten_cons, wordsText_append, ih, List.map_cons, List.flatten_cons]
      congr 1
      cases a <;> simp [Arg.words, wordsText, Arg.text]

theorem args_ok {as : List (Nat × Arg)} (h : ArgsValid as) : ∀ w ∈ argsWords as, WordOk w.2 := by
  induction as with
  | nil => intro w hw; cases hw
  | cons a as ih =>
    obtain ⟨g, a⟩ := a
    obtain ⟨h1, -, h2⟩ := h
    intro w hw
    unfold argsWords at hw
    rw [List.map_cons, List.flatten_cons] at hw
    rcases List.mem_append.mp hw with hw | hw
    · cases a with
      | pair n g' v =>
        rcases List.mem_cons.mp hw with rfl | hw
        · exact .inr ⟨rfl, n, rfl, h1.1⟩
        · cases List.mem_singleton.mp hw
          exact .inl ⟨rfl, h1.2⟩
      | key n => cases List.mem_singleton.mp hw; exact .inr ⟨rfl, n, rfl, h1⟩
      | word v => cases List.mem_singleton.mp hw; exact .inl ⟨rfl, h1⟩
    · exact ih h2 w hw

theorem words_ok {b : Block} (h : b.Valid) : ∀ w ∈ b.words, WordOk w.2 := by
  intro w hw
  rcases List.mem_append.mp hw with hw | hw
  · have hl := h.lang
    cases hb : b.lang with
    | none => rw [hb] at hw; cases hw
    | some l =>
      rw [hb] at hw hl
      cases List.mem_singleton.mp hw
      exact .inl ⟨rfl, hl l rfl⟩
  · exact args_ok h.args w hw

def beginWord (upper : Bool) : Text := (if upper then "BEGIN_SRC" else "begin_src").toList

/-- The tokens of a block, without the line breaks after it. -/
def Block.raw (b : Block) : Raw :=
  (if b.indent = 0 then [] else [(.LeadingSpace, blanks b.indent)]) ++ ([(.LineCommand, "#+".toList), (.CmdSrcBegin, beginWord b.upper)] ++
    ((wordsRaw b.words ++ gapRaw b.gap) ++ ([(.Newline, "\n".toList)] ++ (linesRaw b.lines ++ [(.CmdSrcEnd, b.foot)]))))

/-- The text of a block, without the line breaks after it. -/
def Block.body (b : Block) : Text :=
  blanks b.indent ++ ("#+".toList ++ (beginWord b.upper ++ ((wordsText b.words ++ blanks b.gap) ++ ("\n".toList ++ (linesText b.lines ++ b.foot)))))

theorem text_body (b : Block) : b.text = b.body ++ List.replicate b.after '\n' := by
  unfold Block.text Block.body Block.head
  rw [words_text]
  have : (if b.upper = true then "#+BEGIN_SRC" else "#+begin_src").toList = "#+".toList ++ beginWord b.upper := by
    cases b.upper <;> rfl
  rw [this]
  simp only [List.append_assoc]
  rfl

theorem foot_eq (b : Block) : b.foot = blanks b.close ++ footWord b.upper := rfl

theorem step_verbatim {b : Block} (h : b.Valid) (v : Text) : ∀ pos col prev out, ∃ col' prev',
    verbatimBlock "src".toList .CmdSrcEnd srcBlockBody ⟨⟨((wordsText b.words ++ blanks b.gap) ++ ("\n".toList ++ (linesText b.lines ++ b.foot))) ++ v, pos, col, prev⟩, out⟩ =
      .ok ⟨⟨v, pos + ((wordsText b.words ++ blanks b.gap) ++ ("\n".toList ++ (linesText b.lines ++ b.foot))).length, col', prev'⟩,
        out ++ placed pos ((wordsRaw b.words ++ gapRaw b.gap) ++ ([(.Newline, "\n".toList)] ++ (linesRaw b.lines ++ [(.CmdSrcEnd, b.foot)])))⟩ ∧ col' ≠ 0 := by
  intro pos col prev out
  generalize hA : wordsText b.words ++ blanks b.gap = A
  generalize hL : linesText b.lines = L
  have hA' := headArgs_words (words_ok h) b.gap (L ++ (b.foot ++ v))
  rw [hA] at hA'
  obtain ⟨c1, p1, e1⟩ := hA' pos col prev out
  obtain ⟨c2, p2, e2⟩ := Step.adv .Newline "\n".toList (L ++ (b.foot ++ v)) (pos + A.length) c1 p1 (out ++ placed pos (wordsRaw b.words ++ gapRaw b.gap))
  have hraw : rawText (wordsRaw b.words ++ gapRaw b.gap) = A := by
    have := (steps_words (words_ok h) b.gap []).1
    rw [this, hA]
  obtain ⟨hlt, hl⟩ := steps_lines h.lines (b.foot ++ v)
  rw [hL] at hl hlt
  obtain ⟨j, c3, p3, hj, e3⟩ := hl (pos + A.length + 1) c2 p2 (out ++ placed pos (wordsRaw b.words ++ gapRaw b.gap) ++ placed (pos + A.length) [(.Newline, "\n".toList)])
  have hfoot : b.foot.length = b.close + 9 := by
    rw [foot_eq]
    cases b.upper <;> simp [footWord, blanks]
  have hu := unit_adv (k := .CmdSrcEnd) (u := b.foot) (v := v) (by intro he; rw [he] at hfoot; simp at hfoot)
  obtain ⟨c4, p4, e4, hc4⟩ := hu (pos + A.length + 1 + L.length) c3 p3
    (out ++ placed pos (wordsRaw b.words ++ gapRaw b.gap) ++ placed (pos + A.length) [(.Newline, "\n".toList)] ++ placed (pos + A.length + 1) (linesRaw b.lines))
  refine ⟨c4, p4, ?_, ?_⟩
  · unfold verbatimBlock
    have t1 : (A ++ ("\n".toList ++ (L ++ b.foot))) ++ v = A ++ '\n' :: (L ++ (b.foot ++ v)) := by simp
    rw [t1, e1]
    simp only [bind, Except.bind]
    have e2' : tokenAdv TK.Newline 1 ⟨⟨'\n' :: (L ++ (b.foot ++ v)), pos + A.length, c1, p1⟩, out ++ placed pos (wordsRaw b.words ++ gapRaw b.gap)⟩ =
        .ok ⟨⟨L ++ (b.foot ++ v), pos + A.length + 1, c2, p2⟩, out ++ placed pos (wordsRaw b.words ++ gapRaw b.gap) ++ placed (pos + A.length) [(TK.Newline, "\n".toList)]⟩ := e2
    rw [e2']
    dsimp only
    have hlen : (L ++ (b.foot ++ v)).length = L.length + (b.close + 9 + v.length) := by simp [hfoot]
    obtain ⟨k, hk⟩ : ∃ k, (L ++ (b.foot ++ v)).length + 1 = j + (k + 1) := ⟨(L ++ (b.foot ++ v)).length - j, by omega⟩
    rw [hk]
    have e3' := e3 (k + 1)
    unfold srcLoop at e3'
    rw [e3']
    unfold blockLoop
    dsimp only
    rw [foot_eq, end_some]
    dsimp only
    rw [← foot_eq, ← hfoot, e4]
    congr 1
    have l0 : rawText (linesRaw b.lines) = L := hlt
    congr 1
    · congr 1
      simp only [List.length_append]
      show _ = pos + (A.length + (1 + (L.length + b.foot.length)))
      omega
    · rw [placed_append (wordsRaw b.words ++ gapRaw b.gap) ([(TK.Newline, "\n".toList)] ++ (linesRaw b.lines ++ [(TK.CmdSrcEnd, b.foot)])), hraw,
        placed_append [(TK.Newline, "\n".toList)], placed_append (linesRaw b.lines), l0]
      simp only [List.append_assoc]
      rfl
  · intro hz
    have := hc4.mp hz
    rw [foot_eq, List.getLast?_append_of_ne_nil _ (by cases b.upper <;> simp [footWord])] at this
    revert this
    cases b.upper <;> decide

theorem line_command (n : Nat) (r : Text) : lineStart stdLex (blanks n ++ '#' :: '+' :: r) (spaces (blanks n ++ '#' :: '+' :: r)) = .command := by
  rw [spaces_blanks n (by simp)]
  have hd : (blanks n ++ '#' :: '+' :: r).drop n = '#' :: '+' :: r := drop_blanks n 0 _
  have e1 : stdLex .clock ('#' :: '+' :: r) = none := by
    simp only [stdLex, Pat.rx, Rx.run]
    rw [if_neg]
    rw [List.isPrefixOf_iff_prefix]
    intro hp
    exact absurd (List.cons_prefix_cons.mp hp).1 (by decide)
  have e2 : stdLex .colonEnd ('#' :: '+' :: r) = none := by
    simp only [stdLex, Pat.rx, Rx.run]
    rw [if_neg]
    rw [List.isPrefixOf_iff_prefix]
    intro hp
    exact absurd (List.cons_prefix_cons.mp hp).1 (by decide)
  have e3 : stdLex .colonProperties ('#' :: '+' :: r) = none := by
    simp only [stdLex, Pat.rx, Rx.run]
    rw [if_neg]
    rw [List.isPrefixOf_iff_prefix]
    intro hp
    exact absurd (List.cons_prefix_cons.mp hp).1 (by decide)
  have e4 : stdLex .colonLogbook ('#' :: '+' :: r) = none := by
    simp only [stdLex, Pat.rx, Rx.run]
    rw [if_neg]
    rw [List.isPrefixOf_iff_prefix]
    intro hp
    exact absurd (List.cons_prefix_cons.mp hp).1 (by decide)
  have hch : (Rx.ch ':').run ('#' :: '+' :: r) = none := by simp [Rx.ch, Rx.run, List.isPrefixOf]
  have e5 : stdLex .argProperty ('#' :: '+' :: r) = none := by simp only [stdLex, Pat.rx, seqs, Rx.run, hch]
  have e6 : stdLex .textProperty ('#' :: '+' :: r) = none := by simp only [stdLex, Pat.rx, seqs, Rx.run, hch]
  have e7 : stdLex .literalProperty ('#' :: '+' :: r) = none := by simp only [stdLex, Pat.rx, seqs, Rx.run, hch]
  have e8 : stdLex .leadingNumber ('#' :: '+' :: r) = none := by
    simp [stdLex, Pat.rx, seqs, Rx.run, digits, Rx.many1, show isDigit '#' = false from by decide]
  have at0 : ∀ c, c ≠ '#' → isAt (blanks n ++ '#' :: '+' :: r) c n = false := by
    intro c hc
    have := isAt_blanks n 0 ('#' :: '+' :: r) c
    rw [Nat.add_zero] at this
    rw [this]
    simp [isAt, hc.symm]
  have e9 : tableSep (blanks n ++ '#' :: '+' :: r) n = none := by
    unfold tableSep
    rw [at0 '|' (by decide)]
    simp only [Bool.false_eq_true, if_false]
    obtain ⟨k, hk⟩ : ∃ k, (blanks n ++ '#' :: '+' :: r).length = k + 1 := ⟨n + 1 + r.length, by simp [blanks]; omega⟩
    rw [hk]
    unfold tableSepGo
    rw [at0 '-' (by decide)]
    simp
  have g : ∀ ch, ch ≠ '#' → checkLeading (blanks n ++ '#' :: '+' :: r) ch n = false := by
    intro ch hne
    unfold checkLeading
    rw [at0 ch hne]
    rfl
  unfold lineStart
  simp only [g '-' (by decide), g '+' (by decide), g '|' (by decide), g ':' (by decide), e9, hd, e1, e2, e3, e4, e5, e6, e7, e8, Bool.false_eq_true, if_false]
  rw [if_pos]
  unfold isAtStr
  rw [hd]
  simp [List.isPrefixOf]

theorem step_name (upper : Bool) {v : Text} (hv : Shut v) : Step (token .Word advCmdName) (beginWord upper) v [(.Word, beginWord upper)] := by
  obtain ⟨c, w, rfl, hc⟩ := hv
  have hd : (isAlnum c || c = '_') = false := by rcases hc with rfl | rfl <;> decide
  refine Step.token (fun pos col prev => ?_)
  unfold advCmdName
  have h1 : advIdent ⟨beginWord upper ++ c :: w, pos, col, prev⟩ = Cur.adv (beginWord upper).length ⟨beginWord upper ++ c :: w, pos, col, prev⟩ := by
    refine advWhile_eq _ _ (c :: w) rfl (fun a b hab hb => ?_) (.inr (by simpa [isAtAny] using hd))
    obtain ⟨y, b, rfl⟩ := List.exists_cons_of_ne_nil hb
    have hy : y ∈ beginWord upper := by rw [hab]; simp
    have hall : ∀ y ∈ beginWord upper, (isAlnum y || y = '_') = true := by cases upper <;> decide
    simpa [isAtAny] using hall y hy
  have h2 : (Cur.adv (beginWord upper).length ⟨beginWord upper ++ c :: w, pos, col, prev⟩).rest = c :: w := rest_adv _ _ _ rfl
  dsimp only
  rw [h1, h2, if_neg]
  rcases hc with rfl | rfl <;> simp [isAt]

theorem run_block {b : Block} (h : b.Valid) (v : Text) : Run true b.body v false b.raw := by
  have hraw : rawText b.raw = b.body := by
    unfold Block.raw Block.body
    simp only [rawText_append]
    have r1 := (steps_words (words_ok h) b.gap []).1
    rw [rawText_append] at r1
    have r2 := (steps_lines h.lines []).1
    rw [r1, r2]
    congr 1
    · split
      · rename_i h0
        rw [h0]
        rfl
      · simp [rawText]
    · simp [rawText]
  refine ⟨hraw, fun n pos col prev out hcol => ?_⟩
  have hcol : col = 0 := hcol.mpr rfl
  generalize hW : (wordsText b.words ++ blanks b.gap) ++ ("\n".toList ++ (linesText b.lines ++ b.foot)) = W
  have hbody : b.body ++ v = blanks b.indent ++ ('#' :: '+' :: (beginWord b.upper ++ (W ++ v))) := by
    unfold Block.body
    rw [hW]
    simp
  have hshut : Shut (W ++ v) := by
    have := words_shut b.words b.gap ((linesText b.lines ++ b.foot) ++ v)
    rw [← hW]
    have e : wordsText b.words ++ (blanks b.gap ++ '\n' :: (linesText b.lines ++ b.foot ++ v)) =
        wordsText b.words ++ blanks b.gap ++ ("\n".toList ++ (linesText b.lines ++ b.foot)) ++ v := by simp
    rwa [e] at this
  -- the spaces
  obtain ⟨c0, p0, e0⟩ : ∃ c0 p0, leadingSpace b.indent ⟨⟨blanks b.indent ++ ('#' :: '+' :: (beginWord b.upper ++ (W ++ v))), pos, col, prev⟩, out⟩ =
      .ok ⟨⟨'#' :: '+' :: (beginWord b.upper ++ (W ++ v)), pos + b.indent, c0, p0⟩,
        out ++ placed pos (if b.indent = 0 then [] else [(TK.LeadingSpace, blanks b.indent)])⟩ := by
    by_cases hi : b.indent = 0
    · refine ⟨col, prev, ?_⟩
      unfold leadingSpace
      rw [hi]
      simp [blanks, placed]
    · obtain ⟨c, p, hs⟩ := Step.adv .LeadingSpace (blanks b.indent) ('#' :: '+' :: (beginWord b.upper ++ (W ++ v))) pos col prev out
      refine ⟨c, p, ?_⟩
      unfold leadingSpace
      rw [if_pos (by omega), if_neg hi]
      have hlen : (blanks b.indent).length = b.indent := by simp [blanks]
      rw [hlen] at hs
      exact hs
  obtain ⟨c1, p1, e1⟩ := Step.adv .LineCommand "#+".toList (beginWord b.upper ++ (W ++ v)) (pos + b.indent) c0 p0
    (out ++ placed pos (if b.indent = 0 then [] else [(TK.LeadingSpace, blanks b.indent)]))
  obtain ⟨c2, p2, e2⟩ := step_name b.upper hshut (pos + b.indent + 2) c1 p1
    (out ++ placed pos (if b.indent = 0 then [] else [(TK.LeadingSpace, blanks b.indent)]) ++ placed (pos + b.indent) [(.LineCommand, "#+".toList)])
  have hlen2 : (beginWord b.upper).length = 9 := by cases b.upper <;> rfl
  obtain ⟨c3, p3, e3, hc3⟩ := step_verbatim h v (pos + b.indent + 2 + 9) c2 p2
    (out ++ placed pos (if b.indent = 0 then [] else [(TK.LeadingSpace, blanks b.indent)]) ++ placed (pos + b.indent) [(.LineCommand, "#+".toList)] ++
      placed (pos + b.indent + 2) [(.CmdSrcBegin, beginWord b.upper)])
  rw [hW] at e3
  have hstep : switchRegular stdLex (n + 1) ⟨⟨b.body ++ v, pos, col, prev⟩, out⟩ = .ok ⟨⟨v, pos + b.body.length, c3, p3⟩, out ++ placed pos b.raw⟩ := by
    show regularBody stdLex (switchRegular stdLex n) _ = _
    unfold regularBody
    rw [if_pos hcol, hbody]
    dsimp only
    rw [line_command, spaces_blanks _ (by simp)]
    dsimp only
    unfold commandLine
    rw [e0]
    simp only [bind, Except.bind]
    unfold switchCommand
    have e1' : tokenAdv TK.LineCommand 2 ⟨⟨'#' :: '+' :: (beginWord b.upper ++ (W ++ v)), pos + b.indent, c0, p0⟩,
        out ++ placed pos (if b.indent = 0 then [] else [(TK.LeadingSpace, blanks b.indent)])⟩ =
        .ok ⟨⟨beginWord b.upper ++ (W ++ v), pos + b.indent + 2, c1, p1⟩, out ++ placed pos (if b.indent = 0 then [] else [(TK.LeadingSpace, blanks b.indent)]) ++
          placed (pos + b.indent) [(.LineCommand, "#+".toList)]⟩ := e1
    rw [e1']
    simp only [bind, Except.bind]
    rw [e2]
    simp only [placed, List.getLast?_append, List.getLast?_singleton, Option.some_or, List.dropLast_concat]
    have hdis : ∀ (l : Option Nat) (s : St), dispatchCommand stdLex (switchRegular stdLex n) ⟨.Word, beginWord b.upper, l⟩ s =
        verbatimBlock "src".toList .CmdSrcEnd srcBlockBody (push ⟨.Word, beginWord b.upper, l⟩ .CmdSrcBegin s) := by
      intro l s
      have hnorm : normalize (beginWord b.upper) = "beginsrc".toList := by cases b.upper <;> decide
      unfold dispatchCommand
      simp only [hnorm]
      rw [show cmdSpec "beginsrc".toList = none from by decide +kernel]
      dsimp only
      rw [if_neg (by decide), if_pos (by decide)]
      unfold openBlock
      rw [if_neg (by decide), if_neg (by decide), if_pos (by decide)]
    rw [hdis]
    unfold push
    dsimp only
    rw [hlen2]
    simp only [placed] at e3
    rw [e3]
    congr 1
    congr 1
    · congr 1
      unfold Block.body
      rw [hW]
      simp only [List.length_append, hlen2]
      have : (blanks b.indent).length = b.indent := by simp [blanks]
      rw [this]
      show _ = pos + (b.indent + (2 + (9 + W.length)))
      omega
    · unfold Block.raw
      rw [placed_append (if b.indent = 0 then [] else [(TK.LeadingSpace, blanks b.indent)]), placed_append [(TK.LineCommand, "#+".toList), (TK.CmdSrcBegin, beginWord b.upper)]]
      have : rawText (if b.indent = 0 then [] else [(TK.LeadingSpace, blanks b.indent)]) = blanks b.indent := by
        split
        · rename_i h0
          rw [h0]; rfl
        · simp [rawText]
      rw [this]
      have h2 : rawText [(TK.LineCommand, "#+".toList), (TK.CmdSrcBegin, beginWord b.upper)] = "#+".toList ++ beginWord b.upper := by simp [rawText]
      rw [h2, List.length_append, hlen2, show (blanks b.indent).length = b.indent from by simp [blanks]]
      simp only [List.append_assoc, Nat.add_assoc, placed]
      rfl
  have hpos : b.body.length ≠ 0 := by
    have := congrArg List.length hbody
    intro h0
    have h1 : b.body = [] := List.eq_nil_of_length_eq_zero h0
    unfold Block.body at h1
    simp at h1
  refine ⟨1, c3, p3, by omega, by simp [hc3], fun k => ?_⟩
  rw [Nat.add_comm 1 k]
  conv_lhs => unfold loop
  rw [if_pos, hstep]
  · dsimp only
    rw [if_neg (by omega)]
  · rw [hbody]
    cases b.indent <;> rfl

/-! ## Documents -/

def breakKind : Nat → TK
  | 0 => .Newline
  | 1 => .MediumNewline
  | _ => .LongNewline

def afterRaw : Nat → Raw
  | 0 => []
  | n + 1 => [(breakKind n, List.replicate (n + 1) '\n')]

def docRaw (d : List Block) : Raw := (d.map fun b => b.raw ++ afterRaw b.after).flatten

theorem newlineRun_break (n k : Nat) {v : Text} (hv : v.head? ≠ some '\n' ∧ v.head? ≠ some ' ') :
    newlineRun (List.replicate (n + 1) '\n' ++ (blanks k ++ v)) 0 = (n + 1, n + 1) := by
  induction n with
  | zero =>
    show newlineRun ('\n' :: (blanks k ++ v)) 0 = _
    simp only [newlineRun]
    have := isAt_blanks k 0 v '\n'
    rw [Nat.add_zero] at this
    rw [spaces_blanks k hv.2, this, if_neg]
    simp only [isAt, decide_eq_true_eq, ← List.head?_eq_getElem?]
    exact hv.1
  | succ n ih =>
    rw [List.replicate_succ, List.cons_append]
    simp only [newlineRun]
    have h1 : spaces (List.replicate (n + 1) '\n' ++ (blanks k ++ v)) = 0 := by simp [spaces, List.replicate_succ]
    rw [h1, if_pos (by simp [isAt, List.replicate_succ]), ih]

theorem unit_break (n k : Nat) {v : Text} (hv : v.head? ≠ some '\n' ∧ v.head? ≠ some ' ') :
    Unit1 (List.replicate (n + 1) '\n') (blanks k ++ v) [(breakKind n, List.replicate (n + 1) '\n')] (charSwitch stdLex) := by
  have h := unit_adv (k := breakKind n) (u := List.replicate (n + 1) '\n') (v := blanks k ++ v) (by simp)
  refine Stamp.unit_congr h (fun pos col prev out => ?_)
  have hsw : charSwitch stdLex ⟨⟨List.replicate (n + 1) '\n' ++ (blanks k ++ v), pos, col, prev⟩, out⟩ =
      caseNewline ⟨⟨List.replicate (n + 1) '\n' ++ (blanks k ++ v), pos, col, prev⟩, out⟩ := by
    simp only [List.replicate_succ, List.cons_append]
    rfl
  rw [hsw]
  unfold caseNewline
  simp only [newlineRun_break n k hv, List.length_replicate]
  match n with
  | 0 => rfl
  | 1 => rfl
  | n + 2 => simp [breakKind]

theorem render_cons (b : Block) (d : List Block) : render (b :: d) = b.text ++ render d := rfl

theorem render_start (d : List Block) : ∃ k v, render d = blanks k ++ v ∧ v.head? ≠ some '\n' ∧ v.head? ≠ some ' ' := by
  cases d with
  | nil => exact ⟨0, [], rfl, by simp, by simp⟩
  | cons b d =>
    refine ⟨b.indent, "#+".toList ++ (beginWord b.upper ++ ((wordsText b.words ++ blanks b.gap) ++ ("\n".toList ++ (linesText b.lines ++ b.foot)))) ++
        (List.replicate b.after '\n' ++ render d), ?_, ?_, ?_⟩
    · rw [render_cons, text_body, Block.body]
      simp only [List.append_assoc]
    · simp
    · simp

theorem run_doc {d : List Block} (h : DocValid d) : ∃ b', Run true (render d) [] b' (docRaw d) := by
  induction d with
  | nil => exact ⟨true, Run.nil _ _⟩
  | cons b d ih =>
    obtain ⟨h1, h2, h3⟩ := h
    obtain ⟨b', hr⟩ := ih h3
    have e : render (b :: d) = b.body ++ (List.replicate b.after '\n' ++ render d) := by rw [render_cons, text_body, List.append_assoc]
    have e' : docRaw (b :: d) = b.raw ++ (afterRaw b.after ++ docRaw d) := by simp [docRaw]
    rw [e, e']
    cases ha : b.after with
    | zero =>
      have hd : d = [] := by
        by_contra hd
        have := h2 hd
        omega
      subst hd
      exact ⟨false, Run.append (run_block h1 _) (Run.nil _ _)⟩
    | succ n =>
      obtain ⟨k, v, hk, hv⟩ := render_start d
      have hu := unit_break n k hv
      rw [← hk] at hu
      have hb := Stamp.Run.unit (b := false) hu (by simp) (by simp [rawText]) (by simp)
      rw [show decide ((List.replicate (n + 1) '\n').getLast? = some '\n') = true from by simp [List.getLast?_replicate]] at hb
      refine ⟨b', Run.append (run_block h1 _) ?_⟩
      exact Run.append (by rw [List.append_nil]; exact hb) hr

theorem doc_lexed {d : List Block} (h : DocValid d) : tokenize stdLex (render d) = .ok (placed 0 (docRaw d)) := by
  obtain ⟨b', -, hr⟩ := run_doc h
  obtain ⟨j, col', prev', h1, -, h3⟩ := hr (render d).length 0 0 none [] (by simp)
  have := h3 ((render d).length + 1 - j)
  rw [show j + ((render d).length + 1 - j) = (render d).length + 1 by omega, List.append_nil] at this
  unfold tokenize tokenizeSt
  rw [this]
  obtain ⟨k, hk⟩ : ∃ k, (render d).length + 1 - j = k + 1 := ⟨(render d).length - j, by omega⟩
  rw [hk]
  simp [loop]

end Verif.Code
