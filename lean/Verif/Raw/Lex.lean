import Verif.Raw.Spec
import Verif.Code.LexDoc

/-!
# Lexing of example and export blocks
-/

namespace Verif.Raw
open Verif.Token Verif.BaseLexer Verif.Pipeline
open Verif.Stamp (Raw placed placed_append rawText Unit1 unit_token unit_adv Run)
open Verif.Drawer (Text)
open Verif.Code (blanks sameText ArgText Step Steps Words WordOk Shut wordsText wordsRaw gapRaw afterRaw breakKind spaces_blanks spaces_zero end_shift
  isIat_before exists_blanks rawText_append steps_words headArgs_words words_shut line_command unit_break)

/-! ## The end of a block -/

/-- A text which does not end the block. -/
theorem end_none {name : Text} (hname : ∀ x ∈ name, toLower x ≠ toLower '\n') {t : Text} (h : ¬ Ends name t) (w : Text) :
    endBlockOffset name (t ++ '\n' :: w) = .ok none := by
  obtain ⟨n, t, rfl, ht⟩ := exists_blanks t
  have hh : (t ++ '\n' :: w).head? ≠ some ' ' := by
    cases t with
    | nil => simp
    | cons x t => simpa using ht
  rw [List.append_assoc, end_shift _ _ hh]
  suffices hg : endBlockOffset name (t ++ '\n' :: w) = .ok none by rw [hg]; rfl
  unfold endBlockOffset
  rw [spaces_zero hh]
  simp only [Nat.zero_add]
  cases t with
  | nil => simp [isAt, pure, Except.pure]
  | cons x t =>
    by_cases hx : x = '#'
    swap
    · simp [isAt, hx, pure, Except.pure]
    subst hx
    cases t with
    | nil => simp [isAt, pure, Except.pure]
    | cons y t =>
      by_cases hy : y = '+'
      swap
      · simp [isAt, hy, pure, Except.pure]
      subst hy
      simp only [List.cons_append, isAt, List.getElem?_cons_zero, decide_true, Bool.not_true, Bool.false_eq_true, if_false, List.getElem?_cons_succ,
        List.drop_succ_cons, List.drop_zero]
      rcases isIat_before (c := '\n') w (pat := "end".toList) (by decide) t with ⟨u, v, rfl, h2, h3⟩ | h3
      swap
      · rw [h3]; rfl
      rw [h3]
      simp only [bind, Except.bind, Bool.not_true, Bool.false_eq_true, if_false]
      have hu : u.length = 3 := by
        have := congrArg List.length h2
        simpa using this
      obtain ⟨a, b, d, rfl⟩ : ∃ a b d, u = [a, b, d] := by
        match u, hu with
        | [a, b, d], _ => exact ⟨a, b, d, rfl⟩
      simp only [List.cons_append, List.nil_append, List.getElem?_cons_succ]
      have hpat : ∀ v, (∃ u' v', v = u' ++ v' ∧ sameText u' name ∧ isIat (v ++ '\n' :: w) name = .ok true) ∨
          isIat (v ++ '\n' :: w) name = .ok false := fun v => isIat_before w hname v
      by_cases hv : v.head? = some '_'
      · obtain ⟨v, rfl⟩ : ∃ v', v = '_' :: v' := by
          cases v with
          | nil => cases hv
          | cons z v => simp at hv; exact ⟨v, by rw [hv]⟩
        simp only [List.cons_append, List.getElem?_cons_zero, decide_true, if_true, List.drop_succ_cons, List.drop_zero]
        rcases hpat v with ⟨u', v', rfl, h5, -⟩ | h5
        · exfalso
          refine h ⟨n, ['#', '+', a, b, d, '_'] ++ u', v', by simp [blanks], .inl ?_⟩
          unfold sameText at *
          rw [List.map_append, List.map_append, h5]
          have : [a, b, d].map toLower = ['e', 'n', 'd'] := h2.trans (by decide)
          simp only [List.map_cons, List.map_nil, List.cons.injEq, and_true] at this
          simp only [List.map_cons, List.map_nil, this]
          congr 1
        · rw [h5]; rfl
      · have hd : decide ((v ++ '\n' :: w)[0]? = some '_') = false := by
          cases v with
          | nil => simp
          | cons z v => simpa using hv
        simp only [hd, Bool.false_eq_true, if_false, List.drop_succ_cons, List.drop_zero]
        rcases hpat v with ⟨u', v', rfl, h5, -⟩ | h5
        · exfalso
          refine h ⟨n, ['#', '+', a, b, d] ++ u', v', by simp [blanks], .inr ?_⟩
          unfold sameText at *
          rw [List.map_append, List.map_append, h5]
          have : [a, b, d].map toLower = ['e', 'n', 'd'] := h2.trans (by decide)
          simp only [List.map_cons, List.map_nil, List.cons.injEq, and_true] at this
          simp only [List.map_cons, List.map_nil, this]
          congr 1
        · rw [h5]; rfl

def footWord (k : Kind) (upper : Bool) : Text := if upper then "#+END_".toList ++ k.capital else "#+end_".toList ++ k.word

theorem footWord_cases (k : Kind) (upper : Bool) :
    footWord k upper = "#+END_EXAMPLE".toList ∨ footWord k upper = "#+end_example".toList ∨
    footWord k upper = "#+END_EXPORT".toList ∨ footWord k upper = "#+end_export".toList := by
  cases k <;> cases upper <;> simp [footWord, Kind.capital, Kind.word]

theorem isIat_self (a b w : Text) (h : sameText a b) : isIat (a ++ w) b = .ok true := by
  induction b generalizing a with
  | nil =>
    have : a = [] := by simpa [sameText] using h
    subst this
    cases w <;> rfl
  | cons x b ih =>
    cases a with
    | nil => simp [sameText] at h
    | cons y a =>
      unfold sameText at h ih
      rw [List.map_cons, List.map_cons, List.cons.injEq] at h
      simp [isIat, h.1, ih a h.2]

theorem end_some (k : Kind) (upper : Bool) (n : Nat) (w : Text) :
    endBlockOffset k.word (blanks n ++ footWord k upper ++ w) = .ok (some (n + (footWord k upper).length)) := by
  obtain ⟨u, hu, hs, hl⟩ : ∃ u, footWord k upper = '#' :: '+' :: ((if upper then "END".toList else "end".toList) ++ '_' :: u) ∧ sameText u k.word ∧
      u.length = k.word.length := by
    cases upper
    · exact ⟨k.word, by cases k <;> rfl, rfl, rfl⟩
    · exact ⟨k.capital, by cases k <;> rfl, by cases k <;> (unfold sameText; dsimp only [Kind.word, Kind.capital]; decide), by cases k <;> rfl⟩
  rw [List.append_assoc, end_shift]
  · have h : endBlockOffset k.word (footWord k upper ++ w) = .ok (some (footWord k upper).length) := by
      unfold endBlockOffset
      rw [hu]
      rw [spaces_zero (by simp)]
      have h1 : ∀ v, isIat (((if upper then "END".toList else "end".toList) ++ '_' :: u) ++ v) "end".toList = .ok true := by
        intro v
        rw [List.append_assoc]
        exact isIat_self _ _ _ (by cases upper <;> (unfold sameText; decide))
      have h2 : (if upper then "END".toList else "end".toList).length = 3 := by cases upper <;> rfl
      obtain ⟨x, y, z, hxyz⟩ : ∃ x y z, (if upper then "END".toList else "end".toList) = [x, y, z] := by cases upper <;> exact ⟨_, _, _, rfl⟩
      have h3 := isIat_self u k.word w hs
      simp only [List.cons_append, isAt, Nat.zero_add, List.getElem?_cons_zero, decide_true, Bool.not_true, Bool.false_eq_true, if_false, List.getElem?_cons_succ,
        List.drop_succ_cons, List.drop_zero, h1, bind, Except.bind]
      rw [hxyz]
      simp [h3, pure, Except.pure, hl]
      omega
    rw [h]
    rfl
  · rw [hu]; simp

/-! ## Lines -/

def Kind.lineTok : Kind → TK
  | .sample => .CmdExampleLine
  | .foreign _ _ => .CmdExportLine

def Kind.beginTok : Kind → TK
  | .sample => .CmdExampleBegin
  | .foreign _ _ => .CmdExportBegin

def Kind.endTok : Kind → TK
  | .sample => .CmdExampleEnd
  | .foreign _ _ => .CmdExportEnd

theorem word_low (k : Kind) : ∀ x ∈ k.word, toLower x ≠ toLower '\n' := by cases k <;> (dsimp only [Kind.word]; decide)

/-- The loop over the lines of a block. -/
abbrev rawLoop (k : Kind) : Nat → St → Except BaseLexer.Err St := blockLoop k.word k.endTok (rawBlockBody k.lineTok)

theorem step_line {k : TK} {t : Text} (h : '\n' ∉ t) (w : Text) : Step (token k advLine) t ('\n' :: w) [(k, t)] := by
  refine Step.token (fun pos col prev => advWhile_eq t _ ('\n' :: w) rfl (fun a b hab hb => ?_) (.inr (by simp [isAt])))
  obtain ⟨x, b, rfl⟩ := List.exists_cons_of_ne_nil hb
  have hx : x ≠ '\n' := by
    rintro rfl
    exact h (by rw [hab]; simp)
  simp [isAt, hx]

def linesText (ls : List Text) : Text := (ls.map fun l => l ++ "\n".toList).flatten

def linesRaw (k : Kind) (ls : List Text) : Raw := (ls.map fun l => [(k.lineTok, l), (TK.Newline, "\n".toList)]).flatten

theorem steps_lines {k : Kind} {ls : List Text} (h : ∀ l ∈ ls, '\n' ∉ l ∧ ¬ Ends k.word l) (w : Text) : Steps (rawLoop k) (linesText ls) w (linesRaw k ls) := by
  induction ls with
  | nil => exact Steps.nil _ _
  | cons l ls ih =>
    obtain ⟨h1, h2⟩ := h l List.mem_cons_self
    have s1 := Step.bind (v := linesText ls ++ w) (by simp [rawText]) (step_line (k := k.lineTok) h1 (linesText ls ++ w)) (Code.step_newline (linesText ls ++ w))
    have s2 : Steps (rawLoop k) (l ++ "\n".toList) (linesText ls ++ w) ([(k.lineTok, l)] ++ [(TK.Newline, "\n".toList)]) :=
      Steps.block s1 (by simp) (by rw [List.append_assoc]; exact end_none (word_low k) h2 _) (by simp [rawText])
    exact Steps.append s2 (ih (fun x hx => h x (List.mem_cons_of_mem _ hx)))

/-! ## Blocks -/

def Kind.words : Kind → Words
  | .sample => []
  | .foreign g e => [(g, .CmdRawArg, e)]

theorem words_text (k : Kind) : wordsText k.words = k.tail := by
  cases k with
  | sample => rfl
  | foreign g e => simp [Kind.words, wordsText, Kind.tail]

theorem words_ok {b : Block} (h : b.Valid) : ∀ w ∈ b.kind.words, WordOk w.2 := by
  intro w hw
  cases hk : b.kind with
  | sample => rw [hk] at hw; cases hw
  | foreign g e =>
    rw [hk] at hw
    cases List.mem_singleton.mp hw
    exact .inl ⟨rfl, h.exporter g e hk⟩

def beginWord (k : Kind) (upper : Bool) : Text := if upper then "BEGIN_".toList ++ k.capital else "begin_".toList ++ k.word

/-- The text of the arguments and lines of a block. -/
def Block.inner (b : Block) : Text := (wordsText b.kind.words ++ blanks b.gap) ++ ("\n".toList ++ (linesText b.lines ++ b.last))

def Block.innerRaw (b : Block) : Raw :=
  (wordsRaw b.kind.words ++ gapRaw b.gap) ++ ([(.Newline, "\n".toList)] ++ (linesRaw b.kind b.lines ++ [(b.kind.endTok, b.last)]))

/-- The tokens of a block, without the line breaks after it. -/
def Block.raw (b : Block) : Raw :=
  (if b.indent = 0 then [] else [(.LeadingSpace, blanks b.indent)]) ++
    ([(.LineCommand, "#+".toList), (b.kind.beginTok, beginWord b.kind b.upper)] ++ b.innerRaw)

/-- The text of a block, without the line breaks after it. -/
def Block.body (b : Block) : Text := blanks b.indent ++ ("#+".toList ++ (beginWord b.kind b.upper ++ b.inner))

theorem text_body (b : Block) : b.text = b.body ++ List.replicate b.after '\n' := by
  unfold Block.text Block.body Block.first Block.inner
  rw [words_text]
  have : (if b.upper = true then "#+BEGIN_".toList ++ b.kind.capital else "#+begin_".toList ++ b.kind.word) = "#+".toList ++ beginWord b.kind b.upper := by
    cases b.upper <;> rfl
  rw [this]
  simp only [List.append_assoc]
  rfl

theorem last_eq (b : Block) : b.last = blanks b.close ++ footWord b.kind b.upper := rfl

theorem foot_end (k : Kind) (upper : Bool) : (footWord k upper).getLast? ≠ some '\n' ∧ footWord k upper ≠ [] := by
  rcases footWord_cases k upper with h | h | h | h <;> rw [h] <;> decide

theorem step_verbatim {b : Block} (h : b.Valid) (v : Text) : ∀ pos col prev out, ∃ col' prev',
    verbatimBlock b.kind.word b.kind.endTok (rawBlockBody b.kind.lineTok) ⟨⟨b.inner ++ v, pos, col, prev⟩, out⟩ =
      .ok ⟨⟨v, pos + b.inner.length, col', prev'⟩, out ++ placed pos b.innerRaw⟩ ∧ col' ≠ 0 := by
  intro pos col prev out
  unfold Block.inner Block.innerRaw
  generalize hA : wordsText b.kind.words ++ blanks b.gap = A
  generalize hL : linesText b.lines = L
  have hA' := headArgs_words (words_ok h) b.gap (L ++ (b.last ++ v))
  rw [hA] at hA'
  obtain ⟨c1, p1, e1⟩ := hA' pos col prev out
  obtain ⟨c2, p2, e2⟩ := Step.adv .Newline "\n".toList (L ++ (b.last ++ v)) (pos + A.length) c1 p1 (out ++ placed pos (wordsRaw b.kind.words ++ gapRaw b.gap))
  have hraw : rawText (wordsRaw b.kind.words ++ gapRaw b.gap) = A := by
    have := (steps_words (words_ok h) b.gap []).1
    rw [this, hA]
  obtain ⟨hlt, hl⟩ := steps_lines h.lines (b.last ++ v)
  rw [hL] at hl hlt
  obtain ⟨j, c3, p3, hj, e3⟩ := hl (pos + A.length + 1) c2 p2 (out ++ placed pos (wordsRaw b.kind.words ++ gapRaw b.gap) ++ placed (pos + A.length) [(.Newline, "\n".toList)])
  have hfoot : b.last.length = b.close + (footWord b.kind b.upper).length := by
    rw [last_eq]
    simp [blanks]
  have hu := unit_adv (k := b.kind.endTok) (u := b.last) (v := v) (by rw [last_eq]; simp [(foot_end _ _).2])
  obtain ⟨c4, p4, e4, hc4⟩ := hu (pos + A.length + 1 + L.length) c3 p3
    (out ++ placed pos (wordsRaw b.kind.words ++ gapRaw b.gap) ++ placed (pos + A.length) [(.Newline, "\n".toList)] ++ placed (pos + A.length + 1) (linesRaw b.kind b.lines))
  refine ⟨c4, p4, ?_, ?_⟩
  · unfold verbatimBlock
    have t1 : (A ++ ("\n".toList ++ (L ++ b.last))) ++ v = A ++ '\n' :: (L ++ (b.last ++ v)) := by simp
    rw [t1, e1]
    simp only [bind, Except.bind]
    have e2' : tokenAdv TK.Newline 1 ⟨⟨'\n' :: (L ++ (b.last ++ v)), pos + A.length, c1, p1⟩, out ++ placed pos (wordsRaw b.kind.words ++ gapRaw b.gap)⟩ =
        .ok ⟨⟨L ++ (b.last ++ v), pos + A.length + 1, c2, p2⟩, out ++ placed pos (wordsRaw b.kind.words ++ gapRaw b.gap) ++ placed (pos + A.length) [(TK.Newline, "\n".toList)]⟩ := e2
    rw [e2']
    dsimp only
    have hlen : (L ++ (b.last ++ v)).length = L.length + (b.last.length + v.length) := by simp
    obtain ⟨k, hk⟩ : ∃ k, (L ++ (b.last ++ v)).length + 1 = j + (k + 1) := ⟨(L ++ (b.last ++ v)).length - j, by omega⟩
    rw [hk]
    have e3' := e3 (k + 1)
    unfold rawLoop at e3'
    rw [e3']
    unfold blockLoop
    dsimp only
    rw [last_eq, end_some]
    dsimp only
    rw [← last_eq, ← hfoot, e4]
    congr 1
    have l0 : rawText (linesRaw b.kind b.lines) = L := hlt
    congr 1
    · congr 1
      simp only [List.length_append]
      show _ = pos + (A.length + (1 + (L.length + b.last.length)))
      omega
    · rw [placed_append (wordsRaw b.kind.words ++ gapRaw b.gap) ([(TK.Newline, "\n".toList)] ++ (linesRaw b.kind b.lines ++ [(b.kind.endTok, b.last)])), hraw,
        placed_append [(TK.Newline, "\n".toList)], placed_append (linesRaw b.kind b.lines), l0]
      simp only [List.append_assoc]
      rfl
  · intro hz
    have := hc4.mp hz
    rw [last_eq, List.getLast?_append_of_ne_nil _ (foot_end _ _).2] at this
    exact (foot_end _ _).1 this

theorem step_name (kd : Kind) (upper : Bool) {v : Text} (hv : Shut v) : Step (token .Word advCmdName) (beginWord kd upper) v [(.Word, beginWord kd upper)] := by
  obtain ⟨c, w, rfl, hc⟩ := hv
  have hd : (isAlnum c || c = '_') = false := by rcases hc with rfl | rfl <;> decide
  refine Step.token (fun pos col prev => ?_)
  unfold advCmdName
  have h1 : advIdent ⟨beginWord kd upper ++ c :: w, pos, col, prev⟩ = Cur.adv (beginWord kd upper).length ⟨beginWord kd upper ++ c :: w, pos, col, prev⟩ := by
    refine advWhile_eq _ _ (c :: w) rfl (fun a b hab hb => ?_) (.inr (by simpa [isAtAny] using hd))
    obtain ⟨y, b, rfl⟩ := List.exists_cons_of_ne_nil hb
    have hy : y ∈ beginWord kd upper := by rw [hab]; simp
    have hall : ∀ y ∈ beginWord kd upper, (isAlnum y || y = '_') = true := by
      cases kd <;> cases upper <;> (dsimp only [beginWord, Kind.capital, Kind.word]; decide)
    simpa [isAtAny] using hall y hy
  have h2 : (Cur.adv (beginWord kd upper).length ⟨beginWord kd upper ++ c :: w, pos, col, prev⟩).rest = c :: w := rest_adv _ _ _ rfl
  dsimp only
  rw [h1, h2, if_neg]
  rcases hc with rfl | rfl <;> simp [isAt]

theorem dispatch (kd : Kind) (upper : Bool) (f : St → Except BaseLexer.Err St) (l : Option Nat) (s : St) :
    dispatchCommand stdLex f ⟨.Word, beginWord kd upper, l⟩ s =
      verbatimBlock kd.word kd.endTok (rawBlockBody kd.lineTok) (push ⟨.Word, beginWord kd upper, l⟩ kd.beginTok s) := by
  have hnorm : normalize (beginWord kd upper) = "begin".toList ++ kd.word := by
    cases kd <;> cases upper <;> (dsimp only [beginWord, Kind.capital, Kind.word]; decide)
  unfold dispatchCommand
  simp only [hnorm]
  cases kd with
  | sample =>
    rw [show cmdSpec ("begin".toList ++ Kind.word .sample) = none from by dsimp only [Kind.word]; decide +kernel]
    dsimp only
    rw [if_neg (by dsimp only [Kind.word]; decide), if_pos (by dsimp only [Kind.word]; decide)]
    unfold openBlock
    rw [if_neg (by dsimp only [Kind.word]; decide), if_pos (by dsimp only [Kind.word]; decide)]
    rfl
  | foreign g e =>
    rw [show cmdSpec ("begin".toList ++ Kind.word (.foreign g e)) = none from by dsimp only [Kind.word]; decide +kernel]
    dsimp only
    rw [if_neg (by dsimp only [Kind.word]; decide), if_pos (by dsimp only [Kind.word]; decide)]
    unfold openBlock
    rw [if_pos (by dsimp only [Kind.word]; decide)]
    rfl

theorem inner_shut (b : Block) (v : Text) : Shut (b.inner ++ v) := by
  have := words_shut b.kind.words b.gap ((linesText b.lines ++ b.last) ++ v)
  have e : wordsText b.kind.words ++ (blanks b.gap ++ '\n' :: (linesText b.lines ++ b.last ++ v)) =
      wordsText b.kind.words ++ blanks b.gap ++ ("\n".toList ++ (linesText b.lines ++ b.last)) ++ v := by simp
  rwa [e] at this

theorem run_block {b : Block} (h : b.Valid) (v : Text) : Run true b.body v false b.raw := by
  have hraw : rawText b.raw = b.body := by
    unfold Block.raw Block.body Block.inner Block.innerRaw
    simp only [rawText_append]
    have r1 := (steps_words (words_ok h) b.gap []).1
    rw [rawText_append] at r1
    have r2 := (steps_lines h.lines []).1
    rw [r1, r2]
    congr 1
    · split
      · rename_i h0
        rw [h0]
        rfl
      · simp [rawText]
    · simp [rawText]
  refine ⟨hraw, fun n pos col prev out hcol => ?_⟩
  have hcol : col = 0 := hcol.mpr rfl
  have hshut := inner_shut b v
  have hver := step_verbatim h v
  have hdis := dispatch b.kind b.upper (switchRegular stdLex n)
  have hname := fun v hv => step_name b.kind b.upper (v := v) hv
  unfold Block.raw Block.body
  generalize b.inner = W at *
  generalize b.innerRaw = R at *
  generalize beginWord b.kind b.upper = B at *
  have hbody : (blanks b.indent ++ ("#+".toList ++ (B ++ W))) ++ v = blanks b.indent ++ ('#' :: '+' :: (B ++ (W ++ v))) := by simp
  -- the spaces
  obtain ⟨c0, p0, e0⟩ : ∃ c0 p0, leadingSpace b.indent ⟨⟨blanks b.indent ++ ('#' :: '+' :: (B ++ (W ++ v))), pos, col, prev⟩, out⟩ =
      .ok ⟨⟨'#' :: '+' :: (B ++ (W ++ v)), pos + b.indent, c0, p0⟩,
        out ++ placed pos (if b.indent = 0 then [] else [(TK.LeadingSpace, blanks b.indent)])⟩ := by
    by_cases hi : b.indent = 0
    · refine ⟨col, prev, ?_⟩
      unfold leadingSpace
      rw [hi]
      simp [blanks, placed]
    · obtain ⟨c, p, hs⟩ := Step.adv .LeadingSpace (blanks b.indent) ('#' :: '+' :: (B ++ (W ++ v))) pos col prev out
      refine ⟨c, p, ?_⟩
      unfold leadingSpace
      rw [if_pos (by omega), if_neg hi]
      have hlen : (blanks b.indent).length = b.indent := by simp [blanks]
      rw [hlen] at hs
      exact hs
  obtain ⟨c1, p1, e1⟩ := Step.adv .LineCommand "#+".toList (B ++ (W ++ v)) (pos + b.indent) c0 p0
    (out ++ placed pos (if b.indent = 0 then [] else [(TK.LeadingSpace, blanks b.indent)]))
  obtain ⟨c2, p2, e2⟩ := hname _ hshut (pos + b.indent + 2) c1 p1
    (out ++ placed pos (if b.indent = 0 then [] else [(TK.LeadingSpace, blanks b.indent)]) ++ placed (pos + b.indent) [(.LineCommand, "#+".toList)])
  obtain ⟨c3, p3, e3, hc3⟩ := hver (pos + b.indent + 2 + B.length) c2 p2
    (out ++ placed pos (if b.indent = 0 then [] else [(TK.LeadingSpace, blanks b.indent)]) ++ placed (pos + b.indent) [(.LineCommand, "#+".toList)] ++
      placed (pos + b.indent + 2) [(b.kind.beginTok, B)])
  have hstep : switchRegular stdLex (n + 1) ⟨⟨(blanks b.indent ++ ("#+".toList ++ (B ++ W))) ++ v, pos, col, prev⟩, out⟩ =
      .ok ⟨⟨v, pos + (blanks b.indent ++ ("#+".toList ++ (B ++ W))).length, c3, p3⟩, out ++ placed pos ((if b.indent = 0 then [] else [(.LeadingSpace, blanks b.indent)]) ++
    ([(.LineCommand, "#+".toList), (b.kind.beginTok, B)] ++ R))⟩ := by
    show regularBody stdLex (switchRegular stdLex n) _ = _
    unfold regularBody
    rw [if_pos hcol, hbody]
    dsimp only
    rw [line_command, spaces_blanks _ (by simp)]
    dsimp only
    unfold commandLine
    rw [e0]
    simp only [bind, Except.bind]
    unfold switchCommand
    have e1' : tokenAdv TK.LineCommand 2 ⟨⟨'#' :: '+' :: (B ++ (W ++ v)), pos + b.indent, c0, p0⟩,
        out ++ placed pos (if b.indent = 0 then [] else [(TK.LeadingSpace, blanks b.indent)])⟩ =
        .ok ⟨⟨B ++ (W ++ v), pos + b.indent + 2, c1, p1⟩, out ++ placed pos (if b.indent = 0 then [] else [(TK.LeadingSpace, blanks b.indent)]) ++
          placed (pos + b.indent) [(.LineCommand, "#+".toList)]⟩ := e1
    rw [e1']
    simp only [bind, Except.bind]
    rw [e2]
    simp only [placed, List.getLast?_append, List.getLast?_singleton, Option.some_or, List.dropLast_concat]
    rw [hdis]
    unfold push
    dsimp only
    simp only [placed] at e3
    rw [e3]
    congr 1
    congr 1
    · congr 1
      simp only [List.length_append]
      have : (blanks b.indent).length = b.indent := by simp [blanks]
      rw [this]
      show _ = pos + (b.indent + (2 + (B.length + W.length)))
      omega
    · rw [placed_append (if b.indent = 0 then [] else [(TK.LeadingSpace, blanks b.indent)]), placed_append [(TK.LineCommand, "#+".toList), (b.kind.beginTok, B)]]
      have : rawText (if b.indent = 0 then [] else [(TK.LeadingSpace, blanks b.indent)]) = blanks b.indent := by
        split
        · rename_i h0
          rw [h0]; rfl
        · simp [rawText]
      rw [this]
      have h2 : rawText [(TK.LineCommand, "#+".toList), (b.kind.beginTok, B)] = "#+".toList ++ B := by simp [rawText]
      rw [h2, List.length_append, show (blanks b.indent).length = b.indent from by simp [blanks]]
      simp only [List.append_assoc, Nat.add_assoc, placed]
      rfl
  have hpos : (blanks b.indent ++ ("#+".toList ++ (B ++ W))).length ≠ 0 := by simp
  refine ⟨1, c3, p3, by omega, by simp [hc3], fun k => ?_⟩
  rw [Nat.add_comm 1 k]
  conv_lhs => unfold loop
  rw [if_pos, hstep]
  · dsimp only
    rw [if_neg (by omega)]
  · rw [hbody]
    cases b.indent <;> rfl

/-! ## Documents -/

def docRaw (d : List Block) : Raw := (d.map fun b => b.raw ++ afterRaw b.after).flatten

theorem render_cons (b : Block) (d : List Block) : render (b :: d) = b.text ++ render d := rfl

theorem render_start (d : List Block) : ∃ k v, render d = blanks k ++ v ∧ v.head? ≠ some '\n' ∧ v.head? ≠ some ' ' := by
  cases d with
  | nil => exact ⟨0, [], rfl, by simp, by simp⟩
  | cons b d =>
    refine ⟨b.indent, "#+".toList ++ (beginWord b.kind b.upper ++ b.inner) ++ (List.replicate b.after '\n' ++ render d), ?_, ?_, ?_⟩
    · rw [render_cons, text_body, Block.body]
      simp only [List.append_assoc]
    · simp
    · simp

theorem run_doc {d : List Block} (h : DocValid d) : ∃ b', Run true (render d) [] b' (docRaw d) := by
  induction d with
  | nil => exact ⟨true, Run.nil _ _⟩
  | cons b d ih =>
    obtain ⟨h1, h2, h3⟩ := h
    obtain ⟨b', hr⟩ := ih h3
    have e : render (b :: d) = b.body ++ (List.replicate b.after '\n' ++ render d) := by rw [render_cons, text_body, List.append_assoc]
    have e' : docRaw (b :: d) = b.raw ++ (afterRaw b.after ++ docRaw d) := by simp [docRaw]
    rw [e, e']
    cases ha : b.after with
    | zero =>
      have hd : d = [] := by
        by_contra hd
        have := h2 hd
        omega
      subst hd
      exact ⟨false, Run.append (run_block h1 _) (Run.nil _ _)⟩
    | succ n =>
      obtain ⟨k, v, hk, hv⟩ := render_start d
      have hu := unit_break n k hv
      rw [← hk] at hu
      have hb := Stamp.Run.unit (b := false) hu (by simp) (by simp [rawText]) (by simp)
      rw [show decide ((List.replicate (n + 1) '\n').getLast? = some '\n') = true from by simp [List.getLast?_replicate]] at hb
      refine ⟨b', Run.append (run_block h1 _) ?_⟩
      exact Run.append (by rw [List.append_nil]; exact hb) hr

theorem doc_lexed {d : List Block} (h : DocValid d) : tokenize stdLex (render d) = .ok (placed 0 (docRaw d)) := by
  obtain ⟨b', -, hr⟩ := run_doc h
  obtain ⟨j, col', prev', h1, -, h3⟩ := hr (render d).length 0 0 none [] (by simp)
  have := h3 ((render d).length + 1 - j)
  rw [show j + ((render d).length + 1 - j) = (render d).length + 1 by omega, List.append_nil] at this
  unfold tokenize tokenizeSt
  rw [this]
  obtain ⟨k, hk⟩ : ∃ k, (render d).length + 1 - j = k + 1 := ⟨(render d).length - j, by omega⟩
  rw [hk]
  simp [loop]

end Verif.Raw
