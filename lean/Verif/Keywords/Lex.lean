import Verif.Keywords.Spec
import Verif.Raw.Lex

/-!
# Lexing of keyword lines
-/

namespace Verif.Keywords
open Verif.Token Verif.BaseLexer Verif.Pipeline
open Verif.Stamp (Raw placed placed_append rawText Unit1 unit_token unit_adv Run)
open Verif.Drawer (Text)
open Verif.Code (blanks Step afterRaw breakKind spaces_blanks rawText_append line_command unit_break)

/-! ## Names -/

theorem norm_colon (n : Text) : normalize (n ++ ":".toList) = normalize n := by
  unfold normalize
  rw [List.filterMap_append]
  have : normalize ":".toList = [] := by decide
  unfold normalize at this
  rw [this]
  simp

theorem norm_bar (n : Text) : '_' ∉ normalize n := by
  unfold normalize
  intro h
  obtain ⟨c, hc, he⟩ := List.mem_filterMap.mp h
  split_ifs at he with h1 h2 h3
  · cases he
    exact h1 (.inl rfl)
  · have he := Option.some.inj he
    unfold toLower at he
    rw [if_pos h3] at he
    unfold isUpper at h3
    simp only [Bool.and_eq_true, decide_eq_true_eq] at h3
    have h1 : 'A'.toNat ≤ c.toNat := h3.1
    have h2 : c.toNat ≤ 'Z'.toNat := h3.2
    have h3 := congrArg Char.toNat he
    have : 'Z'.toNat = 90 := rfl
    have h4 : c.toNat + 32 < 55296 := by omega
    have h5 : (Char.ofNat (c.toNat + 32)).toNat = c.toNat + 32 := by
      unfold Char.ofNat
      rw [dif_pos (.inl h4)]
      rfl
    rw [h5] at h3
    have : '_'.toNat = 95 := rfl
    have : 'A'.toNat = 65 := rfl
    omega

/-- The token of the name. -/
def kindOf (n : Text) : TK :=
  match cmdSpec n with
  | some (k, _) => k
  | none => .CmdCustomRaw

/-- The tokens of the names with a role. -/
def roleKind (k : TK) : Role → Prop
  | .startup => k = .CmdStartup
  | .options => k = .CmdOptions
  | .keywords => k = .CmdKeywordsRaw
  | .email => k = .CmdEmailRaw
  | .custom => k ∈ [TK.CmdTagsRaw, .CmdDrawersRaw, .CmdCategoryRaw, .CmdPrioritiesRaw, .CmdLatexHeaderExtraRaw, .CmdMacroRaw, .CmdBindRaw, .CmdExcludeTagsRaw,
      .CmdSelectTagsRaw, .CmdSetupfileRaw, .CmdSeqTodoRaw, .CmdCustomRaw]

instance (k : TK) (r : Role) : Decidable (roleKind k r) := by
  cases r <;> (unfold roleKind; infer_instance)

def specOk (e : String × TK × CmdType) : Bool :=
  e.1.toList.contains '_' ||
    match roleOf e.1.toList with
    | none => true
    | some r => decide (e.2.2 = .raw) && decide (roleKind e.2.1 r)

theorem specs_ok : cmdTable.all specOk = true := by decide +kernel

theorem dispatch {n : Text} {r : Role} (h : roleOf (normalize n) = some r) (f : St → Except BaseLexer.Err St) (l : Option Nat) (s : St) :
    dispatchCommand stdLex f ⟨.Word, n ++ ":".toList, l⟩ s = headRaw (push ⟨.Word, n ++ ":".toList, l⟩ (kindOf (normalize n)) s) ∧
      roleKind (kindOf (normalize n)) r := by
  have hb := norm_bar n
  unfold dispatchCommand kindOf
  rw [show ({ kind := .Word, text := n ++ ":".toList, loc := l } : Tok).text = n ++ ":".toList from rfl, norm_colon]
  generalize normalize n = m at *
  dsimp only
  cases hc : cmdSpec m with
  | some p =>
    obtain ⟨k, ty⟩ := p
    unfold cmdSpec at hc
    obtain ⟨e, he, hp⟩ := Option.map_eq_some_iff.mp hc
    have h1 := List.find?_some he
    have h2 := List.mem_of_find?_eq_some he
    have h3 := List.all_eq_true.mp specs_ok e h2
    have h4 : e.1.toList = m := by simpa using h1
    unfold specOk at h3
    rw [h4, h] at h3
    have h5 : m.contains '_' = false := by simpa using hb
    rw [h5, Bool.false_or] at h3
    simp only [Bool.and_eq_true, decide_eq_true_eq, hp] at h3
    obtain ⟨rfl, h6⟩ := h3
    exact ⟨rfl, h6⟩
  | none =>
    dsimp only
    unfold roleOf at h
    split_ifs at h with g1 g2 g3 g4 g5
    · rw [g1] at hc; exact absurd hc (by decide +kernel)
    · rw [g2] at hc; exact absurd hc (by decide +kernel)
    · rw [g3] at hc; exact absurd hc (by decide +kernel)
    · rw [g4] at hc; exact absurd hc (by decide +kernel)
    cases h
    push Not at g5
    have hp : ∀ s ∈ reservedStarts, s.isPrefixOf m = false := by
      intro s hs
      have := g5.2 s hs
      rw [← List.isPrefixOf_iff_prefix] at this
      exact Bool.eq_false_iff.mpr this
    rw [hp "attr".toList (by decide), hp "begin".toList (by decide), hp "end".toList (by decide), hp "property".toList (by decide)]
    simp only [Bool.false_eq_true, if_false]
    have n1 : m ≠ "begin".toList := by
      rintro rfl
      exact absurd (hp "begin".toList (by decide)) (by decide)
    have n2 : m ≠ "end".toList := by
      rintro rfl
      exact absurd (hp "end".toList (by decide)) (by decide)
    rw [if_neg n1, if_neg n2]
    exact ⟨rfl, by unfold roleKind; decide⟩

/-! ## A line -/

def Line.kind (l : Line) : TK := kindOf (normalize l.name)

def Line.head (l : Line) : Text := l.name ++ ":".toList

/-- The tokens of a line, without the line breaks after it. -/
def Line.raw (l : Line) : Raw := [(.LineCommand, "#+".toList), (l.kind, l.head), (.RawText, l.rest)]

def Line.body (l : Line) : Text := "#+".toList ++ (l.head ++ l.rest)

theorem text_body (l : Line) : l.text = l.body ++ List.replicate l.after '\n' := by
  unfold Line.text Line.body Line.head
  simp only [List.append_assoc]

theorem unit_name {l : Line} (h : l.Valid) (v : Text) : Unit1 l.head v [(.Word, l.head)] (token .Word advCmdName) := by
  refine unit_token (by simp [Line.head]) (fun pos col prev => ?_)
  unfold advCmdName Line.head
  have h1 : advIdent ⟨l.name ++ ":".toList ++ v, pos, col, prev⟩ = Cur.adv l.name.length ⟨l.name ++ ":".toList ++ v, pos, col, prev⟩ := by
    refine advWhile_eq _ _ (':' :: v) (by simp) (fun a b hab hb => ?_) (.inr (by rfl))
    obtain ⟨y, b, rfl⟩ := List.exists_cons_of_ne_nil hb
    have := h.name y (by rw [hab]; simp)
    simpa [isAtAny] using this
  have h2 : (Cur.adv l.name.length ⟨l.name ++ ":".toList ++ v, pos, col, prev⟩).rest = ':' :: v := rest_adv _ _ _ (by simp)
  dsimp only
  rw [h1, h2, if_pos (by simp [isAt])]
  rw [List.length_append, show ":".toList.length = 1 from rfl]
  generalize (⟨l.name ++ ":".toList ++ v, pos, col, prev⟩ : Cur) = c
  generalize l.name.length = n
  clear h1 h2
  induction n generalizing c with
  | zero => rfl
  | succ n ih =>
    rw [show n + 1 + 1 = (n + 1) + 1 from rfl, Cur.adv, Cur.adv, ih]

theorem line_end {v : Text} (hv : v = [] ∨ ∃ w, v = '\n' :: w) {t : Text} (h : '\n' ∉ t) : ∀ pos col prev,
    advLine ⟨t ++ v, pos, col, prev⟩ = Cur.adv t.length ⟨t ++ v, pos, col, prev⟩ := by
  intro pos col prev
  refine advWhile_eq t _ v rfl (fun a b hab hb => ?_) ?_
  · obtain ⟨x, b, rfl⟩ := List.exists_cons_of_ne_nil hb
    have hx : x ≠ '\n' := by
      rintro rfl
      exact h (by rw [hab]; simp)
    simp [isAt, hx]
  · rcases hv with rfl | ⟨w, rfl⟩
    · exact .inl rfl
    · exact .inr (by simp [isAt])

theorem run_line {l : Line} (h : l.Valid) {v : Text} (hv : v = [] ∨ ∃ w, v = '\n' :: w) : Run true l.body v false l.raw := by
  have hraw : rawText l.raw = l.body := by simp [Line.raw, Line.body, rawText]
  refine ⟨hraw, fun n pos col prev out hcol => ?_⟩
  have hcol : col = 0 := hcol.mpr rfl
  obtain ⟨r, hr⟩ := Option.ne_none_iff_exists'.mp h.role
  have hdis := fun loc s => (dispatch hr (switchRegular stdLex n) loc s).1
  obtain ⟨c1, p1, e1⟩ := Step.adv .LineCommand "#+".toList (l.head ++ (l.rest ++ v)) pos col prev out
  obtain ⟨c2, p2, e2, hc2⟩ := unit_name h (l.rest ++ v) (pos + 2) c1 p1 (out ++ placed pos [(.LineCommand, "#+".toList)])
  have hc2 : c2 ≠ 0 := by
    rw [Ne, hc2, Line.head]
    simp
  obtain ⟨c3, p3, e3, hc3⟩ : ∃ c3 p3, token .RawText advLine ⟨⟨l.rest ++ v, pos + 2 + l.head.length, c2, p2⟩,
      out ++ placed pos [(.LineCommand, "#+".toList)] ++ placed (pos + 2) [(l.kind, l.head)]⟩ =
      .ok ⟨⟨v, pos + 2 + l.head.length + l.rest.length, c3, p3⟩,
        out ++ placed pos [(.LineCommand, "#+".toList)] ++ placed (pos + 2) [(l.kind, l.head)] ++ placed (pos + 2 + l.head.length) [(.RawText, l.rest)]⟩ ∧ c3 ≠ 0 := by
    by_cases h0 : l.rest = []
    · have := line_end hv (t := []) (by simp) (pos + 2 + l.head.length) c2 p2
      rw [h0]
      refine ⟨c2, p2, ?_, hc2⟩
      unfold token tokenCb
      simp only [List.nil_append] at this ⊢
      rw [this]
      simp [Cur.adv, placed, bind, Except.bind, pure, Except.pure]
    · obtain ⟨c3, p3, e3, h3⟩ := unit_token (k := .RawText) h0 (fun pos col prev => line_end hv h.rest pos col prev) (pos + 2 + l.head.length) c2 p2
        (out ++ placed pos [(.LineCommand, "#+".toList)] ++ placed (pos + 2) [(l.kind, l.head)])
      refine ⟨c3, p3, e3, ?_⟩
      rw [Ne, h3]
      intro hl
      exact h.rest (List.mem_of_getLast? hl)
  have hstep : switchRegular stdLex (n + 1) ⟨⟨l.body ++ v, pos, col, prev⟩, out⟩ =
      .ok ⟨⟨v, pos + l.body.length, c3, p3⟩, out ++ placed pos l.raw⟩ := by
    show regularBody stdLex (switchRegular stdLex n) _ = _
    unfold regularBody
    have hbody : l.body ++ v = blanks 0 ++ ('#' :: '+' :: (l.head ++ (l.rest ++ v))) := by simp [Line.body, blanks]
    rw [if_pos hcol, hbody]
    dsimp only
    rw [line_command, spaces_blanks _ (by simp)]
    dsimp only
    unfold commandLine
    have e0 : leadingSpace 0 ⟨⟨blanks 0 ++ ('#' :: '+' :: (l.head ++ (l.rest ++ v))), pos, col, prev⟩, out⟩ =
        .ok ⟨⟨'#' :: '+' :: (l.head ++ (l.rest ++ v)), pos, col, prev⟩, out⟩ := by
      unfold leadingSpace
      simp [blanks]
    rw [e0]
    simp only [bind, Except.bind]
    unfold switchCommand
    have e1' : tokenAdv TK.LineCommand 2 ⟨⟨'#' :: '+' :: (l.head ++ (l.rest ++ v)), pos, col, prev⟩, out⟩ =
        .ok ⟨⟨l.head ++ (l.rest ++ v), pos + 2, c1, p1⟩, out ++ placed pos [(.LineCommand, "#+".toList)]⟩ := e1
    rw [e1']
    simp only [bind, Except.bind]
    rw [e2]
    simp only [placed, List.getLast?_append, List.getLast?_singleton, Option.some_or, List.dropLast_concat]
    unfold Line.head
    rw [hdis]
    unfold push headRaw
    dsimp only
    simp only [placed] at e3
    unfold Line.kind Line.head at e3
    rw [e3]
    congr 1
    congr 1
    · congr 1
      simp only [Line.body, Line.head, List.length_append]
      show _ = pos + (2 + (l.name.length + 1 + l.rest.length))
      show pos + 2 + (l.name.length + 1) + l.rest.length = _
      omega
    · simp only [Line.raw, placed, Line.kind, Line.head, List.append_assoc]
      rfl
  have hpos : l.body.length ≠ 0 := by simp [Line.body]
  refine ⟨1, c3, p3, by omega, by simp [hc3], fun k => ?_⟩
  rw [Nat.add_comm 1 k]
  conv_lhs => unfold loop
  rw [if_pos, hstep]
  · dsimp only
    rw [if_neg (by omega)]
  · rfl

/-! ## Documents -/

def docRaw (d : List Line) : Raw := (d.map fun l => l.raw ++ afterRaw l.after).flatten

theorem render_cons (l : Line) (d : List Line) : render (l :: d) = l.text ++ render d := rfl

theorem run_doc {d : List Line} (h : DocValid d) : ∃ b', Run true (render d) [] b' (docRaw d) := by
  induction d with
  | nil => exact ⟨true, Run.nil _ _⟩
  | cons l d ih =>
    obtain ⟨h1, h2, h3⟩ := h
    obtain ⟨b', hr⟩ := ih h3
    have e : render (l :: d) = l.body ++ (List.replicate l.after '\n' ++ render d) := by rw [render_cons, text_body, List.append_assoc]
    have e' : docRaw (l :: d) = l.raw ++ (afterRaw l.after ++ docRaw d) := by simp [docRaw]
    rw [e, e']
    cases ha : l.after with
    | zero =>
      have hd : d = [] := by
        by_contra hd
        have := h2 hd
        omega
      subst hd
      exact ⟨false, Run.append (run_line h1 (.inl (by simp [render]))) (Run.nil _ _)⟩
    | succ n =>
      obtain ⟨v, hk, hv⟩ : ∃ v, render d = blanks 0 ++ v ∧ v.head? ≠ some '\n' ∧ v.head? ≠ some ' ' := by
        cases d with
        | nil => exact ⟨[], rfl, by simp, by simp⟩
        | cons m d => exact ⟨render (m :: d), rfl, by simp [render_cons, Line.text], by simp [render_cons, Line.text]⟩
      have hu := unit_break n 0 hv
      rw [← hk] at hu
      have hb := Stamp.Run.unit (b := false) hu (by simp) (by simp [rawText]) (by simp)
      rw [show decide ((List.replicate (n + 1) '\n').getLast? = some '\n') = true from by simp [List.getLast?_replicate]] at hb
      refine ⟨b', Run.append (run_line h1 (.inr ⟨List.replicate n '\n' ++ render d ++ [], by simp [List.replicate_succ]⟩)) ?_⟩
      exact Run.append (by rw [List.append_nil]; exact hb) hr

theorem doc_lexed {d : List Line} (h : DocValid d) : tokenize stdLex (render d) = .ok (placed 0 (docRaw d)) := by
  obtain ⟨b', -, hr⟩ := run_doc h
  obtain ⟨j, col', prev', h1, -, h3⟩ := hr (render d).length 0 0 none [] (by simp)
  have := h3 ((render d).length + 1 - j)
  rw [show j + ((render d).length + 1 - j) = (render d).length + 1 by omega, List.append_nil] at this
  unfold tokenize tokenizeSt
  rw [this]
  obtain ⟨k, hk⟩ : ∃ k, (render d).length + 1 - j = k + 1 := ⟨(render d).length - j, by omega⟩
  rw [hk]
  simp [loop]

end Verif.Keywords
