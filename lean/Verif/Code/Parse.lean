import Verif.Code.Tokens
import Verif.Link.Parse

/-!
# Parsing of documents with source blocks
-/

namespace Verif.Code
open Verif.Lexer Verif.NodeGroup Verif.NodeGroup.Spec
open Verif.Parser hiding TK Does does_bind does_ret does_seq does_if_true does_if_false does_at does_finished does_next does_expect does_skip does_popAny does_popAs
  does_empty does_node does_sub does_while_stop does_while_step does_not does_and
open Verif.Pipeline (numbered numbered_cons numbered_append texts tokAt)
open Verif.Link (Does does_bind does_ret does_seq does_then does_if_true does_if_false does_and_true does_and_false does_ask does_at does_at_true does_at_false
  does_finished does_kind does_next does_expect does_skip does_popAny does_popAs does_empty does_node does_sub does_ignore does_while_stop does_while_step does_not
  does_and does_canSearch_true does_canSearch_false Contig contig_numbered)
open Verif.Stamp (Raw trim numbered_fst numbered_snd numbered_length)
open Verif.Token (TK Tok)

/-! ## Cursor -/

theorem trim_cons {i : Nat} {k : TK} {v : List (Nat × TK)} (hk : k ∉ [TK.Whitespace, .LeadingSpace]) : trim ((i, k) :: v) = (i, k) :: v := by
  unfold trim
  rw [List.dropWhile_cons_of_neg]
  simpa using hk

theorem trim_space {i : Nat} {v : List (Nat × TK)} : trim ((i, .Whitespace) :: v) = trim v := by
  unfold trim
  rw [List.dropWhile_cons_of_pos]
  rfl

theorem trim_trim (v : List (Nat × TK)) : trim (trim v) = trim v := by
  unfold trim
  induction v with
  | nil => rfl
  | cons p v ih =>
    by_cases hp : p.2 ∈ [TK.Whitespace, .LeadingSpace]
    · rw [List.dropWhile_cons_of_pos (by simpa using hp)]
      exact ih
    · rw [List.dropWhile_cons_of_neg (by simpa using hp), List.dropWhile_cons_of_neg (by simpa using hp)]

theorem trim_le (v : List (Nat × TK)) : (trim v).length ≤ v.length := (List.dropWhile_sublist _).length_le

theorem does_space {n : Nat} {v : List (Nat × TK)} (hn : v.length ≤ n) : Does (spaceP n) () v (trim v) .nil := by
  induction v generalizing n with
  | nil => exact does_while_stop n (does_at_false (by simp))
  | cons p v ih =>
    obtain ⟨i, k⟩ := p
    by_cases hk : k ∈ [TK.Whitespace, .LeadingSpace]
    · obtain ⟨n, rfl⟩ : ∃ m, n = m + 1 := ⟨n - 1, by simp at hn; omega⟩
      rw [show trim ((i, k) :: v) = trim v from by unfold trim; rw [List.dropWhile_cons_of_pos]; simpa using hk]
      exact does_while_step (f := .nil) (g := .nil) (does_at_true hk) (does_next _ _) (ih (by simpa using hn))
    · rw [trim_cons hk]
      exact does_while_stop n (does_at_false (by simpa using hk))

theorem does_atSeq (ks : List TK) (v : List (Nat × TK)) : Does (atSeqP ks) (decide (0 < v.length ∧ ks <+: v.map Prod.snd)) v v .nil :=
  does_ask fun l hv hs => by
    have := atSeq_reads l v hv.1 (.inr hs) ks 0
    simpa using this

theorem does_more {a : TK} {ks : List TK} {i : Nat} {k : TK} {v : List (Nat × TK)} (h : k ≠ a) : Does (canSearchSeq (a :: ks)) true ((i, k) :: v) ((i, k) :: v) .nil := by
  refine does_and_true (does_not (b := false) (does_finished _)) (does_not (b := false) ?_)
  have := does_atSeq (a :: ks) ((i, k) :: v)
  rwa [decide_eq_false] at this
  rintro ⟨-, hp⟩
  exact h (List.cons_prefix_cons.mp hp).1.symm

theorem does_done {a b : TK} {i j : Nat} {v : List (Nat × TK)} : Does (canSearchSeq [a, b]) false ((i, a) :: (j, b) :: v) ((i, a) :: (j, b) :: v) .nil := by
  refine does_and (does_not (b := false) (does_finished _)) (does_not (b := true) ?_)
  have := does_atSeq [a, b] ((i, a) :: (j, b) :: v)
  rwa [decide_eq_true] at this
  exact ⟨by simp, ⟨v.map Prod.snd, by simp⟩⟩

/-- Is there `>>` on the line? -/
def scan : List (Nat × TK) → Bool
  | [] => false
  | p :: r => if p.2 = .DoubleAngleEnd then true else if p.2 = .Newline then false else scan r

theorem closes_reads {l : Lex TK} {v : List (Nat × TK)} (hv : Cur l v) (hs : Contig v) : ∀ (fuel off : Nat), v.length + 1 ≤ fuel + off → off ≤ v.length →
    closesAngle fuel off l = .ok (scan (v.drop off)) := by
  intro fuel
  induction fuel with
  | zero => intro off h h2; omega
  | succ fuel ih =>
    intro off h h2
    rw [closesAngle]
    have hn := (lookahead_partial l v hv.1 off).1
    rw [hn, at_reads l v hv.1 (.inr hs), at_reads l v hv.1 (.inr hs)]
    by_cases hlt : off < v.length
    · rw [decide_eq_true hlt, if_pos rfl, List.getElem?_eq_getElem hlt, List.drop_eq_getElem_cons hlt, scan]
      have := ih (off + 1) (by omega) (by omega)
      push_cast at this
      by_cases h1 : v[off].2 = .DoubleAngleEnd
      · simp [h1]
      · by_cases h3 : v[off].2 = .Newline
        · simp [h3]
        · simp [h1, h3, this]
    · rw [decide_eq_false hlt, List.drop_eq_nil_of_le (by omega)]
      rfl

theorem does_closes {n : Nat} {v : List (Nat × TK)} (hn : v.length + 1 ≤ n) : Does (ask (closesAngle n 0)) (scan v) v v .nil :=
  does_ask fun l hv hs => by simpa using closes_reads hv hs n 0 (by omega) (by omega)

/-! ## Lines of code -/

/-- The nodes of the parts of a line. -/
def segsF : Nat → List Seg → Forest NK Unit
  | _, [] => .nil
  | i, .ref _ :: r => .tree .CodeTangle (.leaf .Word (.tok (i + 1)) .nil) (segsF (i + 3) r)
  | i, .code _ :: r => .leaf .CodeText (.tok i) (segsF (i + 1) r)
  | i, .left :: r => .leaf .CodeText (.tok i) (segsF (i + 1) r)
  | i, .right :: r => .leaf .CodeText (.tok i) (segsF (i + 1) r)

def lineF (i : Nat) (l : List Seg) : Forest NK Unit := if l.isEmpty then .leaf .CodeText (.tok i) .nil else segsF i l

def linesF : Nat → List (List Seg) → Forest NK Unit
  | _, [] => .nil
  | i, l :: ls => .tree .CodeLine (lineF i l) (linesF (i + (lineRaw l).length + 1) ls)

/-- `<<` is not closed on its line. -/
def Opened : List Seg → Prop
  | [] => True
  | .left :: r => (∀ s ∈ r, s.closes = false) ∧ Opened r
  | _ :: r => Opened r

theorem opened_valid {l : List Seg} (h : SegsValid l) : Opened l := by
  induction l with
  | nil => trivial
  | cons s l ih =>
    cases s with
    | code t => exact ih h.2.2.2
    | ref t => exact ih h.2.2.2
    | left => exact ⟨h.1, ih h.2⟩
    | right => exact ih h

theorem opened_dedent {l : List Seg} (m : Nat) (h : Opened l) : Opened (dedent m l) := by
  cases l with
  | nil => exact h
  | cons s l => cases s <;> exact h

/-- Kinds of tokens. -/
abbrev kinds (r : Raw) : List TK := r.map Prod.fst

theorem kinds_append (a b : Raw) : kinds (a ++ b) = kinds a ++ kinds b := List.map_append

theorem kinds_length (a : Raw) : (kinds a).length = a.length := List.length_map _

theorem scan_open {l : List Seg} (h : ∀ s ∈ l, s.closes = false) (i j : Nat) (w : List (Nat × TK)) :
    scan (numbered i (kinds (segsRaw l)) ++ (j, .Newline) :: w) = false := by
  induction l generalizing i with
  | nil => rfl
  | cons s l ih =>
    have h1 := h s List.mem_cons_self
    have ih := ih (fun x hx => h x (List.mem_cons_of_mem _ hx))
    cases s with
    | code t =>
      rw [segsRaw_cons, kinds_append]
      show scan (numbered i (TK.SrcContent :: kinds (segsRaw l)) ++ _) = _
      rw [numbered_cons]
      simp [scan, ih]
    | ref t => exact absurd h1 (by simp [Seg.closes])
    | left =>
      rw [segsRaw_cons, kinds_append]
      show scan (numbered i (TK.DoubleAngleBegin :: kinds (segsRaw l)) ++ _) = _
      rw [numbered_cons]
      simp [scan, ih]
    | right => exact absurd h1 (by simp [Seg.closes])

theorem does_at_head {kinds : List TK} {i : Nat} {k : TK} {v : List (Nat × TK)} (hk : k ∉ kinds) : Does (atP kinds) false ((i, k) :: v) ((i, k) :: v) .nil :=
  does_at_false (by simpa using hk)

theorem does_segs (t : Texts) {l : List Seg} (h : Opened l) {n m : Nat} (i j : Nat) (w : List (Nat × TK)) (hm : l.length ≤ m)
    (hn : (segsRaw l).length + w.length + 2 ≤ n) :
    Does (whileP (canSearch [.CmdContentEnd, .Newline]) (codeItem t n) m) () (numbered i (kinds (segsRaw l)) ++ (j, .Newline) :: w) ((j, .Newline) :: w) (segsF i l) := by
  induction l generalizing i m with
  | nil => exact does_while_stop m (does_canSearch_false (by simp))
  | cons s l ih =>
    obtain ⟨m, rfl⟩ : ∃ x, m = x + 1 := ⟨m - 1, by simp at hm; omega⟩
    rw [segsRaw_cons, List.length_append] at hn
    rw [segsRaw_cons, kinds_append]
    cases s with
    | code x =>
      show Does _ () (numbered i (TK.SrcContent :: kinds (segsRaw l)) ++ _) _ _
      rw [numbered_cons, List.cons_append]
      exact does_while_step (f := .leaf .CodeText (.tok i) .nil) (does_canSearch_true (by simp))
        (does_if_true (does_at_true (by decide)) (does_popAs t _ (by decide))) (ih h _ (by simpa using hm) (by omega))
    | ref x =>
      show Does _ () (numbered i (TK.DoubleAngleBegin :: .SrcContent :: .DoubleAngleEnd :: kinds (segsRaw l)) ++ _) _ _
      rw [numbered_cons, numbered_cons, numbered_cons, List.cons_append, List.cons_append, List.cons_append]
      refine does_while_step (f := .tree .CodeTangle (.leaf .Word (.tok (i + 1)) .nil) .nil) (does_canSearch_true (by simp))
        (does_if_false (does_at_head (by decide)) (does_if_false (does_at_head (by decide)) (does_if_true (does_at_true (by decide)) (does_if_true ?_ ?_))))
        (ih h _ (by simpa using hm) (by omega))
      · have := does_closes (n := n) (v := (i, TK.DoubleAngleBegin) :: (i + 1, .SrcContent) :: (i + 1 + 1, .DoubleAngleEnd) ::
          (numbered (i + 1 + 1 + 1) (kinds (segsRaw l)) ++ (j, .Newline) :: w)) (by
            simp only [List.length_cons, List.length_append, numbered_length, kinds_length]
            simp [Seg.raw] at hn
            omega)
        exact this
      · exact does_seq (does_skip t (by decide)) (does_then (does_node _ (does_sub t (does_then (does_popAs t _ (by decide))
          (does_if_false (does_at_head (by decide)) (does_ret _ _))))) (does_skip t (by decide)))
    | left =>
      show Does _ () (numbered i (TK.DoubleAngleBegin :: kinds (segsRaw l)) ++ _) _ _
      rw [numbered_cons, List.cons_append]
      refine does_while_step (f := .leaf .CodeText (.tok i) .nil) (does_canSearch_true (by simp))
        (does_if_false (does_at_head (by decide)) (does_if_false (does_at_head (by decide)) (does_if_true (does_at_true (by decide))
          (does_if_false ?_ (does_popAs t _ (by decide)))))) (ih h.2 _ (by simpa using hm) (by omega))
      have := does_closes (n := n) (v := (i, TK.DoubleAngleBegin) :: (numbered (i + 1) (kinds (segsRaw l)) ++ (j, .Newline) :: w)) (by
            simp only [List.length_cons, List.length_append, numbered_length, kinds_length]
            simp [Seg.raw] at hn
            omega)
      rw [show scan ((i, TK.DoubleAngleBegin) :: (numbered (i + 1) (kinds (segsRaw l)) ++ (j, .Newline) :: w)) = false from by
        simp [scan, scan_open h.1]] at this
      exact this
    | right =>
      show Does _ () (numbered i (TK.DoubleAngleEnd :: kinds (segsRaw l)) ++ _) _ _
      rw [numbered_cons, List.cons_append]
      exact does_while_step (f := .leaf .CodeText (.tok i) .nil) (does_canSearch_true (by simp))
        (does_if_false (does_at_head (by decide)) (does_if_false (does_at_head (by decide)) (does_if_false (does_at_head (by decide))
          (does_if_true (does_at_true (by decide)) (does_popAs t _ (by decide))))))
        (ih h _ (by simpa using hm) (by omega))

theorem does_line (t : Texts) {l : List Seg} (h : Opened l) {n : Nat} (i j : Nat) (w : List (Nat × TK)) (hn : (lineRaw l).length + w.length + 2 ≤ n) :
    Does (node .CodeLine (P.bind (whileP (canSearch [.CmdContentEnd, .Newline]) (codeItem t n) n) fun _ => ifP (atP [.Newline]) nextP (P.ret ()))) ()
      (numbered i (kinds (lineRaw l)) ++ (j, .Newline) :: w) w (.tree .CodeLine (lineF i l) .nil) := by
  refine does_node _ (does_then (a := ()) (v' := (j, .Newline) :: w) ?_ (does_if_true (does_at_true (by decide)) (does_next _ _)))
  cases l with
  | nil => exact does_segs t (l := [.code []]) trivial i j w (by simp [lineRaw] at hn ⊢; omega) hn
  | cons s l =>
    refine does_segs t h i j w ?_ hn
    have : (s :: l).length ≤ (segsRaw (s :: l)).length := by
      clear hn h
      generalize s :: l = l
      induction l with
      | nil => simp
      | cons s l ih =>
        rw [segsRaw_cons, List.length_append, List.length_cons]
        have : 1 ≤ s.raw.length := by cases s <;> simp [Seg.raw]
        omega
    have e : lineRaw (s :: l) = segsRaw (s :: l) := rfl
    rw [e] at hn
    omega

theorem linesRaw_cons (l : List Seg) (ls : List (List Seg)) : linesRaw (l :: ls) = lineRaw l ++ ((.Newline, "\n".toList) :: linesRaw ls) := by
  simp [linesRaw]

theorem line_first {l : List Seg} {i : Nat} {v : List (Nat × TK)} : ∃ k w, numbered i (kinds (lineRaw l)) ++ v = (i, k) :: w ∧ k ∈ codeKinds := by
  have h := line_kinds l
  cases hl : lineRaw l with
  | nil => exact absurd hl (lineRaw_ne l)
  | cons x r =>
    rw [hl] at h
    exact ⟨x.1, _, by rw [kinds, List.map_cons, numbered_cons, List.cons_append], h x List.mem_cons_self⟩

theorem does_lines (t : Texts) {ls : List (List Seg)} (h : ∀ l ∈ ls, Opened l) {n m : Nat} (i j : Nat) (w : List (Nat × TK)) (hm : ls.length ≤ m)
    (hn : (linesRaw ls).length + w.length + 4 ≤ n) :
    Does (whileP (canSearchSeq [.CmdPrefix, .CmdSrcEnd])
      (node .CodeLine (P.bind (whileP (canSearch [.CmdContentEnd, .Newline]) (codeItem t n) n) fun _ => ifP (atP [.Newline]) nextP (P.ret ()))) m) ()
      (numbered i (kinds (linesRaw ls)) ++ (j, .CmdPrefix) :: (j + 1, .CmdSrcEnd) :: w) ((j, .CmdPrefix) :: (j + 1, .CmdSrcEnd) :: w) (linesF i ls) := by
  induction ls generalizing i m with
  | nil => exact does_while_stop m does_done
  | cons l ls ih =>
    obtain ⟨m, rfl⟩ : ∃ x, m = x + 1 := ⟨m - 1, by simp at hm; omega⟩
    rw [linesRaw_cons, List.length_append, List.length_cons] at hn
    rw [linesRaw_cons, kinds_append, show kinds ((TK.Newline, "\n".toList) :: linesRaw ls) = TK.Newline :: kinds (linesRaw ls) from rfl, numbered_append, numbered_cons, List.append_assoc, List.cons_append, kinds_length]
    obtain ⟨k, v, hk, hc⟩ := line_first (l := l) (i := i) (v := (i + (lineRaw l).length, TK.Newline) :: (numbered (i + (lineRaw l).length + 1) (kinds (linesRaw ls)) ++
      (j, .CmdPrefix) :: (j + 1, .CmdSrcEnd) :: w))
    refine does_while_step (f := .tree .CodeLine (lineF i l) .nil) ?_ (does_line t (h l List.mem_cons_self) _ _ _ ?_)
      (ih (fun x hx => h x (List.mem_cons_of_mem _ hx)) _ (by simpa using hm) (by omega))
    · rw [hk]
      exact does_more (by rintro rfl; exact absurd hc (by decide))
    · simp only [List.length_cons, List.length_append, numbered_length, kinds_length]
      omega

theorem lines_le (ls : List (List Seg)) : ls.length ≤ (linesRaw ls).length := by
  induction ls with
  | nil => simp
  | cons l ls ih =>
    rw [linesRaw_cons, List.length_append, List.length_cons, List.length_cons]
    omega

theorem does_body (t : Texts) {ls : List (List Seg)} (h : ∀ l ∈ ls, Opened l) {n : Nat} (i j : Nat) (w : List (Nat × TK))
    (hn : (linesRaw ls).length + w.length + 4 ≤ n) :
    Does (codeBody t n) () ((i, .CmdContentBegin) :: (numbered (i + 1) (kinds (linesRaw ls)) ++ (j, .CmdPrefix) :: (j + 1, .CmdSrcEnd) :: w))
      ((j, .CmdPrefix) :: (j + 1, .CmdSrcEnd) :: w) (.tree .StmtList (linesF (i + 1) ls) .nil) :=
  does_node _ (does_seq (does_skip t (by decide)) (does_lines t h _ _ _ (by have := lines_le ls; omega) hn))

end Verif.Code
