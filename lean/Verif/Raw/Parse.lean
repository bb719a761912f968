import Verif.Raw.Tokens
import Verif.Code.ParseDoc

/-!
# Parsing of documents with example and export blocks
-/

namespace Verif.Raw
open Verif.Lexer Verif.NodeGroup Verif.NodeGroup.Spec
open Verif.Parser hiding TK Does does_bind does_ret does_seq does_if_true does_if_false does_at does_finished does_next does_expect does_skip does_popAny does_popAs
  does_empty does_node does_sub does_while_stop does_while_step does_not does_and
open Verif.Pipeline (numbered numbered_cons numbered_append texts tokAt)
open Verif.Link (Does does_bind does_ret does_seq does_then does_if_true does_if_false does_and_true does_and_false does_ask does_at does_at_true does_at_false
  does_finished does_kind does_next does_expect does_skip does_popAny does_popAs does_empty does_node does_sub does_ignore does_while_stop does_while_step does_not
  does_and does_canSearch_true does_canSearch_false Contig contig_numbered)
open Verif.Stamp (Raw trim numbered_length)
open Verif.Token (TK Tok)
open Verif.Drawer (Text)
open Verif.Code (wordsRaw gapRaw afterRaw breakKind raws kinds kinds_append kinds_length trim_cons trim_space does_space does_atSeq does_at_head does_spaces does_break
  does_kind_next does_rounds forest_assoc afterV after_kinds)

/-! ## Lines -/

/-- The nodes of the lines of an example: the line break after the last line is not one of them. -/
def sampleF : Nat → List Text → Forest NK Unit
  | _, [] => .nil
  | i, [_] => .leaf .RawText (.tok i) .nil
  | i, _ :: l :: ls => .leaf .RawText (.tok i) (.leaf .RawText (.tok (i + 1)) (sampleF (i + 2) (l :: ls)))

/-- The nodes of the lines of an export block. -/
def foreignF : Nat → List Text → Forest NK Unit
  | _, [] => .nil
  | i, _ :: ls => .leaf .RawText (.tok i) (.leaf .RawText (.tok (i + 1)) (foreignF (i + 2) ls))

theorem lines_cons (k : Kind) (l : Text) (ls : List Text) : linesRaw k (l :: ls) = (k.lineTok, l) :: (.Newline, "\n".toList) :: linesRaw k ls := by
  simp [linesRaw]

theorem lines_length (k : Kind) (ls : List Text) : (linesRaw k ls).length = 2 * ls.length := by
  induction ls with
  | nil => rfl
  | cons l ls ih =>
    rw [lines_cons, List.length_cons, List.length_cons, List.length_cons, ih]
    omega

theorem lines_numbered (k : Kind) (l : Text) (ls : List Text) (i : Nat) (w : List (Nat × TK)) :
    numbered i (kinds (linesRaw k (l :: ls))) ++ w = (i, k.lineTok) :: (i + 1, .Newline) :: (numbered (i + 2) (kinds (linesRaw k ls)) ++ w) := by
  rw [lines_cons]
  rfl

theorem does_seq_not {i j : Nat} {k k' : TK} {v : List (Nat × TK)} (h : k ≠ .Newline ∨ k' ≠ .CmdPrefix) :
    Does (atSeqP [.Newline, .CmdPrefix]) false ((i, k) :: (j, k') :: v) ((i, k) :: (j, k') :: v) .nil := by
  have := does_atSeq [TK.Newline, .CmdPrefix] ((i, k) :: (j, k') :: v)
  rwa [decide_eq_false] at this
  rintro ⟨-, hp⟩
  obtain ⟨h1, h2⟩ := List.cons_prefix_cons.mp hp
  have h3 := (List.cons_prefix_cons.mp h2).1
  rcases h with h | h
  · exact h h1.symm
  · exact h h3.symm

theorem does_seq_yes {i j : Nat} {v : List (Nat × TK)} :
    Does (atSeqP [.Newline, .CmdPrefix]) true ((i, .Newline) :: (j, .CmdPrefix) :: v) ((i, .Newline) :: (j, .CmdPrefix) :: v) .nil := by
  have := does_atSeq [TK.Newline, .CmdPrefix] ((i, .Newline) :: (j, .CmdPrefix) :: v)
  rwa [decide_eq_true] at this
  exact ⟨by simp, ⟨v.map Prod.snd, by simp⟩⟩

theorem does_samples {ls : List Text} {m : Nat} (i j : Nat) (w : List (Nat × TK)) (hm : 2 * ls.length ≤ m) :
    Does (whileP (atP [.CmdExampleLine, .Newline]) (ifP (atSeqP [.Newline, .CmdPrefix]) nextP (popAny .RawText)) m) ()
      (numbered i (kinds (linesRaw .sample ls)) ++ (j, .CmdPrefix) :: w) ((j, .CmdPrefix) :: w) (sampleF i ls) := by
  induction ls generalizing i m with
  | nil => exact does_while_stop m (does_at_head (by decide))
  | cons l ls ih =>
    obtain ⟨m, rfl⟩ : ∃ x, m = x + 2 := ⟨m - 2, by simp at hm; omega⟩
    have ih := ih (m := m) (i + 2) (by simp at hm; omega)
    rw [lines_numbered]
    cases ls with
    | nil =>
      exact does_while_step (f := .leaf .RawText (.tok i) .nil) (does_at_true (by decide)) (does_if_false (does_seq_not (.inl (by decide))) (does_popAny _ _ _ _))
        (does_while_step (f := .nil) (g := .nil) (does_at_true (by decide)) (does_if_true does_seq_yes (does_next _ _)) ih)
    | cons l' ls =>
      rw [lines_numbered] at ih ⊢
      exact does_while_step (f := .leaf .RawText (.tok i) .nil) (does_at_true (by decide)) (does_if_false (does_seq_not (.inl (by decide))) (does_popAny _ _ _ _))
        (does_while_step (f := .leaf .RawText (.tok (i + 1)) .nil) (does_at_true (by decide)) (does_if_false (does_seq_not (.inr (by decide))) (does_popAny _ _ _ _)) ih)

theorem does_foreigns {g : Nat} {e : Text} {ls : List Text} {m : Nat} (i j : Nat) (w : List (Nat × TK)) (hm : 2 * ls.length ≤ m) :
    Does (whileP (atP [.CmdExportLine, .Newline]) (popAny .RawText) m) ()
      (numbered i (kinds (linesRaw (.foreign g e) ls)) ++ (j, .CmdPrefix) :: w) ((j, .CmdPrefix) :: w) (foreignF i ls) := by
  induction ls generalizing i m with
  | nil => exact does_while_stop m (does_at_head (by decide))
  | cons l ls ih =>
    obtain ⟨m, rfl⟩ : ∃ x, m = x + 2 := ⟨m - 2, by simp at hm; omega⟩
    have ih := ih (m := m) (i + 2) (by simp at hm; omega)
    rw [lines_numbered]
    exact does_while_step (f := .leaf .RawText (.tok i) .nil) (does_at_true (by show TK.CmdExportLine ∈ _; decide)) (does_popAny _ _ _ _)
        (does_while_step (f := .leaf .RawText (.tok (i + 1)) .nil) (does_at_true (by decide)) (does_popAny _ _ _ _) ih)

/-! ## A block -/

/-- The tokens of the words and spaces of the first line. -/
def Block.headSize (b : Block) : Nat := (wordsRaw b.kind.words ++ gapRaw b.gap).length

/-- The nodes of a block; `i` is its first token after the spaces. -/
def Block.tree (i : Nat) (b : Block) : Forest NK Unit :=
  match b.kind with
  | .sample => .tree .BlockExample (.tree .InlineStmtList .nil (sampleF (i + 2 + b.headSize + 1) b.left)) .nil
  | .foreign _ _ => .tree .BlockExport (.leaf .Word (.tok (i + 3)) (.tree .InlineStmtList .nil (.tree .StmtList (foreignF (i + 2 + b.headSize + 1) b.left) .nil))) .nil

/-- The tokens of a block, after the spaces before it. -/
def Block.toks (i : Nat) (b : Block) (w : List (Nat × TK)) : List (Nat × TK) :=
  (i, .CmdPrefix) :: (i + 1, b.kind.beginTok) :: (numbered (i + 2) (kinds (wordsRaw b.kind.words ++ gapRaw b.gap)) ++
    ((i + 2 + b.headSize, .Newline) :: (numbered (i + 2 + b.headSize + 1) (kinds (linesRaw b.kind b.left)) ++
      ((i + 2 + b.headSize + 1 + (linesRaw b.kind b.left).length, .CmdPrefix) ::
        (i + 2 + b.headSize + 1 + (linesRaw b.kind b.left).length + 1, b.kind.endTok) :: w))))

theorem trim_gap (j i gap : Nat) (v : List (Nat × TK)) : trim (numbered j (kinds (gapRaw gap)) ++ (i, .Newline) :: v) = (i, .Newline) :: v := by
  unfold gapRaw
  split_ifs
  · exact trim_cons (by decide)
  · exact trim_space.trans (trim_cons (by decide))

theorem does_none (t : Texts) {n i : Nat} {u v : List (Nat × TK)} (hn : u.length ≤ n) (h : trim u = (i, .Newline) :: v) :
    Does (subP t (parseCommandArguments t n)) () u ((i, .Newline) :: v) (.tree .InlineStmtList .nil .nil) := by
  have hs := does_space hn
  rw [h] at hs
  exact does_sub t (does_seq hs (does_node _ (does_while_stop n (does_at_head (by decide)))))

theorem does_newline {n i : Nat} {v : List (Nat × TK)} (hn : 1 ≤ n) (hv : ∀ p ∈ v.head?, p.2 ∉ newlineKinds) : Does (newlineP n) () ((i, .Newline) :: v) v .nil := by
  obtain ⟨n, rfl⟩ : ∃ m, n = m + 1 := ⟨n - 1, by omega⟩
  exact does_while_step (f := .nil) (g := .nil) (does_at_true (by decide)) (does_next _ _) (does_while_stop n (does_at_false hv))

theorem lines_head (k : Kind) (ls : List Text) (i j : Nat) (w : List (Nat × TK)) :
    ∀ p ∈ (numbered i (kinds (linesRaw k ls)) ++ (j, TK.CmdPrefix) :: w).head?, p.2 ∉ newlineKinds := by
  cases ls with
  | nil => intro p hp; cases hp; show TK.CmdPrefix ∉ _; decide
  | cons l ls =>
    rw [lines_numbered]
    intro p hp
    cases hp
    show k.lineTok ∉ _
    rcases line_kind k with h | h <;> rw [h] <;> decide

theorem does_example (t : Texts) {b : Block} (hk : b.kind = .sample) {n i : Nat} {w : List (Nat × TK)} (hn : (b.toks i w).length ≤ n) :
    Does (parseExample t n) () (b.toks i w) w (b.tree i) := by
  unfold Block.toks at hn ⊢
  unfold Block.tree
  rw [hk] at hn ⊢
  simp only [List.length_cons, List.length_append, numbered_length, kinds_length] at hn
  have hl := lines_length .sample b.left
  refine does_node _ (does_seq (does_skip t (by decide)) (does_seq (does_skip t (by decide)) (does_bind (f := .tree .InlineStmtList .nil .nil) (does_none t ?_ (trim_gap _ _ _ _))
    (does_seq (does_newline (by omega) (lines_head _ _ _ _ _)) (does_then (does_samples _ _ _ (by omega)) (does_seq (does_skip t (by decide)) (does_skip t (by decide))))))))
  simp only [List.length_cons, List.length_append, numbered_length, kinds_length]
  have hz : (wordsRaw Kind.sample.words).length = 0 := rfl
  omega

theorem does_export (t : Texts) {b : Block} {g : Nat} {e : Text} (hk : b.kind = .foreign g e) {n i : Nat} {w : List (Nat × TK)} (hn : (b.toks i w).length ≤ n) :
    Does (parseBlockExport t n) () (b.toks i w) w (b.tree i) := by
  unfold Block.toks at hn ⊢
  unfold Block.tree
  rw [hk] at hn ⊢
  simp only [List.length_cons, List.length_append, numbered_length, kinds_length] at hn
  have hl := lines_length (.foreign g e) b.left
  have hw : ∀ v, numbered (i + 2) (kinds (wordsRaw (Kind.foreign g e).words ++ gapRaw b.gap)) ++ v =
      (i + 2, TK.Whitespace) :: (i + 3, .CmdRawArg) :: (numbered (i + 4) (kinds (gapRaw b.gap)) ++ v) := fun v => rfl
  have hlen : (wordsRaw (Kind.foreign g e).words).length = 2 := rfl
  rw [hw]
  generalize hB : numbered (i + 2 + b.headSize + 1) (kinds (linesRaw (.foreign g e) b.left)) ++
      ((i + 2 + b.headSize + 1 + (linesRaw (.foreign g e) b.left).length, TK.CmdPrefix) ::
        (i + 2 + b.headSize + 1 + (linesRaw (.foreign g e) b.left).length + 1, (Kind.foreign g e).endTok) :: w) = body
  have hbl : body.length = (linesRaw (.foreign g e) b.left).length + w.length + 2 := by
    rw [← hB]
    simp only [List.length_cons, List.length_append, numbered_length, kinds_length]
    omega
  have h1 : Does (spaceP n) () ((i + 2, TK.Whitespace) :: (i + 3, .CmdRawArg) :: (numbered (i + 4) (kinds (gapRaw b.gap)) ++ (i + 2 + b.headSize, TK.Newline) :: body))
      ((i + 3, .CmdRawArg) :: (numbered (i + 4) (kinds (gapRaw b.gap)) ++ (i + 2 + b.headSize, TK.Newline) :: body)) .nil := by
    have := does_space (n := n) (v := (i + 2, TK.Whitespace) :: (i + 3, .CmdRawArg) :: (numbered (i + 4) (kinds (gapRaw b.gap)) ++ (i + 2 + b.headSize, TK.Newline) :: body)) (by
      simp only [List.length_cons, List.length_append, numbered_length, kinds_length]
      omega)
    rwa [trim_space, trim_cons (by decide)] at this
  have h2 := does_space (n := n) (v := numbered (i + 4) (kinds (gapRaw b.gap)) ++ (i + 2 + b.headSize, TK.Newline) :: body) (by
      simp only [List.length_cons, List.length_append, numbered_length, kinds_length]
      omega)
  rw [trim_gap] at h2
  refine does_node _ (does_seq (does_skip t (by decide)) (does_seq (does_skip t (by show TK.CmdExportBegin ∈ _; decide)) (does_seq h1 (does_bind (f := .leaf .Word (.tok (i + 3)) .nil) (does_popAs t _ (by decide))
    (does_seq h2 (does_bind (f := .tree .InlineStmtList .nil .nil) (does_none t ?_ (trim_cons (by decide))) (does_seq (v' := body) (does_newline (by omega) ?_) ?_)))))))
  · simp only [List.length_cons]
    omega
  · rw [← hB]
    exact lines_head _ _ _ _ _
  · rw [← hB]
    exact does_then (does_node _ (does_foreigns _ _ _ (by omega))) (does_seq (does_skip t (by decide)) (does_skip t (by show TK.CmdExportEnd ∈ _; decide)))

theorem does_block (t : Texts) {b : Block} {n i : Nat} {w : List (Nat × TK)} (hn : (b.toks i w).length ≤ n) : Does (parseStmt t (n + 1)) () (b.toks i w) w (b.tree i) := by
  rw [parseStmt]
  refine does_seq (does_kind _ _ _) ?_
  rw [if_neg (by decide), if_neg (by decide), if_neg (by decide), if_neg (by decide), if_neg (by decide), if_neg (by decide), if_neg (by decide), if_pos rfl]
  refine does_seq does_kind_next ?_
  cases hk : b.kind with
  | sample =>
    simp only [show Kind.sample.beginTok = TK.CmdExampleBegin from rfl, reduceCtorEq, if_false, if_true]
    have := does_example t hk hn
    unfold Block.toks at this
    rwa [hk] at this
  | foreign g e =>
    simp only [show (Kind.foreign g e).beginTok = TK.CmdExportBegin from rfl, reduceCtorEq, if_false, if_true]
    have := does_export t hk hn
    unfold Block.toks at this
    rwa [hk] at this

/-! ## A document -/

def lead (b : Block) : Nat := if b.indent = 0 then 0 else 1

/-- The nodes of a block, with the spaces before it and the line breaks after it. -/
def Block.forest (i : Nat) (b : Block) : Forest NK Unit :=
  (if b.indent = 0 then b.tree i else .tree .Paragraph .nil (b.tree (i + 1))).append
    (if b.after = 0 then .nil else .leaf .Newline (.tok (i + b.fin.length - 1)) .nil)

def docF : Nat → List Block → Forest NK Unit
  | _, [] => .nil
  | i, b :: d => (b.forest i).append (docF (i + b.fin.length) d)

theorem fin_length (b : Block) : b.fin.length = lead b + (2 + (b.headSize + (1 + ((linesRaw b.kind b.left).length + (2 + (afterRaw b.after).length))))) := by
  unfold Block.fin lead Block.headSize
  simp only [List.length_append, List.length_cons, List.length_nil]
  split_ifs <;> simp <;> omega

theorem fin_numbered (b : Block) (i : Nat) (w : List (Nat × TK)) :
    numbered i (kinds b.fin) ++ w = (if b.indent = 0 then [] else [(i, .LeadingSpace)]) ++ b.toks (i + lead b) (afterV (i + b.fin.length - 1) b.after ++ w) := by
  have hl := fin_length b
  have e : numbered i (kinds b.fin) = (if b.indent = 0 then [] else [(i, TK.LeadingSpace)]) ++ b.toks (i + lead b)
      (numbered (i + lead b + 2 + b.headSize + 1 + (linesRaw b.kind b.left).length + 1 + 1) (kinds (afterRaw b.after))) := by
    have : kinds b.fin = (if b.indent = 0 then [] else [TK.LeadingSpace]) ++ (TK.CmdPrefix :: b.kind.beginTok :: (kinds (wordsRaw b.kind.words ++ gapRaw b.gap) ++
        (.Newline :: (kinds (linesRaw b.kind b.left) ++ (.CmdPrefix :: b.kind.endTok :: kinds (afterRaw b.after)))))) := by
      unfold Block.fin
      split_ifs <;> simp [kinds]
    rw [this, numbered_append, numbered_cons, numbered_cons, numbered_append, numbered_cons, numbered_append, numbered_cons, numbered_cons, kinds_length, kinds_length]
    unfold Block.toks lead
    by_cases hi : b.indent = 0
    · rw [if_pos hi, if_pos hi, if_pos hi]
      rfl
    · rw [if_neg hi, if_neg hi, if_neg hi]
      rfl
  rw [e, after_kinds]
  have e2 : afterV (i + lead b + 2 + b.headSize + 1 + (linesRaw b.kind b.left).length + 1 + 1) b.after = afterV (i + b.fin.length - 1) b.after := by
    cases ha : b.after with
    | zero => rfl
    | succ n =>
      rw [ha] at hl
      have : (afterRaw (n + 1)).length = 1 := rfl
      rw [show i + lead b + 2 + b.headSize + 1 + (linesRaw b.kind b.left).length + 1 + 1 = i + b.fin.length - 1 from by omega]
  rw [e2]
  unfold Block.toks
  simp

theorem docFin_cons (b : Block) (d : List Block) : docFin (b :: d) = b.fin ++ docFin d := rfl

theorem does_doc (t : Texts) {d : List Block} {n m : Nat} (i : Nat) (hm : (docFin d).length ≤ m) (hn : (docFin d).length + 5 ≤ n) :
    Does (whileP (notP finishedP) (ifP (atP [.Comment]) nextP (recover (parseStmt t n) n)) m) () (numbered i (kinds (docFin d))) [] (docF i d) := by
  induction d generalizing i m with
  | nil => exact does_while_stop m (does_not (b := true) (does_finished _))
  | cons b d ih =>
    rw [docFin_cons] at hm hn
    rw [List.length_append] at hm hn
    have hl := fin_length b
    rw [docFin_cons, kinds_append, numbered_append, kinds_length, fin_numbered]
    -- the line breaks
    have hafter : ∀ m, (docFin d).length + 1 ≤ m → Does (whileP (notP finishedP) (ifP (atP [.Comment]) nextP (recover (parseStmt t n) n)) m) ()
        (afterV (i + b.fin.length - 1) b.after ++ numbered (i + b.fin.length) (kinds (docFin d))) []
        ((if b.after = 0 then .nil else .leaf .Newline (.tok (i + b.fin.length - 1)) .nil : Forest NK Unit).append (docF (i + b.fin.length) d)) := by
      intro m hm
      unfold afterV
      split_ifs with ha
      · exact ih _ (by omega) (by omega)
      · obtain ⟨m, rfl⟩ : ∃ x, m = x + 1 := ⟨m - 1, by omega⟩
        obtain ⟨n, rfl⟩ : ∃ x, n = x + 1 := ⟨n - 1, by omega⟩
        have hk : breakKind (b.after - 1) ∈ newlineKinds := by
          generalize b.after - 1 = x
          match x with
          | 0 | 1 | x + 2 => simp [breakKind, newlineKinds]
        exact does_rounds t (by
          show breakKind (b.after - 1) ≠ .Comment
          intro h
          rw [h] at hk
          exact absurd hk (by decide)) (does_break t hk) (ih _ (by omega) (by omega))
    -- the block
    have hblock : ∀ m, (docFin d).length + 2 ≤ m → Does (whileP (notP finishedP) (ifP (atP [.Comment]) nextP (recover (parseStmt t n) n)) m) ()
        (b.toks (i + lead b) (afterV (i + b.fin.length - 1) b.after ++ numbered (i + b.fin.length) (kinds (docFin d)))) []
        ((b.tree (i + lead b)).append ((if b.after = 0 then .nil else .leaf .Newline (.tok (i + b.fin.length - 1)) .nil : Forest NK Unit).append (docF (i + b.fin.length) d))) := by
      intro m hm
      obtain ⟨m, rfl⟩ : ∃ x, m = x + 1 := ⟨m - 1, by omega⟩
      obtain ⟨n, rfl⟩ : ∃ x, n = x + 1 := ⟨n - 1, by omega⟩
      refine does_rounds t (by show TK.CmdPrefix ≠ .Comment; decide) (does_block t ?_) (hafter m (by omega))
      unfold Block.toks afterV
      have : 1 ≤ (afterRaw b.after).length ∨ b.after = 0 := by cases b.after <;> simp [afterRaw]
      simp only [List.length_cons, List.length_append, numbered_length, kinds_length]
      have hh : (wordsRaw b.kind.words).length + (gapRaw b.gap).length = b.headSize := by unfold Block.headSize; rw [List.length_append]
      split_ifs with h0
      · simp only [List.length_nil]; omega
      · rcases this with h1 | h1
        · simp only [List.length_cons, List.length_nil]; omega
        · exact absurd h1 h0
    rw [docF]
    unfold Block.forest
    by_cases hi : b.indent = 0
    · have hl0 : lead b = 0 := if_pos hi
      rw [if_pos hi, if_pos hi]
      rw [forest_assoc, List.nil_append]
      rw [hl0] at hblock ⊢
      exact hblock m (by omega)
    · have hl1 : lead b = 1 := if_neg hi
      rw [if_neg hi, if_neg hi]
      rw [hl1] at hblock ⊢
      obtain ⟨m, rfl⟩ : ∃ x, m = x + 1 := ⟨m - 1, by omega⟩
      obtain ⟨n, rfl⟩ : ∃ x, n = x + 5 := ⟨n - 5, by omega⟩
      rw [forest_assoc]
      exact does_rounds (f := .tree .Paragraph .nil .nil) t (by show TK.LeadingSpace ≠ .Comment; decide) (does_spaces t (j := i + 1) rfl) (hblock m (by omega))

/-- From the text to the nodes. -/
theorem doc_nodes {d : List Block} (h : DocValid d) {n : Nat} (hn : (docFin d).length + 5 ≤ n) :
    ∃ toks, Pipeline.parse BaseLexer.stdLex n (render d) = .ok (toks, (Forest.tree NK.StmtList (docF 1 d) .nil).flat) ∧ raws toks = docFin d := by
  obtain ⟨toks, h1, h2⟩ := doc_tokens h
  refine ⟨toks, ?_, h2⟩
  unfold Pipeline.parse
  rw [h1]
  dsimp only
  have hk : toks.map (·.kind) = kinds (docFin d) := by
    rw [← h2]
    simp [kinds, raws]
  rw [hk]
  have hd := does_node .StmtList (does_doc (texts toks) (d := d) (n := n) (m := n) 1 (by omega) hn)
  by_cases he : d = []
  · subst he
    obtain ⟨n, rfl⟩ : ∃ x, n = x + 1 := ⟨n - 1, by omega⟩
    rfl
  · have hne : kinds (docFin d) ≠ [] := by
      cases d with
      | nil => exact absurd rfl he
      | cons b d =>
        intro h0
        have := congrArg List.length h0
        rw [kinds_length, docFin_cons, List.length_append, fin_length] at this
        simp at this
    obtain ⟨l, q1, -⟩ := hd ⟨Lex.main (kinds (docFin d)), {}⟩ (cur_main hne) (contig_numbered _ _)
    unfold parseTop
    rw [q1]
    simp

end Verif.Raw
