import Verif.Keywords.Tokens
import Verif.Code.ParseDoc
import Verif.Code.Convert
import Verif.Sem.Exact

/-!
# From the tokens of keyword lines to the document
-/

namespace Verif.Keywords
open Verif.Lexer Verif.NodeGroup Verif.NodeGroup.Spec
open Verif.Parser hiding TK Does does_bind does_ret does_seq does_if_true does_if_false does_at does_finished does_next does_expect does_skip does_popAny does_popAs
  does_empty does_node does_sub does_while_stop does_while_step does_not does_and
open Verif.Pipeline (numbered numbered_cons numbered_append texts tokAt)
open Verif.Link (Does does_bind does_ret does_seq does_then does_if_true does_if_false does_and_true does_and_false does_ask does_at does_at_true does_at_false
  does_finished does_kind does_next does_expect does_skip does_popAny does_popAs does_empty does_node does_sub does_ignore does_while_stop does_while_step does_not
  does_and does_canSearch_true does_canSearch_false Contig contig_numbered)
open Verif.Stamp (Raw trim numbered_length Out)
open Verif.Token (TK Tok)
open Verif.Drawer (Text stripSpace)
open Verif.Sem (children groupsF children_tree groupsF_append)
open Verif.Code (afterRaw breakKind raws kinds kinds_append kinds_length trim_cons does_space does_at_head does_kind_next does_rounds forest_assoc afterV after_kinds
  Says shows_toks)

/-! ## Parsing -/

/-- The nodes of a line. -/
def Line.tree (i : Nat) (l : Line) : Forest NK Unit :=
  if l.kind = .CmdStartup then .tree .CmdStartup (.leaf .RawText (.tok (i + 2)) .nil) .nil
  else if l.kind = .CmdOptions then .tree .CmdOptions (.tree .InlineStmtList (.leaf .RawText (.tok (i + 2)) .nil) .nil) .nil
  else if l.kind = .CmdKeywordsRaw then .tree .CmdKeywords (.tree .InlineStmtList (.leaf .RawText (.tok (i + 2)) .nil) .nil) .nil
  else if l.kind = .CmdEmailRaw then .tree .CmdEmail (.leaf .RawText (.tok (i + 2)) .nil) .nil
  else .tree .CmdCustomRawCommand (.leaf .RawText (.tok (i + 1)) (.leaf .RawText (.tok (i + 2)) .nil)) .nil

def Line.toks (i : Nat) (l : Line) (w : List (Nat × TK)) : List (Nat × TK) :=
  (i, .CmdPrefix) :: (i + 1, l.kind) :: (i + 2, .RawText) :: (afterV (i + 3) l.after ++ w)

/-- What comes after a line is the start of a line. -/
def Starts (w : List (Nat × TK)) : Prop := ∀ p ∈ w.head?, p.2 = .CmdPrefix

theorem does_newlines {n j a : Nat} {w : List (Nat × TK)} (hw : Starts w) (hn : 1 ≤ n) : Does (newlineP n) () (afterV j a ++ w) w .nil := by
  have hstop : ∀ n, Does (newlineP n) () w w .nil := fun n => does_while_stop n (does_at_false (by
    intro p hp
    rw [hw p hp]
    decide))
  unfold afterV
  split_ifs with h
  · exact hstop n
  · obtain ⟨n, rfl⟩ : ∃ m, n = m + 1 := ⟨n - 1, by omega⟩
    refine does_while_step (f := .nil) (g := .nil) (does_at_true ?_) (does_next _ _) (hstop n)
    generalize a - 1 = x
    match x with
    | 0 | 1 | x + 2 => simp [breakKind, newlineKinds]

theorem after_head {j a : Nat} {w : List (Nat × TK)} (hw : Starts w) : ∀ p ∈ (afterV j a ++ w).head?, p.2 ∈ [TK.CmdPrefix, .Newline, .MediumNewline, .LongNewline] := by
  unfold afterV
  split_ifs with h
  · intro p hp
    rw [hw p hp]
    decide
  · intro p hp
    cases hp
    dsimp only
    generalize a - 1 = x
    match x with
    | 0 | 1 | x + 2 => simp [breakKind]

theorem does_tail_space {n j a : Nat} {w : List (Nat × TK)} (hw : Starts w) (hn : (afterV j a ++ w).length ≤ n) :
    Does (spaceP n) () (afterV j a ++ w) (afterV j a ++ w) .nil := by
  have := does_space hn
  have h := after_head (j := j) (a := a) hw
  cases hv : afterV j a ++ w with
  | nil => rw [hv] at this; exact this
  | cons p v =>
    rw [hv] at this h
    rwa [trim_cons (i := p.1)] at this
    have := h p rfl
    revert this
    generalize p.2 = k
    revert k
    decide

theorem does_tail_at {ks : List TK} {j a : Nat} {w : List (Nat × TK)} (hw : Starts w) (h : ∀ k ∈ [TK.CmdPrefix, .Newline, .MediumNewline, .LongNewline], k ∉ ks) :
    Does (atP ks) false (afterV j a ++ w) (afterV j a ++ w) .nil :=
  does_at_false (fun p hp => h _ (after_head hw p hp))

theorem does_text_space {n i : Nat} {v : List (Nat × TK)} (hn : v.length + 1 ≤ n) : Does (spaceP n) () ((i, .RawText) :: v) ((i, .RawText) :: v) .nil := by
  have := does_space (v := (i, TK.RawText) :: v) (n := n) (by simpa using hn)
  rwa [trim_cons (by decide)] at this

theorem does_line (t : Texts) {l : Line} (hl : l.Valid) {n i : Nat} {w : List (Nat × TK)} (hw : Starts w) (hn : (l.toks i w).length ≤ n) :
    Does (parseStmt t (n + 1)) () (l.toks i w) w (l.tree i) := by
  rw [parseStmt]
  refine does_seq (does_kind _ _ _) ?_
  rw [if_neg (by decide), if_neg (by decide), if_neg (by decide), if_neg (by decide), if_neg (by decide), if_neg (by decide), if_neg (by decide), if_pos rfl]
  refine does_seq does_kind_next ?_
  have hk := kind_mem hl
  have hno : l.kind ≠ .CmdSrcBegin ∧ l.kind ≠ .CmdExampleBegin ∧ l.kind ≠ .CmdExportBegin ∧
      l.kind ∉ [TK.CmdVerseBegin, .CmdCenterBegin, .CmdCommentBegin, .CmdDynamicBlockBegin, .CmdQuoteBegin] ∧ l.kind ≠ .CmdTableBegin := by
    revert hk
    generalize l.kind = x
    revert x
    decide
  rw [if_neg hno.1, if_neg hno.2.1, if_neg hno.2.2.1, if_neg hno.2.2.2.1, if_neg hno.2.2.2.2]
  refine does_seq does_kind_next ?_
  unfold Line.toks at hn
  simp only [List.length_cons] at hn
  obtain ⟨m, rfl⟩ : ∃ m, n = m + 1 := ⟨n - 1, by omega⟩
  have hlen : (afterV (i + 3) l.after ++ w).length ≤ m := by omega
  unfold lineCommand Line.tree
  by_cases k1 : l.kind = .CmdStartup
  · rw [k1]
    rw [if_neg (by decide), if_neg (by decide), if_neg (by decide), if_neg (by decide), if_neg (by decide), if_pos (by decide), if_pos rfl]
    refine does_node _ (does_seq (does_skip t (by decide)) (does_seq (does_skip t (by decide)) (does_seq (does_text_space (by omega)) (does_then (a := ()) (v' := afterV (i + 3) l.after ++ w) ?_
      (does_newlines hw (by omega))))))
    exact does_while_step (f := .leaf .RawText (.tok (i + 2)) .nil) (g := .nil) (does_at_true (by decide)) (does_then (does_popAny _ _ _ _) (does_tail_space hw (by omega)))
      (does_while_stop m (does_tail_at hw (by decide)))
  have hargs : Does (cmdArguments t (m + 1)) () ((i + 2, .RawText) :: (afterV (i + 3) l.after ++ w)) (afterV (i + 3) l.after ++ w)
      (.tree .InlineStmtList (.leaf .RawText (.tok (i + 2)) .nil) .nil) :=
    does_node _ (does_while_step (f := .leaf .RawText (.tok (i + 2)) .nil) (g := .nil) (does_at_true (by decide)) (does_popAs t _ (by decide)) (does_while_stop m (does_tail_at hw (by decide))))
  by_cases k2 : l.kind = .CmdOptions
  · rw [k2]
    rw [if_neg (by decide), if_neg (by decide), if_neg (by decide), if_neg (by decide), if_neg (by decide), if_neg (by decide), if_neg (by decide), if_neg (by decide), if_pos (by decide),
      if_neg (by decide), if_pos rfl]
    exact does_seq (does_skip t (by decide)) (does_seq (does_skip t (by decide)) (does_seq (does_text_space (by omega)) (does_node _ (does_then hargs (does_newlines hw (by omega))))))
  by_cases k3 : l.kind = .CmdKeywordsRaw
  · rw [k3]
    rw [if_neg (by decide), if_neg (by decide), if_neg (by decide), if_neg (by decide), if_neg (by decide), if_neg (by decide), if_neg (by decide), if_neg (by decide), if_pos (by decide),
      if_neg (by decide), if_neg (by decide), if_pos rfl]
    exact does_seq (does_skip t (by decide)) (does_seq (does_skip t (by decide)) (does_seq (does_text_space (by omega)) (does_node _ (does_then hargs (does_newlines hw (by omega))))))
  by_cases k4 : l.kind = .CmdEmailRaw
  · rw [k4]
    rw [if_neg (by decide), if_neg (by decide), if_neg (by decide), if_neg (by decide), if_neg (by decide), if_pos (by decide), if_neg (by decide), if_neg (by decide), if_neg (by decide), if_pos rfl]
    refine does_node _ (does_seq (does_skip t (by decide)) (does_seq (does_skip t (by decide)) (does_seq (does_text_space (by omega)) (does_then (a := ()) (v' := afterV (i + 3) l.after ++ w) ?_
      (does_newlines hw (by omega))))))
    exact does_while_step (f := .leaf .RawText (.tok (i + 2)) .nil) (g := .nil) (does_at_true (by decide)) (does_then (does_popAny _ _ _ _) (does_tail_space hw (by omega)))
      (does_while_stop m (does_tail_at hw (by decide)))
  · have hc : l.kind ∈ customRaw := by
      revert hk k1 k2 k3 k4
      generalize l.kind = x
      revert x
      decide
    rw [if_pos hc, if_neg k1, if_neg k2, if_neg k3, if_neg k4]
    refine does_node _ (does_seq (does_skip t (by decide)) (does_bind (f := .leaf .RawText (.tok (i + 1)) .nil) (g := .leaf .RawText (.tok (i + 2)) .nil)
      (does_popAs t _ (by simp)) (does_seq (does_text_space (by omega)) (does_then (a := ()) (v' := afterV (i + 3) l.after ++ w) ?_ (does_newlines hw (by omega))))))
    exact does_while_step (f := .leaf .RawText (.tok (i + 2)) .nil) (g := .nil) (does_at_true (by decide))
      (does_then (does_popAs t _ (by decide)) (does_if_false (does_tail_at hw (by decide)) (does_ret _ _))) (does_while_stop m (does_tail_at hw (by decide)))

def docF : Nat → List Line → Forest NK Unit
  | _, [] => .nil
  | i, l :: d => (l.tree i).append (docF (i + l.fin.length) d)

theorem docFin_cons (l : Line) (d : List Line) : docFin (l :: d) = l.fin ++ docFin d := rfl

theorem fin_length (l : Line) : l.fin.length = 3 + (afterRaw l.after).length := by
  simp [Line.fin]
  omega

theorem does_doc (t : Texts) {d : List Line} (hd : DocValid d) {n m : Nat} (i : Nat) (hm : (docFin d).length ≤ m) (hn : (docFin d).length + 5 ≤ n) :
    Does (whileP (notP finishedP) (ifP (atP [.Comment]) nextP (recover (parseStmt t n) n)) m) () (numbered i (kinds (docFin d))) [] (docF i d) := by
  induction d generalizing i m with
  | nil => exact does_while_stop m (does_not (b := true) (does_finished _))
  | cons l d ih =>
    rw [docFin_cons, List.length_append] at hm hn
    have hl := fin_length l
    rw [docFin_cons, kinds_append, numbered_append, kinds_length]
    have e : numbered i (kinds l.fin) ++ numbered (i + l.fin.length) (kinds (docFin d)) = l.toks i (numbered (i + l.fin.length) (kinds (docFin d))) := by
      have : kinds l.fin = TK.CmdPrefix :: l.kind :: .RawText :: kinds (afterRaw l.after) := rfl
      rw [this, numbered_cons, numbered_cons, numbered_cons, after_kinds]
      rfl
    rw [e]
    obtain ⟨m, rfl⟩ : ∃ x, m = x + 1 := ⟨m - 1, by omega⟩
    obtain ⟨n, rfl⟩ : ∃ x, n = x + 1 := ⟨n - 1, by omega⟩
    refine does_rounds t (by show TK.CmdPrefix ≠ .Comment; decide) (does_line t hd.1 ?_ ?_) (ih hd.2.2 _ (by omega) (by omega))
    · intro p hp
      cases d with
      | nil => cases hp
      | cons l' d => cases hp; rfl
    · rw [← e, List.length_append, numbered_length, numbered_length, kinds_length, kinds_length]
      omega

/-- From the text to the nodes. -/
theorem doc_nodes {d : List Line} (h : DocValid d) {n : Nat} (hn : (docFin d).length + 5 ≤ n) :
    ∃ toks, Pipeline.parse BaseLexer.stdLex n (render d) = .ok (toks, (Forest.tree NK.StmtList (docF 1 d) .nil).flat) ∧ raws toks = docFin d := by
  obtain ⟨toks, h1, h2⟩ := doc_tokens h
  refine ⟨toks, ?_, h2⟩
  unfold Pipeline.parse
  rw [h1]
  dsimp only
  have hk : toks.map (·.kind) = kinds (docFin d) := by
    rw [← h2]
    simp [kinds, raws]
  rw [hk]
  have hd := does_node .StmtList (does_doc (texts toks) h (n := n) (m := n) 1 (by omega) hn)
  by_cases he : d = []
  · subst he
    obtain ⟨n, rfl⟩ : ∃ x, n = x + 1 := ⟨n - 1, by omega⟩
    rfl
  · have hne : kinds (docFin d) ≠ [] := by
      cases d with
      | nil => exact absurd rfl he
      | cons b d =>
        intro h0
        have := congrArg List.length h0
        rw [kinds_length, docFin_cons, List.length_append, fin_length] at this
        simp at this
    obtain ⟨l, q1, -⟩ := hd ⟨Lex.main (kinds (docFin d)), {}⟩ (cur_main hne) (contig_numbered _ _)
    unfold parseTop
    rw [q1]
    simp

/-! ## Conversion -/

/-- What a line does to the document. -/
def Line.effect (l : Line) (d : Doc) : Out Doc :=
  match l.role with
  | some .startup => (startupLine l.rest d.opts).bind fun o => .ok { d with opts := o }
  | some .options => (optionsLine l.rest d.opts).bind fun o => .ok { d with opts := o }
  | some .keywords => .ok d
  | some .email => .ok { d with nodes := d.nodes ++ [.email (stripSpace l.rest)] }
  | some .custom => .ok { d with nodes := d.nodes ++ [.custom l.head l.rest] }
  | none => .outside

def effects : List Line → Doc → Out Doc
  | [], d => .ok d
  | l :: ls, d => (l.effect d).bind (effects ls)

theorem listText_leaf {toks : List Tok} {i : Nat} {k : TK} {u : Text} {r : Raw} (h : Says toks i ((k, u) :: r)) :
    listText toks [⟨.RawText, .tok i⟩] = .ok u := by
  unfold listText
  rw [if_neg (by simp [Sem.kindOf]), h.text]

theorem listText_list {toks : List Tok} {i : Nat} {k : TK} {u : Text} {r : Raw} (h : Says toks i ((k, u) :: r)) :
    listText toks (⟨NK.InlineStmtList, .ext (Forest.leaf NK.RawText (.tok i) .nil : Forest NK Unit).count⟩ :: (Forest.leaf NK.RawText (.tok i) .nil : Forest NK Unit).flat) = .ok u := by
  unfold listText
  rw [if_pos (by rfl), children_tree]
  simp only [groupsF]
  rw [Code.each_cons (h.text _ _) rfl]
  simp [Out.bind]

theorem update_line {toks : List Tok} {l : Line} (hl : l.Valid) {i : Nat} (h : Says toks i l.fin) (d : Doc) :
    updates toks (groupsF (l.tree i)) d = (l.effect d).bind Out.ok := by
  have h1 : Says toks (i + 1) ((l.kind, l.head) :: (.RawText, l.rest) :: afterRaw l.after) := h.tail
  have h2 : Says toks (i + 2) ((.RawText, l.rest) :: afterRaw l.after) := h1.tail
  obtain ⟨r, hr, hk⟩ := kind_role hl
  unfold Line.effect Line.tree
  rw [hr]
  have hone : ∀ a : Sem.Adapter, updates toks [a] d = (update toks a d).bind Out.ok := fun a => rfl
  cases r with
  | startup =>
    have hk : l.kind = .CmdStartup := hk
    rw [if_pos hk]
    simp only [groupsF]
    rw [hone]
    congr 1
    unfold update
    rw [if_neg (by simp [Sem.kindOf]), if_pos (by simp [Sem.kindOf])]
    unfold firstText
    rw [children_tree]
    simp only [groupsF]
    rw [listText_leaf h2]
    rfl
  | options =>
    have hk : l.kind = .CmdOptions := hk
    rw [if_neg (by rw [hk]; decide), if_pos hk]
    simp only [groupsF]
    rw [hone]
    congr 1
    unfold update
    rw [if_pos (by simp [Sem.kindOf])]
    unfold firstText
    rw [children_tree]
    simp only [groupsF]
    rw [listText_list h2]
    rfl
  | keywords =>
    have hk : l.kind = .CmdKeywordsRaw := hk
    rw [if_neg (by rw [hk]; decide), if_neg (by rw [hk]; decide), if_pos hk]
    rfl
  | email =>
    have hk : l.kind = .CmdEmailRaw := hk
    rw [if_neg (by rw [hk]; decide), if_neg (by rw [hk]; decide), if_neg (by rw [hk]; decide), if_pos hk]
    simp only [groupsF]
    rw [hone]
    congr 1
    unfold update
    rw [if_neg (by simp [Sem.kindOf]), if_neg (by simp [Sem.kindOf]), if_neg (by simp [Sem.kindOf]), children_tree, if_neg (by simp [groupsF, Sem.isError, Sem.kindOf]),
      if_pos (by simp [Sem.kindOf])]
    unfold emailOf
    rw [children_tree]
    simp only [groupsF]
    rw [listText_leaf h2]
    rfl
  | custom =>
    have hk : l.kind ∈ [TK.CmdTagsRaw, .CmdDrawersRaw, .CmdCategoryRaw, .CmdPrioritiesRaw, .CmdLatexHeaderExtraRaw, .CmdMacroRaw, .CmdBindRaw, .CmdExcludeTagsRaw,
      .CmdSelectTagsRaw, .CmdSetupfileRaw, .CmdSeqTodoRaw, .CmdCustomRaw] := hk
    have hno : l.kind ≠ .CmdStartup ∧ l.kind ≠ .CmdOptions ∧ l.kind ≠ .CmdKeywordsRaw ∧ l.kind ≠ .CmdEmailRaw := by
      revert hk
      generalize l.kind = x
      revert x
      decide
    rw [if_neg hno.1, if_neg hno.2.1, if_neg hno.2.2.1, if_neg hno.2.2.2]
    simp only [groupsF]
    rw [hone]
    congr 1
    unfold update
    rw [if_neg (by simp [Sem.kindOf]), if_neg (by simp [Sem.kindOf]), if_neg (by simp [Sem.kindOf]), children_tree, if_neg (by simp [groupsF, Sem.isError, Sem.kindOf]),
      if_neg (by simp [Sem.kindOf]), if_pos (by simp [Sem.kindOf])]
    unfold customOf
    rw [children_tree]
    simp only [groupsF]
    rw [listText_leaf h1, listText_leaf h2]
    rfl

theorem updates_append (toks : List Tok) (a b : List Sem.Adapter) (d : Doc) : updates toks (a ++ b) d = (updates toks a d).bind (updates toks b) := by
  induction a generalizing d with
  | nil => rfl
  | cons x a ih =>
    rw [List.cons_append, updates, updates]
    cases update toks x d with
    | ok d' => exact ih d'
    | _ => rfl

theorem doc_read {toks : List Tok} {ls : List Line} (hd : DocValid ls) {i : Nat} (h : Says toks i (docFin ls)) (d : Doc) :
    updates toks (groupsF (docF i ls)) d = effects ls d := by
  induction ls generalizing i d with
  | nil => rfl
  | cons l ls ih =>
    rw [docFin_cons] at h
    rw [docF, groupsF_append, updates_append, update_line hd.1 h.left, effects]
    cases l.effect d with
    | ok d' => exact ih hd.2.2 h.right d'
    | _ => rfl

/-- Reading of a document. -/
theorem read_doc {d : List Line} (h : DocValid d) {n : Nat} (hn : (docFin d).length + 5 ≤ n) : read n (render d) = .ok (effects d {}) := by
  obtain ⟨toks, h1, h2⟩ := doc_nodes h hn
  unfold read
  rw [h1]
  dsimp only
  have e : (Forest.tree NK.StmtList (docF 1 d) .nil : Forest NK Unit).flat = ⟨.StmtList, .ext (docF 1 d).count⟩ :: (docF 1 d).flat := by simp [Forest.flat]
  rw [e, children_tree, doc_read h (h2 ▸ shows_toks toks)]

theorem docFin_le (d : List Line) : (docFin d).length ≤ 4 * d.length := by
  induction d with
  | nil => exact Nat.le_refl _
  | cons l d ih =>
    rw [docFin_cons, List.length_append, fin_length, List.length_cons]
    have : (afterRaw l.after).length ≤ 1 := by cases l.after <;> simp [afterRaw]
    omega

end Verif.Keywords
