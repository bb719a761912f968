import Verif.Code.Parse

/-!
# The first line of a block, blocks and documents
-/

namespace Verif.Code
open Verif.Lexer Verif.NodeGroup Verif.NodeGroup.Spec
open Verif.Parser hiding TK Does does_bind does_ret does_seq does_if_true does_if_false does_at does_finished does_next does_expect does_skip does_popAny does_popAs
  does_empty does_node does_sub does_while_stop does_while_step does_not does_and
open Verif.Pipeline (numbered numbered_cons numbered_append texts tokAt)
open Verif.Link (Does does_bind does_ret does_seq does_then does_if_true does_if_false does_and_true does_and_false does_ask does_at does_at_true does_at_false
  does_finished does_kind does_next does_expect does_skip does_popAny does_popAs does_empty does_node does_sub does_ignore does_while_stop does_while_step does_not
  does_and does_canSearch_true does_canSearch_false does_collect valid_left Contig contig_numbered)
open Verif.Stamp (Raw trim numbered_fst numbered_snd numbered_length)
open Verif.Token (TK Tok)

/-! ## Arguments -/

/-- The nodes of an argument; `i` is the token of the spaces before it. -/
def Arg.forest (i : Nat) : Arg → Forest NK Unit
  | .pair _ _ _ => .tree .AttrValue (.leaf .Word (.tok (i + 1)) (.leaf .Empty (.mono ()) (.leaf .RawText (.tok (i + 3)) (.leaf .Empty (.mono ()) .nil)))) .nil
  | .key _ => .tree .AttrValue (.leaf .Word (.tok (i + 1)) (.leaf .Empty (.mono ()) (.leaf .Empty (.mono ()) (.leaf .Empty (.mono ()) .nil)))) .nil
  | .word _ => .tree .AttrValue (.leaf .Empty (.mono ()) (.leaf .Empty (.mono ()) (.leaf .RawText (.tok (i + 1)) (.leaf .Empty (.mono ()) .nil)))) .nil

/-- The number of its tokens, with the spaces. -/
def Arg.size : Arg → Nat
  | .pair _ _ _ => 4
  | _ => 2

def argsF : Nat → List (Nat × Arg) → Forest NK Unit
  | _, [] => .nil
  | i, a :: r => (a.2.forest i).append (argsF (i + a.2.size) r)

/-- The tokens after the first words of the first line. -/
def argsV (i : Nat) (as : List (Nat × Arg)) (gap : Nat) (w : List (Nat × TK)) : List (Nat × TK) :=
  numbered i (kinds (wordsRaw (argsWords as) ++ gapRaw gap)) ++ w

theorem argsV_cons (i : Nat) (a : Nat × Arg) (as : List (Nat × Arg)) (gap : Nat) (w : List (Nat × TK)) :
    argsV i (a :: as) gap w = numbered i (kinds (wordsRaw (a.2.words a.1))) ++ argsV (i + a.2.size) as gap w := by
  unfold argsV
  have : wordsRaw (argsWords (a :: as)) = wordsRaw (a.2.words a.1) ++ wordsRaw (argsWords as) := by simp [argsWords, wordsRaw]
  rw [this, List.append_assoc, kinds_append, numbered_append, List.append_assoc]
  congr 3
  obtain ⟨g, a⟩ := a
  cases a <;> rfl

/-- What follows a word. -/
def Calm (v : List (Nat × TK)) : Prop := ∀ p ∈ v.head?, p.2 = .Whitespace ∨ p.2 = .CmdContentBegin

theorem calm_args {i : Nat} {as : List (Nat × Arg)} {gap : Nat} {w : List (Nat × TK)} (hw : Calm w) : Calm (argsV i as gap w) := by
  cases as with
  | nil =>
    unfold argsV gapRaw
    split_ifs
    · exact hw
    · intro p hp
      cases hp
      exact .inl rfl
  | cons a as =>
    rw [argsV_cons]
    obtain ⟨g, a⟩ := a
    cases a <;> · intro p hp; cases hp; exact .inl rfl

theorem calm_trim {i : Nat} {as : List (Nat × Arg)} {gap : Nat} {w : List (Nat × TK)} (hw : ∀ p ∈ w.head?, p.2 = .CmdContentBegin) :
    ∀ p ∈ (trim (argsV i as gap w)).head?, p.2 = .CmdContentBegin ∨ p.2 = .CmdColonIdent ∨ p.2 = .CmdRawArg ∧ ∃ b ∈ as.head?, b.2.isWord = true := by
  cases as with
  | nil =>
    have e : trim (argsV i [] gap w) = trim w := by
      unfold argsV gapRaw
      split_ifs
      · rfl
      · exact trim_space
    rw [e]
    cases w with
    | nil => simp [trim]
    | cons p w =>
      obtain ⟨j, k⟩ := p
      have hk := hw _ rfl
      dsimp only at hk
      subst hk
      rw [trim_cons (by decide)]
      intro p hp; cases hp; exact .inl rfl
  | cons a as =>
    rw [argsV_cons]
    obtain ⟨g, a⟩ := a
    cases a with
    | pair n g' v =>
      show ∀ p ∈ (trim ((i, TK.Whitespace) :: (i + 1, .CmdColonIdent) :: _)).head?, _
      rw [trim_space, trim_cons (by decide)]
      intro p hp; cases hp; exact .inr (.inl rfl)
    | key n =>
      show ∀ p ∈ (trim ((i, TK.Whitespace) :: (i + 1, .CmdColonIdent) :: _)).head?, _
      rw [trim_space, trim_cons (by decide)]
      intro p hp; cases hp; exact .inr (.inl rfl)
    | word n =>
      show ∀ p ∈ (trim ((i, TK.Whitespace) :: (i + 1, .CmdRawArg) :: _)).head?, _
      rw [trim_space, trim_cons (by decide)]
      intro p hp; cases hp; exact .inr (.inr ⟨rfl, _, rfl, rfl⟩)

theorem does_next_is {kinds : List TK} {p : Nat × TK} {v : List (Nat × TK)} (hv : ∀ q ∈ v.head?, q.2 ∉ kinds) : Does (atP kinds 1) false (p :: v) (p :: v) .nil := by
  have := does_at kinds 1 (p :: v)
  cases v with
  | nil => simpa using this
  | cons q v =>
    have hq := hv q rfl
    simpa [hq] using this

/-- A value, and no brackets after it. -/
theorem does_value (t : Texts) {n i : Nat} {v : List (Nat × TK)} (hv : Calm v) (p : P Unit) (q : P Unit) (r : P Unit) :
    Does (P.bind (ifP (andP (atP [.CmdRawArg]) (atP eqTokens 1)) p emptyP) fun _ => P.bind (ifP (atP [.ParBegin]) q (ifP (atP [.CmdRawArg]) (popAs t .RawText [.CmdRawArg]) emptyP))
      fun _ => ifP (atP [.BraceBegin]) r emptyP) () ((i, .CmdRawArg) :: v) v
      (.leaf .Empty (.mono ()) (.leaf .RawText (.tok i) (.leaf .Empty (.mono ()) .nil))) := by
  refine does_bind (f := .leaf .Empty (.mono ()) .nil) (does_if_false (does_and (does_at_true (by decide)) (does_next_is fun q hq => ?_)) (does_empty _))
    (does_bind (f := .leaf .RawText (.tok i) .nil) (does_if_false (does_at_head (by decide)) (does_if_true (does_at_true (by decide)) (does_popAs t _ (by decide))))
      (does_if_false (does_at_false fun q hq => ?_) (does_empty _)))
  · rcases hv q hq with h | h <;> rw [h] <;> decide
  · rcases hv q hq with h | h <;> rw [h] <;> decide

theorem does_args (t : Texts) {as : List (Nat × Arg)} (h : ArgsValid as) {n m : Nat} (i gap : Nat) {w : List (Nat × TK)} {j : Nat}
    (hw : w.head? = some (j, .CmdContentBegin)) (hm : as.length ≤ m) (hn : (argsV i as gap w).length ≤ n) :
    Does (whileP (atP [.CmdRawArg, .CmdColonIdent]) (P.bind (subP t (parseAttrValue t n)) fun _ => spaceP n) m) () (trim (argsV i as gap w)) w (argsF i as) := by
  have hw' : ∀ p ∈ w.head?, p.2 = .CmdContentBegin := by
    intro p hp
    rw [hw] at hp
    cases hp
    rfl
  have hcalm : Calm w := fun p hp => .inr (hw' p hp)
  induction as generalizing i m with
  | nil =>
    have e : trim (argsV i [] gap w) = w := by
      have : trim w = w := by
        cases w with
        | nil => rfl
        | cons p w =>
          cases hw
          exact trim_cons (by decide)
      unfold argsV gapRaw
      split_ifs
      · exact this
      · exact trim_space.trans this
    rw [e]
    refine does_while_stop m (does_at_false fun p hp => ?_)
    rw [hw' p hp]
    decide
  | cons a as ih =>
    obtain ⟨m, rfl⟩ : ∃ x, m = x + 1 := ⟨m - 1, by simp at hm; omega⟩
    obtain ⟨g, a⟩ := a
    obtain ⟨-, hk, hv⟩ := h
    have hlen : (argsV (i + a.size) as gap w).length ≤ n := by
      rw [argsV_cons, List.length_append] at hn
      dsimp only at hn
      omega
    have ih := ih hv (i + a.size) (by simpa using hm) hlen
    rw [argsV_cons]
    have hcalm' : Calm (argsV (i + a.size) as gap w) := calm_args hcalm
    have htrim := calm_trim (i := i + a.size) (as := as) (gap := gap) hw'
    cases a with
    | pair nm g' v =>
      show Does _ () (trim ((i, TK.Whitespace) :: (i + 1, .CmdColonIdent) :: (i + 1 + 1, .Whitespace) :: (i + 1 + 1 + 1, .CmdRawArg) :: argsV (i + 4) as gap w)) _ _
      rw [trim_space, trim_cons (by decide)]
      refine does_while_step (f := Arg.forest i (.pair nm g' v)) (does_at_true (by decide)) (does_then (a := ()) (does_sub t (does_node _ ?_)) (does_space hlen)) ih
      refine does_if_true (does_at_true (by decide)) (does_bind (f := .leaf .Word (.tok (i + 1)) .nil)
        (does_if_true (does_at_true (by decide)) (does_then (does_popAs t _ (by decide)) (does_space ?_))) ?_)
      · rw [argsV_cons, List.length_append] at hn
        have : (numbered i (kinds (wordsRaw (Arg.words (g, Arg.pair nm g' v).1 (g, Arg.pair nm g' v).2)))).length = 4 := rfl
        have e2 : (argsV (i + (g, Arg.pair nm g' v).2.size) as gap w).length = (argsV (i + 4) as gap w).length := rfl
        simp only [List.length_cons]
        omega
      · rw [trim_space, trim_cons (by decide)]
        exact does_value t (n := n) hcalm' _ _ _
    | key nm =>
      show Does _ () (trim ((i, TK.Whitespace) :: (i + 1, .CmdColonIdent) :: argsV (i + 2) as gap w)) _ _
      rw [trim_space, trim_cons (by decide)]
      refine does_while_step (f := Arg.forest i (.key nm)) (does_at_true (by decide)) (does_then (a := ()) (v' := trim (argsV (i + 2) as gap w)) (does_sub t (does_node _ ?_)) ?_) ih
      · refine does_if_true (does_at_true (by decide)) (does_bind (f := .leaf .Word (.tok (i + 1)) .nil)
          (does_if_true (does_at_true (by decide)) (does_then (does_popAs t _ (by decide)) (does_space hlen))) ?_)
        have no : ∀ p ∈ (trim (argsV (i + 2) as gap w)).head?, p.2 = .CmdContentBegin ∨ p.2 = .CmdColonIdent := by
          intro p hp
          rcases htrim p hp with h | h | ⟨-, b, hb, h⟩
          · exact .inl h
          · exact .inr h
          · rw [hk rfl b hb] at h
            cases h
        have off : ∀ ks : List TK, TK.CmdContentBegin ∉ ks → TK.CmdColonIdent ∉ ks → ∀ p ∈ (trim (argsV (i + 2) as gap w)).head?, p.2 ∉ ks := by
          intro ks h1 h2 p hp
          rcases no p hp with h | h <;> rw [h] <;> assumption
        exact does_bind (f := .leaf .Empty (.mono ()) .nil) (does_if_false (does_and_false (does_at_false (off _ (by decide) (by decide)))) (does_empty _))
          (does_bind (f := .leaf .Empty (.mono ()) .nil) (does_if_false (does_at_false (off _ (by decide) (by decide)))
            (does_if_false (does_at_false (off _ (by decide) (by decide))) (does_empty _)))
            (does_if_false (does_at_false (off _ (by decide) (by decide))) (does_empty _)))
      · have := does_space (n := n) (v := trim (argsV (i + 2) as gap w)) ((trim_le _).trans hlen)
        rwa [trim_trim] at this
    | word v =>
      show Does _ () (trim ((i, TK.Whitespace) :: (i + 1, .CmdRawArg) :: argsV (i + 2) as gap w)) _ _
      rw [trim_space, trim_cons (by decide)]
      refine does_while_step (f := Arg.forest i (.word v)) (does_at_true (by decide)) (does_then (a := ()) (does_sub t (does_node _ ?_)) (does_space hlen)) ih
      exact does_if_true (does_at_true (by decide)) (does_bind (f := .leaf .Empty (.mono ()) .nil)
        (does_if_false (does_at_head (by decide)) (does_empty _)) (does_value t (n := n) hcalm' _ _ _))

theorem args_le (i : Nat) (as : List (Nat × Arg)) (gap : Nat) (w : List (Nat × TK)) : as.length ≤ (argsV i as gap w).length := by
  induction as generalizing i with
  | nil => simp
  | cons a as ih =>
    rw [argsV_cons, List.length_append, List.length_cons]
    have := ih (i + a.2.size)
    have h : 1 ≤ (numbered i (kinds (wordsRaw (a.2.words a.1)))).length := by
      obtain ⟨g, a⟩ := a
      cases a <;> simp [numbered_length, Arg.words, wordsRaw]
    omega

/-! ## A block -/

/-- The nodes of the language; `i` is the token of the spaces before it. -/
def langF (i : Nat) : Option (Nat × Drawer.Text) → Forest NK Unit
  | none => .leaf .Empty (.mono ()) .nil
  | some _ => .leaf .Word (.tok (i + 1)) .nil

def langSize : Option (Nat × Drawer.Text) → Nat
  | none => 0
  | some _ => 2

/-- The tokens of the words and spaces of the first line. -/
def Block.headSize (b : Block) : Nat := (wordsRaw b.words ++ gapRaw b.gap).length

/-- The lines of the code which are parsed. -/
def Block.shifted (b : Block) : List (List Seg) := b.lines.map (dedent b.shift)

/-- The nodes of a block; `i` is its first token after the spaces. -/
def Block.tree (i : Nat) (b : Block) : Forest NK Unit :=
  .tree .BlockCode ((langF (i + 2) b.lang).append
    (.tree .Attrs (.tree .InlineStmtList .nil (.tree .InlineStmtList (argsF (i + 2 + langSize b.lang) b.args) .nil))
      (.tree .StmtList (linesF (i + 2 + b.headSize + 1) b.shifted) (.leaf .Empty (.mono ()) .nil)))) .nil

/-- What may follow a block: no results. -/
def Clear (w : List (Nat × TK)) : Prop :=
  (w.dropWhile fun p => decide (p.2 ∈ newlineKinds ++ [.Whitespace])).map Prod.snd |>.take 2 |> (· ≠ [TK.CmdPrefix, .CmdResults])

theorem does_results (t : Texts) (stmt : P Unit) {n : Nat} {w : List (Nat × TK)} (hw : Clear w) (hn : w.length ≤ n) :
    Does (codeResults t stmt n) () w w (.leaf .Empty (.mono ()) .nil) := by
  refine does_if_false (does_ask fun l hv hs => ?_) (does_empty _)
  unfold aheadSeq
  have h1 := skipAhead_reads l w hv.1 (.inr hs) (newlineKinds ++ [.Whitespace]) n 0 (by omega)
  rw [show l.skipAhead (newlineKinds ++ [TK.Whitespace]) n 0 = _ from h1]
  dsimp only
  rw [atSeq_reads l w hv.1 (.inr hs), decide_eq_false]
  rintro ⟨-, r, hr⟩
  apply hw
  have e : w.drop (0 + (List.takeWhile (fun p => decide (p.2 ∈ newlineKinds ++ [TK.Whitespace])) (w.drop 0)).length) =
      w.dropWhile fun p => decide (p.2 ∈ newlineKinds ++ [.Whitespace]) := by
    rw [Nat.zero_add, List.drop_zero]
    clear hr h1 hs hv hn hw
    induction w with
    | nil => rfl
    | cons p w ih =>
      by_cases hp : p.2 ∈ newlineKinds ++ [TK.Whitespace]
      · rw [List.takeWhile_cons_of_pos (by simpa using hp), List.dropWhile_cons_of_pos (by simpa using hp), List.length_cons, List.drop_succ_cons]
        exact ih
      · rw [List.takeWhile_cons_of_neg (by simpa using hp), List.dropWhile_cons_of_neg (by simpa using hp)]
        rfl
  rw [e] at hr
  rw [← hr]
  rfl

theorem does_blank {t : Texts} {b : Bool} {i : Nat} {k : TK} {v : List (Nat × TK)} (h : t.blank i = b) :
    Does (ask (fun l => .ok (t.blank l.pos))) b ((i, k) :: v) ((i, k) :: v) .nil :=
  does_ask fun l hv _ => by rw [(cur_next_cons hv).2.2.1, h]

/-- The tokens of a block, after the spaces before it. -/
def Block.toks (i : Nat) (b : Block) (w : List (Nat × TK)) : List (Nat × TK) :=
  (i, .CmdPrefix) :: (i + 1, .CmdSrcBegin) :: (numbered (i + 2) (kinds (wordsRaw b.words ++ gapRaw b.gap)) ++
    ((i + 2 + b.headSize, .CmdContentBegin) :: (numbered (i + 2 + b.headSize + 1) (kinds (linesRaw b.shifted)) ++
      ((i + 2 + b.headSize + 1 + (linesRaw b.shifted).length, .CmdPrefix) :: (i + 2 + b.headSize + 1 + (linesRaw b.shifted).length + 1, .CmdSrcEnd) :: w))))

theorem does_src (t : Texts) (stmt : P Unit) {b : Block} (hb : b.Valid) {n i : Nat} {w : List (Nat × TK)} (hw : Clear w)
    (ht : b.lang ≠ none → t.blank (i + 3) = false) (hn : (b.toks i w).length ≤ n) : Does (parseSrc t stmt n) () (b.toks i w) w (b.tree i) := by
  unfold Block.toks at hn ⊢
  simp only [List.length_cons, List.length_append, numbered_length, kinds_length] at hn
  generalize hB : (i + 2 + b.headSize, TK.CmdContentBegin) :: (numbered (i + 2 + b.headSize + 1) (kinds (linesRaw b.shifted)) ++
      ((i + 2 + b.headSize + 1 + (linesRaw b.shifted).length, TK.CmdPrefix) :: (i + 2 + b.headSize + 1 + (linesRaw b.shifted).length + 1, .CmdSrcEnd) :: w)) = body
  have hbody : body.head? = some (i + 2 + b.headSize, .CmdContentBegin) := by rw [← hB]; rfl
  have hlen : body.length = (linesRaw b.shifted).length + w.length + 3 := by
    rw [← hB]
    simp only [List.length_cons, List.length_append, numbered_length, kinds_length]
    omega
  have hOpen : ∀ l ∈ b.shifted, Opened l := by
    intro l hl
    obtain ⟨x, hx, rfl⟩ := List.mem_map.mp hl
    exact opened_dedent _ (opened_valid (hb.lines x hx))
  -- the part after the first line
  have hrest : Does (P.bind (codeBody t n) fun _ => P.bind (skipP t [.CmdPrefix]) fun _ => P.bind (skipP t [.CmdSrcEnd]) fun _ => codeResults t stmt n) () body w
      (.tree .StmtList (linesF (i + 2 + b.headSize + 1) b.shifted) (.leaf .Empty (.mono ()) .nil)) := by
    rw [← hB]
    exact does_bind (f := .tree .StmtList (linesF (i + 2 + b.headSize + 1) b.shifted) .nil) (does_body t hOpen _ _ _ (by omega))
      (does_seq (does_skip t (by decide)) (does_seq (does_skip t (by decide)) (does_results t stmt hw (by omega))))
  -- the arguments
  have hargs : ∀ k gap v, v.length ≤ n → trim v = trim (argsV k b.args gap body) → (argsV k b.args gap body).length ≤ n → Does (P.bind (spaceP n) fun _ => P.bind (subP t (parseSrcArguments t n)) fun _ => P.bind (codeBody t n) fun _ => P.bind (skipP t [.CmdPrefix]) fun _ =>
      P.bind (skipP t [.CmdSrcEnd]) fun _ => codeResults t stmt n) () v w
      (.tree .Attrs (.tree .InlineStmtList .nil (.tree .InlineStmtList (argsF k b.args) .nil))
        (.tree .StmtList (linesF (i + 2 + b.headSize + 1) b.shifted) (.leaf .Empty (.mono ()) .nil))) := by
    intro k gap v hv e hk
    have hsv := does_space hv
    rw [e] at hsv
    have sp := does_space (n := n) (v := trim (argsV k b.args gap body)) ((trim_le _).trans hk)
    rw [trim_trim] at sp
    have htrim := calm_trim (i := k) (as := b.args) (gap := gap) (w := body) (by rw [hbody]; simp)
    refine does_seq hsv (does_bind (f := .tree .Attrs (.tree .InlineStmtList .nil (.tree .InlineStmtList (argsF k b.args) .nil)) .nil)
      (does_sub t (does_seq sp (does_if_false (does_at_false ?_) (does_node _ (does_bind (f := .tree .InlineStmtList .nil .nil)
        (does_node _ (does_while_stop n (does_at_false ?_))) (does_sub t (does_seq sp (does_node _ (does_args t hb.args k gap hbody ?_ hk))))))))) hrest)
    · intro p hp
      rcases htrim p hp with h | h | ⟨h, -⟩ <;> rw [h] <;> decide
    · intro p hp
      rcases htrim p hp with h | h | ⟨h, -⟩ <;> rw [h] <;> decide
    · exact (args_le k b.args gap body).trans hk
  refine does_node _ (does_seq (does_skip t (by decide)) (does_seq (does_skip t (by decide)) ?_))
  have hv0 : (numbered (i + 2) (kinds (wordsRaw b.words ++ gapRaw b.gap)) ++ body).length ≤ n := by
    rw [List.length_append, numbered_length, kinds_length, List.length_append, hlen]
    omega
  cases hl : b.lang with
  | none =>
    have e : numbered (i + 2) (kinds (wordsRaw b.words ++ gapRaw b.gap)) ++ body = argsV (i + 2) b.args b.gap body := by
      unfold Block.words
      rw [hl]
      rfl
    rw [e] at hv0 ⊢
    refine does_seq (does_space hv0) (does_bind (f := .leaf .Empty (.mono ()) .nil) (does_if_false (does_at_false fun p hp => ?_) (does_empty _))
      (hargs (i + 2) b.gap _ ((trim_le _).trans hv0) (trim_trim _) hv0))
    rcases calm_trim (i := i + 2) (as := b.args) (gap := b.gap) (w := body) (by rw [hbody]; simp) p hp with h | h | ⟨-, x, hx, h⟩
    · rw [h]; decide
    · rw [h]; decide
    · rw [hb.first hl x hx] at h
      cases h
  | some l =>
    obtain ⟨g, l⟩ := l
    have e : numbered (i + 2) (kinds (wordsRaw b.words ++ gapRaw b.gap)) ++ body = (i + 2, TK.Whitespace) :: (i + 3, .CmdRawArg) :: argsV (i + 4) b.args b.gap body := by
      unfold Block.words
      rw [hl]
      rfl
    have hv1 : (argsV (i + 4) b.args b.gap body).length ≤ n := by
      rw [e] at hv0
      simp only [List.length_cons] at hv0
      omega
    rw [e] at hv0 ⊢
    have sp := does_space hv0
    rw [trim_space, trim_cons (by decide)] at sp
    exact does_seq sp (does_bind (f := .leaf .Word (.tok (i + 3)) .nil) (does_if_true (does_at_true (by decide))
      (does_if_false (does_blank (ht (by rw [hl]; simp))) (does_popAs t _ (by decide)))) (hargs (i + 4) b.gap _ hv1 rfl hv1))

/-! ## A document -/

theorem forest_assoc (x y z : Forest NK Unit) : (x.append y).append z = x.append (y.append z) := by
  induction x with
  | nil => rfl
  | leaf k l r ih => exact congrArg _ ih
  | tree k c r _ ih => exact congrArg _ ih


/-- The collected tokens are a paragraph. -/
theorem does_plain {par : P Unit} {n : Nat} {u r : List (Nat × TK)} {f : Forest NK Unit} (hne : u ≠ [])
    (hc : Does (collect (canSearch paragraphTerminator) n) (u.map Prod.fst) (u ++ r) r .nil) (hp : Does par () u [] f) :
    Does (plainParagraph par n) () (u ++ r) r f := by
  intro s hv hs
  obtain ⟨l, h1, h2, h3, h4⟩ := hc s hv hs
  unfold plainParagraph
  rw [bind_ok h1]
  cases u with
  | nil => exact absurd rfl hne
  | cons p u =>
    have hval : Valid s.lex.toks (p :: u) := valid_left (cur_valid hv)
    obtain ⟨l', k1, k2, k3, k4⟩ := hp ⟨Lex.ofIds l.toks ((p :: u).map Prod.fst), s.g⟩ (cur_sub (h4 ▸ hval)) hs.left
    refine ⟨l, ?_, h2, h3, h4⟩
    have e : Group.mk (s.g.nodes ++ Forest.nil.flat) s.g.pending = s.g := by simp [Forest.flat]
    rw [e]
    show withIds ((p :: u).map Prod.fst) par ⟨l, s.g⟩ = _
    unfold withIds withLex
    dsimp only
    rw [k1]

theorem does_checked {p : P Unit} {v v' : List (Nat × TK)} {f : Forest NK Unit} (h : Does p () v v' f) : Does (checkedText p) () v v' f := by
  intro s hv hs
  obtain ⟨l, h1, h2⟩ := does_ignore h s hv hs
  refine ⟨l, ?_, h2⟩
  unfold checkedText
  rw [h1]
  simp

/-- Spaces at the start of a line are a paragraph without anything in it. -/
theorem does_spaces (t : Texts) {n i : Nat} {v : List (Nat × TK)} {j : Nat} (hv : v.head? = some (j, .CmdPrefix)) :
    Does (parseStmt t (n + 5)) () ((i, .LeadingSpace) :: v) v (.tree .Paragraph .nil .nil) := by
  rw [parseStmt]
  refine does_seq (does_kind _ _ _) ?_
  rw [if_neg (by decide), if_neg (by decide), if_neg (by decide), if_neg (by decide), if_neg (by decide), if_neg (by decide), if_neg (by decide), if_neg (by decide)]
  refine does_plain (u := [(i, .LeadingSpace)]) (by simp) (does_collect ?_ ?_ (by simp)) ?_
  · intro p hp w
    cases List.mem_singleton.mp hp
    exact does_canSearch_true (by show TK.LeadingSpace ∉ _; decide)
  · cases v with
    | nil => cases hv
    | cons p v =>
      cases hv
      exact does_canSearch_false (by show TK.CmdPrefix ∈ _; decide)
  · rw [parseParagraph, parseText]
    refine does_node _ (does_checked ?_)
    refine does_if_false (does_finished _) (does_seq (a := ()) (does_ignore (a := ()) (does_seq (does_kind _ _ _) (does_next _ _))) ?_)
    exact does_if_true (does_finished _) (does_ret _ _)

theorem does_break (t : Texts) {n i : Nat} {k : TK} {v : List (Nat × TK)} (hk : k ∈ newlineKinds) :
    Does (parseStmt t (n + 1)) () ((i, k) :: v) v (.leaf .Newline (.tok i) .nil) := by
  rw [parseStmt]
  refine does_seq (does_kind _ _ _) ?_
  have : k ≠ .SubtreeStars ∧ k ≠ .Indent ∧ k ≠ .Whitespace := by
    revert hk
    generalize k = x
    revert x
    decide
  rw [if_neg this.1, if_neg this.2.1, if_neg this.2.2, if_pos hk]
  exact does_popAny _ _ _ _

theorem does_kind_next {p : Nat × TK} {i : Nat} {k : TK} {v : List (Nat × TK)} : Does (kindP 1) k (p :: (i, k) :: v) (p :: (i, k) :: v) .nil :=
  does_ask fun l hv hs => (lookahead_partial l _ hv.1 1).2 (.inr hs) (i, k) rfl

theorem does_block (t : Texts) {b : Block} (hb : b.Valid) {n i : Nat} {w : List (Nat × TK)} (hw : Clear w)
    (ht : b.lang ≠ none → t.blank (i + 3) = false) (hn : (b.toks i w).length ≤ n) : Does (parseStmt t (n + 1)) () (b.toks i w) w (b.tree i) := by
  rw [parseStmt]
  refine does_seq (does_kind _ _ _) ?_
  rw [if_neg (by decide), if_neg (by decide), if_neg (by decide), if_neg (by decide), if_neg (by decide), if_neg (by decide), if_neg (by decide), if_pos rfl]
  refine does_seq does_kind_next ?_
  rw [if_pos rfl]
  exact does_src t _ hb hw ht hn

theorem does_recover {p : P Unit} {n : Nat} {v v' : List (Nat × TK)} {f : Forest NK Unit} (h : Does p () v v' f) : Does (recover p n) () v v' f := by
  intro s hv hs
  obtain ⟨l, h1, h2⟩ := h s hv hs
  exact ⟨l, by unfold recover; rw [h1], h2⟩

/-- The nodes of a block, with the spaces before it and the line breaks after it. -/
def Block.forest (i : Nat) (b : Block) : Forest NK Unit :=
  (if b.indent = 0 then b.tree i else .tree .Paragraph .nil (b.tree (i + 1))).append
    (if b.after = 0 then .nil else .leaf .Newline (.tok (i + b.fin.length - 1)) .nil)

def docF : Nat → List Block → Forest NK Unit
  | _, [] => .nil
  | i, b :: d => (b.forest i).append (docF (i + b.fin.length) d)

def lead (b : Block) : Nat := if b.indent = 0 then 0 else 1

/-- The line breaks after a block. -/
def afterV (j n : Nat) : List (Nat × TK) := if n = 0 then [] else [(j, breakKind (n - 1))]

theorem after_kinds (j n : Nat) : numbered j (kinds (afterRaw n)) = afterV j n := by cases n <;> rfl

theorem fin_length (b : Block) : b.fin.length = lead b + (2 + (b.headSize + (1 + ((linesRaw b.shifted).length + (2 + (afterRaw b.after).length))))) := by
  unfold Block.fin lead Block.headSize Block.shifted
  simp only [List.length_append, List.length_cons, List.length_nil]
  split_ifs <;> simp <;> omega

theorem fin_numbered (b : Block) (i : Nat) (w : List (Nat × TK)) :
    numbered i (kinds b.fin) ++ w = (if b.indent = 0 then [] else [(i, .LeadingSpace)]) ++ b.toks (i + lead b) (afterV (i + b.fin.length - 1) b.after ++ w) := by
  have hl := fin_length b
  have e : numbered i (kinds b.fin) = (if b.indent = 0 then [] else [(i, TK.LeadingSpace)]) ++ b.toks (i + lead b) (numbered (i + lead b + 2 + b.headSize + 1 + (linesRaw b.shifted).length + 1 + 1)
      (kinds (afterRaw b.after))) := by
    have : kinds b.fin = (if b.indent = 0 then [] else [TK.LeadingSpace]) ++ (TK.CmdPrefix :: .CmdSrcBegin :: (kinds (wordsRaw b.words ++ gapRaw b.gap) ++
        (.CmdContentBegin :: (kinds (linesRaw b.shifted) ++ (.CmdPrefix :: .CmdSrcEnd :: kinds (afterRaw b.after)))))) := by
      unfold Block.fin Block.shifted
      split_ifs <;> simp [kinds]
    rw [this, numbered_append, numbered_cons, numbered_cons, numbered_append, numbered_cons, numbered_append, numbered_cons, numbered_cons, kinds_length, kinds_length]
    unfold Block.toks lead
    by_cases hi : b.indent = 0
    · rw [if_pos hi, if_pos hi, if_pos hi]
      rfl
    · rw [if_neg hi, if_neg hi, if_neg hi]
      rfl
  rw [e, after_kinds]
  have e2 : afterV (i + lead b + 2 + b.headSize + 1 + (linesRaw b.shifted).length + 1 + 1) b.after = afterV (i + b.fin.length - 1) b.after := by
    cases ha : b.after with
    | zero => rfl
    | succ n =>
      rw [ha] at hl
      have : (afterRaw (n + 1)).length = 1 := rfl
      rw [show i + lead b + 2 + b.headSize + 1 + (linesRaw b.shifted).length + 1 + 1 = i + b.fin.length - 1 from by omega]
  rw [e2]
  unfold Block.toks
  simp

theorem docFin_cons (b : Block) (d : List Block) : docFin (b :: d) = b.fin ++ docFin d := rfl

/-- No results after a block. -/
theorem clear_doc {d : List Block} {i j n : Nat} (h : n = 0 → d = []) : Clear (afterV j n ++ numbered i (kinds (docFin d))) := by
  have hdoc : ∀ p ∈ (numbered i (kinds (docFin d))).head?, p.2 = .LeadingSpace ∨ p.2 = .CmdPrefix := by
    cases d with
    | nil => simp [docFin, numbered]
    | cons b d =>
      rw [docFin_cons, kinds_append, numbered_append, fin_numbered]
      unfold Block.toks
      split_ifs
      · intro p hp; cases hp; exact .inr rfl
      · intro p hp; cases hp; exact .inl rfl
  have hdrop : (afterV j n ++ numbered i (kinds (docFin d))).dropWhile (fun p => decide (p.2 ∈ newlineKinds ++ [.Whitespace])) = numbered i (kinds (docFin d)) := by
    have : (numbered i (kinds (docFin d))).dropWhile (fun p => decide (p.2 ∈ newlineKinds ++ [.Whitespace])) = numbered i (kinds (docFin d)) := by
      cases hv : numbered i (kinds (docFin d)) with
      | nil => rfl
      | cons p v =>
        rw [hv] at hdoc
        rw [List.dropWhile_cons_of_neg]
        rcases hdoc p rfl with h | h <;> rw [h] <;> decide
    unfold afterV
    split_ifs
    · exact this
    · rw [List.singleton_append, List.dropWhile_cons_of_pos, this]
      show decide (breakKind (n - 1) ∈ newlineKinds ++ [TK.Whitespace]) = true
      generalize n - 1 = m
      match m with
      | 0 | 1 | m + 2 => simp [breakKind, newlineKinds]
  unfold Clear
  dsimp only
  rw [hdrop]
  cases d with
  | nil => simp [docFin, numbered]
  | cons b d =>
    rw [docFin_cons, kinds_append, numbered_append, fin_numbered]
    unfold Block.toks
    split_ifs <;> simp

/-- Values are not empty texts. -/
def Seen (t : Texts) (i : Nat) (r : Raw) : Prop := ∀ k x, r[k]? = some (TK.CmdRawArg, x) → x ≠ [] → t.blank (i + k) = false

theorem Seen.right {t : Texts} {i : Nat} {a b : Raw} (h : Seen t i (a ++ b)) : Seen t (i + a.length) b := by
  intro k x hk hx
  have := h (a.length + k) x (by rw [List.getElem?_append_right (by omega)]; simpa using hk) hx
  rwa [Nat.add_assoc]

theorem seen_lang {t : Texts} {i : Nat} {b : Block} {d : List Block} (hb : b.Valid) (h : Seen t i (docFin (b :: d))) : b.lang ≠ none → t.blank (i + lead b + 3) = false := by
  intro hl
  obtain ⟨⟨g, l⟩, hl⟩ := Option.ne_none_iff_exists'.mp hl
  have := h (lead b + 3) l ?_ (hb.lang (g, l) hl).1
  · rwa [Nat.add_assoc]
  · rw [docFin_cons]
    unfold Block.fin Block.words lead
    rw [hl]
    split_ifs <;> rfl

theorem does_rounds (t : Texts) {p : Nat × TK} {v v' v'' : List (Nat × TK)} {n m : Nat} {f g : Forest NK Unit} (hp : p.2 ≠ .Comment) (h : Does (parseStmt t n) () (p :: v) v' f)
    (hr : Does (whileP (notP finishedP) (ifP (atP [.Comment]) nextP (recover (parseStmt t n) n)) m) () v' v'' g) :
    Does (whileP (notP finishedP) (ifP (atP [.Comment]) nextP (recover (parseStmt t n) n)) (m + 1)) () (p :: v) v'' (f.append g) :=
  does_while_step (does_not (b := false) (does_finished _)) (does_if_false (does_at_false (by simpa using hp)) (does_recover h)) hr

theorem does_doc (t : Texts) {d : List Block} (h : DocValid d) {n m : Nat} (i : Nat) (hs : Seen t i (docFin d)) (hm : (docFin d).length ≤ m) (hn : (docFin d).length + 5 ≤ n) :
    Does (whileP (notP finishedP) (ifP (atP [.Comment]) nextP (recover (parseStmt t n) n)) m) () (numbered i (kinds (docFin d))) [] (docF i d) := by
  induction d generalizing i m with
  | nil => exact does_while_stop m (does_not (b := true) (does_finished _))
  | cons b d ih =>
    have ht := seen_lang h.1 hs
    rw [docFin_cons] at hs hm hn
    rw [List.length_append] at hm hn
    have hl := fin_length b
    have hclear := clear_doc (d := d) (i := i + b.fin.length) (j := i + b.fin.length - 1) (n := b.after) (fun h0 => by
      by_contra hd
      have := h.2.1 hd
      omega)
    rw [docFin_cons, kinds_append, numbered_append, kinds_length, fin_numbered]
    -- the line breaks
    have hafter : ∀ m, (docFin d).length + 1 ≤ m → Does (whileP (notP finishedP) (ifP (atP [.Comment]) nextP (recover (parseStmt t n) n)) m) ()
        (afterV (i + b.fin.length - 1) b.after ++ numbered (i + b.fin.length) (kinds (docFin d))) []
        ((if b.after = 0 then .nil else .leaf .Newline (.tok (i + b.fin.length - 1)) .nil : Forest NK Unit).append (docF (i + b.fin.length) d)) := by
      intro m hm
      unfold afterV
      split_ifs with ha
      · exact ih h.2.2 _ hs.right (by omega) (by omega)
      · obtain ⟨m, rfl⟩ : ∃ x, m = x + 1 := ⟨m - 1, by omega⟩
        obtain ⟨n, rfl⟩ : ∃ x, n = x + 1 := ⟨n - 1, by omega⟩
        have hk : breakKind (b.after - 1) ∈ newlineKinds := by
          generalize b.after - 1 = x
          match x with
          | 0 | 1 | x + 2 => simp [breakKind, newlineKinds]
        exact does_rounds t (by
          show breakKind (b.after - 1) ≠ .Comment
          intro h
          rw [h] at hk
          exact absurd hk (by decide)) (does_break t hk) (ih h.2.2 _ hs.right (by omega) (by omega))
    -- the block
    have hblock : ∀ m, (docFin d).length + 2 ≤ m → Does (whileP (notP finishedP) (ifP (atP [.Comment]) nextP (recover (parseStmt t n) n)) m) ()
        (b.toks (i + lead b) (afterV (i + b.fin.length - 1) b.after ++ numbered (i + b.fin.length) (kinds (docFin d)))) []
        ((b.tree (i + lead b)).append ((if b.after = 0 then .nil else .leaf .Newline (.tok (i + b.fin.length - 1)) .nil : Forest NK Unit).append (docF (i + b.fin.length) d))) := by
      intro m hm
      obtain ⟨m, rfl⟩ : ∃ x, m = x + 1 := ⟨m - 1, by omega⟩
      obtain ⟨n, rfl⟩ : ∃ x, n = x + 1 := ⟨n - 1, by omega⟩
      refine does_rounds t (by show TK.CmdPrefix ≠ .Comment; decide) (does_block t h.1 hclear ht ?_) (hafter m (by omega))
      unfold Block.toks afterV
      have : 1 ≤ (afterRaw b.after).length ∨ b.after = 0 := by cases b.after <;> simp [afterRaw]
      simp only [List.length_cons, List.length_append, numbered_length, kinds_length]
      have hh : (wordsRaw b.words).length + (gapRaw b.gap).length = b.headSize := by unfold Block.headSize; rw [List.length_append]
      split_ifs with h0
      · simp only [List.length_nil]; omega
      · rcases this with h1 | h1
        · simp only [List.length_cons, List.length_nil]; omega
        · exact absurd h1 h0
    rw [docF]
    unfold Block.forest
    by_cases hi : b.indent = 0
    · have hl0 : lead b = 0 := if_pos hi
      rw [if_pos hi, if_pos hi]
      have e : ∀ x y z : Forest NK Unit, (x.append y).append z = x.append (y.append z) := forest_assoc
      rw [e, List.nil_append]
      rw [hl0] at hblock ⊢
      exact hblock m (by omega)
    · have hl1 : lead b = 1 := if_neg hi
      rw [if_neg hi, if_neg hi]
      rw [hl1] at hblock ⊢
      obtain ⟨m, rfl⟩ : ∃ x, m = x + 1 := ⟨m - 1, by omega⟩
      obtain ⟨n, rfl⟩ : ∃ x, n = x + 5 := ⟨n - 5, by omega⟩
      rw [forest_assoc]
      exact does_rounds (f := .tree .Paragraph .nil .nil) t (by show TK.LeadingSpace ≠ .Comment; decide) (does_spaces t (j := i + 1) rfl) (hblock m (by omega))

theorem seen_texts (toks : List Tok) : Seen (texts toks) 1 (raws toks) := by
  intro k x hk hx
  unfold raws at hk
  rw [List.getElem?_map] at hk
  unfold texts tokAt
  dsimp only
  rw [if_neg (by omega), show 1 + k - 1 = k from by omega]
  cases ht : toks[k]? with
  | none => rw [ht] at hk; cases hk
  | some t =>
    rw [ht] at hk
    have := congrArg Prod.snd (Option.some.inj hk)
    dsimp only at this ⊢
    rw [this]
    simpa using hx

/-- From the text to the nodes. -/
theorem doc_nodes {d : List Block} (h : DocValid d) {n : Nat} (hn : (docFin d).length + 5 ≤ n) :
    ∃ toks, Pipeline.parse BaseLexer.stdLex n (render d) = .ok (toks, (Forest.tree NK.StmtList (docF 1 d) .nil).flat) ∧ raws toks = docFin d := by
  obtain ⟨toks, h1, h2⟩ := doc_tokens h
  refine ⟨toks, ?_, h2⟩
  unfold Pipeline.parse
  rw [h1]
  dsimp only
  have hk : toks.map (·.kind) = kinds (docFin d) := by
    rw [← h2]
    simp [kinds, raws]
  rw [hk]
  have hd := does_node .StmtList (does_doc (texts toks) h (n := n) (m := n) 1 (h2 ▸ seen_texts toks) (by omega) hn)
  by_cases he : d = []
  · subst he
    obtain ⟨n, rfl⟩ : ∃ x, n = x + 1 := ⟨n - 1, by omega⟩
    rfl
  · have hne : kinds (docFin d) ≠ [] := by
      cases d with
      | nil => exact absurd rfl he
      | cons b d =>
        intro h0
        have := congrArg List.length h0
        rw [kinds_length, docFin_cons, List.length_append, fin_length] at this
        simp at this
    obtain ⟨l, q1, -⟩ := hd ⟨Lex.main (kinds (docFin d)), {}⟩ (cur_main hne) (contig_numbered _ _)
    unfold parseTop
    rw [q1]
    simp

end Verif.Code
