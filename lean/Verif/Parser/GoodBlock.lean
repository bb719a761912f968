import Verif.Parser.Fold

/-!
# The block functions
-/

namespace Verif.Parser
open Verif.Lexer Verif.NodeGroup Verif.NodeGroup.Spec

theorem good_lexSkip (ks : List TK) : Good (lexSkip ks) := by
  intro s v hu hv
  unfold lexSkip
  cases hk : s.lex.skip ks with
  | error e => exact foreign_ofLex e
  | ok l =>
    have : l = s.lex.next := by
      unfold Lex.skip at hk
      split at hk
      · cases hk
      · injection hk with hk; exact hk.symm
    subst this
    obtain ⟨c, v', h1, h2, h3, _, _⟩ := cur_next hv
    exact ⟨v', .nil, ⟨c, h1, h2, h3, by simp [Forest.flat], rfl, by simp [leafToks], trivial⟩, trivial⟩

theorem good_toEol (t : Texts) {par : P Unit} (hp : Good par) (n : Nat) (ks : List TK) : Good (toEol t par n ks) := by
  unfold toEol; good

/-! ## Tables -/

theorem collects_cell (n : Nat) : Collects (cellTokens n) := by
  have hc : Pure (canSearch [.Pipe, .TrailingPipe]) := pure_canSearch _
  have hd : Pure (andP (atP [.Whitespace]) (orP (atP [.Pipe, .TrailingPipe] 1) (atP [.Pipe, .LeadingPipe] (-1)))) := by
    askpure
  induction n with
  | zero =>
    intro s v hv
    have h := hc s
    unfold cellTokens ifP P.bind
    cases hs : canSearch [.Pipe, .TrailingPipe] s with
    | error e => rw [hs] at h; exact h
    | ok rs =>
      obtain ⟨r, s'⟩ := rs
      rw [hs] at h
      obtain ⟨rfl, h2⟩ := h
      cases r with
      | none => cases h2
      | some a =>
        cases a with
        | true => trivial
        | false => exact ⟨rfl, [], v, [], rfl, hv, SameToks.refl _, rfl, List.Sublist.refl _⟩
  | succ n ih =>
    intro s v hv
    have h := hc s
    unfold cellTokens ifP
    rw [P.bind]
    cases hs : canSearch [.Pipe, .TrailingPipe] s with
    | error e => rw [hs] at h; exact h
    | ok rs =>
      obtain ⟨r, s'⟩ := rs
      rw [hs] at h
      obtain ⟨rfl, h2⟩ := h
      cases r with
      | none => cases h2
      | some a =>
        cases a with
        | false => exact ⟨rfl, [], v, [], rfl, hv, SameToks.refl _, rfl, List.Sublist.refl _⟩
        | true =>
          cases v with
          | nil =>
            rw [canSearch_end _ s' hv] at hs
            cases hs
          | cons p v =>
            obtain ⟨k1, k2, k3, _⟩ := cur_next_cons hv
            have ih := ih { s' with lex := s'.lex.next } v k1
            have hd := hd s'
            dsimp only [P.bind]
            generalize hq : andP (atP [.Whitespace]) (orP (atP [.Pipe, .TrailingPipe] 1) (atP [.Pipe, .LeadingPipe] (-1))) s' = x
            rw [hq] at hd
            cases x with
            | error e => exact hd
            | ok rs =>
              obtain ⟨r, s⟩ := rs
              obtain ⟨rfl, h2⟩ := hd
              cases r with
              | none => cases h2
              | some b =>
                cases b with
                | true =>
                  dsimp only [P.bind, nextP]
                  cases hs' : cellTokens n { s with lex := s.lex.next } with
                  | error e => rw [hs'] at ih; exact ih
                  | ok rs =>
                    obtain ⟨r, s''⟩ := rs
                    rw [hs'] at ih
                    cases r with
                    | none => exact ih.elim
                    | some ids =>
                      obtain ⟨hg, c', v', u, h1, h2, h3, h4, h5⟩ := ih
                      exact ⟨hg, p :: c', v', u, by rw [h1]; rfl, h2, k2.trans h3, h4, h5.cons _⟩
                | false =>
                  dsimp only [P.bind, popP]
                  cases hs' : cellTokens n { s with lex := s.lex.next } with
                  | error e => rw [hs'] at ih; exact ih
                  | ok rs =>
                    obtain ⟨r, s''⟩ := rs
                    rw [hs'] at ih
                    cases r with
                    | none => exact ih.elim
                    | some ids =>
                      obtain ⟨hg, c', v', u, h1, h2, h3, h4, h5⟩ := ih
                      refine ⟨hg, p :: c', v', p :: u, by rw [h1]; rfl, h2, k2.trans h3, ?_, h5.cons_cons _⟩
                      simp [h4, k3]

theorem good_idsOrParagraph {u : List (Nat × TK)} (t : Texts) {p : P Unit} (h : Good p) :
    GoodFrom Any u (idsOrParagraph t (u.map Prod.fst) p) := by
  cases u with
  | nil => show Good (node .Paragraph (P.ret ())); good
  | cons q u => exact good_sub t (good_withIds (u := q :: u) h)

theorem good_pipeRow (t : Texts) {par : P Unit} (hp : Good par) (n : Nat) : Good (parseTablePipeRow t par n) := by
  have h1 : Good (cellTokens n >>= fun ids => idsOrParagraph t ids par) :=
    collects_bind' (collects_cell n) (fun u => good_idsOrParagraph t hp)
  unfold parseTablePipeRow
  good

theorem good_blockRow (t : Texts) {par stmt : P Unit} (hp : Good par) (hs : Good stmt) (n : Nat) :
    Good (parseTableBlockRow t par stmt n) := by
  have h1 := good_commandArguments t n
  have h2 := good_toEol t hp n paragraphTerminator
  unfold parseTableBlockRow
  good

theorem good_table (t : Texts) {par stmt : P Unit} (hp : Good par) (hs : Good stmt) (n : Nat) :
    Good (parseTable t par stmt n) := by
  have h1 := good_commandArguments t n
  have h2 := good_pipeRow t hp n
  have h3 := good_blockRow t hp hs n
  unfold parseTable
  good

/-! ## Blocks -/

theorem good_srcArguments (t : Texts) (n : Nat) : Good (parseSrcArguments t n) := by
  have h1 := good_commandArguments t n
  unfold parseSrcArguments; good

theorem good_wrapLoop (t : Texts) {more : P Bool} {stmt : P Unit} (hm : Pure more) (hs : Good stmt) (n : Nat) :
    Good (wrapLoop t more stmt n) := by
  induction n with
  | zero => exact good_if hm (good_throw trivial) (good_ret _).any
  | succ n ih =>
    unfold wrapLoop
    refine good_if hm ?_ ?_ <;> good

/-- The id may be that of any token: it is only compared. -/
theorem good_wrapBody (t : Texts) {stmt : P Unit} (hs : Good stmt) (n : Nat) (d : Bool) (e : TK) (id : Nat) :
    Good (wrapBody t stmt n d e id) := by
  have h1 := good_commandArguments t n
  have h2 := good_wrapLoop t (more := andP (canSearchSeq [.CmdPrefix, e])
      (ask (fun l => .ok (!d || (l.hasNext 2 && !t.sameBlock id (l.get 1)))))) (by askpure) hs n
  unfold wrapBody
  good

theorem good_pop : Good popP := by
  intro s v hu hv
  obtain ⟨c, v', h1, h2, h3, _, _⟩ := cur_next hv
  exact ⟨v', .nil, ⟨c, h1, h2, h3, by simp [Forest.flat], rfl, by simp [leafToks], trivial⟩, trivial⟩

theorem bind_assoc (p : P α) (q : α → P β) {γ : Type} (r : β → P γ) :
    P.bind p (fun a => P.bind (q a) r) = P.bind (P.bind p q) r := by
  funext s
  simp only [P.bind]
  cases p s with
  | error e => rfl
  | ok rs =>
    obtain ⟨x, s'⟩ := rs
    cases x <;> rfl

/-- Reading a token into a leaf and remembering it. -/
theorem good_popToken {k : NK} (hk : k ≠ .Subtree) {q : Nat → P β} (hq : ∀ id, Good (q id)) :
    Good (P.bind popP (fun id => P.bind (tokenP k id) (fun _ => q id))) := by
  have h : ∀ s, (P.bind popP (fun id => P.bind (tokenP k id) (fun _ => q id))) s =
      (P.bind (popAny k) (fun _ => q s.lex.pos)) s := fun s => rfl
  intro s
  have h2 := good_bind (good_popAny hk).any (fun _ : Unit => hq s.lex.pos) s
  unfold OkAt at h2 ⊢
  rw [h s]
  exact h2

theorem good_textWrap (t : Texts) {stmt : P Unit} (hs : Good stmt) (n : Nat) : Good (parseTextWrapCommand t stmt n) := by
  unfold parseTextWrapCommand
  refine good_bind' (by good) (fun _ => good_bind' (by good) (fun k => ?_))
  split
  · good
  · rename_i nk e hw
    have hnk : nk ≠ .Empty ∧ nk ≠ .Subtree := by
      unfold wrapKinds at hw
      split at hw
      all_goals first
        | (injection hw with hw; injection hw with hw _; subst hw; decide)
        | cases hw
    refine good_node' (R := Any) (good_if (pure_ret _) ?_ ?_) hnk.1 hnk.2
    · exact good_popToken (by decide) (fun id => good_wrapBody t hs n true e id)
    · exact good_bind good_pop (fun id => good_wrapBody t hs n false e id)

theorem good_blockExport (t : Texts) (n : Nat) : Good (parseBlockExport t n) := by
  have h1 := good_commandArguments t n
  unfold parseBlockExport; good

theorem good_colonExample (t : Texts) (n : Nat) : Good (parseColonExample t n) := by unfold parseColonExample; good

theorem good_example (t : Texts) (n : Nat) : Good (parseExample t n) := by
  have h1 := good_commandArguments t n
  unfold parseExample; good

theorem good_codeItem (t : Texts) (n : Nat) : Good (codeItem t n) := by
  have h1 := good_csvArguments t n
  unfold codeItem; good

theorem good_codeBody (t : Texts) (n : Nat) : Good (codeBody t n) := by
  have h1 := good_codeItem t n
  unfold codeBody; good

theorem good_codeResults (t : Texts) {stmt : P Unit} (hs : Good stmt) (n : Nat) : Good (codeResults t stmt n) := by
  have h1 := good_commandArguments t n
  unfold codeResults; good

theorem good_src (t : Texts) {stmt : P Unit} (hs : Good stmt) (n : Nat) : Good (parseSrc t stmt n) := by
  have h1 := good_srcArguments t n
  have h2 := good_codeBody t n
  have h3 := good_codeResults t hs n
  unfold parseSrc; good

/-! ## Lists -/

theorem good_listTag (t : Texts) {par : P Unit} (hp : Good par) (n : Nat) : Good (listTag t par n) := by
  have h1 := good_lexSkip [.Whitespace]
  have h2 := good_lexSkip [.DoubleColon]
  unfold listTag
  refine good_if (by askpure) ?_ (by good)
  refine collects_bind' (collects_collect (by askpure) (endConst_canSearchSeq _) _) (fun u => ?_)
  cases u with
  | nil => exact good_empty.any
  | cons q u =>
    refine good_bind' (good_sub t (good_withIds (u := q :: u) hp)) (fun _ => ?_)
    good

theorem good_listItem (t : Texts) {par stmt : P Unit} (hp : Good par) (hs : Good stmt) (n : Nat) :
    Good (parseListItem t par stmt n) := by
  have h1 := good_listTag t hp n
  unfold parseListItem; good

theorem good_list (t : Texts) {par stmt : P Unit} (hp : Good par) (hs : Good stmt) (n : Nat) :
    Good (parseList t par stmt n) := by
  have h1 := good_listItem t hp hs n
  unfold parseList; good

/-! ## Parts of headlines -/

theorem good_logbook (t : Texts) {par stmt : P Unit} (hp : Good par) (hs : Good stmt) (n : Nat) :
    Good (parseSubtreeLogbook t par stmt n) := by
  have h1 := good_list t hp hs n
  unfold parseSubtreeLogbook; good

theorem good_drawerProperty (t : Texts) {par : P Unit} (hp : Good par) (n : Nat) : Good (drawerProperty t par n) := by
  have h1 := good_commandArguments t n
  unfold drawerProperty
  refine good_bind (by good) (fun k => ?_)
  by_cases h : k ∈ [Token.TK.ColonLiteralProperty, .ColonArgumentsProperty, .ColonPropertyText]
  · rw [if_pos h]; good
  · rw [if_neg h]; good

theorem good_properties (t : Texts) {par : P Unit} (hp : Good par) (n : Nat) : Good (parseSubtreeProperties t par n) := by
  have h1 := good_drawerProperty t hp n
  unfold parseSubtreeProperties; good

theorem one_node {R : Option α → Forest NK Unit → Prop} {u : List (Nat × TK)} {k : NK} {body : P α}
    (h : GoodFrom R u body) (hk : k ≠ .Empty) (hk' : k ≠ .Subtree) : GoodFrom (One [k]) u (node k body) :=
  (good_node h hk hk').mono (fun _ _ h => h.one)

theorem one_sub {u : List (Nat × TK)} {p : P α} {ks ks' : List NK} (h : GoodFrom (One ks) u p) (hk : ∀ k ∈ ks, k ∈ ks') :
    GoodFrom (One ks') u p := h.mono (fun _ _ ⟨k, h1, h2⟩ => ⟨k, hk k h1, h2⟩)

theorem ok1_one {u : List (Nat × TK)} {p : P α} {ks : List NK} (h : GoodFrom (Ok1 ks) u p) : GoodFrom (One ks) u p :=
  h.mono (fun _ _ h => h.2)

theorem one_empty {ks : List NK} (h : .Empty ∈ ks) : GoodFrom (One ks) [] emptyP := ok1_one (W_ok1 good_empty h)

theorem one_popAny {k : NK} {ks : List NK} (hk : k ≠ .Subtree) (h : k ∈ ks) : GoodFrom (One ks) [] (popAny k) :=
  ok1_one (W_ok1 (good_popAny hk) h)

theorem one_drawer (t : Texts) {par stmt : P Unit} (hp : Good par) (hs : Good stmt) (n : Nat) :
    GoodFrom (One [.Drawer]) [] (parseSubtreeDrawer t par stmt n) := by
  have h1 := good_properties t hp n
  have h2 := good_logbook t hp hs n
  unfold parseSubtreeDrawer
  refine one_node (R := Any) ?_ (by decide) (by decide)
  good

theorem one_completion (n : Nat) : GoodFrom (One [.SubtreeCompletion, .Empty]) [] (parseSubtreeCompletion n) :=
  moves_bind (W_space n) (fun _ => good_if (pure_at _ _) (one_popAny (by decide) (by decide)) (one_empty (by decide)))

theorem one_todo (n : Nat) : GoodFrom (One [.BigIdent, .Empty]) [] (parseSubtreeTodo n) :=
  moves_bind (W_space n) (fun _ => good_if (pure_atSeq _) (one_popAny (by decide) (by decide)) (one_empty (by decide)))

theorem one_urgency (n : Nat) : GoodFrom (One [.SubtreeUrgency, .Empty]) [] (parseSubtreeUrgency n) :=
  moves_bind (W_space n) (fun _ => good_if (pure_at _ _) (one_popAny (by decide) (by decide)) (one_empty (by decide)))

theorem one_title (t : Texts) {par : P Unit} (hp : GoodFrom (W [.Paragraph]) [] par) (n : Nat) :
    GoodFrom (One [.Paragraph, .Empty]) [] (parseSubtreeTitle t par n) :=
  moves_bind (W_space n) (fun _ =>
    collects_bind (collects_collect (by askpure) (endConst_and (canSearch_end _)) n) (fun _ => ok1_one (W_idsOrEmpty t hp)))

theorem one_tags (t : Texts) (n : Nat) : GoodFrom (One [.InlineStmtList, .Empty]) [] (parseSubtreeTags t n) := by
  have h1 := good_hashTag t n
  unfold parseSubtreeTags
  refine good_if (by askpure) (one_sub (one_node (R := Any) ?_ (by decide) (by decide)) (by decide)) (one_empty (by decide))
  good

theorem one_times (t : Texts) (n : Nat) : GoodFrom (One [.StmtList, .Empty]) [] (parseSubtreeTimes t n) := by
  have h1 := good_timeRange t n
  have h2 := good_lexSkip [.Newline]
  unfold parseSubtreeTimes
  refine good_if (by askpure) ?_ (one_empty (by decide))
  refine moves_bind (W_space n) (fun _ => one_sub (one_node (R := Any) ?_ (by decide) (by decide)) (by decide))
  good

theorem ok1_fails {ks : List NK} {p : P Unit} (h : GoodFrom (One ks) [] p) : GoodFrom (Ok1 ks) [] (failsP p) := by
  intro s v hu hv
  have h := h s v hu hv
  unfold failsP
  cases hs : p s with
  | error e => rw [hs] at h; exact h
  | ok rs =>
    obtain ⟨r, s'⟩ := rs
    rw [hs] at h
    obtain ⟨v', f, h1, h2⟩ := h
    cases r with
    | none => exact ⟨v', f, h1, rfl, h2⟩
    | some a => exact ⟨v', f, h1, rfl, h2⟩

theorem ok1_emptyRet (b : Bool) {ks : List NK} (hk : .Empty ∈ ks) : GoodFrom (Ok1 ks) [] (P.bind emptyP (fun _ => P.ret b)) :=
  W_ok1 (W_bind (j := [.Empty]) (k := []) good_empty (fun _ => good_ret _)) hk

theorem ok1_element {ks : List NK} {p : P Unit} (h : GoodFrom (One ks) [] p) (hk : .Empty ∈ ks) (f : Bool) :
    GoodFrom (Ok1 ks) [] (element p f) := by
  cases f with
  | true => exact ok1_emptyRet true hk
  | false => exact ok1_fails h

/-! ## Headlines -/

/-- The fields after the stars, and the section. -/
def Tail (fs : List (List NK)) : Option α → Forest NK Unit → Prop :=
  fun _ f => ∃ fields, List.Forall₂ (fun k ks => k ∈ ks) (rootKinds fields) fs ∧
    f = fields.append (.tree .StmtList .nil .nil)

theorem forest_append_assoc (f g h : Forest NK Unit) : (f.append g).append h = f.append (g.append h) := by
  induction f with
  | nil => rfl
  | leaf k v r ih => simp [Forest.append, ih]
  | tree k c r _ ih => simp [Forest.append, ih]

theorem tail_bind0 {fs : List (List NK)} {p : P α} {q : α → P β} (hp : GoodFrom (W []) [] p)
    (hq : ∀ a, GoodFrom (Tail fs) [] (q a)) : GoodFrom (Tail fs) [] (P.bind p q) := moves_bind hp hq

theorem tail_bind1 {ks : List NK} {fs : List (List NK)} {p : P α} {q : α → P β} (hp : GoodFrom (Ok1 ks) [] p)
    (hq : ∀ a, GoodFrom (Tail fs) [] (q a)) : GoodFrom (Tail (ks :: fs)) [] (P.bind p q) :=
  fun s => okAt_seq (hp s) hq (fun _ h => by cases h.1) (by
    rintro _ _ f g ⟨_, k, hk, h2⟩ ⟨fields, h1, rfl⟩
    exact ⟨f.append fields, by rw [rootKinds_append, h2]; exact .cons hk h1, by rw [forest_append_assoc]⟩)

/-- The end of a headline. -/
theorem tail_end (r : Option Unit) : GoodFrom (Tail []) [] (P.bind (node .StmtList (P.ret ())) (fun _ => fun s => .ok (r, s))) := by
  intro s
  refine okAt_seq (R := Around (W []) .StmtList) (R' := fun _ f => f = .nil) (good_node (good_ret ()) (by decide) (by decide) s)
    ?_ ?_ ?_
  · intro _ s v hu hv
    exact ⟨v, .nil, Step.refl hv, rfl⟩
  · rintro f ⟨c, rfl, h, _⟩; cases h
  · rintro _ _ f g ⟨c, rfl, _, hc⟩ rfl
    refine ⟨.nil, .nil, ?_⟩
    rw [roots_nil hc]
    rfl

theorem okAt_subtree (t : Texts) {par stmt : P Unit} (hp : GoodFrom (W [.Paragraph]) [] par) (hs : Good stmt) (n : Nat) {s : St}
    (hk : s.lex.kind = .ok .SubtreeStars) : OkAt Any [] s (parseSubtree t par stmt n) := by
  refine okAt_mono (R := Around (fun _ c => IsHeadline s.lex.toks c) .Subtree) ?_ (fun _ _ _ => trivial)
  unfold parseSubtree
  refine okAt_node (by decide) ?_ (fun _ _ _ h => h)
  generalize hs0 : { s with g := (s.g.startTree ⟨.Subtree, .ext 0⟩).1 } = s0
  have hk0 : s0.lex.kind = .ok .SubtreeStars := by rw [← hs0]; exact hk
  have ht0 : s0.lex.toks = s.lex.toks := by rw [← hs0]
  clear hs0 hk
  refine okAt_seq (R := fun r f => r.isSome = true ∧ ∃ i, i ≠ 0 ∧ s.lex.toks[i - 1]? = some .SubtreeStars ∧
    f = .leaf .RawText (.tok i) .nil) (R' := Tail headlineFields) ?_ ?_ ?_ ?_
  · intro v hu hv
    obtain ⟨q, w, rfl, hq⟩ := kind_cons hv hk0
    obtain ⟨h1, h2, h3, _, h5⟩ := cur_next_cons hv
    have hat : s0.lex.at [.SubtreeStars] 0 = .ok true := by
      unfold Lex.at
      rw [if_pos (by simpa [Lex.finished] using h5), hk0]
      rfl
    have e : popAs t .RawText [.SubtreeStars] s0 =
        .ok (some (), ⟨s0.lex.next, (s0.g.token ⟨.RawText, .tok s0.lex.pos⟩).1⟩) := by
      simp only [popAs, expectP, ifP, P.bind, atP, ask, hat, P.ret, popP, tokenP]
    rw [e]
    have hpos := (cur_valid hv).2 q List.mem_cons_self
    refine ⟨w, .leaf .RawText (.tok s0.lex.pos) .nil, ⟨[q], rfl, h1, h2, rfl, rfl, ?_, by decide, trivial⟩, rfl, s0.lex.pos, ?_, ?_, rfl⟩
    · rw [h3]; simp only [leafToks]; rw [if_neg (by omega)]; simp
    · rw [h3]; omega
    · rw [h3, ← ht0, hpos.2, hq]
  · intro _
    refine tail_bind1 (ok1_element (one_todo n) (by decide) _) (fun f => ?_)
    refine tail_bind1 (ok1_element (one_urgency n) (by decide) _) (fun f => ?_)
    refine tail_bind0 (W_space n) (fun _ => ?_)
    refine tail_bind1 (ok1_element (one_title t hp n) (by decide) _) (fun f => ?_)
    refine tail_bind1 (ok1_element (one_completion n) (by decide) _) (fun f => ?_)
    refine tail_bind0 (W_space n) (fun _ => ?_)
    refine tail_bind1 (ok1_element (one_tags t n) (by decide) _) (fun f => ?_)
    refine tail_bind0 (good_if (pure_at _ _) (W_newline n) (good_ret _)) (fun _ => ?_)
    refine tail_bind1 (ok1_element (one_times t n) (by decide) _) (fun f => ?_)
    refine tail_bind0 (good_if (pure_at _ _) (W_newline n) (good_ret _)) (fun _ => ?_)
    refine tail_bind1 (good_if (pure_at _ _) (ok1_element (one_sub (one_drawer t hp.good hs n) (by decide)) (by decide) _)
      (ok1_emptyRet _ (by decide))) (fun f => ?_)
    refine tail_bind0 (W_newline n) (fun _ => ?_)
    exact tail_end _
  · rintro f ⟨h, _⟩; cases h
  · rintro _ _ f g ⟨_, i, hi, hi', rfl⟩ ⟨fields, h1, rfl⟩
    exact ⟨i, fields, hi, hi', h1, rfl⟩

/-! ## Line commands and statements -/

theorem good_cmdArguments (t : Texts) (n : Nat) : Good (cmdArguments t n) := by unfold cmdArguments; good

theorem good_fileTags (t : Texts) (n : Nat) : Good (fileTags t n) := by
  have h1 := good_hashTag t n
  unfold fileTags; good

theorem cmdNode_kind (k : TK) : cmdNode k ≠ .Empty ∧ cmdNode k ≠ .Subtree := by
  unfold cmdNode
  split <;> decide

theorem good_ite {R : Option α → Forest NK Unit → Prop} {u : List (Nat × TK)} {c : Prop} [Decidable c] {a b : P α}
    (ha : GoodFrom R u a) (hb : GoodFrom R u b) : GoodFrom R u (if c then a else b) := by
  split
  · exact ha
  · exact hb

theorem good_lineCommand (t : Texts) {par : P Unit} (hp : Good par) (n : Nat) (k : TK) : Good (lineCommand t par n k) := by
  have h1 := good_commandArguments t n
  have h2 := good_toEol t hp n (.Newline :: paragraphTerminator)
  have h3 := good_callArguments t n
  have h4 := good_cmdArguments t n
  have h5 := good_fileTags t n
  have hn : ∀ {u : List (Nat × TK)} {body : P Unit}, GoodFrom Any u body → GoodFrom Any u (node (cmdNode k) body) :=
    fun h => good_node' h (cmdNode_kind k).1 (cmdNode_kind k).2
  unfold lineCommand
  repeat' (first | good1 | with_reducible refine hn ?_ | with_reducible refine good_ite ?_ ?_)

theorem good_parseLineCommand (t : Texts) {par : P Unit} (hp : Good par) (n : Nat) : Good (parseLineCommand t par n) :=
  good_bind (good_kind _) (fun k => good_lineCommand t hp n k)

theorem good_thenDedent (t : Texts) {p : P Unit} (hp : Good p) : Good (thenDedent t p) := by
  intro s v hu hv
  have h := hp s v hu hv
  unfold thenDedent
  cases hr : p s with
  | error e => rw [hr] at h; exact h
  | ok rs =>
    obtain ⟨r, s'⟩ := rs
    rw [hr] at h
    obtain ⟨v', f, h1, _⟩ := h
    have h' := good_skip t [.Dedent] s' v' (valid_nil _) h1.cur
    dsimp only
    cases hr' : skipP t [.Dedent] s' with
    | error e => rw [hr'] at h'; exact h'
    | ok rs =>
      obtain ⟨r', s''⟩ := rs
      rw [hr'] at h'
      obtain ⟨v'', f', h2, _⟩ := h'
      cases r' with
      | none => exact ⟨v'', _, h1.trans h2 rfl, trivial⟩
      | some a => exact ⟨v'', _, h1.trans h2 rfl, trivial⟩

theorem good_indentedList (t : Texts) {par stmt : P Unit} (hp : Good par) (hs : Good stmt) (n : Nat) :
    Good (indentedList t par stmt n) :=
  good_bind (good_skip _ _) (fun _ => good_thenDedent t (good_list t hp hs n))

theorem good_plainParagraph {par : P Unit} (hp : Good par) (n : Nat) : Good (plainParagraph par n) := by
  unfold plainParagraph
  refine collects_bind (collects_collect (pure_canSearch _) (endConst_canSearch _) n) (fun u => ?_)
  cases u with
  | nil =>
    show Good (P.bind nextP (fun _ => node .Paragraph (P.ret ())))
    good
  | cons q u => exact good_withIds (u := q :: u) hp

theorem good_stmtCommand (t : Texts) {par stmt : P Unit} (hp : Good par) (hs : Good stmt) (n : Nat) :
    Good (stmtCommand t par stmt n) := by
  have h1 := good_src t hs n
  have h2 := good_example t n
  have h3 := good_blockExport t n
  have h4 := good_textWrap t hs n
  have h5 := good_table t hp hs n
  have h6 := good_parseLineCommand t hp n
  unfold stmtCommand
  repeat' (first | good1 | with_reducible refine good_ite ?_ ?_)

/-- Statements. -/
theorem good_stmt (t : Texts) (n : Nat) : Good (parseStmt t n) := by
  induction n with
  | zero => exact good_throw trivial
  | succ n ih =>
    have hp := (good_paragraph t n).good
    have h1 := good_indentedList t hp ih n
    have h2 := good_table t hp ih n
    have h3 := good_colonExample t n
    have h4 := good_stmtCommand t hp ih n
    have h5 := good_plainParagraph hp n
    unfold parseStmt
    intro s
    refine okAt_pure_bind (pure_kind _) (fun k hk => ?_)
    by_cases hks : k = .SubtreeStars
    · rw [if_pos hks]
      subst hks
      refine okAt_subtree t (good_paragraph t n) ih n ?_
      unfold kindP ask at hk
      split at hk
      · cases hk
      · rename_i hx; injection hk with hk; injection hk with hk _; injection hk with hk; exact hk ▸ hx
    · rw [if_neg hks]
      refine (?_ : GoodFrom Any [] _) s
      repeat' (first | good1 | with_reducible refine good_ite ?_ ?_)

theorem good_recover {stmt : P Unit} (hs : Good stmt) (n : Nat) : Good (recover stmt n) := by
  intro s v hu hv
  have h := hs s v hu hv
  unfold recover
  cases hr : stmt s with
  | error e => rw [hr] at h; exact h
  | ok rs =>
    obtain ⟨r, s'⟩ := rs
    rw [hr] at h
    obtain ⟨v', f, h1, _⟩ := h
    cases r with
    | some a => exact ⟨v', f, h1, trivial⟩
    | none =>
      dsimp only
      have hn : Good (node .ErrorSkipGroup (whileP (canSearch newlineKinds) (popAny .ErrorSkipToken) n)) := by good
      have h' := hn s' v' (valid_nil _) h1.cur
      cases hr' : node .ErrorSkipGroup (whileP (canSearch newlineKinds) (popAny .ErrorSkipToken) n) s' with
      | error e => rw [hr'] at h'; exact h'
      | ok rs =>
        obtain ⟨r', s''⟩ := rs
        rw [hr'] at h'
        obtain ⟨v'', f', h2, _⟩ := h'
        exact ⟨v'', _, h1.trans h2 rfl, trivial⟩

/-- The document. -/
theorem good_top (t : Texts) (n : Nat) : GoodFrom (Around Any .StmtList) [] (parseTop t n) := by
  have h1 := good_recover (good_stmt t n) n
  unfold parseTop
  refine good_node (R := Any) ?_ (by decide) (by decide)
  good

end Verif.Parser
