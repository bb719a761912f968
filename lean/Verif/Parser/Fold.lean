import Verif.Parser.GoodText

/-!
# Markup – `textFold`
-/

namespace Verif.Parser
open Verif.Lexer Verif.NodeGroup Verif.NodeGroup.Spec

/-! ## Texts with open markup -/

/-- An open markup tree: kind, opening token, content so far. -/
structure Frame where
  kind : NK
  start : Nat
  body : Forest NK Unit

/-- The kind and the opening token. -/
def Frame.head (f : Frame) : NK × Nat := (f.kind, f.start)

/-- The nodes of a text with open markup (innermost first). -/
def layout (f0 : Forest NK Unit) : List Frame → List (Node NK Unit)
  | [] => f0.flat
  | fr :: st => layout f0 st ++ ⟨fr.kind, .ext 0⟩ :: fr.body.flat

/-- The ids of the open trees when there are `b` nodes before. -/
def opens (b : Nat) (f0 : Forest NK Unit) : List Frame → List Nat
  | [] => []
  | _ :: st => (b + (layout f0 st).length + 1) :: opens b f0 st

/-- The tokens, in order. -/
def order (f0 : Forest NK Unit) : List Frame → List Nat
  | [] => leafToks f0
  | fr :: st => order f0 st ++ ((if fr.start = 0 then [] else [fr.start]) ++ leafToks fr.body)

/-- All trees have the right shape. -/
def ShapeAll (toks : List TK) (f0 : Forest NK Unit) (st : List Frame) : Prop :=
  Shape toks f0 ∧ ∀ fr ∈ st, Shape toks fr.body

/-- Adding trees to the innermost open one. -/
def addTrees (f : Forest NK Unit) : Forest NK Unit × List Frame → Forest NK Unit × List Frame
  | (f0, []) => (f0.append f, [])
  | (f0, fr :: st) => (f0, { fr with body := fr.body.append f } :: st)

theorem addTrees_layout (f f0 : Forest NK Unit) (st : List Frame) :
    layout (addTrees f (f0, st)).1 (addTrees f (f0, st)).2 = layout f0 st ++ f.flat := by
  cases st with
  | nil => simp [addTrees, layout]
  | cons fr st => simp [addTrees, layout]

theorem addTrees_opens (b : Nat) (f f0 : Forest NK Unit) (st : List Frame) :
    opens b (addTrees f (f0, st)).1 (addTrees f (f0, st)).2 = opens b f0 st := by
  cases st with
  | nil => simp [addTrees, opens]
  | cons fr st => simp [addTrees, opens]

theorem addTrees_order (f f0 : Forest NK Unit) (st : List Frame) :
    order (addTrees f (f0, st)).1 (addTrees f (f0, st)).2 = order f0 st ++ leafToks f := by
  cases st with
  | nil => simp [addTrees, order, leafToks_append]
  | cons fr st => simp [addTrees, order, leafToks_append]

theorem addTrees_shape {toks : List TK} {f f0 : Forest NK Unit} {st : List Frame} (h : ShapeAll toks f0 st)
    (hf : Shape toks f) :
    ShapeAll toks (addTrees f (f0, st)).1 (addTrees f (f0, st)).2 := by
  cases st with
  | nil => exact ⟨shape_append h.1 hf, h.2⟩
  | cons fr st =>
    refine ⟨h.1, ?_⟩
    intro x hx
    rcases List.mem_cons.1 hx with rfl | hx
    · exact shape_append (h.2 fr List.mem_cons_self) hf
    · exact h.2 x (List.mem_cons_of_mem _ hx)

theorem addTrees_heads (f f0 : Forest NK Unit) (st : List Frame) :
    (addTrees f (f0, st)).2.map Frame.head = st.map Frame.head := by
  cases st <;> rfl

/-- The state is a text with open markup after the nodes `N0`, `P0`. -/
def Laid (N0 : List (Node NK Unit)) (P0 : List Nat) (s : St) (f0 : Forest NK Unit) (st : List Frame) : Prop :=
  s.g.nodes = N0 ++ layout f0 st ∧ s.g.pending = opens N0.length f0 st ++ P0 ∧ ShapeAll s.lex.toks f0 st

/-- The base is a paragraph. -/
def Base (N0 : List (Node NK Unit)) (P0 : List Nat) : Prop :=
  ∃ q rest nd, P0 = q :: rest ∧ q ≠ 0 ∧ N0[q - 1]? = some nd ∧ nd.kind ∉ [NK.Bold, .Italic, .Underline, .Strike]

/-- What the functions of the fold do: open trees may be closed, none is left. -/
def FoldOk (p : P α) : Prop :=
  ∀ N0 P0 s v f0 st, Base N0 P0 → Cur s.lex v → Laid N0 P0 s f0 st →
    match p s with
    | .error e => e.foreign
    | .ok (_, s') => ∃ c v' f0' st', v = c ++ v' ∧ Cur s'.lex v' ∧ SameToks s.lex s'.lex ∧ Laid N0 P0 s' f0' st' ∧
        st'.map Frame.head <:+ st.map Frame.head ∧ (order f0' st').Sublist (order f0 st ++ c.map Prod.fst)

theorem fold_good {p : P α} (h : Good p) : FoldOk p := by
  intro N0 P0 s v f0 st hb hv ⟨hn, hp, hsh⟩
  have h := h s v (valid_nil _) hv
  cases hs : p s with
  | error e => rw [hs] at h; exact h
  | ok rs =>
    obtain ⟨r, s'⟩ := rs
    rw [hs] at h
    obtain ⟨v', f, ⟨c, h1, h2, h3, h4, h5, h6, h7⟩, _⟩ := h
    refine ⟨c, v', (addTrees f (f0, st)).1, (addTrees f (f0, st)).2, h1, h2, h3, ⟨?_, ?_, h3.1 ▸ addTrees_shape hsh h7⟩, ?_, ?_⟩
    · rw [h4, hn, addTrees_layout, List.append_assoc]
    · rw [h5, hp, addTrees_opens]
    · rw [addTrees_heads]; exact List.suffix_rfl
    · rw [addTrees_order]
      exact (List.Sublist.refl _).append (by simpa using h6)

theorem fold_bind {p : P α} {q : α → P β} (hp : FoldOk p) (hq : ∀ a, FoldOk (q a)) : FoldOk (P.bind p q) := by
  intro N0 P0 s v f0 st hb hv hl
  have h := hp N0 P0 s v f0 st hb hv hl
  unfold P.bind
  cases hs : p s with
  | error e => rw [hs] at h; exact h
  | ok rs =>
    obtain ⟨r, s'⟩ := rs
    rw [hs] at h
    obtain ⟨c, v', f0', st', h1, h2, h3, h4, h5, h6⟩ := h
    cases r with
    | none => exact ⟨c, v', f0', st', h1, h2, h3, h4, h5, h6⟩
    | some a =>
      dsimp only
      have h := hq a N0 P0 s' v' f0' st' hb h2 h4
      cases hs' : q a s' with
      | error e => rw [hs'] at h; exact h
      | ok rs =>
        obtain ⟨r, s''⟩ := rs
        rw [hs'] at h
        obtain ⟨c', v'', f0'', st'', k1, k2, k3, k4, k5, k6⟩ := h
        refine ⟨c ++ c', v'', f0'', st'', by rw [h1, k1, List.append_assoc], k2, h3.trans k3, k4, k5.trans h5, ?_⟩
        refine k6.trans ?_
        rw [List.map_append, ← List.append_assoc]
        exact h6.append (List.Sublist.refl _)

theorem fold_ignore {p : P α} (h : FoldOk p) : FoldOk (ignoreP p) := by
  intro N0 P0 s v f0 st hb hv hl
  have h := h N0 P0 s v f0 st hb hv hl
  unfold ignoreP
  cases hs : p s with
  | error e => rw [hs] at h; exact h
  | ok rs =>
    obtain ⟨r, s'⟩ := rs
    rw [hs] at h
    exact h

theorem fold_if {c : P Bool} {a b : P α} (hc : Pure c) (ha : FoldOk a) (hb : FoldOk b) : FoldOk (ifP c a b) :=
  fold_bind (fold_good (good_pure hc)) (fun t => match t with | true => ha | false => hb)

/-! ## The steps -/

/-- The kind of the innermost open tree. -/
theorem pendingKind_laid {N0 : List (Node NK Unit)} {P0 : List Nat} {s : St} {f0 : Forest NK Unit} {st : List Frame}
    (hb : Base N0 P0) (hl : Laid N0 P0 s f0 st) :
    ∃ k, pendingKind s = .ok (some k, s) ∧
      (match st with
        | [] => k ∉ [NK.Bold, .Italic, .Underline, .Strike]
        | fr :: _ => k = fr.kind) := by
  obtain ⟨l, nodes, pend⟩ := s
  obtain ⟨hn, hp, _⟩ := hl
  dsimp only at hn hp
  subst hn hp
  cases st with
  | nil =>
    obtain ⟨q, rest, nd, rfl, hq, hnd, hk⟩ := hb
    refine ⟨nd.kind, ?_, hk⟩
    obtain ⟨q, rfl⟩ := Nat.exists_eq_succ_of_ne_zero hq
    have hlt : q < N0.length := by
      rcases Nat.lt_or_ge q N0.length with h | h
      · exact h
      · rw [List.getElem?_eq_none (by simpa using h)] at hnd; cases hnd
    have e : Group.at ⟨N0 ++ layout f0 [], opens N0.length f0 [] ++ (q + 1) :: rest⟩ (q + 1) = .ok nd := by
      unfold Group.at getIndex
      simp only [bind, Except.bind, List.getElem?_append_left hlt]
      simp only [Nat.succ_eq_add_one, Nat.add_sub_cancel] at hnd
      rw [hnd]
    unfold pendingKind
    dsimp only [opens, List.nil_append]
    rw [show Group.at ⟨N0 ++ layout f0 [], (q + 1) :: rest⟩ (q + 1) = .ok nd from e]
  | cons fr st =>
    refine ⟨fr.kind, ?_, rfl⟩
    have e : Group.at ⟨N0 ++ layout f0 (fr :: st), opens N0.length f0 (fr :: st) ++ P0⟩
        (N0.length + (layout f0 st).length + 1) = .ok ⟨fr.kind, .ext 0⟩ := by
      have := at_append (N0 ++ layout f0 st) fr.body.flat (⟨fr.kind, .ext 0⟩ : Node NK Unit)
        (opens N0.length f0 (fr :: st) ++ P0)
      rw [List.length_append, List.append_assoc] at this
      exact this
    unfold pendingKind
    dsimp only [opens, List.cons_append]
    rw [show Group.at ⟨N0 ++ layout f0 (fr :: st), (N0.length + (layout f0 st).length + 1) :: (opens N0.length f0 st ++ P0)⟩
        (N0.length + (layout f0 st).length + 1) = .ok ⟨fr.kind, .ext 0⟩ from e]

/-- Closing the innermost open tree. -/
theorem endTree_laid {N0 : List (Node NK Unit)} {P0 : List Nat} {s : St} {f0 : Forest NK Unit} {fr : Frame} {st : List Frame}
    (hl : Laid N0 P0 s f0 (fr :: st)) (hk : fr.kind ∉ [NK.Subtree, .Empty]) :
    ∃ g, endTreeP s = .ok (some (), { s with g := g }) ∧
      Laid N0 P0 { s with g := g } (addTrees (.tree fr.kind fr.body .nil) (f0, st)).1
        (addTrees (.tree fr.kind fr.body .nil) (f0, st)).2 := by
  obtain ⟨l, nodes, pend⟩ := s
  obtain ⟨hn, hp, hsh⟩ := hl
  dsimp only at hn hp
  subst hn hp
  have e := endTree_close (N0 ++ layout f0 st) fr.body.flat fr.kind (opens N0.length f0 st ++ P0)
  rw [List.length_append, List.append_assoc, List.append_assoc] at e
  refine ⟨⟨N0 ++ (layout f0 st ++ ⟨fr.kind, .ext fr.body.flat.length⟩ :: fr.body.flat), opens N0.length f0 st ++ P0⟩, ?_, ?_, ?_, ?_⟩
  · unfold endTreeP
    dsimp only [layout, opens, List.cons_append]
    rw [e]
  · dsimp only
    rw [addTrees_layout]
    simp [Forest.flat]
  · dsimp only
    rw [addTrees_opens]
  · simp only [List.mem_cons, List.not_mem_nil, or_false, not_or] at hk
    refine addTrees_shape ⟨hsh.1, fun x hx => hsh.2 x (List.mem_cons_of_mem _ hx)⟩ ?_
    exact ⟨hk.2, fun h => absurd h hk.1, hsh.2 fr List.mem_cons_self, trivial⟩

/-- Giving up the innermost open tree. -/
theorem failTree_laid {N0 : List (Node NK Unit)} {P0 : List Nat} {s : St} {f0 : Forest NK Unit} {fr : Frame} {st : List Frame}
    (hl : Laid N0 P0 s f0 (fr :: st)) :
    ∃ g i, s.g.failTree ⟨.Punctuation, .tok fr.start⟩ = .ok (g, i) ∧
      Laid N0 P0 { s with g := g } (addTrees (.leaf .Punctuation (.tok fr.start) fr.body) (f0, st)).1
        (addTrees (.leaf .Punctuation (.tok fr.start) fr.body) (f0, st)).2 := by
  obtain ⟨l, nodes, pend⟩ := s
  obtain ⟨hn, hp, hsh⟩ := hl
  dsimp only at hn hp
  subst hn hp
  have e := failTree_close (N0 ++ layout f0 st) fr.body.flat (⟨fr.kind, .ext 0⟩ : Node NK Unit)
    ⟨.Punctuation, .tok fr.start⟩ (opens N0.length f0 st ++ P0)
  rw [List.length_append, List.append_assoc, List.append_assoc] at e
  refine ⟨_, _, e, ?_, ?_, ?_⟩
  · dsimp only
    rw [addTrees_layout]
    simp [Forest.flat]
  · dsimp only
    rw [addTrees_opens]
  · refine addTrees_shape ⟨hsh.1, fun x hx => hsh.2 x (List.mem_cons_of_mem _ hx)⟩ ?_
    exact ⟨by decide, hsh.2 fr List.mem_cons_self⟩

theorem laid_pending {N0 : List (Node NK Unit)} {P0 : List Nat} {s : St} {f0 : Forest NK Unit} {st : List Frame}
    (hl : Laid N0 P0 s f0 st) : s.g.pending.length = st.length + P0.length := by
  rw [hl.2.1, List.length_append]
  congr 1
  clear hl
  induction st with
  | nil => rfl
  | cons fr st ih => simp [opens, ih]

/-- The kinds of markup. -/
def markupKinds : List NK := [.Bold, .Italic, .Underline, .Strike]

theorem markup_kinds {k : TK} {nk : NK} {r : Option Bool} (h : markup k = some (nk, r)) : nk ∈ markupKinds := by
  unfold markup at h
  split at h
  all_goals first
    | (injection h with h; injection h with h _; subst h; decide)
    | cases h

theorem fold_end {nk : NK} (hk : nk ∈ markupKinds) : FoldOk (foldEnd nk) := by
  intro N0 P0 s v f0 st hb hv hl
  obtain ⟨k, h1, h2⟩ := pendingKind_laid hb hl
  unfold foldEnd ifP
  simp only [P.bind, h1, P.ret]
  by_cases e : k = nk
  · rw [decide_eq_true e]
    dsimp only
    subst e
    cases st with
    | nil => exact absurd hk h2
    | cons fr st =>
      dsimp only at h2
      subst h2
      obtain ⟨g, h3, h4⟩ := endTree_laid hl (by
        intro h
        simp only [markupKinds, List.mem_cons, List.not_mem_nil, or_false] at hk h
        rcases h with h | h <;> rw [h] at hk <;> simp at hk)
      have h5 : P.bind endTreeP (fun _ => nextP) s = .ok (some (), { lex := s.lex.next, g := g }) := by
        unfold P.bind
        rw [h3]
        rfl
      rw [h5]
      obtain ⟨c, v', k1, k2, k3, _, _⟩ := cur_next hv
      refine ⟨c, v', _, _, k1, k2, k3, ⟨h4.1, h4.2.1, k3.1 ▸ h4.2.2⟩, ?_, ?_⟩
      · rw [addTrees_heads]
        exact List.suffix_cons _ _
      · rw [addTrees_order]
        simp only [order, leafToks, List.append_nil, List.append_assoc]
        refine (List.Sublist.refl _).append ?_
        refine (List.sublist_append_left _ _).trans (List.sublist_append_right _ _)
  · rw [decide_eq_false e]
    exact fold_good (good_popAny (by decide)).any N0 P0 s v f0 st hb hv hl

theorem fold_begin {nk : NK} {aux : P Unit} (ha : FoldOk aux) : FoldOk (foldBegin aux nk) := by
  intro N0 P0 s v f0 st hb hv hl
  obtain ⟨c, v', k1, k2, k3, _, k5⟩ := cur_next hv
  have hl' : Laid N0 P0 { lex := s.lex.next, g := (s.g.startTree ⟨nk, .ext 0⟩).1 } f0 (⟨nk, s.lex.pos, .nil⟩ :: st) := by
    obtain ⟨hn, hp, hsh⟩ := hl
    have hsh : ShapeAll s.lex.next.toks f0 st := k3.1 ▸ hsh
    refine ⟨?_, ?_, hsh.1, ?_⟩
    · simp only [Group.startTree, hn, layout, Forest.flat, List.append_assoc]
    · simp only [Group.startTree, hn, hp, opens, List.length_append, List.cons_append]
    · intro x hx
      rcases List.mem_cons.1 hx with rfl | hx
      · trivial
      · exact hsh.2 x hx
  have h := ha N0 P0 _ v' f0 _ hb k2 hl'
  unfold foldBegin
  dsimp only
  cases hs : aux { lex := s.lex.next, g := (s.g.startTree ⟨nk, .ext 0⟩).1 } with
  | error e => rw [hs] at h; exact h
  | ok rs =>
    obtain ⟨r, s'⟩ := rs
    rw [hs] at h
    obtain ⟨c', v'', f0', st', h1, h2, h3, h4, h5, h6⟩ := h
    dsimp only at h3
    dsimp only
    simp only [List.map_cons, List.suffix_cons_iff] at h5
    have hsub : (order f0' st').Sublist (order f0 st ++ (c ++ c').map Prod.fst) := by
      refine h6.trans ?_
      simp only [order, leafToks, List.append_nil, k5, List.map_append, List.append_assoc]
      exact List.Sublist.refl _
    by_cases hd : s.g.pending.length < s'.g.pending.length
    · rw [if_pos hd]
      rw [laid_pending hl, laid_pending h4] at hd
      rcases h5 with h5 | h5
      · cases st' with
        | nil => simp at h5
        | cons fr st' =>
          simp only [List.map_cons, List.cons.injEq] at h5
          obtain ⟨e1, e2⟩ := h5
          have e3 : fr.start = s.lex.pos := congrArg Prod.snd e1
          obtain ⟨g, i, h7, h8⟩ := failTree_laid h4
          rw [e3] at h7
          rw [h7]
          refine ⟨c ++ c', v'', _, _, by rw [k1, h1, List.append_assoc], h2, k3.trans h3, h8, ?_, ?_⟩
          · rw [addTrees_heads, e2]; exact List.suffix_rfl
          · rw [addTrees_order]
            simpa [order, leafToks] using hsub
      · have := h5.length_le
        simp only [List.length_map] at this
        omega
    · rw [if_neg hd]
      refine ⟨c ++ c', v'', f0', st', by rw [k1, h1, List.append_assoc], h2, k3.trans h3, h4, ?_, hsub⟩
      rcases h5 with h5 | h5
      · rw [laid_pending hl, laid_pending h4] at hd
        have := congrArg List.length h5
        simp only [List.length_map, List.length_cons] at this
        omega
      · exact h5

theorem fold_unknown {nk : NK} {aux : P Unit} (hk : nk ∈ markupKinds) (ha : FoldOk aux) : FoldOk (foldUnknown aux nk) := by
  intro N0 P0 s v f0 st hb hv hl
  obtain ⟨k, h1, h2⟩ := pendingKind_laid hb hl
  unfold foldUnknown ifP
  simp only [P.bind, h1, P.ret]
  by_cases e : k = nk
  · rw [decide_eq_true e]
    exact fold_end hk N0 P0 s v f0 st hb hv hl
  · rw [decide_eq_false e]
    exact fold_begin ha N0 P0 s v f0 st hb hv hl

/-! ## The whole fold -/

theorem good_foldOther (t : Texts) {par text : P Unit} (hp : Good par) (ht : TextGood Any text) (n : Nat) (k : TK) :
    Good (foldOther t par text n k) := by
  have h1 := good_macro t n
  have h2 := good_criticMarkup t hp n
  have h3 := good_placeholder
  have h4 := good_timeRange t n
  have h5 := good_inlineExport t
  have h6 := good_srcInline t n
  have h7 := good_hashTag t n
  have h8 := good_link t hp n
  have h9 := good_footnote t hp n
  have h10 := good_symbol t ht n
  have h11 := good_verbatim n
  have h12 := good_angleTarget t n
  unfold foldOther
  split <;> good

theorem fold_single (t : Texts) {par text aux : P Unit} (hp : Good par) (ht : TextGood Any text) (ha : FoldOk aux) (n : Nat) :
    FoldOk (foldSingle t par text n aux) := by
  unfold foldSingle
  refine fold_bind (fold_good (good_kind _)) (fun k => ?_)
  split
  · exact fold_begin ha
  · rename_i hm; exact fold_end (markup_kinds hm)
  · rename_i hm; exact fold_unknown (markup_kinds hm) ha
  · exact fold_good (good_foldOther t hp ht n k)

theorem fold_aux (t : Texts) {par text : P Unit} (hp : Good par) (ht : TextGood Any text) (n m : Nat) :
    FoldOk (foldAux t par text n m) := by
  induction m with
  | zero => exact fold_if pure_finished (fold_good (good_ret _).any) (fold_good (good_throw trivial))
  | succ m ih =>
    exact fold_if pure_finished (fold_good (good_ret _).any)
      (fold_bind (fold_ignore (fold_single t hp ht ih n)) (fun _ => ih))

/-- The text does not fail. -/
def NoFail : Option α → Forest NK Unit → Prop := fun r _ => r.isSome = true

theorem text_good {fold : P Unit} (h : FoldOk fold) : TextGood NoFail (checkedText fold) := by
  intro s hs v hu hv
  obtain ⟨q, rest, nd, h1, h2, h3⟩ := hs
  have hb : Base s.g.nodes s.g.pending := by
    refine ⟨q, rest, nd, h1, ?_, ?_, h3⟩
    · rintro rfl; simp [Group.at, getIndex, bind, Except.bind] at h2
    · cases q with
      | zero => simp [Group.at, getIndex, bind, Except.bind] at h2
      | succ q =>
        simp only [Group.at, getIndex, bind, Except.bind] at h2
        simp only [Nat.add_sub_cancel]
        split at h2
        · rename_i hx; injection h2 with h2; rw [hx, h2]
        · cases h2
  have hl : Laid s.g.nodes s.g.pending s .nil [] := ⟨by simp [layout, Forest.flat], rfl, trivial, by simp⟩
  have h := h _ _ s v _ _ hb hv hl
  unfold checkedText ignoreP
  cases hf : fold s with
  | error e => rw [hf] at h; exact h
  | ok rs =>
    obtain ⟨r, s'⟩ := rs
    rw [hf] at h
    obtain ⟨c, v', f0', st', k1, k2, k3, k4, k5, k6⟩ := h
    have hst : st' = [] := by simpa using k5
    subst hst
    have hp := k4.2.1
    simp only [opens, List.nil_append] at hp
    dsimp only
    rw [if_pos (by rw [hp])]
    exact ⟨v', f0', ⟨c, k1, k2, k3, k4.1, hp, by simpa [order, leafToks] using k6, k3.1 ▸ k4.2.2.1⟩, rfl⟩

theorem okAt_mono {R R' : Option α → Forest NK Unit → Prop} {u : List (Nat × TK)} {s : St} {p : P α} (h : OkAt R u s p)
    (hR : ∀ r f, R r f → R' r f) : OkAt R' u s p := by
  intro v hu hv
  have := h v hu hv
  split at this
  · exact this
  · obtain ⟨v', f, h1, h2⟩ := this
    exact ⟨v', f, h1, hR _ _ h2⟩

mutual
/-- Texts. -/
theorem textGood_text (t : Texts) : (n : Nat) → TextGood NoFail (parseText t n)
  | 0 => by unfold parseText; exact fun s _ => good_throw (e := .diverges) trivial s
  | n + 1 => by
    unfold parseText
    exact text_good (fold_aux t (good_paragraph t n).good
      (fun s hs => okAt_mono (textGood_text t n s hs) (fun _ _ _ => trivial)) n n)

/-- A paragraph adds one tree and does not fail. -/
theorem good_paragraph (t : Texts) : (n : Nat) → GoodFrom (W [.Paragraph]) [] (parseParagraph t n)
  | 0 => by unfold parseParagraph; exact good_throw trivial
  | n + 1 => by
    unfold parseParagraph
    refine (good_paragraphNode (textGood_text t n)).mono ?_
    rintro r f ⟨c, rfl, h⟩
    exact ⟨h, rfl⟩
end

end Verif.Parser
