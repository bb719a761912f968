import Verif.Parser.MarkupSpec
import Verif.Parser.Fold

/-!
# Markup is parsed according to the grammar
-/

namespace Verif.Parser
open Verif.Lexer Verif.NodeGroup Verif.NodeGroup.Spec

theorem append_assoc (f g h : Forest NK Unit) : (f.append g).append h = f.append (g.append h) := by
  induction f <;> simp_all [Forest.append]

theorem append_nil (f : Forest NK Unit) : f.append .nil = f := by
  induction f <;> simp_all [Forest.append]

theorem bind_ok {α β : Type} {p : P α} {q : α → P β} {s s' : St} {a : α} (h : p s = .ok (some a, s')) :
    P.bind p q s = q a s' := by
  unfold P.bind; rw [h]

theorem ifP_true {α : Type} {c : P Bool} {a b : P α} {s : St} (h : c s = .ok (some true, s)) : ifP c a b s = a s := bind_ok h

theorem ifP_false {α : Type} {c : P Bool} {a b : P α} {s : St} (h : c s = .ok (some false, s)) : ifP c a b s = b s := bind_ok h

theorem kind_ok {s : St} {i : Nat} {k : TK} {v : List (Nat × TK)} (h : Cur s.lex ((i, k) :: v)) : kindP 0 s = .ok (some k, s) := by
  unfold kindP ask
  dsimp only
  rw [show s.lex.kind 0 = .ok k from (cur_next_cons h).2.2.2.1]

/-! ## Every text has a reading -/

theorem closed_append {e : Option NK} {u v : List (Nat × TK)} {f g : Forest NK Unit} (h : Closed e u f) (h' : Closed e v g) :
    Closed e (u ++ v) (f.append g) := by
  induction h with
  | nil => exact h'
  | plain hk _ ih => exact .plain hk (ih h')
  | stray hk he _ ih => exact .stray hk he (ih h')
  | @pair e i k nk u c j k' r f ho hc hk _ _ ih =>
    have := Closed.pair (i := i) (j := j) ho hc hk (ih h')
    simpa [Forest.append] using this

theorem open_append {e : Option NK} {u v : List (Nat × TK)} {f g : Forest NK Unit} (h : Closed e u f) (h' : Open e v g) :
    Open e (u ++ v) (f.append g) := by
  cases h' with
  | closed h' => exact .closed (closed_append h h')
  | @unclosed e u' f' i k nk r g' hu ho hr =>
    have := Open.unclosed (i := i) (closed_append h hu) ho hr
    simpa [append_assoc] using this

/-- The tokens the grammar is about. -/
def Textual (k : TK) : Prop := role k ≠ .element

theorem reading_aux (n : Nat) : ∀ (e : Option NK) (v : List (Nat × TK)), v.length ≤ n → (∀ p ∈ v, Textual p.2) →
    (∃ f, Open e v f) ∨
      (∃ nk u c r f, e = some nk ∧ v = u ++ c :: r ∧ IsClose nk c.2 ∧ Closed e u f) := by
  induction n with
  | zero =>
    intro e v h _
    cases v with
    | nil => exact .inl ⟨_, .closed .nil⟩
    | cons => simp at h
  | succ n ih =>
    intro e v h ht
    cases v with
    | nil => exact .inl ⟨_, .closed .nil⟩
    | cons p v =>
      obtain ⟨i, k⟩ := p
      have hl : v.length ≤ n := by simpa using h
      have htv : ∀ p ∈ v, Textual p.2 := fun p hp => ht p (List.mem_cons_of_mem _ hp)
      -- a token which is a tree by itself
      have single : ∀ f, Closed e [(i, k)] f →
          (∃ f, Open e ((i, k) :: v) f) ∨
          (∃ nk u c r f, e = some nk ∧ (i, k) :: v = u ++ c :: r ∧ IsClose nk c.2 ∧ Closed e u f) := by
        intro f hf
        rcases ih e v hl htv with ⟨g, hg⟩ | ⟨nk, u, c, r, g, h1, h2, h3, h4⟩
        · exact .inl ⟨_, open_append hf hg⟩
        · exact .inr ⟨nk, (i, k) :: u, c, r, _, h1, by rw [h2]; rfl, h3, closed_append hf h4⟩
      have opener : ∀ nk, IsOpen e nk k →
          (∃ f, Open e ((i, k) :: v) f) ∨
          (∃ nk u c r f, e = some nk ∧ (i, k) :: v = u ++ c :: r ∧ IsClose nk c.2 ∧ Closed e u f) := by
        intro nk ho
        rcases ih (some nk) v hl htv with ⟨g, hg⟩ | ⟨nk', u, ⟨j, k'⟩, r, g, h1, h2, h3, h4⟩
        · exact .inl ⟨_, .unclosed .nil ho hg⟩
        · injection h1 with h1
          subst h1
          have hlr : r.length ≤ n := by
            have := congrArg List.length h2
            simp at this
            omega
          have htr : ∀ p ∈ r, Textual p.2 := fun p hp => htv p (by rw [h2]; simp [hp])
          have hp : Closed e ((i, k) :: (u ++ [(j, k')])) (.tree nk g .nil) := .pair ho h4 h3 .nil
          rcases ih e r hlr htr with ⟨f, hf⟩ | ⟨nk2, u2, c2, r2, f, q1, q2, q3, q4⟩
          · have := open_append hp hf
            refine .inl ⟨(Forest.tree nk g .nil).append f, ?_⟩
            rw [h2]
            simpa using this
          · refine .inr ⟨nk2, ((i, k) :: (u ++ [(j, k')])) ++ u2, c2, r2, _, q1, ?_, q3, closed_append hp q4⟩
            rw [h2, q2]; simp
      have hr : Textual k := ht (i, k) List.mem_cons_self
      unfold Textual at hr
      cases hk : role k with
      | plain nk => exact single _ (.plain hk .nil)
      | opens nk => exact opener nk (.inl hk)
      | closes nk =>
        by_cases he : e = some nk
        · exact .inr ⟨nk, [], (i, k), v, .nil, he, rfl, .inl hk, .nil⟩
        · exact single _ (.stray hk he .nil)
      | either nk =>
        by_cases he : e = some nk
        · exact .inr ⟨nk, [], (i, k), v, .nil, he, rfl, .inr hk, .nil⟩
        · exact opener nk (.inr ⟨hk, he⟩)
      | element => exact absurd hk hr

/-- Every text has a reading. -/
theorem reading_exists (v : List (Nat × TK)) (h : ∀ p ∈ v, Textual p.2) : ∃ f, Open none v f := by
  rcases reading_aux v.length none v (Nat.le_refl _) h with h | ⟨nk, _, _, _, _, h, _⟩
  · exact h
  · cases h

/-! ## The roles are those of the parser -/

theorem role_plain {k : TK} {nk : NK} (h : role k = .plain nk) (t : Texts) (par text : P Unit) (n : Nat) :
    markup k = none ∧ foldOther t par text n k = popAny nk := by
  unfold role at h
  split at h
  all_goals first
    | (injection h with h; subst h; exact ⟨rfl, rfl⟩)
    | cases h

theorem role_opens {k : TK} {nk : NK} (h : role k = .opens nk) : markup k = some (nk, some true) := by
  unfold role at h
  split at h
  all_goals first
    | (injection h with h; subst h; rfl)
    | cases h

theorem role_closes {k : TK} {nk : NK} (h : role k = .closes nk) : markup k = some (nk, some false) := by
  unfold role at h
  split at h
  all_goals first
    | (injection h with h; subst h; rfl)
    | cases h

theorem role_either {k : TK} {nk : NK} (h : role k = .either nk) : markup k = some (nk, none) := by
  unfold role at h
  split at h
  all_goals first
    | (injection h with h; subst h; rfl)
    | cases h

/-! ## Runs of the fold -/

section
variable (t : Texts) (par text : P Unit) (n : Nat)

/-- The fold ends in `s'` when there is fuel for every token. -/
def Runs (v : List (Nat × TK)) (s s' : St) : Prop :=
  ∀ m, v.length ≤ m → foldAux t par text n m s = .ok (some (), s')

variable {t par text n}

theorem finished_nil {s : St} (h : Cur s.lex []) : finishedP s = .ok (some true, s) := by
  simp [finishedP, ask, (reads_nil h.1).1]

theorem finished_cons {s : St} {p : Nat × TK} {v : List (Nat × TK)} (h : Cur s.lex (p :: v)) :
    finishedP s = .ok (some false, s) := by
  simp [finishedP, ask, (cur_next_cons h).2.2.2.2]

theorem foldAux_nil {s : St} (h : Cur s.lex []) (m : Nat) : foldAux t par text n m s = .ok (some (), s) := by
  cases m <;> simp [foldAux, ifP, P.bind, finished_nil h, P.ret]

theorem runs_nil {s : St} (h : Cur s.lex []) : Runs t par text n [] s s := fun m _ => foldAux_nil h m

theorem foldAux_cons {s : St} {i : Nat} {k : TK} {v : List (Nat × TK)} (h : Cur s.lex ((i, k) :: v)) (m : Nat) :
    foldAux t par text n (m + 1) s =
      P.bind (ignoreP (foldSingle t par text n (foldAux t par text n m))) (fun _ => foldAux t par text n m) s := by
  rw [foldAux, ifP_false (finished_cons h)]

theorem foldSingle_cons {s : St} {i : Nat} {k : TK} {v : List (Nat × TK)} (h : Cur s.lex ((i, k) :: v)) (aux : P Unit) :
    foldSingle t par text n aux s =
      (match markup k with
        | some (nk, some true) => foldBegin aux nk
        | some (nk, some false) => foldEnd nk
        | some (nk, none) => foldUnknown aux nk
        | none => foldOther t par text n k) s := by
  unfold foldSingle
  rw [bind_ok (kind_ok h)]
  rfl

/-- One token. -/
theorem runs_step {s s1 s' : St} {i : Nat} {k : TK} {v : List (Nat × TK)} (h : Cur s.lex ((i, k) :: v))
    (hs : ∀ m, ∃ r, foldSingle t par text n (foldAux t par text n m) s = .ok (r, s1))
    (hr : Runs t par text n v s1 s') : Runs t par text n ((i, k) :: v) s s' := by
  intro m hm
  cases m with
  | zero => simp at hm
  | succ m =>
    obtain ⟨r, hr'⟩ := hs m
    rw [foldAux_cons h]
    unfold P.bind ignoreP
    rw [hr']
    exact hr m (by simpa using hm)

/-- One token with the rest of the text read by the nested call. -/
theorem runs_nested {s s' : St} {i : Nat} {k : TK} {v : List (Nat × TK)} (h : Cur s.lex ((i, k) :: v))
    (hc : Cur s'.lex [])
    (hs : ∀ m, v.length ≤ m → ∃ r, foldSingle t par text n (foldAux t par text n m) s = .ok (r, s')) :
    Runs t par text n ((i, k) :: v) s s' := by
  intro m hm
  cases m with
  | zero => simp at hm
  | succ m =>
    obtain ⟨r, hr'⟩ := hs m (by simpa using hm)
    rw [foldAux_cons h]
    unfold P.bind ignoreP
    rw [hr']
    exact foldAux_nil hc m

/-- The innermost open markup is `e`. -/
def Inside (e : Option NK) (st : List Frame) : Prop := (st.head?.map Frame.kind) = e

theorem popAny_laid {N0 : List (Node NK Unit)} {P0 : List Nat} {s : St} {f0 : Forest NK Unit} {st : List Frame}
    {i : Nat} {k : TK} {v : List (Nat × TK)} (h : Cur s.lex ((i, k) :: v)) (hl : Laid N0 P0 s f0 st) {nk : NK} (hk : nk ≠ .Subtree) :
    ∃ s', popAny nk s = .ok (some (), s') ∧ Cur s'.lex v ∧
      Laid N0 P0 s' (addTrees (.leaf nk (.tok i) .nil) (f0, st)).1 (addTrees (.leaf nk (.tok i) .nil) (f0, st)).2 := by
  obtain ⟨h1, h2, h3, _⟩ := cur_next_cons h
  obtain ⟨hn, hp, hsh⟩ := hl
  refine ⟨_, rfl, h1, ?_, ?_, ?_⟩
  · dsimp only [popP, tokenP, Group.token]
    rw [hn, addTrees_layout, h3]
    simp [Forest.flat]
  · dsimp only [popP, tokenP, Group.token]
    rw [hp, addTrees_opens]
  · exact h2.1 ▸ addTrees_shape hsh ⟨hk, trivial⟩

theorem addTrees_depth (f f0 : Forest NK Unit) (st : List Frame) : (addTrees f (f0, st)).2.length = st.length := by
  cases st <;> rfl

theorem addTrees_inside {e : Option NK} {f f0 : Forest NK Unit} {st : List Frame} (h : Inside e st) :
    Inside e (addTrees f (f0, st)).2 := by
  cases st <;> exact h

theorem addTrees_addTrees (f g f0 : Forest NK Unit) (st : List Frame) :
    addTrees g (addTrees f (f0, st)) = addTrees (f.append g) (f0, st) := by
  cases st <;> simp [addTrees, append_assoc]

theorem pendingKind_inside {N0 : List (Node NK Unit)} {P0 : List Nat} {s : St} {f0 : Forest NK Unit} {st : List Frame}
    (hb : Base N0 P0) (hl : Laid N0 P0 s f0 st) {e : Option NK} (he : Inside e st) {nk : NK} (hm : nk ∈ markupKinds) :
    P.bind pendingKind (fun p => P.ret (decide (p = nk))) s = .ok (some (decide (e = some nk)), s) := by
  obtain ⟨k, h1, h2⟩ := pendingKind_laid hb hl
  unfold P.bind
  rw [h1]
  have : (k = nk) ↔ (e = some nk) := by
    cases st with
    | nil =>
      subst he
      constructor
      · rintro rfl; exact absurd hm h2
      · intro h; cases h
    | cons fr st =>
      subst he
      dsimp only at h2
      subst h2
      simp
  dsimp only [P.ret]
  rw [decide_eq_decide.2 this]

/-- The opening of markup. -/
theorem begin_laid {N0 : List (Node NK Unit)} {P0 : List Nat} {s : St} {f0 : Forest NK Unit} {st : List Frame}
    {i : Nat} {k : TK} {v : List (Nat × TK)} (h : Cur s.lex ((i, k) :: v)) (hl : Laid N0 P0 s f0 st) (nk : NK) :
    Cur s.lex.next v ∧ Laid N0 P0 { lex := s.lex.next, g := (s.g.startTree ⟨nk, .ext 0⟩).1 } f0 (⟨nk, i, .nil⟩ :: st) := by
  obtain ⟨h1, h2, h3, _⟩ := cur_next_cons h
  refine ⟨h1, ?_⟩
  obtain ⟨hn, hp, hsh⟩ := hl
  have hsh : ShapeAll s.lex.next.toks f0 st := h2.1 ▸ hsh
  refine ⟨?_, ?_, hsh.1, ?_⟩
  · simp only [Group.startTree, hn, layout, Forest.flat, List.append_assoc]
  · simp only [Group.startTree, hn, hp, opens, List.length_append, List.cons_append]
  · intro x hx
    rcases List.mem_cons.1 hx with rfl | hx
    · trivial
    · exact hsh.2 x hx

theorem isOpen_single {N0 : List (Node NK Unit)} {P0 : List Nat} {s : St} {f0 : Forest NK Unit} {st : List Frame}
    {i : Nat} {k : TK} {v : List (Nat × TK)} {e : Option NK} {nk : NK} (hb : Base N0 P0) (h : Cur s.lex ((i, k) :: v))
    (hl : Laid N0 P0 s f0 st) (he : Inside e st) (ho : IsOpen e nk k) (aux : P Unit) :
    foldSingle t par text n aux s = foldBegin aux nk s := by
  rw [foldSingle_cons h]
  rcases ho with ho | ⟨ho, hne⟩
  · rw [role_opens ho]
  · rw [role_either ho]
    have := pendingKind_inside hb hl he (markup_kinds (role_either ho))
    rw [decide_eq_false hne] at this
    exact ifP_false this

theorem isClose_single {N0 : List (Node NK Unit)} {P0 : List Nat} {s : St} {f0 : Forest NK Unit} {fr : Frame} {st : List Frame}
    {i : Nat} {k : TK} {v : List (Nat × TK)} (hb : Base N0 P0) (h : Cur s.lex ((i, k) :: v))
    (hl : Laid N0 P0 s f0 (fr :: st)) (hc : IsClose fr.kind k) :
    ∃ s', Cur s'.lex v ∧ Laid N0 P0 s' (addTrees (.tree fr.kind fr.body .nil) (f0, st)).1
        (addTrees (.tree fr.kind fr.body .nil) (f0, st)).2 ∧
      ∀ aux, foldSingle t par text n aux s = .ok (some (), s') := by
  have hm : fr.kind ∈ markupKinds := by
    rcases hc with hc | hc
    · exact markup_kinds (role_closes hc)
    · exact markup_kinds (role_either hc)
  obtain ⟨g, h3, h4⟩ := endTree_laid hl (by
    intro h
    simp only [markupKinds, List.mem_cons, List.not_mem_nil, or_false] at hm h
    rcases h with h | h <;> rw [h] at hm <;> simp at hm)
  have hin : Inside (some fr.kind) (fr :: st) := rfl
  have hend : foldEnd fr.kind s = .ok (some (), { lex := s.lex.next, g := g }) := by
    have := pendingKind_inside hb hl hin hm
    rw [decide_eq_true rfl] at this
    unfold foldEnd
    rw [ifP_true this, bind_ok h3]
    rfl
  obtain ⟨h1, h2, _⟩ := cur_next_cons h
  refine ⟨{ lex := s.lex.next, g := g }, h1, ⟨h4.1, h4.2.1, h2.1 ▸ h4.2.2⟩, ?_⟩
  intro aux
  rw [foldSingle_cons h]
  rcases hc with hc | hc
  · rw [role_closes hc]; exact hend
  · rw [role_either hc]
    have := pendingKind_inside hb hl hin hm
    rw [decide_eq_true rfl] at this
    dsimp only
    unfold foldUnknown
    rw [ifP_true this]
    exact hend

/-- A closed text is read without leaving the level. -/
theorem runs_closed {N0 : List (Node NK Unit)} {P0 : List Nat} (hb : Base N0 P0) {e : Option NK} {u : List (Nat × TK)}
    {f : Forest NK Unit} (hc : Closed e u f) :
    ∀ (r : List (Nat × TK)) (s : St) (f0 : Forest NK Unit) (st : List Frame),
      Cur s.lex (u ++ r) → Laid N0 P0 s f0 st → Inside e st →
      ∃ s1, Cur s1.lex r ∧ Laid N0 P0 s1 (addTrees f (f0, st)).1 (addTrees f (f0, st)).2 ∧
        ∀ s', Cur s'.lex [] → s'.g.pending.length ≤ s.g.pending.length → Runs t par text n r s1 s' →
          Runs t par text n (u ++ r) s s' := by
  induction hc with
  | nil =>
    intro r s f0 st hv hl he
    refine ⟨s, hv, ?_, fun s' _ _ h => h⟩
    cases st <;> simpa [addTrees, append_nil] using hl
  | @plain e i k nk u f hk _ ih =>
    intro r s f0 st hv hl he
    obtain ⟨hm, ho⟩ := role_plain hk t par text n
    have hks : nk ≠ .Subtree := by
      rintro rfl
      unfold role at hk
      split at hk <;> first | cases hk | (injection hk with hk; cases hk)
    obtain ⟨s1, h1, h2, h3⟩ := popAny_laid hv hl hks
    obtain ⟨s2, q1, q2, q3⟩ := ih r s1 _ _ h2 h3 (addTrees_inside he)
    refine ⟨s2, q1, ?_, ?_⟩
    · have := addTrees_addTrees (.leaf nk (.tok i) .nil) f f0 st
      rw [show (Forest.leaf nk (Leaf.tok i) .nil : Forest NK Unit).append f = .leaf nk (.tok i) f from rfl] at this
      rw [← this]
      exact q2
    · intro s' hs hd hr
      refine runs_step hv (s1 := s1) ?_ (q3 s' hs ?_ hr)
      · intro m
        rw [foldSingle_cons hv, hm]
        exact ⟨_, by dsimp only; rw [ho]; exact h1⟩
      · rw [laid_pending h3, addTrees_depth, ← laid_pending hl]; exact hd
  | @stray e i k nk u f hk hne _ ih =>
    intro r s f0 st hv hl he
    obtain ⟨s1, h1, h2, h3⟩ := popAny_laid (nk := .Punctuation) hv hl (by decide)
    obtain ⟨s2, q1, q2, q3⟩ := ih r s1 _ _ h2 h3 (addTrees_inside he)
    refine ⟨s2, q1, ?_, ?_⟩
    · have := addTrees_addTrees (.leaf .Punctuation (.tok i) .nil) f f0 st
      rw [show (Forest.leaf .Punctuation (Leaf.tok i) .nil : Forest NK Unit).append f = .leaf .Punctuation (.tok i) f from rfl] at this
      rw [← this]
      exact q2
    · intro s' hs hd hr
      refine runs_step hv (s1 := s1) ?_ (q3 s' hs ?_ hr)
      · intro m
        rw [foldSingle_cons hv, role_closes hk]
        refine ⟨some (), ?_⟩
        have := pendingKind_inside hb hl he (markup_kinds (role_closes hk))
        rw [decide_eq_false hne] at this
        dsimp only
        unfold foldEnd
        rw [ifP_false this]
        exact h1
      · rw [laid_pending h3, addTrees_depth, ← laid_pending hl]; exact hd
  | @pair e i k nk u c j k' w f ho _ hk _ ihc ihf =>
    intro r s f0 st hv hl he
    simp only [List.cons_append, List.append_assoc] at hv
    obtain ⟨b1, b2⟩ := begin_laid hv hl nk
    obtain ⟨s2, c1, c2, c3⟩ := ihc ((j, k') :: (w ++ r)) _ _ _ b1 b2 rfl
    simp only [addTrees, Forest.append] at c2
    obtain ⟨s3, d1, d2, d3⟩ := isClose_single (t := t) (par := par) (text := text) (n := n) hb c1 c2 hk
    dsimp only at d2
    obtain ⟨s4, q1, q2, q3⟩ := ihf r s3 _ _ d1 d2 (addTrees_inside he)
    refine ⟨s4, q1, ?_, ?_⟩
    · have := addTrees_addTrees (.tree nk c .nil) f f0 st
      rw [show (Forest.tree nk c .nil : Forest NK Unit).append f = .tree nk c f from rfl] at this
      rw [← this]
      exact q2
    · intro s' hs hd hr
      have hd3 : s3.g.pending.length = s.g.pending.length := by
        rw [laid_pending d2, addTrees_depth, ← laid_pending hl]
      have r3 := q3 s' hs (by rw [hd3]; exact hd) hr
      have r2 : Runs t par text n ((j, k') :: (w ++ r)) s2 s' := runs_step c1 (fun m => ⟨_, d3 _⟩) r3
      have r1 := c3 s' hs (by
        rw [laid_pending b2]; rw [laid_pending hl] at hd; simp only [List.length_cons]; omega) r2
      simp only [List.cons_append, List.append_assoc]
      refine runs_nested hv hs ?_
      intro m hm
      rw [isOpen_single hb hv hl he ho]
      refine ⟨some (), ?_⟩
      unfold foldBegin
      dsimp only
      rw [r1 m hm]
      dsimp only
      rw [if_neg (by omega)]

/-- The rest of a text. -/
theorem runs_open {N0 : List (Node NK Unit)} {P0 : List Nat} (hb : Base N0 P0) {e : Option NK} {u : List (Nat × TK)}
    {f : Forest NK Unit} (hc : Open e u f) :
    ∀ (s : St) (f0 : Forest NK Unit) (st : List Frame), Cur s.lex u → Laid N0 P0 s f0 st → Inside e st →
      ∃ s', Cur s'.lex [] ∧ Laid N0 P0 s' (addTrees f (f0, st)).1 (addTrees f (f0, st)).2 ∧ Runs t par text n u s s' := by
  induction hc with
  | closed h =>
    intro s f0 st hv hl he
    obtain ⟨s1, h1, h2, h3⟩ := runs_closed (t := t) (par := par) (text := text) (n := n) hb h [] s f0 st (by simpa using hv) hl he
    refine ⟨s1, h1, h2, ?_⟩
    have := h3 s1 h1 (Nat.le_of_eq (by rw [laid_pending h2, addTrees_depth, ← laid_pending hl])) (runs_nil h1)
    simpa using this
  | @unclosed e u f i k nk r g hu ho _ ih =>
    intro s f0 st hv hl he
    obtain ⟨s1, h1, h2, h3⟩ := runs_closed (t := t) (par := par) (text := text) (n := n) hb hu _ s f0 st hv hl he
    obtain ⟨b1, b2⟩ := begin_laid h1 h2 nk
    obtain ⟨s2, q1, q2, q3⟩ := ih _ _ _ b1 b2 rfl
    have q2 : Laid N0 P0 s2 (addTrees f (f0, st)).1 (⟨nk, i, g⟩ :: (addTrees f (f0, st)).2) := q2
    obtain ⟨g', j, k1, k2⟩ := failTree_laid q2
    dsimp only at k1 k2
    refine ⟨{ s2 with g := g' }, q1, ?_, ?_⟩
    · have := addTrees_addTrees f (.leaf .Punctuation (.tok i) g) f0 st
      rw [← this]
      exact k2
    · refine h3 _ q1 ?_ ?_
      · exact Nat.le_of_eq (by rw [laid_pending k2, addTrees_depth, addTrees_depth, ← laid_pending hl])
      · refine runs_nested h1 q1 ?_
        intro m hm
        rw [isOpen_single hb h1 h2 (addTrees_inside he) ho]
        refine ⟨some (), ?_⟩
        unfold foldBegin
        dsimp only
        rw [q3 m hm]
        dsimp only
        rw [if_pos (by rw [laid_pending q2, laid_pending h2]; simp), (cur_next_cons h1).2.2.1, k1]

end

/-- A paragraph of plain tokens and markup. -/
theorem paragraph_reading (t : Texts) (n : Nat) (s : St) (v : List (Nat × TK)) (hv : Cur s.lex v)
    {f : Forest NK Unit} (hf : Open none v f) (hn : v.length + 2 ≤ n) :
    ∃ l, parseParagraph t n s =
      .ok (some (), ⟨l, ⟨s.g.nodes ++ (Forest.tree .Paragraph f .nil).flat, s.g.pending⟩⟩) ∧ Cur l [] := by
  obtain ⟨n, rfl⟩ : ∃ m, n = m + 2 := ⟨n - 2, by omega⟩
  have hb : Base ((s.g.startTree ⟨.Paragraph, .ext 0⟩).1).nodes ((s.g.startTree ⟨.Paragraph, .ext 0⟩).1).pending := by
    refine ⟨s.g.nodes.length + 1, s.g.pending, ⟨.Paragraph, .ext 0⟩, rfl, by omega, ?_, by decide⟩
    simp [Group.startTree]
  have hl : Laid ((s.g.startTree ⟨.Paragraph, .ext 0⟩).1).nodes ((s.g.startTree ⟨.Paragraph, .ext 0⟩).1).pending
      { s with g := (s.g.startTree ⟨.Paragraph, .ext 0⟩).1 } .nil [] := ⟨by simp [layout, Forest.flat], rfl, trivial, by simp⟩
  obtain ⟨s', h1, h2, h3⟩ := runs_open (t := t) (par := parseParagraph t n) (text := parseText t n) (n := n) hb hf
    { s with g := (s.g.startTree ⟨.Paragraph, .ext 0⟩).1 } .nil [] hv hl rfl
  refine ⟨s'.lex, ?_, h1⟩
  have hp : s'.g.pending = (s.g.startTree ⟨.Paragraph, .ext 0⟩).1.pending := h2.2.1
  have hnodes : s'.g.nodes = s.g.nodes ++ ⟨.Paragraph, .ext 0⟩ :: f.flat := by
    rw [h2.1]
    simp [addTrees, layout, Forest.append, Group.startTree]
  have htext : parseText t (n + 1) { s with g := (s.g.startTree ⟨.Paragraph, .ext 0⟩).1 } = .ok (some (), s') := by
    rw [parseText]
    unfold checkedText ignoreP
    rw [h3 n (by omega)]
    dsimp only
    rw [if_pos (by rw [hp])]
  rw [parseParagraph]
  unfold node
  rw [htext]
  dsimp only
  have e := endTree_close s.g.nodes f.flat (.Paragraph : NK) s.g.pending (M := Unit)
  have hg : s'.g = ⟨s.g.nodes ++ ⟨.Paragraph, .ext 0⟩ :: f.flat, (s.g.nodes.length + 1) :: s.g.pending⟩ := by
    obtain ⟨l, nd, pd⟩ := s'
    dsimp only at hp hnodes
    rw [hnodes, hp]; rfl
  unfold guardEnd
  rw [hg]
  simp only [e]
  simp [Forest.flat, flat_length]

end Verif.Parser
