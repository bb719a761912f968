import Verif.Parser.Doc
import Verif.Outline.Props

/-!
# Properties of the parser
-/

namespace Verif.Parser
open Verif.Lexer Verif.NodeGroup Verif.NodeGroup.Spec

instance {ε α : Type} [DecidableEq ε] [DecidableEq α] : DecidableEq (Except ε α)
  | .ok a, .ok b => if h : a = b then isTrue (h ▸ rfl) else isFalse (fun h' => h (by cases h'; rfl))
  | .error a, .error b =>
    if h : a = b then isTrue (h ▸ rfl) else isFalse (fun h' => h (by cases h'; rfl))
  | .ok _, .error _ => isFalse (fun h => by cases h)
  | .error _, .ok _ => isFalse (fun h => by cases h)

/-! ## The document -/

theorem cur_main {toks : List TK} (h : toks ≠ []) : Cur (Lex.main toks) ((List.range' 1 toks.length).zip toks) := by
  refine ⟨reads_main toks, ?_, ?_⟩
  · intro h'
    have := congrArg List.length h'
    simp at this
    exact absurd this h
  · intro ids n h; cases h

/-- The state `parseTop` starts in. -/
def start (toks : List TK) : St := ⟨Lex.main toks, {}⟩

theorem parseTop_nil (t : Texts) (n : Nat) : parseTop t n (start []) = .ok (some (), ⟨Lex.main [], ⟨[⟨.StmtList, .ext 0⟩], []⟩⟩) := by
  cases n <;> rfl

/-- A loop that has ended without failing: the condition does not hold any more. -/
theorem while_ends {c : P Bool} {body : P Unit} (hc : Pure c) (hb : GoodFrom NoFail [] body) (n : Nat) :
    ∀ s v, Cur s.lex v → ∀ r s', whileP c body n s = .ok (r, s') → r = some () ∧ c s' = .ok (some false, s') := by
  induction n with
  | zero =>
    intro s v hv r s' h
    have hp := hc s
    unfold whileP ifP P.bind at h
    cases hs : c s with
    | error e => rw [hs] at h; cases h
    | ok x =>
      obtain ⟨b, s1⟩ := x
      rw [hs] at h hp
      obtain ⟨rfl, hb⟩ := hp
      match b with
      | none => cases hb
      | some true => cases h
      | some false => cases h; exact ⟨rfl, hs⟩
  | succ n ih =>
    intro s v hv r s' h
    have hp := hc s
    unfold whileP ifP at h
    rw [P.bind] at h
    cases hs : c s with
    | error e => rw [hs] at h; cases h
    | ok x =>
      obtain ⟨b, s1⟩ := x
      rw [hs] at h hp
      obtain ⟨rfl, hbb⟩ := hp
      match b with
      | none => cases hbb
      | some false => cases h; exact ⟨rfl, hs⟩
      | some true =>
        have hb := hb s1 v (valid_nil _) hv
        dsimp only [P.bind] at h
        cases hs' : body s1 with
        | error e => rw [hs'] at h; cases h
        | ok x =>
          obtain ⟨r', s2⟩ := x
          rw [hs'] at h hb
          obtain ⟨v', f, h1, h2⟩ := hb
          match r' with
          | none => cases h2
          | some () => exact ih s2 v' h1.cur r s' h

theorem noFail_of_W {ks : List NK} {u : List (Nat × TK)} {p : P Unit} (h : GoodFrom (W ks) u p) : GoodFrom NoFail u p :=
  h.mono (fun _ _ h => h.1)

theorem noFail_while {c : P Bool} {body : P Unit} (hc : Pure c) (hb : GoodFrom NoFail [] body) (n : Nat) :
    GoodFrom NoFail [] (whileP c body n) := by
  induction n with
  | zero => exact good_if hc (good_throw trivial) (noFail_of_W (good_ret _))
  | succ n ih =>
    refine good_if hc (fun s => okAt_seq (R := NoFail) (R' := NoFail) (hb s) (fun _ => ih) ?_ ?_) (noFail_of_W (good_ret _))
    · intro _ h; cases h
    · intro _ _ _ _ _ h; exact h

theorem noFail_node {k : NK} {body : P Unit} (hb : GoodFrom NoFail [] body) (hk : k ≠ .Empty) (hk' : k ≠ .Subtree) :
    GoodFrom NoFail [] (node k body) :=
  (good_node hb hk hk').mono (fun _ _ ⟨_, _, h⟩ => h)

theorem noFail_recover {stmt : P Unit} (hs : Good stmt) (n : Nat) : GoodFrom NoFail [] (recover stmt n) := by
  intro s v hu hv
  have h := good_recover hs n s v hu hv
  have hn : GoodFrom NoFail [] (node .ErrorSkipGroup (whileP (canSearch newlineKinds) (popAny .ErrorSkipToken) n)) :=
    noFail_node (noFail_while (pure_canSearch _) (noFail_of_W (good_popAny (by decide))) n) (by decide) (by decide)
  unfold recover at h ⊢
  have h0 := hs s v hu hv
  cases hr : stmt s with
  | error e => rw [hr] at h; exact h
  | ok rs =>
    obtain ⟨r, s'⟩ := rs
    rw [hr] at h h0
    cases r with
    | some a =>
      obtain ⟨v', f, h1, _⟩ := h
      exact ⟨v', f, h1, rfl⟩
    | none =>
      obtain ⟨v', f, h1, _⟩ := h0
      dsimp only at h ⊢
      have h2 := hn s' v' (valid_nil _) h1.cur
      cases hr' : node .ErrorSkipGroup (whileP (canSearch newlineKinds) (popAny .ErrorSkipToken) n) s' with
      | error e => rw [hr'] at h; exact h
      | ok rs =>
        obtain ⟨r', s''⟩ := rs
        rw [hr'] at h h2
        obtain ⟨v'', f'', h3, _⟩ := h
        obtain ⟨_, _, _, h4⟩ := h2
        exact ⟨v'', f'', h3, h4⟩

/-- All that is known about the result of `parseTop`. -/
theorem top_result (t : Texts) (n : Nat) (toks : List TK) :
    match parseTop t n (start toks) with
    | .error e => e ≠ .tree ∧ e ≠ .unbalanced
    | .ok (r, s) => r = some () ∧ s.lex.finished = true ∧
        ∃ c : Forest NK Unit, s.g = ⟨(Forest.tree .StmtList c .nil).flat, []⟩ ∧ (leafToks c).Pairwise (· < ·) ∧
          (∀ i ∈ leafToks c, 1 ≤ i ∧ i ≤ toks.length) ∧ Shape toks c := by
  by_cases hne : toks = []
  · subst hne
    rw [parseTop_nil]
    refine ⟨rfl, rfl, .nil, rfl, by simp [leafToks], by simp [leafToks], trivial⟩
  · have hv := cur_main hne
    have hrec := noFail_recover (good_stmt t n) n
    have hbody : GoodFrom NoFail [] (ifP (atP [.Comment]) nextP (recover (parseStmt t n) n)) :=
      good_if (pure_at _ _) (noFail_of_W good_next) hrec
    have hc : Pure (notP finishedP) := pure_not pure_finished
    generalize hW : whileP (notP finishedP) (ifP (atP [.Comment]) nextP (recover (parseStmt t n) n)) n = loop
    have hloop : GoodFrom NoFail [] loop := by rw [← hW]; exact noFail_while hc hbody n
    have hl := hloop { (start toks) with g := ((start toks).g.startTree ⟨.StmtList, .ext 0⟩).1 } _ (valid_nil _) hv
    have hends := while_ends hc hbody n { (start toks) with g := ((start toks).g.startTree ⟨.StmtList, .ext 0⟩).1 } _ hv
    rw [hW] at hends
    have htop := good_top t n (start toks) _ (valid_nil _) hv
    unfold parseTop at htop ⊢
    rw [hW] at htop ⊢
    unfold node at htop ⊢
    cases hs : loop { (start toks) with g := ((start toks).g.startTree ⟨.StmtList, .ext 0⟩).1 } with
    | error e =>
      rw [hs] at htop
      cases e <;> simp_all [PErr.foreign]
    | ok rs =>
      obtain ⟨r, s'⟩ := rs
      obtain ⟨hr, hfin⟩ := hends r s' hs
      rw [hs] at htop
      dsimp only at htop ⊢
      cases hg : guardEnd (start toks).g.pending.length s'.g with
      | error e =>
        rw [hg] at htop
        cases e <;> simp_all [PErr.foreign]
      | ok g =>
        rw [hg] at htop
        dsimp only at htop ⊢
        obtain ⟨v', f, ⟨c, h1, h2, h3, h4, h5, h6, h7⟩, c', rfl, _⟩ := htop
        have hval := cur_valid hv
        refine ⟨hr, ?_, c', ?_, ?_, ?_, h7.2.2.1⟩
        · simp only [notP, finishedP, P.bind, ask, P.ret, Except.ok.injEq, Prod.mk.injEq, Option.some.injEq,
            Bool.not_eq_eq_eq_not, Bool.not_false, and_true] at hfin
          exact hfin
        · obtain ⟨nodes, pend⟩ := g
          dsimp only [start] at h4 h5
          subst h4 h5
          rfl
        · have hsub : (leafToks c').Sublist (((List.range' 1 toks.length).zip toks).map Prod.fst) := by
            rw [h1]
            simp only [leafToks, List.append_nil, List.nil_append] at h6
            exact h6.trans ((List.sublist_append_left c v').map _)
          exact hval.1.sublist hsub
        · intro i hi
          have hsub : (leafToks c').Sublist (((List.range' 1 toks.length).zip toks).map Prod.fst) := by
            rw [h1]
            simp only [leafToks, List.append_nil, List.nil_append] at h6
            exact h6.trans ((List.sublist_append_left c v').map _)
          have := hsub.subset hi
          rw [List.map_fst_zip (by simp)] at this
          rw [List.mem_range'_1] at this
          omega

/-- **C55.** Whatever the tokens are: parsing does not run into an assertion about the tree
under construction; if it returns, all tokens were read, no tree is left open, there is one
tree for the document, and its leaves are tokens in the order of the document, none of them
twice. -/
theorem parse_tree (t : Texts) (n : Nat) (toks : List TK) :
    match parseTop t n (start toks) with
    | .error e => e ≠ .tree ∧ e ≠ .unbalanced
    | .ok (_, s) => s.lex.finished = true ∧
        ∃ c : Forest NK Unit, s.g = ⟨(Forest.tree .StmtList c .nil).flat, []⟩ ∧ (leafToks c).Pairwise (· < ·) ∧
          ∀ i ∈ leafToks c, 1 ≤ i ∧ i ≤ toks.length := by
  have h := top_result t n toks
  cases hs : parseTop t n (start toks) with
  | error e => rw [hs] at h; exact h
  | ok rs =>
    rw [hs] at h
    obtain ⟨_, h1, c, h2, h3, h4, _⟩ := h
    exact ⟨h1, c, h2, h3, h4⟩

/-- **C56.** Every headline of the tree, wherever it is, starts with its stars and has all its
fields in the right places, whatever the text of the headline is. -/
theorem parse_headlines (t : Texts) (n : Nat) (toks : List TK) (r : Option Unit) (s : St)
    (h : parseTop t n (start toks) = .ok (r, s)) :
    ∃ c : Forest NK Unit, s.g.nodes = (Forest.tree .StmtList c .nil).flat ∧ Shape toks c := by
  have h' := top_result t n toks
  rw [h] at h'
  obtain ⟨_, _, c, h2, _, _, h5⟩ := h'
  exact ⟨c, by rw [h2], h5⟩

/-! ## The outline -/

open Outline.Spec (Item flatDoc document outline headlines closestSmaller stars Without NoInner headTree payload)

/-- The forest with the kinds of the outline pass. -/
def toKinds : Forest NK Unit → Forest Outline.Kind Unit
  | .nil => .nil
  | .leaf k v r => .leaf (outlineKind k) v (toKinds r)
  | .tree k c r => .tree (outlineKind k) (toKinds c) (toKinds r)

theorem toKinds_count (f : Forest NK Unit) : (toKinds f).count = f.count := by
  induction f <;> simp_all [toKinds, Forest.count]

theorem toKinds_flat (f : Forest NK Unit) :
    (toKinds f).flat = f.flat.map (fun n => ⟨outlineKind n.kind, n.value⟩) := by
  induction f with
  | nil => rfl
  | leaf k v r ih => cases v <;> simp [toKinds, Forest.flat, ih]
  | tree k c r ihc ihr => simp [toKinds, Forest.flat, ihc, ihr, toKinds_count]

theorem toKinds_append (f g : Forest NK Unit) : toKinds (f.append g) = (toKinds f).append (toKinds g) := by
  induction f <;> simp_all [toKinds, Forest.append]

theorem toKinds_roots (f : Forest NK Unit) : ∀ b, ((toKinds f).roots b).length = (rootKinds f).length := by
  induction f with
  | nil => intro b; rfl
  | leaf k v r ih => intro b; simp [toKinds, Forest.roots, rootKinds, ih]
  | tree k c r _ ih => intro b; simp [toKinds, Forest.roots, rootKinds, ih]

theorem outlineKind_subtree {k : NK} (h : k ≠ .Subtree) : outlineKind k ≠ .subtree := by
  cases k <;> first | exact absurd rfl h | simp [outlineKind]

theorem outlineKind_empty {k : NK} (h : k ≠ .Empty) : outlineKind k ≠ .empty := by
  cases k <;> first | exact absurd rfl h | simp [outlineKind]

theorem toKinds_without (f : Forest NK Unit) (h : NoHeadline f) : Without .subtree (toKinds f) := by
  induction f with
  | nil => trivial
  | leaf k v r ih => exact ⟨outlineKind_subtree h.1, ih h.2⟩
  | tree k c r ihc ihr => exact ⟨outlineKind_subtree h.1, ihc h.2.1, ihr h.2.2⟩

theorem toKinds_noInner {toks : List TK} (f : Forest NK Unit) (h : Shape toks f) : NoInner .empty (toKinds f) := by
  induction f with
  | nil => trivial
  | leaf k v r ih => exact ih h.2
  | tree k c r ihc ihr => exact ⟨outlineKind_empty h.1, ihc h.2.2.1, ihr h.2.2.2⟩

theorem noHeadline_append {f g : Forest NK Unit} (h : NoHeadline (f.append g)) : NoHeadline f := by
  induction f with
  | nil => trivial
  | leaf k v r ih => exact ⟨h.1, ih h.2⟩
  | tree k c r ihc ihr => exact ⟨h.1, h.2.1, ihr h.2.2⟩

theorem shape_of_append {toks : List TK} {f g : Forest NK Unit} (h : Shape toks (f.append g)) : Shape toks f := by
  induction f with
  | nil => trivial
  | leaf k v r ih => exact ⟨h.1, ih h.2⟩
  | tree k c r ihc ihr => exact ⟨h.1, h.2.1, h.2.2.1, ihr h.2.2.2⟩

/-- A document without inner headlines is a sequence of headlines and of other material. -/
theorem items_exist {toks : List TK} {textLen : Nat → Nat} (hlen : ∀ i, toks[i]? = some .SubtreeStars → 0 < textLen (i + 1))
    (f : Forest NK Unit) (hs : Shape toks f) (ht : TopHeadlines f) :
    ∃ items : List (Item Unit), (∀ i ∈ items, i.Ok textLen) ∧ toKinds f = flatDoc items ∧ stars items = topStars f := by
  induction f with
  | nil => exact ⟨[], by simp, rfl, rfl⟩
  | leaf k v r ih =>
    obtain ⟨items, h1, h2, h3⟩ := ih hs.2 ht
    refine ⟨.body (.leaf (outlineKind k) v .nil) :: items, ?_, ?_, ?_⟩
    · intro i hi
      rcases List.mem_cons.mp hi with rfl | hi
      · exact ⟨⟨outlineKind_subtree hs.1, trivial⟩, trivial⟩
      · exact h1 i hi
    · simp [toKinds, flatDoc, Forest.append, h2]
    · simp [stars, topStars, h3]
  | tree k c r _ ihr =>
    obtain ⟨items, h1, h2, h3⟩ := ihr hs.2.2.2 ht.2
    by_cases hk : k = .Subtree
    · subst hk
      obtain ⟨s, fields, hs0, hst, hf, rfl⟩ := hs.2.1 rfl
      refine ⟨.head (outlineKind .RawText) s (toKinds fields) :: items, ?_, ?_, ?_⟩
      · intro i hi
        rcases List.mem_cons.mp hi with rfl | hi
        · have hp : 0 < textLen s := by
            obtain ⟨m, rfl⟩ : ∃ m, s = m + 1 := ⟨s - 1, by omega⟩
            exact hlen m (by simpa using hst)
          refine ⟨by decide, hp, ?_, toKinds_without _ (noHeadline_append ht.1.2), toKinds_noInner _ (shape_of_append hs.2.2.1.2)⟩
          rw [toKinds_roots, hf.length_eq]; rfl
        · exact h1 i hi
      · simp [toKinds, flatDoc, headTree, toKinds_append, h2, outlineKind]
      · simp [stars, topStars, h3]
    · refine ⟨.body (.tree (outlineKind k) (toKinds c) .nil) :: items, ?_, ?_, ?_⟩
      · intro i hi
        rcases List.mem_cons.mp hi with rfl | hi
        · exact ⟨⟨outlineKind_subtree hk, toKinds_without _ ht.1, trivial⟩, outlineKind_empty hs.1, toKinds_noInner _ hs.2.2.1, trivial⟩
        · exact h1 i hi
      · simp [toKinds, flatDoc, Forest.append, h2]
      · simp only [stars, h3]
        cases k <;> first | rfl | exact absurd rfl hk

/-- **C57, for documents without headlines inside of other elements.** The parser with the
outline pass ends without an error, lists the nodes the parser has made, and every headline is
directly enclosed by the closest headline before it with fewer stars.  Missing: documents with
headlines inside of quotes or list items, for which `outline_false` shows an error. -/
theorem parse_outline_partial (t : Texts) (textLen : Nat → Nat) (n : Nat) (toks : List TK)
    (hlen : ∀ i, toks[i]? = some .SubtreeStars → 0 < textLen (i + 1))
    (r : Option Unit) (s : St) (h : parseTop t n (start toks) = .ok (r, s)) :
    ∃ c : Forest NK Unit, s.g.nodes = (Forest.tree .StmtList c .nil).flat ∧
      (TopHeadlines c → ∀ fuel, s.g.nodes.length < fuel →
        ∃ g f, parseFull t textLen fuel n toks = .ok g ∧ g.pending = [] ∧ g.nodes = f.flat ∧
          g.nodes.map payload = (toOutline s.g).nodes.map payload ∧
          headlines none f = closestSmaller textLen [] (topStars c)) := by
  have h' := top_result t n toks
  rw [h] at h'
  obtain ⟨_, _, c, hg, _, _, hs⟩ := h'
  refine ⟨c, by rw [hg], ?_⟩
  intro ht fuel hfuel
  obtain ⟨items, h1, h2, h3⟩ := items_exist hlen c hs ht
  have hout : toOutline s.g = ⟨(document (flatDoc items)).flat, []⟩ := by
    rw [hg, ← h2, toOutline]
    simp only [← toKinds_flat]
    rfl
  have hcount : (flatDoc items).count + 1 < fuel := by
    rw [← h2, toKinds_count]
    rw [hg] at hfuel
    simpa [Forest.flat, flat_length] using hfuel
  have hp := Outline.outline_pass textLen items h1 [] fuel hcount
  refine ⟨⟨(document (outline textLen items)).flat, []⟩, document (outline textLen items), ?_, rfl, rfl, ?_, ?_⟩
  · unfold parseFull
    have h : parseTop t n ⟨Lex.main toks, {}⟩ = .ok (r, s) := h
    rw [h]
    dsimp only
    rw [hout, hp]
  · rw [hout]
    have := Outline.outline_keeps_nodes textLen items
    simp [document, Forest.flat, this, payload]
  · rw [← h3]; exact Outline.outline_nesting textLen items h1

/-! ## Paragraphs and markup -/

/-- The tokens with their numbers. -/
def number (toks : List TK) : List (Nat × TK) := (List.range' 1 toks.length).zip toks

theorem parse_doc (t : Texts) (n : Nat) (toks : List TK) (hn : toks.length + 4 ≤ n) (f : Forest NK Unit) (hf : Doc (number toks) f) :
    ∃ l, parseTop t n (start toks) = .ok (some (), ⟨l, ⟨(Forest.tree .StmtList f .nil).flat, []⟩⟩) := by
  by_cases hne : toks = []
  · subst hne
    have : f = .nil := by cases hf; rfl
    subst this
    exact ⟨_, parseTop_nil t n⟩
  · have hlen : (number toks).length = toks.length := by simp [number]
    obtain ⟨l, h1, h2⟩ := loop_doc t n n hf n ⟨Lex.main toks, ((start toks).g.startTree ⟨.StmtList, .ext 0⟩).1⟩
      (cur_main hne) (by omega) (by omega)
    refine ⟨l, ?_⟩
    unfold parseTop node
    rw [show (⟨(start toks).lex, ((start toks).g.startTree ⟨.StmtList, .ext 0⟩).1⟩ : St)
      = ⟨Lex.main toks, ((start toks).g.startTree ⟨.StmtList, .ext 0⟩).1⟩ from rfl, h1]
    have e := endTree_close ([] : List (Node NK Unit)) f.flat (.StmtList : NK) []
    simp only [List.nil_append, List.length_nil, Nat.zero_add] at e
    have hg : guardEnd (start toks).g.pending.length
        (⟨((start toks).g.startTree ⟨.StmtList, .ext 0⟩).1.nodes ++ f.flat,
          ((start toks).g.startTree ⟨.StmtList, .ext 0⟩).1.pending⟩ : Group NK Unit)
        = .ok ⟨⟨.StmtList, .ext f.flat.length⟩ :: f.flat, []⟩ := by
      unfold guardEnd
      have : (⟨((start toks).g.startTree ⟨.StmtList, .ext 0⟩).1.nodes ++ f.flat,
          ((start toks).g.startTree ⟨.StmtList, .ext 0⟩).1.pending⟩ : Group NK Unit)
          = ⟨⟨.StmtList, .ext 0⟩ :: f.flat, [1]⟩ := by simp [start, Group.startTree]
      rw [this, e]
      rfl
    dsimp only at hg ⊢
    rw [hg]
    simp [Forest.flat, flat_length]

/-- **C21.** A document of words, punctuation, markup and line breaks has a reading according
to the grammar, and this is what the parser makes of it. -/
theorem parse_text (t : Texts) (toks : List TK) (h : ∀ k ∈ toks, IsText k) (n : Nat) (hn : toks.length + 4 ≤ n) :
    (∃ f, Doc (number toks) f) ∧
    ∀ f, Doc (number toks) f →
      ∃ l, parseTop t n (start toks) = .ok (some (), ⟨l, ⟨(Forest.tree .StmtList f .nil).flat, []⟩⟩) := by
  refine ⟨doc_reading _ _ (Nat.le_refl _) ?_, fun f hf => parse_doc t n toks hn f hf⟩
  intro p hp
  exact h p.2 (List.of_mem_zip hp).2

/-- For any document made of such tokens parsing ends without an exception. -/
theorem parse_returns_partial (t : Texts) (toks : List TK) (h : ∀ k ∈ toks, IsText k) :
    ∃ n s, parseTop t n (start toks) = .ok (some (), s) := by
  obtain ⟨⟨f, hf⟩, h⟩ := parse_text t toks h (toks.length + 4) (Nat.le_refl _)
  obtain ⟨l, hl⟩ := h f hf
  exact ⟨_, _, hl⟩

/-! ## What does not hold -/

/-- A text of the examples: no empty tokens, all tokens have locations. -/
def plainTexts : Texts := ⟨fun _ => false, fun _ => false, fun _ _ => true⟩

/-- What C60 asks for: for every token stream parsing ends and returns a tree. -/
def ParseReturnsStatement : Prop := ∀ (t : Texts) (toks : List TK), ∃ n s, parseTop t n (start toks) = .ok (some (), s)

/-- The cursor over a paragraph with the single token `LinkProtocol`. -/
def protoLex : Lex TK := Lex.ofIds [.LinkProtocol] [1]

theorem protoLex_kind (g : Group NK Unit) : kindP 0 ⟨protoLex, g⟩ = .ok (some .LinkProtocol, ⟨protoLex, g⟩) := rfl

theorem link_stuck (par : P Unit) (n : Nat) (g : Group NK Unit) :
    ∃ g', parseLink plainTexts par n ⟨protoLex, g⟩ = .ok (none, ⟨protoLex, g'⟩) := by
  obtain ⟨nodes, pend⟩ := g
  have e := endTree_close nodes [⟨.ErrorInfoToken, .mono ()⟩] (.Link : NK) pend (M := Unit)
  refine ⟨⟨nodes ++ ⟨.Link, .ext 1⟩ :: [⟨.ErrorInfoToken, .mono ()⟩], pend⟩, ?_⟩
  unfold parseLink
  rw [ifP_false rfl]
  unfold node
  have hb : ∀ (g : Group NK Unit) (q : Unit → P Unit), P.bind (skipP plainTexts [.LinkBegin]) q ⟨protoLex, g⟩
      = .ok (none, ⟨protoLex, ⟨g.nodes ++ [⟨.ErrorInfoToken, .mono ()⟩], g.pending⟩⟩) := by
    intro g q; rfl
  have hb' : ∀ (g : Group NK Unit) (q : Unit → P Unit), (skipP plainTexts [.LinkBegin] >>= q) ⟨protoLex, g⟩
      = .ok (none, ⟨protoLex, ⟨g.nodes ++ [⟨.ErrorInfoToken, .mono ()⟩], g.pending⟩⟩) := hb
  rw [hb']
  dsimp only [guardEnd, Group.startTree]
  simp only [List.append_assoc, List.singleton_append]
  rw [e]
  simp

theorem fold_stuck (par text : P Unit) (n m : Nat) : ∀ g : Group NK Unit,
    foldAux plainTexts par text n m ⟨protoLex, g⟩ = .error .diverges := by
  induction m with
  | zero => intro g; rfl
  | succ m ih =>
    intro g
    obtain ⟨g', h⟩ := link_stuck par n g
    have hs : ∃ g', foldSingle plainTexts par text n (foldAux plainTexts par text n m) ⟨protoLex, g⟩ = .ok (none, ⟨protoLex, g'⟩) := by
      unfold foldSingle
      rw [bind_ok (protoLex_kind g)]
      dsimp only [markup, foldOther]
      unfold subP
      rw [h]
      exact ⟨_, rfl⟩
    obtain ⟨g'', h'⟩ := hs
    rw [foldAux, ifP_false rfl]
    have : ignoreP (foldSingle plainTexts par text n (foldAux plainTexts par text n m)) ⟨protoLex, g⟩ = .ok (some (), ⟨protoLex, g''⟩) := by
      unfold ignoreP; rw [h']
    rw [bind_ok this]
    exact ih g''

/-- Parsing a link protocol without link never ends: `textFold` runs `parseLink`, which fails
without reading the token, again and again. -/
theorem parse_hangs (n : Nat) : parseTop plainTexts n (start [.LinkProtocol]) = .error .diverges := by
  have htext : ∀ n g, parseText plainTexts n ⟨protoLex, g⟩ = .error .diverges := by
    intro n g
    cases n with
    | zero => rfl
    | succ n =>
      rw [parseText]
      unfold checkedText ignoreP
      rw [fold_stuck]
  have hpar : ∀ n g, parseParagraph plainTexts n ⟨protoLex, g⟩ = .error .diverges := by
    intro n g
    cases n with
    | zero => rfl
    | succ n =>
      rw [parseParagraph]
      unfold node
      rw [htext]
  have hstmt : ∀ n g, parseStmt plainTexts n ⟨Lex.main [.LinkProtocol], g⟩ = .error .diverges := by
    intro n g
    cases n with
    | zero => rfl
    | succ n =>
      cases n with
      | zero => rfl
      | succ n =>
        have hc : collect (canSearch paragraphTerminator) (n + 1) ⟨Lex.main [.LinkProtocol], g⟩
            = .ok (some [1], ⟨⟨[.LinkProtocol], 0, none⟩, g⟩) := by
          cases n <;> rfl
        rw [parseStmt]
        rw [show P.bind kindP _ (⟨Lex.main [.LinkProtocol], g⟩ : St) = _ from bind_ok (p := kindP 0) (a := Token.TK.LinkProtocol) rfl]
        change plainParagraph (parseParagraph plainTexts (n + 1)) (n + 1) _ = _
        unfold plainParagraph
        rw [bind_ok hc]
        dsimp only
        unfold withIds withLex
        dsimp only
        rw [show Lex.ofIds [Token.TK.LinkProtocol] [1] = protoLex from rfl, hpar]
  unfold parseTop node
  have hw : ∀ n g, whileP (notP finishedP) (ifP (atP [.Comment]) nextP (recover (parseStmt plainTexts n) n)) n
      ⟨Lex.main [.LinkProtocol], g⟩ = .error .diverges := by
    intro n g
    cases n with
    | zero => rfl
    | succ n =>
      rw [whileP, ifP_true rfl]
      have : ifP (atP [.Comment]) nextP (recover (parseStmt plainTexts (n + 1)) (n + 1)) ⟨Lex.main [.LinkProtocol], g⟩ = .error .diverges := by
        rw [ifP_false rfl]
        unfold recover
        rw [hstmt]
      unfold P.bind
      rw [this]
  rw [show (⟨(start [.LinkProtocol]).lex, ((start [.LinkProtocol]).g.startTree ⟨.StmtList, .ext 0⟩).1⟩ : St)
      = ⟨Lex.main [.LinkProtocol], ((start [.LinkProtocol]).g.startTree ⟨.StmtList, .ext 0⟩).1⟩ from rfl, hw]

/-- C60 does not hold. -/
theorem parse_returns_false : ¬ ParseReturnsStatement := by
  intro h
  obtain ⟨n, s, hs⟩ := h plainTexts [.LinkProtocol]
  rw [parse_hangs] at hs
  cases hs

/-- The nodes that were made, or the exception. -/
def nodesOf (r : Except PErr (Option Unit × St)) : Except PErr (List (Node NK Unit)) := r.map (fun x => x.2.g.nodes)

/-- Exceptions for malformed input: an empty inline footnote `[fn::]`, a macro call with a space
in its name `{{{a b}}}`, an indentation at the end. -/
theorem parse_throws :
    nodesOf (parseTop plainTexts 20 (start [.FootnoteInlineBegin, .BraceEnd])) = .error .range ∧
    nodesOf (parseTop plainTexts 20 (start [.CurlyBegin, .CurlyBegin, .CurlyBegin, .Word, .Whitespace, .Word,
      .CurlyEnd, .CurlyEnd, .CurlyEnd])) = .error .macro ∧
    nodesOf (parseTop plainTexts 20 (start [.Indent])) = .error .range ∧
    nodesOf (parseTop plainTexts 20 (start [.CmdPrefix])) = .error .range := by decide +kernel

/-- What C59 asks for: every leaf made for a token is one of the tokens. -/
def LeavesStatement : Prop :=
  ∀ (t : Texts) (n : Nat) (toks : List TK) (r : Option Unit) (s : St), parseTop t n (start toks) = .ok (r, s) →
    ∀ nd ∈ s.g.nodes, ∀ i, nd.value = .tok i → 1 ≤ i ∧ i ≤ toks.length

/-- The nodes of `\\sym[`. -/
theorem symbol_nodes : nodesOf (parseTop plainTexts 20 (start [.Symbol, .BraceBegin])) =
    .ok [⟨.StmtList, .ext 7⟩, ⟨.Paragraph, .ext 6⟩, ⟨.Symbol, .ext 4⟩, ⟨.Word, .tok 1⟩, ⟨.InlineStmtList, .ext 2⟩,
      ⟨.RawText, .tok 0⟩, ⟨.ErrorInfoToken, .mono ()⟩, ⟨.ErrorInfoToken, .mono ()⟩] := by decide +kernel

/-- C59 does not hold: after `\\sym[` at the end there is a leaf with the nil token, whose text
cannot be asked for. -/
theorem leaves_false : ¬ LeavesStatement := by
  intro h
  have hn := symbol_nodes
  cases hp : parseTop plainTexts 20 (start [.Symbol, .BraceBegin]) with
  | error e => rw [hp] at hn; cases hn
  | ok rs =>
    obtain ⟨r, s⟩ := rs
    rw [hp] at hn
    have hn : s.g.nodes = _ := Except.ok.inj hn
    have := h plainTexts 20 _ r s hp ⟨.RawText, .tok 0⟩ (by rw [hn]; simp) 0 rfl
    omega

theorem flat_leaves (c : Forest NK Unit) : ∀ nd ∈ c.flat, ∀ i, nd.value = .tok i → i = 0 ∨ i ∈ leafToks c := by
  induction c with
  | nil => intro nd h; cases h
  | leaf k v r ih =>
    intro nd h i hi
    cases v with
    | tok j =>
      simp only [Forest.flat, List.mem_cons] at h
      rcases h with rfl | h
      · simp only [Val.tok.injEq] at hi
        subst hi
        by_cases h0 : j = 0
        · exact .inl h0
        · right; simp [leafToks, h0]
      · rcases ih nd h i hi with h | h
        · exact .inl h
        · right; simp [leafToks, h]
    | mono u =>
      simp only [Forest.flat, List.mem_cons] at h
      rcases h with rfl | h
      · cases hi
      · exact ih nd h i hi
  | tree k c r ihc ihr =>
    intro nd h i hi
    simp only [Forest.flat, List.mem_cons, List.mem_append] at h
    rcases h with (rfl | h) | h
    · cases hi
    · rcases ihc nd h i hi with h | h
      · exact .inl h
      · right; simp [leafToks, h]
    · rcases ihr nd h i hi with h | h
      · exact .inl h
      · right; simp [leafToks, h]

/-- C59, apart from the nil token. -/
theorem leaves_partial (t : Texts) (n : Nat) (toks : List TK) (r : Option Unit) (s : St)
    (h : parseTop t n (start toks) = .ok (r, s)) :
    ∀ nd ∈ s.g.nodes, ∀ i, nd.value = .tok i → i = 0 ∨ (1 ≤ i ∧ i ≤ toks.length) := by
  have h' := top_result t n toks
  rw [h] at h'
  obtain ⟨_, _, c, hg, _, h4, _⟩ := h'
  intro nd hnd i hi
  rw [hg] at hnd
  rcases flat_leaves _ nd hnd i hi with h | h
  · exact .inl h
  · exact .inr (h4 i (by simpa [leafToks] using h))

/-- What C57 asks for: when parsing returns, no assertion of the outline pass fails. -/
def OutlineStatement : Prop :=
  ∀ (t : Texts) (textLen : Nat → Nat) (n : Nat) (toks : List TK) (r : Option Unit) (s : St),
    (∀ i, toks[i]? = some .SubtreeStars → 0 < textLen (i + 1)) → parseTop t n (start toks) = .ok (r, s) →
    ∀ fuel, (parseFull t textLen fuel n toks).map (fun g => g.nodes) ≠ .error .tree

/-- A quote with a headline in it and text after it. -/
def quoteToks : List TK :=
  [.CmdPrefix, .CmdQuoteBegin, .Newline, .SubtreeStars, .Whitespace, .Word, .Newline, .Word, .Newline, .CmdPrefix, .CmdQuoteEnd,
   .Newline, .Word]

/-- C57 does not hold: the headline takes the text after the quote, too; the final check of the
tree fails. -/
theorem outline_false : ¬ OutlineStatement := by
  intro h
  have hf : (parseFull plainTexts (fun _ => 1) 40 40 quoteToks).map (fun g => g.nodes) = .error .tree := by decide +kernel
  have hr : (nodesOf (parseTop plainTexts 40 (start quoteToks))).isOk = true := by decide +kernel
  cases hp : parseTop plainTexts 40 (start quoteToks) with
  | error e => rw [hp] at hr; cases hr
  | ok rs =>
    exact h plainTexts (fun _ => 1) 40 quoteToks rs.1 rs.2 (fun _ _ => Nat.one_pos) hp 40 hf

/-- What C58 asks for: bold text with other markup in it, closed or not, is bold. -/
def BoldStatement : Prop :=
  ∀ (t : Texts) (u : List TK), (∀ k ∈ u, IsText k ∧ k ∉ Token.TK.BoldBegin :: .BoldEnd :: .BoldUnknown :: lineBreaks) →
    ∀ n, u.length + 6 ≤ n →
    ∃ l c, parseTop t n (start (.BoldBegin :: (u ++ [.BoldEnd]))) =
      .ok (some (), ⟨l, ⟨(Forest.tree .StmtList (.tree .Paragraph (.tree .Bold c .nil) .nil) .nil).flat, []⟩⟩)

/-- C58 does not hold: in `*a /b*` the slash opens italic text, which is never closed, so that
the second star does not close anything. -/
theorem bold_false : ¬ BoldStatement := by
  intro h
  have hn : (nodesOf (parseTop plainTexts 10 (start [.BoldBegin, .Word, .Whitespace, .ItalicBegin, .Word, .BoldEnd]))).map
    (fun l => l[2]?) = .ok (some ⟨.Punctuation, .tok 1⟩) := by decide +kernel
  obtain ⟨l, c, hc⟩ := h plainTexts [.Word, .Whitespace, .ItalicBegin, .Word]
    (by
      intro k hk
      simp only [List.mem_cons, List.not_mem_nil, or_false] at hk
      rcases hk with rfl | rfl | rfl | rfl <;> exact ⟨.inl (by simp [role]), by decide⟩) 10 (by decide)
  rw [show Token.TK.BoldBegin :: ([.Word, .Whitespace, .ItalicBegin, .Word] ++ [.BoldEnd])
    = [.BoldBegin, .Word, .Whitespace, .ItalicBegin, .Word, .BoldEnd] from rfl] at hc
  rw [hc] at hn
  simp [nodesOf, Except.map, Forest.flat] at hn

/-- C58 when the markup inside is closed. -/
theorem bold_partial (t : Texts) (u : List TK) (c : Forest NK Unit)
    (hc : Closed (some .Bold) ((List.range' 2 u.length).zip u) c) (n : Nat) (hn : u.length + 6 ≤ n) :
    ∃ l, parseTop t n (start (.BoldBegin :: (u ++ [.BoldEnd]))) =
      .ok (some (), ⟨l, ⟨(Forest.tree .StmtList (.tree .Paragraph (.tree .Bold c .nil) .nil) .nil).flat, []⟩⟩) := by
  refine parse_doc t n _ (by simp; omega) _ ?_
  have e : number (.BoldBegin :: (u ++ [.BoldEnd]))
      = (1, .BoldBegin) :: (((List.range' 2 u.length).zip u ++ [(u.length + 2, .BoldEnd)]) ++ []) := by
    simp only [number, List.length_cons, List.length_append, List.length_nil, Nat.zero_add, List.range'_succ, List.zip_cons_cons,
      List.append_nil, Nat.reduceAdd]
    rw [show 2 :: List.range' 3 u.length = List.range' 2 u.length ++ [u.length + 2] by
      rw [show 2 :: List.range' 3 u.length = List.range' 2 (u.length + 1) from (List.range'_succ (s := 2) (n := u.length) (step := 1)).symm, List.range'_concat]
      simp [Nat.add_comm], List.zip_append (by simp)]
    rfl
  rw [e]
  exact .par (by decide) (.closed (.pair (.inl rfl) hc (.inl rfl) .nil)) (by simp) .nil

/-! ## Examples -/

/-- `*a* /b` and a second paragraph. -/
example : IsText .BoldBegin ∧ IsText .LongNewline ∧ Doc (number [.BoldBegin, .Word, .BoldEnd, .Whitespace, .ItalicBegin, .Word, .LongNewline, .Word])
    (.tree .Paragraph
      (.tree .Bold (.leaf .Word (.tok 2) .nil) (.leaf .Space (.tok 4) (.leaf .Punctuation (.tok 5) (.leaf .Word (.tok 6) .nil))))
      (.leaf .Newline (.tok 7) (.tree .Paragraph (.leaf .Word (.tok 8) .nil) .nil))) := by
  refine ⟨.inl (by simp [role]), .inr (by decide), ?_⟩
  refine .par (u := [(2, .Word), (3, .BoldEnd), (4, .Whitespace), (5, .ItalicBegin), (6, .Word)]) (r := [(7, .LongNewline), (8, .Word)])
    (by decide) ?_ (by simp) ?_
  · exact .unclosed (u := [(1, .BoldBegin), (2, .Word), (3, .BoldEnd), (4, .Whitespace)])
      (.pair (u := [(2, .Word)]) (.inl rfl) (.plain rfl .nil) (.inl rfl) (.plain rfl .nil)) (.inl rfl)
      (.closed (.plain rfl .nil))
  · exact .line (by decide) (.par (u := []) (r := []) (by decide) (.closed (.plain rfl .nil)) (by simp) .nil)

/-- `* a`, `** b`, text: parsing succeeds with top headlines only. -/
theorem example_nodes : nodesOf (parseTop plainTexts 30 (start [.SubtreeStars, .Whitespace, .Word, .Newline, .SubtreeStars, .Whitespace,
      .Word, .Newline, .Word])) =
    .ok (Forest.tree .StmtList
      (.tree .Subtree (.leaf .RawText (.tok 1) (.leaf .Empty (.mono ()) (.leaf .Empty (.mono ())
        (.tree .Paragraph (.leaf .Word (.tok 3) .nil) (.leaf .Empty (.mono ()) (.leaf .Empty (.mono ()) (.leaf .Empty (.mono ())
        (.leaf .Empty (.mono ()) (.tree .StmtList .nil .nil)))))))))
      (.tree .Subtree (.leaf .RawText (.tok 5) (.leaf .Empty (.mono ()) (.leaf .Empty (.mono ())
        (.tree .Paragraph (.leaf .Word (.tok 7) .nil) (.leaf .Empty (.mono ()) (.leaf .Empty (.mono ()) (.leaf .Empty (.mono ())
        (.leaf .Empty (.mono ()) (.tree .StmtList .nil .nil)))))))))
      (.tree .Paragraph (.leaf .Word (.tok 9) .nil) .nil))) .nil : Forest NK Unit).flat := by decide +kernel

end Verif.Parser
