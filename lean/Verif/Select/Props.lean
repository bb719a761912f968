import Verif.Select.Indirect

/-! # C36, C61 – Selectors -/

namespace Verif.Select

variable {L : Type}

/-! ## What is reported -/

theorem through_within {c : Cond L} {a b : At L} (h : Through c a b) : Within a b := by
  induction h with
  | refl => exact .refl
  | step _ _ _ h _ ih => exact .head h ih

/-- A match with nothing matching above it is reached. -/
theorem through_topmost {c : Cond L} (hc : ∀ a, ∃ r, c.check a = .ok r) (hn : Nests c) {r a : At L} (h : Within r a)
    (ht : ∀ b, Within r b → Below b a → ¬ Hits c b) : Through c r a := by
  induction h using Relation.ReflTransGen.head_induction_on with
  | refl => exact .refl
  | head h1 h2 ih =>
    rename_i x y
    obtain ⟨res, hr⟩ := hc x
    have hno : res.isMatching = false := by
      cases hm : res.isMatching
      · rfl
      · exact absurd ⟨res, hr, hm⟩ (ht x .refl (below_iff.2 ⟨y, h1, h2⟩))
    exact .step hr hno (hn x res hr hno) h1 (ih (fun b hb => ht b (.head h1 hb)))

theorem through_no_match {c : Cond L} {r a b : At L} (h : Through c r a) (h1 : Within r b) (h2 : Below b a) : ¬ Hits c b := by
  induction h with
  | refl =>
    obtain ⟨h3, h4⟩ := below_pos h2
    exact absurd (h3.eq_of_length_le (within_pos h1).length_le) h4
  | @step x y a res hr hno _ hk ht ih =>
    rcases Relation.ReflTransGen.cases_head h1 with rfl | ⟨z, hz, hw⟩
    · exact not_hits hr hno
    · have hy : Within x y := .single hk
      have hyb : y.pos <+: b.pos := by
        refine List.prefix_of_prefix_length_le (within_pos (through_within ht)) (below_pos h2).1 ?_
        obtain ⟨i, hi⟩ := child_pos hk
        obtain ⟨j, hj⟩ := child_pos hz
        have := (within_pos hw).length_le
        rw [hj] at this
        rw [hi]
        simpa using this
      exact ih (within_of_prefix hy h1 hyb) h2

theorem through_iff {c : Cond L} (hc : ∀ a, ∃ r, c.check a = .ok r) (hn : Nests c) {d : Doc L true} {a : At L} :
    Through c ⟨[], d⟩ a ↔ Within ⟨[], d⟩ a ∧ Topmost c d a :=
  ⟨fun h => ⟨through_within h, fun _ h1 h2 => through_no_match h h1 h2⟩, fun ⟨h1, h2⟩ => through_topmost hc hn h1 h2⟩

/-- Some match at the node or above it is topmost. -/
theorem exists_topmost {c : Cond L} (hc : ∀ a, ∃ r, c.check a = .ok r) (hn : Nests c) {r a : At L} (h : Within r a)
    (ha : Hits c a) : ∃ x, Through c r x ∧ Hits c x ∧ Within x a := by
  induction h using Relation.ReflTransGen.head_induction_on with
  | refl => exact ⟨a, .refl, ha, .refl⟩
  | head h1 h2 ih =>
    rename_i x y
    obtain ⟨res, hr⟩ := hc x
    cases hm : res.isMatching
    · obtain ⟨z, z1, z2, z3⟩ := ih
      exact ⟨z, .step hr hm (hn x res hr hm) h1 z1, z2, z3⟩
    · exact ⟨x, .refl, ⟨res, hr, hm⟩, .head h1 h2⟩

theorem through_stops {c : Cond L} (hs : Stops c) {a b : At L} (h : Through c a b) : b = a := by
  cases h with
  | refl => rfl
  | step h1 h2 h3 =>
    rw [hs _ _ h1 h2] at h3
    cases h3

theorem loose_match_stops {cs : List (Cond L)} {as} (h : Loose cs as) (hs : ∀ c ∈ cs.tail, Stops c) : Match cs as := by
  induction h with
  | last h => exact .last h
  | @step c a l b b' c' cs as h1 h2 h3 h4 _ ih =>
    obtain rfl := through_stops (hs c' (by simp)) h4
    exact .step h1 h2 h3 (ih (fun c hc => hs c (by simp at hc ⊢; exact .inr hc)))

theorem match_loose {cs : List (Cond L)} {as} (h : Match cs as) : Loose cs as := by
  induction h with
  | last h => exact .last h
  | step h1 h2 h3 _ ih => exact .step h1 h2 h3 .refl ih

theorem loose_match_indirect {cs : List (Cond L)} {as} (h : Loose cs as) (hi : AllIndirect cs) : Match cs as := by
  induction h with
  | last h => exact .last h
  | @step c a l b b' c' cs as h1 h2 h3 h4 _ ih =>
    have hl := hi.1
    rw [h2] at hl
    injection hl with hl
    subst hl
    exact .step h1 h2 (below_within h3 (through_within h4)) (ih hi.2)

theorem getMatches_ok {cs : List (Cond L)} {d : Doc L true} {m st'} (h : recMatches cs ⟨[], d⟩ ⟨[], none⟩ = .ok (m, st')) :
    getMatches cs d = .ok st'.found := by
  simp only [getMatches, h]

/-- **C36**, soundness for all paths.  Every reported node is the target of a chain of matches;
the chain may step further down after a link, through nodes that do not match. -/
theorem select_sound_partial {cs : List (Cond L)} {d : Doc L true} {l} (h : getMatches cs d = .ok l) {n : At L} (hn : n ∈ l) :
    ∃ a as, Within ⟨[], d⟩ a ∧ Loose cs (a :: as) ∧ IsTarget cs (a :: as) n := by
  simp only [getMatches] at h
  split at h
  · simp at h
  · rename_i m st' h1
    injection h with h
    subst h
    obtain ⟨new, e, q, _⟩ := recMatches_sound cs _ _ _ _ h1
    rw [List.nil_append] at e
    rw [e] at hn
    obtain ⟨c, cs', a, as, _, h2, h3, h4⟩ := q n hn
    exact ⟨a, as, through_within h2, h3, h4⟩

/-- **C36**, soundness: when the later checks do not look into nodes for which they fail. -/
theorem select_sound_stops {cs : List (Cond L)} {d : Doc L true} {l} (h : getMatches cs d = .ok l)
    (hs : ∀ c ∈ cs.tail, Stops c) {n : At L} (hn : n ∈ l) : Selected cs d n := by
  obtain ⟨a, as, h1, h2, h3⟩ := select_sound_partial h hn
  exact ⟨a, as, h1, loose_match_stops h2 hs, h3⟩

/-- **C36**, soundness: when all links are indirect. -/
theorem select_sound_indirect {cs : List (Cond L)} {d : Doc L true} {l} (h : getMatches cs d = .ok l) (hi : AllIndirect cs)
    {n : At L} (hn : n ∈ l) : Selected cs d n := by
  obtain ⟨a, as, h1, h2, h3⟩ := select_sound_partial h hn
  exact ⟨a, as, h1, loose_match_indirect h2 hi, h3⟩

/-- **C36**, paths without indirect links (in particular single conditions) whose later checks
do not look into nodes for which they fail: the search returns each target of the chains that
start at a topmost match of the first condition once, in document order when only the last
condition is marked. -/
theorem select_direct_partial {c : Cond L} {cs : List (Cond L)} (hwf : WellFormed (c :: cs))
    (hl : ∀ c' ∈ c :: cs, c'.link ≠ some .indirect) (hn : Nests c) (hs : ∀ c' ∈ cs, Stops c') (d : Doc L true) :
    ∃ l, getMatches (c :: cs) d = .ok l ∧
      (∀ n, n ∈ l ↔ ∃ a as, Within ⟨[], d⟩ a ∧ Topmost c d a ∧ Match (c :: cs) (a :: as) ∧ IsTarget (c :: cs) (a :: as) n) ∧
      l.Nodup ∧ (OnlyLast (c :: cs) → l.Pairwise Before) := by
  have hc : ∀ a, ∃ r, c.check a = .ok r := by
    cases cs with
    | nil => exact hwf
    | cons c' cs => exact hwf.1
  obtain ⟨m, st', new, e, _, fo, q, _, pw, _⟩ := recMatches_finds (s := false) (c :: cs) hwf hl (fun h => by cases h)
    ⟨[], d⟩ ⟨[], none⟩ rfl
  rw [List.nil_append] at fo
  refine ⟨st'.found, getMatches_ok e, ?_, ?_, ?_⟩
  · intro n
    constructor
    · intro hn'
      obtain ⟨new', e', q', _⟩ := recMatches_sound (c :: cs) _ _ _ _ e
      rw [List.nil_append] at e'
      rw [e'] at hn'
      obtain ⟨c1, cs1, a, as, he, h2, h3, h4⟩ := q' n hn'
      injection he with he1 he2
      subst he1 he2
      obtain ⟨h5, h6⟩ := (through_iff hc hn).1 h2
      exact ⟨a, as, h5, h6, loose_match_stops h3 hs, h4⟩
    · rintro ⟨a, as, h1, h2, h3, h4⟩
      rw [fo]
      exact q n ⟨c, cs, a, as, rfl, (through_iff hc hn).2 ⟨h1, h2⟩, match_loose h3, h4⟩
  · rw [fo]
    exact pw.imp (fun h => h)
  · intro ho
    obtain ⟨m', st'', new', e', _, fo', _, _, pw', _⟩ := recMatches_finds (s := true) (c :: cs) hwf hl (fun _ => ho)
      ⟨[], d⟩ ⟨[], none⟩ rfl
    rw [e] at e'
    injection e' with e'
    injection e' with _ e'
    subst e'
    rw [List.nil_append] at fo'
    rw [fo']
    exact pw'.imp (fun h => h)

theorem lastTarget_last {cs : List (Cond L)} {as n} (hl : LastTarget cs) (hm : Match cs as) (ht : IsTarget cs as n) :
    as.getLast? = some n := by
  induction hm with
  | last _ =>
    rcases isTarget_cons ht with ⟨_, rfl⟩ | h
    · rfl
    · exact absurd h isTarget_nil
  | step _ _ _ _ ih =>
    rcases isTarget_cons ht with ⟨h, rfl⟩ | h
    · rw [hl.1] at h
      cases h
    · rw [List.getLast?_cons_cons]
      exact ih hl.2 h

/-- **C36**, paths of at least two conditions with indirect links only and the last condition as
target: the search returns exactly the selected nodes, each once. -/
theorem select_indirect_partial {c c' : Cond L} {cs : List (Cond L)} (hwf : WellFormed (c :: c' :: cs))
    (hi : AllIndirect (c :: c' :: cs)) (hl : LastTarget (c :: c' :: cs)) (hn : Nests c) (d : Doc L true) :
    ∃ l, getMatches (c :: c' :: cs) d = .ok l ∧ (∀ n, n ∈ l ↔ Selected (c :: c' :: cs) d n) ∧ l.Nodup := by
  obtain ⟨m, st', new, e, fo, nd, q⟩ := recMatches_indirect ⟨[], d⟩ hwf hi hl ⟨[], none⟩ rfl
  rw [List.nil_append] at fo
  have hok := getMatches_ok e
  refine ⟨st'.found, hok, ?_, by rw [fo]; exact nd⟩
  intro n
  constructor
  · exact select_sound_indirect hok hi
  · rintro ⟨a, as, h1, h2, h3⟩
    have hE : Ends (c :: c' :: cs) a n := ⟨as, h2, lastTarget_last hl h2 h3⟩
    obtain ⟨hh, w, hw1, hw2⟩ := (ends_cons hi.1).1 hE
    obtain ⟨x, x1, x2, x3⟩ := exists_topmost hwf.1 hn h1 hh
    rw [fo]
    exact q x n x1 ((ends_cons hi.1).2 ⟨x2, w, Relation.TransGen.trans_right x3 hw1, hw2⟩)

/-! ## Examples and counterexamples -/

/-- A condition on the label. -/
def labelled (l : Nat) (isTarget : Bool) (link : Option Link) (nested : Bool := true) : Cond Nat where
  check a := .ok { isMatching := decide (a.label = l), tryNestedNodes := nested }
  isTarget := isTarget
  link := link

def leaf (l : Nat) : Doc Nat true := .node l .nil
def over (l : Nat) (ts : List (Doc Nat true)) : Doc Nat true := .node l (ts.foldr (Doc.cons 0) .nil)

/-- The full claim. -/
def SelectStatement : Prop :=
  ∀ (cs : List (Cond Nat)) (d : Doc Nat true), WellFormed cs → (∀ c ∈ cs, Nests c) →
    ∃ l, getMatches cs d = .ok l ∧ (∀ n, n ∈ l ↔ Selected cs d n) ∧ l.Pairwise Before

theorem labelled_nests {l b k} : Nests (labelled l b k) := by
  intro a r h _
  simp only [labelled, Except.ok.injEq] at h
  rw [← h]

theorem labelled_ok {l b k n} : ∀ a, ∃ r, (labelled l b k n).check a = .ok r := fun _ => ⟨_, rfl⟩

theorem labelled_hits {l b k n} {a : At Nat} : Hits (labelled l b k n) a ↔ a.label = l := by
  simp [Hits, labelled]

/-- A direct link reaches a grandchild: the condition of the child fails and looks inside. -/
theorem select_link_false : ∃ l, getMatches [labelled 1 false (some .direct), labelled 2 true none]
      (over 1 [over 0 [leaf 2]]) = .ok l ∧ ∃ n ∈ l, ¬ Selected [labelled 1 false (some .direct), labelled 2 true none]
      (over 1 [over 0 [leaf 2]]) n := by
  refine ⟨[⟨[0, 0], leaf 2⟩], rfl, _, List.mem_singleton.2 rfl, ?_⟩
  rintro ⟨a, as, hw, hm, ht⟩
  cases hm with
  | @step _ _ l b _ _ as h1 h2 h3 h4 =>
    rcases isTarget_cons ht with ⟨h, _⟩ | h
    · cases h
    · cases h4 with
      | last h5 =>
        rcases isTarget_cons h with ⟨_, h6⟩ | h
        · subst h6
          injection h2 with h2
          subst h2
          obtain ⟨i, hi⟩ := child_pos h3
          obtain ⟨f, l, ks, j, hd, hk, _⟩ := h3
          -- the parent at position `[0]` is not labelled 1
          have ha : a.pos = [0] := by
            have : [0] ++ [0] = a.pos ++ [i] := hi
            exact (List.append_inj' this rfl).1.symm
          have hx : Within (⟨[], over 1 [over 0 [leaf 2]]⟩ : At Nat) ⟨[0], over 0 [leaf 2]⟩ :=
            .single ⟨0, _, _, 0, rfl, .here, rfl⟩
          have := within_unique hw hx ha
          subst this
          rw [labelled_hits] at h1
          cases h1
        · exact absurd h isTarget_nil

/-- A match inside a match is not reported. -/
theorem select_nested_false : getMatches [labelled 1 true none] (over 1 [leaf 1]) = .ok [⟨[], over 1 [leaf 1]⟩] ∧
    Selected [labelled 1 true none] (over 1 [leaf 1]) ⟨[0], leaf 1⟩ := by
  refine ⟨rfl, ⟨[0], leaf 1⟩, [], ?_, .last (labelled_hits.2 rfl), isTarget_zero rfl⟩
  exact .single ⟨0, _, _, 0, rfl, .here, rfl⟩

/-- With an indirect link matches may come out of document order. -/
theorem select_order_false : getMatches [labelled 1 false (some .indirect), labelled 2 true none]
      (over 1 [over 0 [over 2 [leaf 2], leaf 2]]) =
    .ok [⟨[0, 0], over 2 [leaf 2]⟩, ⟨[0, 1], leaf 2⟩, ⟨[0, 0, 0], leaf 2⟩] ∧
    Before (⟨[0, 0, 0], leaf 2⟩ : At Nat) ⟨[0, 1], leaf 2⟩ :=
  ⟨rfl, .cons (.rel (by decide))⟩

/-- **C36** fails. -/
theorem select_false : ¬ SelectStatement := by
  intro h
  obtain ⟨l, h1, h2, _⟩ := h [labelled 1 true none] (over 1 [leaf 1]) labelled_ok
    (fun c hc => by
      rw [List.mem_singleton] at hc
      subst hc
      exact labelled_nests)
  rw [select_nested_false.1] at h1
  injection h1 with h1
  subst h1
  have := (h2 _).2 select_nested_false.2
  rw [List.mem_singleton] at this
  cases this

/-- A path of two conditions with an indirect link. -/
example : ∃ (c c' : Cond Nat) (d : Doc Nat true), WellFormed [c, c'] ∧ AllIndirect [c, c'] ∧ LastTarget [c, c'] ∧ Nests c ∧
    ∃ n m, getMatches [c, c'] d = .ok [n, m] :=
  ⟨labelled 1 false (some .indirect), labelled 2 true none, over 0 [over 1 [leaf 2, over 3 [leaf 2]], leaf 2],
    ⟨labelled_ok, ⟨_, rfl⟩, labelled_ok⟩, ⟨rfl, trivial⟩, ⟨rfl, rfl⟩, labelled_nests,
    ⟨[0, 0], leaf 2⟩, ⟨[0, 1, 0], leaf 2⟩, rfl⟩

/-- A path of two conditions with a direct link and a check that stops. -/
example : ∃ (c c' : Cond Nat) (d : Doc Nat true), WellFormed [c, c'] ∧ (∀ k ∈ [c, c'], k.link ≠ some .indirect) ∧ Nests c ∧
    Stops c' ∧ ∃ n m, getMatches [c, c'] d = .ok [n, m] :=
  ⟨labelled 1 false (some .direct), labelled 2 true none false, over 0 [over 1 [leaf 2, over 3 [leaf 2], leaf 2]],
    ⟨labelled_ok, ⟨_, rfl⟩, labelled_ok⟩, by simp [labelled], labelled_nests,
    fun a r h _ => by simp only [labelled, Except.ok.injEq] at h; rw [← h],
    ⟨[0, 0], leaf 2⟩, ⟨[0, 2], leaf 2⟩, rfl⟩

/-! ## C61 – Ready-made searches -/

/-- A search with a single ready-made check. -/
def single (check : At Node → Except Err Result) : List (Cond Node) := [⟨check, true, none⟩]

theorem single_search {check : At Node → Except Err Result} {P : Node → Prop}
    (h : ∀ a, ∃ b, check a = .ok { isMatching := b } ∧ (b = true ↔ P a.label)) (d : Doc Node true) :
    ∃ l, getMatches (single check) d = .ok l ∧ l.Pairwise Before ∧
      ∀ n, n ∈ l ↔ Within ⟨[], d⟩ n ∧ P n.label ∧ ∀ b, Within ⟨[], d⟩ b → Below b n → ¬ P b.label := by
  have hh : ∀ a, Hits ⟨check, true, none⟩ a ↔ P a.label := by
    intro a
    obtain ⟨b, h1, h2⟩ := h a
    simp only [Hits, h1, Except.ok.injEq]
    rw [← h2]
    constructor
    · rintro ⟨r, rfl, h⟩
      exact h
    · intro h
      exact ⟨_, rfl, h⟩
  obtain ⟨l, h1, h2, _, h3⟩ := select_direct_partial (c := ⟨check, true, none⟩) (cs := [])
    (fun a => (h a).elim (fun b hb => ⟨_, hb.1⟩)) (by simp) (fun a r h' _ => by
      obtain ⟨b, h1, _⟩ := h a
      simp only [h1, Except.ok.injEq] at h'
      rw [← h']) (by simp) d
  refine ⟨l, h1, h3 (by simp [OnlyLast]), ?_⟩
  intro n
  rw [h2]
  constructor
  · rintro ⟨a, as, ha, ht, hm, hta⟩
    cases hm with
    | last hm =>
      rcases isTarget_cons hta with ⟨_, rfl⟩ | h'
      · exact ⟨ha, (hh _).1 hm, fun b h1 h2 h3 => ht b h1 h2 ((hh b).2 h3)⟩
      · exact absurd h' isTarget_nil
  · rintro ⟨ha, hp, ht⟩
    exact ⟨n, [], ha, fun b h1 h2 h3 => ht b h1 h2 ((hh b).1 h3), .last ((hh n).2 hp), isTarget_zero rfl⟩

/-- **C61**: searching for a title returns the topmost subtrees with that title, in document
order. -/
theorem search_title_partial (title : List String) (d : Doc Node true) :
    ∃ l, getMatches (single (titleCheck title)) d = .ok l ∧ l.Pairwise Before ∧
      ∀ n, n ∈ l ↔ Within ⟨[], d⟩ n ∧ (n.label.subtree = true ∧ n.label.title = title) ∧
        ∀ b, Within ⟨[], d⟩ b → Below b n → ¬ (b.label.subtree = true ∧ b.label.title = title) := by
  refine single_search (P := fun x => x.subtree = true ∧ x.title = title) ?_ d
  intro a
  by_cases hs : a.label.subtree = true
  · refine ⟨decide (title = a.label.title), by simp [titleCheck, hs], ?_⟩
    simp only [decide_eq_true_eq, hs, true_and]
    exact eq_comm
  · exact ⟨false, by simp [titleCheck, hs], by simp [hs]⟩

/-- **C61**: searching for kinds returns the topmost nodes of these kinds, in document order. -/
theorem search_kind_partial (kinds : List Nat) (d : Doc Node true) :
    ∃ l, getMatches (single (kindCheck kinds)) d = .ok l ∧ l.Pairwise Before ∧
      ∀ n, n ∈ l ↔ Within ⟨[], d⟩ n ∧ n.label.kind ∈ kinds ∧
        ∀ b, Within ⟨[], d⟩ b → Below b n → b.label.kind ∉ kinds :=
  single_search (P := fun x => x.kind ∈ kinds) (fun a => ⟨decide (a.label.kind ∈ kinds), rfl, by simp⟩) d

/-- **C61**: searching for an id with a maximal level returns the topmost subtrees with the id,
whatever their level. -/
theorem search_id_partial (id : String) (maxLevel : Nat) (d : Doc Node true) :
    ∃ l, getMatches (single (idCheck id (some maxLevel))) d = .ok l ∧ l.Pairwise Before ∧
      ∀ n, n ∈ l ↔ Within ⟨[], d⟩ n ∧ (n.label.subtree = true ∧ n.label.id = some id) ∧
        ∀ b, Within ⟨[], d⟩ b → Below b n → ¬ (b.label.subtree = true ∧ b.label.id = some id) := by
  refine single_search (P := fun x => x.subtree = true ∧ x.id = some id) ?_ d
  intro a
  by_cases hs : a.label.subtree = true
  · exact ⟨decide (a.label.id = some id), by simp [idCheck, hs], by simp [hs]⟩
  · exact ⟨false, by simp [idCheck, hs], by simp [hs]⟩

def someTree : Node := { kind := 1, subtree := true, level := 3, id := some "a", title := ["b"] }
def someDoc : Node := { kind := 0, subtree := false, level := 0, id := none, title := [] }

/-- The full claim for ids: without a level all subtrees count, with a level those up to it. -/
def SearchIdStatement : Prop :=
  ∀ (id : String) (maxLevel : Option Nat) (d : Doc Node true), ∃ l, getMatches (single (idCheck id maxLevel)) d = .ok l ∧
    ∀ n ∈ l, n.label.id = some id ∧ ∀ k, maxLevel = some k → n.label.level ≤ k

/-- **C61** fails: without a level every document with a subtree makes the search throw. -/
theorem search_id_throws : getMatches (single (idCheck "a" none)) (.node someDoc (.cons 0 (.node someTree .nil) .nil)) =
    .error .throws := rfl

/-- **C61** fails: the level is ignored. -/
theorem search_id_level : ∃ n, getMatches (single (idCheck "a" (some 2))) (.node someDoc (.cons 0 (.node someTree .nil) .nil)) =
    .ok [n] ∧ n.label.level = 3 := ⟨⟨[0], .node someTree .nil⟩, rfl, rfl⟩

theorem search_id_false : ¬ SearchIdStatement := by
  intro h
  obtain ⟨l, h1, _⟩ := h "a" none (.node someDoc (.cons 0 (.node someTree .nil) .nil))
  rw [search_id_throws] at h1
  cases h1

example : ∃ n, getMatches (single (titleCheck ["b"])) (.node someDoc (.cons 0 (.node someTree .nil) .nil)) = .ok [n] :=
  ⟨⟨[0], .node someTree .nil⟩, rfl⟩

end Verif.Select
