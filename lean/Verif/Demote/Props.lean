import Verif.Demote.Runs
import Verif.Demote.Compute
import Verif.Imm.Props

/-!
# Demoting a headline: C114
-/

namespace Verif.Demote

open Verif.Imm
open Verif.Eval (kidList ofKids results withResults putAt isRoot)

variable {E : Type}

/-! ## What is asked for -/

/-- A document of a context with a headline in it, whatever happened before. -/
structure Given [DecidableEq E] (srt : List (Step × Id) → List (Step × Id)) (c : Ctx (Data E)) (root : Id) (T : Tree (Data E) true)
    (p : List Step) (fuel : Nat) : Prop where
  reach : Reach srt c
  stored : Denotes c.store root T
  document : isRoot T = true
  nested : Nested none T
  headline : ∃ l r f, (p, Line.head l r f) ∈ docLines T
  fuel : 3 + 2 * depth T ≤ fuel

/-- There is a new version, the old one is kept, and the new one is the old one with the headline demoted. -/
def Works [DecidableEq E] (srt : List (Step × Id) → List (Step × Id)) (fuel : Nat) (c : Ctx (Data E)) (root : Id) (T : Tree (Data E) true)
    (p : List Step) (move : Move) : Prop :=
  ∃ root' c' T', demoteVersion srt fuel c root p move = .ok (root', c') ∧ Denotes c'.store root' T' ∧ Denotes c'.store root T ∧
    Demoted move T p T'

/-- C114 for one kind of move -/
def DemoteStatement (E : Type) [DecidableEq E] (move : Move) : Prop :=
  ∀ (srt : List (Step × Id) → List (Step × Id)), Sorts srt → Keeps srt → ∀ (fuel : Nat) (c : Ctx (Data E)) (root : Id)
    (T : Tree (Data E) true) (p : List Step), Given srt c root T p fuel → Works srt fuel c root T p move

/-- no other subnode of the same node is equal to the one at `p` -/
def Lone (T : Tree (Data E) true) (p : List Step) : Prop :=
  ∀ q i j t u, p = q ++ [subStep i] → subtree? T p = some t → j ≠ i → subtree? T (q ++ [subStep j]) = some u → strip u ≠ strip t

/-! ## Lemmas -/

theorem subtree_kid {D : Type} : ∀ {q : List Step} {T : Tree D true} {k : Kind} {d : D} {l : Option Nat} {ks : Tree D false} {st : Step}
    {u : Tree D true}, ShapedTree T → subtree? T q = some (.node k d l ks) → (st, u) ∈ kidList ks → subtree? T (q ++ [st]) = some u := by
  intro q
  induction q with
  | nil =>
    intro T k d l ks st u hsh h hm
    rw [subtree_nil] at h
    injection h with h
    subst h
    rw [List.nil_append, subtree?, kids_subtree (shaped_nodup hsh.1) hm, subtree_nil]
  | cons s q ih =>
    intro T k d l ks st u hsh h hm
    cases T with
    | node k2 d2 l2 ks2 =>
      rw [subtree?] at h
      obtain ⟨w, h1, h2⟩ := subtree_kids h
      rw [List.cons_append, subtree?, kids_subtree (shaped_nodup hsh.1) h1]
      exact ih (kid_shaped hsh.2 h1) h2 hm

theorem spot_sibling {T : Tree (Data E) true} (hT : ShapedTree T) {p : List Step} {lev : Int} {q : List Step} {kd : Kind} {d : Data E}
    {loc : Option Nat} {ks : Tree (Data E) false} {pre : List (Tree (Data E) true)} {t : Tree (Data E) true}
    {post : List (Tree (Data E) true)} (hs : Spot T p lev q kd d loc ks pre t post) {j : Nat} {u : Tree (Data E) true}
    (h : (results 0 ks)[j]? = some u) : subtree? T (q ++ [subStep j]) = some u := by
  refine subtree_kid hT hs.parent ?_
  rw [kidList_split hs.shaped.1]
  refine List.mem_append_left _ (List.mem_mapIdx.2 ?_)
  obtain ⟨hj, he⟩ := List.getElem?_eq_some_iff.1 h
  exact ⟨j, hj, by rw [he]⟩

theorem lone_siblings {T : Tree (Data E) true} (hT : ShapedTree T) {p : List Step} {lev : Int} {q : List Step} {kd : Kind} {d : Data E}
    {loc : Option Nat} {ks : Tree (Data E) false} {pre : List (Tree (Data E) true)} {t : Tree (Data E) true}
    {post : List (Tree (Data E) true)} (hs : Spot T p lev q kd d loc ks pre t post) (hl : Lone T p) :
    ∀ u ∈ pre ++ post, strip u ≠ strip t := by
  intro u hu
  rcases List.mem_append.1 hu with hu | hu
  · obtain ⟨j, hj, he⟩ := List.getElem_of_mem hu
    refine hl q pre.length j t u hs.path hs.here (by omega) (spot_sibling hT hs ?_)
    rw [hs.subs, List.getElem?_append_left hj, List.getElem?_eq_getElem hj, he]
  · obtain ⟨j, hj, he⟩ := List.getElem_of_mem hu
    refine hl q pre.length (pre.length + 1 + j) t u hs.path hs.here (by omega) (spot_sibling hT hs ?_)
    rw [hs.subs, List.getElem?_append_right (by omega), show pre.length + 1 + j - pre.length = j + 1 by omega, List.getElem?_cons_succ,
      List.getElem?_eq_getElem hj, he]

theorem docLines_mem_sub {T : Tree (Data E) true} (hT : ShapedTree T) {x : List Step × Line E} (h : x ∈ docLines T) :
    ∃ u, subtree? T x.1 = some u ∧ ∀ l r f, x.2 = .head l r f → levelOf u = some l := by
  cases T with
  | node k0 d0 l0 ks0 =>
    obtain ⟨p', u, h1, h2, _, h4, h5⟩ := lines_subtree ks0 [] _ hT.2 (fun _ => shaped_nodup hT.1) h
    rw [List.nil_append] at h1
    refine ⟨u, ?_, h5⟩
    rw [h1]
    cases p' with
    | nil => exact absurd rfl (h4 rfl)
    | cons s p => rw [subtree?]; exact h2

/-- From the tree that is read to the one of the document. -/
theorem works_of [DecidableEq E] {srt : List (Step × Id) → List (Step × Id)} {fuel : Nat} {c : Ctx (Data E)} {root : Id} {T : Tree (Data E) true}
    {p : List Step} {move : Move} (hst : Denotes c.store root T)
    (hch : ∀ x ∈ docLines T, (Changes T p move x.1 → p <+: x.1) ∧ (p <+: x.1 → ¬ Changes T p move x.1 → x.2.demote = x.2))
    (h : ∃ root' c' T', demoteVersion srt fuel c root p move = .ok (root', c') ∧ c.store <+: c'.store ∧ Reads c'.store (b := true) root' T' ∧
      docHead T' = docHead T ∧ Nested none T' ∧ (docLines T').map (·.2) = (docLines T).map (shown p)) :
    Works srt fuel c root T p move := by
  obtain ⟨root', c', T', h1, h2, h3, h4, h5, h6⟩ := h
  obtain ⟨T2, g1, g2⟩ := reads_denotes h3
  refine ⟨root', c', T2, h1, g1, denotes_mono h2 hst, ?_, ?_, ?_⟩
  · rw [g2, docHead_strip, docHead_strip, h4]
  · rw [← nested_strip, g2, nested_strip]
    exact h5
  · rw [g2, docLines_strip, docLines_strip, List.map_map]
    have he : (docLines T').map ((fun x : List Step × Line E => x.2) ∘ fun x => (x.1, x.2.strip)) = (docLines T).map (fun x => (shown p x).strip) := by
      have := congrArg (List.map Line.strip) h6
      rw [List.map_map, List.map_map] at this
      exact this
    rw [he, List.forall₂_map_left_iff, List.forall₂_map_right_iff, List.forall₂_same]
    intro x hx
    obtain ⟨c1, c2⟩ := hch x hx
    simp only
    constructor
    · intro hc
      unfold shown
      rw [if_pos (c1 hc), demote_strip]
    · intro hc
      unfold shown
      split
      · rename_i hp
        rw [c2 hp hc]
      · rfl

/-! ## The theorems -/

/-- **C114, all levels** (for parts with only headlines).  Missing: a headline with anything else below it (an exception,
`force_false`), and one with an equal sibling (`force_equal_false`). -/
theorem demote_force_partial [DecidableEq E] {srt : List (Step × Id) → List (Step × Id)} (hsrt : Sorts srt) (hk : Keeps srt) {fuel : Nat}
    {c : Ctx (Data E)} {root : Id} {T : Tree (Data E) true} {p : List Step} (hg : Given srt c root T p fuel)
    (hon : ∀ t, subtree? T p = some t → OnlyHeadlines t) (hl : Lone T p) : Works srt fuel c root T p .force := by
  have hgood := reach_good hsrt hg.reach
  have hT := denotes_reads hg.stored
  have hsh : ShapedTree T := reads_shaped hgood.shaped hT
  obtain ⟨l, r, f, hm⟩ := hg.headline
  obtain ⟨q, kd, d, loc, ks, pre, t, post, hs⟩ := spot hsh hm
  refine works_of hg.stored ?_ (force_run hk hgood hT hg.document hg.nested ⟨_, hm⟩ hs (hon t hs.here) (lone_siblings hsh hs hl) (by decide) hg.fuel)
  intro x _
  exact ⟨fun h => h, fun h h' => absurd h h'⟩

/-- **C114, levels if needed** (for parts with only headlines, each exactly one level below the one above it).  Missing: as for
all levels, and headlines that are more than one level below (`ensure_false`). -/
theorem demote_ensure_partial [DecidableEq E] {srt : List (Step × Id) → List (Step × Id)} (hsrt : Sorts srt) (hk : Keeps srt) {fuel : Nat}
    {c : Ctx (Data E)} {root : Id} {T : Tree (Data E) true} {p : List Step} (hg : Given srt c root T p fuel)
    (hon : ∀ t, subtree? T p = some t → OnlyHeadlines t) (hl : Lone T p)
    (hlev : ∀ q, p <+: q → q ≠ p → ∀ a b, levelAt T q.dropLast = some a → levelAt T q = some b → b = a + 1) :
    Works srt fuel c root T p .ensure := by
  have hgood := reach_good hsrt hg.reach
  have hT := denotes_reads hg.stored
  have hsh : ShapedTree T := reads_shaped hgood.shaped hT
  obtain ⟨l, r, f, hm⟩ := hg.headline
  obtain ⟨q, kd, d, loc, ks, pre, t, post, hs⟩ := spot hsh hm
  refine works_of hg.stored ?_ (force_run hk hgood hT hg.document hg.nested ⟨_, hm⟩ hs (hon t hs.here) (lone_siblings hsh hs hl) (by decide) hg.fuel)
  intro x _
  exact ⟨fun h => h.1, fun h h' => absurd ⟨h, fun q hq _ hne => hlev q hq hne⟩ h'⟩

/-- **C114, one headline** (without headlines below it, and not coming to be below the one before it).  Missing: these two
(`physical_false`, `physical_nesting_false`). -/
theorem demote_physical_partial [DecidableEq E] {srt : List (Step × Id) → List (Step × Id)} (hsrt : Sorts srt) (hk : Keeps srt) {fuel : Nat}
    {c : Ctx (Data E)} {root : Id} {T : Tree (Data E) true} {p : List Step} (hg : Given srt c root T p fuel)
    (hno : ∀ x ∈ docLines T, p <+: x.1 → x.1 ≠ p → ∃ u, x.2 = .body u)
    (hlast : ∀ q i a l, p = q ++ [subStep (i + 1)] → levelAt T (q ++ [subStep i]) = some a → levelAt T p = some l → l < a) :
    Works srt fuel c root T p .physical := by
  have hgood := reach_good hsrt hg.reach
  have hT := denotes_reads hg.stored
  have hsh : ShapedTree T := reads_shaped hgood.shaped hT
  obtain ⟨l, r, f, hm⟩ := hg.headline
  obtain ⟨q, kd, d, loc, ks, pre, t, post, hs⟩ := spot hsh hm
  refine works_of hg.stored ?_ (physical_run hk hgood hT hg.document hg.nested ⟨_, hm⟩ hs hno ?_ hg.fuel)
  · intro x hx
    refine ⟨?_, ?_⟩
    · intro h
      have h : x.1 = p := h
      rw [h]
    · intro h1 h2
      obtain ⟨u, hu⟩ := hno x hx h1 h2
      rw [hu]
      rfl
  · intro u x h1 h2
    rcases List.eq_nil_or_concat pre with rfl | ⟨pr, w, rfl⟩
    · simp at h1
    · rw [List.concat_eq_append] at hs h1
      simp only [List.getLast?_append, List.getLast?_singleton, Option.some_or, Option.some.injEq] at h1
      subst h1
      have := hlast q pr.length x l (by rw [hs.path]; simp)
        (by
          unfold levelAt
          rw [spot_sibling hsh hs (j := pr.length) (u := w) (by rw [hs.subs]; simp)]
          exact h2)
        (by
          unfold levelAt
          rw [hs.here]
          exact hs.level)
      omega

/-! ## Wrong results -/

/-- a document with the given nodes -/
def doc1 (t : Tree (Data Nat) true) : Tree (Data Nat) true := .node .Document (0, 0) none (.cons (subStep 0) t .nil)
def doc2 (t u : Tree (Data Nat) true) : Tree (Data Nat) true :=
  .node .Document (0, 0) none (.cons (subStep 0) t (.cons (subStep 1) u .nil))
/-- a headline with a title, and with another node below it -/
def leaf (l : Int) (n : Nat) : Tree (Data Nat) true := .node .Subtree (l, n) none .nil
def over (l : Int) (n : Nat) (t : Tree (Data Nat) true) : Tree (Data Nat) true := .node .Subtree (l, n) none (.cons (subStep 0) t .nil)
def para (n : Nat) : Tree (Data Nat) true := .node .Paragraph (0, n) none .nil

/-- the context after adding the document -/
def ctxOf (T : Tree (Data Nat) true) : Ctx (Data Nat) := (addRoot (start (Data Nat)) T).2

def rootOf (T : Tree (Data Nat) true) : Id := (addRoot (start (Data Nat)) T).1

theorem leaf_shaped (l : Int) (n : Nat) : ShapedTree (leaf l n) := by
  simp only [leaf, ShapedTree, steps]
  exact ⟨shaped0, trivial⟩
theorem para_shaped (n : Nat) : ShapedTree (para n) := by
  simp only [para, ShapedTree, steps]
  exact ⟨shaped0, trivial⟩
theorem over_shaped (l : Int) (n : Nat) {t : Tree (Data Nat) true} (h : ShapedTree t) : ShapedTree (over l n t) := by
  simp only [over, ShapedTree, steps]
  exact ⟨shaped1, h, trivial⟩
theorem doc1_shaped {t : Tree (Data Nat) true} (h : ShapedTree t) : ShapedTree (doc1 t) := by
  simp only [doc1, ShapedTree, steps]
  exact ⟨shaped1, h, trivial⟩
theorem doc2_shaped {t u : Tree (Data Nat) true} (h : ShapedTree t) (h' : ShapedTree u) : ShapedTree (doc2 t u) := by
  simp only [doc2, ShapedTree, steps]
  exact ⟨shaped2, h, h', trivial⟩

theorem given_of {T : Tree (Data Nat) true} (hT : ShapedTree T) {p : List Step}
    (h1 : (ctxOf T).store.get 9 (rootOf T) = some T) (h2 : isRoot T = true) (h3 : Nested none T)
    (h4 : ∃ l r f, (p, Line.head l r f) ∈ docLines T) (h5 : 3 + 2 * depth T ≤ 11) : Given stable (ctxOf T) (rootOf T) T p 11 :=
  ⟨.single (.add _ _ hT), ⟨9, h1⟩, h2, h3, h4, h5⟩

/-- a headline with a paragraph -/
def withText : Tree (Data Nat) true := doc1 (over 1 1 (para 2))

theorem withText_given : Given stable (ctxOf withText) (rootOf withText) withText [subStep 0] 11 :=
  given_of (doc1_shaped (over_shaped _ _ (para_shaped _))) (by decide +kernel) rfl
    (by simp [withText, doc1, over, para, Nested, levelOf, results, kidList])
    ⟨1, 1, _, List.mem_cons_self⟩ (by decide +kernel)

/-- **C114** fails for all levels: there is a paragraph below the headline. -/
theorem force_false : ¬ DemoteStatement Nat .force := by
  intro h
  obtain ⟨r, c, T', h1, _⟩ := h stable stable_sorts stable_keeps 11 _ _ _ _ withText_given
  have : (demoteVersion stable 11 (ctxOf withText) (rootOf withText) [subStep 0] .force).toOption.isSome = false := by
    rw [demote_run]
    decide +kernel
  rw [h1] at this
  cases this

/-- two equal headlines, of which the second one is demoted -/
def twins : Tree (Data Nat) true := doc2 (leaf 1 1) (leaf 1 1)

theorem twins_given : Given stable (ctxOf twins) (rootOf twins) twins [subStep 1] 11 :=
  given_of (doc2_shaped (leaf_shaped _ _) (leaf_shaped _ _)) (by decide +kernel) rfl
    (by simp [twins, doc2, leaf, Nested, levelOf, results, kidList, subStep])
    ⟨1, 1, _, List.mem_cons_of_mem _ List.mem_cons_self⟩ (by decide +kernel)

/-- what the new version is, when run -/
theorem works_run {T : Tree (Data Nat) true} {p : List Step} {move : Move} {T' : Tree (Data Nat) true}
    (h : Works stable 11 (ctxOf T) (rootOf T) T p move)
    (hr : (demoteVersion stable 11 (ctxOf T) (rootOf T) p move).toOption.bind (fun r => r.2.store.get 9 r.1) = some T') : Demoted move T p T' := by
  obtain ⟨root', c', T2, h1, h2, _, h4⟩ := h
  rw [h1] at hr
  have : T' = T2 := denotes_unique ⟨9, hr⟩ h2
  rw [this]
  exact h4

/-- **C114** fails for all levels also for parts with only headlines: the second one of two equal headlines stays next to the
first one. -/
theorem force_equal_false : ¬ (∀ (srt : List (Step × Id) → List (Step × Id)), Sorts srt → Keeps srt → ∀ (fuel : Nat) (c : Ctx (Data Nat))
    (root : Id) (T : Tree (Data Nat) true) (p : List Step), Given srt c root T p fuel →
    (∀ t, subtree? T p = some t → OnlyHeadlines t) → Works srt fuel c root T p .force) := by
  intro h
  have h1 := h stable stable_sorts stable_keeps 11 _ _ _ _ twins_given (by
    intro t ht
    have : subtree? twins [subStep 1] = some (leaf 1 1) := by decide +kernel
    rw [this] at ht
    injection ht with ht
    rw [← ht]
    exact ⟨rfl, trivial⟩)
  have h2 := (works_run (T' := doc2 (leaf 1 1) (leaf 2 1)) h1 (by rw [demote_run]; decide +kernel)).nested
  simp [doc2, leaf, Nested, levelOf, results, kidList, subStep] at h2

/-- a headline with one two levels below it -/
def skips : Tree (Data Nat) true := doc1 (over 1 1 (leaf 3 2))

theorem skips_given : Given stable (ctxOf skips) (rootOf skips) skips [subStep 0] 11 :=
  given_of (doc1_shaped (over_shaped _ _ (leaf_shaped _ _))) (by decide +kernel) rfl
    (by simp [skips, doc1, over, leaf, Nested, levelOf, results, kidList])
    ⟨1, 1, _, List.mem_cons_self⟩ (by decide +kernel)

/-- **C114** fails for levels if needed: the headline below is demoted although this is not needed. -/
theorem ensure_false : ¬ DemoteStatement Nat .ensure := by
  intro h
  have h1 := works_run (T' := doc1 (over 2 1 (leaf 4 2))) (h stable stable_sorts stable_keeps 11 _ _ _ _ skips_given)
    (by rw [demote_run]; decide +kernel)
  have h2 := h1.lines
  have e1 : docLines (strip skips) = [([subStep 0], .head 1 1 []), ([subStep 0, subStep 0], .head 3 2 [])] := rfl
  have e2 : (docLines (strip (doc1 (over 2 1 (leaf 4 2))))).map (·.2) = [Line.head 2 1 [], .head 4 2 []] := rfl
  rw [e1, e2] at h2
  cases h2 with
  | cons _ h2 =>
    cases h2 with
    | cons h2 _ =>
      have h3 := h2.2 (by
        rintro ⟨_, hc⟩
        have := hc [subStep 0, subStep 0] ⟨[subStep 0], rfl⟩ (List.prefix_refl _) (by decide) 1 3 (by decide +kernel) (by decide +kernel)
        omega)
      simp at h3

/-- a headline with one below it -/
def nestedTwo : Tree (Data Nat) true := doc1 (over 1 1 (leaf 2 2))

theorem nestedTwo_given : Given stable (ctxOf nestedTwo) (rootOf nestedTwo) nestedTwo [subStep 0] 11 :=
  given_of (doc1_shaped (over_shaped _ _ (leaf_shaped _ _))) (by decide +kernel) rfl
    (by simp [nestedTwo, doc1, over, leaf, Nested, levelOf, results, kidList])
    ⟨1, 1, _, List.mem_cons_self⟩ (by decide +kernel)

/-- **C114** fails for one headline: the headline below it comes before it in the new document. -/
theorem physical_false : ¬ DemoteStatement Nat .physical := by
  intro h
  have h1 := works_run (T' := doc2 (leaf 2 2) (leaf 2 1)) (h stable stable_sorts stable_keeps 11 _ _ _ _ nestedTwo_given)
    (by rw [demote_run]; decide +kernel)
  have h2 := h1.lines
  have e1 : docLines (strip nestedTwo) = [([subStep 0], .head 1 1 []), ([subStep 0, subStep 0], .head 2 2 [])] := rfl
  have e2 : (docLines (strip (doc2 (leaf 2 2) (leaf 2 1)))).map (·.2) = [Line.head 2 2 [], .head 2 1 []] := rfl
  rw [e1, e2] at h2
  cases h2 with
  | cons h2 _ =>
    have h3 := h2.1 rfl
    simp [Line.demote] at h3

/-- two headlines, of which the second one is demoted -/
def pair : Tree (Data Nat) true := doc2 (leaf 1 1) (leaf 1 2)

theorem pair_given : Given stable (ctxOf pair) (rootOf pair) pair [subStep 1] 11 :=
  given_of (doc2_shaped (leaf_shaped _ _) (leaf_shaped _ _)) (by decide +kernel) rfl
    (by simp [pair, doc2, leaf, Nested, levelOf, results, kidList, subStep])
    ⟨1, 2, _, List.mem_cons_of_mem _ List.mem_cons_self⟩ (by decide +kernel)

/-- **C114** fails for one headline without headlines below it: it stays next to one with fewer stars. -/
theorem physical_nesting_false : ¬ (∀ (srt : List (Step × Id) → List (Step × Id)), Sorts srt → Keeps srt → ∀ (fuel : Nat) (c : Ctx (Data Nat))
    (root : Id) (T : Tree (Data Nat) true) (p : List Step), Given srt c root T p fuel →
    (∀ x ∈ docLines T, p <+: x.1 → x.1 ≠ p → ∃ u, x.2 = .body u) → Works srt fuel c root T p .physical) := by
  intro h
  have h1 := h stable stable_sorts stable_keeps 11 _ _ _ _ pair_given (by
    intro x hx hp hne
    have e : docLines pair = [([subStep 0], .head 1 1 []), ([subStep 1], .head 1 2 [])] := rfl
    rw [e] at hx
    simp only [List.mem_cons, List.not_mem_nil, or_false] at hx
    rcases hx with rfl | rfl
    · exact absurd hp (by decide)
    · exact absurd rfl hne)
  have h2 := (works_run (T' := doc2 (leaf 1 1) (leaf 2 2)) h1 (by rw [demote_run]; decide +kernel)).nested
  simp [doc2, leaf, Nested, levelOf, results, kidList, subStep] at h2

/-! ## The hypotheses are met -/

theorem pair_sub {j : Nat} {u : Tree (Data Nat) true} (h : subtree? pair [subStep j] = some u) : (j = 0 ∧ u = leaf 1 1) ∨ (j = 1 ∧ u = leaf 1 2) := by
  rcases j with _ | _ | j
  · have e : subtree? pair [subStep 0] = some (leaf 1 1) := by decide +kernel
    rw [e] at h
    injection h with h
    exact .inl ⟨rfl, h.symm⟩
  · have e : subtree? pair [subStep 1] = some (leaf 1 2) := by decide +kernel
    rw [e] at h
    injection h with h
    exact .inr ⟨rfl, h.symm⟩
  · simp [pair, doc2, subtree?, subStep] at h

/-- The second one of two headlines comes to be below the first one. -/
example : Works stable 11 (ctxOf pair) (rootOf pair) pair [subStep 1] .force ∧
    (demoteVersion stable 11 (ctxOf pair) (rootOf pair) [subStep 1] .force).toOption.bind (fun r => r.2.store.get 9 r.1) =
      some (doc1 (over 1 1 (leaf 2 2))) := by
  refine ⟨demote_force_partial stable_sorts stable_keeps pair_given ?_ ?_, by rw [demote_run]; decide +kernel⟩
  · intro t ht
    rcases pair_sub ht with ⟨h, _⟩ | ⟨_, rfl⟩
    · cases h
    · exact ⟨rfl, trivial⟩
  · intro q i j t u hp ht hj hu
    have hq : q = [] ∧ i = 1 := by
      cases q with
      | nil => simp [subStep] at hp; exact ⟨rfl, hp.symm⟩
      | cons => simp at hp
    obtain ⟨rfl, rfl⟩ := hq
    rcases pair_sub ht with ⟨h, _⟩ | ⟨_, rfl⟩
    · cases h
    · rcases pair_sub hu with ⟨_, rfl⟩ | ⟨h, _⟩
      · decide +kernel
      · exact absurd h hj

/-- A headline with one below it, both demoted. -/
example : Works stable 11 (ctxOf nestedTwo) (rootOf nestedTwo) nestedTwo [subStep 0] .ensure := by
  refine demote_ensure_partial stable_sorts stable_keeps nestedTwo_given ?_ ?_ ?_
  · intro t ht
    have e : subtree? nestedTwo [subStep 0] = some (over 1 1 (leaf 2 2)) := by decide +kernel
    rw [e] at ht
    injection ht with ht
    rw [← ht]
    exact ⟨rfl, fun _ => ⟨rfl, trivial⟩, trivial⟩
  · intro q i j t u hp ht hj hu
    have hq : q = [] ∧ i = 0 := by
      cases q with
      | nil => simp [subStep] at hp; exact ⟨rfl, hp.symm⟩
      | cons => simp at hp
    obtain ⟨rfl, rfl⟩ := hq
    rcases j with _ | j
    · exact absurd rfl hj
    · simp [nestedTwo, doc1, subtree?, subStep] at hu
  · rintro q ⟨r, rfl⟩ hne a b ha hb
    rcases r with _ | ⟨s, _ | ⟨s2, r⟩⟩
    · simp at hne
    · have h1 : levelAt nestedTwo [subStep 0] = some 1 := by decide +kernel
      simp only [List.dropLast_concat] at ha
      rw [h1] at ha
      injection ha with ha
      by_cases hs : s = subStep 0
      · subst hs
        have h2 : levelAt nestedTwo ([subStep 0] ++ [subStep 0]) = some 2 := by decide +kernel
        rw [h2] at hb
        injection hb with hb
        omega
      · simp [levelAt, nestedTwo, doc1, over, subtree?, Ne.symm hs] at hb
    · simp only [levelAt, nestedTwo, doc1, over, leaf, List.cons_append, List.nil_append, subtree?, if_true] at hb
      split at hb <;> simp [subtree?] at hb

/-- The first one of two headlines without anything below it. -/
theorem pair_given0 : Given stable (ctxOf pair) (rootOf pair) pair [subStep 0] 11 :=
  ⟨pair_given.reach, pair_given.stored, pair_given.document, pair_given.nested, ⟨1, 1, _, List.mem_cons_self⟩, pair_given.fuel⟩

example : Works stable 11 (ctxOf pair) (rootOf pair) pair [subStep 0] .physical ∧
    (demoteVersion stable 11 (ctxOf pair) (rootOf pair) [subStep 0] .physical).toOption.bind (fun r => r.2.store.get 9 r.1) =
      some (doc2 (leaf 2 1) (leaf 1 2)) := by
  refine ⟨demote_physical_partial stable_sorts stable_keeps pair_given0 ?_ ?_, by rw [demote_run]; decide +kernel⟩
  · intro x hx hp hne
    have e : docLines pair = [([subStep 0], .head 1 1 []), ([subStep 1], .head 1 2 [])] := rfl
    rw [e] at hx
    simp only [List.mem_cons, List.not_mem_nil, or_false] at hx
    rcases hx with rfl | rfl
    · exact absurd rfl hne
    · exact absurd hp (by decide)
  · intro q i a l hp
    exfalso
    cases q with
    | nil => simp [subStep] at hp
    | cons => simp at hp

end Verif.Demote
