import Verif.RangeTree.AnnotateLemmas

/-!
# C01, C02 – properties of `RangeTree` and `annotateSequence`
-/

namespace Verif.RangeTree
open Spec

/-- A sort that leaves its input unchanged (a permutation; used in examples). -/
def idSort : SortOracle := ⟨id, fun _ => List.Perm.refl _⟩

/-! ## C01 -/

/-- Full C01: for *every* list of valid slices, whatever permutation the sort
produces, construction finishes and a point query returns exactly the covering
slices, each once, with its index. -/
def RangeTreeExactStatement : Prop :=
  ∀ (o : SortOracle) (slices : List Slice), (∀ s ∈ slices, s.first ≤ s.last) →
    ∃ depth t, make o depth slices = .ok t ∧
      ∀ p, (t.getRanges p).Perm (covering slices p)

/-- C01 for pairwise distinct slices: recursion depth is at most
`slices.length + 1`, and queries are exact.  What is missing from the full
property: lists with two equal slices, see `rangeTree_duplicate_ub`. -/
theorem rangeTree_exact_partial (o : SortOracle) (slices : List Slice)
    (valid : ∀ s ∈ slices, s.first ≤ s.last) (distinct : slices.Nodup)
    (depth : Nat) (hd : slices.length < depth) :
    ∃ t, make o depth slices = .ok t ∧ ∀ p, (t.getRanges p).Perm (covering slices p) := by
  obtain ⟨t, ht⟩ := make_terminates o slices valid distinct depth hd
  exact ⟨t, ht, make_exact o slices valid depth t ht⟩

/-- C01, membership form: a query returns index `i` iff the `i`-th slice covers
the point, and no index twice.  Holds for every tree that gets built. -/
theorem rangeTree_query_iff (o : SortOracle) (slices : List Slice)
    (valid : ∀ s ∈ slices, s.first ≤ s.last) (depth : Nat) (t : Tree)
    (ht : make o depth slices = .ok t) (p : Int) :
    (∀ i : Nat, i ∈ (t.getRanges p).map Range.index ↔
      ∃ s, slices[i]? = some s ∧ s.first ≤ p ∧ p ≤ s.last) ∧
    ((t.getRanges p).map Range.index).Nodup := by
  have h := make_exact o slices valid depth t ht p
  constructor
  · intro i
    rw [(h.map Range.index).mem_iff]
    unfold covering
    simp only [List.map_map, List.mem_map, List.mem_filter, Function.comp_apply]
    constructor
    · rintro ⟨⟨s, j⟩, ⟨hm, hc⟩, rfl⟩
      exact ⟨s, by simpa using List.mem_zipIdx_iff_getElem?.1 hm, of_decide_eq_true hc⟩
    · rintro ⟨s, hs, hc⟩
      exact ⟨(s, i), ⟨List.mem_zipIdx_iff_getElem?.2 (by simpa using hs), decide_eq_true (p := Covers s p) hc⟩, rfl⟩
  · rw [(h.map Range.index).nodup_iff]
    unfold covering
    rw [List.map_map]
    have hnd : (slices.zipIdx.map Prod.snd).Nodup := by
      rw [List.zipIdx_map_snd]; exact List.nodup_range'
    exact hnd.sublist (List.Sublist.map _ List.filter_sublist)

/-- Two equal slices violate the precondition of `std::sort` (the comparator
orders each before the other), so the full C01 fails. -/
theorem rangeTree_duplicate_ub (o : SortOracle) (depth : Nat) :
    make o depth [⟨1, 2⟩, ⟨1, 2⟩] = .error .ub := by
  have : ¬ sortPrecondition (enumerate [⟨1, 2⟩, ⟨1, 2⟩]) := by decide
  simp [make, this]

theorem rangeTree_exact_false : ¬ RangeTreeExactStatement := by
  intro h
  obtain ⟨d, t, ht, _⟩ := h idSort [⟨1, 2⟩, ⟨1, 2⟩] (by decide)
  rw [rangeTree_duplicate_ub] at ht
  cases ht

/-- The validity hypothesis of C01 is needed: for an inverted slice the
recursion of `buildRec` never finishes, at any depth. -/
theorem rangeTree_invalid_diverges (o : SortOracle) (depth : Nat) :
    make o depth [⟨5, 3⟩] = .error .diverges := by
  have hs : o.sort [⟨⟨5, 3⟩, 0⟩] = [⟨⟨5, 3⟩, 0⟩] := List.perm_singleton.1 (o.perm _)
  have hp : sortPrecondition (enumerate [⟨5, 3⟩]) := by decide
  have key : ∀ n, buildRec n [⟨⟨5, 3⟩, 0⟩] = .error .diverges := by
    intro n
    induction n with
    | zero => rfl
    | succ n ih =>
      have hc : (sortedPoints [⟨⟨5, 3⟩, 0⟩])[(sortedPoints [⟨⟨5, 3⟩, 0⟩]).length / 2]? = some 5 := by
        simp [sortedPoints, List.mergeSort, List.MergeSort.Internal.splitInTwo, List.merge]
      simp only [buildRec, hc]
      have : List.filter (fun x : Range => decide (x.range.last < 5)) [⟨⟨5, 3⟩, 0⟩]
          = [⟨⟨5, 3⟩, 0⟩] := by decide
      rw [this, ih]
  simp only [make, if_pos hp]
  have he : enumerate [⟨5, 3⟩] = [⟨⟨5, 3⟩, 0⟩] := rfl
  rw [he, hs]
  exact key depth

example : (∀ s ∈ [(⟨1, 4⟩ : Slice), ⟨2, 3⟩, ⟨4, 9⟩, ⟨-3, 1⟩], s.first ≤ s.last) ∧
    [(⟨1, 4⟩ : Slice), ⟨2, 3⟩, ⟨4, 9⟩, ⟨-3, 1⟩].Nodup ∧
    covering [(⟨1, 4⟩ : Slice), ⟨2, 3⟩, ⟨4, 9⟩, ⟨-3, 1⟩] 4 = [⟨⟨1, 4⟩, 0⟩, ⟨⟨4, 9⟩, 2⟩] := by
  decide

/-! ## C02 -/

/-- What C02 asks of a list of chunks. -/
structure AnnotationSpec (groups : List Group) (first last : Int) (R : List Annotation) : Prop where
  /-- chunks are ordered and disjoint -/
  disjoint : R.Pairwise fun a b => a.last < b.first
  /-- chunks are non-empty intervals within the requested range -/
  inside : ∀ a ∈ R, first ≤ a.first ∧ a.first ≤ a.last ∧ a.last ≤ last
  /-- every point of a chunk carries exactly the annotations of the chunk -/
  sound : ∀ a ∈ R, a.annotations ≠ ∅ ∧
    ∀ p, a.first ≤ p → p ≤ a.last → annotationsAt groups p = a.annotations
  /-- chunks cannot be extended to either side -/
  maximal : ∀ a ∈ R,
    (a.last = last ∨ annotationsAt groups (a.last + 1) ≠ a.annotations) ∧
    (a.first = first ∨ annotationsAt groups (a.first - 1) ≠ a.annotations)

/-- The coverage half of C02. -/
def CoversAll (groups : List Group) (first last : Int) (R : List Annotation) : Prop :=
  ∀ p, first ≤ p → p ≤ last → annotationsAt groups p ≠ ∅ → ∃ a ∈ R, a.first ≤ p ∧ p ≤ a.last

theorem annotate_core (o : SortOracle) (depth : Nat) (groups : List Group) (first last : Int)
    (R : List Annotation) (h : annotateSequence o depth groups first last = .ok R) :
    AnnotationSpec groups first last R ∧
    (∀ p, first ≤ p → p < last → annotationsAt groups p ≠ ∅ →
      ∃ a ∈ R, a.first ≤ p ∧ p ≤ a.last) ∧
    (first ≤ last → annotationsAt groups last ≠ ∅ →
      ((∃ a ∈ R, a.first ≤ last ∧ last ≤ a.last) ↔
        first < last ∧ annotationsAt groups (last - 1) = annotationsAt groups last)) := by
  simp only [annotateSequence, bind, Except.bind, pure, Except.pure] at h
  cases h1 : buildTrees o depth groups with
  | error e => simp [h1] at h
  | ok trees =>
    obtain ⟨g1, g2⟩ := buildTrees_good o depth groups trees h1
    have hp : ∀ p, getPointGroups trees p = .ok (annotationsAt groups p) := by
      intro p
      rw [← g1]
      exact getPointGroups_ok p trees g2
    simp only [h1, hp, foldlM_ok hp] at h
    by_cases hfl : first ≤ last
    · obtain ⟨n, hn⟩ : ∃ n : Nat, last = first + n := ⟨(last - first).toNat, by omega⟩
      have hidx : loopIndices first last
          = (List.range (n + 1)).map fun (k : Nat) => first + (k : Int) := by
        unfold loopIndices
        have : (last - first + 1).toNat = n + 1 := by omega
        rw [this]
      have inv := inv_loop (annotationsAt groups) first n
      rw [hidx] at h
      rw [← hn] at inv
      generalize hst : List.foldl (step (annotationsAt groups))
        ⟨annotationsAt groups first, first, []⟩
        ((List.range (n + 1)).map fun (k : Nat) => first + (k : Int)) = st at h inv
      obtain ⟨lo, hi, same, left, disj, chunk, cover⟩ := inv
      have hcond : (∀ p, p = last → annotationsAt groups p = st.prevKind) := by
        intro p hp; exact same p (by omega) (by omega)
      split at h
      · rename_i hc
        injection h with h
        subst h
        refine ⟨⟨?_, ?_, ?_, ?_⟩, ?_, ?_⟩
        · rw [List.pairwise_append]
          refine ⟨disj, by simp, ?_⟩
          intro a ha b hb
          simp only [List.mem_singleton] at hb
          subst hb
          exact (chunk a ha).2.2.1
        · intro a ha
          rcases List.mem_append.1 ha with ha | ha
          · obtain ⟨c1, c2, c3, _⟩ := chunk a ha
            exact ⟨c1, c2, by omega⟩
          · simp only [List.mem_singleton] at ha
            subst ha
            exact ⟨lo, by simp; omega, by simp⟩
        · intro a ha
          rcases List.mem_append.1 ha with ha | ha
          · obtain ⟨_, _, _, c4, c5, _⟩ := chunk a ha
            exact ⟨c4, c5⟩
          · simp only [List.mem_singleton] at ha
            subst ha
            exact ⟨hc.2, same⟩
        · intro a ha
          rcases List.mem_append.1 ha with ha | ha
          · obtain ⟨_, _, _, _, _, c6, c7⟩ := chunk a ha
            exact ⟨Or.inr c6, c7⟩
          · simp only [List.mem_singleton] at ha
            subst ha
            exact ⟨Or.inl rfl, left⟩
        · intro p h1 h2 h3
          by_cases hpl : p < st.lastStart
          · obtain ⟨a, ha, hap⟩ := cover p h1 hpl h3
            exact ⟨a, List.mem_append_left _ ha, hap⟩
          · exact ⟨_, List.mem_append_right _ (List.mem_singleton.2 rfl), by simp; omega,
              by simp; omega⟩
        · intro _ hne
          constructor
          · intro _
            refine ⟨by omega, ?_⟩
            rw [same (last - 1) (by omega) (by omega), same last (by omega) (by omega)]
          · intro _
            exact ⟨_, List.mem_append_right _ (List.mem_singleton.2 rfl), by simp; omega, by simp⟩
      · rename_i hc
        injection h with h
        subst h
        refine ⟨⟨disj, ?_, ?_, ?_⟩, ?_, ?_⟩
        · intro a ha
          obtain ⟨c1, c2, c3, _⟩ := chunk a ha
          exact ⟨c1, c2, by omega⟩
        · intro a ha
          obtain ⟨_, _, _, c4, c5, _⟩ := chunk a ha
          exact ⟨c4, c5⟩
        · intro a ha
          obtain ⟨_, _, _, _, _, c6, c7⟩ := chunk a ha
          exact ⟨Or.inr c6, c7⟩
        · intro p h1 h2 h3
          by_cases hpl : p < st.lastStart
          · exact cover p h1 hpl h3
          · exfalso
            have := same p (by omega) (by omega)
            rw [this] at h3
            exact hc ⟨by omega, h3⟩
        · intro _ hne
          rw [hcond last rfl] at hne
          have hls : st.lastStart = last := by
            by_contra hx
            exact hc ⟨by omega, hne⟩
          constructor
          · rintro ⟨a, ha, _, ha2⟩
            have := (chunk a ha).2.2.1
            omega
          · rintro ⟨h1, h2⟩
            exfalso
            rcases left with h | h
            · omega
            · rw [hls] at h
              rw [h2, hcond last rfl] at h
              exact h rfl
    · have hidx : loopIndices first last = [] := by
        unfold loopIndices
        have : (last - first + 1).toNat = 0 := by omega
        rw [this]; rfl
      rw [hidx] at h
      split at h
      · rename_i hc
        simp only [List.foldl_nil] at hc
        omega
      injection h with h
      subst h
      refine ⟨⟨by simp, by simp, by simp, by simp⟩, ?_, ?_⟩
      · intro p h1 h2; omega
      · intro h1; omega

/-- Full C02, for all groups whose segments are valid and pairwise distinct. -/
def AnnotateStatement : Prop :=
  ∀ (o : SortOracle) (groups : List Group) (first last : Int),
    (∀ g ∈ groups, (∀ s ∈ g.segments, s.first ≤ s.last) ∧
      (g.segments.map fun s => (s.first, s.last)).Nodup) →
    ∃ depth R, annotateSequence o depth groups first last = .ok R ∧
      AnnotationSpec groups first last R ∧ CoversAll groups first last R

/-- C02 without the coverage of the very last point: the call succeeds, chunks
are disjoint, sound and maximal, every annotated point before `last` is covered,
and `last` itself is covered exactly when it continues a chunk of length at
least two. -/
theorem annotate_partial (o : SortOracle) (groups : List Group) (first last : Int)
    (valid : ∀ g ∈ groups, (∀ s ∈ g.segments, s.first ≤ s.last) ∧
      (g.segments.map fun s => (s.first, s.last)).Nodup)
    (depth : Nat) (hd : ∀ g ∈ groups, g.segments.length < depth) :
    ∃ R, annotateSequence o depth groups first last = .ok R ∧
      AnnotationSpec groups first last R ∧
      (∀ p, first ≤ p → p < last → annotationsAt groups p ≠ ∅ →
        ∃ a ∈ R, a.first ≤ p ∧ p ≤ a.last) ∧
      (first ≤ last → annotationsAt groups last ≠ ∅ →
        ((∃ a ∈ R, a.first ≤ last ∧ last ≤ a.last) ↔
          first < last ∧ annotationsAt groups (last - 1) = annotationsAt groups last)) := by
  obtain ⟨trees, ht⟩ := buildTrees_terminates o depth groups
    (fun g hg => ⟨hd g hg, valid g hg⟩)
  obtain ⟨g1, g2⟩ := buildTrees_good o depth groups trees ht
  have hp : ∀ p, getPointGroups trees p = .ok (annotationsAt groups p) := by
    intro p
    rw [← g1]
    exact getPointGroups_ok p trees g2
  have hex : ∃ R, annotateSequence o depth groups first last = .ok R := by
    simp only [annotateSequence, bind, Except.bind, pure, Except.pure, ht, hp, foldlM_ok hp]
    split <;> exact ⟨_, rfl⟩
  obtain ⟨R, hR⟩ := hex
  exact ⟨R, hR, annotate_core o depth groups first last R hR⟩

/-- A segment covering only the last position is dropped. -/
theorem annotate_last_dropped (o : SortOracle) (depth : Nat) (R : List Annotation)
    (h : annotateSequence o depth [⟨0, [⟨7, 2, 2⟩]⟩] 0 2 = .ok R) :
    ¬ CoversAll [⟨0, [⟨7, 2, 2⟩]⟩] 0 2 R := by
  intro hc
  obtain ⟨_, _, h3⟩ := annotate_core o depth _ 0 2 R h
  have hne : annotationsAt [⟨0, [⟨7, 2, 2⟩]⟩] 2 ≠ ∅ := by decide
  have := (h3 (by decide) hne).1 (hc 2 (by decide) (by decide) hne)
  exact absurd this.2 (by decide)

theorem annotate_false : ¬ AnnotateStatement := by
  intro h
  obtain ⟨d, R, hR, _, hc⟩ := h idSort [⟨0, [⟨7, 2, 2⟩]⟩] 0 2 (by decide)
  exact annotate_last_dropped idSort d R hR hc

example : (∀ g ∈ [(⟨0, [⟨7, 1, 4⟩, ⟨8, 2, 3⟩]⟩ : Group), ⟨1, [⟨7, 3, 6⟩]⟩],
      (∀ s ∈ g.segments, s.first ≤ s.last) ∧
      (g.segments.map fun s => (s.first, s.last)).Nodup) ∧
    annotationsAt [⟨0, [⟨7, 1, 4⟩, ⟨8, 2, 3⟩]⟩, ⟨1, [⟨7, 3, 6⟩]⟩] 3 = {(0, [7, 8]), (1, [7])} := by
  refine ⟨by decide, ?_⟩
  simp [annotationsAt, kindsAt, List.mergeSort, List.MergeSort.Internal.splitInTwo, List.merge]

end Verif.RangeTree
