import Verif.Diff.Shifted

/-!
# Sequence differences (C07 – C11)
-/

namespace Verif.Diff

instance {α : Type} [DecidableEq α] : DecidableEq (Except Err α)
  | .ok a, .ok b => if h : a = b then isTrue (h ▸ rfl) else isFalse (fun h' => h (by cases h'; rfl))
  | .error a, .error b =>
    if h : a = b then isTrue (h ▸ rfl) else isFalse (fun h' => h (by cases h'; rfl))
  | .ok _, .error _ => isFalse (fun h => by cases h)
  | .error _, .ok _ => isFalse (fun h => by cases h)

/-! ## C07 -/

/-- **C07.** `myersDiff` returns normally with a script that uses no replacements, goes
through the source and the target completely and in order, and whose application to the
source gives the target. -/
theorem myers_valid {α : Type} [DecidableEq α] (a b : List α) :
    ∃ h, myersDiff a.length b.length (eqAt a b) = .ok h ∧
      Script a.length b.length (eqAt a b) h ∧ (∀ e ∈ h, e.kind ≠ .replace) ∧ apply a b h = b := by
  obtain ⟨e, h, h1, ⟨h2, -, h4⟩, -⟩ := myers_spec a.length b.length (eqAt a b)
  exact ⟨h, h1, h2, h4, h2.apply_eq⟩

/-- The same for an arbitrary comparison callback. -/
theorem myers_valid_cmp (n m : Nat) (cmp : Nat → Nat → Bool) :
    ∃ h, myersDiff n m cmp = .ok h ∧ Script n m cmp h ∧ ∀ e ∈ h, e.kind ≠ .replace := by
  obtain ⟨e, h, h1, ⟨h2, -, h4⟩, -⟩ := myers_spec n m cmp
  exact ⟨h, h1, h2, h4⟩

example : myersDiff 3 3 (eqAt [1, 2, 3] [1, 4, 3]) = .ok
    [⟨.keep, 0, 0⟩, ⟨.delete, 1, -1⟩, ⟨.insert, -1, 1⟩, ⟨.keep, 2, 2⟩] := by decide +kernel

example : apply [1, 2, 3] [1, 4, 3]
    [⟨.keep, 0, 0⟩, ⟨.delete, 1, -1⟩, ⟨.insert, -1, 1⟩, ⟨.keep, 2, 2⟩] = [1, 4, 3] := by decide +kernel

/-! ## C08 -/

/-- **C08.** No script without replacements has fewer insertions and deletions than the
one `myersDiff` returns. -/
theorem myers_minimal (n m : Nat) (cmp : Nat → Nat → Bool) (h : List Edit)
    (hh : myersDiff n m cmp = .ok h) (other : List Edit) (ho : Script n m cmp other)
    (hr : ∀ e ∈ other, e.kind ≠ .replace) : cost h ≤ cost other := by
  obtain ⟨e, h', h1, ⟨-, h3, -⟩, h5⟩ := myers_spec n m cmp
  rw [hh] at h1
  injection h1 with h1
  subst h1
  rw [h3]
  by_contra hlt
  exact h5 (cost other) (by omega) (ho.reach other hr (Nat.le_refl _) (Nat.le_refl _))

/-- A competing script for the example of C07: it is valid and costs more. -/
example : Script 3 3 (eqAt [1, 2, 3] [1, 4, 3])
    [⟨.delete, 0, -1⟩, ⟨.insert, -1, 0⟩, ⟨.delete, 1, -1⟩, ⟨.insert, -1, 1⟩, ⟨.keep, 2, 2⟩] :=
  ⟨by decide, by decide, by decide, by decide⟩

/-! ## C09 -/

/-- **C09.** `levenshteinDistance` returns normally; the returned operations turn the
source into the target, their number is the returned distance, and no script of
insertions, deletions and replacements has fewer. -/
theorem levenshtein_minimal {α : Type} [DecidableEq α] (a b : List α) :
    ∃ d ops, levenshteinDistance a.length b.length (eqAt a b) = .ok (d, ops) ∧
      Script a.length b.length (eqAt a b) ops ∧ apply a b ops = b ∧ (cost ops : Int) = d ∧
      ∀ other, Script a.length b.length (eqAt a b) other → d ≤ cost other := by
  obtain ⟨ops, h1, h2, h3⟩ := leven_spec a.length b.length (eqAt a b)
  refine ⟨_, ops, h1, h2, h2.apply_eq, by exact_mod_cast h3, ?_⟩
  intro other ho
  exact_mod_cast lev_le_cost other ho

/-- The same for an arbitrary comparison callback. -/
theorem levenshtein_minimal_cmp (n m : Nat) (cmp : Nat → Nat → Bool) :
    ∃ d ops, levenshteinDistance n m cmp = .ok (d, ops) ∧ Script n m cmp ops ∧ (cost ops : Int) = d ∧
      ∀ other, Script n m cmp other → d ≤ cost other := by
  obtain ⟨ops, h1, h2, h3⟩ := leven_spec n m cmp
  refine ⟨_, ops, h1, h2, by exact_mod_cast h3, ?_⟩
  intro other ho
  exact_mod_cast lev_le_cost other ho

example : levenshteinDistance 3 3 (eqAt [1, 2, 3] [1, 4, 3]) = .ok
    (1, [⟨.keep, 0, 0⟩, ⟨.replace, 1, 1⟩, ⟨.keep, 2, 2⟩]) := by decide +kernel

/-! ## C10 -/

/-- Full statement of C10: every alignment returned is a common subsequence of maximal
length. -/
def LcsMaximalStatement : Prop :=
  ∀ (a b : List Nat), ∃ res,
    longestCommonSubsequence a.length b.length (eqAt a b) (unitMetric (eqAt a b)) = .ok res ∧
    ∀ t ∈ res, ∃ ps, t.Describes ps ∧ Common a.length b.length (eqAt a b) ps ∧
      ∀ qs, Common a.length b.length (eqAt a b) qs → qs.length ≤ ps.length

/-- **C10 is false.** For `[1, 0]` and `[2, 0]` the result is the empty alignment
although the last elements match: the alignment found so far is thrown away when the
scan reaches a prefix without matches. -/
theorem lcs_maximal_false : ¬ LcsMaximalStatement := by
  intro h
  obtain ⟨res, h1, h2⟩ := h [1, 0] [2, 0]
  have hw : longestCommonSubsequence 2 2 (eqAt [1, 0] [2, 0]) (unitMetric (eqAt [1, 0] [2, 0])) = .ok [{}] := by
    decide +kernel
  simp only [List.length_cons, List.length_nil] at h1
  rw [hw] at h1
  injection h1 with h1
  obtain ⟨ps, h3, -, h5⟩ := h2 {} (by rw [← h1]; simp)
  have h6 : ps = [] := by
    have := h3.1
    simpa using this.symm
  have := h5 [(1, 1)] ⟨by decide, by decide, by decide⟩
  rw [h6] at this
  simp at this

/-- **C10, partial.** For any comparison callback and weights the call returns normally
with exactly one alignment, which is a common subsequence.  With the default weights the
alignment has maximal length whenever it is not empty.  Missing: maximality when the
result is empty, which is false. -/
theorem lcs_common_partial (n m : Nat) (cmp : Nat → Nat → Bool) (metric : Nat → Nat → Int) :
    ∃ t ps, longestCommonSubsequence n m cmp metric = .ok [t] ∧ t.Describes ps ∧ Common n m cmp ps ∧
      (metric = unitMetric cmp → ps ≠ [] → ∀ qs, Common n m cmp qs → qs.length ≤ ps.length) := by
  unfold longestCommonSubsequence
  by_cases h0 : n = 0 ∨ m = 0
  · rw [if_pos h0]
    exact ⟨{}, [], rfl, ⟨rfl, rfl⟩, ⟨by simp, by simp, by simp⟩, by simp⟩
  · rw [if_neg h0]
    obtain ⟨res, mem', h1, -, h3⟩ := backtrack_spec ⟨n, m, cmp, metric⟩ (n + m + 1) (n - 1) (m - 1) (fun _ _ => none)
      (by omega) (by dsimp only; omega) (by omega) (by dsimp only; omega) (by omega) (by intro i j v h; cases h)
    simp only [h1]
    rcases h3.sound with rfl | ⟨t, ps, rfl, hd, hne, hc, hl⟩
    · exact ⟨{}, [], rfl, ⟨rfl, rfl⟩, ⟨by simp, by simp, by simp⟩, by simp⟩
    · have e1 : ((n : Int) - 1 + 1).toNat = n := by omega
      have e2 : ((m : Int) - 1 + 1).toNat = m := by omega
      rw [e1, e2] at hc
      refine ⟨t, ps, rfl, hd, hc, ?_⟩
      intro hu _ qs hq
      have h5 := hl hu
      have h6 := common_le_score ⟨n, m, cmp, metric⟩ hu (n + m) n m rfl qs hq
      unfold LcsEnv.at at h5
      rw [e1, e2] at h5
      omega

/-- **C10, partial.** With the default weights, if the first elements of the two
sequences match the alignment has maximal length. -/
theorem lcs_maximal_partial (n m : Nat) (cmp : Nat → Nat → Bool) (hn : 0 < n) (hm : 0 < m)
    (h0 : cmp 0 0 = true) :
    ∃ t ps, longestCommonSubsequence n m cmp (unitMetric cmp) = .ok [t] ∧ t.Describes ps ∧
      Common n m cmp ps ∧ ∀ qs, Common n m cmp qs → qs.length ≤ ps.length := by
  obtain ⟨t, ps, h1, h2, h3, h4⟩ := lcs_common_partial n m cmp (unitMetric cmp)
  refine ⟨t, ps, h1, h2, h3, h4 rfl ?_⟩
  intro hnil
  subst hnil
  obtain ⟨res, mem', b1, -, b3⟩ := backtrack_spec ⟨n, m, cmp, unitMetric cmp⟩ (n + m + 1) (n - 1) (m - 1)
    (fun _ _ => none) (by omega) (by dsimp only; omega) (by omega) (by dsimp only; omega) (by omega) (by intro i j v h; cases h)
  have hne := b3.nonempty rfl h0
  unfold longestCommonSubsequence at h1
  rw [if_neg (by omega)] at h1
  simp only [b1] at h1
  rcases b3.sound with hr | ⟨t', ps, hr, hd, hp, -, -⟩
  · exact hne hr
  · rw [hr] at h1
    simp only [List.isEmpty_cons, Bool.false_eq_true, if_false] at h1
    injection h1 with h1
    injection h1 with h1 _
    subst h1
    have e := h2.1.symm.trans hd.1
    exact hp (by simpa using e.symm)

example : longestCommonSubsequence 4 4 (eqAt [1, 2, 3, 4] [1, 3, 2, 4]) (unitMetric (eqAt [1, 2, 3, 4] [1, 3, 2, 4]))
    = .ok [⟨[0, 1, 3], [0, 2, 3]⟩] := by decide +kernel

/-! ## C11 -/

/-- **C11, alignments.** Rows built from any alignment of two sequences: both columns
have the same length, each lists all lines of its side once and in order, the rows with a
kept line are exactly the aligned pairs, in order. -/
theorem shifted_alignment (track : Backtrack) (n m : Nat) (cmp : Nat → Nat → Bool) (ps : List (Nat × Nat))
    (hd : track.Describes ps) (hc : Common n m cmp ps) :
    ∃ s, shiftTrack track n m = .ok s ∧ s.oldShifted.length = s.newShifted.length ∧
      lines s.oldShifted = upTo n ∧ lines s.newShifted = upTo m ∧
      keepRows s = ps.map fun p => keepRow (p.1, p.2) := by
  obtain ⟨s, h1, h2⟩ := shiftTrack_spec track n m cmp ps hd hc
  exact ⟨s, h1, h2.len, h2.old, h2.new, h2.keeps⟩

example : shiftTrack ⟨[0, 2], [0, 1]⟩ 3 3 = .ok
    ⟨[⟨.keep, 0⟩, ⟨.delete, 1⟩, ⟨.keep, 2⟩, ⟨.none, 0⟩], [⟨.keep, 0⟩, ⟨.none, 0⟩, ⟨.keep, 1⟩, ⟨.insert, 2⟩]⟩ := by
  decide +kernel

/-- Full statement of C11 for edit scripts. -/
def ShiftedScriptStatement : Prop :=
  ∀ (n m : Nat) (cmp : Nat → Nat → Bool) (h : List Edit), Script n m cmp h →
    ∃ s, shiftEdits h = .ok s ∧ lines s.oldShifted = upTo n ∧ lines s.newShifted = upTo m

/-- **C11 is false for scripts with replacements** (which `levenshteinDistance` returns):
the replacing line of the target is not listed at all. -/
theorem shifted_script_false : ¬ ShiftedScriptStatement := by
  intro h
  obtain ⟨s, h1, -, h3⟩ := h 1 1 (fun _ _ => false) [⟨.replace, 0, 0⟩]
    ⟨by decide, by decide, by decide, by decide⟩
  have : shiftEdits [⟨.replace, 0, 0⟩] = .ok ⟨[⟨.replace, 0⟩], []⟩ := by decide +kernel
  rw [this] at h1
  injection h1 with h1
  rw [← h1] at h3
  exact absurd h3 (by decide)

/-- **C11, scripts, partial.** Rows built from a script without replacements: each column
lists all lines of its side once and in order; the kept lines of both columns are those
of the script, and each kept pair shares a row.  Missing: scripts with replacements, for
which it is false. -/
theorem shifted_script_partial (n m : Nat) (cmp : Nat → Nat → Bool) (h : List Edit) (hs : Script n m cmp h)
    (hr : ∀ e ∈ h, e.kind ≠ .replace) :
    ∃ s, shiftEdits h = .ok s ∧ lines s.oldShifted = upTo n ∧ lines s.newShifted = upTo m ∧
      kept s.oldShifted = (keepPairs h).map Prod.fst ∧ kept s.newShifted = (keepPairs h).map Prod.snd ∧
      keepRows s = (keepPairs h).map keepRow := by
  obtain ⟨s, h1, h2⟩ := shiftEdits_spec h (fun e he => by
    rcases hs.kinds e he with h | h | h | h
    · exact Or.inl h
    · exact Or.inr (Or.inl h)
    · exact Or.inr (Or.inr h)
    · exact absurd h (hr e he))
  exact ⟨s, h1, h2.old.trans hs.sources, h2.new.trans hs.targets, h2.oldKeep, h2.newKeep, h2.keeps⟩

/-- The rows of the script that `myersDiff` returns. -/
theorem shifted_myers (n m : Nat) (cmp : Nat → Nat → Bool) :
    ∃ h s, myersDiff n m cmp = .ok h ∧ shiftEdits h = .ok s ∧ lines s.oldShifted = upTo n ∧
      lines s.newShifted = upTo m ∧ keepRows s = (keepPairs h).map keepRow := by
  obtain ⟨h, h1, h2, h3⟩ := myers_valid_cmp n m cmp
  obtain ⟨s, h4, h5, h6, -, -, h9⟩ := shifted_script_partial n m cmp h h2 h3
  exact ⟨h, s, h1, h4, h5, h6, h9⟩

example : shiftEdits [⟨.keep, 0, 0⟩, ⟨.delete, 1, -1⟩, ⟨.keep, 2, 1⟩, ⟨.insert, -1, 2⟩] = .ok
    ⟨[⟨.keep, 0⟩, ⟨.delete, 1⟩, ⟨.keep, 2⟩], [⟨.keep, 0⟩, ⟨.none, 0⟩, ⟨.keep, 1⟩, ⟨.insert, 2⟩]⟩ := by decide +kernel

end Verif.Diff
