import Verif.Diff.LcsModel
import Mathlib.Data.List.Induction

/-!
# Proof about `longestCommonSubsequence`
-/

namespace Verif.Diff

/-- A common subsequence as pairs of positions: inside of both sequences, strictly
increasing on both sides, elements related by `cmp`. -/
structure Common (n m : Nat) (cmp : Nat → Nat → Bool) (ps : List (Nat × Nat)) : Prop where
  bounds : ∀ p ∈ ps, p.1 < n ∧ p.2 < m
  increasing : ps.Pairwise fun p q => p.1 < q.1 ∧ p.2 < q.2
  related : ∀ p ∈ ps, cmp p.1 p.2 = true

/-- A result describes the pairs `ps`. -/
def Backtrack.Describes (t : Backtrack) (ps : List (Nat × Nat)) : Prop :=
  t.lhsIndex = ps.map (fun p => (p.1 : Int)) ∧ t.rhsIndex = ps.map (fun p => (p.2 : Int))

/-- Score of the first `x` and the first `y` elements. -/
def LcsEnv.score (env : LcsEnv) : Nat → Nat → Int
  | 0, _ => 0
  | _ + 1, 0 => 0
  | x + 1, y + 1 =>
    if env.cmp x y then env.score x y + env.metric x y
    else max (env.score (x + 1) y) (env.score x (y + 1))

theorem score_zero_right (env : LcsEnv) (x : Nat) : env.score x 0 = 0 := by
  cases x <;> rw [LcsEnv.score]

theorem score_succ (env : LcsEnv) (x y : Nat) : env.score (x + 1) (y + 1) =
    if env.cmp x y then env.score x y + env.metric x y
    else max (env.score (x + 1) y) (env.score x (y + 1)) := by
  rw [LcsEnv.score]

/-- Score by index of the last elements, as in the code. -/
def LcsEnv.at (env : LcsEnv) (l r : Int) : Int := env.score (l + 1).toNat (r + 1).toNat

/-- Memo table invariant. -/
def MemInv (env : LcsEnv) (mem : Mem) : Prop :=
  ∀ i j v, mem i j = some v → -1 ≤ i ∧ -1 ≤ j ∧ v = env.at i j ∧
    (0 ≤ i → 0 ≤ j → env.cmp i.toNat j.toNat = false → mem i (j - 1) ≠ none ∧ mem (i - 1) j ≠ none)

/-- One table extends another. -/
def MemLe (a b : Mem) : Prop := ∀ i j, a i j ≠ none → b i j ≠ none

theorem MemInv.put {env : LcsEnv} {mem : Mem} (h : MemInv env mem) {l r : Int} (hl : -1 ≤ l) (hr : -1 ≤ r)
    (hc : 0 ≤ l → 0 ≤ r → env.cmp l.toNat r.toNat = false → mem l (r - 1) ≠ none ∧ mem (l - 1) r ≠ none) :
    MemInv env (mem.put l r (env.at l r)) ∧ MemLe mem (mem.put l r (env.at l r)) ∧
      mem.put l r (env.at l r) l r = some (env.at l r) := by
  have hle : MemLe mem (mem.put l r (env.at l r)) := by
    intro i j hij
    unfold Mem.put
    by_cases hc : i = l ∧ j = r
    · rw [if_pos hc]; simp
    · rw [if_neg hc]; exact hij
  refine ⟨?_, hle, by simp [Mem.put]⟩
  intro i j v hv
  by_cases hij : i = l ∧ j = r
  · obtain ⟨rfl, rfl⟩ := hij
    have : v = env.at i j := by simpa [Mem.put] using hv.symm
    exact ⟨hl, hr, this, fun h1 h2 h3 => ⟨hle _ _ (hc h1 h2 h3).1, hle _ _ (hc h1 h2 h3).2⟩⟩
  · unfold Mem.put at hv
    rw [if_neg hij] at hv
    obtain ⟨a, b, c, d⟩ := h i j v hv
    exact ⟨a, b, c, fun h1 h2 h3 => ⟨hle _ _ (d h1 h2 h3).1, hle _ _ (d h1 h2 h3).2⟩⟩

theorem lcs_spec (env : LcsEnv) : ∀ (fuel : Nat) (l r : Int) (mem : Mem), -1 ≤ l → l < env.n → -1 ≤ r →
    r < env.m → l + r + 2 < fuel → MemInv env mem →
    ∃ mem', lcs env fuel l r mem = .ok (env.at l r, mem') ∧ MemInv env mem' ∧ MemLe mem mem' ∧
      mem' l r = some (env.at l r) := by
  intro fuel
  induction fuel with
  | zero => intro l r mem h1 h2 h3 h4 h5; omega
  | succ fuel ih =>
    intro l r mem h1 h2 h3 h4 h5 hinv
    unfold lcs
    cases hm : mem l r with
    | some v =>
      obtain ⟨-, -, hv, -⟩ := hinv l r v hm
      subst hv
      exact ⟨mem, rfl, hinv, fun _ _ h => h, hm⟩
    | none =>
      dsimp only
      by_cases hb : l = -1 ∨ r = -1
      · rw [if_pos hb]
        have hz : env.at l r = 0 := by
          unfold LcsEnv.at
          rcases hb with rfl | rfl
          · rw [show ((-1 : Int) + 1).toNat = 0 by omega, LcsEnv.score]
          · rw [show ((-1 : Int) + 1).toNat = 0 by omega, score_zero_right]
        obtain ⟨a, b, c⟩ := hinv.put (l := l) (r := r) h1 h3 (by omega)
        rw [hz] at a b c ⊢
        exact ⟨_, rfl, a, b, c⟩
      · rw [if_neg hb]
        have hl0 : 0 ≤ l := by omega
        have hr0 : 0 ≤ r := by omega
        have hcall : callCmp env.n env.m env.cmp l r = .ok (env.cmp l.toNat r.toNat) := by
          unfold callCmp; rw [if_pos (by omega)]
        have e1 : (l + 1).toNat = l.toNat + 1 := by omega
        have e2 : (r + 1).toNat = r.toNat + 1 := by omega
        have e3 : (l - 1 + 1).toNat = l.toNat := by omega
        have e4 : (r - 1 + 1).toNat = r.toNat := by omega
        simp only [hcall, bind, Except.bind]
        by_cases hc : env.cmp l.toNat r.toNat = true
        · rw [if_pos hc]
          obtain ⟨mem1, hx, hi, hle, -⟩ := ih (l - 1) (r - 1) mem (by omega) (by omega) (by omega) (by omega)
            (by omega) hinv
          have hv : env.at (l - 1) (r - 1) + env.metric l.toNat r.toNat = env.at l r := by
            unfold LcsEnv.at
            rw [e1, e2, e3, e4, score_succ, if_pos hc]
          simp only [hx, hv]
          obtain ⟨a, b, c⟩ := hi.put (l := l) (r := r) h1 h3 (by rw [hc]; simp)
          exact ⟨_, rfl, a, fun i j h => b i j (hle i j h), c⟩
        · rw [if_neg hc]
          obtain ⟨mem1, hx, hi, hle, hg1⟩ := ih l (r - 1) mem (by omega) (by omega) (by omega) (by omega)
            (by omega) hinv
          obtain ⟨mem2, hx2, hi2, hle2, hg2⟩ := ih (l - 1) r mem1 (by omega) (by omega) (by omega) (by omega)
            (by omega) hi
          have hv : max (env.at l (r - 1)) (env.at (l - 1) r) = env.at l r := by
            unfold LcsEnv.at
            rw [e1, e2, e3, e4, score_succ, if_neg hc]
          simp only [hx, hx2, hv]
          obtain ⟨a, b, c⟩ := hi2.put (l := l) (r := r) h1 h3
            (fun _ _ _ => ⟨hle2 _ _ (by rw [hg1]; simp), by rw [hg2]; simp⟩)
          exact ⟨_, rfl, a, fun i j h => b i j (hle2 i j (hle i j h)), c⟩

/-- The memoised call as used by the back-trace. -/
theorem env_lcs_spec (env : LcsEnv) {l r : Int} {mem : Mem} (h1 : -1 ≤ l) (h2 : l < env.n) (h3 : -1 ≤ r)
    (h4 : r < env.m) (hinv : MemInv env mem) :
    ∃ mem', env.lcs l r mem = .ok (env.at l r, mem') ∧ MemInv env mem' ∧ MemLe mem mem' ∧
      mem' l r = some (env.at l r) :=
  lcs_spec env _ l r mem h1 h2 h3 h4 (by omega) hinv

theorem at_row (env : LcsEnv) (r : Int) (hr : 0 ≤ r) (hc : env.cmp 0 r.toNat = false) :
    env.at 0 r = max (env.at 0 (r - 1)) 0 := by
  unfold LcsEnv.at
  rw [show (r + 1).toNat = r.toNat + 1 by omega, show (r - 1 + 1).toNat = r.toNat by omega,
    show ((0 : Int) + 1).toNat = 0 + 1 by omega, score_succ, if_neg (by simp [hc]),
    show env.score 0 (r.toNat + 1) = 0 by rw [LcsEnv.score]]

theorem at_col (env : LcsEnv) (l : Int) (hl : 0 ≤ l) (hc : env.cmp l.toNat 0 = false) :
    env.at l 0 = max 0 (env.at (l - 1) 0) := by
  unfold LcsEnv.at
  rw [show (l + 1).toNat = l.toNat + 1 by omega, show (l - 1 + 1).toNat = l.toNat by omega,
    show ((0 : Int) + 1).toNat = 0 + 1 by omega, score_succ, if_neg (by simp [hc]), score_zero_right]

/-- Walking left in row 0 ends at a matching element. -/
theorem walkRhs_spec (env : LcsEnv) (r : Int) (hn : 0 < env.n) (hr0 : 0 ≤ r) (hr : r < env.m)
    (hv : env.at 0 r ≠ 0) : ∀ (fuel : Nat) (res : Int) (mem : Mem), 0 ≤ res → res ≤ r → res < fuel →
    MemInv env mem → mem 0 res ≠ none → env.at 0 res = env.at 0 r →
    ∃ res' mem', walkRhs env 0 r fuel res mem = .ok (res', mem') ∧ 0 ≤ res' ∧ res' ≤ r ∧
      env.cmp 0 res'.toNat = true ∧ MemInv env mem' := by
  intro fuel
  induction fuel with
  | zero => intro res mem h1 h2 h3; omega
  | succ fuel ih =>
    intro res mem h1 h2 h3 hinv hin heq
    unfold walkRhs
    obtain ⟨v, hsome⟩ := Option.ne_none_iff_exists'.1 hin
    have hclose := (hinv 0 res v hsome).2.2.2 (Int.le_refl 0) h1
    cases hm : mem 0 (res - 1) with
    | none =>
      refine ⟨res, mem, rfl, h1, h2, ?_, hinv⟩
      cases hc : env.cmp 0 res.toNat with
      | true => rfl
      | false => exact absurd hm (hclose hc).1
    | some w =>
      obtain ⟨mem1, ha, hi1, hle1, -⟩ := env_lcs_spec env (l := 0) (r := res - 1) (by omega) (by omega) (by omega)
        (by omega) hinv
      obtain ⟨mem2, hb, hi2, hle2, -⟩ := env_lcs_spec env (l := 0) (r := r) (by omega) (by omega) (by omega)
        (by omega) hi1
      simp only [ha, hb, bind, Except.bind]
      by_cases hE : env.at 0 (res - 1) = env.at 0 r
      · rw [if_pos hE]
        have hpos : 0 ≤ res - 1 := by
          by_contra hneg
          have : res - 1 = -1 := by omega
          rw [this] at hE
          apply hv
          rw [← hE]
          unfold LcsEnv.at
          rw [show ((-1 : Int) + 1).toNat = 0 by omega, score_zero_right]
        exact ih (res - 1) mem2 hpos (by omega) (by omega) hi2
          (hle2 _ _ (hle1 _ _ (by rw [hm]; simp))) hE
      · rw [if_neg hE]
        refine ⟨res, mem2, rfl, h1, h2, ?_, hi2⟩
        cases hc : env.cmp 0 res.toNat with
        | true => rfl
        | false =>
          have := at_row env res h1 hc
          rw [heq] at this
          exfalso
          rcases Int.le_total (env.at 0 (res - 1)) 0 with h | h
          · rw [Int.max_eq_right h] at this; exact hv this
          · rw [Int.max_eq_left h] at this; exact hE this.symm

/-- The same in column 0. -/
theorem walkLhs_spec (env : LcsEnv) (l : Int) (hm' : 0 < env.m) (hl0 : 0 ≤ l) (hl : l < env.n)
    (hv : env.at l 0 ≠ 0) : ∀ (fuel : Nat) (res : Int) (mem : Mem), 0 ≤ res → res ≤ l → res < fuel →
    MemInv env mem → mem res 0 ≠ none → env.at res 0 = env.at l 0 →
    ∃ res' mem', walkLhs env l 0 fuel res mem = .ok (res', mem') ∧ 0 ≤ res' ∧ res' ≤ l ∧
      env.cmp res'.toNat 0 = true ∧ MemInv env mem' := by
  intro fuel
  induction fuel with
  | zero => intro res mem h1 h2 h3; omega
  | succ fuel ih =>
    intro res mem h1 h2 h3 hinv hin heq
    unfold walkLhs
    obtain ⟨v, hsome⟩ := Option.ne_none_iff_exists'.1 hin
    have hclose := (hinv res 0 v hsome).2.2.2 h1 (Int.le_refl 0)
    cases hm : mem (res - 1) 0 with
    | none =>
      refine ⟨res, mem, rfl, h1, h2, ?_, hinv⟩
      cases hc : env.cmp res.toNat 0 with
      | true => rfl
      | false => exact absurd hm (hclose hc).2
    | some w =>
      obtain ⟨mem1, ha, hi1, hle1, -⟩ := env_lcs_spec env (l := res - 1) (r := 0) (by omega) (by omega) (by omega)
        (by omega) hinv
      obtain ⟨mem2, hb, hi2, hle2, -⟩ := env_lcs_spec env (l := l) (r := 0) (by omega) (by omega) (by omega)
        (by omega) hi1
      simp only [ha, hb, bind, Except.bind]
      by_cases hE : env.at (res - 1) 0 = env.at l 0
      · rw [if_pos hE]
        have hpos : 0 ≤ res - 1 := by
          by_contra hneg
          have : res - 1 = -1 := by omega
          rw [this] at hE
          apply hv
          rw [← hE]
          unfold LcsEnv.at
          rw [show ((-1 : Int) + 1).toNat = 0 by omega, LcsEnv.score]
        exact ih (res - 1) mem2 hpos (by omega) (by omega) hi2
          (hle2 _ _ (hle1 _ _ (by rw [hm]; simp))) hE
      · rw [if_neg hE]
        refine ⟨res, mem2, rfl, h1, h2, ?_, hi2⟩
        cases hc : env.cmp res.toNat 0 with
        | true => rfl
        | false =>
          have := at_col env res h1 hc
          rw [heq] at this
          exfalso
          rcases Int.le_total (env.at (res - 1) 0) 0 with h | h
          · rw [Int.max_eq_left h] at this; exact hv this
          · rw [Int.max_eq_right h] at this; exact hE this.symm

/-- With the unit metric scores are bounded by, and grow with, the prefixes. -/
theorem score_nonneg (env : LcsEnv) (hu : env.metric = unitMetric env.cmp) :
    ∀ x y, 0 ≤ env.score x y := by
  intro x
  induction x with
  | zero => intro y; rw [LcsEnv.score]; exact Int.le_refl 0
  | succ x ih =>
    intro y
    induction y with
    | zero => rw [score_zero_right]; exact Int.le_refl 0
    | succ y ihy =>
      rw [score_succ]
      split
      · rename_i hc
        rw [hu]
        simp only [unitMetric, hc]
        have := ih y
        simp; omega
      · have := ih (y + 1)
        omega

/-- Every common subsequence is at most as long as the score. -/
theorem common_le_score (env : LcsEnv) (hu : env.metric = unitMetric env.cmp) :
    ∀ (k x y : Nat), x + y = k → ∀ ps, Common x y env.cmp ps → (ps.length : Int) ≤ env.score x y := by
  intro k
  induction k using Nat.strongRecOn with
  | ind k ih =>
    intro x y hk ps hps
    induction ps using List.reverseRecOn with
    | nil => exact score_nonneg env hu x y
    | append_singleton ps p _ =>
      have hb := hps.bounds p (by simp)
      obtain ⟨x, rfl⟩ : ∃ x', x = x' + 1 := ⟨x - 1, by omega⟩
      obtain ⟨y, rfl⟩ : ∃ y', y = y' + 1 := ⟨y - 1, by omega⟩
      have hlast : ∀ q ∈ ps, q.1 < p.1 ∧ q.2 < p.2 := by
        intro q hq
        exact (List.pairwise_append.1 hps.increasing).2.2 q hq p (by simp)
      rw [score_succ]
      split
      · rename_i hc
        have : Common x y env.cmp ps := by
          refine ⟨fun q hq => ?_, (List.pairwise_append.1 hps.increasing).1, fun q hq => hps.related q (by simp [hq])⟩
          have := hlast q hq
          omega
        have := ih (x + y) (by omega) x y rfl ps this
        rw [hu]
        simp only [unitMetric, hc, List.length_append, List.length_singleton]
        simp; omega
      · rename_i hc
        have hne : ¬ (p.1 = x ∧ p.2 = y) := by
          intro h
          apply hc
          have := hps.related p (by simp)
          rw [h.1, h.2] at this
          exact this
        have hall : ∀ q ∈ ps ++ [p], q.1 ≤ p.1 ∧ q.2 ≤ p.2 := by
          intro q hq
          rcases List.mem_append.1 hq with h | h
          · have := hlast q h; omega
          · simp only [List.mem_singleton] at h; subst h; omega
        by_cases hx : p.1 = x
        · have : Common (x + 1) y env.cmp (ps ++ [p]) := by
            refine ⟨fun q hq => ?_, hps.increasing, hps.related⟩
            have := hall q hq
            have := hps.bounds q hq
            omega
          have := ih (x + 1 + y) (by omega) (x + 1) y rfl _ this
          omega
        · have : Common x (y + 1) env.cmp (ps ++ [p]) := by
            refine ⟨fun q hq => ?_, hps.increasing, hps.related⟩
            have := hall q hq
            have := hps.bounds q hq
            omega
          have := ih (x + (y + 1)) (by omega) x (y + 1) rfl _ this
          omega

/-- If the first elements match every score is positive. -/
theorem score_pos (env : LcsEnv) (hu : env.metric = unitMetric env.cmp) (h0 : env.cmp 0 0 = true) (x y : Nat) :
    1 ≤ env.score (x + 1) (y + 1) := by
  have := common_le_score env hu _ (x + 1) (y + 1) rfl [(0, 0)]
    ⟨by simp, by simp, by simpa using h0⟩
  simpa using this

theorem unit_of_cmp (env : LcsEnv) (hu : env.metric = unitMetric env.cmp) {x y : Nat} (hc : env.cmp x y = true) :
    env.metric x y = 1 := by
  rw [hu]; simp [unitMetric, hc]

/-- In row 0 the score is at most one. -/
theorem at_row_le (env : LcsEnv) (hu : env.metric = unitMetric env.cmp) (y : Nat) : env.score 1 y ≤ 1 := by
  induction y with
  | zero => rw [score_zero_right]; omega
  | succ y ih =>
    rw [score_succ]
    split
    · rename_i hc
      rw [unit_of_cmp env hu hc, LcsEnv.score]; omega
    · rw [show env.score 0 (y + 1) = 0 by rw [LcsEnv.score], Nat.zero_add]; omega

theorem at_col_le (env : LcsEnv) (hu : env.metric = unitMetric env.cmp) (x : Nat) : env.score x 1 ≤ 1 := by
  induction x with
  | zero => rw [LcsEnv.score]; omega
  | succ x ih =>
    rw [score_succ]
    split
    · rename_i hc
      rw [unit_of_cmp env hu hc, score_zero_right]; omega
    · rw [score_zero_right, Nat.zero_add]; omega

/-- What the back-trace returns. -/
structure TraceOk (env : LcsEnv) (l r : Int) (res : List Backtrack) : Prop where
  sound : res = [] ∨ ∃ t ps, res = [t] ∧ t.Describes ps ∧ ps ≠ [] ∧
    Common (l + 1).toNat (r + 1).toNat env.cmp ps ∧
    (env.metric = unitMetric env.cmp → (ps.length : Int) = env.at l r)
  nonempty : env.metric = unitMetric env.cmp → env.cmp 0 0 = true → res ≠ []
  zero : env.at l r = 0 → res = []

theorem backtrack_spec (env : LcsEnv) : ∀ (fuel : Nat) (l r : Int) (mem : Mem), 0 ≤ l → l < env.n → 0 ≤ r →
    r < env.m → l + r < fuel → MemInv env mem →
    ∃ res mem', backtrack env fuel l r mem = .ok (res, mem') ∧ MemInv env mem' ∧ TraceOk env l r res := by
  intro fuel
  induction fuel with
  | zero => intro l r mem h1 h2 h3 h4 h5; omega
  | succ fuel ih =>
    intro l r mem h1 h2 h3 h4 h5 hinv
    obtain ⟨mem1, hx, hi, hle, hin⟩ := env_lcs_spec env (by omega : -1 ≤ l) h2 (by omega : -1 ≤ r) h4 hinv
    unfold backtrack
    simp only [hx]
    have el : (l + 1).toNat = l.toNat + 1 := by omega
    have er : (r + 1).toNat = r.toNat + 1 := by omega
    by_cases hz : env.at l r = 0
    · rw [if_pos hz]
      refine ⟨[], mem1, rfl, hi, ⟨Or.inl rfl, ?_, fun _ => rfl⟩⟩
      intro hu h0 _
      have := score_pos env hu h0 l.toNat r.toNat
      unfold LcsEnv.at at hz
      rw [el, er] at hz
      omega
    · rw [if_neg hz]
      have hpos : env.metric = unitMetric env.cmp → 1 ≤ env.at l r := by
        intro hu
        have := score_nonneg env hu (l + 1).toNat (r + 1).toNat
        unfold LcsEnv.at at hz ⊢
        omega
      by_cases hl0 : l = 0
      · rw [if_pos hl0]
        subst hl0
        obtain ⟨res, mem2, hw, hr0, hrr, hc, hi2⟩ := walkRhs_spec env r (by omega) h3 h4 hz
          (env.n + env.m + 1) r mem1 h3 (by omega) (by omega) hi (by rw [hin]; simp) rfl
        simp only [hw]
        refine ⟨_, mem2, rfl, hi2, ⟨Or.inr ⟨_, [(0, res.toNat)], rfl, ?_, by simp, ?_, ?_⟩, by simp, fun h => absurd h hz⟩⟩
        · simp [Backtrack.Describes]; omega
        · exact ⟨by simp; omega, by simp, by simpa using hc⟩
        · intro hu
          have h1 := hpos hu
          have h2 := at_row_le env hu (r + 1).toNat
          have h3 : env.at 0 r ≤ 1 := h2
          simp only [List.length_singleton]
          omega
      · rw [if_neg hl0]
        by_cases hr0 : r = 0
        · rw [if_pos hr0]
          subst hr0
          obtain ⟨res, mem2, hw, hr0, hrr, hc, hi2⟩ := walkLhs_spec env l (by omega) h1 h2 hz
            (env.n + env.m + 1) l mem1 h1 (by omega) (by omega) hi (by rw [hin]; simp) rfl
          simp only [hw]
          refine ⟨_, mem2, rfl, hi2, ⟨Or.inr ⟨_, [(res.toNat, 0)], rfl, ?_, by simp, ?_, ?_⟩, by simp, fun h => absurd h hz⟩⟩
          · simp [Backtrack.Describes]; omega
          · exact ⟨by simp; omega, by simp, by simpa using hc⟩
          · intro hu
            have h1 := hpos hu
            have h2 := at_col_le env hu (l + 1).toNat
            have h3 : env.at l 0 ≤ 1 := h2
            simp only [List.length_singleton]
            omega
        · rw [if_neg hr0]
          have hcall : callCmp env.n env.m env.cmp l r = .ok (env.cmp l.toNat r.toNat) := by
            unfold callCmp; rw [if_pos (by omega)]
          have e3 : (l - 1 + 1).toNat = l.toNat := by omega
          have e4 : (r - 1 + 1).toNat = r.toNat := by omega
          cases hc : env.cmp l.toNat r.toNat with
          | true =>
            have hat : env.at l r = env.at (l - 1) (r - 1) + env.metric l.toNat r.toNat := by
              unfold LcsEnv.at
              rw [el, er, e3, e4, score_succ, if_pos hc]
            obtain ⟨res, mem2, hb, hi2, hok⟩ := ih (l - 1) (r - 1) mem1 (by omega) (by omega) (by omega) (by omega)
              (by omega) hi
            simp only [hcall, hc, hb]
            refine ⟨_, mem2, rfl, hi2, ⟨?_, ?_, fun h => absurd h hz⟩⟩
            · rcases hok.sound with rfl | ⟨t, ps, rfl, hd, hne, hcom, hlen⟩
              · exact Or.inl rfl
              · rw [e3, e4] at hcom
                refine Or.inr ⟨_, ps ++ [(l.toNat, r.toNat)], rfl, ?_, by simp, ?_, ?_⟩
                · have a : ((l.toNat : Nat) : Int) = l := by omega
                  have b : ((r.toNat : Nat) : Int) = r := by omega
                  simp [Backtrack.Describes, hd.1, hd.2, a, b]
                · rw [el, er]
                  refine ⟨?_, ?_, ?_⟩
                  · intro p hp
                    rcases List.mem_append.1 hp with h | h
                    · have := hcom.bounds p h; omega
                    · simp only [List.mem_singleton] at h; subst h; simp
                  · rw [List.pairwise_append]
                    refine ⟨hcom.increasing, by simp, ?_⟩
                    intro a ha b hb
                    simp only [List.mem_singleton] at hb
                    subst hb
                    exact hcom.bounds a ha
                  · intro p hp
                    rcases List.mem_append.1 hp with h | h
                    · exact hcom.related p h
                    · simp only [List.mem_singleton] at h; subst h; exact hc
                · intro hu
                  rw [hat, unit_of_cmp env hu hc, ← hlen hu]
                  simp
            · intro hu h0 h
              exact hok.nonempty hu h0 (by simpa using h)
          | false =>
            have hat : env.at l r = max (env.at l (r - 1)) (env.at (l - 1) r) := by
              unfold LcsEnv.at
              rw [el, er, e3, e4, score_succ, if_neg (by simp [hc])]
            obtain ⟨mem2, ha, hia, -, -⟩ := env_lcs_spec env (l := l) (r := r - 1) (by omega) (by omega) (by omega)
              (by omega) hi
            obtain ⟨mem3, hb, hib, -, -⟩ := env_lcs_spec env (l := l - 1) (r := r) (by omega) (by omega) (by omega)
              (by omega) hia
            simp only [hcall, hc, ha, hb]
            by_cases hlt : env.at (l - 1) r < env.at l (r - 1)
            · rw [if_pos hlt]
              obtain ⟨res, mem4, hbt, hi4, hok⟩ := ih l (r - 1) mem3 (by omega) (by omega) (by omega) (by omega)
                (by omega) hib
              refine ⟨res, mem4, hbt, hi4, ⟨?_, hok.nonempty, fun h => absurd h hz⟩⟩
              rcases hok.sound with h | ⟨t, ps, hres, hd, hne, hcom, hlen⟩
              · exact Or.inl h
              · refine Or.inr ⟨t, ps, hres, hd, hne, ?_, fun hu => by rw [hlen hu, hat]; omega⟩
                refine ⟨fun p hp => ?_, hcom.increasing, hcom.related⟩
                have := hcom.bounds p hp
                omega
            · rw [if_neg hlt]
              obtain ⟨res, mem4, hbt, hi4, hok⟩ := ih (l - 1) r mem3 (by omega) (by omega) (by omega) (by omega)
                (by omega) hib
              refine ⟨res, mem4, hbt, hi4, ⟨?_, hok.nonempty, fun h => absurd h hz⟩⟩
              rcases hok.sound with h | ⟨t, ps, hres, hd, hne, hcom, hlen⟩
              · exact Or.inl h
              · refine Or.inr ⟨t, ps, hres, hd, hne, ?_, fun hu => by rw [hlen hu, hat]; omega⟩
                refine ⟨fun p hp => ?_, hcom.increasing, hcom.related⟩
                have := hcom.bounds p hp
                omega

end Verif.Diff
