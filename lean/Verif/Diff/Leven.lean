import Verif.Diff.Myers

/-!
# Proof about `levenshteinDistance`
-/

namespace Verif.Diff

/-- The distance of the first `x` source and the first `y` target elements. -/
def lev (eq : Nat → Nat → Bool) : Nat → Nat → Nat
  | 0, y => y
  | x + 1, 0 => x + 1
  | x + 1, y + 1 =>
    if eq x y then lev eq x y
    else min (min (lev eq x (y + 1)) (lev eq (x + 1) y)) (lev eq x y) + 1

variable {eq : Nat → Nat → Bool}

theorem lev_zero_right (x : Nat) : lev eq x 0 = x := by
  cases x <;> simp [lev]

theorem lev_succ (x y : Nat) : lev eq (x + 1) (y + 1) = if eq x y then lev eq x y
    else min (min (lev eq x (y + 1)) (lev eq (x + 1) y)) (lev eq x y) + 1 := by
  rw [lev]

/-- Neighbouring entries differ by at most one. -/
theorem lev_lipschitz (k : Nat) : ∀ x y, x + y ≤ k →
    lev eq (x + 1) y ≤ lev eq x y + 1 ∧ lev eq x (y + 1) ≤ lev eq x y + 1 ∧
    lev eq x y ≤ lev eq (x + 1) y + 1 ∧ lev eq x y ≤ lev eq x (y + 1) + 1 := by
  induction k with
  | zero =>
    intro x y h
    have hx : x = 0 := by omega
    have hy : y = 0 := by omega
    subst hx hy
    simp [lev]
  | succ k ih =>
    intro x y h
    refine ⟨?_, ?_, ?_, ?_⟩
    · cases y with
      | zero => simp [lev_zero_right]
      | succ y =>
        have := ih x y (by omega)
        rw [lev_succ]
        split <;> omega
    · cases x with
      | zero => simp [lev]
      | succ x =>
        have := ih x y (by omega)
        rw [lev_succ]
        split <;> omega
    · cases y with
      | zero => simp [lev_zero_right]; omega
      | succ y =>
        have := ih x y (by omega)
        rw [lev_succ]
        split <;> omega
    · cases x with
      | zero => simp [lev]; omega
      | succ x =>
        have := ih x y (by omega)
        rw [lev_succ]
        split <;> omega

theorem lev_right (x y : Nat) : lev eq (x + 1) y ≤ lev eq x y + 1 := (lev_lipschitz _ x y (Nat.le_refl _)).1
theorem lev_down (x y : Nat) : lev eq x (y + 1) ≤ lev eq x y + 1 := (lev_lipschitz _ x y (Nat.le_refl _)).2.1
theorem lev_diag (x y : Nat) : lev eq (x + 1) (y + 1) ≤ lev eq x y + 1 := by
  rw [lev_succ]
  split <;> omega

/-- No script is cheaper than the distance. -/
theorem lev_le_cost (h : List Edit) : ∀ {x y : Nat}, Script x y eq h → lev eq x y ≤ cost h := by
  induction h using List.reverseRecOn with
  | nil =>
    intro x y hs
    have h1 := hs.sources
    have h2 := hs.targets
    have z : ∀ k, ([] : List Int) = upTo k → k = 0 := by
      intro k hk
      have := congrArg List.length hk
      simpa [upTo] using this.symm
    rw [List.filterMap_nil] at h1 h2
    rw [z _ h1, z _ h2]
    simp [lev]
  | append_singleton h e ih =>
    intro x y hs
    rw [cost_snoc]
    rcases hs.snoc_inv with ⟨hk, x', rfl, hs'⟩ | ⟨hk, y', rfl, hs'⟩ | ⟨hk, x', y', rfl, rfl, hs'⟩ |
      ⟨hk, x', y', rfl, rfl, hc, hs'⟩
    · have := lev_right (eq := eq) x' y
      have := ih hs'
      simp [hk]; omega
    · have := lev_down (eq := eq) x y'
      have := ih hs'
      simp [hk]; omega
    · have := lev_diag (eq := eq) x' y'
      have := ih hs'
      simp [hk]; omega
    · have := ih hs'
      rw [lev_succ, if_pos hc]
      simp [hk]; omega

/-- The predecessor cell the code records. -/
def levPrev (eq : Nat → Nat → Bool) : Nat → Nat → Int × Int
  | 0, y => (0, y - 1)
  | x + 1, 0 => (x, 0)
  | x + 1, y + 1 =>
    if eq x y then (x, y)
    else if lev eq x (y + 1) = min (min (lev eq x (y + 1)) (lev eq (x + 1) y)) (lev eq x y) then (x, y + 1)
    else if lev eq (x + 1) y = min (min (lev eq x (y + 1)) (lev eq (x + 1) y)) (lev eq x y) then (x + 1, y)
    else (x, y)

/-- The cell `(i, j)` of both matrices is right. -/
def CellOk (eq : Nat → Nat → Bool) (t : Tables) (i j : Nat) : Prop :=
  t.table.val i j = lev eq i j ∧ t.paths.val i j = levPrev eq i j

/-- Both matrices have `(n+1) × (m+1)` entries. -/
def Dims (n m : Nat) (t : Tables) : Prop :=
  t.table.rows = n + 1 ∧ t.table.cols = m + 1 ∧ t.paths.rows = n + 1 ∧ t.paths.cols = m + 1

theorem put_spec {n m : Nat} {t : Tables} (hd : Dims n m t) {i j : Nat} (hi : i ≤ n) (hj : j ≤ m) (v : Int)
    (p : Int × Int) :
    ∃ t', t.put i j v p = .ok t' ∧ Dims n m t' ∧ t'.table.val i j = v ∧ t'.paths.val i j = p ∧
      ∀ a b, ¬ (a = i ∧ b = j) → t'.table.val a b = t.table.val a b ∧ t'.paths.val a b = t.paths.val a b := by
  obtain ⟨h1, h2, h3, h4⟩ := hd
  unfold Tables.put Grid.set
  rw [if_pos (by omega), if_pos (by omega)]
  refine ⟨_, rfl, ⟨h1, h2, h3, h4⟩, ?_, ?_, ?_⟩
  · simp
  · simp
  · intro a b hab
    simp [hab]

theorem get_spec {α : Type} {g : Grid α} {n m : Nat} (h1 : g.rows = n + 1) (h2 : g.cols = m + 1) {i j : Nat}
    (hi : i ≤ n) (hj : j ≤ m) : g.get i j = .ok (g.val i j) := by
  unfold Grid.get
  rw [if_pos (by omega)]
  simp

/-- A loop with an invariant on the number of rounds done. -/
theorem forEach_range {σ : Type} (f : σ → Nat → Except Err σ) (P : Nat → σ → Prop) (c : Nat) (s : σ)
    (h0 : P 0 s) (hstep : ∀ i s, i < c → P i s → ∃ s', f s i = .ok s' ∧ P (i + 1) s') :
    ∃ s', forEach f (List.range c) s = .ok s' ∧ P c s' := by
  have key : ∀ (k i : Nat) (s : σ), i + k = c → P i s →
      ∃ s', forEach f (List.range' i k) s = .ok s' ∧ P c s' := by
    intro k
    induction k with
    | zero =>
      intro i s hi hp
      have : i = c := by omega
      subst this
      exact ⟨s, rfl, hp⟩
    | succ k ih =>
      intro i s hi hp
      obtain ⟨s', h1, h2⟩ := hstep i s (by omega) hp
      obtain ⟨s'', h3, h4⟩ := ih (i + 1) s' (by omega) h2
      refine ⟨s'', ?_, h4⟩
      rw [List.range'_succ]
      simp only [forEach, h1, bind, Except.bind]
      exact h3
  rw [List.range_eq_range']
  exact key c 0 s (by omega) h0

theorem levCell_spec {n m : Nat} {t : Tables} (hd : Dims n m t) {l r : Nat} (hl : l < n) (hr : r < m)
    (h1 : CellOk eq t l r) (h2 : CellOk eq t l (r + 1)) (h3 : CellOk eq t (l + 1) r) :
    ∃ t', levCell n m eq t ((l : Int) + 1) ((r : Int) + 1) = .ok t' ∧ Dims n m t' ∧
      CellOk eq t' (l + 1) (r + 1) ∧
      ∀ a b, ¬ (a = l + 1 ∧ b = r + 1) → CellOk eq t a b → CellOk eq t' a b := by
  have hput : ∀ (v : Int) (p : Int × Int), v = lev eq (l + 1) (r + 1) → p = levPrev eq (l + 1) (r + 1) →
      ∃ t', t.put ((l : Int) + 1) ((r : Int) + 1) v p = .ok t' ∧ Dims n m t' ∧ CellOk eq t' (l + 1) (r + 1) ∧
      ∀ a b, ¬ (a = l + 1 ∧ b = r + 1) → CellOk eq t a b → CellOk eq t' a b := by
    intro v p hv hp
    obtain ⟨t', e1, e2, e3, e4, e5⟩ := put_spec hd (show l + 1 ≤ n by omega) (show r + 1 ≤ m by omega) v p
    refine ⟨t', e1, e2, ⟨by rw [e3, hv], by rw [e4, hp]⟩, ?_⟩
    intro a b hab hok
    exact ⟨by rw [(e5 a b hab).1]; exact hok.1, by rw [(e5 a b hab).2]; exact hok.2⟩
  have g1 : t.table.get ((l : Int) + 1 - 1) ((r : Int) + 1 - 1) = .ok (lev eq l r : Int) := by
    rw [show (l : Int) + 1 - 1 = l by omega, show (r : Int) + 1 - 1 = r by omega,
      get_spec hd.1 hd.2.1 (by omega) (by omega), h1.1]
  have g2 : t.table.get ((l : Int) + 1 - 1) ((r : Int) + 1) = .ok (lev eq l (r + 1) : Int) := by
    rw [show (l : Int) + 1 - 1 = l by omega, ← h2.1]
    exact get_spec hd.1 hd.2.1 (i := l) (j := r + 1) (by omega) (by omega)
  have g3 : t.table.get ((l : Int) + 1) ((r : Int) + 1 - 1) = .ok (lev eq (l + 1) r : Int) := by
    rw [show (r : Int) + 1 - 1 = r by omega, ← h3.1]
    exact get_spec hd.1 hd.2.1 (i := l + 1) (j := r) (by omega) (by omega)
  have hc : callCmp n m eq ((l : Int) + 1 - 1) ((r : Int) + 1 - 1) = .ok (eq l r) := by
    rw [show (l : Int) + 1 - 1 = l by omega, show (r : Int) + 1 - 1 = r by omega]
    unfold callCmp
    rw [if_pos (by omega)]
    simp
  unfold levCell
  simp only [hc, bind, Except.bind]
  by_cases he : eq l r = true
  · rw [if_pos he]
    simp only [g1]
    apply hput
    · rw [lev_succ, if_pos he]
    · rw [levPrev, if_pos he]
      simp
  · rw [if_neg he]
    simp only [g1, g2, g3]
    have hmin : ∀ a b c : Nat, min (min (a : Int) b) c = ((min (min a b) c : Nat) : Int) := by
      intro a b c; omega
    rw [hmin]
    have hv : (((min (min (lev eq l (r + 1)) (lev eq (l + 1) r)) (lev eq l r) : Nat) : Int) + 1)
        = lev eq (l + 1) (r + 1) := by
      rw [lev_succ, if_neg he]; omega
    by_cases hu : lev eq l (r + 1) = min (min (lev eq l (r + 1)) (lev eq (l + 1) r)) (lev eq l r)
    · rw [if_pos (by exact_mod_cast hu)]
      apply hput _ _ hv
      rw [levPrev, if_neg he, if_pos hu]
      simp
    · rw [if_neg (by exact_mod_cast hu)]
      by_cases hlf : lev eq (l + 1) r = min (min (lev eq l (r + 1)) (lev eq (l + 1) r)) (lev eq l r)
      · rw [if_pos (by exact_mod_cast hlf)]
        apply hput _ _ hv
        rw [levPrev, if_neg he, if_neg hu, if_pos hlf]
        simp
      · rw [if_neg (by exact_mod_cast hlf)]
        apply hput _ _ hv
        rw [levPrev, if_neg he, if_neg hu, if_neg hlf]
        simp

/-- Filling the matrices. -/
theorem levFill_spec (n m : Nat) (eq : Nat → Nat → Bool) :
    ∃ t, levFill n m eq = .ok t ∧ Dims n m t ∧ ∀ i j, i ≤ n → j ≤ m → CellOk eq t i j := by
  unfold levFill
  obtain ⟨t1, e1, d1, c1⟩ := forEach_range levColumn
    (fun k t => Dims n m t ∧ ∀ i, i < k → t.table.val i 0 = i ∧ t.paths.val i 0 = ((i : Int) - 1, 0))
    (n + 1) ⟨⟨n + 1, m + 1, fun _ _ => 0⟩, ⟨n + 1, m + 1, fun _ _ => (0, 0)⟩⟩
    ⟨⟨rfl, rfl, rfl, rfl⟩, by omega⟩
    (by
      intro i s hi ⟨hd, hc⟩
      obtain ⟨t', a1, a2, a3, a4, a5⟩ := put_spec hd (show i ≤ n by omega) (show 0 ≤ m by omega) (i : Int) ((i : Int) - 1, 0)
      refine ⟨t', a1, a2, ?_⟩
      intro j hj
      by_cases hji : j = i
      · subst hji; exact ⟨a3, a4⟩
      · rw [(a5 j 0 (by omega)).1, (a5 j 0 (by omega)).2]
        exact hc j (by omega))
  obtain ⟨t2, e2, d2, c2, c3⟩ := forEach_range levRow
    (fun k t => Dims n m t ∧ (∀ j, j < k → t.table.val 0 j = j ∧ t.paths.val 0 j = (0, (j : Int) - 1)) ∧
      ∀ i, 0 < i → i ≤ n → t.table.val i 0 = i ∧ t.paths.val i 0 = ((i : Int) - 1, 0))
    (m + 1) t1 ⟨d1, by omega, fun i _ hi => c1 i (by omega)⟩
    (by
      intro i s hi ⟨hd, hc, hc'⟩
      obtain ⟨t', a1, a2, a3, a4, a5⟩ := put_spec hd (show 0 ≤ n by omega) (show i ≤ m by omega) (i : Int) (0, (i : Int) - 1)
      refine ⟨t', a1, a2, ?_, ?_⟩
      · intro j hj
        by_cases hji : j = i
        · subst hji; exact ⟨a3, a4⟩
        · rw [(a5 0 j (by omega)).1, (a5 0 j (by omega)).2]
          exact hc j (by omega)
      · intro j hj hjn
        rw [(a5 j 0 (by omega)).1, (a5 j 0 (by omega)).2]
        exact hc' j hj hjn)
  have hrow : ∀ j, j ≤ m → CellOk eq t2 0 j := fun j hj => by
    obtain ⟨a, b⟩ := c2 j (by omega)
    exact ⟨by rw [a, lev], by rw [b, levPrev]⟩
  have hcol : ∀ i, 0 < i → i ≤ n → CellOk eq t2 i 0 := fun i h0 hi => by
    obtain ⟨a, b⟩ := c3 i h0 hi
    obtain ⟨i, rfl⟩ := Nat.exists_eq_add_of_lt h0
    exact ⟨by rw [a, lev_zero_right], by rw [b, show 0 + i + 1 = i + 1 by omega, levPrev]; simp⟩
  obtain ⟨t3, e3, d3, c4⟩ := forEach_range
    (fun t (l : Nat) => forEach (fun t (r : Nat) => levCell n m eq t ((l : Int) + 1) ((r : Int) + 1)) (List.range m) t)
    (fun k t => Dims n m t ∧ ∀ i j, i ≤ n → j ≤ m → (i ≤ k ∨ j = 0) → CellOk eq t i j)
    n t2 ⟨d2, by
      intro i j hi hj h
      by_cases h0 : i = 0
      · subst h0; exact hrow j hj
      · rcases h with h | h
        · omega
        · subst h; exact hcol i (by omega) hi⟩
    (by
      intro l s hl ⟨hd, hc⟩
      obtain ⟨s', f1, f2, f3⟩ := forEach_range
        (fun t (r : Nat) => levCell n m eq t ((l : Int) + 1) ((r : Int) + 1))
        (fun k t => Dims n m t ∧ ∀ i j, i ≤ n → j ≤ m → (i ≤ l ∨ j = 0 ∨ (i = l + 1 ∧ j ≤ k)) → CellOk eq t i j)
        m s ⟨hd, by
          intro i j hi hj h
          apply hc i j hi hj
          omega⟩
        (by
          intro r s hr ⟨hd, hc⟩
          obtain ⟨t', g1, g2, g3, g4⟩ := levCell_spec hd hl hr (hc l r (by omega) (by omega) (by omega))
            (hc l (r + 1) (by omega) (by omega) (by omega)) (hc (l + 1) r (by omega) (by omega) (by omega))
          refine ⟨t', g1, g2, ?_⟩
          intro i j hi hj h
          by_cases hij : i = l + 1 ∧ j = r + 1
          · obtain ⟨rfl, rfl⟩ := hij; exact g3
          · exact g4 i j hij (hc i j hi hj (by omega)))
      refine ⟨s', f1, f2, ?_⟩
      intro i j hi hj h
      exact f3 i j hi hj (by omega))
  refine ⟨t3, ?_, d3, fun i j hi hj => c4 i j hi hj (Or.inl hi)⟩
  simp only [bind, Except.bind, e1, e2]
  exact e3

/-- Operations of a path extended at its end. -/
theorem levOps_snoc (t : Tables) : ∀ (path : List (Int × Int)) (p c : Int × Int) (ops : List Edit) (op : Edit),
    path.getLast? = some p → levOps t path = .ok ops → levOp t p c = .ok op →
    levOps t (path ++ [c]) = .ok (ops ++ [op]) := by
  intro path
  induction path with
  | nil => intro p c ops op h; simp at h
  | cons a path ih =>
    intro p c ops op hl ho hop
    cases path with
    | nil =>
      simp only [List.getLast?_singleton, Option.some.injEq] at hl
      subst hl
      simp only [levOps] at ho
      cases ho
      simp [levOps, hop, bind, Except.bind]
    | cons b path =>
      simp only [levOps, bind, Except.bind] at ho
      split at ho
      · cases ho
      · rename_i o1 h1
        split at ho
        · cases ho
        · rename_i o2 h2
          cases ho
          have := ih p c o2 op (by simpa using hl) h2 hop
          simp only [List.cons_append, levOps, h1, bind, Except.bind]
          simp only [List.cons_append] at this
          rw [this]

/-- The back-trace from any cell, and the operations read off it. -/
theorem trace_spec {n m : Nat} {t : Tables} (hd : Dims n m t)
    (hok : ∀ i j, i ≤ n → j ≤ m → CellOk eq t i j) :
    ∀ (k l r : Nat), l + r = k → l ≤ n → r ≤ m → ∀ fuel, k + 1 ≤ fuel → ∀ acc,
      ∃ tr, levTrace t fuel l r acc = .ok (acc ++ tr, 0, -1) ∧ tr.head? = some ((l : Int), (r : Int)) ∧
        ∃ ops, levOps t tr.reverse = .ok ops ∧ Script l r eq ops ∧ cost ops = lev eq l r := by
  intro k
  induction k using Nat.strongRecOn with
  | ind k ih =>
    intro l r hk hl hr fuel hf acc
    obtain ⟨fuel, rfl⟩ : ∃ f, fuel = f + 1 := ⟨fuel - 1, by omega⟩
    have hpath : t.paths.get l r = .ok (levPrev eq l r) := by
      rw [get_spec hd.2.2.1 hd.2.2.2 hl hr, (hok l r hl hr).2]
    have hval : ∀ i j : Nat, i ≤ n → j ≤ m → t.table.get i j = .ok (lev eq i j : Int) := by
      intro i j hi hj
      rw [get_spec hd.1 hd.2.1 hi hj, (hok i j hi hj).1]
    -- one step back to a cell `(l', r')`, which records the edit `e`
    have step : ∀ (l' r' : Nat) (e : Edit), l' + r' < k → l' ≤ n → r' ≤ m →
        levPrev eq l r = ((l' : Int), (r' : Int)) →
        levOp t ((l' : Int), (r' : Int)) ((l : Int), (r : Int)) = .ok e →
        (∀ ops, Script l' r' eq ops → cost ops = lev eq l' r' →
          Script l r eq (ops ++ [e]) ∧ cost (ops ++ [e]) = lev eq l r) →
        ∃ tr, levTrace t (fuel + 1) l r acc = .ok (acc ++ tr, 0, -1) ∧
          tr.head? = some ((l : Int), (r : Int)) ∧
          ∃ ops, levOps t tr.reverse = .ok ops ∧ Script l r eq ops ∧ cost ops = lev eq l r := by
      intro l' r' e hlt hl' hr' hprev hop hext
      obtain ⟨tr, h1, h2, ops, h3, h4, h5⟩ := ih (l' + r') hlt l' r' rfl hl' hr' fuel (by omega)
        (acc ++ [((l : Int), (r : Int))])
      refine ⟨((l : Int), (r : Int)) :: tr, ?_, rfl, ops ++ [e], ?_, (hext ops h4 h5).1, (hext ops h4 h5).2⟩
      · unfold levTrace
        rw [if_pos (by omega)]
        simp only [hpath, hprev]
        rw [h1]
        simp
      · rw [List.reverse_cons]
        exact levOps_snoc t tr.reverse _ _ _ _ (by rw [List.getLast?_reverse, h2]) h3 hop
    cases l with
    | zero =>
      cases r with
      | zero =>
        refine ⟨[(0, 0)], ?_, rfl, [], rfl, .nil, by simp [cost, lev]⟩
        unfold levTrace
        rw [if_pos (by omega)]
        simp only [hpath]
        have : levPrev eq 0 0 = (0, -1) := by rw [levPrev]; simp
        rw [this]
        unfold levTrace
        rw [if_neg (by omega)]
        rfl
      | succ r =>
        refine step 0 r { kind := .insert, sourcePos := -1, targetPos := r } (by omega) (by omega) (by omega) ?_ ?_ ?_
        · rw [levPrev]; simp
        · simp [levOp, levKind, bind, Except.bind]
        · intro ops hs hc
          refine ⟨hs.insert (-1), ?_⟩
          rw [cost_snoc, hc]
          simp [lev]
    | succ l =>
      cases r with
      | zero =>
        refine step l 0 { kind := .delete, sourcePos := l, targetPos := -1 } (by omega) (by omega) (by omega) ?_ ?_ ?_
        · rw [levPrev]; simp
        · simp [levOp, levKind, bind, Except.bind]
        · intro ops hs hc
          refine ⟨hs.delete (-1), ?_⟩
          rw [cost_snoc, hc, lev_zero_right, lev_zero_right]
          simp
      | succ r =>
        have hs1 := lev_succ (eq := eq) l r
        by_cases he : eq l r = true
        · rw [if_pos he] at hs1
          refine step l r { kind := .keep, sourcePos := l, targetPos := r } (by omega) (by omega) (by omega) ?_ ?_ ?_
          · rw [levPrev, if_pos he]
          · have v1 := hval (l + 1) (r + 1) hl hr
            have v2 := hval l r (by omega) (by omega)
            rw [hs1] at v1
            simp only [levOp, levKind, bind, Except.bind]
            rw [if_pos (by omega), v1, v2]
            simp
          · intro ops hs hc
            refine ⟨hs.keep he, ?_⟩
            rw [cost_snoc, hc, hs1]
            simp
        · rw [if_neg he] at hs1
          by_cases hu : lev eq l (r + 1) = min (min (lev eq l (r + 1)) (lev eq (l + 1) r)) (lev eq l r)
          · refine step l (r + 1) { kind := .delete, sourcePos := l, targetPos := r } (by omega) (by omega) (by omega) ?_ ?_ ?_
            · rw [levPrev, if_neg he, if_pos hu]; simp
            · have hne : ¬ ((r : Int) = r + 1) := by omega
              simp [levOp, levKind, bind, Except.bind, hne]
            · intro ops hs hc
              refine ⟨hs.delete r, ?_⟩
              rw [cost_snoc, hc, hs1]
              simp; omega
          · by_cases hlf : lev eq (l + 1) r = min (min (lev eq l (r + 1)) (lev eq (l + 1) r)) (lev eq l r)
            · refine step (l + 1) r { kind := .insert, sourcePos := l, targetPos := r } (by omega) (by omega) (by omega) ?_ ?_ ?_
              · rw [levPrev, if_neg he, if_neg hu, if_pos hlf]; simp
              · have hne : ¬ ((l : Int) = l + 1) := by omega
                simp [levOp, levKind, bind, Except.bind, hne]
              · intro ops hs hc
                refine ⟨hs.insert l, ?_⟩
                rw [cost_snoc, hc, hs1]
                simp; omega
            · refine step l r { kind := .replace, sourcePos := l, targetPos := r } (by omega) (by omega) (by omega) ?_ ?_ ?_
              · rw [levPrev, if_neg he, if_neg hu, if_neg hlf]
              · have v1 := hval (l + 1) (r + 1) hl hr
                have v2 := hval l r (by omega) (by omega)
                simp only [levOp, levKind, bind, Except.bind]
                rw [if_pos (by omega), v1, v2]
                simp only
                rw [if_pos (by omega)]
                simp
              · intro ops hs hc
                refine ⟨hs.replace, ?_⟩
                rw [cost_snoc, hc, hs1]
                simp; omega

/-- `levenshteinDistance` returns the distance and a script of that cost. -/
theorem leven_spec (n m : Nat) (eq : Nat → Nat → Bool) :
    ∃ ops, levenshteinDistance n m eq = .ok ((lev eq n m : Int), ops) ∧ Script n m eq ops ∧
      cost ops = lev eq n m := by
  obtain ⟨t, ht, hd, hok⟩ := levFill_spec n m eq
  obtain ⟨tr, h1, h2, ops, h3, h4, h5⟩ := trace_spec hd hok (n + m) n m rfl (Nat.le_refl _) (Nat.le_refl _)
    (n + m + 2) (by omega) []
  refine ⟨ops, ?_, h4, h5⟩
  have houter : levTraceOuter t m (n + m + 2) (n + m + 2) n m [] = .ok tr := by
    unfold levTraceOuter
    rw [if_pos (by omega)]
    simp only [h1, List.nil_append]
    unfold levTraceOuter
    rw [if_neg (by omega)]
  unfold levenshteinDistance
  simp only [bind, Except.bind, ht, houter, h3]
  rw [List.getLast?_reverse, h2]
  simp only
  rw [get_spec hd.1 hd.2.1 (Nat.le_refl _) (Nat.le_refl _), (hok n m (Nat.le_refl _) (Nat.le_refl _)).1]

end Verif.Diff
