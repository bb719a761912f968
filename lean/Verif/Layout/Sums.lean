import Verif.Layout.Steps

/-!
# Sums of solutions return
-/

namespace Verif.Layout

/-- All solutions cover all margins, and the positions in them are right for the margin. -/
def Ready (o : Options Rat) (L : Int) (cs : List (Cursor Rat)) (m : Int) : Prop :=
  ∀ c ∈ cs, Covers o L c.1 none ∧ At c.1 c.2 m

theorem curs_ready {o : Options Rat} {L : Int} : ∀ {cs : List (Cursor Rat)} {m : Int}, Ready o L cs m →
    ∃ gs, curs cs = .ok gs ∧ gs.length = cs.length ∧
      ∀ m', m ≤ m' → (∀ c ∈ cs, Before c.1 c.2 none m') → ∀ g ∈ gs, Fit o L g m' := by
  intro cs
  induction cs with
  | nil => intro m _; exact ⟨[], rfl, rfl, by simp⟩
  | cons c cs ih =>
    intro m h
    obtain ⟨gs, hgs, hlen, hfit⟩ := ih (m := m) (fun c hc => h c (by simp [hc]))
    obtain ⟨hc, ha⟩ := h c (by simp)
    obtain ⟨g, hcur, hg, hk, -, -⟩ := ha.fit hc
    refine ⟨g :: gs, ?_, by simp [hlen], ?_⟩
    · obtain ⟨s, i⟩ := c
      simp only [curs, hcur, hgs, bind, Except.bind]
    · intro m' hm' hb x hx
      simp only [List.mem_cons] at hx
      rcases hx with rfl | hx
      · exact hc.fits _ _ hg m' (by omega) (hb c (by simp))
      · exact hfit m' hm' (fun c hc => hb c (by simp [hc])) x hx

theorem movesTo_ready {o : Options Rat} (ho : Sane o) {L : Int} {m m' : Int} (h0 : 0 ≤ m') (hi : m' < infty) :
    ∀ {cs : List (Cursor Rat)}, Ready o L cs m →
      ∃ cs', movesTo m' cs = .ok cs' ∧ Ready o L cs' m' ∧ cs'.length = cs.length := by
  intro cs
  induction cs with
  | nil => intro _; exact ⟨[], rfl, by intro c hc; simp at hc, rfl⟩
  | cons c cs ih =>
    intro h
    obtain ⟨cs', hcs, hr, hlen⟩ := ih (fun c hc => h c (by simp [hc]))
    obtain ⟨hc, ha⟩ := h c (by simp)
    obtain ⟨g, -, hg, -, -, -⟩ := ha.fit hc
    obtain ⟨s, i⟩ := c
    obtain ⟨j, hj, hat⟩ := moveTo_at ho hc h0 hi i g hg
    refine ⟨(s, j) :: cs', ?_, ?_, by simp [hlen]⟩
    · simp only [movesTo, hj, hcs, bind, Except.bind]
    · intro c hc'
      simp only [List.mem_cons] at hc'
      rcases hc' with rfl | hc'
      · exact ⟨hc, hat⟩
      · exact hr c hc'

theorem nextStep_spec (m : Int) : ∀ (ks : List Int) (d : Option Int), (∀ k ∈ ks, m < k) → (∀ x, d = some x → 0 < x) →
    (ks ≠ [] ∨ d ≠ none) →
    ∃ x, nextStep m ks d = some x ∧ 0 < x ∧ (∀ k ∈ ks, m + x ≤ k) ∧ (∀ y, d = some y → x ≤ y) ∧
      ((∃ k ∈ ks, m + x = k) ∨ d = some x) := by
  intro ks
  induction ks with
  | nil =>
    intro d _ hd hne
    cases d with
    | none => simp at hne
    | some y => exact ⟨y, rfl, hd y rfl, by simp, fun z hz => by cases hz; omega, Or.inr rfl⟩
  | cons k ks ih =>
    intro d hk hd hne
    have hkm := hk k (by simp)
    simp only [nextStep, if_pos hkm]
    cases d with
    | none =>
      obtain ⟨x, hx, hpos, hall, hle, hor⟩ := ih (some (k - m)) (fun k' h' => hk k' (by simp [h']))
        (fun y hy => by cases hy; omega) (Or.inr (by simp))
      refine ⟨x, hx, hpos, ?_, by simp, ?_⟩
      · intro k' hk'
        simp only [List.mem_cons] at hk'
        rcases hk' with rfl | hk'
        · have := hle _ rfl; omega
        · exact hall k' hk'
      · rcases hor with ⟨k', hk', e⟩ | e
        · exact Or.inl ⟨k', by simp [hk'], e⟩
        · cases e
          exact Or.inl ⟨k, by simp, by omega⟩
    | some y =>
      have hy := hd y rfl
      obtain ⟨x, hx, hpos, hall, hle, hor⟩ := ih (some (min y (k - m))) (fun k' h' => hk k' (by simp [h']))
        (fun z hz => by cases hz; omega) (Or.inr (by simp))
      have hxy := hle _ rfl
      refine ⟨x, hx, hpos, ?_, fun z hz => by cases hz; omega, ?_⟩
      · intro k' hk'
        simp only [List.mem_cons] at hk'
        rcases hk' with rfl | hk'
        · omega
        · exact hall k' hk'
      · rcases hor with ⟨k', hk', e⟩ | e
        · exact Or.inl ⟨k', by simp [hk'], e⟩
        · simp only [Option.some.injEq] at e
          rcases min_choice y (k - m) with h | h
          · exact Or.inr (by rw [← e, h])
          · exact Or.inl ⟨k, by simp, by omega⟩

/-- A sum of values, each of them at least the cost of the end of the line. -/
theorem sum_fit {o : Options Rat} (ho : Sane o) {L : Int} : ∀ (gs : List (Seg Rat)) (x y : Rat) (m m' : Int),
    (∀ g ∈ gs, Fit o L g m') →
    x + y * ((m' - m : Int) : Rat) ≤ gs.foldl (fun x g => exact.add x (valueAt exact g m)) x
        + gs.foldl (fun x g => exact.add x g.grad) y * ((m' - m : Int) : Rat) ∧
      y ≤ gs.foldl (fun x g => exact.add x g.grad) y := by
  intro gs
  induction gs with
  | nil => intro x y m m' _; simp
  | cons g gs ih =>
    intro x y m m' h
    simp only [List.foldl_cons]
    obtain ⟨a, b, -, -⟩ := h g (by simp)
    have h1 := base_nonneg ho m'
    have h2 := slope_nonneg ho m'
    obtain ⟨h3, h4⟩ := ih (exact.add x (valueAt exact g m)) (exact.add y g.grad) m m' (fun g hg => h g (by simp [hg]))
    rw [valueAt_exact] at a
    simp only [exact, valueAt] at *
    push_cast at *
    refine ⟨?_, by linarith⟩
    refine le_trans ?_ h3
    nlinarith

theorem sum_base {o : Options Rat} (ho : Sane o) {L : Int} {gs : List (Seg Rat)} {m m' : Int} (hne : gs ≠ [])
    (h : ∀ g ∈ gs, Fit o L g m') :
    base o m' ≤ gs.foldl (fun x g => exact.add x (valueAt exact g m)) (exact.ofInt 0)
        + gs.foldl (fun x g => exact.add x g.grad) (exact.ofInt 0) * ((m' - m : Int) : Rat) ∧
      slope o m' ≤ gs.foldl (fun x g => exact.add x g.grad) (exact.ofInt 0) := by
  cases gs with
  | nil => exact absurd rfl hne
  | cons g gs =>
    obtain ⟨a, b, -, -⟩ := h g (by simp)
    simp only [List.foldl_cons]
    obtain ⟨h3, h4⟩ := sum_fit ho gs (exact.add (exact.ofInt 0) (valueAt exact g m)) (exact.add (exact.ofInt 0) g.grad) m m'
      (fun g hg => h g (by simp [hg]))
    rw [valueAt_exact] at a
    refine ⟨le_trans ?_ h3, le_trans ?_ h4⟩
    · simp only [exact, valueAt]
      push_cast at *
      linarith
    · simp only [exact]
      push_cast
      linarith

theorem vSumLoop_returns {o : Options Rat} (ho : Sane o) {L : Int} :
    ∀ (fuel : Nat) (cs : List (Cursor Rat)) (res : Sol Rat) (m : Int), cs ≠ [] → Ready o L cs m → 0 ≤ m → m ≤ o.rightMargin →
      ((res = [] ∧ m = 0) ∨ Covers o L res (some m)) → (∀ l, res.getLast? = some l → l.knot < m) →
      o.rightMargin - m < fuel → ∃ r, vSumLoop exact fuel cs res m = .ok r ∧ Covers o L r none := by
  intro fuel
  induction fuel with
  | zero =>
    intro cs res m _ _ _ _ _ _ hf
    omega
  | succ fuel ih =>
    intro cs res m hne hr hm0 hmr hres hlast hf
    obtain ⟨gs, hgs, hlen, hfit⟩ := curs_ready hr
    have hgne : gs ≠ [] := by
      intro e
      subst e
      simp at hlen
      exact hne (List.length_eq_zero_iff.mp hlen.symm)
    obtain ⟨l, hl⟩ : ∃ l, gs.getLast? = some l := by
      cases h : gs.getLast? with
      | none => exact absurd (List.getLast?_eq_none_iff.mp h) hgne
      | some l => exact ⟨l, rfl⟩
    have hlm : l ∈ gs := List.mem_of_getLast? hl
    have hnarrow := ho.narrow
    have hinf : infty = 1073741824 := infty_eq
    simp only [vSumLoop, hgs, bind, Except.bind, hl]
    have hnew : ∀ f : Option Int, (∀ k, f = some k → m < k) →
        (∀ m', m ≤ m' → (∀ k, f = some k → m' < k) → ∀ c ∈ cs, Before c.1 c.2 none m') →
        ∃ res', addSeg exact res
          { knot := m, span := l.span
            icpt := gs.foldl (fun x g => exact.add x (valueAt exact g m)) (exact.ofInt 0)
            grad := gs.foldl (fun x g => exact.add x g.grad) (exact.ofInt 0)
            lay := getStacked (gs.map (·.lay)) } = .ok res' ∧
          Covers o L res' f ∧ ∀ l, res'.getLast? = some l → l.knot ≤ m := by
      intro f hfk hbef
      refine addSeg_covers ho hres hm0 hlast hmr hfk ?_
      intro m' hm' hmf
      simp only at hm'
      have hg := hfit m' hm' (hbef m' hm' hmf)
      obtain ⟨a, b⟩ := sum_base ho (m := m) hgne hg
      obtain ⟨-, -, c, d⟩ := hg l hlm
      refine ⟨?_, b, c, d⟩
      rw [valueAt_exact]
      exact a
    -- the next step
    obtain ⟨x, hx, hpos, hall, -, hor⟩ := nextStep_spec m (cs.map fun c => nextKnot c.1 c.2) none
      (by
        intro k hk
        simp only [List.mem_map] at hk
        obtain ⟨c, hc, rfl⟩ := hk
        obtain ⟨g, -, -, h⟩ := (hr c hc).2
        exact h) (by simp) (Or.inl (by simpa using hne))
    rw [hx]
    simp only [Option.getD_some]
    rcases hor with ⟨k, hk, hxk⟩ | h
    swap
    · cases h
    simp only [List.mem_map] at hk
    obtain ⟨c, hc, rfl⟩ := hk
    rcases nextKnot_cases ho (hr c hc).1 c.2 with ⟨hn, hkn⟩ | ⟨g, hg, hkn, hlow⟩
    · -- all of them are at their ends
      have hxinf : isInf x = true := by
        unfold isInf
        simp
        omega
      obtain ⟨res', hadd, hcov, -⟩ := hnew none (by simp) (by
        intro m' _ _ c' hc'
        have := hall _ (List.mem_map.mpr ⟨c', hc', rfl⟩)
        rcases nextKnot_cases ho (hr c' hc').1 c'.2 with ⟨hn', -⟩ | ⟨g', hg', hkn', hlow'⟩
        · exact ⟨fun g hg => (by rw [hn'] at hg; cases hg), fun _ k hk => by cases hk⟩
        · omega)
      rw [hadd]
      simp only [hxinf, if_true]
      exact ⟨res', rfl, hcov⟩
    · have hxinf : isInf x = false := by
        unfold isInf
        simp
        omega
      obtain ⟨res', hadd, hcov, hl'⟩ := hnew (some (m + x)) (by intro k hk; cases hk; omega) (by
        intro m' _ hmk c' hc'
        have h1 := hall _ (List.mem_map.mpr ⟨c', hc', rfl⟩)
        have h2 := hmk _ rfl
        exact before_next (by omega))
      rw [hadd]
      simp only [hxinf]
      obtain ⟨cs', hcs', hr', hlen'⟩ := movesTo_ready ho (m' := m + x) (by omega) (by omega) hr
      simp only [hcs', Bool.false_eq_true, if_false]
      have hlo := (hr c hc).1.low _ _ hg
      refine ih cs' res' (m + x) ?_ hr' (by omega) (by omega) (Or.inr hcov) (fun l hl => by have := hl' l hl; omega) (by omega)
      intro e
      subst e
      simp at hlen'
      exact hne (List.length_eq_zero_iff.mp hlen'.symm)

theorem vSum_returns {o : Options Rat} (ho : Sane o) {L : Int} {ss : List (Sol Rat)} (hne : ss ≠ [])
    (h : ∀ s ∈ ss, Covers o L s none) {fuel : Nat} (hf : 4097 ≤ fuel) :
    ∃ r, vSum exact fuel ss = .ok r ∧ Covers o L r none := by
  match ss with
  | [] => exact absurd rfl hne
  | [s] => exact ⟨s, rfl, h s (by simp)⟩
  | s :: t :: ss =>
    have hl := ho.left
    have hr := ho.right
    have hn := ho.narrow
    have hinf : infty = 1073741824 := infty_eq
    unfold vSum
    refine vSumLoop_returns ho fuel _ [] 0 (by simp) ?_ (le_refl _) (by omega) (Or.inl ⟨rfl, rfl⟩) (by simp) (by omega)
    intro c hc
    simp only [List.mem_map] at hc
    obtain ⟨u, hu, rfl⟩ := hc
    have hc := h u hu
    refine ⟨hc, ?_⟩
    obtain ⟨g, hg, hk⟩ := hc.first
    refine ⟨g, hg, by omega, ?_⟩
    change 0 < nextKnot u 0
    rcases nextKnot_cases ho hc 0 with ⟨-, e⟩ | ⟨h', hh', e, -⟩
    · omega
    · have := hc.knots _ _ _ hg hh'
      omega

end Verif.Layout
