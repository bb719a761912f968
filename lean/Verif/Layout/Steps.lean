import Verif.Layout.Curve
import Mathlib.Tactic.NormNum

/-!
# The operations on solutions return

With exact arithmetic and sensible options the solutions of texts, sums and concatenations are found and
cover all margins.
-/

namespace Verif.Layout

theorem base_le {o : Options Rat} (ho : Sane o) {m a b : Int} (ha : max (m - o.leftMargin) 0 ≤ a)
    (hb : max (m - o.rightMargin) 0 ≤ b) : base o m ≤ o.leftCost * (a : Rat) + o.rightCost * (b : Rat) := by
  unfold base
  have h1 : ((max (m - o.leftMargin) 0 : Int) : Rat) ≤ a := by exact_mod_cast ha
  have h2 : ((max (m - o.rightMargin) 0 : Int) : Rat) ≤ b := by exact_mod_cast hb
  have := mul_le_mul_of_nonneg_left h1 ho.leftCost
  have := mul_le_mul_of_nonneg_left h2 ho.rightCost
  linarith

/-- The cost of the end of a line grows at least with the slope. -/
theorem base_slope {o : Options Rat} (ho : Sane o) (m : Int) {d : Int} (hd : 0 ≤ d) :
    base o m + slope o m * (d : Rat) ≤ base o (m + d) := by
  have key : ∀ (c : Rat) (k : Int), 0 ≤ c →
      c * ((max (m - k) 0 : Int) : Rat) + (if 0 ≤ m - k then c else 0) * (d : Rat) ≤ c * ((max (m + d - k) 0 : Int) : Rat) := by
    intro c k hc
    split
    · next h =>
      rw [max_eq_left h, max_eq_left (by omega)]
      push_cast
      nlinarith
    · next h =>
      have : ((max (m - k) 0 : Int) : Rat) ≤ ((max (m + d - k) 0 : Int) : Rat) := by
        have : max (m - k) 0 ≤ max (m + d - k) 0 := by omega
        exact_mod_cast this
      have := mul_le_mul_of_nonneg_left this hc
      linarith
  have h1 := key o.leftCost o.leftMargin ho.leftCost
  have h2 := key o.rightCost o.rightMargin ho.rightCost
  unfold base slope
  linarith

theorem slope_mono {o : Options Rat} (ho : Sane o) {m m' : Int} (h : m ≤ m') : slope o m ≤ slope o m' := by
  have h1 := ho.leftCost
  have h2 := ho.rightCost
  unfold slope
  split <;> split <;> split <;> split <;> linarith

theorem slope_le {o : Options Rat} (ho : Sane o) (m : Int) : slope o m ≤ o.leftCost + o.rightCost := by
  have h1 := ho.leftCost
  have h2 := ho.rightCost
  unfold slope
  split <;> split <;> linarith

theorem slope_left {o : Options Rat} (ho : Sane o) {m : Int} (h : m < o.rightMargin) : slope o m ≤ o.leftCost := by
  have h1 := ho.leftCost
  unfold slope
  rw [if_neg (show ¬ 0 ≤ m - o.rightMargin by omega)]
  split <;> linarith

theorem slope_zero {o : Options Rat} (ho : Sane o) {m : Int} (h : m < o.leftMargin) : slope o m ≤ 0 := by
  have := ho.right
  unfold slope
  rw [if_neg (show ¬ 0 ≤ m - o.rightMargin by omega), if_neg (show ¬ 0 ≤ m - o.leftMargin by omega)]
  simp

theorem valueAt_exact (g : Seg Rat) (m : Int) : valueAt exact g m = g.icpt + g.grad * ((m - g.knot : Int) : Rat) := rfl

/-- The solution of a text. -/
theorem text_covers {o : Options Rat} (ho : Sane o) (ps : List Piece) :
    Covers o (spanLen ps) (textSol exact o ps) none := by
  have hl := ho.left
  have hr := ho.right
  have hlc := ho.leftCost
  have hrc := ho.rightCost
  have hspan : (0 : Int) ≤ (spanLen ps : Int) := by omega
  unfold textSol
  generalize hS : (spanLen ps : Int) = S at *
  -- the last entry is the same for short and medium texts
  have third : ∀ m, o.rightMargin - S ≤ m → S < o.rightMargin → Fit o S
      { knot := o.rightMargin - S, span := S, icpt := ((o.rightMargin - o.leftMargin : Int) : Rat) * o.leftCost
        grad := o.leftCost + o.rightCost, lay := Lay.string ps .nil } m := by
    intro m hm hSr
    refine ⟨?_, slope_le ho m, hspan, le_refl _⟩
    have h1 := base_le ho (m := m) (a := o.rightMargin - o.leftMargin + (m - (o.rightMargin - S)))
      (b := m - (o.rightMargin - S)) (by omega) (by omega)
    refine le_trans h1 ?_
    rw [valueAt_exact]
    apply le_of_eq
    push_cast
    ring
  simp only []
  split
  · next hwide =>
    refine ⟨⟨_, rfl, rfl⟩, ?_, ?_, ?_⟩
    · intro i g h hg hh
      cases i <;> simp at hh
    · intro i g hg
      cases i with
      | zero => simp at hg; subst hg; simp; omega
      | succ i => simp at hg
    · intro i g hg m hm _
      cases i with
      | succ i => simp at hg
      | zero =>
        simp only [List.getElem?_cons_zero, Option.some.injEq] at hg
        subst hg
        simp only at hm
        refine ⟨?_, slope_le ho m, hspan, le_refl _⟩
        have h1 := base_le ho (m := m) (a := m) (b := m) (by omega) (by omega)
        refine le_trans h1 ?_
        rw [valueAt_exact]
        simp only [exact]
        have e1 : (0 : Rat) ≤ ((S - o.leftMargin : Int) : Rat) * o.leftCost :=
          mul_nonneg (by exact_mod_cast (by omega : 0 ≤ S - o.leftMargin)) hlc
        have e2 : (0 : Rat) ≤ (((S - o.rightMargin) * o.rightMargin : Int) : Rat) := by
          exact_mod_cast mul_nonneg (by omega : 0 ≤ S - o.rightMargin) (by omega : 0 ≤ o.rightMargin)
        have e3 : ((m - 0 : Int) : Rat) = m := by simp
        rw [e3]
        linarith
  · next hwide =>
    split
    · next hmed =>
      refine ⟨⟨_, rfl, rfl⟩, ?_, ?_, ?_⟩
      · intro i g h hg hh
        match i with
        | 0 =>
          simp at hg hh
          subst hg hh
          simp
          omega
        | i + 1 => simp at hh
      · intro i g hg
        match i with
        | 0 => simp at hg; subst hg; simp; omega
        | 1 => simp at hg; subst hg; simp; omega
        | i + 2 => simp at hg
      · intro i g hg m hm hb
        match i with
        | i + 2 => simp at hg
        | 1 =>
          simp only [List.getElem?_cons_zero, List.getElem?_cons_succ, Option.some.injEq] at hg
          subst hg
          exact third m hm (by omega)
        | 0 =>
          have hlt := hb.1 _ rfl
          simp only [List.getElem?_cons_zero, Option.some.injEq] at hg
          subst hg
          simp only at hm hlt
          refine ⟨?_, slope_left ho (by omega), hspan, le_refl _⟩
          have h1 := base_le ho (m := m) (a := S - o.leftMargin + m) (b := 0) (by omega) (by omega)
          refine le_trans h1 ?_
          rw [valueAt_exact]
          simp only [exact]
          apply le_of_eq
          push_cast
          ring
    · next hmed =>
      refine ⟨⟨_, rfl, rfl⟩, ?_, ?_, ?_⟩
      · intro i g h hg hh
        match i with
        | 0 =>
          simp at hg hh
          subst hg hh
          simp
          omega
        | 1 =>
          simp at hg hh
          subst hg hh
          simp
          omega
        | i + 2 => simp at hh
      · intro i g hg
        match i with
        | 0 => simp at hg; subst hg; simp; omega
        | 1 => simp at hg; subst hg; simp; omega
        | 2 => simp at hg; subst hg; simp; omega
        | i + 3 => simp at hg
      · intro i g hg m hm hb
        match i with
        | i + 3 => simp at hg
        | 2 =>
          simp only [List.getElem?_cons_zero, List.getElem?_cons_succ, Option.some.injEq] at hg
          subst hg
          exact third m hm (by omega)
        | 1 =>
          have hlt := hb.1 _ rfl
          simp only [List.getElem?_cons_zero, List.getElem?_cons_succ, Option.some.injEq] at hg
          subst hg
          simp only at hm hlt
          refine ⟨?_, slope_left ho (by omega), hspan, le_refl _⟩
          have h1 := base_le ho (m := m) (a := m - (o.leftMargin - S)) (b := 0) (by omega) (by omega)
          refine le_trans h1 ?_
          rw [valueAt_exact]
          simp only [exact]
          apply le_of_eq
          push_cast
          ring
        | 0 =>
          have hlt := hb.1 _ rfl
          simp only [List.getElem?_cons_zero, Option.some.injEq] at hg
          subst hg
          simp only at hm hlt
          refine ⟨?_, slope_zero ho (by omega), hspan, le_refl _⟩
          have h1 := base_le ho (m := m) (a := 0) (b := 0) (by omega) (by omega)
          refine le_trans h1 ?_
          rw [valueAt_exact]
          simp [exact]

/-- Adding costs. -/
theorem plusConst_covers {o : Options Rat} {L : Int} {s : Sol Rat} (hs : Covers o L s none) {v : Rat} (hv : 0 ≤ v) :
    Covers o L (plusConst exact s v) none := by
  have hget : ∀ (i : Nat) (g : Seg Rat), (plusConst exact s v)[i]? = some g →
      ∃ h, s[i]? = some h ∧ g = { h with icpt := h.icpt + v } := by
    intro i g hg
    simp only [plusConst, List.getElem?_map, Option.map_eq_some_iff] at hg
    obtain ⟨h, hh, rfl⟩ := hg
    exact ⟨h, hh, rfl⟩
  refine ⟨?_, ?_, ?_, ?_⟩
  · obtain ⟨g, hg, hk⟩ := hs.first
    exact ⟨{ g with icpt := g.icpt + v }, by simp [plusConst, List.getElem?_map, hg, exact], hk⟩
  · intro i g h hg hh
    obtain ⟨g', hg', rfl⟩ := hget _ _ hg
    obtain ⟨h', hh', rfl⟩ := hget _ _ hh
    exact hs.knots i g' h' hg' hh'
  · intro i g hg
    obtain ⟨g', hg', rfl⟩ := hget _ _ hg
    exact hs.low i g' hg'
  · intro i g hg m hm hb
    obtain ⟨g', hg', rfl⟩ := hget _ _ hg
    obtain ⟨a, b, c, d⟩ := hs.fits i g' hg' m hm ⟨fun x hx => by
      have := hb.1 { x with icpt := x.icpt + v } (by simp [plusConst, List.getElem?_map, hx, exact])
      exact this, fun _ k hk => by cases hk⟩
    refine ⟨?_, b, c, d⟩
    rw [valueAt_exact] at a ⊢
    simp only
    linarith

theorem isInf_iff {k : Int} (h : k = infty ∨ k ≤ 8192) : isInf k = true ↔ k = infty := by
  unfold isInf
  rw [infty_eq] at *
  simp
  omega

/-! ## Side by side -/

theorem hPlusLoop_returns {o : Options Rat} (ho : Sane o) {L1 L2 : Int} {s1 s2 : Sol Rat} (h1 : Covers o L1 s1 none)
    (h2 : Covers o L2 s2 none) (hL : 4096 + L1 < infty - 16384) :
    ∀ (fuel i1 i2 : Nat) (m1 m2 : Int) (res : Sol Rat), At s1 i1 m1 → At s2 i2 m2 →
      (∀ g, s1[i1]? = some g → m2 = m1 + g.span) → 0 ≤ m1 → m1 ≤ o.rightMargin →
      ((res = [] ∧ m1 = 0) ∨ Covers o (L1 + L2) res (some m1)) →
      (∀ l, res.getLast? = some l → l.knot < m1) → o.rightMargin - m1 < fuel →
      ∃ r, hPlusLoop exact o s1 s2 fuel i1 i2 m1 m2 res = .ok r ∧ Covers o (L1 + L2) r none := by
  intro fuel
  induction fuel with
  | zero =>
    intro i1 i2 m1 m2 res _ _ _ _ _ _ _ hf
    omega
  | succ fuel ih =>
    intro i1 i2 m1 m2 res ha1 ha2 hm hm0 hmr hres hlast hf
    obtain ⟨g1, hc1, hg1, hk1, hn1, hfit1⟩ := ha1.fit h1
    obtain ⟨g2, hc2, hg2, hk2, hn2, hfit2⟩ := ha2.fit h2
    have hm2 := hm g1 hg1
    subst hm2
    have hsp1 := hfit1.2.2.1
    have hsp1' := hfit1.2.2.2
    have hnarrow := ho.narrow
    simp only [hPlusLoop, hc1, hc2, bind, Except.bind]
    -- the new entry
    have hnew : ∀ f : Option Int, (∀ k, f = some k → m1 < k) →
        (∀ m, m1 ≤ m → (∀ k, f = some k → m < k) → Before s1 i1 none m ∧ Before s2 i2 none (m + g1.span)) →
        ∃ res', addSeg exact res
          { knot := m1, span := g1.span + g2.span
            icpt := exact.sub (exact.sub (exact.add (valueAt exact g1 m1) (valueAt exact g2 (m1 + g1.span)))
                (exact.mul o.leftCost (exact.ofInt (max (m1 + g1.span - o.leftMargin) 0))))
                (exact.mul o.rightCost (exact.ofInt (max (m1 + g1.span - o.rightMargin) 0)))
            grad := exact.sub (exact.sub (exact.add g1.grad g2.grad) (if 0 ≤ m1 + g1.span - o.leftMargin then o.leftCost else exact.ofInt 0))
                (if 0 ≤ m1 + g1.span - o.rightMargin then o.rightCost else exact.ofInt 0)
            lay := .print g1.lay (.print g2.lay .nil) } = .ok res' ∧
          Covers o (L1 + L2) res' f ∧ ∀ l, res'.getLast? = some l → l.knot ≤ m1 := by
      intro f hfk hbef
      refine addSeg_covers ho hres hm0 hlast hmr hfk ?_
      intro m hm1 hmf
      simp only at hm1
      obtain ⟨hb1, hb2⟩ := hbef m hm1 hmf
      obtain ⟨a1, b1, c1, d1⟩ := h1.fits i1 g1 hg1 m (by omega) hb1
      obtain ⟨a2, b2, c2, d2⟩ := h2.fits i2 g2 hg2 (m + g1.span) (by omega) hb2
      have hcon := base_slope ho (m1 + g1.span) (d := m - m1) (by omega)
      have hmono := slope_mono ho (m := m1 + g1.span) (m' := m + g1.span) (by omega)
      rw [show m1 + g1.span + (m - m1) = m + g1.span by omega] at hcon
      have hz : exact.ofInt 0 = (0 : Rat) := by simp [exact]
      refine ⟨?_, ?_, by simp only; omega, by simp only; omega⟩
      · rw [valueAt_exact] at a1 a2 ⊢
        simp only [hz]
        simp only [exact, valueAt]
        unfold base slope at hcon
        simp only [base] at a2 a1 ⊢
        push_cast at *
        nlinarith
      · simp only [hz]
        simp only [exact]
        simp only [slope] at b1 b2 hmono ⊢
        linarith
    have hnx1 := nextKnot_cases ho h1 i1
    have hnx2 := nextKnot_cases ho h2 i2
    have hinf1 : isInf (nextKnot s1 i1) = true ↔ nextKnot s1 i1 = infty :=
      isInf_iff (by rcases hnx1 with ⟨-, h⟩ | ⟨g, -, h, h'⟩ <;> omega)
    have hinf2 : isInf (nextKnot s2 i2) = true ↔ nextKnot s2 i2 = infty :=
      isInf_iff (by rcases hnx2 with ⟨-, h⟩ | ⟨g, -, h, h'⟩ <;> omega)
    have hinf : infty = 1073741824 := infty_eq
    by_cases hboth : isInf (nextKnot s1 i1) = true ∧ isInf (nextKnot s2 i2) = true
    · obtain ⟨res', hadd, hcov, -⟩ := hnew none (by simp) (by
        intro m hm1 _
        have e1 : s1[i1 + 1]? = none := by
          rcases hnx1 with ⟨h, -⟩ | ⟨g, -, h, h'⟩
          · exact h
          · have := hinf1.mp hboth.1; omega
        have e2 : s2[i2 + 1]? = none := by
          rcases hnx2 with ⟨h, -⟩ | ⟨g, -, h, h'⟩
          · exact h
          · have := hinf2.mp hboth.2; omega
        exact ⟨⟨fun g hg => (by rw [e1] at hg; cases hg), fun _ k hk => by cases hk⟩,
          ⟨fun g hg => (by rw [e2] at hg; cases hg), fun _ k hk => by cases hk⟩⟩)
      rw [hadd]
      simp only [hboth.1, hboth.2, Bool.and_self, if_true]
      exact ⟨res', rfl, hcov⟩
    · have hif : (isInf (nextKnot s1 i1) && isInf (nextKnot s2 i2)) = true ↔ False := by
        simp only [Bool.and_eq_true, iff_false]
        exact hboth
      have hnb : ¬ (nextKnot s1 i1 = infty ∧ nextKnot s2 i2 = infty) := fun ⟨a, b⟩ => hboth ⟨hinf1.mpr a, hinf2.mpr b⟩
      have hbefore : ∀ k, k ≤ nextKnot s1 i1 → k + g1.span ≤ nextKnot s2 i2 →
          ∀ m, m1 ≤ m → (∀ k', some k = some k' → m < k') → Before s1 i1 none m ∧ Before s2 i2 none (m + g1.span) := by
        intro k hkk1 hkk2 m hm1 hmk
        have := hmk k rfl
        exact ⟨before_next (by omega), before_next (by omega)⟩
      by_cases hle : nextKnot s1 i1 - m1 ≤ nextKnot s2 i2 - (m1 + g1.span)
      · rcases hnx1 with ⟨-, hk⟩ | ⟨h, hh, hk, hkn⟩
        · exfalso
          rcases hnx2 with ⟨-, hk'⟩ | ⟨h, hh, hk', hkn⟩
          · exact hnb ⟨hk, hk'⟩
          · omega
        · obtain ⟨res', hadd, hcov, hl'⟩ := hnew (some (nextKnot s1 i1)) (by intro k hk; cases hk; exact hn1)
            (hbefore _ (le_refl _) (by omega))
          rw [hadd]
          simp only [hif, if_false, if_pos hle]
          have hch : cur s1 (i1 + 1) = .ok h := by simp [cur, hh]
          have hat : At s1 (i1 + 1) (nextKnot s1 i1) := by
            refine ⟨h, hh, by omega, ?_⟩
            rcases nextKnot_cases ho h1 (i1 + 1) with ⟨-, e⟩ | ⟨h', hh', e, -⟩
            · omega
            · have := h1.knots _ _ _ hh hh'
              omega
          obtain ⟨h'', hch'', hh'', -, -, hfit⟩ := hat.fit h1
          rw [hh] at hh''; cases hh''
          have hsp := hfit.2.2.1
          have hsp' := hfit.2.2.2
          obtain ⟨j, hj, hatj⟩ := moveTo_at ho h2 (m := nextKnot s1 i1 + h.span) (by omega) (by omega) i2 g2 hg2
          rw [hch]
          simp only [hj]
          have hlow := h1.low _ _ hh
          refine ih (i1 + 1) j _ _ res' hat hatj (fun g hg => by rw [hh] at hg; cases hg; rfl) (by omega) (by omega) (Or.inr hcov)
            (fun l hl => by have := hl' l hl; omega) (by omega)
      · rcases hnx2 with ⟨-, hk⟩ | ⟨h, hh, hk, hkn⟩
        · exfalso
          rcases hnx1 with ⟨-, hk'⟩ | ⟨h, hh, hk', hkn⟩
          · exact hnb ⟨hk', hk⟩
          · omega
        · obtain ⟨res', hadd, hcov, hl'⟩ := hnew (some (nextKnot s2 i2 - g1.span)) (by intro k hk; cases hk; omega)
            (hbefore _ (by omega) (by omega))
          rw [hadd]
          simp only [hif, if_false, if_neg hle]
          have hat : At s2 (i2 + 1) (nextKnot s2 i2) := by
            refine ⟨h, hh, by omega, ?_⟩
            rcases nextKnot_cases ho h2 (i2 + 1) with ⟨-, e⟩ | ⟨h', hh', e, -⟩
            · omega
            · have := h2.knots _ _ _ hh hh'
              omega
          have hlow := h2.low _ _ hh
          refine ih i1 (i2 + 1) _ _ res' ⟨g1, hg1, by omega, by omega⟩ hat (fun g hg => by rw [hg1] at hg; cases hg; omega)
            (by omega) (by omega) (Or.inr hcov) (fun l hl => by have := hl' l hl; omega) (by omega)

theorem hPlus_returns {o : Options Rat} (ho : Sane o) {L1 L2 : Int} {s1 s2 : Sol Rat} (h1 : Covers o L1 s1 none)
    (h2 : Covers o L2 s2 none) (hL : 4096 + L1 < infty - 16384) {fuel : Nat} (hf : 4097 ≤ fuel) :
    ∃ r, hPlus exact o fuel s1 s2 = .ok r ∧ Covers o (L1 + L2) r none := by
  obtain ⟨g1, hg1, hk1⟩ := h1.first
  obtain ⟨g2, hg2, hk2⟩ := h2.first
  have hinf : infty = 1073741824 := infty_eq
  have hat : At s1 0 0 := by
    refine ⟨g1, hg1, by omega, ?_⟩
    rcases nextKnot_cases ho h1 0 with ⟨-, e⟩ | ⟨h', hh', e, -⟩
    · omega
    · have := h1.knots _ _ _ hg1 hh'
      omega
  obtain ⟨g, hc, hg, -, -, hfit⟩ := hat.fit h1
  rw [hg1] at hg; cases hg
  have a := hfit.2.2.1
  have b := hfit.2.2.2
  obtain ⟨j, hj, hatj⟩ := moveTo_at ho h2 (m := g1.span) a (by omega) 0 g2 hg2
  have hl := ho.left
  have hr := ho.right
  have hn := ho.narrow
  simp only [hPlus, hc, bind, Except.bind, hj]
  exact hPlusLoop_returns ho h1 h2 hL fuel 0 j 0 g1.span [] hat hatj (fun g hg => by rw [hg1] at hg; cases hg; omega)
    (le_refl _) (by omega) (Or.inl ⟨rfl, rfl⟩) (by simp) (by omega)

end Verif.Layout
