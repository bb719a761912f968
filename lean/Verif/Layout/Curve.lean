import Verif.Layout.Props
import Mathlib.Tactic.Linarith
import Mathlib.Tactic.Ring
import Mathlib.Tactic.Push
import Mathlib.Algebra.Order.Field.Rat
import Mathlib.Tactic.Positivity
import Mathlib.Data.Rat.Cast.Order

/-!
# Solutions as functions of the margin

With exact arithmetic and sensible options, the entries of a solution cover all margins, and costs do
not become negative.
-/

namespace Verif.Layout

/-- Sensible options. -/
structure Sane (o : Options Rat) : Prop where
  left : 0 ≤ o.leftMargin
  right : o.leftMargin < o.rightMargin
  narrow : o.rightMargin ≤ 4096
  leftCost : 0 ≤ o.leftCost
  rightCost : 0 ≤ o.rightCost
  linebreak : 0 ≤ o.linebreakCost

/-- The cost of a line ending in column `m`. -/
def base (o : Options Rat) (m : Int) : Rat :=
  o.leftCost * ((max (m - o.leftMargin) 0 : Int) : Rat) + o.rightCost * ((max (m - o.rightMargin) 0 : Int) : Rat)

/-- The cost of one more character after column `m`. -/
def slope (o : Options Rat) (m : Int) : Rat :=
  (if 0 ≤ m - o.leftMargin then o.leftCost else 0) + (if 0 ≤ m - o.rightMargin then o.rightCost else 0)

theorem base_nonneg {o : Options Rat} (ho : Sane o) (m : Int) : 0 ≤ base o m := by
  unfold base
  have h1 : (0 : Rat) ≤ ((max (m - o.leftMargin) 0 : Int) : Rat) := by exact_mod_cast le_max_right _ _
  have h2 : (0 : Rat) ≤ ((max (m - o.rightMargin) 0 : Int) : Rat) := by exact_mod_cast le_max_right _ _
  have := mul_nonneg ho.leftCost h1
  have := mul_nonneg ho.rightCost h2
  linarith

theorem slope_nonneg {o : Options Rat} (ho : Sane o) (m : Int) : 0 ≤ slope o m := by
  unfold slope
  have h1 := ho.leftCost
  have h2 := ho.rightCost
  split <;> split <;> linarith

/-- The entry is acceptable at margin `m`. -/
def Fit (o : Options Rat) (L : Int) (g : Seg Rat) (m : Int) : Prop :=
  base o m ≤ valueAt exact g m ∧ slope o m ≤ g.grad ∧ 0 ≤ g.span ∧ g.span ≤ L

/-- The margin is in front of the next entry; for the last entry, in front of `f` (if there is a limit). -/
def Before (s : Sol Rat) (i : Nat) (f : Option Int) (m : Int) : Prop :=
  (∀ g : Seg Rat, s[i + 1]? = some g → m < g.knot) ∧ (s[i + 1]? = none → ∀ k, f = some k → m < k)

/-- The entries cover the margins from 0 to `f`, without `f` (all of them without limit). -/
structure Covers (o : Options Rat) (L : Int) (s : Sol Rat) (f : Option Int) : Prop where
  first : ∃ g : Seg Rat, s[0]? = some g ∧ g.knot = 0
  knots : ∀ (i : Nat) (g h : Seg Rat), s[i]? = some g → s[i + 1]? = some h → g.knot < h.knot
  low : ∀ (i : Nat) (g : Seg Rat), s[i]? = some g → g.knot ≤ o.rightMargin
  fits : ∀ (i : Nat) (g : Seg Rat), s[i]? = some g → ∀ m, g.knot ≤ m → Before s i f m → Fit o L g m

/-- The position is right for the margin. -/
def At (s : Sol Rat) (i : Nat) (m : Int) : Prop :=
  ∃ g, s[i]? = some g ∧ g.knot ≤ m ∧ m < nextKnot s i

theorem before_next {s : Sol Rat} {i : Nat} {m : Int} (h : m < nextKnot s i) : Before s i none m := by
  refine ⟨fun g hg => ?_, fun _ k hk => by cases hk⟩
  unfold nextKnot at h
  rw [hg] at h
  exact h

theorem At.fit {o : Options Rat} {L : Int} {s : Sol Rat} {i : Nat} {m : Int} (h : At s i m) (hs : Covers o L s none) :
    ∃ g, cur s i = .ok g ∧ s[i]? = some g ∧ g.knot ≤ m ∧ m < nextKnot s i ∧ Fit o L g m := by
  obtain ⟨g, hg, h1, h2⟩ := h
  exact ⟨g, by simp [cur, hg], hg, h1, h2, hs.fits i g hg m h1 (before_next h2)⟩

theorem Covers.mono {o : Options Rat} {L L' : Int} {s : Sol Rat} {f : Option Int} (h : Covers o L s f) (hL : L ≤ L') : Covers o L' s f :=
  ⟨h.first, h.knots, h.low, fun i g hg m h1 h2 => by
    obtain ⟨a, b, c, d⟩ := h.fits i g hg m h1 h2
    exact ⟨a, b, c, by omega⟩⟩

theorem infty_eq : infty = 1073741824 := by decide

theorem nextKnot_cases {o : Options Rat} {L : Int} {s : Sol Rat} (ho : Sane o) (hs : Covers o L s none) (i : Nat) :
    (s[i + 1]? = none ∧ nextKnot s i = infty) ∨
      (∃ g, s[i + 1]? = some g ∧ nextKnot s i = g.knot ∧ g.knot ≤ 4096) := by
  unfold nextKnot
  cases h : s[i + 1]? with
  | none => exact Or.inl ⟨rfl, rfl⟩
  | some g => exact Or.inr ⟨g, rfl, rfl, le_trans (hs.low _ _ h) ho.narrow⟩

/-- Moving to a margin. -/
theorem retreatTo_at {o : Options Rat} {L : Int} {s : Sol Rat} (hs : Covers o L s none) {m : Int} (hm0 : 0 ≤ m) :
    ∀ (i : Nat) (g : Seg Rat), s[i]? = some g → m < nextKnot s i → ∃ j, retreatTo s m i = .ok j ∧ At s j m := by
  intro i
  induction i with
  | zero =>
    intro g hg hn
    obtain ⟨g0, h0, hk⟩ := hs.first
    rw [hg] at h0; cases h0
    refine ⟨0, ?_, g, hg, by omega, hn⟩
    simp only [retreatTo, cur, hg, bind, Except.bind]
    rw [if_neg (by omega)]
  | succ i ih =>
    intro g hg hn
    simp only [retreatTo, cur, hg, bind, Except.bind]
    split
    · next hgt =>
      have hi : i < s.length := by
        have := (List.getElem?_eq_some_iff.mp hg).1
        omega
      refine ih s[i] (by simp [hi]) ?_
      unfold nextKnot
      rw [hg]
      exact hgt
    · next hle => exact ⟨i + 1, rfl, g, hg, by omega, hn⟩

theorem advanceTo_at {o : Options Rat} {L : Int} {s : Sol Rat} (ho : Sane o) (hs : Covers o L s none) {m : Int} (hm : m < infty) :
    ∀ (n i : Nat) (g : Seg Rat), s[i]? = some g → g.knot ≤ m → s.length ≤ i + n → At s (advanceTo s m n i) m := by
  intro n
  induction n with
  | zero =>
    intro i g hg _ hn
    have := (List.getElem?_eq_some_iff.mp hg).1
    omega
  | succ n ih =>
    intro i g hg hk hn
    simp only [advanceTo]
    split
    · next hc =>
      rcases nextKnot_cases ho hs i with ⟨h1, h2⟩ | ⟨g', h1, h2, -⟩
      · exact absurd h2 hc.2
      · exact ih (i + 1) g' h1 (by omega) (by omega)
    · next hc =>
      refine ⟨g, hg, hk, ?_⟩
      rcases nextKnot_cases ho hs i with ⟨h1, h2⟩ | ⟨g', h1, h2, h3⟩
      · omega
      · have : nextKnot s i ≠ infty := by rw [h2, infty_eq]; omega
        by_contra hlt
        exact hc ⟨by omega, this⟩

theorem moveTo_at {o : Options Rat} {L : Int} {s : Sol Rat} (ho : Sane o) (hs : Covers o L s none) {m : Int} (hm0 : 0 ≤ m)
    (hm : m < infty) (i : Nat) (g : Seg Rat) (hg : s[i]? = some g) :
    ∃ j, moveTo s m i = .ok j ∧ At s j m := by
  simp only [moveTo, cur, hg, bind, Except.bind]
  split
  · next hgt =>
    cases i with
    | zero =>
      obtain ⟨g0, h0, hk⟩ := hs.first
      rw [hg] at h0; cases h0
      omega
    | succ i =>
      have hi : i < s.length := by
        have := (List.getElem?_eq_some_iff.mp hg).1
        omega
      have : retreatTo s m (i + 1) = retreatTo s m i := by
        simp only [retreatTo, cur, hg, bind, Except.bind]
        rw [if_pos hgt]
      rw [this]
      refine retreatTo_at hs hm0 i s[i] (by simp [hi]) ?_
      unfold nextKnot
      rw [hg]
      exact hgt
  · next hle => exact ⟨_, rfl, advanceTo_at ho hs hm _ i g hg (by omega) (by omega)⟩

/-- A new entry continues a solution: `res` covers the margins before `m`, the entry those from `m` to
before `m'`. -/
theorem addSeg_covers {o : Options Rat} (ho : Sane o) {L : Int} {res : Sol Rat} {g : Seg Rat} {f : Option Int}
    (hres : (res = [] ∧ g.knot = 0) ∨ Covers o L res (some g.knot)) (h0 : 0 ≤ g.knot)
    (hlast : ∀ l, res.getLast? = some l → l.knot < g.knot)
    (hlow : g.knot ≤ o.rightMargin) (hm' : ∀ k, f = some k → g.knot < k)
    (hfit : ∀ m, g.knot ≤ m → (∀ k, f = some k → m < k) → Fit o L g m) :
    ∃ res', addSeg exact res g = .ok res' ∧ Covers o L res' f ∧ ∀ l, res'.getLast? = some l → l.knot ≤ g.knot := by
  have hg := hfit g.knot (le_refl _) hm'
  have hval : valueAt exact g g.knot = g.icpt := by simp [valueAt, exact]
  unfold addSeg
  by_cases hex : extrapolates exact res g = true
  · rw [if_pos hex]
    refine ⟨res, rfl, ?_, fun l hl => by have := hlast l hl; omega⟩
    rcases hres with ⟨rfl, -⟩ | hres
    · simp [extrapolates] at hex
    · refine ⟨hres.first, hres.knots, hres.low, ?_⟩
      intro i x hx m h1 h2
      by_cases hi : i + 1 < res.length
      · have hget : res[i + 1]? = some res[i + 1] := by simp [hi]
        refine hres.fits i x hx m h1 ⟨h2.1, fun hn => ?_⟩
        rw [hget] at hn
        cases hn
      · have hnone : res[i + 1]? = none := by simp; omega
        have h2' := h2.2 hnone
        have hil : i < res.length := (List.getElem?_eq_some_iff.mp hx).1
        have hxl : res.getLast? = some x := by
          rw [List.getLast?_eq_getElem?]
          have : res.length - 1 = i := by omega
          rw [this, hx]
        by_cases hmk : m < g.knot
        · refine hres.fits i x hx m h1 ⟨h2.1, fun _ k hk => ?_⟩
          cases hk
          exact hmk
        · have hf := hfit m (by omega) h2'
          simp only [extrapolates, hxl, Bool.and_eq_true, decide_eq_true_eq] at hex
          obtain ⟨⟨hsp, hgr⟩, hic⟩ := hex
          have hgr' : g.grad = x.grad := by simpa [exact] using hgr
          have hic' : x.icpt + ((g.knot - x.knot : Int) : Rat) * x.grad = g.icpt := by
            simpa [exact] using hic
          have hv : valueAt exact x m = valueAt exact g m := by
            have e1 : valueAt exact x m = x.icpt + x.grad * ((m - x.knot : Int) : Rat) := rfl
            have e2 : valueAt exact g m = g.icpt + g.grad * ((m - g.knot : Int) : Rat) := rfl
            rw [e1, e2, ← hic', hgr']
            push_cast
            ring
          obtain ⟨a, b, c, d⟩ := hf
          exact ⟨by rw [hv]; exact a, by rw [← hgr']; exact b, by omega, by omega⟩
  · rw [if_neg hex]
    have hbad : (decide (g.knot < 0) || decide (g.span < 0) || exact.lt g.icpt (exact.ofInt 0)
        || exact.lt g.grad (exact.ofInt 0)) = false := by
      have h1 : 0 ≤ g.icpt := by
        have := base_nonneg ho g.knot
        have := hg.1
        rw [hval] at this
        linarith
      have h2 : 0 ≤ g.grad := le_trans (slope_nonneg ho _) hg.2.1
      have h3 := hg.2.2.1
      simp [exact]
      exact ⟨⟨⟨h0, h3⟩, h1⟩, h2⟩
    rw [hbad]
    refine ⟨res ++ [g], rfl, ?_, ?_⟩
    · have hlen : (res ++ [g]).length = res.length + 1 := by simp
      have hold : ∀ i, i < res.length → (res ++ [g])[i]? = res[i]? := fun i hi => List.getElem?_append_left hi
      have hnew : (res ++ [g])[res.length]? = some g := by simp
      refine ⟨?_, ?_, ?_, ?_⟩
      · rcases hres with ⟨rfl, hk⟩ | hres
        · exact ⟨g, rfl, hk⟩
        · obtain ⟨x, hx, hk⟩ := hres.first
          refine ⟨x, ?_, hk⟩
          rw [hold 0 (List.getElem?_eq_some_iff.mp hx).1, hx]
      · intro i x y hx hy
        have hi1 : i + 1 < res.length + 1 := by
          have := (List.getElem?_eq_some_iff.mp hy).1
          omega
        by_cases hi2 : i + 1 < res.length
        · rcases hres with ⟨rfl, hk⟩ | hres
          · simp at hi2
          · rw [hold i (by omega)] at hx
            rw [hold (i + 1) hi2] at hy
            exact hres.knots i x y hx hy
        · have hie : i + 1 = res.length := by omega
          rw [hie, hnew] at hy
          cases hy
          rw [hold i (by omega)] at hx
          refine hlast x ?_
          rw [List.getLast?_eq_getElem?]
          have : res.length - 1 = i := by omega
          rw [this, hx]
      · intro i x hx
        have hi := (List.getElem?_eq_some_iff.mp hx).1
        rw [hlen] at hi
        by_cases hi2 : i < res.length
        · rcases hres with ⟨rfl, hk⟩ | hres
          · simp at hi2
          · rw [hold i hi2] at hx
            exact hres.low i x hx
        · have : i = res.length := by omega
          subst this
          rw [hnew] at hx
          cases hx
          exact hlow
      · intro i x hx m h1 h2
        have hi := (List.getElem?_eq_some_iff.mp hx).1
        rw [hlen] at hi
        by_cases hi2 : i < res.length
        · rcases hres with ⟨rfl, hk⟩ | hres
          · simp at hi2
          · rw [hold i hi2] at hx
            refine hres.fits i x hx m h1 ?_
            by_cases hi3 : i + 1 < res.length
            · have hget : res[i + 1]? = some res[i + 1] := by simp [hi3]
              refine ⟨fun y hy => h2.1 y (by rw [hold _ hi3]; exact hy), fun hn => ?_⟩
              rw [hget] at hn
              cases hn
            · have hie : i + 1 = res.length := by omega
              refine ⟨fun y hy => ?_, fun _ k hk => ?_⟩
              · rw [hie] at hy
                simp at hy
              · cases hk
                exact h2.1 g (by rw [hie]; exact hnew)
        · have : i = res.length := by omega
          subst this
          rw [hnew] at hx
          cases hx
          exact hfit m h1 (h2.2 (by simp))
    · intro l hl
      simp at hl
      subst hl
      omega

end Verif.Layout
