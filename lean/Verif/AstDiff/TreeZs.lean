import Verif.AstDiff.TreeTop

/-!
# The algorithm of Zhang and Shasha as far as the mapping needs it

The way back through the table ends and finds only pairs that may be matched.
-/

namespace Verif.AstDiff

section
variable (o : Options) (S D : SynTree) (S1 S2 : Sub)

/-- What the table holds at row `l1 + a + 1` and column `l2 + b + 1`. -/
structure Cell (fd : Nat → Nat → Nat) (l1 l2 a b : Nat) : Prop where
  up : fd (l1 + (a + 1)) (l2 + (b + 1)) ≤ fd (l1 + a) (l2 + (b + 1)) + 1
  left : fd (l1 + (a + 1)) (l2 + (b + 1)) ≤ fd (l1 + (a + 1)) (l2 + b) + 1
  spine : S1.lmd (l1 + (a + 1)) = l1 → S2.lmd (l2 + (b + 1)) = l2 → fd (l1 + (a + 1)) (l2 + (b + 1)) =
    min (fd (l1 + a) (l2 + (b + 1)) + 1) (min (fd (l1 + (a + 1)) (l2 + b) + 1)
      (fd (l1 + a) (l2 + b) + zsUpdate o S D S1 S2 (l1 + (a + 1)) (l2 + (b + 1))))

/-- The table after the first `n` rows and `m` columns of the next one. -/
structure RowInv (l1 l2 w n m : Nat) (fd : Nat → Nat → Nat) : Prop where
  c0 : ∀ a, a ≤ n + 1 → fd (l1 + a) l2 = a
  r0 : ∀ b, b ≤ m → fd l1 (l2 + b) = b
  r1 : 1 ≤ n → ∀ b, b ≤ w → fd l1 (l2 + b) = b
  cells : ∀ a b, a < n → b < w → Cell o S D S1 S2 fd l1 l2 a b
  last : ∀ b, b < m → Cell o S D S1 S2 fd l1 l2 n b

/-- The table after the first `n` rows. -/
structure RowsInv (l1 l2 w n : Nat) (fd : Nat → Nat → Nat) : Prop where
  c0 : ∀ a, a ≤ n → fd (l1 + a) l2 = a
  r1 : 1 ≤ n → ∀ b, b ≤ w → fd l1 (l2 + b) = b
  cells : ∀ a b, a < n → b < w → Cell o S D S1 S2 fd l1 l2 a b

variable {o S D S1 S2}

theorem Cell.congr {fd g : Nat → Nat → Nat} {l1 l2 a b : Nat} (h : Cell o S D S1 S2 fd l1 l2 a b)
    (h1 : g (l1 + a) (l2 + b) = fd (l1 + a) (l2 + b)) (h2 : g (l1 + (a + 1)) (l2 + b) = fd (l1 + (a + 1)) (l2 + b))
    (h3 : g (l1 + a) (l2 + (b + 1)) = fd (l1 + a) (l2 + (b + 1)))
    (h4 : g (l1 + (a + 1)) (l2 + (b + 1)) = fd (l1 + (a + 1)) (l2 + (b + 1))) : Cell o S D S1 S2 g l1 l2 a b := by
  refine ⟨?_, ?_, ?_⟩
  · rw [h3, h4]; exact h.up
  · rw [h2, h4]; exact h.left
  · rw [h1, h2, h3, h4]; exact h.spine

/-- The values of the table after one more cell: `v` at that cell, the first row, and no change elsewhere. -/
theorem fdCell_fd (hins : o.insertionCost = 1) (hdel : o.deletionCost = 1) (l1 l2 n m : Nat) (t : Tab) (h0 : t.fd l1 (l2 + m) = m) :
    ∃ v, (∀ a b, (fdCell o S D S1 S2 l1 l2 (l1 + n + 1) (l2 + m + 1) t).fd (l1 + a) (l2 + b) =
        if a = n + 1 ∧ b = m + 1 then v else if a = 0 ∧ b = m + 1 then m + 1 else t.fd (l1 + a) (l2 + b)) ∧
      (let up := if n = 0 then m + 1 else t.fd (l1 + n) (l2 + (m + 1))
       v ≤ up + 1 ∧ v ≤ t.fd (l1 + (n + 1)) (l2 + m) + 1 ∧
        (S1.lmd (l1 + (n + 1)) = l1 → S2.lmd (l2 + (m + 1)) = l2 → v = min (up + 1) (min (t.fd (l1 + (n + 1)) (l2 + m) + 1)
          (t.fd (l1 + n) (l2 + m) + zsUpdate o S D S1 S2 (l1 + (n + 1)) (l2 + (m + 1)))))) := by
  have hup : set2 t.fd l1 (l2 + m + 1) (t.fd l1 (l2 + m) + 1) (l1 + n) (l2 + m + 1) =
      if n = 0 then m + 1 else t.fd (l1 + n) (l2 + (m + 1)) := by
    simp only [set2, h0]
    by_cases e : n = 0
    · simp [e]
    · simp [e, Nat.add_assoc]
  have hleft : set2 t.fd l1 (l2 + m + 1) (t.fd l1 (l2 + m) + 1) (l1 + n + 1) (l2 + m) = t.fd (l1 + (n + 1)) (l2 + m) := by
    simp only [set2]
    rw [if_neg (by omega)]
    rfl
  have hdiag : set2 t.fd l1 (l2 + m + 1) (t.fd l1 (l2 + m) + 1) (l1 + n) (l2 + m) = t.fd (l1 + n) (l2 + m) := by
    simp only [set2]
    rw [if_neg (by omega)]
  have hset : ∀ v a b, set2 (set2 t.fd l1 (l2 + m + 1) (t.fd l1 (l2 + m) + 1)) (l1 + n + 1) (l2 + m + 1) v (l1 + a) (l2 + b) =
      if a = n + 1 ∧ b = m + 1 then v else if a = 0 ∧ b = m + 1 then m + 1 else t.fd (l1 + a) (l2 + b) := by
    intro v a b
    simp only [set2, h0]
    by_cases e1 : a = n + 1 ∧ b = m + 1
    · rw [if_pos (by omega), if_pos e1]
    · rw [if_neg (by omega), if_neg e1]
      by_cases e2 : a = 0 ∧ b = m + 1
      · rw [if_pos (by omega), if_pos e2]
      · rw [if_neg (by omega), if_neg e2]
  unfold fdCell
  simp only [hins, hdel, Nat.add_sub_cancel]
  split
  · refine ⟨_, hset _, ?_⟩
    simp only [hup, hleft, hdiag]
    refine ⟨by omega, by omega, fun _ _ => ?_⟩
    rfl
  · rename_i hn
    refine ⟨_, hset _, ?_⟩
    simp only [hup, hleft]
    refine ⟨by omega, by omega, fun e1 e2 => ?_⟩
    exact absurd ⟨by rw [Nat.add_assoc]; exact e1, by rw [Nat.add_assoc]; exact e2⟩ hn

theorem fdRow_inv (hins : o.insertionCost = 1) (hdel : o.deletionCost = 1) {l1 l2 w n : Nat} {t : Tab} (h : RowInv o S D S1 S2 l1 l2 w n 0 t.fd) :
    ∀ m, m ≤ w → RowInv o S D S1 S2 l1 l2 w n m (fdRow o S D S1 S2 l1 l2 (l1 + n + 1) m t).fd
  | 0, _ => h
  | m + 1, hm => by
    have ih := fdRow_inv hins hdel h m (by omega)
    rw [fdRow]
    generalize fdRow o S D S1 S2 l1 l2 (l1 + n + 1) m t = t' at ih
    obtain ⟨v, hg, hv⟩ := fdCell_fd (S := S) (D := D) (S1 := S1) (S2 := S2) hins hdel l1 l2 n m t' (ih.r0 m (Nat.le_refl _))
    generalize (fdCell o S D S1 S2 l1 l2 (l1 + n + 1) (l2 + m + 1) t').fd = g at hg
    have g1 : ∀ a b, b ≤ m → g (l1 + a) (l2 + b) = t'.fd (l1 + a) (l2 + b) := by
      intro a b hb
      rw [hg, if_neg (by omega), if_neg (by omega)]
    have g6 : 1 ≤ n → ∀ a b, a ≤ n → b ≤ w → g (l1 + a) (l2 + b) = t'.fd (l1 + a) (l2 + b) := by
      intro hn a b ha hb
      rw [hg, if_neg (by omega)]
      split
      · rename_i e
        obtain ⟨rfl, rfl⟩ := e
        exact (ih.r1 hn _ hm).symm
      · rfl
    refine ⟨?_, ?_, ?_, ?_, ?_⟩
    · intro a ha
      have := g1 a 0 (by omega)
      simp only [Nat.add_zero] at this
      rw [this, ih.c0 a ha]
    · intro b hb
      by_cases e : b = m + 1
      · have := hg 0 b
        rw [if_neg (by omega), if_pos ⟨rfl, e⟩, Nat.add_zero] at this
        rw [this, e]
      · have := g1 0 b (by omega)
        rw [Nat.add_zero] at this
        rw [this, ih.r0 b (by omega)]
    · intro hn b hb
      have := g6 hn 0 b (by omega) hb
      rw [Nat.add_zero] at this
      rw [this, ih.r1 hn b hb]
    · intro a b ha hb
      exact (ih.cells a b ha hb).congr (g6 (by omega) _ _ (by omega) (by omega)) (g6 (by omega) _ _ (by omega) (by omega))
        (g6 (by omega) _ _ (by omega) (by omega)) (g6 (by omega) _ _ (by omega) (by omega))
    · intro b hb
      by_cases e : b = m
      · subst e
        have e1 : g (l1 + (n + 1)) (l2 + (b + 1)) = v := by rw [hg, if_pos ⟨rfl, rfl⟩]
        have e2 : g (l1 + n) (l2 + (b + 1)) = if n = 0 then b + 1 else t'.fd (l1 + n) (l2 + (b + 1)) := by
          rw [hg, if_neg (by omega)]
          by_cases en : n = 0
          · rw [if_pos ⟨en, rfl⟩, if_pos en]
          · rw [if_neg (by omega), if_neg en]
        have e3 := g1 (n + 1) b (Nat.le_refl _)
        have e4 := g1 n b (Nat.le_refl _)
        simp only at hv
        rw [← e2, ← e3, ← e4, ← e1] at hv
        exact ⟨hv.1, hv.2.1, hv.2.2⟩
      · exact (ih.last b (by omega)).congr (g1 _ _ (by omega)) (g1 _ _ (by omega)) (g1 _ _ (by omega)) (g1 _ _ (by omega))

theorem fdRows_inv (hins : o.insertionCost = 1) (hdel : o.deletionCost = 1) {l1 l2 w : Nat} {t : Tab} (h0 : t.fd l1 l2 = 0) :
    ∀ n, RowsInv o S D S1 S2 l1 l2 w n (fdRows o S D S1 S2 l1 l2 w n t).fd
  | 0 => ⟨by intro a ha; obtain rfl : a = 0 := by omega
             simpa [fdRows] using h0, by omega, by omega⟩
  | n + 1 => by
    have ih := fdRows_inv hins hdel (w := w) h0 n
    rw [fdRows]
    generalize fdRows o S D S1 S2 l1 l2 w n t = t' at ih
    have hs : ∀ a b, set2 t'.fd (l1 + n + 1) l2 (t'.fd (l1 + n + 1 - 1) l2 + o.deletionCost) (l1 + a) (l2 + b) =
        if a = n + 1 ∧ b = 0 then n + 1 else t'.fd (l1 + a) (l2 + b) := by
      intro a b
      simp only [set2, Nat.add_sub_cancel, ih.c0 n (Nat.le_refl _), hdel]
      by_cases e : a = n + 1 ∧ b = 0
      · rw [if_pos (by omega), if_pos e]
      · rw [if_neg (by omega), if_neg e]
    have start : RowInv o S D S1 S2 l1 l2 w n 0 (set2 t'.fd (l1 + n + 1) l2 (t'.fd (l1 + n + 1 - 1) l2 + o.deletionCost)) := by
      generalize set2 t'.fd (l1 + n + 1) l2 (t'.fd (l1 + n + 1 - 1) l2 + o.deletionCost) = g at hs
      have hlow : ∀ a b, a ≤ n → g (l1 + a) (l2 + b) = t'.fd (l1 + a) (l2 + b) := by
        intro a b ha
        rw [hs, if_neg (by omega)]
      refine ⟨?_, ?_, ?_, ?_, by omega⟩
      · intro a ha
        have := hs a 0
        rw [Nat.add_zero] at this
        rw [this]
        split
        · omega
        · exact ih.c0 a (by omega)
      · intro b hb
        obtain rfl : b = 0 := by omega
        have := hlow 0 0 (by omega)
        simp only [Nat.add_zero] at this ⊢
        rw [this]
        exact ih.c0 0 (by omega)
      · intro hn b hb
        have := hlow 0 b (by omega)
        simp only [Nat.add_zero] at this
        rw [this]
        exact ih.r1 hn b hb
      · intro a b ha hb
        exact (ih.cells a b ha hb).congr (hlow _ _ (by omega)) (hlow _ _ (by omega)) (hlow _ _ (by omega)) (hlow _ _ (by omega))
    have fin := fdRow_inv hins hdel (t := { t' with fd := set2 t'.fd (l1 + n + 1) l2 (t'.fd (l1 + n + 1 - 1) l2 + o.deletionCost) }) start w (Nat.le_refl _)
    refine ⟨fin.c0, fun _ => fin.r0, fun a b ha hb => ?_⟩
    by_cases e : a = n
    · subst e
      exact fin.last b hb
    · exact fin.cells a b (by omega) hb

variable (o S D S1 S2)

/-- The part of the table for the pair of subtrees that ends at `i1` and `i2`. -/
structure Rect (i1 i2 : Nat) (fd : Nat → Nat → Nat) : Prop where
  c0 : ∀ a, S1.lmd i1 + a ≤ i1 → fd (S1.lmd i1 + a) (S2.lmd i2) = a
  r0 : ∀ b, S2.lmd i2 + b ≤ i2 → fd (S1.lmd i1) (S2.lmd i2 + b) = b
  cells : ∀ a b, S1.lmd i1 + a < i1 → S2.lmd i2 + b < i2 → Cell o S D S1 S2 fd (S1.lmd i1) (S2.lmd i2) a b

variable {o S D S1 S2}

theorem forestDist_rect (hins : o.insertionCost = 1) (hdel : o.deletionCost = 1) {i1 i2 : Nat} (h1 : S1.lmd i1 < i1) (t : Tab) :
    Rect o S D S1 S2 i1 i2 (forestDist o S D S1 S2 i1 i2 t).fd := by
  have := fdRows_inv hins hdel (S := S) (D := D) (S1 := S1) (S2 := S2) (l1 := S1.lmd i1) (l2 := S2.lmd i2) (w := i2 - S2.lmd i2)
    (t := { t with fd := set2 t.fd (S1.lmd i1) (S2.lmd i2) 0 }) (by simp [set2]) (i1 - S1.lmd i1)
  exact ⟨fun a ha => this.c0 a (by omega), fun b hb => this.r1 (by omega) b (by omega), fun a b ha hb => this.cells a b (by omega) (by omega)⟩

theorem Rect.bound {i1 i2 : Nat} {fd : Nat → Nat → Nat} (h : Rect o S D S1 S2 i1 i2 fd) : ∀ a b, S1.lmd i1 + a ≤ i1 → S2.lmd i2 + b ≤ i2 →
    fd (S1.lmd i1 + a) (S2.lmd i2 + b) ≤ a + b
  | 0, b, _, hb => by rw [Nat.add_zero, h.r0 b hb]; omega
  | a + 1, 0, ha, _ => by have := h.c0 _ ha; simp only [Nat.add_zero]; omega
  | a + 1, b + 1, ha, hb => by
    have := (h.cells a b (by omega) (by omega)).up
    have := h.bound a (b + 1) (by omega) hb
    omega

/-- The leftmost descendants of a numbering in postorder. -/
structure GoodSub (s : Sub) : Prop where
  pos : 0 < s.size
  lt : ∀ i, 1 ≤ i → i ≤ s.size → s.lmd i < i
  lam : ∀ i j, 1 ≤ i → i ≤ s.size → s.lmd i < j → j ≤ i → s.lmd i ≤ s.lmd j
  key : ∃ ks, s.keyRoots = ks ++ [s.size]

/-- the sum of the lengths of the rows and columns of pairs of subtrees -/
def weight (S1 S2 : Sub) : List (Nat × Nat) → Nat
  | [] => 0
  | p :: ps => (p.1 - S1.lmd p.1) + (p.2 - S2.lmd p.2) + weight S1 S2 ps

theorem weight_append (a b : List (Nat × Nat)) : weight S1 S2 (a ++ b) = weight S1 S2 a + weight S1 S2 b := by
  induction a with
  | nil => simp [weight]
  | cons p ps ih => simp [weight, ih]; omega

theorem weight_reverse (a : List (Nat × Nat)) : weight S1 S2 a.reverse = weight S1 S2 a := by
  induction a with
  | nil => rfl
  | cons p ps ih => simp [weight, weight_append, ih]; omega

/-- What is said about a pair found on the way back. -/
def Good (o : Options) (S D : SynTree) (S1 S2 : Sub) (p : Nat × Nat) : Prop :=
  possible o S D p.1 p.2 = true ∧ p.1 ∈ S1.rootIds ∧ p.2 ∈ S2.rootIds

theorem idInRoot_mem {s : Sub} {i : Nat} (h1 : 1 ≤ i) (h2 : i ≤ s.size) : s.idInRoot i ∈ s.rootIds := by
  rw [Sub.size] at h2
  rw [Sub.idInRoot, List.getElem?_eq_getElem (by omega)]
  exact List.getElem_mem _

/-- A pair that may not be matched costs more than everything else together. -/
def Big (o : Options) (S D : SynTree) (S1 S2 : Sub) : Prop :=
  ∀ (i j : Nat), possible o S D (S1.idInRoot i) (S2.idInRoot j) = false → S1.size + S2.size < zsUpdate o S D S1 S2 i j

theorem big_of_le (h : S1.size + S2.size ≤ 4294967296) : Big o S D S1 S2 := by
  intro i j hp
  have hu : zsUpdate o S D S1 S2 i j = doubleMax := by simp [zsUpdate, hp]
  have hd : 4294967296 < doubleMax := by decide +kernel
  rw [hu]
  exact Nat.lt_of_le_of_lt h hd

theorem back_spec (g1 : GoodSub S1) (g2 : GoodSub S2) (hB : Big o S D S1 S2) {lastRow lastCol : Nat} {fd : Nat → Nat → Nat}
    (hr : Rect o S D S1 S2 lastRow lastCol fd) (hr1 : 1 ≤ lastRow) (hr2 : lastRow ≤ S1.size) (hc1 : 1 ≤ lastCol) (hc2 : lastCol ≤ S2.size) :
    ∀ (k row col : Nat), row + col ≤ k → S1.lmd lastRow ≤ row → row ≤ lastRow → S2.lmd lastCol ≤ col → col ≤ lastCol →
    ∃ ms ps, (∀ n, k < n → back S1 S2 fd lastRow lastCol (S1.lmd lastRow) (S2.lmd lastCol) n row col = some (ms, ps)) ∧
      (∀ p ∈ ms, Good o S D S1 S2 p) ∧ (∀ p ∈ ps, (1 ≤ p.1 ∧ p.1 ≤ S1.size) ∧ 1 ≤ p.2 ∧ p.2 ≤ S2.size) ∧
      weight S1 S2 ps ≤ (row - S1.lmd lastRow) + (col - S2.lmd lastCol) ∧
      (row = lastRow → col = lastCol → weight S1 S2 ps < (row - S1.lmd lastRow) + (col - S2.lmd lastCol))
  | k, row, col, hk, b1, b2, b3, b4 => by
    have hl1 := g1.lt lastRow hr1 hr2
    have hl2 := g2.lt lastCol hc1 hc2
    by_cases c0 : row > S1.lmd lastRow ∨ col > S2.lmd lastCol
    · by_cases c1 : row > S1.lmd lastRow ∧ fd (row - 1) col + 1 = fd row col
      · obtain ⟨ms, ps, e1, e2, e3, e4, e5⟩ := back_spec g1 g2 hB hr hr1 hr2 hc1 hc2 (k - 1) (row - 1) col (by omega) (by omega) (by omega) b3 b4
        refine ⟨ms, ps, fun n hn => ?_, e2, e3, by omega, fun _ _ => by omega⟩
        obtain ⟨n, rfl⟩ : ∃ j, n = j + 1 := ⟨n - 1, by omega⟩
        rw [back, if_pos c0, if_pos c1]
        exact e1 n (by omega)
      · by_cases c2 : col > S2.lmd lastCol ∧ fd row (col - 1) + 1 = fd row col
        · obtain ⟨ms, ps, e1, e2, e3, e4, e5⟩ := back_spec g1 g2 hB hr hr1 hr2 hc1 hc2 (k - 1) row (col - 1) (by omega) b1 b2 (by omega) (by omega)
          refine ⟨ms, ps, fun n hn => ?_, e2, e3, by omega, fun _ _ => by omega⟩
          obtain ⟨n, rfl⟩ : ∃ j, n = j + 1 := ⟨n - 1, by omega⟩
          rw [back, if_pos c0, if_neg c1, if_pos c2]
          exact e1 n (by omega)
        · -- the position is neither in the first row nor in the first column
          have hrow : S1.lmd lastRow < row := by
            refine Nat.lt_of_not_le (fun hle => ?_)
            have er : row = S1.lmd lastRow := by omega
            have q1 := hr.r0 (col - S2.lmd lastCol) (by omega)
            have q2 := hr.r0 (col - 1 - S2.lmd lastCol) (by omega)
            rw [show S2.lmd lastCol + (col - S2.lmd lastCol) = col by omega] at q1
            rw [show S2.lmd lastCol + (col - 1 - S2.lmd lastCol) = col - 1 by omega] at q2
            refine c2 ⟨by omega, ?_⟩
            rw [er, q1, q2]
            omega
          have hcol : S2.lmd lastCol < col := by
            refine Nat.lt_of_not_le (fun hle => ?_)
            have ec : col = S2.lmd lastCol := by omega
            have q1 := hr.c0 (row - S1.lmd lastRow) (by omega)
            have q2 := hr.c0 (row - 1 - S1.lmd lastRow) (by omega)
            rw [show S1.lmd lastRow + (row - S1.lmd lastRow) = row by omega] at q1
            rw [show S1.lmd lastRow + (row - 1 - S1.lmd lastRow) = row - 1 by omega] at q2
            refine c1 ⟨hrow, ?_⟩
            rw [ec, q1, q2]
            omega
          have hcell := hr.cells (row - S1.lmd lastRow - 1) (col - S2.lmd lastCol - 1) (by omega) (by omega)
          have hb := hr.bound (row - S1.lmd lastRow) (col - S2.lmd lastCol) (by omega) (by omega)
          rw [show S1.lmd lastRow + (row - S1.lmd lastRow) = row by omega, show S2.lmd lastCol + (col - S2.lmd lastCol) = col by omega] at hb
          have z1 : S1.lmd lastRow + (row - S1.lmd lastRow - 1 + 1) = row := by omega
          have z2 : S2.lmd lastCol + (col - S2.lmd lastCol - 1 + 1) = col := by omega
          have z3 : S1.lmd lastRow + (row - S1.lmd lastRow - 1) = row - 1 := by omega
          have z4 : S2.lmd lastCol + (col - S2.lmd lastCol - 1) = col - 1 := by omega
          by_cases c3 : S1.lmd row = S1.lmd lastRow ∧ S2.lmd col = S2.lmd lastCol
          · obtain ⟨ms, ps, e1, e2, e3, e4, e5⟩ := back_spec g1 g2 hB hr hr1 hr2 hc1 hc2 (k - 2) (row - 1) (col - 1) (by omega) (by omega) (by omega)
              (by omega) (by omega)
            refine ⟨(S1.idInRoot row, S2.idInRoot col) :: ms, ps, fun n hn => ?_, fun p hp => ?_, e3, by omega, fun _ _ => by omega⟩
            · obtain ⟨n, rfl⟩ : ∃ j, n = j + 1 := ⟨n - 1, by omega⟩
              rw [back, if_pos c0, if_neg c1, if_neg c2, if_neg (by omega), if_pos c3, e1 n (by omega)]
            · rcases List.mem_cons.1 hp with rfl | hp
              · refine ⟨?_, idInRoot_mem (by omega) (by omega), idInRoot_mem (by omega) (by omega)⟩
                have hs := hcell.spine
                rw [z1, z2, z3, z4] at hs
                have hs := hs c3.1 c3.2
                simp only at c1 c2 ⊢
                cases hp : possible o S D (S1.idInRoot row) (S2.idInRoot col) with
                | true => rfl
                | false =>
                  exfalso
                  have hu := hB row col hp
                  have k1 : fd row col ≠ fd (row - 1) col + 1 := fun e => c1 ⟨hrow, e.symm⟩
                  have k2 : fd row col ≠ fd row (col - 1) + 1 := fun e => c2 ⟨hcol, e.symm⟩
                  omega
              · exact e2 p hp
          · have la := g1.lam lastRow row hr1 hr2 hrow b2
            have lb := g2.lam lastCol col hc1 hc2 hcol b4
            have lc := g1.lt row (by omega) (by omega)
            have ld := g2.lt col (by omega) (by omega)
            obtain ⟨ms, ps, e1, e2, e3, e4, e5⟩ := back_spec g1 g2 hB hr hr1 hr2 hc1 hc2 (k - 2) (S1.lmd row) (S2.lmd col) (by omega) (by omega)
              (by omega) (by omega) (by omega)
            refine ⟨ms, (row, col) :: ps, fun n hn => ?_, e2, fun p hp => ?_, ?_, fun q1 q2 => ?_⟩
            · obtain ⟨n, rfl⟩ : ∃ j, n = j + 1 := ⟨n - 1, by omega⟩
              rw [back, if_pos c0, if_neg c1, if_neg c2, if_neg (by omega), if_neg c3, e1 n (by omega)]
            · rcases List.mem_cons.1 hp with rfl | hp
              · exact ⟨⟨by simp only; omega, by simp only; omega⟩, by simp only; omega, by simp only; omega⟩
              · exact e3 p hp
            · simp only [weight]
              omega
            · subst q1 q2
              exact absurd ⟨rfl, rfl⟩ c3
    · refine ⟨[], [], fun n hn => ?_, by simp, by simp, by simp [weight], fun q1 q2 => by omega⟩
      obtain ⟨n, rfl⟩ : ∃ j, n = j + 1 := ⟨n - 1, by omega⟩
      rw [back, if_neg c0]
termination_by _ row col => row + col
decreasing_by all_goals omega

theorem matchPairs_spec (hins : o.insertionCost = 1) (hdel : o.deletionCost = 1) (g1 : GoodSub S1) (g2 : GoodSub S2)
    (hB : Big o S D S1 S2) : ∀ (k : Nat) (first : Bool) (stack : List (Nat × Nat)) (t : Tab), weight S1 S2 stack ≤ k →
    (∀ p ∈ stack, (1 ≤ p.1 ∧ p.1 ≤ S1.size) ∧ 1 ≤ p.2 ∧ p.2 ≤ S2.size) →
    (first = true → ∀ p ∈ stack, Rect o S D S1 S2 p.1 p.2 t.fd) →
    ∃ r, (∀ n inner, k < n → S1.size + S2.size < inner → matchPairs o S D S1 S2 inner n first stack t = some r) ∧ ∀ p ∈ r, Good o S D S1 S2 p
  | k, first, [], t, _, _, _ => by
    refine ⟨[], fun n inner hn _ => ?_, by simp⟩
    obtain ⟨n, rfl⟩ : ∃ j, n = j + 1 := ⟨n - 1, by omega⟩
    rw [matchPairs]
  | k, first, (row, col) :: stack, t, hk, hs, hf => by
    obtain ⟨⟨v1, v2⟩, v3, v4⟩ := hs (row, col) (by simp)
    simp only at v1 v2 v3 v4
    have hl1 := g1.lt row v1 v2
    have hl2 := g2.lt col v3 v4
    have hrect : Rect o S D S1 S2 row col (if first then t else forestDist o S D S1 S2 row col t).fd := by
      cases first with
      | true => exact hf rfl (row, col) (by simp)
      | false => exact forestDist_rect hins hdel hl1 t
    generalize ht : (if first then t else forestDist o S D S1 S2 row col t) = t' at hrect
    obtain ⟨ms, ps, e1, e2, e3, e4, e5⟩ := back_spec g1 g2 hB hrect v1 v2 v3 v4 (row + col) row col (Nat.le_refl _) (by omega) (Nat.le_refl _)
      (by omega) (Nat.le_refl _)
    have e5 := e5 rfl rfl
    simp only [weight] at hk
    have hk1 : k - 1 < k := by omega
    obtain ⟨r, f1, f2⟩ := matchPairs_spec hins hdel g1 g2 hB (k - 1) false (ps.reverse ++ stack) t'
      (by rw [weight_append, weight_reverse]; omega)
      (fun p hp => by
        rcases List.mem_append.1 hp with hp | hp
        · exact e3 p (by simpa using hp)
        · exact hs p (by simp [hp])) (by simp)
    refine ⟨ms ++ r, fun n inner hn hi => ?_, fun p hp => ?_⟩
    · obtain ⟨n, rfl⟩ : ∃ j, n = j + 1 := ⟨n - 1, by omega⟩
      rw [matchPairs]
      simp only [ht]
      rw [e1 inner (by omega)]
      simp only
      rw [f1 n inner (by omega) hi]
    · rcases List.mem_append.1 hp with hp | hp
      · exact e2 p hp
      · exact f2 p hp
termination_by k => k
decreasing_by assumption

theorem matchingNodes_spec (hins : o.insertionCost = 1) (hdel : o.deletionCost = 1) (g1 : GoodSub S1) (g2 : GoodSub S2)
    (hB : Big o S D S1 S2) : ∃ r, (∀ n, S1.size + S2.size < n → matchingNodes o S D S1 S2 n = some r) ∧
      ∀ p ∈ r, Good o S D S1 S2 p := by
  obtain ⟨k1, e1⟩ := g1.key
  obtain ⟨k2, e2⟩ := g2.key
  have hrect : Rect o S D S1 S2 S1.size S2.size (treeDist o S D S1 S2 ⟨fun _ _ => 0, fun _ _ => 0⟩).fd := by
    rw [treeDist, e1, e2]
    simp only [List.foldl_append, List.foldl_cons, List.foldl_nil]
    exact forestDist_rect hins hdel (g1.lt _ g1.pos (Nat.le_refl _)) _
  have p1 := g1.pos
  have p2 := g2.pos
  obtain ⟨r, f1, f2⟩ := matchPairs_spec hins hdel g1 g2 hB (S1.size + S2.size) true [(S1.size, S2.size)] _
    (by simp only [weight]; omega) (by simp; omega) (fun _ p hp => by simp at hp; subst hp; exact hrect)
  exact ⟨r, fun n hn => f1 n n hn hn, f2⟩

end

end Verif.AstDiff
