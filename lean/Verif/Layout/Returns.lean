import Verif.Layout.Sums

/-!
# The layouter returns
-/

namespace Verif.Layout

/-- No rest of the line, or a solution for it. -/
def Good (o : Options Rat) (L : Int) : Option (Sol Rat) → Prop
  | none => True
  | some s => Covers o L s none

theorem Good.mono {o : Options Rat} {L L' : Int} {s : Option (Sol Rat)} (h : Good o L s) (hL : L ≤ L') : Good o L' s := by
  cases s with
  | none => trivial
  | some s => exact Covers.mono h hL

theorem besideO_none_iff {x y : Option Box} : besideO x y = none ↔ x = none ∧ y = none := by
  cases x <;> cases y <;> simp [besideO]

theorem aboveO_eq_none {x y : Option Box} : aboveO x y = none ↔ x = none ∧ y = none := by
  cases x <;> cases y <;> simp [aboveO]

theorem withRest_returns {o : Options Rat} (ho : Sane o) {L1 L2 : Int} {s : Sol Rat} {rest : Option (Sol Rat)}
    (h1 : Covers o L1 s none) (h2 : Good o L2 rest) (h0 : 0 ≤ L2) (hL : 4096 + L1 < infty - 16384) {fuel : Nat} (hf : 4097 ≤ fuel) :
    ∃ t, withRest exact o fuel (some s) rest = .ok (some t) ∧ Covers o (L1 + L2) t none := by
  cases rest with
  | none => exact ⟨s, rfl, h1.mono (by omega)⟩
  | some r =>
    obtain ⟨t, ht, hc⟩ := hPlus_returns ho h1 h2 hL hf
    refine ⟨t, ?_, hc⟩
    simp only [withRest, ht, bind, Except.bind]

theorem Covers.ne {o : Options Rat} {L : Int} {s : Sol Rat} {f : Option Int} (h : Covers o L s f) : s ≠ [] := by
  rintro rfl
  obtain ⟨g, hg, -⟩ := h.first
  simp at hg

/-- Enough rounds for all loops. -/
def Enough (fuel : Nat) : Prop := 4097 ≤ fuel

theorem Enough.le {fuel : Nat} (h : Enough fuel) : 4097 ≤ fuel := h

/-- Few enough characters. -/
def Small (n : Nat) : Prop := n < 1000000000

theorem Small.le {n m : Nat} (h : Small n) (hm : m ≤ n) : Small m := lt_of_le_of_lt hm h

theorem Small.room {n : Nat} {L : Int} (h : Small n) (hm : L ≤ n) : 4096 + L < infty - 16384 := by
  unfold Small at h
  rw [infty_eq]
  omega

mutual

theorem opt_returns {o : Options Rat} (ho : Sane o) {fuel : Nat} (hf : Enough fuel) (b : Block) (hb : Filled b)
    (rest : Option (Sol Rat)) (L : Nat) (hr : Good o L rest) (hL : Small (volume b + L)) :
    ∃ s, opt exact o fuel b rest = .ok s ∧ Good o (volume b + L : Nat) s ∧ (s = none ↔ picture b = none ∧ rest = none) := by
  match b with
  | .text ps =>
    simp only [volume, length_chars] at hL ⊢
    obtain ⟨t, ht, hc⟩ := withRest_returns ho (text_covers ho ps) hr (by omega) (hL.room (by omega)) hf.le
    refine ⟨some t, ?_, ?_, by simp [picture]⟩
    · simp only [opt, optText, ht]
    · exact hc
  | .line [] =>
    refine ⟨rest, by simp [opt], hr.mono (by simp [volume, volumes]), by simp [picture, rowPicture]⟩
  | .line (b :: bs) =>
    simp only [Filled] at hb
    simp only [volume] at hL ⊢
    obtain ⟨r, hr', hg, hn⟩ := optLine_returns ho hf (b :: bs) hb.1 rest L hr hL
    have hne : r ≠ none := fun e => hb.2 (by simp) (hn.mp e).1
    cases r with
    | none => exact absurd rfl hne
    | some s =>
      refine ⟨some (plusConst exact s (exact.ofInt 0)), ?_, plusConst_covers hg (by simp [exact]), ?_⟩
      · simp only [opt, hr', bind, Except.bind, Option.toList, vSum]
      · simp only [picture]
        simpa using fun h => absurd h (hb.2 (by simp))
  | .stack _ [] =>
    refine ⟨rest, by simp [opt], hr.mono (by simp [volume, volumes]), by simp [picture, columnPicture]⟩
  | .stack mult (b :: bs) =>
    simp only [Filled] at hb
    simp only [volume] at hL ⊢
    obtain ⟨ss, hss, hg, hn⟩ := optStack_returns ho hf (b :: bs) hb.2.1 rest L hr hL
    obtain ⟨l, hl⟩ : ∃ l, (b :: bs).getLast? = some l := by
      cases h : (b :: bs).getLast? with
      | none => simp at h
      | some l => exact ⟨l, rfl⟩
    have hlp := hb.2.2 l hl
    obtain ⟨hsne, hcp⟩ := hn l hl hlp
    obtain ⟨s, hs, hc⟩ := vSum_returns ho hsne hg hf.le
    refine ⟨some (plusConst exact s (exact.ofInt (o.linebreakCost * mult * bs.length))), ?_, plusConst_covers hc ?_, ?_⟩
    · simp only [opt, hss, hs, bind, Except.bind]
      have : s.isEmpty = false := by
        cases s with
        | nil => exact absurd rfl hc.ne
        | cons _ _ => rfl
      rw [this]
      rfl
    · simp only [exact]
      have := mul_nonneg (mul_nonneg ho.linebreak hb.1) (by omega : (0 : Int) ≤ bs.length)
      exact_mod_cast this
    · simp only [picture]
      simpa using fun h => absurd h hcp
  | .choice _ => simp [Filled] at hb
  | .wrap _ _ _ _ => simp [Filled] at hb
  | .verb _ _ => simp [Filled] at hb
  | .empty => simp [Filled] at hb

theorem optLine_returns {o : Options Rat} (ho : Sane o) {fuel : Nat} (hf : Enough fuel) (bs : List Block) (hb : AllFilled bs)
    (rest : Option (Sol Rat)) (L : Nat) (hr : Good o L rest) (hL : Small (volumes bs + L)) :
    ∃ s, optLine exact o fuel bs rest = .ok s ∧ Good o (volumes bs + L : Nat) s ∧ (s = none ↔ rowPicture bs = none ∧ rest = none) := by
  match bs with
  | [] => exact ⟨rest, by simp [optLine], hr.mono (by simp [volumes]), by simp [rowPicture]⟩
  | b :: bs =>
    simp only [AllFilled] at hb
    simp only [volumes] at hL ⊢
    obtain ⟨r, hr1, hg1, hn1⟩ := optLine_returns ho hf bs hb.2 rest L hr (hL.le (by omega))
    obtain ⟨s, hs, hg, hn⟩ := opt_returns ho hf b hb.1 r (volumes bs + L) hg1 (hL.le (by omega))
    refine ⟨s, by simp only [optLine, hr1, bind, Except.bind, hs], hg.mono (by omega), ?_⟩
    rw [hn, hn1, rowPicture, besideO_none_iff]
    tauto

theorem optStack_returns {o : Options Rat} (ho : Sane o) {fuel : Nat} (hf : Enough fuel) (bs : List Block) (hb : AllFilled bs)
    (rest : Option (Sol Rat)) (L : Nat) (hr : Good o L rest) (hL : Small (volumes bs + L)) :
    ∃ ss, optStack exact o fuel bs rest = .ok ss ∧ (∀ s ∈ ss, Covers o (volumes bs + L : Nat) s none) ∧
      ∀ l, bs.getLast? = some l → picture l ≠ none → ss ≠ [] ∧ columnPicture bs ≠ none := by
  match bs with
  | [] => exact ⟨[], by simp [optStack], by simp, by simp⟩
  | [b] =>
    simp only [AllFilled] at hb
    simp only [volumes] at hL ⊢
    obtain ⟨s, hs, hg, hn⟩ := opt_returns ho hf b hb.1 rest L hr (hL.le (by omega))
    refine ⟨s.toList, by simp only [optStack, hs, bind, Except.bind], ?_, ?_⟩
    · intro t ht
      cases s with
      | none => simp at ht
      | some s =>
        simp at ht
        subst ht
        exact Covers.mono hg (by omega)
    · intro l hl hp
      simp at hl
      subst hl
      constructor
      · cases s with
        | none => exact absurd (hn.mp rfl).1 hp
        | some s => simp
      · simp only [columnPicture, ne_eq, aboveO_eq_none]
        tauto
  | b :: c :: bs =>
    have hb' := hb
    simp only [AllFilled] at hb
    rw [volumes] at hL ⊢
    obtain ⟨s, hs, hg, hn⟩ := opt_returns ho hf b hb.1 none 0 trivial (hL.le (by omega))
    obtain ⟨ss, hss, hgs, hl'⟩ := optStack_returns ho hf (c :: bs) (by simpa only [AllFilled] using hb.2) rest L hr (hL.le (by omega))
    refine ⟨s.toList ++ ss, by simp only [optStack, hs, hss, bind, Except.bind], ?_, ?_⟩
    · intro t ht
      simp only [List.mem_append] at ht
      rcases ht with ht | ht
      · cases s with
        | none => simp at ht
        | some s =>
          simp at ht
          subst ht
          exact Covers.mono hg (by omega)
      · exact (hgs t ht).mono (by omega)
    · intro l hl hp
      obtain ⟨h1, h2⟩ := hl' l (by simpa using hl) hp
      refine ⟨by simp [h1], ?_⟩
      rw [columnPicture, ne_eq, aboveO_eq_none]
      tauto

end

mutual

theorem filled_fixed (b : Block) (h : Filled b) : Fixed b ∧ Plain b := by
  match b with
  | .text _ => simp [Fixed, Plain]
  | .line bs =>
    simp only [Filled] at h
    simp only [Fixed, Plain]
    exact filled_fixed_all bs h.1
  | .stack _ bs =>
    simp only [Filled] at h
    simp only [Fixed, Plain]
    obtain ⟨h1, h2⟩ := filled_fixed_all bs h.2.1
    refine ⟨h1, h2, fun b hb x hx => ?_⟩
    rw [(shows_fixed b (allFixed_mem h1 b (List.mem_of_getLast? hb)) x).mp hx]
    exact h.2.2 b hb
  | .choice _ => simp [Filled] at h
  | .wrap _ _ _ _ => simp [Filled] at h
  | .verb _ _ => simp [Filled] at h
  | .empty => simp [Filled] at h

theorem filled_fixed_all (bs : List Block) (h : AllFilled bs) : AllFixed bs ∧ AllPlain bs := by
  match bs with
  | [] => simp [AllFixed, AllPlain]
  | b :: bs =>
    simp only [AllFilled] at h
    obtain ⟨h1, h2⟩ := filled_fixed b h.1
    obtain ⟨h3, h4⟩ := filled_fixed_all bs h.2
    simp only [AllFixed, AllPlain]
    exact ⟨⟨h1, h3⟩, h2, h4⟩

theorem allFixed_mem {bs : List Block} (h : AllFixed bs) (b : Block) (hb : b ∈ bs) : Fixed b := by
  match bs with
  | [] => simp at hb
  | c :: bs =>
    simp only [AllFixed] at h
    simp only [List.mem_cons] at hb
    rcases hb with rfl | hb
    · exact h.1
    · exact allFixed_mem h.2 b hb

end

mutual

theorem picture_leafless (b : Block) (hb : Filled b) (h : picture b = none) : leafCount b = 0 := by
  match b with
  | .text _ => simp [picture] at h
  | .line [] => rfl
  | .line (b :: bs) =>
    simp only [Filled] at hb
    simp only [picture] at h
    exact absurd h (hb.2 (by simp))
  | .stack _ bs =>
    simp only [Filled] at hb
    simp only [picture] at h
    simp only [leafCount]
    exact column_leafless bs hb.2.1 h
  | .choice _ => simp [Filled] at hb
  | .wrap _ _ _ _ => simp [Filled] at hb
  | .verb _ _ => simp [Filled] at hb
  | .empty => simp [Filled] at hb

theorem column_leafless (bs : List Block) (hb : AllFilled bs) (h : columnPicture bs = none) : leafCounts bs = 0 := by
  match bs with
  | [] => rfl
  | b :: bs =>
    simp only [AllFilled] at hb
    simp only [columnPicture, aboveO_eq_none] at h
    simp only [leafCounts]
    rw [picture_leafless b hb.1 h.1, column_leafless bs hb.2 h.2]

end

/-! ## C76: the layouter returns -/

/-- The full property: with exact arithmetic and sensible options, `toString` returns for every block that
has something to show. -/
def ReturnsStatement : Prop :=
  ∀ (o : Options Rat), Sane o → ∀ b : Block, Plain b → ∃ fuel out, toString exact o fuel b = .ok out

/-- It returns for blocks of texts, lines and stacks, with less than a gigabyte of characters, and what it
returns is the picture of the block.  Missing: alternatives and wrapped blocks. -/
theorem toString_returns_partial (o : Options Rat) (ho : Sane o) (b : Block) (hb : Filled b)
    (hsize : volume b < 1000000000) (fuel : Nat) (hf : 4097 ≤ fuel) :
    toString exact o fuel b = .ok (printed (picture b)) := by
  have hinf : infty = 1073741824 := infty_eq
  obtain ⟨s, hs, hg, hn⟩ := opt_returns ho hf b hb none 0 trivial hsize
  have key : ∃ out, toString exact o fuel b = .ok out := by
    unfold toString
    split
    · exact ⟨_, rfl⟩
    · next hl =>
      simp only [hs, bind, Except.bind]
      cases s with
      | none => exact absurd (picture_leafless b hb (hn.mp rfl).1) hl
      | some t =>
        simp only [value]
        cases t with
        | nil => exact absurd rfl (Covers.ne hg)
        | cons g gs => exact ⟨_, rfl⟩
  obtain ⟨out, hout⟩ := key
  obtain ⟨h1, h2⟩ := filled_fixed b hb
  rw [hout, toString_fixed exact o fuel b out h1 h2 hout]

/-- A document of a heading and an indented stack. -/
def page : Block :=
  .stack 1 [.line [str "* ", str "title"], .line [.text [.spaces 2], .stack 1 [str "one", .line [], str "two"]]]

example : Sane defaults ∧ Filled page ∧ volume page < 1000000000 := by
  refine ⟨by constructor <;> decide +kernel, ?_, by decide⟩
  simp [page, str, Filled, AllFilled, picture, rowPicture, columnPicture, besideO, aboveO]

example : printed (picture page) = "* title\n  one\n  two".toList := by decide +kernel

/-- Ten and sixty characters. -/
def ten : Block := .text [.str (List.replicate 10 'a')]
def sixty : Block := .text [.str (List.replicate 60 'a')]

/-- Two alternatives of the same costs. -/
def tie : Block := .choice [.stack 1 [ten, ten, .text [.str []]], .stack 1 [sixty, sixty]]

deriving instance DecidableEq for Seg

instance : Inhabited (Seg Rat) := ⟨⟨0, 0, 0, 0, .nil⟩⟩

theorem vSumLoop_more {C : Type} (A : Arith C) : ∀ (n : Nat) (cs : List (Cursor C)) (res : Sol C) (m : Int) (r : Sol C),
    vSumLoop A n cs res m = .ok r → ∀ k, vSumLoop A (n + k) cs res m = .ok r := by
  intro n
  induction n with
  | zero => intro cs res m r h; cases h
  | succ n ih =>
    intro cs res m r h k
    rw [show n + 1 + k = (n + k) + 1 by omega]
    simp only [vSumLoop, bind, Except.bind] at h ⊢
    split at h
    · cases h
    · split at h
      · cases h
      · split at h
        · cases h
        · split at h
          · next hi =>
            rw [if_pos hi]
            exact h
          · next hi =>
            rw [if_neg hi]
            split at h
            · cases h
            · exact ih _ _ _ _ h k

theorem vSum_more {C : Type} (A : Arith C) {n : Nat} {ss : List (Sol C)} {r : Sol C} (h : vSum A n ss = .ok r) (k : Nat) :
    vSum A (n + k) ss = .ok r := by
  match ss with
  | [] => cases h
  | [s] => exact h
  | s :: t :: ss => exact vSumLoop_more A _ _ _ _ _ h k

/-- If the least crossover is the margin itself, nothing changes. -/
theorem minLoop_stuck {C : Type} (A : Arith C) (cs : List (Cursor C)) (kL : Int) (gs : List (Seg C)) (k : Int) (ks : List Int) (v : C)
    (vs : List C) (i : Nat) (mv : C) (g : Seg C) (c : Cursor C) (x : Int) (xs : List Int) (hlow : kL < infty) (hcs : curs cs = .ok gs)
    (hk : (cs.map fun c => nextKnot c.1 c.2) = k :: ks) (hv : (gs.map fun g => valueAt A g kL) = v :: vs)
    (hmin : minFrom A (0, v) 1 vs = (i, mv)) (hg : gs[i]? = some g) (hc : cs[i]? = some c)
    (hx : crossovers A kL (leastInt k ks - 1) mv g.grad (gs.map fun h => (valueAt A h kL, h.grad)) = x :: xs)
    (hl : leastInt x xs = kL) :
    ∀ (n : Nat) (fac : Sol C) (last : Option (Nat × Nat)) (out : Sol C), minLoop A n cs fac kL last ≠ .ok out := by
  intro n
  induction n with
  | zero => intro fac last out h; cases h
  | succ n ih =>
    intro fac last out h
    simp only [minLoop, if_pos hlow, hk, hcs, hv, hmin, hg, hc, hx, hl, bind, Except.bind] at h
    split at h
    · cases h
    · exact ih _ _ _ h

/-- The solutions of the two alternatives. -/
def tie1 : Sol Rat :=
  match opt exact defaults 10 (.stack 1 [ten, ten, .text [.str []]]) none with
  | .ok (some s) => s
  | _ => []

def tie2 : Sol Rat :=
  match opt exact defaults 10 (.stack 1 [sixty, sixty]) none with
  | .ok (some s) => s
  | _ => []

theorem stack_more {n : Nat} {mult : Int} {ps : List (List Piece)} {s t : Option (Sol Rat)}
    (h : opt exact defaults n (.stack mult (ps.map .text)) none = .ok s) {m : Nat}
    (hm : opt exact defaults m (.stack mult (ps.map .text)) none = .ok t) : s = t := by
  have hstack : ∀ (n m : Nat) (ps : List (List Piece)), optStack exact defaults n (ps.map .text) none
      = optStack exact defaults m (ps.map .text) none := by
    intro n m ps
    induction ps with
    | nil => simp [optStack]
    | cons p ps ih =>
      cases ps with
      | nil => simp [optStack, opt, optText, withRest]
      | cons q ps =>
        simp only [List.map_cons] at ih
        simp only [List.map_cons, optStack, opt, optText, withRest, ih]
  cases ps with
  | nil =>
    simp [opt] at h hm
    rw [← h, ← hm]
  | cons p ps =>
    simp only [List.map_cons, opt, bind, Except.bind] at h hm
    have e := hstack n m (p :: ps)
    simp only [List.map_cons] at e
    rw [e] at h
    split at h
    · cases h
    · next ss hss =>
      rw [hss] at hm
      simp only at hm
      split at h
      · cases h
      · next r hr =>
        split at hm
        · cases hm
        · next r' hr' =>
          have h1 := vSum_more exact hr m
          have h2 := vSum_more exact hr' n
          rw [Nat.add_comm] at h2
          rw [h1] at h2
          cases h2
          rw [h] at hm
          cases hm
          rfl

theorem choice_ok {C : Type} (A : Arith C) (o : Options C) {n : Nat} {a b : Block} {t : Option (Sol C)}
    (h : opt A o n (.choice [a, b]) none = .ok t) :
    ∃ s1 s2 r, opt A o n a none = .ok s1 ∧ opt A o n b none = .ok s2 ∧ minSolution A n ([s1, s2].filterMap id) = .ok r := by
  simp only [opt, optEach, bind, Except.bind] at h
  split at h
  · cases h
  · next ss hss =>
    split at h
    · cases h
    · next r hr =>
      split at hss
      · cases hss
      · next s1 h1 =>
        split at hss
        · cases hss
        · next ss2 hss2 =>
          split at hss2
          · cases hss2
          · next s2 h2 =>
            cases hss2
            cases hss
            exact ⟨s1, s2, r, h1, h2, hr⟩

/-- Two alternatives with the same costs, of which the second one becomes cheaper to the right: the loop
does not end. -/
theorem tie_never : ∀ (n : Nat) (out : List Char), toString exact defaults n tie ≠ .ok out := by
  intro n out h
  unfold toString at h
  rw [if_neg (by decide)] at h
  simp only [bind, Except.bind] at h
  split at h
  · cases h
  · next t ht =>
    obtain ⟨s1, s2, r, h1, h2, hm⟩ := choice_ok exact defaults ht
    have e1 : s1 = some tie1 := stack_more (ps := [[.str (List.replicate 10 'a')], [.str (List.replicate 10 'a')], [.str []]])
      h1 (m := 10) (by decide +kernel)
    have e2 : s2 = some tie2 := stack_more (ps := [[.str (List.replicate 60 'a')], [.str (List.replicate 60 'a')]])
      h2 (m := 10) (by decide +kernel)
    subst e1 e2
    refine minLoop_stuck exact [(tie1, 0), (tie2, 0)] 0 [tie1.headD default, tie2.headD default]
      (nextKnot tie1 0) [nextKnot tie2 0] 11 [11] 0 11 (tie1.headD default) (tie1, 0) 0 []
      (by decide) ?_ rfl ?_ ?_ rfl rfl ?_ rfl n [] none r hm
    all_goals decide +kernel

theorem returns_false : ¬ ReturnsStatement := by
  intro h
  obtain ⟨n, out, hout⟩ := h defaults (by constructor <;> decide +kernel) tie (by
    have solid : ∀ ps, Solid (.text ps) := by
      intro ps x hx
      simp only [Shows] at hx
      simp [hx]
    simp [tie, ten, sixty, Plain, AllPlain]
    exact ⟨solid _, solid _⟩)
  exact tie_never n out hout

end Verif.Layout
