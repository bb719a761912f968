import Verif.Layout.Opt

/-!
# Solutions have at least one entry
-/

namespace Verif.Layout
variable {C : Type}

theorem addSeg_ne {A : Arith C} {s s' : Sol C} {g : Seg C} (h : addSeg A s g = .ok s') : s' ≠ [] := by
  unfold addSeg at h
  split at h
  · next he =>
    cases h
    rintro rfl
    simp [extrapolates] at he
  · split at h
    · cases h
    · cases h; simp

theorem vSumLoop_ne {A : Arith C} {fuel : Nat} {cs : List (Cursor C)} {res s : Sol C} {m : Int}
    (h : vSumLoop A fuel cs res m = .ok s) : s ≠ [] := by
  induction fuel generalizing cs res m with
  | zero => cases h
  | succ fuel ih =>
    simp only [vSumLoop, bind, Except.bind] at h
    split at h
    · cases h
    · split at h
      · cases h
      · split at h
        · cases h
        · next hres =>
          split at h
          · cases h; exact addSeg_ne hres
          · split at h
            · cases h
            · exact ih h

theorem vSum_ne {A : Arith C} {fuel : Nat} {ss : List (Sol C)} {s : Sol C} (hss : [] ∉ ss)
    (h : vSum A fuel ss = .ok s) : s ≠ [] := by
  match ss with
  | [] => cases h
  | [s'] => cases h; rintro rfl; simp at hss
  | s1 :: s2 :: ss => exact vSumLoop_ne h

theorem minLoop_ne {A : Arith C} {fuel : Nat} {cs : List (Cursor C)} {fac s : Sol C} {k : Int} {last : Option (Nat × Nat)}
    (hf : fac ≠ [] ∨ (last = none ∧ k < infty)) (h : minLoop A fuel cs fac k last = .ok s) : s ≠ [] := by
  induction fuel generalizing cs fac k last with
  | zero => cases h
  | succ fuel ih =>
    rw [minLoop] at h
    split at h
    · split at h
      · cases h
      · simp only [bind, Except.bind] at h
        split at h
        · cases h
        · split at h
          · cases h
          · split at h
            · split at h
              · cases h
              · next fac' hfac =>
                have hf' : fac' ≠ [] := by
                  unfold addMin at hfac
                  split at hfac
                  · exact addSeg_ne hfac
                  · next hn =>
                    cases hfac
                    rcases hf with hf | ⟨hl, -⟩
                    · exact hf
                    · exfalso; exact hn (by rw [hl]; simp)
                split at h
                · exact ih (Or.inl hf') h
                · split at h
                  · cases h
                  · exact ih (Or.inl hf') h
            · cases h
    · next hk =>
      cases h
      rcases hf with hf | ⟨-, hk'⟩
      · exact hf
      · exact absurd hk' hk

theorem min_ne {A : Arith C} {fuel : Nat} {ss : List (Sol C)} {s : Sol C} (hss : [] ∉ ss)
    (h : minSolution A fuel ss = .ok s) : s ≠ [] := by
  unfold minSolution at h
  split at h
  · cases h; rintro rfl; simp at hss
  · exact minLoop_ne (Or.inr ⟨rfl, by decide⟩) h

theorem hPlusLoop_ne {A : Arith C} {o : Options C} {s1 s2 : Sol C} {fuel i1 i2 : Nat} {m1 m2 : Int} {res s : Sol C}
    (h : hPlusLoop A o s1 s2 fuel i1 i2 m1 m2 res = .ok s) : s ≠ [] := by
  induction fuel generalizing i1 i2 m1 m2 res with
  | zero => cases h
  | succ fuel ih =>
    simp only [hPlusLoop, bind, Except.bind] at h
    split at h
    · cases h
    · split at h
      · cases h
      · split at h
        · cases h
        · next hres =>
          split at h
          · cases h; exact addSeg_ne hres
          · split at h
            · split at h
              · cases h
              · split at h
                · cases h
                · exact ih h
            · exact ih h

theorem withRest_ne {A : Arith C} {o : Options C} {fuel : Nat} {s1 s2 s : Option (Sol C)} (h1 : s1 ≠ some [])
    (h : withRest A o fuel s1 s2 = .ok s) : s ≠ some [] := by
  cases s2 with
  | none => cases h; exact h1
  | some r =>
    cases s1 with
    | none => cases h
    | some s1 =>
      simp only [withRest, hPlus, bind, Except.bind] at h
      split at h
      · cases h
      · next t ht =>
        cases h
        split at ht
        · cases ht
        · split at ht
          · cases ht
          · simpa using hPlusLoop_ne ht

theorem plusConst_ne {A : Arith C} {s : Sol C} {v : C} (h : s ≠ []) : plusConst A s v ≠ [] := by
  simpa [plusConst] using h

theorem textSol_ne (A : Arith C) (o : Options C) (ps : List Piece) : textSol A o ps ≠ [] := by
  simp only [textSol]
  split
  · simp
  · split <;> simp

theorem optText_ne {A : Arith C} {o : Options C} {fuel : Nat} {ps : List Piece} {rest s : Option (Sol C)}
    (h : optText A o fuel ps rest = .ok s) : s ≠ some [] :=
  withRest_ne (s1 := some (textSol A o ps)) (by simpa using textSol_ne A o ps) h

theorem wrapLine_ne {A : Arith C} {o : Options C} {fuel : Nat} {mult : Int} {sep rest : Option (Sol C)} :
    ∀ {els ws : List (Option (Sol C))} {line : Option (Sol C)} {sols : List (Sol C)}, line ≠ some [] →
    wrapLine A o fuel mult sep rest line els ws = .ok sols → [] ∉ sols := by
  intro els
  induction els with
  | nil =>
    intro ws line sols hl h
    simp only [wrapLine, bind, Except.bind] at h
    split at h
    · cases h
    · next l hlr =>
      split at h
      · cases h
      · next l' hl' =>
        cases h
        have := withRest_ne hl hlr
        cases l with
        | none => cases hl'
        | some l => cases hl'; simpa using fun h => this (by rw [← h])
  | cons e els ih =>
    intro ws line sols hl h
    simp only [wrapLine, bind, Except.bind] at h
    split at h
    · cases h
    · split at h
      · cases h
      · split at h
        · cases h
        · split at h
          · cases h
          · next full hfull =>
            split at h
            · cases h
            · split at h
              · cases h
              · next line' hline' =>
                split at h
                · cases h
                · next more hmore =>
                  cases h
                  simp only [List.mem_cons, not_or]
                  refine ⟨?_, ih (withRest_ne hl hline') hmore⟩
                  exact fun hh => plusConst_ne (vSumLoop_ne hfull) hh.symm

theorem wrapSols_ne {A : Arith C} {o : Options C} {fuel : Nat} {mult : Int} {pre sep rest : Option (Sol C)} (hpre : pre ≠ some []) :
    ∀ {els ws : List (Option (Sol C))}, some [] ∉ els → wrapSols A o fuel mult pre sep rest els = .ok ws → some [] ∉ ws := by
  intro els
  induction els with
  | nil => intro ws _ h; cases h; simp
  | cons e els ih =>
    intro ws he h
    simp only [List.mem_cons, not_or] at he
    simp only [wrapSols, bind, Except.bind] at h
    split at h
    · cases h
    · next ws' hws' =>
      split at h
      · cases h
      · next line hline =>
        split at h
        · cases h
        · next sols hsols =>
          split at h
          · cases h
          · next w hw =>
            cases h
            have hl : line ≠ some [] := by
              unfold firstInLine at hline
              split at hline
              · exact withRest_ne hpre hline
              · cases hline; exact fun hh => he.1 hh.symm
            have := min_ne (wrapLine_ne hl hsols) hw
            simp only [List.mem_cons, Option.some.injEq, not_or]
            exact ⟨fun hh => this hh.symm, ih he.2 hws'⟩

mutual

theorem opt_ne (A : Arith C) (o : Options C) (fuel : Nat) (b : Block) (rest s : Option (Sol C)) (hr : rest ≠ some [])
    (h : opt A o fuel b rest = .ok s) : s ≠ some [] := by
  match b with
  | .text ps => exact optText_ne (by simpa only [opt] using h)
  | .line [] => simp only [opt] at h; cases h; exact hr
  | .line (b :: bs) =>
    simp only [opt, bind, Except.bind] at h
    split at h
    · cases h
    · next r hrr =>
      have := optLine_ne A o fuel (b :: bs) rest r hr hrr
      split at h
      · cases h
      · next t ht =>
        cases h
        simp only [ne_eq, Option.some.injEq]
        refine plusConst_ne (vSum_ne ?_ ht)
        cases r with
        | none => simp
        | some r => simpa using fun hh => this (by rw [← hh])
  | .stack mult [] => simp only [opt] at h; cases h; exact hr
  | .stack mult (b :: bs) =>
    simp only [opt, bind, Except.bind] at h
    split at h
    · cases h
    · next ss hss =>
      split at h
      · cases h
      · next t ht =>
        split at h
        · cases h; exact hr
        · cases h
          simp only [ne_eq, Option.some.injEq]
          exact plusConst_ne (vSum_ne (optStack_ne A o fuel (b :: bs) rest ss hr hss) ht)
  | .choice bs =>
    simp only [opt, bind, Except.bind] at h
    split at h
    · cases h
    · next ss hss =>
      split at h
      · cases h
      · next t ht =>
        cases h
        simp only [ne_eq, Option.some.injEq]
        refine min_ne ?_ ht
        simpa using optEach_ne A o fuel bs rest ss hr hss
  | .wrap mult pre sep bs =>
    simp only [opt, bind, Except.bind] at h
    split at h
    · cases h
    · split at h
      · cases h
      · next preS hpre =>
        split at h
        · cases h
        · next els hels =>
          split at h
          · cases h
          · next ws hws =>
            have hp : preS ≠ some [] := by
              unfold optPrefix at hpre
              split at hpre
              · exact optText_ne hpre
              · cases hpre; simp
            have := wrapSols_ne hp (optEach_ne A o fuel bs none els (by simp) hels) hws
            split at h
            · cases h
            · cases h
              simp only [List.mem_cons, not_or] at this
              exact fun hh => this.1 hh.symm
  | .verb _ _ => cases h
  | .empty => cases h; simp

theorem optLine_ne (A : Arith C) (o : Options C) (fuel : Nat) (bs : List Block) (rest s : Option (Sol C)) (hr : rest ≠ some [])
    (h : optLine A o fuel bs rest = .ok s) : s ≠ some [] := by
  match bs with
  | [] => simp only [optLine] at h; cases h; exact hr
  | b :: bs =>
    simp only [optLine, bind, Except.bind] at h
    split at h
    · cases h
    · next r hrr => exact opt_ne A o fuel b r s (optLine_ne A o fuel bs rest r hr hrr) h

theorem optEach_ne (A : Arith C) (o : Options C) (fuel : Nat) (bs : List Block) (rest : Option (Sol C))
    (ss : List (Option (Sol C))) (hr : rest ≠ some []) (h : optEach A o fuel bs rest = .ok ss) : some [] ∉ ss := by
  match bs with
  | [] => simp only [optEach] at h; cases h; simp
  | b :: bs =>
    simp only [optEach, bind, Except.bind] at h
    split at h
    · cases h
    · next s hs =>
      split at h
      · cases h
      · next ss' hss =>
        cases h
        simp only [List.mem_cons, not_or]
        exact ⟨fun hh => opt_ne A o fuel b rest s hr hs hh.symm, optEach_ne A o fuel bs rest ss' hr hss⟩

theorem optStack_ne (A : Arith C) (o : Options C) (fuel : Nat) (bs : List Block) (rest : Option (Sol C))
    (ss : List (Sol C)) (hr : rest ≠ some []) (h : optStack A o fuel bs rest = .ok ss) : [] ∉ ss := by
  match bs with
  | [] => simp only [optStack] at h; cases h; simp
  | [b] =>
    simp only [optStack, bind, Except.bind] at h
    split at h
    · cases h
    · next s hs =>
      cases h
      have := opt_ne A o fuel b rest s hr hs
      cases s with
      | none => simp
      | some s => simpa using fun hh => this (by rw [← hh])
  | b :: b' :: bs =>
    simp only [optStack, bind, Except.bind] at h
    split at h
    · cases h
    · next s hs =>
      split at h
      · cases h
      · next ss' hss =>
        cases h
        have h1 := opt_ne A o fuel b none s (by simp) hs
        have h2 := optStack_ne A o fuel (b' :: bs) rest ss' hr hss
        cases s with
        | none => simpa using h2
        | some s =>
          simp only [Option.toList_some, List.cons_append, List.nil_append, List.mem_cons, not_or]
          exact ⟨fun hh => h1 (by rw [← hh]), h2⟩

end

end Verif.Layout
