import Verif.Layout.Sound

/-!
# The layouter only shows pictures of the block
-/

namespace Verif.Layout
variable {C : Type}

theorem besideO_none (x : Option Box) : besideO x none = x := by cases x <;> rfl

theorem besideO_ne {x y : Option Box} (hx : x ≠ some []) (hy : y ≠ some []) : besideO x y ≠ some [] := by
  cases x with
  | none => exact hy
  | some a =>
    cases y with
    | none => exact hx
    | some b =>
      simp only [besideO, ne_eq, Option.some.injEq]
      exact beside_ne_nil (by simpa using hx)

theorem besideO_assoc {x y z : Option Box} (hx : x ≠ some []) (hy : y ≠ some []) :
    besideO (besideO x y) z = besideO x (besideO y z) := by
  cases x with
  | none => rfl
  | some a =>
    cases y with
    | none => rfl
    | some b =>
      cases z with
      | none => rfl
      | some c =>
        simp only [besideO]
        rw [beside_assoc _ _ _ (by simpa using hx) (by simpa using hy)]

theorem besideO_above {x y z : Option Box} (hy : y ≠ some []) (hn : y ≠ none) :
    besideO (aboveO x y) z = aboveO x (besideO y z) := by
  cases y with
  | none => exact absurd rfl hn
  | some b =>
    cases x with
    | none => rfl
    | some a =>
      cases z with
      | none => rfl
      | some c =>
        simp only [aboveO, besideO]
        rw [beside_append _ _ _ (by simpa using hy)]

theorem aboveO_ne {x y : Option Box} (hx : x ≠ some []) (hy : y ≠ some []) : aboveO x y ≠ some [] := by
  cases x with
  | none => exact hy
  | some a =>
    cases y with
    | none => exact hx
    | some b =>
      simp only [aboveO, ne_eq, Option.some.injEq, List.append_eq_nil_iff, not_and]
      intro h
      exact absurd (by rw [h]) hx

theorem besideO_eq_none {x y : Option Box} (h : besideO x y = none) : x = none ∧ y = none := by
  cases x <;> cases y <;> simp_all [besideO]

theorem row_ne {sep : Option Box} {xs : List (Option Box)} (hs : sep ≠ some []) (hx : ∀ x ∈ xs, x ≠ some []) :
    row sep xs ≠ some [] := by
  match xs with
  | [] => simp [row]
  | [x] => exact hx x (by simp)
  | x :: y :: ys =>
    simp only [row]
    exact besideO_ne (hx x (by simp)) (besideO_ne hs (row_ne hs fun z hz => hx z (by simp_all)))

theorem row_snoc {sep : Option Box} {xs : List (Option Box)} (x : Option Box) (hs : sep ≠ some [])
    (hx : ∀ x ∈ xs, x ≠ some []) (hne : xs ≠ []) :
    row sep (xs ++ [x]) = besideO (row sep xs) (besideO sep x) := by
  match xs with
  | [] => exact absurd rfl hne
  | [y] => simp [row]
  | y :: z :: ys =>
    have ih := row_snoc (xs := z :: ys) x hs (fun w hw => hx w (by simp_all)) (by simp)
    simp only [List.cons_append, row] at ih ⊢
    have h0 : y ≠ some [] := hx y (by simp)
    have h1 : row sep (z :: ys) ≠ some [] := row_ne hs fun w hw => hx w (by simp_all)
    rw [besideO_assoc h0 (besideO_ne hs h1), besideO_assoc hs h1]
    rw [show row sep (z :: (ys ++ [x])) = besideO (row sep (z :: ys)) (besideO sep x) from ih]

/-- Pictures with the given properties. -/
abbrev Picks (Ps : List (Option Box → Prop)) (xs : List (Option Box)) : Prop :=
  List.Forall₂ (fun P x => P x ∧ x ≠ some []) Ps xs

theorem Picks.ne {Ps : List (Option Box → Prop)} {xs : List (Option Box)} (h : Picks Ps xs) : ∀ x ∈ xs, x ≠ some [] := by
  induction h with
  | nil => simp
  | cons hx _ ih =>
    intro x hm
    rcases List.mem_cons.mp hm with rfl | hm
    · exact hx.2
    · exact ih x hm

theorem Picks.append {Ps Qs : List (Option Box → Prop)} {xs ys : List (Option Box)} (h : Picks Ps xs) (h' : Picks Qs ys) :
    Picks (Ps ++ Qs) (xs ++ ys) := by
  induction h with
  | nil => exact h'
  | cons hx _ ih => exact List.Forall₂.cons hx ih

theorem Picks.nil_iff {Ps : List (Option Box → Prop)} {xs : List (Option Box)} (h : Picks Ps xs) : xs = [] ↔ Ps = [] := by
  cases h <;> simp

/-- Pictures of wrapped elements with the rest of the line. -/
def WrapPic (pre sep : Option Box) (R : Option Box → Prop) (Ps : List (Option Box → Prop)) (x : Option Box) : Prop :=
  ∃ xs y z, Picks Ps xs ∧ Wrapped pre sep xs y ∧ y ≠ none ∧ y ≠ some [] ∧ R z ∧ z ≠ some [] ∧ x = besideO y z

theorem wrapLine_holds (A : Arith C) (o : Options C) (fuel : Nat) (mult : Int) {pre : Option Box} {sepB : Box}
    (hsepB : sepB ≠ []) (hpre : pre ≠ some []) {R : Option Box → Prop} {sep : Sol C} {rest : Option (Sol C)}
    (hsep : Holds (fun b => b = sepB) sep) (hrest : HoldsO R rest) :
    ∀ (Ps : List (Option Box → Prop)) (els ws : List (Option (Sol C))) (Ds : List (Option Box → Prop))
      (line : Option (Sol C)) (sols : List (Sol C)),
    List.Forall₂ HoldsO Ps els →
    (∀ n w, ws[n]? = some w → n < Ps.length ∧ HoldsO (fun x => x ≠ none → WrapPic pre (some sepB) R (Ps.drop n) x) w) →
    Ds ≠ [] →
    HoldsO (fun x => ∃ xs, Picks Ds xs ∧ x = besideO pre (row (some sepB) xs)) line →
    wrapLine A o fuel mult (some sep) rest line els ws = .ok sols →
    ∀ s ∈ sols, Holds (fun b => WrapPic pre (some sepB) R (Ds ++ Ps) (some b)) s := by
  intro Ps els
  induction els generalizing Ps with
  | nil =>
    intro ws Ds line sols hP hws hD hline h s hs
    cases hP
    simp only [wrapLine, bind, Except.bind] at h
    split at h
    · cases h
    · next l hl =>
      split at h
      · cases h
      · next l' hl' =>
        cases h
        simp only [List.mem_singleton] at hs
        subst hs
        cases line with
        | none =>
          cases rest with
          | none => cases hl; cases hl'
          | some r => cases hl
        | some ln =>
          have hln : HoldsO (fun x => x ≠ none ∧ ∃ xs, Picks Ds xs ∧ x = besideO pre (row (some sepB) xs)) (some ln) :=
            HoldsO.mono_some hline fun b _ hb => ⟨by simp, hb⟩
          have := withRest_holds A o fuel hln hrest hl
          cases l with
          | none => cases hl'
          | some l =>
            cases hl'
            refine Holds.mono (holdsO_some.mp this) ?_
            rintro b - ⟨y, z, ⟨hyn, xs, hxs, rfl⟩, hR, hy, hz, hb⟩
            rw [List.append_nil]
            exact ⟨xs, _, z, hxs, Wrapped.one xs (by rw [ne_eq, hxs.nil_iff]; exact hD), hyn, hy, hR, hz, hb⟩
  | cons e els ih =>
    intro ws Ds line sols hP hws hD hline h s hs
    cases hP with
    | @cons P _ Ps' _ he hels =>
    simp only [wrapLine, bind, Except.bind] at h
    split at h
    · cases h
    · next a0 ha0 =>
      split at h
      · cases h
      · next a ha =>
        split at h
        · cases h
        · next w hw =>
          split at h
          · cases h
          · next full hfull =>
            split at h
            · cases h
            · next sepElt hsepElt =>
              split at h
              · cases h
              · next line' hline' =>
                split at h
                · cases h
                · next more hmore =>
                  cases h
                  cases line with
                  | none => cases ha0
                  | some ln =>
                    have hln : HoldsO (fun x => x ≠ none ∧ ∃ xs, Picks Ds xs ∧ x = besideO pre (row (some sepB) xs)) (some ln) :=
                      HoldsO.mono_some hline fun b _ hb => ⟨by simp, hb⟩
                    have hsepO : HoldsO (fun x => x = some sepB) (some sep) :=
                      holdsO_some.mpr (Holds.mono hsep fun b _ hb => by rw [hb])
                    rcases List.mem_cons.mp hs with rfl | hs
                    · refine holds_plusConst A _ ?_
                      have ha1 := withRest_holds A o fuel hln hsepO ha0
                      cases a0 with
                      | none => cases ha
                      | some a0 =>
                        cases ha
                        obtain ⟨w0, hw0⟩ : ∃ w0, ws[0]? = some (some w) ∧ w0 = w := by
                          cases ws with
                          | nil => cases hw
                          | cons w0 ws =>
                            cases w0 with
                            | none => cases hw
                            | some w0 => cases hw; exact ⟨_, rfl, rfl⟩
                        have hw1 := (hws 0 _ hw0.1).2
                        have := vSum_holds A fuel (Ps := [_, _]) (List.Forall₂.cons (holdsO_some.mp ha1) (List.Forall₂.cons (holdsO_some.mp hw1) List.Forall₂.nil)) hfull
                        refine Holds.mono this ?_
                        rintro b hb ⟨bs, hbs, rfl⟩
                        cases hbs with
                        | @cons _ b1 _ _ h1 hbs =>
                          cases hbs with
                          | @cons _ b2 _ _ h2 hbs =>
                            cases hbs
                            obtain ⟨⟨y1, z1, ⟨hy1n, xs, hxs, rfl⟩, rfl, hy1, -, hb1⟩, -⟩ := h1
                            obtain ⟨h2', hb2n⟩ := h2
                            obtain ⟨ys, y, z, hys, hyw, hyn, hyne, hR, hz, hb2⟩ := h2' (by simp)
                            refine ⟨xs ++ ys, _, z, hxs.append hys,
                              Wrapped.more xs ys y (by rw [ne_eq, hxs.nil_iff]; exact hD) hyw, ?_, ?_, hR, hz, ?_⟩
                            · rw [← hb1]
                              cases y with
                              | none => exact absurd rfl hyn
                              | some y => simp [aboveO]
                            · exact aboveO_ne (besideO_ne hy1 (by simpa using hsepB)) hyne
                            · rw [besideO_above hyne hyn, ← hb1, ← hb2]
                              simp [aboveO]
                    · have hsepElt' := withRest_holds A o fuel hsepO he hsepElt
                      have hline1 := withRest_holds A o fuel hln hsepElt' hline'
                      have := ih Ps' ws.tail (Ds ++ [P]) line' more hels ?_ (by simp) ?_ hmore s hs
                      · simpa using this
                      · intro n w' hw'
                        have := hws (n + 1) w' (by
                          cases ws with
                          | nil => simp at hw'
                          | cons x xs => simpa using hw')
                        refine ⟨by simpa using this.1, by simpa using this.2⟩
                      · refine HoldsO.mono hline1 ?_
                        rintro x - ⟨y, z, ⟨hyn, xs, hxs, rfl⟩, ⟨s', t, rfl, hPt, hs', ht, rfl⟩, hy, hz, rfl⟩
                        refine ⟨xs ++ [t], hxs.append (List.Forall₂.cons ⟨hPt, ht⟩ List.Forall₂.nil), ?_⟩
                        rw [row_snoc t (by simpa using hsepB) hxs.ne (by rw [ne_eq, hxs.nil_iff]; exact hD)]
                        rw [besideO_assoc hpre (row_ne (by simpa using hsepB) hxs.ne)]

theorem wrapSols_holds (A : Arith C) (o : Options C) (fuel : Nat) (mult : Int) {pre : Option Box} {sepB : Box}
    (hsepB : sepB ≠ []) (hpre : pre ≠ some []) {R : Option Box → Prop} {preS : Option (Sol C)} {sep : Sol C}
    {rest : Option (Sol C)} (hpreS : HoldsO (fun x => x = pre) preS) (hpn : preS = none → pre = none)
    (hsep : Holds (fun b => b = sepB) sep) (hrest : HoldsO R rest) :
    ∀ (els : List (Option (Sol C))) (Ps : List (Option Box → Prop)) (ws : List (Option (Sol C))),
    List.Forall₂ HoldsO Ps els → wrapSols A o fuel mult preS (some sep) rest els = .ok ws →
    (∀ n w, ws[n]? = some w → n < Ps.length ∧ w ≠ none ∧ HoldsO (fun x => x ≠ none → WrapPic pre (some sepB) R (Ps.drop n) x) w) := by
  intro els
  induction els with
  | nil =>
    intro Ps ws hP h n w hw
    cases h
    simp at hw
  | cons e els ih =>
    intro Ps ws hP h
    cases hP with
    | @cons P _ Ps' _ he hels =>
    simp only [wrapSols, bind, Except.bind] at h
    split at h
    · cases h
    · next ws' hws' =>
      have ihw := ih Ps' ws' hels hws'
      have hline : ∀ line, firstInLine A o fuel preS e = .ok line →
          HoldsO (fun x => ∃ xs, Picks [P] xs ∧ x = besideO pre (row (some sepB) xs)) line := by
        intro line hl
        unfold firstInLine at hl
        split at hl
        · have := withRest_holds A o fuel hpreS he hl
          refine HoldsO.mono this ?_
          rintro x - ⟨y, z, rfl, hPz, hy, hz, rfl⟩
          exact ⟨[z], List.Forall₂.cons ⟨hPz, hz⟩ List.Forall₂.nil, rfl⟩
        · cases hl
          refine HoldsO.mono he ?_
          intro x hx hPx
          refine ⟨[x], List.Forall₂.cons ⟨hPx, hx⟩ List.Forall₂.nil, ?_⟩
          rw [hpn rfl]; rfl
      split at h
      · cases h
      · next line hl =>
        split at h
        · cases h
        · next sols hsols =>
          split at h
          · cases h
          · next w hw =>
            cases h
            intro n w' hw'
            cases n with
            | zero =>
              simp at hw'
              subst hw'
              refine ⟨by simp, by simp, ?_⟩
              have := wrapLine_holds A o fuel mult hsepB hpre hsep hrest Ps' els ws' [P] line sols hels
                (fun n w hn => ⟨(ihw n w hn).1, (ihw n w hn).2.2⟩) (by simp) (hline line hl) hsols
              have := min_holds A fuel this hw
              exact holdsO_some.mpr (Holds.mono this fun b _ hb _ => by simpa using hb)
            | succ n =>
              have := ihw n w' (by simpa using hw')
              refine ⟨by simpa using this.1, this.2.1, by simpa using this.2.2⟩

end Verif.Layout
