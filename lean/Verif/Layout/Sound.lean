import Verif.Layout.Boxes
import Mathlib.Data.List.Forall2

/-!
# Solutions only have pictures the blocks can show
-/

namespace Verif.Layout
variable {C : Type}

/-- Every entry of the solution has a picture with property `P`, and knows the length of its last line. -/
def Holds (P : Box → Prop) (s : Sol C) : Prop :=
  ∀ g ∈ s, P (linesAt g.lay 0) ∧ g.span = lastLen (linesAt g.lay 0)

theorem Holds.mono {P Q : Box → Prop} {s : Sol C} (h : Holds P s) (hpq : ∀ b, b ≠ [] → P b → Q b) : Holds Q s :=
  fun g hg => ⟨hpq _ (linesAt_ne_nil _ _) (h g hg).1, (h g hg).2⟩

theorem holds_nil (P : Box → Prop) : Holds P ([] : Sol C) := fun _ h => absurd h (by simp)

theorem holds_addSeg {P : Box → Prop} {A : Arith C} {s s' : Sol C} {g : Seg C} (hs : Holds P s)
    (hg : P (linesAt g.lay 0) ∧ g.span = lastLen (linesAt g.lay 0)) (h : addSeg A s g = .ok s') : Holds P s' := by
  unfold addSeg at h
  split at h
  · cases h; exact hs
  · split at h
    · cases h
    · cases h
      intro x hx
      rcases List.mem_append.mp hx with hx | hx
      · exact hs x hx
      · rw [List.mem_singleton.mp hx]; exact hg

theorem holds_plusConst {P : Box → Prop} (A : Arith C) {s : Sol C} (v : C) (hs : Holds P s) :
    Holds P (plusConst A s v) := by
  intro g hg
  obtain ⟨g', hg', rfl⟩ := List.mem_map.mp hg
  exact hs g' hg'

theorem cur_mem {s : Sol C} {i : Nat} {g : Seg C} (h : cur s i = .ok g) : g ∈ s := by
  unfold cur at h
  split at h
  · next g' hg =>
    cases h
    exact List.mem_of_getElem? hg
  · cases h

theorem curs_mem {cs : List (Cursor C)} {gs : List (Seg C)} (h : curs cs = .ok gs) :
    List.Forall₂ (fun g s => g ∈ s) gs (cs.map Prod.fst) := by
  induction cs generalizing gs with
  | nil => cases h; exact List.Forall₂.nil
  | cons c cs ih =>
    obtain ⟨s, i⟩ := c
    simp only [curs, bind, Except.bind] at h
    split at h
    · cases h
    · next g hg =>
      split at h
      · cases h
      · next gs' hgs =>
        cases h
        exact List.Forall₂.cons (cur_mem hg) (ih hgs)

theorem movesTo_fst {m : Int} {cs cs' : List (Cursor C)} (h : movesTo m cs = .ok cs') :
    cs'.map Prod.fst = cs.map Prod.fst := by
  induction cs generalizing cs' with
  | nil => cases h; rfl
  | cons c cs ih =>
    obtain ⟨s, i⟩ := c
    simp only [movesTo, bind, Except.bind] at h
    split at h
    · cases h
    · split at h
      · cases h
      · next cs'' hcs =>
        cases h
        simp [ih hcs]

theorem linesAt_stacked (ls : List Lay) (h : ls ≠ []) : linesAt (getStacked ls) 0 = (ls.map (linesAt · 0)).flatten := by
  match ls with
  | [] => exact absurd rfl h
  | [l] => simp [getStacked]
  | l :: l' :: ls =>
    simp only [getStacked]
    rw [linesAt_append, linesAt_stacked (l' :: ls) (by simp)]
    rfl

theorem vSumLoop_holds {P : Box → Prop} (A : Arith C) (fuel : Nat) (cs : List (Cursor C)) (res s : Sol C) (m : Int)
    (hP : ∀ gs : List (Seg C), gs ≠ [] → List.Forall₂ (fun g s => g ∈ s) gs (cs.map Prod.fst) →
      P (linesAt (getStacked (gs.map (·.lay))) 0) ∧
        ∀ l, gs.getLast? = some l → l.span = lastLen (linesAt (getStacked (gs.map (·.lay))) 0))
    (hres : Holds P res) (h : vSumLoop A fuel cs res m = .ok s) : Holds P s := by
  induction fuel generalizing cs res m with
  | zero => cases h
  | succ fuel ih =>
    simp only [vSumLoop, bind, Except.bind] at h
    split at h
    · cases h
    · next gs hgs =>
      split at h
      · cases h
      · next l hl =>
        have hne : gs ≠ [] := by rintro rfl; cases hl
        have hg := hP gs hne (curs_mem hgs)
        split at h
        · cases h
        · next res' hres' =>
          have hr : Holds P res' := holds_addSeg hres ⟨hg.1, hg.2 l hl⟩ hres'
          split at h
          · cases h; exact hr
          · split at h
            · cases h
            · next cs' hcs =>
              refine ih cs' res' _ ?_ hr h
              rw [movesTo_fst hcs]
              exact hP

/-- Pictures of a column: the pictures of the elements below each other. -/
theorem vSum_holds {Ps : List (Box → Prop)} (A : Arith C) (fuel : Nat) {ss : List (Sol C)} {s : Sol C}
    (hss : List.Forall₂ Holds Ps ss) (h : vSum A fuel ss = .ok s) :
    Holds (fun b => ∃ bs : List Box, List.Forall₂ (fun (P : Box → Prop) b => P b ∧ b ≠ []) Ps bs ∧ b = bs.flatten) s := by
  match ss with
  | [] => cases h
  | [s'] =>
    cases h
    cases hss with
    | cons hP hn =>
      cases hn
      intro g hg
      refine ⟨⟨[linesAt g.lay 0], ?_, by simp⟩, (hP g hg).2⟩
      exact List.Forall₂.cons ⟨(hP g hg).1, linesAt_ne_nil _ _⟩ List.Forall₂.nil
  | s1 :: s2 :: ss =>
    refine vSumLoop_holds A fuel _ [] s 0 ?_ (holds_nil _) h
    intro gs hne hgs
    rw [List.map_map, show (Prod.fst ∘ fun (x : Sol C) => (x, 0)) = id from rfl, List.map_id] at hgs
    have hl := linesAt_stacked (gs.map (·.lay)) (by simpa using hne)
    have key : ∀ (Ps : List (Box → Prop)) (gs : List (Seg C)) (ss : List (Sol C)), List.Forall₂ Holds Ps ss →
        List.Forall₂ (fun g s => g ∈ s) gs ss →
        List.Forall₂ (fun (P : Box → Prop) b => P b ∧ b ≠ []) Ps (gs.map fun g => linesAt g.lay 0) := by
      intro Ps gs ss h1 h2
      induction h2 generalizing Ps with
      | nil => cases h1; exact List.Forall₂.nil
      | cons hg _ ih =>
        cases h1 with
        | cons hP hrest => exact List.Forall₂.cons ⟨(hP _ hg).1, linesAt_ne_nil _ _⟩ (ih _ hrest)
    refine ⟨⟨gs.map fun g => linesAt g.lay 0, key Ps gs _ hss hgs, ?_⟩, ?_⟩
    · rw [hl, List.map_map]; rfl
    · intro l hlast
      rw [hl]
      have : ∀ (Ps : List (Box → Prop)) (gs : List (Seg C)) (ss : List (Sol C)), List.Forall₂ Holds Ps ss →
          List.Forall₂ (fun g s => g ∈ s) gs ss → gs.getLast? = some l → l.span = lastLen (linesAt l.lay 0) := by
        intro Ps gs ss h1 h2 h3
        induction h2 generalizing Ps with
        | nil => cases h3
        | @cons g s gs ss hg hgs' ih =>
          cases h1 with
          | cons hP hrest =>
            cases gs with
            | nil =>
              simp at h3; subst h3
              exact (hP _ hg).2
            | cons g' gs => exact ih _ hrest (by simpa using h3)
      rw [this Ps gs _ hss hgs hlast]
      obtain ⟨pre, rfl⟩ := List.getLast?_eq_some_iff.mp hlast
      simp only [List.map_append, List.map_cons, List.map_nil, List.flatten_append, List.flatten_cons,
        List.flatten_nil, List.append_nil]
      rw [lastLen_append _ _ (linesAt_ne_nil _ _)]

theorem mem_of_forall2 {gs : List (Seg C)} {ss : List (Sol C)} {g : Seg C} (h : List.Forall₂ (fun g s => g ∈ s) gs ss)
    (hg : g ∈ gs) : ∃ s, s ∈ ss ∧ g ∈ s := by
  induction h with
  | nil => cases hg
  | cons hx _ ih =>
    rcases List.mem_cons.mp hg with rfl | hg
    · exact ⟨_, by simp, hx⟩
    · obtain ⟨s', h1, h2⟩ := ih hg
      exact ⟨s', by simp [h1], h2⟩

theorem minLoop_holds {P : Box → Prop} (A : Arith C) (fuel : Nat) (cs : List (Cursor C)) (fac s : Sol C) (k : Int)
    (last : Option (Nat × Nat)) (hP : ∀ c ∈ cs.map Prod.fst, Holds P c) (hf : Holds P fac)
    (h : minLoop A fuel cs fac k last = .ok s) : Holds P s := by
  induction fuel generalizing cs fac k last with
  | zero => cases h
  | succ fuel ih =>
    rw [minLoop] at h
    split at h
    · split at h
      · cases h
      · simp only [bind, Except.bind] at h
        split at h
        · cases h
        · next gs hgs =>
          split at h
          · cases h
          · split at h
            · next g c hg hc =>
              have hgP : P (linesAt g.lay 0) ∧ g.span = lastLen (linesAt g.lay 0) := by
                obtain ⟨s', hs', hmem⟩ := mem_of_forall2 (curs_mem hgs) (List.mem_of_getElem? hg)
                exact hP s' hs' g hmem
              split at h
              · cases h
              · next fac' hfac =>
                have hf' : Holds P fac' := by
                  unfold addMin at hfac
                  split at hfac
                  · exact holds_addSeg hf (g := { knot := k, span := g.span, icpt := _, grad := g.grad, lay := g.lay }) hgP hfac
                  · cases hfac; exact hf
                split at h
                · exact ih _ _ _ _ hP hf' h
                · split at h
                  · cases h
                  · next cs' hcs =>
                    refine ih cs' _ _ _ ?_ hf' h
                    unfold movesBelow at hcs
                    split at hcs
                    · rw [movesTo_fst hcs]; exact hP
                    · cases hcs; exact hP
            · cases h
    · cases h; exact hf

theorem min_holds {P : Box → Prop} (A : Arith C) (fuel : Nat) {ss : List (Sol C)} {s : Sol C}
    (hP : ∀ c ∈ ss, Holds P c) (h : minSolution A fuel ss = .ok s) : Holds P s := by
  unfold minSolution at h
  split at h
  · cases h; exact hP _ (by simp)
  · refine minLoop_holds A fuel _ [] s 0 none ?_ (holds_nil _) h
    intro c hc
    rw [List.map_map, show (Prod.fst ∘ fun (x : Sol C) => (x, 0)) = id from rfl, List.map_id] at hc
    exact hP c hc

theorem hPlusLoop_holds {P Q : Box → Prop} (A : Arith C) (o : Options C) (s1 s2 : Sol C) (h1 : Holds P s1) (h2 : Holds Q s2)
    (fuel i1 i2 : Nat) (m1 m2 : Int) (res s : Sol C)
    (hres : Holds (fun b => ∃ x y, P x ∧ Q y ∧ x ≠ [] ∧ y ≠ [] ∧ b = beside x y) res)
    (h : hPlusLoop A o s1 s2 fuel i1 i2 m1 m2 res = .ok s) :
    Holds (fun b => ∃ x y, P x ∧ Q y ∧ x ≠ [] ∧ y ≠ [] ∧ b = beside x y) s := by
  induction fuel generalizing i1 i2 m1 m2 res with
  | zero => cases h
  | succ fuel ih =>
    simp only [hPlusLoop, bind, Except.bind] at h
    split at h
    · cases h
    · next g1 hg1 =>
      split at h
      · cases h
      · next g2 hg2 =>
        have p1 := h1 _ (cur_mem hg1)
        have p2 := h2 _ (cur_mem hg2)
        split at h
        · cases h
        · next res' hres' =>
          have hr := holds_addSeg hres (by
            refine ⟨⟨_, _, p1.1, p2.1, linesAt_ne_nil _ _, linesAt_ne_nil _ _, linesAt_print _ _⟩, ?_⟩
            show g1.span + g2.span = _
            rw [linesAt_print, lastLen_beside _ _ (linesAt_ne_nil _ _) (linesAt_ne_nil _ _), p1.2, p2.2]
            simp) hres'
          split at h
          · cases h; exact hr
          · split at h
            · split at h
              · cases h
              · split at h
                · cases h
                · exact ih _ _ _ _ _ hr h
            · exact ih _ _ _ _ _ hr h

theorem hPlus_holds {P Q : Box → Prop} (A : Arith C) (o : Options C) (fuel : Nat) {s1 s2 s : Sol C} (h1 : Holds P s1)
    (h2 : Holds Q s2) (h : hPlus A o fuel s1 s2 = .ok s) :
    Holds (fun b => ∃ x y, P x ∧ Q y ∧ x ≠ [] ∧ y ≠ [] ∧ b = beside x y) s := by
  simp only [hPlus, bind, Except.bind] at h
  split at h
  · cases h
  · split at h
    · cases h
    · exact hPlusLoop_holds A o s1 s2 h1 h2 _ _ _ _ _ _ _ (holds_nil _) h

/-- Solutions that may be missing; they stand for pictures that may show nothing. -/
def HoldsO (P : Option Box → Prop) : Option (Sol C) → Prop
  | none => P none
  | some s => Holds (fun b => P (some b)) s

theorem holdsO_some {P : Option Box → Prop} {s : Sol C} : HoldsO P (some s) ↔ Holds (fun b => P (some b)) s := Iff.rfl

theorem HoldsO.mono {P Q : Option Box → Prop} {s : Option (Sol C)} (h : HoldsO P s)
    (hpq : ∀ x, x ≠ some [] → P x → Q x) : HoldsO Q s := by
  cases s with
  | none => exact hpq _ (by simp) h
  | some s => exact Holds.mono (P := fun b => P (some b)) h fun b hb => hpq _ (by simpa using hb)

theorem HoldsO.mono_some {P Q : Option Box → Prop} {s : Sol C} (h : HoldsO P (some s))
    (hpq : ∀ b, b ≠ [] → P (some b) → Q (some b)) : HoldsO Q (some s) := Holds.mono (holdsO_some.mp h) hpq

theorem textSol_holds (A : Arith C) (o : Options C) (ps : List Piece) :
    Holds (fun b => b = shownText ps) (textSol A o ps) := by
  have key : linesAt (.string ps .nil) 0 = shownText ps := by
    simp [linesAt, glue, shownText]
  have hl : (spanLen ps : Int) = lastLen (linesAt (.string ps .nil) 0) := by
    rw [key]; simp [shownText, lastLen, length_chars]
  have all : ∀ g ∈ textSol A o ps, g.lay = .string ps .nil ∧ g.span = spanLen ps := by
    intro g hg
    simp only [textSol] at hg
    split at hg
    · simp at hg; subst hg; exact ⟨rfl, rfl⟩
    · split at hg
      · simp at hg; rcases hg with rfl | rfl <;> exact ⟨rfl, rfl⟩
      · simp at hg; rcases hg with rfl | rfl | rfl <;> exact ⟨rfl, rfl⟩
  intro g hg
  obtain ⟨e1, e2⟩ := all g hg
  rw [e1, e2]
  exact ⟨key, hl⟩

theorem withRest_holds {P Q : Option Box → Prop} (A : Arith C) (o : Options C) (fuel : Nat) {s1 s2 s : Option (Sol C)}
    (h1 : HoldsO P s1) (h2 : HoldsO Q s2) (h : withRest A o fuel s1 s2 = .ok s) :
    HoldsO (fun x => ∃ y z, P y ∧ Q z ∧ y ≠ some [] ∧ z ≠ some [] ∧ x = besideO y z) s := by
  cases s2 with
  | none =>
    cases h
    cases s1 with
    | none => exact ⟨none, none, h1, h2, by simp, by simp, rfl⟩
    | some s1 =>
      rw [holdsO_some]
      refine Holds.mono (P := fun b => P (some b)) h1 fun b hb hP => ⟨some b, none, hP, h2, by simpa using hb, by simp, rfl⟩
  | some r =>
    cases s1 with
    | none => cases h
    | some s1 =>
      simp only [withRest, bind, Except.bind] at h
      split at h
      · cases h
      · next t ht =>
        cases h
        rw [holdsO_some]
        refine Holds.mono (hPlus_holds (P := fun b => P (some b)) (Q := fun b => Q (some b)) A o fuel h1 h2 ht) ?_
        rintro b - ⟨x, y, hx, hy, hxn, hyn, rfl⟩
        exact ⟨some x, some y, hx, hy, by simpa using hxn, by simpa using hyn, rfl⟩

end Verif.Layout
