import Verif.Graph.HierProps

/-! # C65, C66: crossings and ancestors -/

namespace Verif.Graph

open Relation

/-! ## C65: crossings -/

theorem anc_first {h : Hier} {v : V} {l : List V} (ha : h.Anc v l) {xs : List V} {w : V} {r : List V} (e : v :: l = v :: xs ++ w :: r) :
    ∃ p, h.getParent v = some p ∧ p :: l.tail = xs ++ w :: r ∧ h.Anc p l.tail := by
  simp only [List.cons_append, List.cons.injEq, true_and] at e
  cases ha with
  | root => exact absurd e.symm (by simp)
  | @up _ p l hu hl => exact ⟨p, hu, e, hl⟩

theorem lca_go {h : Hier} {P : V → Prop} (hP : ∀ x p, P x → h.getParent x = some p → P p) {L : V} {rest : List V} :
    ∀ (ut : List V) (v : V) (lv : List V) (ps : List V) (u : V) (fuel : Nat), h.Anc v lv → v :: lv = ut ++ L :: rest →
      (∀ x ∈ ut, ¬ P x) → (∀ x ∈ ps, P x) → P u →
      (L ∈ ps ∨ ∃ lu us, h.Anc u lu ∧ u :: lu = us ++ L :: rest ∧ us.length ≤ ut.length) → ut.length < fuel →
      h.lca fuel ps u v = some L := by
  intro ut
  induction ut with
  | nil =>
    intro v lv ps u fuel hv e _ _ _ hL hfu
    obtain ⟨fuel, rfl⟩ := Nat.exists_eq_succ_of_ne_zero (Nat.ne_of_gt hfu)
    simp only [List.nil_append, List.cons.injEq] at e
    obtain ⟨rfl, rfl⟩ := e
    have : v ∈ ps ++ [u] := by
      rcases hL with hL | ⟨lu, us, _, e, hlen⟩
      · simp [hL]
      · cases us with
        | nil => simp only [List.nil_append, List.cons.injEq] at e; simp [e.1]
        | cons x us => simp at hlen
    simp only [Hier.lca]
    rw [if_pos this]
  | cons x ut ih =>
    intro v lv ps u fuel hv e hut hps hu hL hfu
    obtain ⟨fuel, rfl⟩ := Nat.exists_eq_succ_of_ne_zero (show fuel ≠ 0 by omega)
    have ex : v = x := by simp only [List.cons_append, List.cons.injEq] at e; exact e.1
    subst ex
    obtain ⟨w, hw, e', hw'⟩ := anc_first hv e
    have hnot : v ∉ ps ++ [u] := by
      intro hm
      refine hut v (by simp) ?_
      rcases List.mem_append.1 hm with hm | hm
      · exact hps v hm
      · simp only [List.mem_singleton] at hm
        exact hm ▸ hu
    have hps' : ∀ x ∈ ps ++ [u], P x := by
      intro x hm
      rcases List.mem_append.1 hm with hm | hm
      · exact hps x hm
      · simp only [List.mem_singleton] at hm
        exact hm ▸ hu
    simp only [Hier.lca]
    rw [if_neg hnot]
    simp only [Hier.getParent] at hw
    simp only [hw]
    refine ih w lv.tail (ps ++ [u]) _ fuel hw' e' (fun y hy => hut y (List.mem_cons_of_mem _ hy)) hps' ?_ ?_ (by simp at hfu; omega)
    · cases hpu : get h.parent u with
      | none => exact hu
      | some p => exact hP u p hu hpu
    · rcases hL with hL | ⟨lu, us, hlu, eu, hlen⟩
      · exact .inl (by simp [hL])
      · cases us with
        | nil =>
          simp only [List.nil_append, List.cons.injEq] at eu
          exact .inl (by simp [eu.1])
        | cons y us =>
          have ey : u = y := by simp only [List.cons_append, List.cons.injEq] at eu; exact eu.1
          subst ey
          obtain ⟨p, hp, e2, hp'⟩ := anc_first hlu eu
          simp only [Hier.getParent] at hp
          refine .inr ⟨lu.tail, us, ?_, ?_, ?_⟩
          · simpa only [hp, Option.getD_some] using hp'
          · simpa only [hp, Option.getD_some] using e2
          · simp only [List.length_cons] at hlen
            omega

theorem climb_ok {h : Hier} {L : V} {rest : List V} : ∀ (xs : List V) (v : V) (lv : List V) (fuel : Nat), h.Anc v lv →
    v :: lv = xs ++ L :: rest → xs.length < fuel → h.climb L fuel v = .ok xs := by
  intro xs
  induction xs with
  | nil =>
    intro v lv fuel _ e hfu
    obtain ⟨fuel, rfl⟩ := Nat.exists_eq_succ_of_ne_zero (Nat.ne_of_gt hfu)
    simp only [List.nil_append, List.cons.injEq] at e
    simp only [Hier.climb]
    rw [if_pos e.1]
  | cons x xs ih =>
    intro v lv fuel hv e hfu
    obtain ⟨fuel, rfl⟩ := Nat.exists_eq_succ_of_ne_zero (show fuel ≠ 0 by omega)
    have ex : v = x := by simp only [List.cons_append, List.cons.injEq] at e; exact e.1
    subst ex
    have hne : v ≠ L := by
      have := anc_nodup hv
      rw [e] at this
      simp only [List.cons_append, List.nodup_cons, List.mem_append, List.mem_cons, not_or] at this
      exact this.1.2.1
    obtain ⟨w, hw, e', hw'⟩ := anc_first hv e
    simp only [Hier.getParent] at hw
    simp only [Hier.climb]
    rw [if_neg hne]
    simp only [hw, ih w lv.tail fuel hw' e' (by simp at hfu; omega)]

theorem filter_first {v : V} {l xs ys : List V} (hn : (v :: l).Nodup) (e : v :: l = xs ++ ys) (hx : xs ≠ []) :
    xs.filter (fun x => decide (x ≠ v)) = xs.tail := by
  cases xs with
  | nil => exact absurd rfl hx
  | cons x xs =>
    simp only [List.cons_append, List.cons.injEq] at e
    obtain ⟨rfl, rfl⟩ := e
    rw [List.nodup_cons] at hn
    simp only [List.filter_cons, ne_eq, not_true_eq_false, decide_false, Bool.false_eq_true, if_false, List.tail_cons]
    rw [List.filter_eq_self]
    intro y hy
    simp only [decide_eq_true_eq]
    rintro rfl
    exact hn.1 (by simp [hy])

/-- Two vertices of one tree have a lowest common ancestor `L`: the ways up from both meet there,
and share nothing before. -/
theorem meet {h : Hier} {s t : V} {ls lt : List V} (hs : h.Anc s ls) (ht : h.Anc t lt) (hc : ∃ c, h.Below c s ∧ h.Below c t) :
    ∃ us ut L rest, s :: ls = us ++ L :: rest ∧ t :: lt = ut ++ L :: rest ∧ ∀ x ∈ us, x ∉ ut := by
  obtain ⟨c, h1, h2⟩ := hc
  rw [below_iff hs] at h1
  rw [below_iff ht] at h2
  -- first vertex on the way from `s` that is also on the way from `t`
  have key : ∀ (a : List V), (∃ x ∈ a, x ∈ t :: lt) → ∃ us L r, a = us ++ L :: r ∧ L ∈ t :: lt ∧ ∀ x ∈ us, x ∉ t :: lt := by
    intro a
    induction a with
    | nil => rintro ⟨x, hx, _⟩; cases hx
    | cons y a ih =>
      rintro ⟨x, hx, hxt⟩
      by_cases hy : y ∈ t :: lt
      · exact ⟨[], y, a, rfl, hy, by simp⟩
      · rcases List.mem_cons.1 hx with rfl | hx
        · exact absurd hxt hy
        · obtain ⟨us, L, r, e, hL, hu⟩ := ih ⟨x, hx, hxt⟩
          refine ⟨y :: us, L, r, by rw [e]; rfl, hL, ?_⟩
          intro z hz
          rcases List.mem_cons.1 hz with rfl | hz
          · exact hy
          · exact hu z hz
  obtain ⟨us, L, r, e1, hL, hu⟩ := key (s :: ls) ⟨c, h1, h2⟩
  obtain ⟨ut, r', e2⟩ := List.append_of_mem hL
  have := anc_unique (anc_suffix hs e1) (anc_suffix ht e2)
  subst this
  refine ⟨us, ut, L, r, e1, e2, ?_⟩
  intro x hx hxt
  exact hu x hx (by rw [e2]; simp [hxt])

/-- What the code computes when the source is not deeper than the target: as specified, except
that the way down from a source that is itself an ancestor of the target is listed upwards. -/
theorem crossings_shallow {h : Hier} {s t L : V} {ls lt us ut rest : List V} (hs : h.Anc s ls) (ht : h.Anc t lt)
    (es : s :: ls = us ++ L :: rest) (et : t :: lt = ut ++ L :: rest) (hd : ∀ x ∈ us, x ∉ ut) (hle : us.length ≤ ut.length)
    {fuel : Nat} (hfu : ut.length < fuel) : h.crossings fuel s t = .ok (if us = [] then ut.tail else us.tail ++ ut.tail.reverse) := by
  have hns := anc_nodup hs
  have hnt := anc_nodup ht
  have hut : ∀ x ∈ ut, x ∉ s :: ls := by
    intro x hx hm
    rw [es] at hm
    rcases List.mem_append.1 hm with hm | hm
    · exact hd x hm hx
    · rw [et, List.nodup_append] at hnt
      exact hnt.2.2 x hx x hm rfl
  have hlca : h.lca fuel [] s t = some L := by
    refine lca_go (P := fun x => x ∈ s :: ls) ?_ ut t lt [] s fuel ht et hut (by simp) (by simp) (.inr ⟨ls, us, hs, es, hle⟩) hfu
    intro x p hx hp
    have := (below_iff hs).2 hx
    exact (below_iff hs).1 (ReflTransGen.head hp this)
  have hcs := climb_ok us s ls fuel hs es (by omega)
  have hct := climb_ok ut t lt fuel ht et hfu
  simp only [Hier.crossings]
  by_cases h1 : get h.parent s = none ∧ get h.parent t = none
  · rw [if_pos h1]
    have e1 := anc_unique hs (.root h1.1)
    have e2 := anc_unique ht (.root h1.2)
    subst e1 e2
    cases us with
    | nil =>
      cases ut with
      | nil => rfl
      | cons x ut => simp at et
    | cons x us => simp at es
  · rw [if_neg h1]
    by_cases h2 : (get h.parent s).isSome = true ∧ (get h.parent t).isSome = true ∧ get h.parent s = get h.parent t
    · rw [if_pos h2]
      obtain ⟨h3, _, h4⟩ := h2
      rw [Option.isSome_iff_exists] at h3
      obtain ⟨p, hp⟩ := h3
      rw [hp] at h4
      obtain ⟨_, _, hlp⟩ : ∃ l, ls = p :: l ∧ h.Anc p l := by
        cases hs with
        | root hr => simp only [Hier.getParent] at hr; rw [hr] at hp; cases hp
        | @up _ q l hu hl =>
          simp only [Hier.getParent] at hu
          rw [hu, Option.some.injEq] at hp
          subst hp
          exact ⟨l, rfl, hl⟩
      have el : ls = lt := by
        rename_i l e
        rw [e]
        exact (anc_unique ht (.up h4.symm hlp)).symm
      subst el
      cases us with
      | nil =>
        cases ut with
        | nil => rfl
        | cons x ut =>
          have := congrArg List.length es
          have := congrArg List.length et
          simp at *
          omega
      | cons x us =>
        cases ut with
        | nil => simp at hle
        | cons y ut =>
          simp only [List.cons_append, List.cons.injEq] at es et
          have e3 := List.append_cancel_right (es.2.symm.trans et.2)
          subst e3
          cases us with
          | nil => rfl
          | cons z us => exact absurd (show z ∈ y :: z :: us by simp) (hd z (by simp))
    · rw [if_neg h2]
      simp only [hlca]
      by_cases h3 : L = s
      · rw [if_pos h3]
        subst h3
        have hus : us = [] := by
          cases us with
          | nil => rfl
          | cons x us =>
            have := hns
            rw [es] at this
            simp only [List.cons_append, List.cons.injEq] at es
            rw [es.1] at this
            simp at this
        subst hus
        simp only [hct, if_true]
        by_cases hut0 : ut = []
        · subst hut0
          rfl
        · rw [filter_first hnt et hut0]
      · have hus : us ≠ [] := by
          rintro rfl
          simp only [List.nil_append, List.cons.injEq] at es
          exact h3 es.1.symm
        have hut0 : ut ≠ [] := by
          rintro rfl
          cases us with
          | nil => exact hus rfl
          | cons x us => simp at hle
        have h4 : L ≠ t := by
          rintro rfl
          cases ut with
          | nil => exact hut0 rfl
          | cons x ut =>
            have := hnt
            rw [et] at this
            simp only [List.cons_append, List.cons.injEq] at et
            rw [et.1] at this
            simp at this
        rw [if_neg h3, if_neg h4]
        simp only [hcs, hct, filter_first hns es hus, filter_first hnt et hut0, if_neg hus]

/-- Missing against C65: a source deeper than the target, a source at least three levels above the
target (`crossings_false` for both), and vertices of different trees (`crossings_apart`).
`us ++ L :: rest` and `ut ++ L :: rest` are the ways from source and target to the root, and `L` is
their lowest common ancestor. -/
theorem crossings_partial {h : Hier} {s t L : V} {ls lt us ut rest : List V} (hs : h.Anc s ls) (ht : h.Anc t lt)
    (es : s :: ls = us ++ L :: rest) (et : t :: lt = ut ++ L :: rest) (hd : ∀ x ∈ us, x ∉ ut) (hle : us.length ≤ ut.length)
    (hdn : us = [] → ut.length ≤ 2) {fuel : Nat} (hfu : ut.length < fuel) :
    h.crossings fuel s t = .ok (us.tail ++ ut.tail.reverse) := by
  rw [crossings_shallow hs ht es et hd hle hfu]
  split_ifs with hus
  · have := hdn hus
    subst hus
    match ut, this with
    | [], _ => rfl
    | [_], _ => rfl
    | [_, _], _ => rfl
    | _ :: _ :: _ :: _, h => simp at h
  · rfl

/-- The tree of graph_hierarchy.hpp:182-204: `a` is 1, …, `h` is 8. -/
def doc : Hier := build [1, 2, 3, 4, 5, 6, 7, 8] [(1, 2), (2, 3), (2, 4), (1, 5), (5, 6), (6, 7), (5, 8)]

theorem doc_run : HRun true pair doc := build_safe (n := 9) (by decide +kernel)

theorem anc_of_chain {h : Hier} {n : Nat} {v : V} {l : List V} (hc : h.chain n v = some l) : h.Anc v l := (chain_some _ _ _ hc).1

/-- From `c` to `g`: up through `b`, down through `e` and `f`. -/
example : doc.crossings 9 3 7 = .ok [2, 5, 6] :=
  crossings_partial (L := 1) (us := [3, 2]) (ut := [7, 6, 5]) (rest := []) (anc_of_chain (n := 9) (by decide +kernel))
    (anc_of_chain (n := 9) (by decide +kernel)) rfl rfl (by decide) (by decide) (by decide) (by decide)

/-- The full statement. -/
def CrossingsStatement : Prop := ∀ (h : Hier), HRun true pair h → ∀ s t ls lt us ut L rest, h.Anc s ls → h.Anc t lt →
  s :: ls = us ++ L :: rest → t :: lt = ut ++ L :: rest → (∀ x ∈ us, x ∉ ut) →
  ∃ n, ∀ fuel ≥ n, h.crossings fuel s t = .ok (us.tail ++ ut.tail.reverse)

theorem crossings_top {fuel : Nat} (hf : 9 ≤ fuel) : doc.crossings fuel 1 7 = .ok [6, 5] :=
  (crossings_shallow (h := doc) (L := 1) (us := []) (ut := [7, 6, 5]) (rest := []) (anc_of_chain (n := 9) (l := []) (by decide +kernel))
    (anc_of_chain (n := 9) (l := [6, 5, 1]) (by decide +kernel)) rfl rfl (by decide) (by decide) (by simp; omega)).trans rfl

/-- From `a` down to `g` the crossings come in the order `f`, `e`. -/
theorem crossings_false : ¬ CrossingsStatement := by
  intro hs
  obtain ⟨n, hn⟩ := hs doc doc_run 1 7 [] [6, 5, 1] [] [7, 6, 5] 1 [] (anc_of_chain (n := 9) (by decide +kernel))
    (anc_of_chain (n := 9) (by decide +kernel)) rfl rfl (by decide)
  have h1 := hn (max n 9) (Nat.le_max_left _ _)
  rw [crossings_top (Nat.le_max_right _ _)] at h1
  simp at h1

theorem doc_anc7 : doc.Anc 7 [6, 5, 1] := anc_of_chain (n := 9) (by decide +kernel)
theorem doc_anc1 : doc.Anc 1 [] := anc_of_chain (n := 9) (by decide +kernel)

theorem lca_deep (k : Nat) : doc.lca (k + 1) [] 7 1 = some 6 := by
  have h1 : get doc.parent 1 = none := by decide +kernel
  have h7 : get doc.parent 7 = some 6 := by decide +kernel
  simp only [Hier.lca, h1, h7]
  decide

/-- From `g` up to `a` the call throws. -/
theorem crossings_deep (k : Nat) : doc.crossings (k + 2) 7 1 = .error .range := by
  have h1 : get doc.parent 1 = none := by decide +kernel
  have h7 : get doc.parent 7 = some 6 := by decide +kernel
  have hl := lca_deep (k + 1)
  simp only [Hier.crossings, h1, h7, hl]
  have c1 : doc.climb 6 (k + 2) 7 = .ok [7] := climb_ok (rest := [5, 1]) [7] 7 [6, 5, 1] _ doc_anc7 rfl (by simp)
  have c2 : doc.climb 6 (k + 2) 1 = .error .range := by
    simp only [Hier.climb, h1]
    rfl
  simp [c1, c2]

/-! Vertices of different trees -/

theorem climb_miss {h : Hier} {L : V} : ∀ {v : V} {lv : List V} {fuel : Nat}, h.Anc v lv → L ∉ v :: lv → lv.length < fuel →
    h.climb L fuel v = .error .range := by
  intro v lv fuel ha
  induction ha generalizing fuel with
  | @root v hr =>
    intro hm hfu
    obtain ⟨fuel, rfl⟩ := Nat.exists_eq_succ_of_ne_zero (Nat.ne_of_gt hfu)
    simp only [Hier.getParent] at hr
    simp only [List.mem_singleton] at hm
    simp only [Hier.climb, if_neg (show v ≠ L from fun e => hm e.symm), hr]
  | @up v p l hu hl ih =>
    intro hm hfu
    obtain ⟨fuel, rfl⟩ := Nat.exists_eq_succ_of_ne_zero (show fuel ≠ 0 by omega)
    simp only [Hier.getParent] at hu
    rw [List.mem_cons, not_or] at hm
    simp only [Hier.climb, if_neg (show v ≠ L from fun e => hm.1 e.symm), hu, ih hm.2 (by simp at hfu; omega)]

theorem lca_apart {h : Hier} {P : V → Prop} (hP : ∀ x p, P x → h.getParent x = some p → P p) :
    ∀ {v : V} {lv : List V} {ps : List V} {u : V} {fuel : Nat}, h.Anc v lv → (∀ x ∈ v :: lv, ¬ P x) → (∀ x ∈ ps, P x) → P u →
      lv.length < fuel → ∃ x, P x ∧ h.lca fuel ps u v = some x := by
  intro v lv ps u fuel ha
  induction ha generalizing ps u fuel with
  | @root v hr =>
    intro hv hps hu hfu
    obtain ⟨fuel, rfl⟩ := Nat.exists_eq_succ_of_ne_zero (Nat.ne_of_gt hfu)
    have hnot : v ∉ ps ++ [u] := by
      intro hm
      refine hv v (by simp) ?_
      rcases List.mem_append.1 hm with hm | hm
      · exact hps v hm
      · simp only [List.mem_singleton] at hm
        exact hm ▸ hu
    simp only [Hier.getParent] at hr
    refine ⟨(get h.parent u).getD u, ?_, ?_⟩
    · cases hpu : get h.parent u with
      | none => exact hu
      | some p => exact hP u p hu hpu
    · simp only [Hier.lca, if_neg hnot, hr]
  | @up v p l hpv hl ih =>
    intro hv hps hu hfu
    obtain ⟨fuel, rfl⟩ := Nat.exists_eq_succ_of_ne_zero (show fuel ≠ 0 by omega)
    have hps' : ∀ x ∈ ps ++ [u], P x := by
      intro x hm
      rcases List.mem_append.1 hm with hm | hm
      · exact hps x hm
      · simp only [List.mem_singleton] at hm
        exact hm ▸ hu
    have hnot : v ∉ ps ++ [u] := fun hm => hv v (by simp) (hps' v hm)
    simp only [Hier.getParent] at hpv
    simp only [Hier.lca, if_neg hnot, hpv]
    refine ih (fun x hx => hv x (List.mem_cons_of_mem _ hx)) hps' ?_ (by simp at hfu; omega)
    cases hpu : get h.parent u with
    | none => exact hu
    | some q => exact hP u q hu hpu

/-- For vertices without common ancestor, of which one is nested, the call throws. -/
theorem crossings_apart {h : Hier} {s t : V} {ls lt : List V} (hs : h.Anc s ls) (ht : h.Anc t lt)
    (hno : ¬ ∃ c, h.Below c s ∧ h.Below c t) (hin : ¬ (h.getParent s = none ∧ h.getParent t = none)) {fuel : Nat}
    (h1 : ls.length < fuel) (h2 : lt.length < fuel) : h.crossings fuel s t = .error .range := by
  have hno' : ∀ x ∈ t :: lt, x ∉ s :: ls := by
    intro x hx hxs
    exact hno ⟨x, (below_iff hs).2 hxs, (below_iff ht).2 hx⟩
  have hP : ∀ x p, x ∈ s :: ls → h.getParent x = some p → p ∈ s :: ls := by
    intro x p hx hp
    exact (below_iff hs).1 (ReflTransGen.head hp ((below_iff hs).2 hx))
  obtain ⟨L, hL, hlca⟩ := lca_apart (P := fun x => x ∈ s :: ls) hP (ps := []) (u := s) ht hno' (by simp) (by simp) h2
  have hLt : L ∉ t :: lt := fun hm => hno' L hm hL
  simp only [Hier.getParent] at hin
  simp only [Hier.crossings]
  rw [if_neg hin]
  have hsib : ¬ ((get h.parent s).isSome = true ∧ (get h.parent t).isSome = true ∧ get h.parent s = get h.parent t) := by
    rintro ⟨h3, _, h4⟩
    rw [Option.isSome_iff_exists] at h3
    obtain ⟨p, hp⟩ := h3
    rw [hp] at h4
    exact hno ⟨p, .single hp, .single h4.symm⟩
  rw [if_neg hsib]
  simp only [hlca, climb_miss ht hLt h2]
  split_ifs with h5 h6
  · rfl
  · exact absurd (h6 ▸ List.mem_cons_self) hLt
  · obtain ⟨xs, r, e⟩ := List.append_of_mem hL
    have hl := congrArg List.length e
    simp only [List.length_cons, List.length_append] at hl
    rw [climb_ok xs s ls fuel hs e (by omega)]

/-- 4 and 5 of the sample. -/
example : sample.crossings 9 4 5 = .error .range := by
  have h4 : sample.Anc 4 [2, 1] := anc_of_chain (n := 9) (by decide +kernel)
  have h5 : sample.Anc 5 [] := anc_of_chain (n := 9) (by decide +kernel)
  refine crossings_apart h4 h5 ?_ (by decide +kernel) (by decide) (by decide)
  rintro ⟨c, h1, h2⟩
  rw [below_iff h4] at h1
  rw [below_iff h5] at h2
  simp only [List.mem_singleton] at h2
  subst h2
  revert h1
  decide

/-! ## C66: ancestor queries -/

/-- `getParentChain` lists the proper ancestors from the parent to the root. -/
theorem chain_lists {hash : V → V → E} {h : Hier} (hr : HRun true hash h) (v : V) :
    ∃ l n, (∀ fuel ≥ n, h.chain fuel v = some l) ∧ h.Anc v l ∧ ∀ a, a ∈ l ↔ TransGen h.Parent a v := by
  obtain ⟨l, hl⟩ := run_forest hr v
  refine ⟨l, l.length + 1, fun fuel hf => chain_of_anc hl (by omega), hl, ?_⟩
  intro a
  rw [TransGen.tail'_iff]
  cases hl with
  | root hp =>
    simp only [List.not_mem_nil, false_iff]
    rintro ⟨b, _, hb⟩
    have : h.getParent v = some b := hb
    rw [hp] at this
    cases this
  | @up _ p l hu hl =>
    rw [← below_iff hl]
    constructor
    · intro hb
      exact ⟨p, hb, hu⟩
    · rintro ⟨b, hb, hbv⟩
      have : h.getParent v = some b := hbv
      rw [hu, Option.some.injEq] at this
      exact this ▸ hb

/-- `getParentChainUntil` as specified: the ancestors before `finish`. -/
def ChainUntilStatement : Prop := ∀ (h : Hier), HRun true pair h → ∀ start finish l, h.Anc start l →
  ∃ n, ∀ fuel ≥ n, h.chainUntil fuel start finish = some (l.takeWhile (fun a => decide (a ≠ finish)))

/-- It never stops before the root. -/
theorem chain_until_all {h : Hier} {start finish : V} {l : List V} {fuel : Nat} (ha : h.Anc start l) (hf : l.length < fuel) :
    h.chainUntil fuel start finish = some l := chain_of_anc ha hf

theorem chain_until_false : ¬ ChainUntilStatement := by
  intro hs
  obtain ⟨n, hn⟩ := hs doc doc_run 7 5 [6, 5, 1] doc_anc7
  have h1 := hn (max n 9) (Nat.le_max_left _ _)
  rw [chain_until_all doc_anc7 (Nat.le_max_right n 9 |> Nat.lt_of_lt_of_le (by decide))] at h1
  simp at h1

/-- Missing: a `finish` that is an ancestor. -/
theorem chain_until_partial {h : Hier} {start finish : V} {l : List V} {fuel : Nat} (ha : h.Anc start l) (hf : l.length < fuel)
    (hno : finish ∉ l) : h.chainUntil fuel start finish = some (l.takeWhile (fun a => decide (a ≠ finish))) := by
  rw [chain_until_all ha hf, Option.some.injEq]
  clear ha hf
  induction l with
  | nil => rfl
  | cons a l ih =>
    simp only [List.mem_cons, not_or] at hno
    rw [List.takeWhile_cons_of_pos (by simpa using fun e => hno.1 (Eq.symm e)), ← ih hno.2]

/-- `a` is `b`, or `b` is nested below it, for all the given vertices. -/
def Hier.Common (h : Hier) (ids : List V) (a : V) : Prop := ∀ v ∈ ids, h.Below a v

theorem common_go {h : Hier} {fuel : Nat} (hlen : ∀ v l, h.Anc v l → l.length < fuel) (hf : h.Forest) :
    ∀ (vs com : List V), com ≠ [] → h.common fuel com vs = some (com.find? (fun a => vs.all (fun v => ((h.chain fuel v).getD [] ++ [v]).contains a))) := by
  intro vs
  induction vs with
  | nil =>
    intro com _
    simp only [Hier.common, List.all_nil]
    cases com <;> rfl
  | cons v vs ih =>
    intro com hc
    obtain ⟨l, hl⟩ := hf v
    have hch := chain_of_anc hl (hlen v l hl)
    simp only [Hier.common, hch]
    split_ifs with he
    · rw [List.isEmpty_iff, List.filter_eq_nil_iff] at he
      rw [Option.some.injEq, eq_comm, List.find?_eq_none]
      intro a ha
      have := he a ha
      simp only [decide_eq_true_eq] at this
      simp only [List.all_cons, hch, Option.getD_some, Bool.and_eq_true, not_and, List.contains_eq_mem, decide_eq_true_eq]
      intro h1
      exact absurd h1 this
    · rw [List.isEmpty_iff] at he
      rw [ih _ he, List.find?_filter, Option.some.injEq]
      refine congrArg (fun p => com.find? p) (funext fun a => ?_)
      simp only [List.all_cons, hch, Option.getD_some, List.contains_eq_mem]
      rw [Bool.eq_iff_iff, decide_eq_true_eq, Bool.and_eq_true]

/-- `getCommonAncestor` returns a vertex above (or equal to) all given ones, and nothing only when
there is none. -/
theorem common_ancestor_partial {hash : V → V → E} {h : Hier} (hr : HRun true hash h) :
    ∃ n, ∀ fuel ≥ n, ∀ (v : V) (vs : List V), ∃ r, h.commonAncestor fuel (v :: vs) = some r ∧ (∀ a, r = some a → h.Common (v :: vs) a) ∧
      (r = none ↔ ∀ a, ¬ h.Common (v :: vs) a) ∧
      -- the lowest one, when the first of the vertices is not above all others
      (¬ h.Common vs v → ∀ a, r = some a → ∀ b, h.Common (v :: vs) b → h.Below b a) := by
  have hf := run_forest hr
  obtain ⟨M, hM⟩ := forest_bound (run_consistent hr) hf
  refine ⟨M + 1, ?_⟩
  intro fuel hfu v vs
  have hlen : ∀ v l, h.Anc v l → l.length < fuel := fun v l hl => by have := hM v l hl; omega
  obtain ⟨l, hl⟩ := hf v
  have hall : ∀ a, vs.all (fun v => ((h.chain fuel v).getD [] ++ [v]).contains a) = true ↔ h.Common vs a := by
    intro a
    rw [List.all_eq_true, Hier.Common]
    refine forall_congr' (fun w => forall_congr' (fun _ => ?_))
    obtain ⟨lw, hlw⟩ := hf w
    rw [chain_of_anc hlw (hlen w lw hlw), below_iff hlw, List.contains_eq_mem, decide_eq_true_eq]
    simp [or_comm]
  have hcons : ∀ a, h.Common (v :: vs) a ↔ a ∈ v :: l ∧ h.Common vs a := by
    intro a
    simp only [Hier.Common, List.forall_mem_cons, below_iff hl]
  refine ⟨(l ++ [v]).find? (fun a => vs.all (fun v => ((h.chain fuel v).getD [] ++ [v]).contains a)), ?_, ?_, ?_, ?_⟩
  · simp only [Hier.commonAncestor, chain_of_anc hl (hlen v l hl)]
    exact common_go hlen hf vs (l ++ [v]) (by simp)
  · intro a ha
    have h1 := List.find?_some ha
    have h2 := List.mem_of_find?_eq_some ha
    rw [hcons]
    refine ⟨?_, (hall a).1 h1⟩
    simp only [List.mem_append, List.mem_singleton] at h2
    rw [List.mem_cons]
    exact h2.symm
  · rw [List.find?_eq_none]
    refine forall_congr' (fun a => ?_)
    rw [hall, hcons, List.mem_cons, List.mem_append, List.mem_singleton]
    tauto
  · intro hnv a ha b hb
    have hbv := (hcons b).1 hb
    have hne : ∀ c, h.Common vs c → c ≠ v := by
      rintro c hc rfl
      exact hnv hc
    have hbl : b ∈ l := by
      rcases List.mem_cons.1 hbv.1 with rfl | h1
      · exact absurd rfl (hne _ hbv.2)
      · exact h1
    rw [List.find?_eq_some_iff_append] at ha
    obtain ⟨h1, as, bs, e, h2⟩ := ha
    have hal : h.Common vs a := (hall a).1 h1
    have hbas : b ∉ as := by
      intro hm
      have := h2 b hm
      rw [(hall b).2 hbv.2] at this
      simp at this
    -- `b` stands behind `a` on the way up
    have hsplit : ∃ bs', l = as ++ a :: bs' := by
      rcases List.eq_nil_or_concat bs with rfl | ⟨bs', x, rfl⟩
      · have e1 : l ++ [v] = as ++ [a] := e
        have := (List.append_inj' e1 rfl).2
        simp only [List.cons.injEq, and_true] at this
        exact absurd this.symm (hne _ hal)
      · rw [List.concat_eq_append, show as ++ a :: (bs' ++ [x]) = (as ++ a :: bs') ++ [x] by simp] at e
        exact ⟨bs', (List.append_inj' e rfl).1⟩
    obtain ⟨bs', e1⟩ := hsplit
    have ha' := anc_suffix hl (xs := v :: as) (w := a) (r := bs') (by rw [e1]; rfl)
    rw [below_iff ha']
    rw [e1] at hbl
    rcases List.mem_append.1 hbl with h3 | h3
    · exact absurd h3 hbas
    · exact h3

/-- The full statement: the lowest common ancestor. -/
def CommonAncestorStatement : Prop := ∀ (h : Hier), HRun true pair h → ∀ ids ≠ [],
  ∃ n, ∀ fuel ≥ n, ∃ r, h.commonAncestor fuel ids = some r ∧ ∀ a, r = some a → h.Common ids a ∧ ∀ b, h.Common ids b → h.Below b a

theorem doc_first {fuel : Nat} (hf : 9 ≤ fuel) : doc.commonAncestor fuel [5, 7] = some (some 1) ∧ doc.commonAncestor fuel [7, 5] = some (some 5) := by
  have h5 : doc.chain fuel 5 = some [1] := chain_of_anc (anc_of_chain (n := 9) (by decide +kernel)) (Nat.lt_of_lt_of_le (by decide) hf)
  have h7 : doc.chain fuel 7 = some [6, 5, 1] := chain_of_anc doc_anc7 (Nat.lt_of_lt_of_le (by decide) hf)
  simp only [Hier.commonAncestor, Hier.common, h5, h7]
  decide

/-- The answer for `e` and `g` depends on the order of the set: `a` or `e`. -/
theorem common_ancestor_false : ¬ CommonAncestorStatement := by
  intro hs
  obtain ⟨n, hn⟩ := hs doc doc_run [5, 7] (by simp)
  obtain ⟨r, h1, h2⟩ := hn (max n 9) (Nat.le_max_left _ _)
  rw [(doc_first (Nat.le_max_right n 9)).1, Option.some.injEq] at h1
  obtain ⟨_, h3⟩ := h2 1 h1.symm
  have h5 : doc.Anc 5 [1] := anc_of_chain (n := 9) (by decide +kernel)
  have h4 := h3 5 (by
    intro v hv
    simp only [List.mem_cons, List.not_mem_nil, or_false] at hv
    rcases hv with rfl | rfl
    · exact .refl
    · exact (below_iff doc_anc7).2 (by decide))
  rw [below_iff doc_anc1] at h4
  revert h4
  decide

/-! ### The nesting level -/

theorem foldl_max {f : V → Option Nat} : ∀ (l : List V) (a r : Nat), l.foldlM (fun r s => (f s).map (max r)) a = some r →
    a ≤ r ∧ (∀ s ∈ l, ∃ k, f s = some k ∧ k ≤ r) ∧ (r = a ∨ ∃ s ∈ l, f s = some r) := by
  intro l
  induction l with
  | nil =>
    intro a r h
    simp only [List.foldlM_nil, Option.pure_def, Option.some.injEq] at h
    subst h
    simp
  | cons s l ih =>
    intro a r h
    simp only [List.foldlM_cons, Option.bind_eq_bind, Option.bind_eq_some_iff, Option.map_eq_some_iff] at h
    obtain ⟨_, ⟨k, hk, rfl⟩, h2⟩ := h
    obtain ⟨h3, h4, h5⟩ := ih _ _ h2
    have h6 : a ≤ r := Nat.le_trans (Nat.le_max_left _ _) h3
    have h7 : k ≤ r := Nat.le_trans (Nat.le_max_right _ _) h3
    refine ⟨h6, ?_, ?_⟩
    · intro x hx
      rcases List.mem_cons.1 hx with rfl | hx
      · exact ⟨k, hk, h7⟩
      · exact h4 x hx
    · rcases h5 with h5 | ⟨x, hx, h5⟩
      · rcases Nat.le_total k a with h8 | h8
        · exact .inl (by omega)
        · exact .inr ⟨s, by simp, by rw [hk, Option.some.injEq]; omega⟩
      · exact .inr ⟨x, by simp [hx], h5⟩

theorem level_spec {h : Hier} (hc : h.Consistent) : ∀ (n : Nat) (v : V) (lv : List V) (k : Nat), h.level n v = some k → h.Anc v lv →
    (∀ x lx, h.Below v x → h.Anc x lx → lx.length + 1 ≤ lv.length + k) ∧ ∃ x lx, h.Below v x ∧ h.Anc x lx ∧ lx.length + 1 = lv.length + k := by
  intro n
  induction n with
  | zero => intro v lv k hk; simp [Hier.level] at hk
  | succ n ih =>
    intro v lv k hk hv
    simp only [Hier.level, Option.map_eq_some_iff] at hk
    obtain ⟨r, hr, rfl⟩ := hk
    obtain ⟨_, h2, h3⟩ := foldl_max _ _ _ hr
    constructor
    · intro x lx hb hx
      rw [below_head] at hb
      rcases hb with rfl | ⟨s, hs, hb⟩
      · rw [anc_unique hx hv]
        omega
      · obtain ⟨k, hk, hkr⟩ := h2 s ((hc.subs v s).2 hs)
        have := (ih s (v :: lv) k hk (.up hs hv)).1 x lx hb hx
        simp only [List.length_cons] at this
        omega
    · rcases h3 with rfl | ⟨s, hs, h3⟩
      · exact ⟨v, lv, .refl, hv, by omega⟩
      · have hp := (hc.subs v s).1 hs
        obtain ⟨x, lx, h4, h5, h6⟩ := (ih s (v :: lv) r h3 (.up hp hv)).2
        refine ⟨x, lx, .head hp h4, h5, ?_⟩
        simp only [List.length_cons] at h6
        omega

theorem level_returns {h : Hier} (hc : h.Consistent) {M : Nat} (hM : ∀ v l, h.Anc v l → l.length ≤ M) :
    ∀ (n : Nat) (v : V) (l : List V), h.Anc v l → M < n + l.length → (h.level n v).isSome := by
  intro n
  induction n with
  | zero =>
    intro v l hl hn
    have := hM v l hl
    omega
  | succ n ih =>
    intro v l hl hn
    simp only [Hier.level, Option.isSome_map]
    refine foldlM_some _ _ (fun s hs acc => ?_)
    have hp : h.getParent s = some v := (hc.subs v s).1 hs
    simp only [Option.isSome_map]
    refine ih s (v :: l) (.up hp hl) ?_
    simp only [List.length_cons]
    omega

/-- `getMaxNestingLevel` is the number of vertices on the longest way from a root down to a
vertex. -/
theorem max_level {hash : V → V → E} {h : Hier} (hr : HRun true hash h) :
    ∃ n r, (∀ fuel ≥ n, h.maxLevel fuel = some r) ∧ (∀ v ∈ h.getAll, ∀ l, h.Anc v l → l.length + 1 ≤ r) ∧
      (r = 0 ∨ ∃ v ∈ h.getAll, ∃ l, h.Anc v l ∧ l.length + 1 = r) := by
  have hc := run_consistent hr
  obtain ⟨hf, htop, _⟩ := forest_partial hr
  obtain ⟨M, hM⟩ := forest_bound hc hf
  have hsome : ∀ fuel ≥ M + 1, ∃ r, h.maxLevel fuel = some r := by
    intro fuel hfu
    rw [← Option.isSome_iff_exists]
    simp only [Hier.maxLevel]
    refine foldlM_some _ _ (fun s _ acc => ?_)
    obtain ⟨l, hl⟩ := hf s
    simp only [Option.isSome_map]
    exact level_returns hc hM fuel s l hl (by omega)
  have hspec : ∀ fuel r, h.maxLevel fuel = some r → (∀ v ∈ h.getAll, ∀ l, h.Anc v l → l.length + 1 ≤ r) ∧
      (r = 0 ∨ ∃ v ∈ h.getAll, ∃ l, h.Anc v l ∧ l.length + 1 = r) := by
    intro fuel r hm
    simp only [Hier.maxLevel] at hm
    obtain ⟨_, h2, h3⟩ := foldl_max _ _ _ hm
    constructor
    · intro v hv l hl
      obtain ⟨w, hw, hb⟩ := htop v hv
      obtain ⟨k, hk, hkr⟩ := h2 w hw
      have := (level_spec hc fuel w [] k hk (.root ((hc.roots w).1 hw).2)).1 v l hb hl
      simp only [List.length_nil] at this
      omega
    · rcases h3 with rfl | ⟨w, hw, h3⟩
      · exact .inl rfl
      · have hw' := (hc.roots w).1 hw
        obtain ⟨x, lx, h4, h5, h6⟩ := (level_spec hc fuel w [] r h3 (.root hw'.2)).2
        refine .inr ⟨x, ?_, lx, h5, by simpa using h6⟩
        rcases ReflTransGen.cases_tail h4 with rfl | ⟨c, _, hcx⟩
        · exact hw'.1
        · exact (hc.tracked c x hcx).2
  obtain ⟨r, hr0⟩ := hsome (M + 1) (Nat.le_refl _)
  refine ⟨M + 1, r, ?_, hspec _ r hr0⟩
  intro fuel hfu
  obtain ⟨r', hr'⟩ := hsome fuel hfu
  rw [hr', Option.some.injEq]
  have s1 := hspec _ r hr0
  have s2 := hspec _ r' hr'
  apply Nat.le_antisymm
  · rcases s2.2 with rfl | ⟨v, hv, l, hl, rfl⟩
    · exact Nat.zero_le _
    · exact s1.1 v hv l hl
  · rcases s1.2 with rfl | ⟨v, hv, l, hl, rfl⟩
    · exact Nat.zero_le _
    · exact s2.1 v hv l hl

example : doc.maxLevel 9 = some 4 ∧ doc.chain 9 7 = some [6, 5, 1] := by decide +kernel

end Verif.Graph
