import Verif.Layout.NonEmpty

/-!
# The layouter only shows pictures of the block: all kinds of blocks
-/

namespace Verif.Layout
variable {C : Type}

/-- Pictures with the rest of the line to their right. -/
def Then (P R : Option Box → Prop) (x : Option Box) : Prop :=
  ∃ y z, P y ∧ R z ∧ y ≠ some [] ∧ z ≠ some [] ∧ x = besideO y z

theorem Then.mono {P Q R : Option Box → Prop} {x : Option Box} (h : Then P R x) (hpq : ∀ y, P y → Q y) : Then Q R x := by
  obtain ⟨y, z, h1, h2⟩ := h
  exact ⟨y, z, hpq _ h1, h2⟩

/-- The pictures for a list of boxes below each other; nothing for no boxes. -/
def column : List Box → Option Box
  | [] => none
  | b :: bs => some (b :: bs).flatten

theorem column_append (as bs : List Box) : column (as ++ bs) = aboveO (column as) (column bs) := by
  cases as with
  | nil => rfl
  | cons a as =>
    cases bs with
    | nil => simp [column, aboveO]
    | cons b bs => simp [column, aboveO]

/-- Solutions of the elements of a stack. -/
def HoldsColumn (P : Option Box → Prop) (ss : List (Sol C)) : Prop :=
  ∃ Ps : List (Box → Prop), List.Forall₂ Holds Ps ss ∧
    ∀ bs, List.Forall₂ (fun (P : Box → Prop) b => P b ∧ b ≠ []) Ps bs → P (column bs)

theorem holdsColumn_toList {P : Option Box → Prop} {s : Option (Sol C)} (h : HoldsO P s) : HoldsColumn P s.toList := by
  cases s with
  | none =>
    refine ⟨[], List.Forall₂.nil, ?_⟩
    intro bs hbs
    cases hbs
    exact h
  | some s =>
    refine ⟨[fun b => P (some b)], List.Forall₂.cons h List.Forall₂.nil, ?_⟩
    intro bs hbs
    cases hbs with
    | cons hb hn =>
      cases hn
      simpa [column] using hb.1

theorem forall2_append_split {α β : Type} {r : α → β → Prop} {as bs : List α} {cs : List β} (h : List.Forall₂ r (as ++ bs) cs) :
    ∃ c1 c2, cs = c1 ++ c2 ∧ List.Forall₂ r as c1 ∧ List.Forall₂ r bs c2 := by
  induction as generalizing cs with
  | nil => exact ⟨[], cs, rfl, List.Forall₂.nil, h⟩
  | cons a as ih =>
    cases h with
    | cons hx hr =>
      obtain ⟨c1, c2, rfl, h1, h2⟩ := ih hr
      exact ⟨_ :: c1, c2, rfl, List.Forall₂.cons hx h1, h2⟩

theorem holdsColumn_append {P Q : Option Box → Prop} {s1 s2 : List (Sol C)} (h1 : HoldsColumn P s1) (h2 : HoldsColumn Q s2) :
    HoldsColumn (fun x => ∃ y z, P y ∧ Q z ∧ y ≠ some [] ∧ z ≠ some [] ∧ x = aboveO y z) (s1 ++ s2) := by
  obtain ⟨Ps, hp, hP⟩ := h1
  obtain ⟨Qs, hq, hQ⟩ := h2
  refine ⟨Ps ++ Qs, ?_, ?_⟩
  · clear hP hQ
    induction hp with
    | nil => exact hq
    | cons hx _ ih => exact List.Forall₂.cons hx ih
  · intro bs hbs
    obtain ⟨c1, c2, rfl, hc1, hc2⟩ := forall2_append_split hbs
    have ne : ∀ {Ps : List (Box → Prop)} {c : List Box}, List.Forall₂ (fun (P : Box → Prop) b => P b ∧ b ≠ []) Ps c →
        column c ≠ some [] := by
      intro Ps c hc
      cases hc with
      | nil => simp [column]
      | cons hb _ =>
        simp only [column, List.flatten_cons, ne_eq, Option.some.injEq, List.append_eq_nil_iff, not_and]
        intro hh
        exact absurd hh hb.2
    exact ⟨column c1, column c2, hP _ hc1, hQ _ hc2, ne hc1, ne hc2, column_append _ _⟩

theorem HoldsColumn.vSum {P : Option Box → Prop} {ss : List (Sol C)} {s : Sol C} (A : Arith C) (fuel : Nat)
    (h : HoldsColumn P ss) (hs : vSum A fuel ss = .ok s) : Holds (fun b => P (some b)) s := by
  obtain ⟨Ps, hp, hP⟩ := h
  refine Holds.mono (vSum_holds A fuel hp hs) ?_
  rintro b hb ⟨bs, hbs, rfl⟩
  have := hP bs hbs
  cases bs with
  | nil => exact absurd rfl hb
  | cons b bs => exact this

theorem HoldsColumn.mono {P Q : Option Box → Prop} {ss : List (Sol C)} (h : HoldsColumn P ss) (hpq : ∀ x, P x → Q x) :
    HoldsColumn Q ss := by
  obtain ⟨Ps, hp, hP⟩ := h
  exact ⟨Ps, hp, fun bs hbs => hpq _ (hP bs hbs)⟩

theorem showsAny_of_mem {bs : List Block} {b : Block} {x : Option Box} (hb : b ∈ bs) (h : Shows b x) : ShowsAny bs x := by
  induction bs with
  | nil => cases hb
  | cons a as ih =>
    rcases List.mem_cons.mp hb with rfl | hb
    · exact Or.inl h
    · exact Or.inr (ih hb)

theorem column_solid {bs : List Block} {x : Option Box} (h : ShowsColumn bs x) (hne : bs ≠ [])
    (hs : ∀ b, bs.getLast? = some b → Solid b) : x ≠ none := by
  match bs with
  | [] => exact absurd rfl hne
  | [b] =>
    obtain ⟨y, z, hy, rfl, rfl⟩ := h
    have := hs b rfl y hy
    cases y with
    | none => exact absurd rfl this
    | some y => simp [aboveO]
  | b :: b' :: bs =>
    obtain ⟨y, z, hy, hz, rfl⟩ := h
    have := column_solid hz (by simp) (fun c hc => hs c (by simpa using hc))
    cases z with
    | none => exact absurd rfl this
    | some z => cases y <;> simp [aboveO]

theorem showsEach_of_picks {bs : List Block} {xs : List (Option Box)}
    (h : Picks (bs.map fun b => Then (Shows b) (· = none)) xs) : ShowsEach bs xs := by
  induction bs generalizing xs with
  | nil => cases h; simp [ShowsEach]
  | cons c cs ih =>
    cases h with
    | cons hx hr =>
      simp only [ShowsEach]
      obtain ⟨⟨y, z, hy, rfl, -, -, rfl⟩, -⟩ := hx
      rw [besideO_none]
      exact ⟨_, _, hy, ih hr, rfl⟩

mutual

theorem opt_sound (A : Arith C) (o : Options C) (fuel : Nat) (b : Block) (hp : Plain b) (rest s : Option (Sol C))
    (R : Option Box → Prop) (hn : rest ≠ some []) (hr : HoldsO R rest) (h : opt A o fuel b rest = .ok s) : HoldsO (Then (Shows b) R) s := by
  match b with
  | .text ps =>
    simp only [opt, optText] at h
    have ht : HoldsO (Shows (.text ps)) (some (textSol A o ps)) :=
      holdsO_some.mpr (Holds.mono (textSol_holds A o ps) fun b _ hb => by rw [hb]; simp [Shows])
    exact withRest_holds A o fuel ht hr h
  | .line [] =>
    simp only [opt] at h
    cases h
    refine HoldsO.mono hr fun x hx hR => ⟨none, x, ?_, hR, by simp, hx, rfl⟩
    simp [Shows, ShowsRow]
  | .line (b :: bs) =>
    simp only [opt, bind, Except.bind] at h
    split at h
    · cases h
    · next r hrr =>
      split at h
      · cases h
      · next t ht =>
        cases h
        have := optLine_sound A o fuel (b :: bs) (by simpa [Plain] using hp) rest r R hn hr hrr
        refine holdsO_some.mpr (holds_plusConst A _ ?_)
        exact Holds.mono ((holdsColumn_toList this).vSum A fuel ht) fun b _ hb => Then.mono hb fun y hy => by simpa [Shows] using hy
  | .stack mult [] =>
    simp only [opt] at h
    cases h
    refine HoldsO.mono hr fun x hx hR => ⟨none, x, ?_, hR, by simp, hx, rfl⟩
    simp [Shows, ShowsColumn]
  | .stack mult (b :: bs) =>
    simp only [opt, bind, Except.bind] at h
    obtain ⟨hp1, hp2⟩ : AllPlain (b :: bs) ∧ ∀ c, (b :: bs).getLast? = some c → Solid c := by simpa only [Plain] using hp
    split at h
    · cases h
    · next ss hss =>
      have hc := optStack_sound A o fuel (b :: bs) (by simp) hp1 hp2 rest ss R hn hr hss
      split at h
      · cases h
      · next t ht =>
        have hv := hc.vSum A fuel ht
        split at h
        · next hem =>
          cases h
          exact absurd (List.isEmpty_iff.mp hem) (vSum_ne (optStack_ne A o fuel (b :: bs) rest ss hn hss) ht)
        · cases h
          refine holdsO_some.mpr (holds_plusConst A _ ?_)
          exact Holds.mono hv fun b _ hb => Then.mono hb fun y hy => by simpa [Shows] using hy
  | .choice bs =>
    simp only [opt, bind, Except.bind] at h
    obtain ⟨hp1, hp2⟩ : bs ≠ [] ∧ AllPlain bs := by simpa only [Plain] using hp
    split at h
    · cases h
    · next ss hss =>
      split at h
      · cases h
      · next t ht =>
        cases h
        have he := optEach_sound A o fuel bs hp2 rest ss R hn hr hss
        refine holdsO_some.mpr (min_holds A fuel (P := fun b => Then (Shows (.choice bs)) R (some b)) ?_ ht)
        intro c hc
        simp only [List.mem_filterMap, id_eq, exists_eq_right] at hc
        obtain ⟨b, hb, hbc⟩ : ∃ b ∈ bs, HoldsO (Then (Shows b) R) (some c) := by
          clear ht hss hp hp1 hp2
          induction he with
          | nil => cases hc
          | cons hx _ ih =>
            rcases List.mem_cons.mp hc with rfl | hc
            · exact ⟨_, by simp, hx⟩
            · obtain ⟨b, hb, hbc⟩ := ih hc
              exact ⟨b, by simp [hb], hbc⟩
        refine Holds.mono (holdsO_some.mp hbc) fun x _ hx => Then.mono hx fun y hy => ?_
        simpa [Shows] using showsAny_of_mem hb hy
  | .wrap mult pre sep bs =>
    simp only [opt, bind, Except.bind] at h
    obtain ⟨hp1, hp2, -⟩ : bs ≠ [] ∧ AllPlain bs ∧ ∀ b ∈ bs, Solid b := by simpa only [Plain] using hp
    split at h
    · cases h
    · next sepS hsepS =>
      simp only [optText, withRest] at hsepS
      cases hsepS
      split at h
      · cases h
      · next preS hpreS =>
        split at h
        · cases h
        · next els hels =>
          split at h
          · cases h
          · next ws hws =>
            have he := optEach_sound A o fuel bs hp2 none els (· = none) (by simp) rfl hels
            have hpre : HoldsO (fun x => x = pre.map fun p => shownText [p]) preS ∧
                (preS = none → (pre.map fun p => shownText [p]) = none) := by
              cases pre with
              | none => cases hpreS; exact ⟨rfl, fun _ => rfl⟩
              | some p =>
                simp only [optPrefix, optText, withRest] at hpreS
                cases hpreS
                refine ⟨?_, by simp⟩
                exact holdsO_some.mpr (Holds.mono (textSol_holds A o [p]) fun b _ hb => by rw [hb]; rfl)
            have hPs : List.Forall₂ HoldsO (bs.map fun b => Then (Shows b) (· = none)) els := by
              rw [List.forall₂_map_left_iff]
              exact he
            have hw := wrapSols_holds A o fuel mult (pre := pre.map fun p => shownText [p]) (sepB := shownText [sep])
              (by simp [shownText]) (by cases pre <;> simp [shownText]) hpre.1 hpre.2 (textSol_holds A o [sep]) hr els _ ws hPs hws
            split at h
            · cases h
            · next w _ =>
              cases h
              obtain ⟨-, hwn, hw⟩ := hw 0 s (by simp)
              cases s with
              | none => exact absurd rfl hwn
              | some s =>
                refine HoldsO.mono_some hw ?_
                intro b _ hb
                obtain ⟨xs, y, z, hxs, hy, hyn, hyne, hR, hz, hbb⟩ := hb (by simp)
                refine ⟨y, z, ?_, hR, hyne, hz, hbb⟩
                simp only [Shows]
                refine ⟨xs, ?_, hy⟩
                rw [List.drop_zero] at hxs
                exact showsEach_of_picks hxs
  | .verb _ _ => exact absurd hp (by simp [Plain])
  | .empty => exact absurd hp (by simp [Plain])

theorem optLine_sound (A : Arith C) (o : Options C) (fuel : Nat) (bs : List Block) (hp : AllPlain bs) (rest s : Option (Sol C))
    (R : Option Box → Prop) (hn : rest ≠ some []) (hr : HoldsO R rest) (h : optLine A o fuel bs rest = .ok s) : HoldsO (Then (ShowsRow bs) R) s := by
  match bs with
  | [] =>
    simp only [optLine] at h
    cases h
    exact HoldsO.mono hr fun x hx hR => ⟨none, x, by simp [ShowsRow], hR, by simp, hx, rfl⟩
  | b :: bs =>
    simp only [optLine, bind, Except.bind] at h
    simp only [AllPlain] at hp
    split at h
    · cases h
    · next r hrr =>
      have h1 := optLine_sound A o fuel bs hp.2 rest r R hn hr hrr
      have h2 := opt_sound A o fuel b hp.1 r s _ (optLine_ne A o fuel bs rest r hn hrr) h1 h
      refine HoldsO.mono h2 ?_
      rintro x - ⟨y, z, hy, ⟨y', z', hy', hz', hy'n, hz'n, rfl⟩, hyn, hzn, rfl⟩
      refine ⟨besideO y y', z', ?_, hz', besideO_ne hyn hy'n, hz'n, (besideO_assoc hyn hy'n).symm⟩
      simp only [ShowsRow]
      exact ⟨y, y', hy, hy', rfl⟩

theorem optEach_sound (A : Arith C) (o : Options C) (fuel : Nat) (bs : List Block) (hp : AllPlain bs) (rest : Option (Sol C))
    (ss : List (Option (Sol C)))
    (R : Option Box → Prop) (hn : rest ≠ some []) (hr : HoldsO R rest) (h : optEach A o fuel bs rest = .ok ss) :
    List.Forall₂ (fun b s => HoldsO (Then (Shows b) R) s) bs ss := by
  match bs with
  | [] =>
    simp only [optEach] at h
    cases h
    exact List.Forall₂.nil
  | b :: bs =>
    simp only [optEach, bind, Except.bind] at h
    simp only [AllPlain] at hp
    split at h
    · cases h
    · next s hs =>
      split at h
      · cases h
      · next ss' hss =>
        cases h
        exact List.Forall₂.cons (opt_sound A o fuel b hp.1 rest s R hn hr hs) (optEach_sound A o fuel bs hp.2 rest ss' R hn hr hss)

theorem optStack_sound (A : Arith C) (o : Options C) (fuel : Nat) (bs : List Block) (hne : bs ≠ []) (hp : AllPlain bs)
    (hsolid : ∀ b, bs.getLast? = some b → Solid b) (rest : Option (Sol C)) (ss : List (Sol C))
    (R : Option Box → Prop) (hn : rest ≠ some []) (hr : HoldsO R rest) (h : optStack A o fuel bs rest = .ok ss) :
    HoldsColumn (Then (ShowsColumn bs) R) ss := by
  match bs with
  | [] => exact absurd rfl hne
  | [b] =>
    simp only [optStack, bind, Except.bind] at h
    simp only [AllPlain] at hp
    split at h
    · cases h
    · next s hs =>
      cases h
      refine (holdsColumn_toList (opt_sound A o fuel b hp.1 rest s R hn hr hs)).mono fun x hx => hx.mono fun y hy => ?_
      simp only [ShowsColumn]
      exact ⟨y, none, hy, rfl, by cases y <;> rfl⟩
  | b :: b' :: bs =>
    simp only [optStack, bind, Except.bind] at h
    simp only [AllPlain] at hp
    split at h
    · cases h
    · next s hs =>
      split at h
      · cases h
      · next ss' hss =>
        cases h
        have h1 := opt_sound A o fuel b hp.1 none s (· = none) (by simp) rfl hs
        have h2 := optStack_sound A o fuel (b' :: bs) (by simp) (by simpa [AllPlain] using hp.2)
          (fun c hc => hsolid c (by simpa using hc)) rest ss' R hn hr hss
        refine (holdsColumn_append (holdsColumn_toList h1) h2).mono ?_
        rintro x ⟨y, z, ⟨y1, z1, hy1, rfl, hy1n, -, rfl⟩, ⟨y2, z2, hy2, hz2, hy2n, hz2n, rfl⟩, -, -, rfl⟩
        rw [besideO_none]
        have hnn : y2 ≠ none := column_solid hy2 (by simp) (fun c hc => hsolid c (by simpa using hc))
        refine ⟨aboveO y1 y2, z2, ?_, hz2, aboveO_ne hy1n hy2n, hz2n, (besideO_above hy2n hnn).symm⟩
        simp only [ShowsColumn] at hy2 ⊢
        exact ⟨y1, y2, hy1, hy2, rfl⟩

end

end Verif.Layout
