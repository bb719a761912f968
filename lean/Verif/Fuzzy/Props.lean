import Verif.Fuzzy.Lemmas
import Mathlib.Tactic.Ring

/-!
# Theorems about the fuzzy matcher
-/

namespace Verif.Fuzzy

/-- The matcher for two texts, with the score for the default configuration and some separators, and the
default limit of the recursion. -/
def standard (isEqual : Nat → Nat → Bool) (isSeparator : Nat → Bool) : Matcher := ⟨isEqual, linearScore { isSeparator := some isSeparator }, 10⟩

/-! ## C145 -/

/-- A pattern is found exactly if it is a subsequence of the string. -/
def FoundStatement : Prop :=
  ∀ (m : Matcher), 2 ≤ m.limit → ∀ p pe s se ms, ∃ r, fuzzyMatch m p pe s se ms = .ok r ∧ (r.has = true ↔ ∃ e, Embeds m p pe s se e)

/-- C145, for patterns that are not empty: the matcher returns; it finds the pattern exactly if it is a
subsequence of the string; and then the positions it reports are those of the pattern in the string, and the
score is the score of these positions. -/
theorem match_found_partial {m : Matcher} (hl : 2 ≤ m.limit) {p pe : Nat} (hp : p < pe) (s se : Nat) (ms : List Nat) :
    ∃ r, fuzzyMatch m p pe s se ms = .ok r ∧ (r.has = true ↔ ∃ e, Embeds m p pe s se e) ∧
      (r.has = true → ∃ e, Embeds m p pe s se e ∧ r.matched = reported pe e ∧ r.score = worth m pe se e) := by
  by_cases hs : s < se
  · obtain ⟨r, hr, ho⟩ := match_out m hl hp hs ms
    have hg : r.has = true → ∃ e, Embeds m p pe s se e ∧ r.matched = reported pe e ∧ r.score = worth m pe se e := by
      intro h
      obtain ⟨e, he, h1, h2⟩ := ho.good h
      exact ⟨e, fits_iff.mp he, h1, h2⟩
    refine ⟨r, hr, ⟨fun h => ?_, fun ⟨e, he⟩ => ho.found e (fits_iff.mpr he)⟩, hg⟩
    obtain ⟨e, he, -⟩ := hg h
    exact ⟨e, he⟩
  · refine ⟨⟨false, 0, ms, 1⟩, by unfold fuzzyMatch; rw [if_neg (by omega), if_neg (by omega)], ⟨nofun, ?_⟩, nofun⟩
    rintro ⟨e, he⟩
    cases e with
    | nil => have := he.size; simp at this; omega
    | cons i e => have := he.inside i List.mem_cons_self; omega

/-- The empty pattern is not found. -/
theorem match_found_false : ¬ FoundStatement := by
  intro h
  obtain ⟨r, hr, hi⟩ := h (standard (fun _ _ => true) fun _ => false) (by decide) 0 0 0 3 []
  have hr' : fuzzyMatch (standard (fun _ _ => true) fun _ => false) 0 0 0 3 [] = .ok ⟨false, 0, [], 1⟩ := rfl
  rw [hr'] at hr
  cases hr
  exact absurd (hi.mpr ⟨[], rfl, by simp, .nil, by simp⟩) (by decide)

/-- Equality of characters. -/
def textEq (pattern text : List Char) (i j : Nat) : Bool := pattern[i]? = text[j]?

example : (fuzzyMatch (standard (textEq "cfb".toList "src/conf/build".toList) (textEq "/".toList "src/conf/build".toList 0)) 0 3 0 14 []).toOption.map
    (fun r => (r.has, r.matched, r.score)) = some (true, [2, 7, 9], 79) ∧ 2 ≤ (standard (textEq "cfb".toList "src/conf/build".toList) fun _ => false).limit := by
  decide +kernel

/-! ## C146 -/

/-- The score of a match is the best one. -/
def BestStatement : Prop :=
  ∀ isEqual isSeparator p pe s se ms r, fuzzyMatch (standard isEqual isSeparator) p pe s se ms = .ok r → r.has = true →
    ∀ e, Embeds (standard isEqual isSeparator) p pe s se e → worth (standard isEqual isSeparator) pe se e ≤ r.score

theorem recur_count (st : State) (r : Result) : (st.recur r).count = r.count := (recur_facts st r).2.2.2.2.1

theorem finish_count (m : Matcher) (pe se : Nat) (x : State × Nat) : (finish m pe se x).count = x.1.count := by
  unfold finish
  dsimp only
  split_ifs <;> rfl

/-- There are not more calls than parts of the string. -/
theorem loop_count {m : Matcher} {pe se size : Nat} (rem : Nat) : ∀ {src : List Nat} {st : State} {x : State × Nat},
    loop m pe se size rem src st = .ok x → x.1.count + 1 ≤ st.count + 2 ^ rem := by
  induction rem with
  | zero =>
    intro src st x h
    cases h
    simp
  | succ rem ih =>
    intro src st x h
    have h2 : 2 ^ (rem + 1) = 2 ^ rem + 2 ^ rem := by ring
    have h1 : 1 ≤ 2 ^ rem := Nat.one_le_two_pow
    rw [loop] at h
    dsimp only at h
    by_cases hp : st.pat < pe
    · rw [if_pos hp] at h
      by_cases he : m.isEqual st.pat (se - (rem + 1)) = true
      · rw [if_pos he] at h
        generalize (if st.first = true then src else st.matched) = ms at h
        split at h
        · cases h
        · next r hr =>
          have hc : r.count ≤ st.count + 2 ^ rem := by
            split_ifs at hr with c1 c2
            · cases hr
              dsimp only
              omega
            · cases hr
              dsimp only
              omega
            · cases hx : loop m pe se size rem ms (.init st.pat st.next (List.replicate size 0) (st.count + 1)) with
              | error e => rw [hx] at hr; cases hr
              | ok y =>
                rw [hx] at hr
                cases hr
                have := ih hx
                rw [finish_count]
                simp only [State.init] at this
                omega
          split at h
          · cases h
          · have := ih h
            dsimp only at this
            rw [recur_count] at this
            omega
      · rw [if_neg he] at h
        have := ih h
        omega
    · rw [if_neg hp] at h
      cases h
      dsimp only
      omega

/-- C146, when the limit of the recursion is larger than the number of parts of the string: no positions of the
pattern in the string have a better score than the one that is reported. -/
theorem match_best_partial {m : Matcher} {p pe s se : Nat} (hl : 2 ^ (se - s) < m.limit) {ms : List Nat} {r : Result}
    (h : fuzzyMatch m p pe s se ms = .ok r) (hr : r.has = true) {e : List Nat} (he : Embeds m p pe s se e) : worth m pe se e ≤ r.score := by
  have hlim : 2 ≤ m.limit := by
    have : 1 ≤ 2 ^ (se - s) := Nat.one_le_two_pow
    omega
  by_cases hps : p < pe ∧ s < se
  · obtain ⟨r', hr', ho⟩ := match_out m hlim hps.1 hps.2 ms
    rw [h] at hr'
    cases hr'
    refine ho.best ?_ e (fits_iff.mpr he)
    unfold fuzzyMatch at h
    rw [if_neg (by omega), if_pos hps] at h
    cases hx : loop m pe se pe (se - s) (List.replicate pe 0) (.init p 0 ms 1) with
    | error e => rw [hx] at h; cases h
    | ok x =>
      rw [hx] at h
      cases h
      have := loop_count _ hx
      rw [finish_count]
      simp only [State.init] at this
      omega
  · unfold fuzzyMatch at h
    rw [if_neg (by omega), if_neg hps] at h
    cases h
    cases hr

/-- In a string of twelve characters, all but the first equal to the pattern, with a separator at the end, the
match at the end has the best score, but is not found. -/
theorem match_best_false : ¬ BestStatement := by
  intro h
  have hr : fuzzyMatch (standard (fun _ i => decide (1 ≤ i)) (fun i => decide (i = 11))) 0 1 0 12 [] = .ok ⟨true, 84, [1], 10⟩ := by decide +kernel
  have := h _ _ 0 1 0 12 [] _ hr rfl [11] ⟨rfl, by decide, by decide, by decide⟩
  revert this
  decide +kernel

example : 2 ^ (3 - 0) < (standard (fun _ _ => true) (fun i => decide (i = 2))).limit ∧
    fuzzyMatch (standard (fun _ i => decide (1 ≤ i)) (fun i => decide (i = 2))) 0 1 0 3 [] = .ok ⟨true, 118, [2], 3⟩ := by decide +kernel

/-! ## C147 -/

/-- `get_score` is -1 exactly if there is no match. -/
def ScoreStatement : Prop :=
  ∀ isEqual isSeparator p pe s se x, p < pe → getScore (standard isEqual isSeparator) p pe s se = .ok x →
    (x = -1 ↔ ¬ ∃ e, Embeds (standard isEqual isSeparator) p pe s se e)

/-- C147, when no match has the score -1: `get_score` is -1 exactly if there is no match, and otherwise the score of
a match. -/
theorem score_partial {m : Matcher} (hl : 2 ≤ m.limit) {p pe s se : Nat} (hp : p < pe) (hne : ∀ e, Embeds m p pe s se e → worth m pe se e ≠ -1) :
    ∃ x, getScore m p pe s se = .ok x ∧ (x = -1 ↔ ¬ ∃ e, Embeds m p pe s se e) ∧ (x ≠ -1 → ∃ e, Embeds m p pe s se e ∧ x = worth m pe se e) := by
  obtain ⟨r, hr, h1, h2⟩ := match_found_partial hl hp s se (List.replicate pe 0)
  unfold getScore
  rw [hr]
  refine ⟨_, rfl, ?_⟩
  by_cases hh : r.has = true
  · obtain ⟨e, he, -, hs⟩ := h2 hh
    rw [if_pos hh, hs]
    exact ⟨⟨fun hx => absurd hx (hne e he), fun hx => absurd ⟨e, he⟩ hx⟩, fun _ => ⟨e, he, rfl⟩⟩
  · rw [if_neg hh]
    exact ⟨⟨fun _ hx => hh (h1.mpr hx), fun _ => rfl⟩, fun hx => absurd rfl hx⟩

/-- The score of a letter in a text of 87 characters, from the fourth one on, is -1 (and less in longer texts). -/
theorem score_false : ¬ ScoreStatement := by
  intro h
  have hr : getScore (standard (fun _ i => decide (i = 50)) (fun _ => false)) 0 1 0 87 = .ok (-1) := by decide +kernel
  exact (h _ _ 0 1 0 87 _ (by decide) hr).mp rfl ⟨[50], rfl, by decide, by decide, by decide⟩

theorem bonuses_some (c : Linear) (p : Nat) (l : List Nat) :
    bonuses c (some p) l = c.sequential * ((((p :: l).zip l).countP fun x => x.2 = x.1 + 1 : Nat) : Int) + c.firstLetter * ((l.countP (· = 0) : Nat) : Int) +
      c.separator * ((l.countP (fun i => i ≠ 0 ∧ (c.isSeparator.map (· i)) = some true) : Nat) : Int) := by
  induction l generalizing p with
  | nil => simp [bonuses]
  | cons i r ih =>
    rw [bonuses.eq_def]
    dsimp only
    rw [ih, List.zip_cons_cons, List.countP_cons, List.countP_cons, List.countP_cons]
    by_cases h1 : i = p + 1 <;> by_cases h2 : i = 0 <;> cases hs : c.isSeparator with
    | none => simp [h1, h2] <;> try ring
    | some f => by_cases h3 : f i = true <;> simp_all <;> try ring

/-- **C147**  The standard score of a match is the one in words. -/
theorem score_standard (c : Linear) (isEqual : Nat → Nat → Bool) (limit : Nat) {p pe s se : Nat} (hp : p < pe) {e : List Nat}
    (he : Embeds ⟨isEqual, linearScore c, limit⟩ p pe s se e) : worth ⟨isEqual, linearScore c, limit⟩ pe se e = standardWorth c se e := by
  have hlen : 1 ≤ e.length := by have := he.size; omega
  have htake : (reported pe e).take e.length = e := by simp [reported]
  have hhead : (reported pe e).headD 0 = e.headD 0 := by cases e with | nil => simp at hlen | cons _ _ => rfl
  have hmax : max (e.getLast?.getD 0 + 1) se = se := by
    obtain ⟨u, i, rfl⟩ : ∃ u i, e = u ++ [i] := ⟨e.dropLast, e.getLast (by rintro rfl; simp at hlen), (List.dropLast_append_getLast _).symm⟩
    have := he.inside i (by simp)
    simp; omega
  show linearScore c (e.getLast?.getD 0 + 1) se e.length (reported pe e) = _
  rw [linearScore, standardWorth, hmax, htake, hhead]
  have hb : bonuses c none e = c.sequential * (((e.zip e.tail).countP fun x => x.2 = x.1 + 1 : Nat) : Int) + c.firstLetter * ((e.countP (· = 0) : Nat) : Int) +
      c.separator * ((e.countP (fun i => i ≠ 0 ∧ (c.isSeparator.map (· i)) = some true) : Nat) : Int) := by
    cases e with
    | nil => simp at hlen
    | cons i r =>
      rw [bonuses.eq_def]
      dsimp only
      rw [bonuses_some, List.tail_cons, List.countP_cons, List.countP_cons]
      by_cases h2 : i = 0 <;> cases hs : c.isSeparator with
      | none => simp [h2] <;> try ring
      | some f => by_cases h3 : f i = true <;> simp_all <;> try ring
  rw [hb]
  ring

/-- In a text of at most 85 characters every match has a positive score, without bonuses. -/
theorem score_positive {c : Linear} (h1 : c.start = 100) (h2 : c.maxLeading = -15) (h3 : c.unmatched = -1) (h4 : 0 ≤ c.sequential) (h5 : 0 ≤ c.separator)
    (h6 : 0 ≤ c.firstLetter) {isEqual : Nat → Nat → Bool} {limit p pe s se : Nat} (hp : p < pe) (hse : se ≤ 85) {e : List Nat}
    (he : Embeds ⟨isEqual, linearScore c, limit⟩ p pe s se e) : 0 < worth ⟨isEqual, linearScore c, limit⟩ pe se e := by
  have hb : ∀ (l : List Nat) (o : Option Nat), 0 ≤ bonuses c o l := by
    intro l
    induction l with
    | nil => intro o; exact Int.le_refl _
    | cons i r ih =>
      intro o
      rw [bonuses.eq_def]
      dsimp only
      have hx : ∀ o : Option Nat, 0 ≤ (match o with | some p => if i = p + 1 then c.sequential else 0 | none => 0) := by
        intro o
        cases o with
        | none => exact Int.le_refl _
        | some p => dsimp only; split_ifs <;> omega
      have h7 : 0 ≤ (match o with | some p => if i = p + 1 then c.sequential else 0 | none => 0) := hx o
      have h8 : 0 ≤ (if i = 0 then c.firstLetter else match c.isSeparator with | some f => if f i then c.separator else 0 | none => 0) := by
        split_ifs with hi
        · exact h6
        · cases c.isSeparator with
          | none => exact Int.le_refl _
          | some f => dsimp only; split_ifs <;> omega
      exact Int.add_nonneg (Int.add_nonneg h7 h8) (ih _)
  have hlen : 1 ≤ e.length := by have := he.size; omega
  obtain ⟨u, i, rfl⟩ : ∃ u i, e = u ++ [i] := ⟨e.dropLast, e.getLast (by rintro rfl; simp at hlen), (List.dropLast_append_getLast _).symm⟩
  have hi := he.inside i (by simp)
  show 0 < linearScore c ((u ++ [i]).getLast?.getD 0 + 1) se (u ++ [i]).length (reported pe (u ++ [i]))
  rw [linearScore, h1, h2, h3]
  have h9 := hb ((reported pe (u ++ [i])).take (u ++ [i]).length) none
  have hm : max ((u ++ [i]).getLast?.getD 0 + 1) se = se := by simp; omega
  rw [hm]
  have hmax : -15 ≤ max (c.leading * (((reported pe (u ++ [i])).headD 0 : Nat) : Int)) (-15) := le_max_right _ _
  have : (1 : Int) ≤ ((u ++ [i]).length : Int) := by exact_mod_cast hlen
  have : (se : Int) ≤ 85 := by exact_mod_cast hse
  omega

example : getScore (standard (fun _ i => decide (i = 50)) (fun _ => false)) 0 1 0 85 = .ok 1 ∧
    Embeds (standard (fun _ i => decide (i = 50)) (fun _ => false)) 0 1 0 85 [50] := ⟨by decide +kernel, rfl, by decide, by decide, by decide⟩

end Verif.Fuzzy
