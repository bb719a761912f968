import Verif.Fuzzy.Spec

/-!
# The search
-/

namespace Verif.Fuzzy

/-- As `Embeds`, from left to right. -/
def Fits (m : Matcher) (patStop strStop : Nat) : Nat → Nat → List Nat → Prop
  | p, _, [] => p = patStop
  | p, s, i :: r => p < patStop ∧ s ≤ i ∧ i < strStop ∧ m.isEqual p i = true ∧ Fits m patStop strStop (p + 1) (i + 1) r

theorem fits_iff {m : Matcher} {pe se : Nat} {e : List Nat} : ∀ {p s : Nat}, Fits m pe se p s e ↔ Embeds m p pe s se e := by
  induction e with
  | nil =>
    intro p s
    exact ⟨fun h => ⟨by have h : p = pe := h; simpa using h, by simp, .nil, by simp⟩, fun h => by show p = pe; simpa using h.size⟩
  | cons i r ih =>
    intro p s
    constructor
    · rintro ⟨h1, h2, h3, h4, h5⟩
      obtain ⟨k1, k2, k3, k4⟩ := ih.mp h5
      refine ⟨by simp; omega, ?_, List.pairwise_cons.mpr ⟨fun j hj => (k2 j hj).1, k3⟩, ?_⟩
      · intro j hj
        rcases List.mem_cons.mp hj with rfl | hj
        · exact ⟨h2, h3⟩
        · have := k2 j hj
          omega
      · intro k hk
        cases k with
        | zero => exact h4
        | succ k =>
          have := k4 k (by simpa using hk)
          rw [show p + (k + 1) = p + 1 + k by omega]
          exact this
    · rintro ⟨h1, h2, h3, h4⟩
      obtain ⟨h3, h3'⟩ := List.pairwise_cons.mp h3
      have hi := h2 i List.mem_cons_self
      refine ⟨by simp at h1; omega, hi.1, hi.2, h4 0 (by simp), ih.mpr ⟨by simp at h1; omega, ?_, h3', ?_⟩⟩
      · intro j hj
        exact ⟨h3 j hj, (h2 j (List.mem_cons_of_mem _ hj)).2⟩
      · intro k hk
        have := h4 (k + 1) (by simpa using hk)
        rw [show p + 1 + k = p + (k + 1) by omega]
        exact this

theorem fits_mono {m : Matcher} {pe se p s s' : Nat} {e : List Nat} (h : Fits m pe se p s e) (hs : s' ≤ s) : Fits m pe se p s' e := by
  cases e with
  | nil => exact h
  | cons i r => exact ⟨h.1, Nat.le_trans hs h.2.1, h.2.2⟩

/-- A match and its score. -/
def Good (m : Matcher) (pe se p0 s0 : Nat) (ms : List Nat) (sc : Int) : Prop :=
  ∃ e, Fits m pe se p0 s0 e ∧ ms = reported pe e ∧ sc = worth m pe se e

/-- What is known in the loop, when the positions `pre` have been chosen and `s` is the next position. -/
structure Inv (m : Matcher) (pe se p0 s0 : Nat) (s : Nat) (src : List Nat) (st : State) (pre : List Nat) : Prop where
  pat : st.pat ≤ pe
  len : pre.length = st.next
  next : st.next ≤ st.pat
  cur : (if st.first then src else st.matched) = reported pe pre
  full : st.pat = pe → st.first = false ∧ ∃ u i, pre = u ++ [i] ∧ s = i + 1
  ext : ∀ f, Fits m pe se st.pat s f → Fits m pe se p0 s0 (pre ++ f)
  hit : st.hit = true → Good m pe se p0 s0 st.best st.bestScore

/-- What is known of the result. -/
structure Out (m : Matcher) (pe se p0 s0 : Nat) (s : Nat) (st : State) (pre : List Nat) (r : Result) : Prop where
  count : st.count ≤ r.count
  good : r.has = true → Good m pe se p0 s0 r.matched r.score
  hit : st.hit = true → r.has = true ∧ st.bestScore ≤ r.score
  found : ∀ f, Fits m pe se st.pat s f → r.has = true
  best : r.count < m.limit → ∀ f, Fits m pe se st.pat s f → worth m pe se (pre ++ f) ≤ r.score

theorem out_full {m : Matcher} {pe se p0 s0 s : Nat} {src : List Nat} {st : State} {pre : List Nat} (h : Inv m pe se p0 s0 s src st pre) (hp : st.pat = pe) :
    Out m pe se p0 s0 s st pre (finish m pe se (st, s)) := by
  obtain ⟨hf, u, i, hu, hs⟩ := h.full hp
  have hcur := h.cur
  rw [hf, if_neg (by simp)] at hcur
  have hw : m.score s se st.next st.matched = worth m pe se pre := by
    rw [worth, hcur, ← h.len, hu, hs]
    simp
  have hg : Good m pe se p0 s0 st.matched (worth m pe se pre) :=
    ⟨pre, by simpa using h.ext [] (by rw [hp]; exact rfl), hcur, rfl⟩
  have hfull : decide (¬ st.pat < pe) = true := by simp [hp]
  have hnil : ∀ f, Fits m pe se st.pat s f → f = [] := by
    intro f hf
    cases f with
    | nil => rfl
    | cons j r => have := hf.1; omega
  unfold finish
  dsimp only
  rw [hfull, if_pos rfl, hw]
  simp only [Bool.not_true, Bool.false_or, if_true]
  by_cases hc : (st.hit && decide (worth m pe se pre < st.bestScore)) = true
  · rw [if_pos hc]
    simp only [Bool.and_eq_true, decide_eq_true_eq] at hc
    refine ⟨Nat.le_refl _, fun _ => h.hit hc.1, fun _ => ⟨rfl, Int.le_refl _⟩, fun _ _ => rfl, fun _ f hf => ?_⟩
    rw [hnil f hf, List.append_nil]
    exact Int.le_of_lt hc.2
  · rw [if_neg hc]
    simp only [Bool.and_eq_true, decide_eq_true_eq, not_and, Int.not_lt] at hc
    refine ⟨Nat.le_refl _, fun _ => hg, fun h => ⟨rfl, hc h⟩, fun _ _ => rfl, fun _ f hf => ?_⟩
    rw [hnil f hf, List.append_nil]
    exact Int.le_refl _

theorem out_part {m : Matcher} {pe se p0 s0 : Nat} {src : List Nat} {st : State} {pre : List Nat} (h : Inv m pe se p0 s0 se src st pre) (hp : st.pat < pe) :
    Out m pe se p0 s0 se st pre (finish m pe se (st, se)) := by
  have hno : ∀ f, ¬ Fits m pe se st.pat se f := by
    intro f hf
    cases f with
    | nil => have : st.pat = pe := hf; omega
    | cons j r => have := hf.2.1; have := hf.2.2.1; omega
  have hfull : decide (¬ st.pat < pe) = false := by simpa using hp
  unfold finish
  dsimp only
  rw [hfull]
  simp only [Bool.not_false, Bool.true_or, Bool.and_true, Bool.false_eq_true, if_false]
  by_cases hc : st.hit = true
  · rw [if_pos hc]
    exact ⟨Nat.le_refl _, fun _ => h.hit hc, fun _ => ⟨rfl, Int.le_refl _⟩, fun _ _ => rfl, fun _ f hf => absurd hf (hno f)⟩
  · rw [if_neg hc]
    exact ⟨Nat.le_refl _, nofun, fun h => absurd h hc, fun f hf => absurd hf (hno f), fun _ f hf => absurd hf (hno f)⟩

theorem reported_set (pe : Nat) (pre : List Nat) (v : Nat) (h : pre.length < pe) : (reported pe pre).set pre.length v = reported pe (pre ++ [v]) := by
  unfold reported
  obtain ⟨k, hk⟩ : ∃ k, pe - pre.length = k + 1 := ⟨pe - pre.length - 1, by omega⟩
  have hk' : pe - (pre ++ [v]).length = k := by simp; omega
  rw [hk, hk', List.set_append_right _ _ (Nat.le_refl _), Nat.sub_self, List.replicate_succ, List.set_cons_zero, List.append_assoc]
  rfl

theorem recur_facts (st : State) (r : Result) : (st.recur r).pat = st.pat ∧ (st.recur r).next = st.next ∧ (st.recur r).first = st.first ∧
    (st.recur r).matched = st.matched ∧ (st.recur r).count = r.count ∧ ((st.recur r).hit = true ↔ st.hit = true ∨ r.has = true) := by
  unfold State.recur
  dsimp only
  split_ifs <;> simp_all

theorem recur_best (st : State) (r : Result) : (st.hit = true → st.bestScore ≤ (st.recur r).bestScore) ∧ (r.has = true → r.score ≤ (st.recur r).bestScore) ∧
    (((st.recur r).best = st.best ∧ (st.recur r).bestScore = st.bestScore ∧ (r.has = true → st.hit = true)) ∨
      (r.has = true ∧ (st.recur r).best = r.matched ∧ (st.recur r).bestScore = r.score)) := by
  unfold State.recur
  dsimp only
  by_cases hr : r.has = true
  · rw [if_pos hr]
    by_cases hc : (!st.hit || decide (st.bestScore < r.score)) = true
    · rw [if_pos hc]
      refine ⟨fun h => ?_, fun _ => Int.le_refl _, .inr ⟨hr, rfl, rfl⟩⟩
      rw [h] at hc
      exact Int.le_of_lt (by simpa using hc)
    · rw [if_neg hc]
      simp only [Bool.or_eq_true, Bool.not_eq_true', decide_eq_true_eq, not_or, Bool.not_eq_false, Int.not_lt] at hc
      exact ⟨fun _ => Int.le_refl _, fun _ => hc.2, .inl ⟨rfl, rfl, fun _ => hc.1⟩⟩
  · rw [if_neg hr]
    exact ⟨fun _ => Int.le_refl _, fun h => absurd h hr, .inl ⟨rfl, rfl, fun h => absurd h hr⟩⟩

/-- The loop keeps what is known, and its result is the best match that is left. -/
theorem loop_out {m : Matcher} {pe se p0 s0 : Nat} (rem : Nat) : ∀ {src : List Nat} {st : State} {pre : List Nat}, rem ≤ se →
    Inv m pe se p0 s0 (se - rem) src st pre → ∃ x, loop m pe se pe rem src st = .ok x ∧ Out m pe se p0 s0 (se - rem) st pre (finish m pe se x) := by
  induction rem with
  | zero =>
    intro src st pre _ h
    refine ⟨_, rfl, ?_⟩
    by_cases hp : st.pat = pe
    · exact out_full h hp
    · exact out_part h (by have := h.pat; omega)
  | succ rem ih =>
    intro src st pre hr h
    rw [loop]
    dsimp only
    generalize hs : se - (rem + 1) = s at h ⊢
    have hs1 : se - rem = s + 1 := by omega
    by_cases hp : st.pat < pe
    · rw [if_pos hp]
      by_cases he : m.isEqual st.pat s = true
      · rw [if_pos he]
        generalize hms : (if st.first = true then src else st.matched) = ms
        have hms' : ms = reported pe pre := by rw [← hms]; exact h.cur
        -- the recursive call
        obtain ⟨r, hr1, hr2⟩ : ∃ r : Result, (if m.limit ≤ st.count + 1 then Except.ok ⟨false, 0, List.replicate pe 0, st.count + 1⟩
            else if rem = 0 then Except.ok ⟨false, 0, List.replicate pe 0, st.count + 1⟩
            else (loop m pe se pe rem ms (.init st.pat st.next (List.replicate pe 0) (st.count + 1))).map (finish m pe se)) = .ok r ∧
            (st.count + 1 ≤ r.count ∧ (r.has = true → Good m pe se p0 s0 r.matched r.score) ∧
              (r.count < m.limit → ∀ f, Fits m pe se st.pat (s + 1) f → r.has = true ∧ worth m pe se (pre ++ f) ≤ r.score)) := by
          by_cases hl : m.limit ≤ st.count + 1
          · rw [if_pos hl]
            exact ⟨_, rfl, Nat.le_refl _, nofun, fun hc => absurd hc (by dsimp only; omega)⟩
          · rw [if_neg hl]
            by_cases h0 : rem = 0
            · rw [if_pos h0]
              refine ⟨_, rfl, Nat.le_refl _, nofun, fun _ f hf => ?_⟩
              cases f with
              | nil => have : st.pat = pe := hf; omega
              | cons j t => have := hf.2.1; have := hf.2.2.1; omega
            · rw [if_neg h0]
              have hinv : Inv m pe se p0 s0 (se - rem) ms (.init st.pat st.next (List.replicate pe 0) (st.count + 1)) pre :=
                ⟨h.pat, h.len, h.next, hms', fun hx => absurd hx (by show ¬ st.pat = pe; omega),
                  fun f hf => h.ext f (fits_mono hf (by omega)), nofun⟩
              obtain ⟨x, hx, ho⟩ := ih (by omega) hinv
              rw [hx]
              rw [hs1] at ho
              exact ⟨_, rfl, ho.count, ho.good, fun hc f hf => ⟨ho.found f hf, ho.best hc f hf⟩⟩
        rw [hr1]
        dsimp only
        obtain ⟨hc, hg, hb⟩ := hr2
        obtain ⟨f1, f2, f3, f4, f5, f6⟩ := recur_facts { st with matched := ms, first := false } r
        obtain ⟨b1, b2, b3⟩ := recur_best { st with matched := ms, first := false } r
        generalize State.recur { st with matched := ms, first := false } r = st1 at f1 f2 f3 f4 f5 f6 b1 b2 b3
        dsimp only at f1 f2 f3 f4 f5 f6 b1 b2 b3
        have hlt : pre.length < pe := by have := h.len; have := h.next; omega
        have hset : setAt st1.matched st1.next s = .ok (reported pe (pre ++ [s])) := by
          unfold setAt
          rw [f4, f2, hms', ← h.len, if_pos (by simp [reported]; omega), reported_set pe pre s hlt]
        rw [hset]
        dsimp only
        have hinv : Inv m pe se p0 s0 (se - rem) src { st1 with matched := reported pe (pre ++ [s]), next := st1.next + 1, pat := st1.pat + 1 } (pre ++ [s]) := by
          refine ⟨by dsimp only; rw [f1]; exact hp, by simp [f2, h.len], by dsimp only; rw [f1, f2]; exact Nat.add_le_add_right h.next 1,
            by dsimp only; rw [f3, if_neg (by simp)], fun _ => ⟨f3, pre, s, rfl, hs1⟩, ?_, ?_⟩
          · intro f hf
            rw [List.append_assoc]
            refine h.ext _ ?_
            dsimp only at hf
            rw [f1, hs1] at hf
            exact ⟨hp, Nat.le_refl _, by omega, he, hf⟩
          · intro hh
            dsimp only at hh ⊢
            rcases b3 with ⟨e1, e2, e3⟩ | ⟨e0, e1, e2⟩
            · rw [e1, e2]
              rcases f6.mp hh with hh | hh
              · exact h.hit hh
              · exact h.hit (e3 hh)
            · rw [e1, e2]
              exact hg e0
        obtain ⟨x, hx, ho⟩ := ih (by omega) hinv
        refine ⟨x, hx, ?_⟩
        obtain ⟨o1, o2, o3, o4, o5⟩ := ho
        dsimp only at o1 o3 o4 o5
        rw [f1, hs1] at o4 o5
        have hstep : ∀ f, Fits m pe se st.pat s f → (∃ g, f = s :: g ∧ Fits m pe se (st.pat + 1) (s + 1) g) ∨ Fits m pe se st.pat (s + 1) f := by
          intro f hf
          cases f with
          | nil => have : st.pat = pe := hf; omega
          | cons j g =>
            obtain ⟨k1, k2, k3, k4, k5⟩ := hf
            by_cases hj : j = s
            · subst hj
              exact .inl ⟨g, rfl, k5⟩
            · exact .inr ⟨k1, by omega, k3, k4, k5⟩
        refine ⟨by omega, o2, fun hh => ?_, fun f hf => ?_, fun hl f hf => ?_⟩
        · obtain ⟨k1, k2⟩ := o3 (f6.mpr (.inl hh))
          exact ⟨k1, Int.le_trans (b1 hh) k2⟩
        · rcases hstep f hf with ⟨g, -, hg'⟩ | hf'
          · exact o4 g hg'
          · -- the pattern fits further to the right: so it fits here
            cases f with
            | nil => have : st.pat = pe := hf'; omega
            | cons j g =>
              exact o4 g (fits_mono hf'.2.2.2.2 (by have := hf'.2.1; omega))
        · rcases hstep f hf with ⟨g, rfl, hg'⟩ | hf'
          · have := o5 hl g hg'
            rwa [List.append_assoc] at this
          · obtain ⟨k1, k2⟩ := hb (by omega) f hf'
            obtain ⟨k3, k4⟩ := o3 (f6.mpr (.inr k1))
            exact Int.le_trans k2 (Int.le_trans (b2 k1) k4)
      · rw [if_neg he]
        have hstep : ∀ f, Fits m pe se st.pat s f → Fits m pe se st.pat (s + 1) f := by
          intro f hf
          cases f with
          | nil => exact hf
          | cons j g =>
            obtain ⟨k1, k2, k3, k4, k5⟩ := hf
            refine ⟨k1, ?_, k3, k4, k5⟩
            rcases Nat.lt_or_ge s j with hj | hj
            · exact hj
            · exact absurd (by rw [← Nat.le_antisymm hj k2]; exact k4) he
        have hinv : Inv m pe se p0 s0 (se - rem) src st pre :=
          ⟨h.pat, h.len, h.next, h.cur, fun hx => absurd hx (by omega), fun f hf => h.ext f (fits_mono hf (by omega)), h.hit⟩
        obtain ⟨x, hx, o1, o2, o3, o4, o5⟩ := ih (by omega) hinv
        rw [hs1] at o4 o5
        exact ⟨x, hx, o1, o2, o3, fun f hf => o4 f (hstep f hf), fun hl f hf => o5 hl f (hstep f hf)⟩
    · rw [if_neg hp]
      exact ⟨_, rfl, out_full h (by have := h.pat; omega)⟩

/-- The result of a match. -/
theorem match_out (m : Matcher) (hl : 2 ≤ m.limit) {p0 pe s0 se : Nat} (hp : p0 < pe) (hs : s0 < se) (ms : List Nat) :
    ∃ r, fuzzyMatch m p0 pe s0 se ms = .ok r ∧ Out m pe se p0 s0 s0 (.init p0 0 ms 1) [] r := by
  have hinv : Inv m pe se p0 s0 (se - (se - s0)) (List.replicate pe 0) (.init p0 0 ms 1) [] :=
    ⟨Nat.le_of_lt hp, rfl, Nat.zero_le _, by simp [State.init, reported], fun hx => absurd hx (by show ¬ p0 = pe; omega),
      fun f hf => fits_mono hf (by omega), nofun⟩
  obtain ⟨x, hx, ho⟩ := loop_out (se - s0) (by omega) hinv
  unfold fuzzyMatch
  rw [if_neg (by omega), if_pos ⟨hp, hs⟩, hx]
  rw [show se - (se - s0) = s0 by omega] at ho
  exact ⟨_, rfl, ho⟩

end Verif.Fuzzy
