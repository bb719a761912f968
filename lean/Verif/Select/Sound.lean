import Verif.Select.Tree

/-! # Everything reported is the target of a chain -/

namespace Verif.Select

variable {L : Type}

/-- What a search started at a node may do: report nodes and answer. -/
def Sound (Q : At L → At L → Prop) (R : At L → Prop) (f : At L → St L → Except Err (Bool × St L)) : Prop :=
  ∀ b st m st', f b st = .ok (m, st') → ∃ new, st'.found = st.found ++ new ∧ (∀ n ∈ new, Q b n) ∧ (m = true → R b)

theorem anyOf_sound {Q : At L → At L → Prop} {R : At L → Prop} {f} (hf : Sound Q R f) :
    ∀ (l : List (At L)) st m st', anyOf f l st = .ok (m, st') →
      ∃ new, st'.found = st.found ++ new ∧ (∀ n ∈ new, ∃ b ∈ l, Q b n) ∧ (m = true → ∃ b ∈ l, R b) := by
  intro l
  induction l with
  | nil =>
    intro st m st' h
    simp only [anyOf, Except.ok.injEq, Prod.mk.injEq] at h
    obtain ⟨rfl, rfl⟩ := h
    exact ⟨[], by simp⟩
  | cons a as ih =>
    intro st m st' h
    simp only [anyOf] at h
    split at h
    · simp at h
    · rename_i m1 st1 h1
      split at h
      · simp at h
      · rename_i m2 st2 h2
        simp only [Except.ok.injEq, Prod.mk.injEq] at h
        obtain ⟨rfl, rfl⟩ := h
        obtain ⟨n1, e1, q1, r1⟩ := hf _ _ _ _ h1
        obtain ⟨n2, e2, q2, r2⟩ := ih _ _ _ h2
        refine ⟨n1 ++ n2, by rw [e2, e1, List.append_assoc], ?_, ?_⟩
        · intro n hn
          rcases List.mem_append.1 hn with hn | hn
          · exact ⟨a, by simp, q1 n hn⟩
          · obtain ⟨b, hb, h⟩ := q2 n hn
            exact ⟨b, by simp [hb], h⟩
        · intro hm
          rcases Bool.or_eq_true_iff.1 hm with hm | hm
          · exact ⟨a, by simp, r1 hm⟩
          · obtain ⟨b, hb, h⟩ := r2 hm
            exact ⟨b, by simp [hb], h⟩

theorem mem_direct {a b : At L} : b ∈ a.subnodes.map (·.2) ↔ Via .direct a b := by
  simp only [List.mem_map, Prod.exists, Via, IsChild]
  constructor
  · rintro ⟨f, c, h, rfl⟩
    exact ⟨f, mem_subnodes.1 h⟩
  · rintro ⟨f, h⟩
    exact ⟨f, b, mem_subnodes.2 h, rfl⟩

theorem mem_field {a b : At L} {name : Nat} :
    b ∈ (a.subnodes.filter (fun k => decide (k.1 = name))).map (·.2) ↔ Via (.field name) a b := by
  simp only [List.mem_map, List.mem_filter, decide_eq_true_eq, Prod.exists, Via]
  constructor
  · rintro ⟨f, c, ⟨h, rfl⟩, rfl⟩
    exact mem_subnodes.1 h
  · intro h
    exact ⟨name, b, ⟨mem_subnodes.2 h, rfl⟩, rfl⟩

theorem follow_sound {Q : At L → At L → Prop} {R : At L → Prop} {f} (hf : Sound Q R f) {c : Cond L} {a st m st'}
    (h : follow c (some f) a st = .ok (m, st')) :
    ∃ l, c.link = some l ∧ ∃ new, st'.found = st.found ++ new ∧ (∀ n ∈ new, ∃ b, Via l a b ∧ Q b n) ∧
      (m = true → ∃ b, Via l a b ∧ R b) := by
  simp only [follow] at h
  split at h
  · simp at h
  · rename_i hl
    obtain ⟨new, e, q, r⟩ := anyOf_sound hf _ _ _ _ h
    simp only [mem_direct] at q r
    exact ⟨_, hl, new, e, q, r⟩
  · rename_i hl
    split at h
    · simp at h
    · rename_i m1 st1 h1
      simp only [Except.ok.injEq, Prod.mk.injEq] at h
      obtain ⟨rfl, rfl⟩ := h
      obtain ⟨new, e, q, r⟩ := anyOf_sound hf _ _ _ _ h1
      simp only [mem_subnodesDFS] at q r
      exact ⟨_, hl, new, e, q, r⟩
  · rename_i name hl
    obtain ⟨new, e, q, r⟩ := anyOf_sound hf _ _ _ _ h
    simp only [mem_field] at q r
    exact ⟨_, hl, new, e, q, r⟩

/-- The search for one condition: given what happens at a matching node. -/
theorem run_sound {c : Cond L} {next} {Q : At L → At L → Prop} {R : At L → Prop}
    (hm : ∀ a st m st', Hits c a → follow c next a st = .ok (m, st') → ∃ new, st'.found = st.found ++ new ∧
      (∀ n ∈ new, Q a n) ∧ (m = true → R a ∧ (c.isTarget = true → Q a a))) :
    ∀ {b : Bool} (d : Doc L b) (p : List Nat) (i : Nat) st m st', run c next d p i st = .ok (m, st') →
      ∃ new, st'.found = st.found ++ new ∧
        match b, d with
        | true, d => (∀ n ∈ new, ∃ a, Through c ⟨p, d⟩ a ∧ Hits c a ∧ Q a n) ∧ (m = true → ∃ a, Through c ⟨p, d⟩ a ∧ Hits c a ∧ R a)
        | false, ks => (∀ n ∈ new, ∃ j f u a, Kid ks j f u ∧ Through c ⟨p ++ [i + j], u⟩ a ∧ Hits c a ∧ Q a n) ∧
            (m = true → ∃ j f u a, Kid ks j f u ∧ Through c ⟨p ++ [i + j], u⟩ a ∧ Hits c a ∧ R a) := by
  intro b d
  induction d with
  | node l ks ih =>
    intro p i st m st' h
    simp only [run] at h
    split at h
    · simp only [Except.ok.injEq, Prod.mk.injEq] at h
      obtain ⟨rfl, rfl⟩ := h
      exact ⟨[], by simp⟩
    · split at h
      · simp at h
      · rename_i r hr
        split at h
        · rename_i hmatch
          have hits : Hits c ⟨p, .node l ks⟩ := ⟨r, hr, hmatch⟩
          split at h
          · simp at h
          · rename_i m1 st1 h1
            simp only [Except.ok.injEq, Prod.mk.injEq] at h
            obtain ⟨rfl, rfl⟩ := h
            obtain ⟨new, e, q, hr⟩ := hm _ _ _ _ hits h1
            by_cases ht : (m1 && c.isTarget) = true
            · refine ⟨new ++ [⟨p, .node l ks⟩], ?_, ?_, ?_⟩
              · simp only [ht, if_true]
                rw [e]
                simp [St.visit]
              · intro n hn
                rcases List.mem_append.1 hn with hn | hn
                · exact ⟨_, .refl, hits, q n hn⟩
                · simp only [List.mem_singleton] at hn
                  subst hn
                  rw [Bool.and_eq_true_iff] at ht
                  exact ⟨_, .refl, hits, (hr ht.1).2 ht.2⟩
              · intro hm1
                exact ⟨_, .refl, hits, (hr hm1).1⟩
            · refine ⟨new, ?_, ?_, ?_⟩
              · simp only [ht]
                exact e
              · intro n hn
                exact ⟨_, .refl, hits, q n hn⟩
              · intro hm1
                exact ⟨_, .refl, hits, (hr hm1).1⟩
        · rename_i hno
          split at h
          · rename_i htry
            obtain ⟨new, e, q, hr'⟩ := ih _ _ _ _ _ h
            have key : ∀ {j f u a}, Kid ks j f u → Through c ⟨p ++ [0 + j], u⟩ a → Through c ⟨p, .node l ks⟩ a := by
              intro j f u a hk ht
              refine .step hr (by simpa using hno) htry ⟨f, l, ks, j, rfl, hk, ?_⟩ ht
              simp
            refine ⟨new, by rw [e]; rfl, ?_, ?_⟩
            · intro n hn
              obtain ⟨j, f, u, a, h1, h2, h3, h4⟩ := q n hn
              exact ⟨a, key h1 h2, h3, h4⟩
            · intro hm1
              obtain ⟨j, f, u, a, h1, h2, h3, h4⟩ := hr' hm1
              exact ⟨a, key h1 h2, h3, h4⟩
          · simp only [Except.ok.injEq, Prod.mk.injEq] at h
            obtain ⟨rfl, rfl⟩ := h
            exact ⟨[], by simp [St.visit]⟩
  | nil =>
    intro p i st m st' h
    simp only [run, Except.ok.injEq, Prod.mk.injEq] at h
    obtain ⟨rfl, rfl⟩ := h
    exact ⟨[], by simp⟩
  | cons g t rest ih1 ih2 =>
    intro p i st m st' h
    simp only [run] at h
    split at h
    · simp at h
    · rename_i m1 st1 h1
      split at h
      · simp at h
      · rename_i m2 st2 h2
        simp only [Except.ok.injEq, Prod.mk.injEq] at h
        obtain ⟨rfl, rfl⟩ := h
        obtain ⟨n1, e1, q1, r1⟩ := ih1 _ _ _ _ _ h1
        obtain ⟨n2, e2, q2, r2⟩ := ih2 _ _ _ _ _ h2
        have key : ∀ j, i + 1 + j = i + (j + 1) := by omega
        refine ⟨n1 ++ n2, by rw [e2, e1, List.append_assoc], ?_, ?_⟩
        · intro n hn
          rcases List.mem_append.1 hn with hn | hn
          · obtain ⟨a, h⟩ := q1 n hn
            exact ⟨0, g, t, a, .here, h⟩
          · obtain ⟨j, f, u, a, h1, h⟩ := q2 n hn
            rw [key] at h
            exact ⟨j + 1, f, u, a, .there h1, h⟩
        · intro hm
          rcases Bool.or_eq_true_iff.1 hm with hm | hm
          · obtain ⟨a, h⟩ := r1 hm
            exact ⟨0, g, t, a, .here, h⟩
          · obtain ⟨j, f, u, a, h1, h⟩ := r2 hm
            rw [key] at h
            exact ⟨j + 1, f, u, a, .there h1, h⟩

/-- The report of the search for a path from a node on. -/
def Reports (cs : List (Cond L)) (b n : At L) : Prop :=
  ∃ c cs' a as, cs = c :: cs' ∧ Through c b a ∧ Loose cs (a :: as) ∧ IsTarget cs (a :: as) n

/-- The path matches from a node on. -/
def Has (cs : List (Cond L)) (b : At L) : Prop :=
  ∃ c cs' a as, cs = c :: cs' ∧ Through c b a ∧ Loose cs (a :: as)

theorem isTarget_zero {c : Cond L} {cs a as} (h : c.isTarget = true) : IsTarget (c :: cs) (a :: as) a :=
  ⟨0, c, rfl, h, rfl⟩

theorem isTarget_succ {c : Cond L} {cs a as n} (h : IsTarget cs as n) : IsTarget (c :: cs) (a :: as) n := by
  obtain ⟨i, c, h1, h2, h3⟩ := h
  exact ⟨i + 1, c, h1, h2, h3⟩

theorem recMatches_sound (cs : List (Cond L)) : Sound (Reports cs) (Has cs) (recMatches cs) := by
  induction cs with
  | nil => intro b st m st' h; simp [recMatches] at h
  | cons c cs ih =>
    cases cs with
    | nil =>
      intro b st m st' h
      simp only [recMatches] at h
      obtain ⟨new, e, q, r⟩ := run_sound (Q := fun a n => c.isTarget = true ∧ n = a) (R := fun _ => True)
        (fun a st m st' _ hf => by
          simp only [follow, Except.ok.injEq, Prod.mk.injEq] at hf
          obtain ⟨rfl, rfl⟩ := hf
          refine ⟨[], by simp, by simp, fun _ => ⟨trivial, fun ht => ⟨ht, rfl⟩⟩⟩) _ _ _ _ _ _ h
      refine ⟨new, e, ?_, ?_⟩
      · intro n hn
        obtain ⟨a, h1, h2, h3, rfl⟩ := q n hn
        exact ⟨c, [], n, [], rfl, h1, .last h2, isTarget_zero h3⟩
      · intro hm
        obtain ⟨a, h1, h2, _⟩ := r hm
        exact ⟨c, [], a, [], rfl, h1, .last h2⟩
    | cons c' cs =>
      intro b st m st' h
      simp only [recMatches] at h
      obtain ⟨new, e, q, r⟩ := run_sound
        (Q := fun a n => (∃ l b, c.link = some l ∧ Via l a b ∧ Reports (c' :: cs) b n) ∨
          (c.isTarget = true ∧ n = a ∧ ∃ l b, c.link = some l ∧ Via l a b ∧ Has (c' :: cs) b))
        (R := fun a => ∃ l b, c.link = some l ∧ Via l a b ∧ Has (c' :: cs) b)
        (fun a st m st' _ hf => by
          obtain ⟨l, hl, new, e, q, r⟩ := follow_sound ih hf
          refine ⟨new, e, ?_, ?_⟩
          · intro n hn
            obtain ⟨b, h1, h2⟩ := q n hn
            exact .inl ⟨l, b, hl, h1, h2⟩
          · intro hm
            obtain ⟨b, h1, h2⟩ := r hm
            exact ⟨⟨l, b, hl, h1, h2⟩, fun ht => .inr ⟨ht, rfl, l, b, hl, h1, h2⟩⟩) _ _ _ _ _ _ h
      refine ⟨new, e, ?_, ?_⟩
      · intro n hn
        obtain ⟨a, h1, h2, h | ⟨ht, rfl, l, b, hl, hv, h⟩⟩ := q n hn
        · obtain ⟨l, b, hl, hv, _, _, a', as, he, ht, hlo, hta⟩ := h
          injection he with he1 he2
          subst he1 he2
          exact ⟨c, _, a, a' :: as, rfl, h1, .step h2 hl hv ht hlo, isTarget_succ hta⟩
        · obtain ⟨_, _, a', as, he, ht', hlo⟩ := h
          injection he with he1 he2
          subst he1 he2
          exact ⟨c, _, n, a' :: as, rfl, h1, .step h2 hl hv ht' hlo, isTarget_zero ht⟩
      · intro hm
        obtain ⟨a, h1, h2, l, b, hl, hv, _, _, a', as, he, ht, hlo⟩ := r hm
        injection he with he1 he2
        subst he1 he2
        exact ⟨c, _, a, a' :: as, rfl, h1, .step h2 hl hv ht hlo⟩

end Verif.Select
