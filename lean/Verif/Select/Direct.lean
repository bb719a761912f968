import Verif.Select.Sound

/-! # Paths without indirect links find all chains -/

namespace Verif.Select

variable {L : Type}

theorem lex_irrefl : ∀ {x : List Nat}, ¬ List.Lex (· < ·) x x
  | [], h => by cases h
  | _ :: _, .rel h => Nat.lt_irrefl _ h
  | _ :: _, .cons h => lex_irrefl h

theorem lex_siblings {p : List Nat} {i j : Nat} {x y : List Nat} (hij : i < j) (hx : p ++ [i] <+: x) (hy : p ++ [j] <+: y) :
    List.Lex (· < ·) x y := by
  obtain ⟨t, rfl⟩ := hx
  obtain ⟨u, rfl⟩ := hy
  induction p with
  | nil => exact .rel hij
  | cons a p ih => exact .cons ih

theorem lex_prefix {x y : List Nat} (h : x <+: y) (hne : x ≠ y) : List.Lex (· < ·) x y := by
  obtain ⟨t, rfl⟩ := h
  induction x with
  | nil =>
    cases t with
    | nil => exact absurd rfl hne
    | cons a t => exact .nil
  | cons a x ih => exact .cons (ih (by simpa using hne))

/-- Document order, or only different. -/
def Rel (s : Bool) (a b : At L) : Prop := if s then Before a b else a ≠ b

theorem Rel.of {s : Bool} {a b : At L} (h : Before a b) : Rel s a b := by
  cases s
  · rintro rfl
    exact lex_irrefl h
  · exact h

theorem below_ne {a b : At L} (h : Below a b) : b ≠ a := by
  rintro rfl
  exact (below_pos h).2 rfl

theorem kidsAt_siblings {b : Bool} (ks : Doc L b) (p : List Nat) : ∀ i,
    (kidsAt ks p i).Pairwise (fun x y => ∃ i j, i < j ∧ x.2.pos = p ++ [i] ∧ y.2.pos = p ++ [j]) := by
  induction ks with
  | node l ks _ => intro i; exact List.Pairwise.nil
  | nil => intro i; exact List.Pairwise.nil
  | cons f t rest _ ih =>
    intro i
    refine List.Pairwise.cons ?_ (ih _)
    rintro ⟨g, y⟩ hy
    obtain ⟨j, _, h⟩ := mem_kidsAt.1 hy
    exact ⟨i, i + 1 + j, by omega, rfl, h⟩

theorem subnodes_siblings (a : At L) :
    a.subnodes.Pairwise (fun x y => ∃ i j, i < j ∧ x.2.pos = a.pos ++ [i] ∧ y.2.pos = a.pos ++ [j]) := by
  obtain ⟨p, d⟩ := a
  cases d
  exact kidsAt_siblings _ _ _

/-- Siblings in order. -/
def Siblings (l : List (At L)) : Prop := l.Pairwise (fun x y => ∃ p i j, i < j ∧ x.pos = p ++ [i] ∧ y.pos = p ++ [j])

theorem siblings_direct (a : At L) : Siblings (a.subnodes.map (·.2)) := by
  rw [Siblings, List.pairwise_map]
  exact (subnodes_siblings a).imp (fun ⟨i, j, h⟩ => ⟨_, i, j, h⟩)

theorem siblings_field (a : At L) (name : Nat) : Siblings ((a.subnodes.filter (fun k => decide (k.1 = name))).map (·.2)) := by
  rw [Siblings, List.pairwise_map]
  exact ((subnodes_siblings a).filter _).imp (fun ⟨i, j, h⟩ => ⟨_, i, j, h⟩)

/-- A search without visited set that finds everything. -/
def Finds (s : Bool) (Q : At L → At L → Prop) (R : At L → Prop) (f : At L → St L → Except Err (Bool × St L)) : Prop :=
  ∀ b st, st.visited = none → ∃ m st' new, f b st = .ok (m, st') ∧ st'.visited = none ∧ st'.found = st.found ++ new ∧
    (∀ n, Q b n → n ∈ new) ∧ (R b → m = true) ∧ new.Pairwise (Rel s) ∧ ∀ n ∈ new, Within b n

theorem anyOf_finds {s : Bool} {Q : At L → At L → Prop} {R : At L → Prop} {f} (hf : Finds s Q R f) :
    ∀ (l : List (At L)), Siblings l → ∀ st, st.visited = none → ∃ m st' new, anyOf f l st = .ok (m, st') ∧
      st'.visited = none ∧ st'.found = st.found ++ new ∧ (∀ n, ∀ b ∈ l, Q b n → n ∈ new) ∧
      (∀ b ∈ l, R b → m = true) ∧ new.Pairwise (Rel s) ∧ ∀ n ∈ new, ∃ b ∈ l, Within b n := by
  intro l
  induction l with
  | nil =>
    intro _ st h
    exact ⟨false, st, [], rfl, h, by simp⟩
  | cons a as ih =>
    intro hs st h
    obtain ⟨hs1, hs2⟩ := List.pairwise_cons.1 hs
    obtain ⟨m1, st1, n1, e1, v1, f1, q1, r1, p1, w1⟩ := hf a st h
    obtain ⟨m2, st2, n2, e2, v2, f2, q2, r2, p2, w2⟩ := ih hs2 st1 v1
    refine ⟨m1 || m2, st2, n1 ++ n2, ?_, v2, by rw [f2, f1, List.append_assoc], ?_, ?_, ?_, ?_⟩
    · simp only [anyOf, e1, e2]
    · intro n b hb hq
      rcases List.mem_cons.1 hb with rfl | hb
      · exact List.mem_append_left _ (q1 n hq)
      · exact List.mem_append_right _ (q2 n b hb hq)
    · intro b hb hr
      rcases List.mem_cons.1 hb with rfl | hb
      · simp [r1 hr]
      · simp [r2 b hb hr]
    · rw [List.pairwise_append]
      refine ⟨p1, p2, ?_⟩
      intro x hx y hy
      obtain ⟨b, hb, hw⟩ := w2 y hy
      obtain ⟨p, i, j, hij, h1, h2⟩ := hs1 b hb
      have hx := within_pos (w1 x hx)
      have hy := within_pos hw
      rw [h1] at hx
      rw [h2] at hy
      exact .of (lex_siblings hij hx hy)
    · intro n hn
      rcases List.mem_append.1 hn with hn | hn
      · exact ⟨a, by simp, w1 n hn⟩
      · obtain ⟨b, hb, h⟩ := w2 n hn
        exact ⟨b, by simp [hb], h⟩

theorem via_below {l : Link} {a b : At L} (h : Via l a b) : Below a b := by
  cases l with
  | direct => exact .single h
  | indirect => exact h
  | field name => exact .single ⟨name, h⟩

theorem below_within {a b c : At L} (h : Below a b) (h' : Within b c) : Below a c := Relation.TransGen.trans_left h h'

theorem follow_finds {s : Bool} {Q : At L → At L → Prop} {R : At L → Prop} {f} (hf : Finds s Q R f) {c : Cond L} {l : Link}
    (hl : c.link = some l) (hl' : l ≠ .indirect) (a : At L) (st : St L) (hv : st.visited = none) :
    ∃ m st' new, follow c (some f) a st = .ok (m, st') ∧ st'.visited = none ∧ st'.found = st.found ++ new ∧
      (∀ n b, Via l a b → Q b n → n ∈ new) ∧ (∀ b, Via l a b → R b → m = true) ∧ new.Pairwise (Rel s) ∧
      ∀ n ∈ new, Below a n := by
  cases l with
  | direct =>
    obtain ⟨m, st', new, e, v, fo, q, r, p, w⟩ := anyOf_finds hf _ (siblings_direct a) st hv
    simp only [mem_direct] at q r w
    refine ⟨m, st', new, by simp only [follow, hl, e], v, fo, q, r, p, ?_⟩
    intro n hn
    obtain ⟨b, h1, h2⟩ := w n hn
    exact below_within (via_below h1) h2
  | indirect => exact absurd rfl hl'
  | field name =>
    obtain ⟨m, st', new, e, v, fo, q, r, p, w⟩ := anyOf_finds hf _ (siblings_field a name) st hv
    simp only [mem_field] at q r w
    refine ⟨m, st', new, by simp only [follow, hl, e], v, fo, q, r, p, ?_⟩
    intro n hn
    obtain ⟨b, h1, h2⟩ := w n hn
    exact below_within (via_below h1) h2

/-- Nodes for which the check holds are not passed. -/
theorem Through.hit {c : Cond L} {a b : At L} (h : Through c a b) (ha : Hits c a) : b = a := by
  obtain ⟨r, h1, h2⟩ := ha
  cases h with
  | refl => rfl
  | step h3 h4 =>
    rw [h1] at h3
    injection h3 with h3
    subst h3
    rw [h2] at h4
    cases h4

theorem run_finds {s : Bool} {c : Cond L} {next} {Q : At L → At L → Prop} {R : At L → Prop}
    (hc : ∀ a, ∃ r, c.check a = .ok r)
    (hm : ∀ a st, st.visited = none → Hits c a → ∃ m st' new, follow c next a st = .ok (m, st') ∧ st'.visited = none ∧
      st'.found = st.found ++ new ∧ (∀ n, Q a n → n ∈ new) ∧ (R a → m = true) ∧ new.Pairwise (Rel s) ∧
      (∀ n ∈ new, Below a n) ∧ (s = true → c.isTarget = true → new = [])) :
    ∀ {b : Bool} (d : Doc L b) (p : List Nat) (i : Nat) st, st.visited = none →
      ∃ m st' new, run c next d p i st = .ok (m, st') ∧ st'.visited = none ∧ st'.found = st.found ++ new ∧
        new.Pairwise (Rel s) ∧
        match b, d with
        | true, d => (∀ n a, Through c ⟨p, d⟩ a → Hits c a → (Q a n ∨ (R a ∧ c.isTarget = true ∧ n = a)) → n ∈ new) ∧
            (∀ a, Through c ⟨p, d⟩ a → Hits c a → R a → m = true) ∧ (∀ n ∈ new, Within ⟨p, d⟩ n)
        | false, ks =>
            (∀ n j f u a, Kid ks j f u → Through c ⟨p ++ [i + j], u⟩ a → Hits c a →
              (Q a n ∨ (R a ∧ c.isTarget = true ∧ n = a)) → n ∈ new) ∧
            (∀ j f u a, Kid ks j f u → Through c ⟨p ++ [i + j], u⟩ a → Hits c a → R a → m = true) ∧
            (∀ n ∈ new, ∃ j f u, Kid ks j f u ∧ Within ⟨p ++ [i + j], u⟩ n) := by
  intro b d
  induction d with
  | node l ks ih =>
    intro p i st hv
    have hseen : st.seen p = false := by simp [St.seen, hv]
    have hvisit : (st.visit p).visited = none := by simp [St.visit, hv]
    obtain ⟨r, hr⟩ := hc ⟨p, .node l ks⟩
    by_cases hmatch : r.isMatching = true
    · have hits : Hits c ⟨p, .node l ks⟩ := ⟨r, hr, hmatch⟩
      obtain ⟨m, st', new, e, v, fo, q, hr', pw, w, hs⟩ := hm _ (st.visit p) hvisit hits
      by_cases ht : (m && c.isTarget) = true
      · refine ⟨m, { st' with found := st'.found ++ [⟨p, .node l ks⟩] }, new ++ [⟨p, .node l ks⟩], ?_, v, ?_, ?_, ?_, ?_, ?_⟩
        · simp only [run, hseen, hr, hmatch, e, ht, if_true]
          rfl
        · simp only [fo, List.append_assoc]
          rfl
        · rw [List.pairwise_append]
          refine ⟨pw, List.pairwise_singleton _ _, ?_⟩
          intro x hx y hy
          rw [List.mem_singleton] at hy
          subst hy
          rw [Bool.and_eq_true_iff] at ht
          cases s with
          | false => exact below_ne (w x hx)
          | true => rw [hs rfl ht.2] at hx; cases hx
        · intro n a h1 h2 h3
          obtain rfl := h1.hit hits
          rcases h3 with h3 | ⟨_, _, rfl⟩
          · exact List.mem_append_left _ (q n h3)
          · simp
        · intro a h1 h2 h3
          obtain rfl := h1.hit hits
          exact hr' h3
        · intro n hn
          rcases List.mem_append.1 hn with hn | hn
          · exact (w n hn).to_reflTransGen
          · rw [List.mem_singleton] at hn
            subst hn
            exact .refl
      · refine ⟨m, st', new, ?_, v, by rw [fo]; rfl, pw, ?_, ?_, ?_⟩
        · simp only [run, hseen, hr, hmatch, e, ht, if_true]
          rfl
        · intro n a h1 h2 h3
          obtain rfl := h1.hit hits
          rcases h3 with h3 | ⟨h3, h4, rfl⟩
          · exact q n h3
          · exact absurd (by rw [hr' h3, h4]; rfl) ht
        · intro a h1 h2 h3
          obtain rfl := h1.hit hits
          exact hr' h3
        · intro n hn
          exact (w n hn).to_reflTransGen
    · have hmatch : r.isMatching = false := by simpa using hmatch
      have hnot : ¬ Hits c ⟨p, .node l ks⟩ := by
        rintro ⟨r', h1, h2⟩
        rw [hr] at h1
        injection h1 with h1
        subst h1
        rw [hmatch] at h2
        cases h2
      by_cases htry : r.tryNestedNodes = true
      · obtain ⟨m, st', new, e, v, fo, pw, q, hr', w⟩ := ih p 0 (st.visit p) hvisit
        have key : ∀ {a}, Through c ⟨p, .node l ks⟩ a → Hits c a → ∃ j f u, Kid ks j f u ∧ Through c ⟨p ++ [0 + j], u⟩ a := by
          intro a h1 h2
          cases h1 with
          | refl => exact absurd h2 hnot
          | @step _ b _ _ _ _ _ hk ht =>
            obtain ⟨f, l', ks', j, h0, hk, hp⟩ := hk
            injection h0 with _ h0
            subst h0
            refine ⟨j, f, b.doc, hk, ?_⟩
            rw [Nat.zero_add, ← hp]
            exact ht
        refine ⟨m, st', new, ?_, v, by rw [fo]; rfl, pw, ?_, ?_, ?_⟩
        · simp only [run, hseen, hr, hmatch, htry, e, if_true]
          simp
        · intro n a h1 h2 h3
          obtain ⟨j, f, u, hk, ht⟩ := key h1 h2
          exact q n j f u a hk ht h2 h3
        · intro a h1 h2 h3
          obtain ⟨j, f, u, hk, ht⟩ := key h1 h2
          exact hr' j f u a hk ht h2 h3
        · intro n hn
          obtain ⟨j, f, u, hk, hw⟩ := w n hn
          exact Relation.ReflTransGen.head ⟨f, l, ks, j, rfl, hk, by simp⟩ hw
      · refine ⟨false, st.visit p, [], ?_, hvisit, by simp [St.visit], .nil, ?_, ?_, by simp⟩
        · simp only [run, hseen, hr, hmatch, htry]
          simp
        · intro n a h1 h2 _
          cases h1 with
          | refl => exact absurd h2 hnot
          | step h3 _ h4 =>
            rw [hr] at h3
            injection h3 with h3
            subst h3
            exact absurd h4 htry
        · intro a h1 h2 _
          cases h1 with
          | refl => exact absurd h2 hnot
          | step h3 _ h4 =>
            rw [hr] at h3
            injection h3 with h3
            subst h3
            exact absurd h4 htry
  | nil =>
    intro p i st hv
    refine ⟨false, st, [], rfl, hv, by simp, .nil, ?_, ?_, by simp⟩
    · intro n j f u a hk
      cases hk
    · intro j f u a hk
      cases hk
  | cons g t rest ih1 ih2 =>
    intro p i st hv
    obtain ⟨m1, st1, n1, e1, v1, f1, p1, q1, r1, w1⟩ := ih1 (p ++ [i]) 0 st hv
    obtain ⟨m2, st2, n2, e2, v2, f2, p2, q2, r2, w2⟩ := ih2 p (i + 1) st1 v1
    have key : ∀ j, i + (j + 1) = i + 1 + j := by omega
    refine ⟨m1 || m2, st2, n1 ++ n2, ?_, v2, by rw [f2, f1, List.append_assoc], ?_, ?_, ?_, ?_⟩
    · simp only [run, e1, e2]
    · rw [List.pairwise_append]
      refine ⟨p1, p2, ?_⟩
      intro x hx y hy
      obtain ⟨j, f, u, _, hw⟩ := w2 y hy
      exact .of (lex_siblings (by omega : i < i + 1 + j) (within_pos (w1 x hx)) (within_pos hw))
    · intro n j f u a hk ht h2 h3
      cases hk with
      | here => exact List.mem_append_left _ (q1 n a ht h2 h3)
      | @there _ _ _ j' _ _ hk =>
        rw [key] at ht
        exact List.mem_append_right _ (q2 n j' f u a hk ht h2 h3)
    · intro j f u a hk ht h2 h3
      cases hk with
      | here => simp [r1 a ht h2 h3]
      | @there _ _ _ j' _ _ hk =>
        rw [key] at ht
        simp [r2 j' f u a hk ht h2 h3]
    · intro n hn
      rcases List.mem_append.1 hn with hn | hn
      · exact ⟨0, g, t, .here, w1 n hn⟩
      · obtain ⟨j, f, u, hk, hw⟩ := w2 n hn
        rw [← key] at hw
        exact ⟨j + 1, f, u, .there hk, hw⟩

theorem loose_single {c : Cond L} {as} (h : Loose [c] as) : ∃ a, as = [a] ∧ Hits c a := by
  cases h with
  | last h => exact ⟨_, rfl, h⟩

theorem isTarget_cons {c : Cond L} {cs a as n} (h : IsTarget (c :: cs) (a :: as) n) :
    (c.isTarget = true ∧ n = a) ∨ IsTarget cs as n := by
  obtain ⟨i, c', h1, h2, h3⟩ := h
  cases i with
  | zero =>
    simp only [List.getElem?_cons_zero, Option.some.injEq] at h1 h3
    subst h1 h3
    exact .inl ⟨h2, rfl⟩
  | succ i => exact .inr ⟨i, c', h1, h2, h3⟩

theorem isTarget_nil {as : List (At L)} {n} : ¬ IsTarget [] as n := by
  rintro ⟨i, c, h, _⟩
  simp at h

theorem recMatches_finds {s : Bool} (cs : List (Cond L)) (hwf : WellFormed cs) (hl : ∀ c ∈ cs, c.link ≠ some .indirect)
    (hs : s = true → OnlyLast cs) : Finds s (Reports cs) (Has cs) (recMatches cs) := by
  induction cs with
  | nil => cases hwf
  | cons c cs ih =>
    cases cs with
    | nil =>
      intro b st hv
      obtain ⟨m, st', new, e, v, fo, pw, q, r, w⟩ := run_finds (s := s) (c := c) (next := none)
        (Q := fun _ _ => False) (R := fun _ => True) hwf
        (fun a st hv _ => ⟨true, st, [], rfl, hv, by simp, by simp, by simp, .nil, by simp, by simp⟩) b.doc b.pos 0 st hv
      refine ⟨m, st', new, e, v, fo, ?_, ?_, pw, w⟩
      · rintro n ⟨c', cs', a, as, he, ht, hlo, hta⟩
        injection he with he1 he2
        subst he1 he2
        obtain ⟨a', h1, hh⟩ := loose_single hlo
        injection h1 with h1 h2
        subst h1 h2
        rcases isTarget_cons hta with ⟨h, rfl⟩ | h
        · exact q _ _ ht hh (.inr ⟨trivial, h, rfl⟩)
        · exact absurd h isTarget_nil
      · rintro ⟨c', cs', a, as, he, ht, hlo⟩
        injection he with he1 he2
        subst he1 he2
        obtain ⟨a', h1, hh⟩ := loose_single hlo
        injection h1 with h1 h2
        subst h1 h2
        exact r a ht hh trivial
    | cons c' cs =>
      obtain ⟨hc, ⟨l, hlink⟩, hwf⟩ := hwf
      have hf := ih hwf (fun c hc => hl c (by simp [hc])) (fun h x hx => hs h x (by
        rw [List.dropLast_cons_cons]
        exact List.mem_cons_of_mem _ hx))
      intro b st hv
      obtain ⟨m, st', new, e, v, fo, pw, q, r, w⟩ := run_finds (s := s) (c := c) (next := some (recMatches (c' :: cs)))
        (Q := fun a n => ∃ b, Via l a b ∧ Reports (c' :: cs) b n) (R := fun a => ∃ b, Via l a b ∧ Has (c' :: cs) b) hc
        (fun a st hv _ => by
          obtain ⟨m, st', new, e, v, fo, q, r, pw, w⟩ := follow_finds hf hlink
            (fun h => hl c (by simp) (by rw [hlink, h])) a st hv
          refine ⟨m, st', new, e, v, fo, ?_, ?_, pw, w, ?_⟩
          · rintro n ⟨b, h1, h2⟩
            exact q n b h1 h2
          · rintro ⟨b, h1, h2⟩
            exact r b h1 h2
          · intro h1 h2
            have := hs h1 c (by simp [List.dropLast_cons_cons])
            rw [h2] at this
            cases this) b.doc b.pos 0 st hv
      refine ⟨m, st', new, e, v, fo, ?_, ?_, pw, w⟩
      · rintro n ⟨c1, cs1, a, as, he, ht, hlo, hta⟩
        injection he with he1 he2
        subst he1 he2
        cases hlo with
        | @step _ _ l' b1 b' _ _ as' h1 h2 h3 h4 h5 =>
          rw [hlink] at h2
          injection h2 with h2
          subst h2
          rcases isTarget_cons hta with ⟨h, rfl⟩ | h
          · exact q _ _ ht h1 (.inr ⟨⟨b1, h3, c', cs, b', as', rfl, h4, h5⟩, h, rfl⟩)
          · exact q _ _ ht h1 (.inl ⟨b1, h3, c', cs, b', as', rfl, h4, h5, h⟩)
      · rintro ⟨c1, cs1, a, as, he, ht, hlo⟩
        injection he with he1 he2
        subst he1 he2
        cases hlo with
        | @step _ _ l' b1 b' _ _ as' h1 h2 h3 h4 h5 =>
          rw [hlink] at h2
          injection h2 with h2
          subst h2
          exact r a ht h1 ⟨b1, h3, c', cs, b', as', rfl, h4, h5⟩

end Verif.Select
