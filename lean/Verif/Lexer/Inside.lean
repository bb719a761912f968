import Verif.Lexer.Props

/-!
# The tokens inside brackets (C24)
-/

namespace Verif.Lexer

variable {K : Type} [DecidableEq K]

/-! ## Specification -/

/-- Properly nested brackets: every opening token has its closing token. -/
inductive Balanced (start finish : List K) : List K → Prop
  | nil : Balanced start finish []
  | other {k : K} {rest : List K} : k ∉ start → k ∉ finish → Balanced start finish rest →
      Balanced start finish (k :: rest)
  | pair {o c : K} {body rest : List K} : o ∈ start → c ∈ finish → Balanced start finish body →
      Balanced start finish rest → Balanced start finish (o :: body ++ c :: rest)

/-- Properly nested brackets where a bracket is a run of opening tokens (as `{{{`) and a run of
closing tokens; two brackets never touch so that a run is always a whole bracket. -/
inductive Runs (start finish : List K) : List K → Prop
  | nil : Runs start finish []
  | other {k : K} {rest : List K} : k ∉ start → k ∉ finish → Runs start finish rest →
      Runs start finish (k :: rest)
  | pair {os cs body rest : List K} : os ≠ [] → cs ≠ [] → (∀ o ∈ os, o ∈ start) → (∀ c ∈ cs, c ∈ finish) →
      (∀ k, body.head? = some k → k ∉ start) → (∀ k, body.getLast? = some k → k ∉ finish) →
      (∀ k, rest.head? = some k → k ∉ finish) →
      Runs start finish body → Runs start finish rest → Runs start finish (os ++ body ++ cs ++ rest)

/-- The full claim: `(body)` gives the body and leaves what follows. -/
def GetInsideStatement (K : Type) [DecidableEq K] : Prop :=
  ∀ (start finish : List K) (l : Lex K) (o c : Nat × K) (body post : List (Nat × K)),
    (∀ k ∈ start, k ∉ finish) → o.2 ∈ start → c.2 ∈ finish → Balanced start finish (body.map Prod.snd) →
    Reads l (o :: body ++ c :: post) →
    ∃ l', l.getInside start finish = .ok (body.map Prod.fst, l') ∧ Reads l' post

/-- `(a (b))`, with `1` for `(`, `2` for `)`: the last token is kept with the others. -/
theorem getInside_false : ¬ GetInsideStatement Nat := by
  intro h
  obtain ⟨l', h1, _⟩ := h [1] [2] (Lex.main [1, 10, 1, 11, 2, 2]) (1, 1) (6, 2)
    [(2, 10), (3, 1), (4, 11), (5, 2)] [] (by decide) (by decide) (by decide)
    (.other (by decide) (by decide)
      (.pair (o := 1) (c := 2) (body := [11]) (rest := []) (by decide) (by decide)
        (.other (by decide) (by decide) .nil) .nil))
    (reads_main [1, 10, 1, 11, 2, 2])
  have h2 : (match (Lex.main [1, 10, 1, 11, 2, 2]).getInside [1] [2] with
    | .ok (ids, _) => ids
    | .error _ => []) = [2, 3, 4, 5, 6] := by decide +kernel
  rw [h1] at h2
  simp at h2

/-- A missing closing token is not noticed: everything is inside. -/
theorem getInside_unclosed :
    ((Lex.main [1, 10, 11]).getInside [1] [2]).map Prod.fst = .ok [2, 3] ∧
    ((Lex.main [1]).getInside [1] [2]).map Prod.fst = .error .range := by decide +kernel

/-! ## Proof -/

omit [DecidableEq K] in
theorem reads_bound {l : Lex K} {v : List (Nat × K)} (h : Reads l v) : v.length < l.bound := by
  unfold Reads at h
  unfold Lex.bound
  split at h
  · obtain ⟨pre, h1, _⟩ := h
    have := congrArg List.length h1
    simp only [List.length_append, List.length_map] at this
    omega
  · rename_i ids n hs
    rw [hs]
    dsimp only
    rcases h.2 with ⟨h, _⟩ | ⟨m, _, _, h, _⟩
    · subst h; simp only [List.length_nil]; omega
    · have := congrArg List.length h
      simp only [List.length_map, List.length_drop] at this
      omega

omit [DecidableEq K] in
theorem bound_next {l l' : Lex K} (h1 : l'.toks = l.toks) (h2 : l'.sub.map (·.1) = l.sub.map (·.1)) : l'.bound = l.bound := by
  unfold Lex.bound
  rw [h1]
  cases hs : l.sub <;> cases hs' : l'.sub <;> rw [hs, hs'] at h2 <;> simp_all

theorem isKind_cons {l : Lex K} {p : Nat × K} {v : List (Nat × K)} (h : Reads l (p :: v)) (ks : List K) :
    l.isKind ks = .ok (decide (p.2 ∈ ks)) := by
  unfold Lex.isKind
  rw [(reads_cons (i := p.1) (k := p.2) h).2.1]
  rfl

theorem popOpeners_run (start : List K) (tail : List (Nat × K)) (t : Nat × K) (ht : t.2 ∉ start) :
    ∀ (os : List (Nat × K)) (l : Lex K) (fuel : Nat) (acc : List Nat), (∀ o ∈ os, o.2 ∈ start) →
      os.length ≤ fuel → Reads l (os ++ t :: tail) →
      ∃ l', l.popOpeners start fuel acc = .ok (acc ++ os.map Prod.fst, l') ∧ Reads l' (t :: tail) ∧ l'.bound = l.bound := by
  intro os
  induction os with
  | nil =>
    intro l fuel acc _ _ h
    refine ⟨l, ?_, h, rfl⟩
    unfold Lex.popOpeners
    rw [isKind_cons h]
    simp [ht]
  | cons o os ih =>
    intro l fuel acc ho hf h
    rw [List.cons_append] at h
    obtain ⟨_, _, h3, h4, h5, _, h6⟩ := reads_cons (i := o.1) (k := o.2) h
    cases fuel with
    | zero => simp at hf
    | succ fuel =>
      obtain ⟨l', e1, e2, e3⟩ := ih l.next fuel (acc ++ [l.pos]) (fun x hx => ho x (List.mem_cons_of_mem _ hx))
        (by simpa using hf) h4
      refine ⟨l', ?_, e2, by rw [e3, bound_next h5 h6]⟩
      unfold Lex.popOpeners
      rw [isKind_cons h]
      simp only [ho o List.mem_cons_self, decide_true]
      rw [e1, h3]
      simp

theorem popClosers_run (finish : List K) (keep : Bool) (tail : List (Nat × K))
    (ht : ∀ t, tail.head? = some t → t.2 ∉ finish) :
    ∀ (cs : List (Nat × K)) (l : Lex K) (fuel : Nat) (acc : List Nat), (∀ o ∈ cs, o.2 ∈ finish) →
      cs.length ≤ fuel → Reads l (cs ++ tail) →
      ∃ l', l.popClosers finish keep fuel acc = .ok (acc ++ (if keep then cs.map Prod.fst else []), l') ∧
        Reads l' tail ∧ l'.bound = l.bound := by
  intro cs
  induction cs with
  | nil =>
    intro l fuel acc _ _ h
    refine ⟨l, ?_, h, rfl⟩
    unfold Lex.popClosers
    cases tail with
    | nil => rw [(reads_nil h).1]; simp
    | cons t tail =>
      rw [List.nil_append] at h
      rw [(reads_cons (i := t.1) (k := t.2) h).1, isKind_cons h]
      simp [ht t rfl]
  | cons o cs ih =>
    intro l fuel acc ho hf h
    rw [List.cons_append] at h
    obtain ⟨h1, _, h3, h4, h5, _, h6⟩ := reads_cons (i := o.1) (k := o.2) h
    cases fuel with
    | zero => simp at hf
    | succ fuel =>
      obtain ⟨l', e1, e2, e3⟩ := ih l.next fuel (if keep then acc ++ [l.pos] else acc)
        (fun x hx => ho x (List.mem_cons_of_mem _ hx)) (by simpa using hf) h4
      refine ⟨l', ?_, e2, by rw [e3, bound_next h5 h6]⟩
      unfold Lex.popClosers
      rw [h1, isKind_cons h]
      simp only [ho o List.mem_cons_self, decide_true, Bool.false_eq_true, if_false]
      rw [e1, h3]
      cases keep <;> simp

theorem map_split {α β : Type} {f : α → β} {b c : List β} {l : List α} (h : l.map f = b ++ c) :
    ∃ l1 l2, l = l1 ++ l2 ∧ l1.map f = b ∧ l2.map f = c := by
  obtain ⟨l1, l2, h1, h2, h3⟩ := List.map_eq_append_iff.1 h
  exact ⟨l1, l2, h1, h2, h3⟩

/-- Over a nested text the loop only copies. -/
theorem insideLoop_body (start finish : List K) (hd : ∀ k ∈ start, k ∉ finish) {ks : List K} (hr : Runs start finish ks) :
    ∀ (body tail : List (Nat × K)) (l : Lex K) (fuel count : Nat) (acc : List Nat), body.map Prod.snd = ks →
      0 < count → tail ≠ [] →
      ((∀ k, ks.getLast? = some k → k ∉ finish) ∨ (∀ t, tail.head? = some t → t.2 ∉ finish)) →
      Reads l (body ++ tail) → (body ++ tail).length < fuel →
      ∃ l' fuel', Lex.insideLoop start finish fuel count l acc =
          Lex.insideLoop start finish fuel' count l' (acc ++ body.map Prod.fst) ∧
        Reads l' tail ∧ tail.length < fuel' := by
  induction hr with
  | nil =>
    intro body tail l fuel count acc hb hc htn _ hl hf
    have : body = [] := by simpa using hb
    subst this
    exact ⟨l, fuel, by simp, hl, hf⟩
  | @other k rest hk1 hk2 _ ih =>
    intro body tail l fuel count acc hb hc htn hlast hl hf
    cases body with
    | nil => simp at hb
    | cons p body =>
      simp only [List.map_cons, List.cons.injEq] at hb
      obtain ⟨hp, hb⟩ := hb
      rw [List.cons_append] at hl hf
      obtain ⟨h1, _, h3, h4, _⟩ := reads_cons (i := p.1) (k := p.2) hl
      cases fuel with
      | zero => simp at hf
      | succ fuel =>
        obtain ⟨l', fuel', e1, e2, e3⟩ := ih body tail l.next fuel count (acc ++ [l.pos]) hb hc htn
          (by
            rcases hlast with h | h
            · left
              intro k' hk'
              apply h k'
              cases rest with
              | nil => cases hk'
              | cons a rest => simpa using hk'
            · right; exact h) h4 (by simpa using hf)
        refine ⟨l', fuel', ?_, e2, e3⟩
        rw [Lex.insideLoop, h1, isKind_cons hl, isKind_cons hl]
        simp only [hp, hk1, hk2, hc, decide_true, decide_false, Bool.not_false, Bool.and_self, if_true]
        rw [e1, h3]
        simp
  | @pair os cs body rest hos hcs hos' hcs' hb1 hb2 hrest _ _ ih1 ih2 =>
    intro text tail l fuel count acc hb hc htn hlast hl hf
    obtain ⟨t3, t4, rfl, hb, ht4⟩ := map_split hb
    obtain ⟨t2, t3, rfl, hb, ht3⟩ := map_split hb
    obtain ⟨t1, t2, rfl, ht1, ht2⟩ := map_split hb
    -- the opening run
    have hos'' : ∀ o ∈ t1, o.2 ∈ start := fun o ho => hos' _ (by rw [← ht1]; exact List.mem_map_of_mem ho)
    have hcs'' : ∀ o ∈ t3, o.2 ∈ finish := fun o ho => hcs' _ (by rw [← ht3]; exact List.mem_map_of_mem ho)
    have h1ne : t1 ≠ [] := by rintro rfl; exact hos (by simpa using ht1.symm)
    have h3ne : t3 ≠ [] := by rintro rfl; exact hcs (by simpa using ht3.symm)
    obtain ⟨c0, t3', rfl⟩ := List.exists_cons_of_ne_nil h3ne
    have hc0 : c0.2 ∈ finish := hcs'' c0 List.mem_cons_self
    obtain ⟨o0, t1', rfl⟩ := List.exists_cons_of_ne_nil h1ne
    have ho0 : o0.2 ∈ start := hos'' o0 List.mem_cons_self
    obtain ⟨fuel, rfl⟩ : ∃ f, fuel = f + 1 := ⟨fuel - 1, by omega⟩
    simp only [List.append_assoc, List.cons_append] at hl
    -- the token after it
    obtain ⟨t, more, hmore, htk⟩ : ∃ t more, t2 ++ c0 :: (t3' ++ (t4 ++ tail)) = t :: more ∧ t.2 ∉ start := by
      cases t2 with
      | nil => exact ⟨c0, _, rfl, fun h => hd _ h hc0⟩
      | cons t t2 =>
        refine ⟨t, _, rfl, hb1 t.2 ?_⟩
        rw [← ht2]; rfl
    have hl1 : Reads l ((o0 :: t1') ++ t :: more) := by
      rw [← hmore]; simpa using hl
    have hbound := reads_bound hl1
    obtain ⟨l1, e1, e2, _⟩ := popOpeners_run start more t htk (o0 :: t1') l l.bound acc hos''
      (by simp only [List.length_append, List.length_cons] at hbound ⊢; omega) hl1
    rw [← hmore] at e2
    -- the body
    simp only [List.length_append, List.length_cons] at hf
    obtain ⟨l2, fuel2, e3, e4, e5⟩ := ih1 t2 (c0 :: (t3' ++ (t4 ++ tail))) l1 fuel (count + 1)
      (acc ++ (o0 :: t1').map Prod.fst) ht2 (by omega) (by simp) (Or.inl hb2) e2
      (by simp only [List.length_append, List.length_cons]; omega)
    obtain ⟨fuel2, rfl⟩ : ∃ f, fuel2 = f + 1 := ⟨fuel2 - 1, by omega⟩
    -- the closing run
    have htail : ∀ t, (t4 ++ tail).head? = some t → t.2 ∉ finish := by
      intro t ht
      cases t4 with
      | nil =>
        have hr : rest = [] := by simpa using ht4.symm
        rcases hlast with h | h
        · exfalso
          subst hr
          obtain ⟨cs', cl, hcl⟩ : ∃ cs' cl, cs = cs' ++ [cl] := by
            rcases List.eq_nil_or_concat cs with h | ⟨a, b, h⟩
            · exact absurd h hcs
            · exact ⟨a, b, by rw [h, List.concat_eq_append]⟩
          have h5 := h cl (by rw [hcl]; simp)
          exact h5 (hcs' cl (by rw [hcl]; simp))
        · exact h t (by simpa using ht)
      | cons t' t4 =>
        simp only [List.cons_append, List.head?_cons, Option.some.injEq] at ht
        subst ht
        apply hrest
        rw [← ht4]; rfl
    have hl2 : Reads l2 ((c0 :: t3') ++ (t4 ++ tail)) := by simpa using e4
    have hbound2 := reads_bound hl2
    obtain ⟨l3, e6, e7, _⟩ := popClosers_run finish (decide (1 < count + 1)) (t4 ++ tail) htail (c0 :: t3') l2 l2.bound
      (acc ++ (o0 :: t1').map Prod.fst ++ t2.map Prod.fst) hcs''
      (by simp only [List.length_append, List.length_cons] at hbound2 ⊢; omega) hl2
    -- the rest
    simp only [List.length_append, List.length_cons] at e5
    obtain ⟨l4, fuel4, e8, e9, e10⟩ := ih2 t4 tail l3 fuel2 count
      (acc ++ (o0 :: t1').map Prod.fst ++ t2.map Prod.fst ++ (c0 :: t3').map Prod.fst) ht4 hc htn
      (by
        rcases hlast with h | h
        · left
          intro k hk
          apply h k
          cases rest with
          | nil => cases hk
          | cons a rest => rw [List.getLast?_append, hk]; rfl
        · right; exact h) e7 (by simp only [List.length_append]; omega)
    refine ⟨l4, fuel4, ?_, e9, e10⟩
    have hl' : Reads l (o0 :: (t1' ++ t :: more)) := by simpa using hl1
    rw [Lex.insideLoop, (reads_cons (i := o0.1) (k := o0.2) hl').1, isKind_cons hl']
    simp only [ho0, hc, decide_true, Bool.not_false, Bool.and_self, if_true]
    rw [e1]
    dsimp only
    rw [e3]
    have hl2' : Reads l2 (c0 :: (t3' ++ (t4 ++ tail))) := e4
    rw [Lex.insideLoop, (reads_cons (i := c0.1) (k := c0.2) hl2').1, isKind_cons hl2', isKind_cons hl2']
    have hcs0 : c0.2 ∉ start := fun h => hd _ h hc0
    simp only [hc0, hcs0, decide_true, decide_false, Bool.not_false, Nat.zero_lt_succ, Bool.and_self, if_true]
    rw [e6]
    have hk : decide (1 < count + 1) = true := by simpa using hc
    simp only [hk, if_true, Nat.add_sub_cancel]
    rw [e8]
    simp

/-- **C24.** For brackets that do not touch each other, `getInside` gives exactly the tokens
between the opening run and the closing run that belongs to it, and leaves what follows. -/
theorem getInside_partial (start finish : List K) (l : Lex K) (os body cs post : List (Nat × K))
    (hd : ∀ k ∈ start, k ∉ finish) (hos : ∀ o ∈ os, o.2 ∈ start) (hcs : cs ≠ []) (hcs' : ∀ c ∈ cs, c.2 ∈ finish)
    (hb : Runs start finish (body.map Prod.snd))
    (hb1 : ∀ p, body.head? = some p → p.2 ∉ start) (hb2 : ∀ p, body.getLast? = some p → p.2 ∉ finish)
    (hpost : ∀ p, post.head? = some p → p.2 ∉ finish) (hl : Reads l (os ++ body ++ cs ++ post)) :
    ∃ l', l.getInside start finish = .ok (body.map Prod.fst, l') ∧ Reads l' post := by
  obtain ⟨c0, cs, rfl⟩ := List.exists_cons_of_ne_nil hcs
  have hc0 : c0.2 ∈ finish := hcs' c0 List.mem_cons_self
  simp only [List.append_assoc, List.cons_append] at hl
  obtain ⟨t, more, hmore, htk⟩ : ∃ t more, body ++ c0 :: (cs ++ post) = t :: more ∧ t.2 ∉ start := by
    cases body with
    | nil => exact ⟨c0, _, rfl, fun h => hd _ h hc0⟩
    | cons t body => exact ⟨t, _, rfl, hb1 t rfl⟩
  rw [hmore] at hl
  have hbound := reads_bound hl
  obtain ⟨l1, e1, e2, _⟩ := popOpeners_run start more t htk os l l.bound [] hos
    (by simp only [List.length_append] at hbound; omega) hl
  rw [← hmore] at e2
  obtain ⟨l2, fuel2, e3, e4, e5⟩ := insideLoop_body start finish hd hb body (c0 :: (cs ++ post)) l1 l1.bound 1 [] rfl
    (by omega) (by simp)
    (Or.inl (by
      intro k hk
      rw [List.getLast?_map] at hk
      obtain ⟨p, hp, rfl⟩ := Option.map_eq_some_iff.1 hk
      exact hb2 p hp)) e2 (reads_bound e2)
  obtain ⟨fuel2, rfl⟩ : ∃ f, fuel2 = f + 1 := ⟨fuel2 - 1, by omega⟩
  have hbound2 := reads_bound e4
  obtain ⟨l3, e6, e7, _⟩ := popClosers_run finish (decide (1 < 1)) post hpost (c0 :: cs) l2 l2.bound
    ([] ++ body.map Prod.fst) hcs'
    (by simp only [List.length_append, List.length_cons] at hbound2 ⊢; omega) (by simpa using e4)
  refine ⟨l3, ?_, e7⟩
  unfold Lex.getInside
  rw [e1]
  dsimp only
  rw [e3, Lex.insideLoop, (reads_cons (i := c0.1) (k := c0.2) e4).1, isKind_cons e4, isKind_cons e4]
  have hcs0 : c0.2 ∉ start := fun h => hd _ h hc0
  simp only [hc0, hcs0, decide_true, decide_false, Bool.not_false, Nat.zero_lt_succ, Bool.and_self, if_true]
  rw [e6]
  simp only [Nat.sub_self, List.nil_append]
  rw [Lex.insideLoop.eq_def]
  simp

/-- `{{a {b} c}} d` with runs of two: the hypotheses hold. -/
example : ∃ l', (Lex.main [1, 1, 10, 1, 11, 2, 12, 2, 2, 13]).getInside [1] [2] = .ok ([3, 4, 5, 6, 7], l') ∧
    Reads l' [(10, 13)] :=
  getInside_partial [1] [2] _ [(1, 1), (2, 1)] [(3, 10), (4, 1), (5, 11), (6, 2), (7, 12)] [(8, 2), (9, 2)] [(10, 13)]
    (by decide) (by decide) (by decide) (by decide)
    (.other (by decide) (by decide)
      (.pair (os := [1]) (cs := [2]) (body := [11]) (rest := [12]) (by decide) (by decide) (by decide) (by decide)
        (by simp) (by simp) (by simp) (.other (by decide) (by decide) .nil) (.other (by decide) (by decide) .nil)))
    (by simp) (by simp) (by simp) (reads_main [1, 1, 10, 1, 11, 2, 12, 2, 2, 13])

end Verif.Lexer
