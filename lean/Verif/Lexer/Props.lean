import Verif.Lexer.Model

/-!
# Token cursors (C23, C24, C54)
-/

namespace Verif.Lexer

instance {ε α : Type} [DecidableEq ε] [DecidableEq α] : DecidableEq (Except ε α)
  | .ok a, .ok b => if h : a = b then isTrue (h ▸ rfl) else isFalse (fun h' => h (by cases h'; rfl))
  | .error a, .error b =>
    if h : a = b then isTrue (h ▸ rfl) else isFalse (fun h' => h (by cases h'; rfl))
  | .ok _, .error _ => isFalse (fun h => by cases h)
  | .error _, .ok _ => isFalse (fun h => by cases h)

variable {K : Type}

/-! ## Specification: what is still to be read -/

/-- `Reads l v`: the tokens still to be read are `v` (ids with kinds), in this order.  A
plain lexer is at some position of its group; a sub-lexer at some position of its ids, which
are ids of tokens in the group. -/
def Reads (l : Lex K) (v : List (Nat × K)) : Prop :=
  match l.sub with
  | none => ∃ pre : List K, l.toks = pre ++ v.map Prod.snd ∧
      (l.pos = pre.length + 1 ∨ (l.pos = 0 ∧ v = [])) ∧ v.map Prod.fst = List.range' (pre.length + 1) v.length
  | some (ids, subPos) =>
      (∀ p ∈ v, 1 ≤ p.1 ∧ l.toks[p.1 - 1]? = some p.2) ∧
      ((v = [] ∧ l.pos = 0) ∨
       ∃ n : Nat, subPos = n ∧ n < ids.length ∧ v.map Prod.fst = ids.drop n ∧ ids[n]? = some l.pos)

/-- The plain lexer reads all tokens of the group. -/
theorem reads_main (toks : List K) :
    Reads (Lex.main toks) ((List.range' 1 toks.length).zip toks) := by
  refine ⟨[], ?_, Or.inl rfl, ?_⟩
  · simp only [Lex.main, List.nil_append]
    rw [List.map_snd_zip]
    simp
  · rw [List.map_fst_zip (by simp)]
    simp

/-- A sub-lexer reads the tokens it was given. -/
theorem reads_sub (toks : List K) (v : List (Nat × K)) (h : ∀ p ∈ v, 1 ≤ p.1 ∧ toks[p.1 - 1]? = some p.2) :
    Reads (Lex.ofIds toks (v.map Prod.fst)) v := by
  unfold Reads Lex.ofIds
  refine ⟨h, ?_⟩
  cases v with
  | nil => left; simp
  | cons p v => right; exact ⟨0, rfl, by simp, by simp, by simp⟩

/-! ## Moving -/

theorem reads_nil {l : Lex K} (h : Reads l []) :
    l.finished = true ∧ (∀ off : Nat, l.hasNext off = false) ∧ l.kind = .error .range := by
  unfold Reads at h
  have key : (∀ off : Nat, l.hasNext off = false) ∧ l.kind = .error .range := by
    split at h
    · rename_i hs
      obtain ⟨pre, h1, h2, _⟩ := h
      simp only [List.map_nil, List.append_nil] at h1
      rcases h2 with h2 | ⟨h2, _⟩
      · constructor
        · intro off
          unfold Lex.hasNext Lex.get
          rw [hs]
          simp only [decide_eq_false_iff_not]
          rw [h2, h1]
          omega
        · unfold Lex.kind Lex.tokAt Lex.get
          rw [h2]
          simp only [Int.add_zero, Int.toNat_natCast]
          rw [if_neg (by omega), h1]
          simp
      · constructor
        · intro off; unfold Lex.hasNext; rw [hs, h2]; simp
        · unfold Lex.kind Lex.tokAt Lex.get; rw [h2]; simp
    · rename_i ids subPos hs
      rcases h.2 with ⟨_, h2⟩ | ⟨n, h1, h2, h3, h4⟩
      · constructor
        · intro off; unfold Lex.hasNext; rw [hs, h2]; simp
        · unfold Lex.kind Lex.tokAt Lex.get; rw [h2]; simp
      · exfalso
        simp only [List.map_nil] at h3
        have := List.drop_eq_nil_iff.1 h3.symm
        omega
  refine ⟨?_, key⟩
  unfold Lex.finished
  have := key.1 0
  simp only [Int.natCast_zero] at this
  rw [this]; rfl

theorem reads_cons {l : Lex K} {i : Nat} {k : K} {v : List (Nat × K)} (h : Reads l ((i, k) :: v)) :
    l.finished = false ∧ l.kind = .ok k ∧ l.pos = i ∧ Reads l.next v ∧ l.next.toks = l.toks ∧
      l.next.sub.isNone = l.sub.isNone ∧ l.next.sub.map (·.1) = l.sub.map (·.1) := by
  obtain ⟨toks, pos, sub⟩ := l
  cases sub with
  | none =>
    obtain ⟨pre, h1, h2, h3⟩ := h
    simp only at h1 h2
    simp only [List.map_cons, List.length_cons, List.range'_succ, List.cons.injEq] at h3
    obtain ⟨h3, h4⟩ := h3
    have hpos : pos = pre.length + 1 := by
      rcases h2 with h2 | h2
      · exact h2
      · exact absurd h2.2 (by simp)
    have hlen : toks.length = pre.length + 1 + v.length := by rw [h1]; simp; omega
    refine ⟨?_, ?_, by dsimp only; omega, ?_, ?_, ?_, ?_⟩
    · unfold Lex.finished Lex.hasNext Lex.get
      simp only [Int.add_zero, Int.toNat_natCast]
      rw [decide_eq_true (by omega)]
      rfl
    · unfold Lex.kind Lex.tokAt Lex.get
      simp only [Int.add_zero, Int.toNat_natCast]
      rw [if_neg (by omega), h1, hpos]
      simp
    · unfold Lex.next
      dsimp only
      split
      · rename_i hn
        refine ⟨pre ++ [k], by simp [h1], Or.inl ?_, by simpa using h4⟩
        simp only [Lex.get, List.length_append, List.length_singleton]
        omega
      · rename_i hn
        unfold Lex.hasNext Lex.get at hn
        simp only [decide_eq_true_eq] at hn
        refine ⟨pre ++ [k], by simp [h1], Or.inr ⟨rfl, ?_⟩, by simpa using h4⟩
        cases v with
        | nil => rfl
        | cons a v => exfalso; apply hn; simp only [List.length_cons] at hlen; omega
    · unfold Lex.next; dsimp only; split <;> rfl
    · unfold Lex.next; dsimp only; split <;> rfl
    · unfold Lex.next; dsimp only; split <;> rfl
  | some p =>
    obtain ⟨ids, subPos⟩ := p
    obtain ⟨hv, h⟩ := h
    simp only at hv h
    rcases h with ⟨h, _⟩ | ⟨n, rfl, h2, h3, h4⟩
    · cases h
    · have hv0 := hv (i, k) List.mem_cons_self
      simp only at hv0
      rw [List.map_cons, List.drop_eq_getElem_cons h2, List.cons.injEq] at h3
      obtain ⟨h3, h5⟩ := h3
      have hp : pos = i := by
        rw [List.getElem?_eq_getElem h2] at h4
        have := Option.some.inj h4
        rw [← this]; exact h3.symm
      subst hp
      refine ⟨?_, ?_, rfl, ?_, ?_, ?_, ?_⟩
      · unfold Lex.finished Lex.hasNext
        simp only [Int.add_zero]
        rw [decide_eq_true (by omega)]
        rfl
      · unfold Lex.kind Lex.tokAt Lex.get
        simp only [Int.add_zero, Int.toNat_natCast]
        rw [if_neg (by omega), hv0.2]
      · unfold Lex.next
        dsimp only
        split
        · rename_i hn
          unfold Lex.hasNext at hn
          simp only [decide_eq_true_eq] at hn
          refine ⟨fun q hq => hv q (List.mem_cons_of_mem _ hq), Or.inr ⟨n + 1, by simp, by omega, h5, ?_⟩⟩
          have : ((n : Int) + 1).toNat = n + 1 := by omega
          rw [this, List.getD_eq_getElem?_getD, List.getElem?_eq_getElem (by omega)]
          rfl
        · rename_i hn
          unfold Lex.hasNext at hn
          simp only [decide_eq_true_eq] at hn
          refine ⟨fun q hq => hv q (List.mem_cons_of_mem _ hq), Or.inl ⟨?_, rfl⟩⟩
          have : ids.drop (n + 1) = [] := List.drop_eq_nil_iff.2 (by omega)
          rw [this] at h5
          simpa using h5
      · unfold Lex.next; dsimp only; split <;> rfl
      · unfold Lex.next; dsimp only; split <;> rfl
      · unfold Lex.next; dsimp only; split <;> rfl

/-- **C23.** The cursor is finished exactly when nothing is left; reading gives the first of
the tokens left and moves over it; reading `n` tokens gives the first `n` of them. -/
theorem cursor_reads (l : Lex K) (v : List (Nat × K)) (h : Reads l v) :
    (l.finished = true ↔ v = []) ∧
    (∀ p rest, v = p :: rest → l.kind = .ok p.2 ∧ l.pop.1 = p.1 ∧ Reads l.pop.2 rest) ∧
    (∀ n, n ≤ v.length → (l.popN n).1 = (v.take n).map Prod.fst ∧ Reads (l.popN n).2 (v.drop n)) ∧
    (l.popN v.length).2.finished = true := by
  have key : ∀ (v : List (Nat × K)) (l : Lex K), Reads l v → ∀ n, n ≤ v.length →
      (l.popN n).1 = (v.take n).map Prod.fst ∧ Reads (l.popN n).2 (v.drop n) := by
    intro v
    induction v with
    | nil =>
      intro l h n hn
      have : n = 0 := by simpa using hn
      subst this
      exact ⟨rfl, h⟩
    | cons p v ih =>
      intro l h n hn
      cases n with
      | zero => exact ⟨rfl, h⟩
      | succ n =>
        obtain ⟨_, _, h3, h4, _⟩ := reads_cons h
        obtain ⟨h5, h6⟩ := ih l.next h4 n (by simpa using hn)
        refine ⟨?_, h6⟩
        simp only [Lex.popN, List.take_succ_cons, List.map_cons, h5, h3]
  refine ⟨?_, ?_, key v l h, ?_⟩
  · cases v with
    | nil => simp [(reads_nil h).1]
    | cons p v => simp [(reads_cons h).1]
  · rintro p rest rfl
    obtain ⟨_, h2, h3, h4, _⟩ := reads_cons h
    exact ⟨h2, h3, h4⟩
  · have := (key v l h v.length (Nat.le_refl _)).2
    rw [List.drop_length] at this
    exact (reads_nil this).1

variable [DecidableEq K]

/-- **C23.** `next(offset)` leaves out this number of tokens, for a plain and for a
sub-lexer. -/
theorem next_reads (l : Lex K) (v : List (Nat × K)) (h : Reads l v) (n : Nat) : Reads (l.next n) (v.drop n) := by
  by_cases hn : n < v.length
  · have hhas : l.hasNext n = true := by
      cases v with
      | nil => simp at hn
      | cons p0 v =>
        obtain ⟨_, _, hpos, _⟩ := reads_cons (i := p0.1) (k := p0.2) h
        obtain ⟨toks, pos, sub⟩ := l
        cases sub with
        | none =>
          obtain ⟨pre, h1, h2, h3⟩ := h
          simp only at h1 h2
          have hp : pos = pre.length + 1 := by
            rcases h2 with h2 | h2
            · exact h2
            · exact absurd h2.2 (by simp)
          have hlen : toks.length = pre.length + (v.length + 1) := by rw [h1]; simp
          rw [List.length_cons] at hn
          unfold Lex.hasNext Lex.get
          dsimp only
          rw [decide_eq_true_eq]
          omega
        | some q =>
          obtain ⟨ids, subPos⟩ := q
          obtain ⟨hv, h⟩ := h
          simp only at hv h
          rcases h with ⟨h, _⟩ | ⟨m, rfl, h2, h3, h4⟩
          · cases h
          have hlen : v.length + 1 = ids.length - m := by
            have := congrArg List.length h3
            simpa using this
          have hv0 := hv p0 List.mem_cons_self
          rw [List.length_cons] at hn
          dsimp only at hpos
          unfold Lex.hasNext
          dsimp only
          rw [decide_eq_true_eq]
          omega
    obtain ⟨toks, pos, sub⟩ := l
    cases sub with
    | none =>
      obtain ⟨pre, h1, h2, h3⟩ := h
      simp only at h1 h2
      have hp : pos = pre.length + 1 := by
        rcases h2 with h2 | h2
        · exact h2
        · rw [h2.2] at hn; simp at hn
      unfold Lex.next
      dsimp only
      rw [if_pos hhas]
      refine ⟨pre ++ (v.take n).map Prod.snd, ?_, Or.inl ?_, ?_⟩
      · rw [List.append_assoc, ← List.map_append, List.take_append_drop]
        exact h1
      · simp only [Lex.get, List.length_append, List.length_map, List.length_take]
        omega
      · rw [List.map_drop, h3, List.drop_range']
        simp only [List.length_append, List.length_map, List.length_take, List.length_drop]
        congr 1
        omega
    | some q =>
      obtain ⟨ids, subPos⟩ := q
      obtain ⟨hv, h⟩ := h
      simp only at hv h
      rcases h with ⟨h, _⟩ | ⟨m, rfl, h2, h3, h4⟩
      · rw [h] at hn; simp at hn
      have hlen : v.length = ids.length - m := by
        have := congrArg List.length h3
        simpa using this
      unfold Lex.next
      dsimp only
      rw [if_pos hhas]
      have e : ((m : Int) + (n : Int)).toNat = m + n := by omega
      refine ⟨fun p hp => hv p (List.mem_of_mem_drop hp), Or.inr ⟨m + n, by push_cast; rfl, by omega, ?_, ?_⟩⟩
      · rw [List.map_drop, h3, List.drop_drop]
      · simp only
        rw [e, List.getD_eq_getElem?_getD, List.getElem?_eq_getElem (by omega : m + n < ids.length)]
        rfl
  · rw [List.drop_eq_nil_iff.2 (by omega)]
    obtain ⟨toks, pos, sub⟩ := l
    cases sub with
    | none =>
      obtain ⟨pre, h1, h2, h3⟩ := h
      simp only at h1 h2
      have hlen : toks.length = pre.length + v.length := by rw [h1]; simp
      have hhas : Lex.hasNext (⟨toks, pos, none⟩ : Lex K) n = false := by
        unfold Lex.hasNext Lex.get
        dsimp only
        rw [decide_eq_false_iff_not]
        omega
      unfold Lex.next
      dsimp only
      rw [if_neg (by rw [hhas]; simp)]
      exact ⟨toks, by simp, Or.inr ⟨rfl, rfl⟩, by simp⟩
    | some q =>
      obtain ⟨ids, subPos⟩ := q
      obtain ⟨hv, h⟩ := h
      simp only at hv h
      have hhas : Lex.hasNext (⟨toks, pos, some (ids, subPos)⟩ : Lex K) n = false := by
        unfold Lex.hasNext
        dsimp only
        rw [decide_eq_false_iff_not]
        rcases h with ⟨h, hp⟩ | ⟨m, rfl, h2, h3, h4⟩
        · omega
        · have hlen : v.length = ids.length - m := by
            have := congrArg List.length h3
            simpa using this
          omega
      unfold Lex.next
      dsimp only
      rw [if_neg (by rw [hhas]; simp)]
      exact ⟨by simp, Or.inl ⟨rfl, rfl⟩⟩

example : ((Lex.ofIds [10, 20, 30, 40] [1, 3, 4]).next 2).kind = .ok 40 := by decide +kernel

/-- **C23.** `skip`/`expect` accept exactly a next token of one of the kinds; then one
token has been read.  Otherwise they fail (and have changed nothing). -/
theorem skip_reads (l : Lex K) (v : List (Nat × K)) (kinds : List K) (h : Reads l v) :
    match v with
    | [] => l.skip kinds = .error .unexpectedEnd ∧ l.expect kinds = .error .unexpectedEnd
    | p :: rest =>
      if p.2 ∈ kinds then ∃ l', l.skip kinds = .ok l' ∧ Reads l' rest ∧ l.expect kinds = .ok ()
      else l.skip kinds = .error .unexpectedChar ∧ l.expect kinds = .error .unexpectedChar := by
  cases v with
  | nil =>
    obtain ⟨h1, h2, _⟩ := reads_nil h
    have h2 := h2 0
    simp only [Int.natCast_zero] at h2
    simp [Lex.skip, Lex.expect, Lex.at, h2, h1]
  | cons p rest =>
    obtain ⟨i, k⟩ := p
    obtain ⟨h1, h2, h3, h4, _⟩ := reads_cons h
    have h0 : l.hasNext 0 = true := by unfold Lex.finished at h1; simpa using h1
    dsimp only
    split
    · rename_i hk
      refine ⟨l.next, ?_, h4, ?_⟩
      · simp [Lex.skip, Lex.expect, Lex.at, h0, h2, Except.map, hk]
      · simp [Lex.expect, Lex.at, h0, h2, Except.map, hk]
    · rename_i hk
      simp [Lex.skip, Lex.expect, Lex.at, h0, h2, Except.map, hk, h1]

theorem trySkip_reads (l : Lex K) (v : List (Nat × K)) (k : K) (h : Reads l v) :
    ∃ l', l.trySkip k = .ok l' ∧ Reads l' (match v with | [] => [] | p :: rest => if p.2 = k then rest else p :: rest) := by
  cases v with
  | nil =>
    obtain ⟨h1, h2, _⟩ := reads_nil h
    have h2 := h2 0
    simp only [Int.natCast_zero] at h2
    exact ⟨l, by simp [Lex.trySkip, Lex.at, h2], h⟩
  | cons p rest =>
    obtain ⟨i, k'⟩ := p
    obtain ⟨h1, h2, h3, h4, _⟩ := reads_cons h
    have h0 : l.hasNext 0 = true := by unfold Lex.finished at h1; simpa using h1
    by_cases hk : k' = k
    · exact ⟨l.next, by simp [Lex.trySkip, Lex.at, h0, h2, Except.map, hk], by simpa [hk] using h4⟩
    · exact ⟨l, by simp [Lex.trySkip, Lex.at, h0, h2, Except.map, hk], by simpa [hk] using h⟩

/-! ## Looking ahead (C54) -/

/-- The full claim: looking ahead sees the tokens still to be read. -/
def LookaheadStatement (K : Type) : Prop :=
  ∀ (l : Lex K) (v : List (Nat × K)), Reads l v → ∀ n : Nat,
    l.hasNext n = decide (n < v.length) ∧ ∀ p, v[n]? = some p → l.kind n = .ok p.2

/-- A sub-lexer over the first and third token looks at the second one. -/
theorem lookahead_false : ¬ LookaheadStatement Nat := by
  intro h
  have h1 := (h (Lex.ofIds [10, 20, 30] [1, 3]) [(1, 10), (3, 30)]
    (reads_sub [10, 20, 30] [(1, 10), (3, 30)] (by decide)) 1).2 (3, 30) rfl
  revert h1
  decide +kernel

/-- **C54.** Looking ahead sees the tokens still to be read if their ids follow each other,
which is always so for the plain lexer; for every sub-lexer the number of tokens ahead is
right. -/
theorem lookahead_partial (l : Lex K) (v : List (Nat × K)) (h : Reads l v) (n : Nat) :
    l.hasNext n = decide (n < v.length) ∧
    ((l.sub = none ∨ ∃ a, v.map Prod.fst = List.range' a v.length) → ∀ p, v[n]? = some p → l.kind n = .ok p.2) := by
  cases v with
  | nil => exact ⟨by rw [(reads_nil h).2.1]; rfl, by simp⟩
  | cons p0 v =>
    obtain ⟨_, _, hpos, _⟩ := reads_cons (i := p0.1) (k := p0.2) h
    obtain ⟨toks, pos, sub⟩ := l
    cases sub with
    | none =>
      obtain ⟨pre, h1, h2, h3⟩ := h
      simp only at h1 h2
      have hp : pos = pre.length + 1 := by
        rcases h2 with h2 | h2
        · exact h2
        · exact absurd h2.2 (by simp)
      have hlen : toks.length = pre.length + (v.length + 1) := by rw [h1]; simp
      have hget : ((pos : Int) + n).toNat = pre.length + 1 + n := by omega
      constructor
      · unfold Lex.hasNext Lex.get
        dsimp only
        rw [hget, List.length_cons]
        congr 1
        rw [eq_iff_iff]
        omega
      · intro _ p hv
        unfold Lex.kind Lex.tokAt Lex.get
        dsimp only
        rw [hget, if_neg (by omega), h1]
        have : pre.length + 1 + n - 1 = pre.length + n := by omega
        rw [this, List.getElem?_append_right (by omega), Nat.add_sub_cancel_left, List.getElem?_map, hv]
        rfl
    | some q =>
      obtain ⟨ids, subPos⟩ := q
      obtain ⟨hv, h⟩ := h
      simp only at hv h
      rcases h with ⟨h, _⟩ | ⟨m, rfl, h2, h3, h4⟩
      · cases h
      have hlen : v.length + 1 = ids.length - m := by
        have := congrArg List.length h3
        simpa using this
      have hv0 := hv p0 List.mem_cons_self
      dsimp only at hpos
      constructor
      · unfold Lex.hasNext
        dsimp only
        rw [List.length_cons]
        congr 1
        rw [eq_iff_iff]
        omega
      · rintro (h | ⟨a, ha⟩)
        · cases h
        · intro p hp
          have e1 : p0.1 = a := by
            have := congrArg List.head? ha
            simpa [List.range'_succ] using this
          have e2 : p.1 = a + n := by
            have h5 := congrArg (fun l => l[n]?) ha
            simp only [List.getElem?_map, hp, Option.map_some] at h5
            obtain ⟨hn, _⟩ := List.getElem?_eq_some_iff.1 hp
            rw [List.getElem?_range' (by simpa using hn)] at h5
            have := Option.some.inj h5
            omega
          unfold Lex.kind Lex.tokAt Lex.get
          dsimp only
          have hget : ((pos : Int) + n).toNat = p.1 := by omega
          rw [hget]
          have := hv p (List.mem_of_getElem? hp)
          rw [if_neg (by omega), this.2]

/-- The search functions on a cursor that sees what it reads. -/
theorem at_reads (l : Lex K) (v : List (Nat × K)) (h : Reads l v)
    (hc : l.sub = none ∨ ∃ a, v.map Prod.fst = List.range' a v.length) (kinds : List K) (n : Nat) :
    l.at kinds n = .ok (match v[n]? with | some p => decide (p.2 ∈ kinds) | none => false) := by
  obtain ⟨h1, h2⟩ := lookahead_partial l v h n
  unfold Lex.at
  rw [h1]
  cases hv : v[n]? with
  | none =>
    have := List.getElem?_eq_none_iff.1 hv
    rw [decide_eq_false (by omega)]
    rfl
  | some p =>
    obtain ⟨hn, _⟩ := List.getElem?_eq_some_iff.1 hv
    rw [decide_eq_true hn, if_pos rfl, h2 hc p hv]
    rfl

theorem skipAhead_reads (l : Lex K) (v : List (Nat × K)) (h : Reads l v)
    (hc : l.sub = none ∨ ∃ a, v.map Prod.fst = List.range' a v.length) (skip : List K) :
    ∀ (fuel n : Nat), v.length ≤ n + fuel →
      l.skipAhead skip fuel n = .ok ((n + ((v.drop n).takeWhile (fun p => decide (p.2 ∈ skip))).length : Nat) : Int) := by
  intro fuel
  induction fuel with
  | zero =>
    intro n hn
    unfold Lex.skipAhead
    rw [at_reads l v h hc, List.getElem?_eq_none (by omega)]
    rw [List.drop_eq_nil_iff.2 (by omega)]
    simp
  | succ fuel ih =>
    intro n hn
    unfold Lex.skipAhead
    rw [at_reads l v h hc]
    cases hv : v[n]? with
    | none =>
      rw [List.drop_eq_nil_iff.2 (List.getElem?_eq_none_iff.1 hv)]
      simp
    | some p =>
      obtain ⟨hl, he⟩ := List.getElem?_eq_some_iff.1 hv
      rw [List.drop_eq_getElem_cons hl, he]
      by_cases hk : p.2 ∈ skip
      · simp only [hk, decide_true]
        rw [List.takeWhile_cons_of_pos (by simpa using hk)]
        have := ih (n + 1) (by omega)
        push_cast at this
        rw [this]
        simp only [List.length_cons]
        congr 1
        omega
      · simp only [hk, decide_false]
        rw [List.takeWhile_cons_of_neg (by simpa using hk)]
        simp

/-- **C54.** `at` with a sequence: whether the tokens from the offset on begin with these
kinds (never at the end). -/
theorem atSeq_reads (l : Lex K) (v : List (Nat × K)) (h : Reads l v)
    (hc : l.sub = none ∨ ∃ a, v.map Prod.fst = List.range' a v.length) (kinds : List K) (n : Nat) :
    l.atSeq kinds n = .ok (decide (n < v.length ∧ kinds <+: (v.drop n).map Prod.snd)) := by
  have key : ∀ (kinds : List K) (idx : Nat), l.atSeqFrom n idx kinds = .ok (decide (kinds <+: (v.drop (n + idx)).map Prod.snd)) := by
    intro kinds
    induction kinds with
    | nil => intro idx; simp [Lex.atSeqFrom]
    | cons k ks ih =>
      intro idx
      obtain ⟨h1, h2⟩ := lookahead_partial l v h (n + idx)
      have e : ((idx : Int) + (n : Int)) = ((n + idx : Nat) : Int) := by push_cast; omega
      rw [Lex.atSeqFrom, e, h1]
      by_cases hn : n + idx < v.length
      · rw [decide_eq_true hn, if_pos rfl, h2 hc _ (List.getElem?_eq_getElem hn), List.drop_eq_getElem_cons hn]
        simp only [List.map_cons, List.cons_prefix_cons]
        by_cases hk : v[n + idx].2 = k
        · rw [if_pos hk, ih (idx + 1)]
          simp [hk, Nat.add_assoc]
        · rw [if_neg hk]
          simp [Ne.symm hk]
      · rw [decide_eq_false hn, if_neg (by simp), List.drop_eq_nil_iff.2 (by omega)]
        simp
  unfold Lex.atSeq
  rw [(lookahead_partial l v h n).1]
  by_cases hn : n < v.length
  · rw [decide_eq_true hn, if_pos rfl]
    have := key kinds 0
    rw [this]
    simp [hn]
  · rw [decide_eq_false hn]
    simp [hn]

example : (Lex.main [10, 20, 30]).atSeq [20, 30] 1 = .ok true ∧ (Lex.main [10, 20, 30]).atSeq [20, 30, 40] 1 = .ok false := by
  decide +kernel

/-- **C54.** `find(skip, target)` goes over the tokens of the first set and answers whether
the token after them is of the second set; `find(kind)` gives the distance to the first
token of the kind. -/
theorem find_reads (l : Lex K) (v : List (Nat × K)) (h : Reads l v)
    (hc : l.sub = none ∨ ∃ a, v.map Prod.fst = List.range' a v.length) (skip target : List K) (fuel : Nat)
    (hf : v.length ≤ fuel) :
    let n := (v.takeWhile (fun p => decide (p.2 ∈ skip))).length
    l.find skip target fuel = .ok (if ∃ p, v[n]? = some p ∧ p.2 ∈ target then n else -1) := by
  intro n
  unfold Lex.find
  have := skipAhead_reads l v h hc skip fuel 0 (by omega)
  simp only [List.drop_zero, Nat.zero_add, Int.natCast_zero] at this
  rw [this]
  dsimp only
  change (match l.at target ((n : Nat) : Int) with | .error e => _ | .ok b => _) = _
  rw [at_reads l v h hc]
  dsimp only
  cases hv : v[n]? with
  | none => simp
  | some p => by_cases hk : p.2 ∈ target <;> simp [hk]; rfl

theorem findKind_reads (l : Lex K) (v : List (Nat × K)) (h : Reads l v)
    (hc : l.sub = none ∨ ∃ a, v.map Prod.fst = List.range' a v.length) (k : K) :
    ∀ (fuel n : Nat), v.length ≤ n + fuel →
      l.findKind k fuel n = .ok (match (v.drop n).findIdx? (fun p => decide (p.2 = k)) with
        | some i => ((n + i : Nat) : Int) | none => -1) := by
  intro fuel
  induction fuel with
  | zero =>
    intro n hn
    unfold Lex.findKind
    rw [(lookahead_partial l v h n).1, decide_eq_false (by omega), List.drop_eq_nil_iff.2 (by omega)]
    rfl
  | succ fuel ih =>
    intro n hn
    unfold Lex.findKind
    rw [(lookahead_partial l v h n).1]
    by_cases hl : n < v.length
    · rw [decide_eq_true hl, if_pos rfl, at_reads l v h hc, List.getElem?_eq_getElem hl, List.drop_eq_getElem_cons hl]
      by_cases hk : v[n].2 = k
      · simp only [List.mem_singleton, hk, decide_true, List.findIdx?_cons, if_true, Nat.add_zero]
      · simp only [List.mem_singleton, hk, decide_false, List.findIdx?_cons]
        have := ih (n + 1) (by omega)
        push_cast at this
        rw [this]
        cases (v.drop (n + 1)).findIdx? (fun p => decide (p.2 = k)) with
        | none => simp
        | some i =>
          simp only [Bool.false_eq_true, if_false, Option.map_some]
          congr 1
          omega
    · rw [decide_eq_false hl, List.drop_eq_nil_iff.2 (by omega)]
      rfl

example : Reads (Lex.main [5, 6, 5]) [(1, 5), (2, 6), (3, 5)] := reads_main [5, 6, 5]
example : (Lex.main [5, 6, 5]).findKind 6 3 0 = .ok 1 := by decide +kernel

end Verif.Lexer
