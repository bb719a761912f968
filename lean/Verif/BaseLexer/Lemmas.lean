import Verif.BaseLexer.Spec

namespace Verif.BaseLexer
open Verif.Token

/-! ## Cursor movement -/

/-- The cursor moved over exactly `k` characters. -/
def Adv (c c' : Cur) (k : Nat) : Prop :=
  c'.rest = c.rest.drop k ∧ c'.pos = c.pos + k ∧ k ≤ c.rest.length

theorem Adv.refl (c : Cur) : Adv c c 0 := ⟨by simp, rfl, Nat.zero_le _⟩

theorem Adv.trans {a b c : Cur} {k l : Nat} (h1 : Adv a b k) (h2 : Adv b c l) :
    Adv a c (k + l) := by
  obtain ⟨r1, p1, l1⟩ := h1
  obtain ⟨r2, p2, l2⟩ := h2
  refine ⟨?_, ?_, ?_⟩
  · rw [r2, r1, List.drop_drop]
  · omega
  · rw [r1, List.length_drop] at l2; omega

/-- Moved over at least `m` characters. -/
def Moves (m : Nat) (c c' : Cur) : Prop := ∃ k, m ≤ k ∧ Adv c c' k

theorem Moves.refl (c : Cur) : Moves 0 c c := ⟨0, Nat.le_refl _, Adv.refl c⟩

theorem Moves.trans {a b c : Cur} {m n : Nat} (h1 : Moves m a b) (h2 : Moves n b c) :
    Moves (m + n) a c := by
  obtain ⟨k, hk, a1⟩ := h1
  obtain ⟨l, hl, a2⟩ := h2
  exact ⟨k + l, by omega, a1.trans a2⟩

theorem Moves.mono {a b : Cur} {m n : Nat} (h : Moves m a b) (hmn : n ≤ m) : Moves n a b := by
  obtain ⟨k, hk, a1⟩ := h
  exact ⟨k, by omega, a1⟩

theorem adv_next {c : Cur} (h : c.rest ≠ []) : Adv c c.next 1 := by
  cases hr : c.rest with
  | nil => exact absurd hr h
  | cons x r => simp [Adv, Cur.next, hr]

theorem next_nil {c : Cur} (h : c.rest = []) : c.next = c := by simp [Cur.next, h]

theorem adv_count (n : Nat) (c : Cur) : Adv c (c.adv n) (min n c.rest.length) := by
  induction n generalizing c with
  | zero => simpa [Cur.adv] using Adv.refl c
  | succ n ih =>
    rw [Cur.adv]
    by_cases h : c.rest = []
    · rw [next_nil h]
      have := ih c
      simpa [h] using this
    · have h1 := adv_next h
      have h2 := h1.trans (ih c.next)
      have : 1 + min n c.next.rest.length = min (n + 1) c.rest.length := by
        rw [h1.1, List.length_drop]
        have := h1.2.2
        omega
      rwa [this] at h2

theorem moves_next (c : Cur) : Moves 0 c c.next := by
  by_cases h : c.rest = []
  · rw [next_nil h]; exact Moves.refl c
  · exact ⟨1, by omega, adv_next h⟩

theorem moves_next1 {c : Cur} (h : c.rest ≠ []) : Moves 1 c c.next := ⟨1, by omega, adv_next h⟩

theorem moves_count {m n : Nat} {c : Cur} (h1 : m ≤ n) (h2 : m ≤ c.rest.length) :
    Moves m c (c.adv n) := ⟨_, by omega, adv_count n c⟩

theorem moves_count0 (n : Nat) (c : Cur) : Moves 0 c (c.adv n) := ⟨_, by omega, adv_count n c⟩

theorem moves_advWhileGo (p : List Char → Bool) (r : List Char) (c : Cur) (h : c.rest = r) :
    Moves 0 c (Cur.advWhileGo p r c) := by
  induction r generalizing c with
  | nil => exact Moves.refl c
  | cons x r ih =>
    rw [Cur.advWhileGo]
    split
    · have h1 : Moves 1 c c.next := moves_next1 (by simp [h])
      have h2 := ih c.next (by simp [Cur.next, h])
      exact (h1.trans h2).mono (by omega)
    · exact Moves.refl c

theorem moves_advWhile (p : List Char → Bool) (c : Cur) : Moves 0 c (c.advWhile p) :=
  moves_advWhileGo p _ c rfl

theorem moves_advWhile1 {p : List Char → Bool} {c : Cur} (h : c.rest ≠ []) (hp : p c.rest = true) :
    Moves 1 c (c.advWhile p) := by
  unfold Cur.advWhile
  cases hr : c.rest with
  | nil => exact absurd hr h
  | cons x r =>
    rw [hr] at hp
    rw [Cur.advWhileGo, if_pos hp]
    exact ((moves_next1 h).trans (moves_advWhileGo p r c.next (by simp [Cur.next, hr]))).mono
      (by omega)

/-- Where the loop stops the condition fails. -/
theorem advWhileGo_stop (p : List Char → Bool) (r : List Char) (c : Cur) (h : c.rest = r) :
    (Cur.advWhileGo p r c).rest = [] ∨ p (Cur.advWhileGo p r c).rest = false := by
  induction r generalizing c with
  | nil => left; simpa [Cur.advWhileGo] using h
  | cons x r ih =>
    rw [Cur.advWhileGo]
    split
    · exact ih c.next (by simp [Cur.next, h])
    · right; rw [h]; simp_all

theorem moves_advUntilGo (p : List Char → Bool) (r : List Char) (c c' : Cur) (h : c.rest = r)
    (he : Cur.advUntilGo p r c = .ok c') : Moves 0 c c' ∧ p c'.rest = true := by
  induction r generalizing c with
  | nil => cases he
  | cons x r ih =>
    rw [Cur.advUntilGo] at he
    split at he
    · injection he with he
      rw [← he]
      refine ⟨Moves.refl c, ?_⟩
      rw [h]; assumption
    · obtain ⟨h2, h3⟩ := ih c.next (by simp [Cur.next, h]) he
      exact ⟨((moves_next1 (by simp [h])).trans h2).mono (by omega), h3⟩

theorem advUntilGo_error (p : List Char → Bool) (r : List Char) (c : Cur) (e : Err)
    (he : Cur.advUntilGo p r c = .error e) :
    e = .diverges ∧ ∀ k, k < r.length → p (r.drop k) = false := by
  induction r generalizing c with
  | nil => cases he; exact ⟨rfl, by simp⟩
  | cons x r ih =>
    rw [Cur.advUntilGo] at he
    split at he
    · cases he
    · obtain ⟨h1, h2⟩ := ih c.next he
      refine ⟨h1, ?_⟩
      intro k hk
      cases k with
      | zero => simp_all
      | succ k => simpa using h2 k (by simpa using hk)

theorem moves_skip {ch : Char} {c c' : Cur} (h : c.skip ch = .ok c') : Moves 1 c c' := by
  unfold Cur.skip at h
  split at h
  · cases h
  · split at h
    · cases h
      exact moves_next1 (by simp_all)
    · cases h

theorem uniSize_pos (c : Char) : 1 ≤ uniSize c := by
  unfold uniSize; repeat' split
  all_goals omega

theorem moves_nextUnicode1 {c : Cur} (h : c.rest ≠ []) : Moves 1 c c.nextUnicode := by
  cases hr : c.rest with
  | nil => exact absurd hr h
  | cons x r =>
    refine ⟨min (if x = '\n' then 1 else uniSize x) c.rest.length, ?_, ?_⟩
    · have := uniSize_pos x
      rw [hr]
      split <;> simp <;> omega
    · simp only [Adv, Cur.nextUnicode, hr]
      refine ⟨?_, trivial, by omega⟩
      rw [List.drop_eq_drop_iff]
      simp

theorem moves_nextUnicode (c : Cur) : Moves 0 c c.nextUnicode := by
  by_cases h : c.rest = []
  · simp only [Cur.nextUnicode, h]; exact Moves.refl c
  · exact (moves_nextUnicode1 h).mono (by omega)

theorem moves_optApostrophe (c : Cur) : Moves 0 c (optApostrophe c) := by
  unfold optApostrophe
  split
  · exact moves_next _
  · exact Moves.refl _

theorem moves_advWord (c : Cur) : Moves 0 c (advWord c) :=
  Moves.trans (m := 0) (n := 0) (Moves.trans (m := 0) (n := 0) (moves_advWhile _ c)
    (moves_optApostrophe _)) (moves_advWhile _ _)

theorem moves_advWord1 {c : Cur} {x : Char} {r : List Char} (h : c.rest = x :: r)
    (hx : isAlnum x = true) : Moves 1 c (advWord c) := by
  refine Moves.trans (m := 1) (n := 0) (Moves.trans (m := 1) (n := 0)
    (moves_advWhile1 (by simp [h]) ?_) (moves_optApostrophe _)) (moves_advWhile _ _)
  rw [h]; cases r <;> simp [wordChar, hx]

theorem moves_advNumber (c : Cur) : Moves 0 c (advNumber c) := by
  unfold advNumber
  dsimp only
  refine Moves.mono (m := 0 + 0) (Moves.trans ?_ (moves_advWhile _ _)) (by omega)
  split
  · exact moves_next _
  · exact Moves.refl _

theorem moves_advIdent (c : Cur) : Moves 0 c (advIdent c) := moves_advWhile _ _
theorem moves_advLine (c : Cur) : Moves 0 c (advLine c) := moves_advWhile _ _
theorem moves_advSrc (c : Cur) : Moves 0 c (advSrc c) := moves_advWhile _ _

theorem moves_advChar1 (ch : Char) (c : Cur) : Moves 0 c (advChar1 ch c) := moves_advWhile _ _

theorem moves_advChar1' {ch : Char} {c : Cur} {r : List Char} (h : c.rest = ch :: r) :
    Moves 1 c (advChar1 ch c) := by
  refine moves_advWhile1 (by simp [h]) ?_
  simp [h, isAt]

theorem moves_advQuotedGo (n : Nat) (c : Cur) : Moves 0 c (advQuotedGo n c) := by
  induction n generalizing c with
  | zero => exact Moves.refl c
  | succ n ih =>
    rw [advQuotedGo]
    split
    · exact Moves.refl c
    · repeat' split
      · exact Moves.refl c
      · exact Moves.refl c
      · exact Moves.trans (m := 0) (n := 0) (moves_count0 2 c) (ih _)
      · exact Moves.trans (m := 0) (n := 0) (moves_next c) (ih _)

theorem moves_advQuoted {c : Cur} (h : c.rest ≠ []) : Moves 1 c (advQuoted c) := by
  unfold advQuoted
  dsimp only
  refine Moves.mono (m := 1 + (0 + 0)) (Moves.trans (moves_next1 h) ?_) (by omega)
  refine Moves.trans (moves_advQuotedGo c.next.rest.length _) ?_
  split
  · exact moves_next _
  · exact Moves.refl _

theorem moves_advCurlyGo (n o : Nat) (c : Cur) : Moves 0 c (advCurlyGo n o c) := by
  induction n generalizing c o with
  | zero => exact Moves.refl c
  | succ n ih =>
    rw [advCurlyGo]
    split
    · exact Moves.refl c
    · repeat' split
      all_goals first
        | exact Moves.refl c
        | exact Moves.trans (m := 0) (n := 0) (moves_count0 2 c) (ih _ _)
        | exact Moves.trans (m := 0) (n := 0) (moves_next c) (ih _ _)

theorem moves_advDurationGo (n : Nat) (c : Cur) : Moves 0 c (advDurationGo n c) := by
  induction n generalizing c with
  | zero => exact Moves.refl c
  | succ n ih =>
    rw [advDurationGo]
    split
    · exact Moves.trans (m := 0) (n := 0) (Moves.trans (m := 0) (n := 0) (moves_advNumber c)
        (moves_advIdent _)) (ih _)
    · exact Moves.refl c

theorem moves_advCmdName (c : Cur) : Moves 0 c (advCmdName c) := by
  unfold advCmdName
  dsimp only
  refine Moves.mono (m := 0 + 0) (Moves.trans (moves_advIdent _) ?_) (by omega)
  split
  · exact moves_next _
  · exact Moves.refl _

/-! ## Tiling -/

/-- The tokens cover `chunk`, which starts at offset `p`, without gap or overlap. -/
def Tiles : Nat → List Tok → List Char → Prop
  | _, [], chunk => chunk = []
  | p, t :: ts, chunk =>
    t.loc = some p ∧ t.kind ∉ laterKinds ∧ ∃ r, chunk = t.text ++ r ∧ Tiles (p + t.text.length) ts r

theorem Tiles.append {p : Nat} {a b : List Tok} {x y : List Char} (h1 : Tiles p a x)
    (h2 : Tiles (p + x.length) b y) : Tiles p (a ++ b) (x ++ y) := by
  induction a generalizing p x with
  | nil => simp only [Tiles] at h1; subst h1; simpa using h2
  | cons t ts ih =>
    obtain ⟨hl, hk, r, rfl, h⟩ := h1
    refine ⟨hl, hk, r ++ y, by simp, ?_⟩
    apply ih h
    simpa [Nat.add_assoc] using h2

theorem Tiles.text {p : Nat} {a : List Tok} {x : List Char} (h : Tiles p a x) :
    (a.map (·.text)).flatten = x := by
  induction a generalizing p x with
  | nil => simpa [Tiles] using h.symm
  | cons t ts ih =>
    obtain ⟨hl, _, r, rfl, h⟩ := h
    simp [ih h]

theorem Tiles.loc {p : Nat} {a : List Tok} {x : List Char} (h : Tiles p a x) (i : Nat) (t : Tok)
    (ht : a[i]? = some t) : t.loc = some (p + ((a.take i).map (·.text)).flatten.length) := by
  induction a generalizing p x i with
  | nil => simp at ht
  | cons u us ih =>
    obtain ⟨hl, _, r, rfl, h⟩ := h
    cases i with
    | zero => simp at ht; subst ht; simpa using hl
    | succ i =>
      have := ih h i (by simpa using ht)
      rw [this]
      simp; omega

theorem Tiles.kinds {p : Nat} {a : List Tok} {x : List Char} (h : Tiles p a x) : ∀ t ∈ a, t.kind ∉ laterKinds := by
  induction a generalizing p x with
  | nil => simp
  | cons u us ih =>
    obtain ⟨_, hk, r, rfl, h⟩ := h
    intro t ht
    rcases List.mem_cons.mp ht with rfl | ht
    · exact hk
    · exact ih h t ht

/-! ## Outcome of a lexing step -/

/-- From `s` to `s'`: at least `m` characters were read and the new tokens cover
exactly what was read. -/
def Step (m : Nat) (s s' : St) : Prop :=
  ∃ new k, s'.out = s.out ++ new ∧ Adv s.cur s'.cur k ∧ m ≤ k ∧
    Tiles s.cur.pos new (s.cur.rest.take k)

theorem Step.refl (s : St) : Step 0 s s := ⟨[], 0, by simp, Adv.refl _, by omega, by simp [Tiles]⟩

theorem Step.mono {m n : Nat} {s s' : St} (h : Step m s s') (hn : n ≤ m) : Step n s s' := by
  obtain ⟨a, k, h1, h2, h3, h4⟩ := h
  exact ⟨a, k, h1, h2, by omega, h4⟩

theorem Step.trans {m n : Nat} {s s' s'' : St} (h : Step m s s') (h' : Step n s' s'') :
    Step (m + n) s s'' := by
  obtain ⟨a, k, h1, h2, h3, h4⟩ := h
  obtain ⟨b, l, g1, g2, g3, g4⟩ := h'
  refine ⟨a ++ b, k + l, by rw [g1, h1, List.append_assoc], h2.trans g2, by omega, ?_⟩
  rw [List.take_add]
  apply h4.append
  rw [h2.1] at g4
  rw [h2.2.1] at g4
  have hk := h2.2.2
  rw [List.length_take, Nat.min_eq_left hk]
  exact g4

theorem Step.suffix {m : Nat} {s s' : St} (h : Step m s s') : s'.cur.rest <:+ s.cur.rest := by
  obtain ⟨a, k, h1, h2, h3, h4⟩ := h
  rw [h2.1]; exact List.drop_suffix _ _

theorem Step.length {m : Nat} {s s' : St} (h : Step m s s') :
    s'.cur.rest.length + m ≤ s.cur.rest.length := by
  obtain ⟨a, k, h1, h2, h3, h4⟩ := h
  rw [h2.1, List.length_drop]
  have := h2.2.2
  omega

theorem Step.pos {m : Nat} {s s' : St} (h : Step m s s') : s.cur.pos + m ≤ s'.cur.pos := by
  obtain ⟨a, k, h1, h2, h3, h4⟩ := h
  rw [h2.2.1]; omega

/-- Outcome of a function on a state whose remaining text is part of document `T`:
it reads at least `m` characters and tiles them, or fails; failures are never
exhausted fuel, never an endless loop when the document ends with a newline, and do
not occur for plain documents. -/
def Post (T : List Char) (m : Nat) (s : St) (r : Except Err St) : Prop :=
  (∀ s', r = .ok s' → Step m s s') ∧
  (∀ e, r = .error e → e ≠ .fuel ∧ (EndsWithNewline T → e ≠ .diverges) ∧ ¬ Plain T)

theorem Post.mono {T : List Char} {m n : Nat} {s : St} {r : Except Err St} (h : Post T m s r)
    (hn : n ≤ m) : Post T n s r := ⟨fun s' hs => (h.1 s' hs).mono hn, h.2⟩

theorem Post.ok {T : List Char} (s : St) : Post T 0 s (.ok s) :=
  ⟨fun s' h => (by cases h; exact Step.refl s), fun e h => (by cases h)⟩

theorem Post.bind {T : List Char} {m n : Nat} {s : St} {r : Except Err St}
    {g : St → Except Err St} (h : Post T m s r)
    (hg : ∀ s', Step m s s' → Post T n s' (g s')) : Post T (m + n) s (r >>= g) := by
  cases r with
  | error e =>
    refine ⟨fun s' hs => ?_, fun e' he => ?_⟩
    · cases hs
    · cases he; exact h.2 e rfl
  | ok s1 =>
    have h1 := h.1 s1 rfl
    have h2 := hg s1 h1
    refine ⟨fun s' hs => h1.trans (h2.1 s' hs), fun e' he => h2.2 e' he⟩

/-- A failure excluded by the context. -/
theorem Post.error {T : List Char} {m : Nat} {s : St} {e : Err} (h1 : e ≠ .fuel)
    (h2 : EndsWithNewline T → e ≠ .diverges) (h3 : ¬ Plain T) : Post T m s (.error e) :=
  ⟨fun s' h => (by cases h), fun e' h => (by cases h; exact ⟨h1, h2, h3⟩)⟩

theorem Post.tokenCb {T : List Char} {m : Nat} {s : St} {k : TK} {f : Cur → Except Err Cur}
    (h : ∀ c', f s.cur = .ok c' → Moves m s.cur c')
    (he : ∀ e, f s.cur = .error e → e ≠ .fuel ∧ (EndsWithNewline T → e ≠ .diverges) ∧ ¬ Plain T)
    (hk : k ∉ laterKinds := by decide) :
    Post T m s (tokenCb k f s) := by
  unfold Verif.BaseLexer.tokenCb
  simp only [bind, Except.bind, pure, Except.pure]
  cases hf : f s.cur with
  | error e =>
    refine ⟨fun s' hs => ?_, fun e' h' => ?_⟩
    · cases hs
    · cases h'; exact he e hf
  | ok c' =>
    refine ⟨fun s' hs => ?_, fun e' h' => ?_⟩
    · cases hs
      obtain ⟨j, hj, ha⟩ := h c' hf
      refine ⟨_, j, rfl, ha, hj, ?_⟩
      have : c'.pos - s.cur.pos = j := by rw [ha.2.1]; omega
      simp only [Tiles, this]
      exact ⟨trivial, hk, [], by simp, rfl⟩
    · cases h'

theorem Post.token {T : List Char} {m : Nat} {s : St} {k : TK} {f : Cur → Cur}
    (h : Moves m s.cur (f s.cur)) (hk : k ∉ laterKinds := by decide) : Post T m s (token k f s) := by
  apply Post.tokenCb (hk := hk)
  · intro c' hc; cases hc; exact h
  · intro e he; cases he

theorem Post.adv {T : List Char} {m n : Nat} {s : St} {k : TK} (h1 : m ≤ n)
    (h2 : m ≤ s.cur.rest.length) (hk : k ∉ laterKinds := by decide) : Post T m s (tokenAdv k n s) :=
  Post.token (moves_count h1 h2) hk

theorem Post.adv0 {T : List Char} {n : Nat} {s : St} {k : TK} (hk : k ∉ laterKinds := by decide) : Post T 0 s (tokenAdv k n s) :=
  Post.token (moves_count0 _ _) hk

/-- One character at least, on a text that is not empty. -/
theorem Post.adv1 {T : List Char} {n : Nat} {s : St} {k : TK} (h1 : 1 ≤ n)
    (h2 : s.cur.rest ≠ []) (hk : k ∉ laterKinds := by decide) : Post T 1 s (tokenAdv k n s) :=
  Post.adv h1 (by cases h : s.cur.rest <;> simp_all) hk

end Verif.BaseLexer
