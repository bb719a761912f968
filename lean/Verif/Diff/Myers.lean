import Verif.Diff.Spec
import Mathlib.Data.List.Induction

/-!
# Proof about `myersDiff`: the front holds the furthest reachable position of each diagonal
-/

namespace Verif.Diff

/-! ## Extending scripts -/

theorem upTo_succ (n : Nat) : upTo (n + 1) = upTo n ++ [(n : Int)] := by
  simp [upTo, List.range_succ]

theorem cost_snoc (h : List Edit) (e : Edit) :
    cost (h ++ [e]) = cost h + if e.kind = .keep then 0 else 1 := by
  unfold cost
  rw [List.countP_append]
  by_cases hk : e.kind = .keep <;> simp [hk]

theorem Script.nil {cmp : Nat → Nat → Bool} : Script 0 0 cmp [] :=
  ⟨by simp, rfl, rfl, by simp⟩

theorem Script.delete {x y : Nat} {cmp : Nat → Nat → Bool} {h : List Edit} (hs : Script x y cmp h)
    (t : Int) :
    Script (x + 1) y cmp (h ++ [{ kind := .delete, sourcePos := x, targetPos := t }]) := by
  refine ⟨?_, ?_, ?_, ?_⟩
  · intro e he
    rcases List.mem_append.1 he with h' | h'
    · exact hs.kinds e h'
    · simp only [List.mem_singleton] at h'; subst h'; simp
  · rw [List.filterMap_append, hs.sources, upTo_succ]; rfl
  · rw [List.filterMap_append, hs.targets]; simp [Edit.target?]
  · intro e he hk
    rcases List.mem_append.1 he with h' | h'
    · exact hs.keeps e h' hk
    · simp only [List.mem_singleton] at h'; subst h'; cases hk

theorem Script.insert {x y : Nat} {cmp : Nat → Nat → Bool} {h : List Edit} (hs : Script x y cmp h)
    (s : Int) :
    Script x (y + 1) cmp (h ++ [{ kind := .insert, sourcePos := s, targetPos := y }]) := by
  refine ⟨?_, ?_, ?_, ?_⟩
  · intro e he
    rcases List.mem_append.1 he with h' | h'
    · exact hs.kinds e h'
    · simp only [List.mem_singleton] at h'; subst h'; simp
  · rw [List.filterMap_append, hs.sources]; simp [Edit.source?]
  · rw [List.filterMap_append, hs.targets, upTo_succ]; rfl
  · intro e he hk
    rcases List.mem_append.1 he with h' | h'
    · exact hs.keeps e h' hk
    · simp only [List.mem_singleton] at h'; subst h'; cases hk

theorem Script.replace {x y : Nat} {cmp : Nat → Nat → Bool} {h : List Edit} (hs : Script x y cmp h) :
    Script (x + 1) (y + 1) cmp (h ++ [{ kind := .replace, sourcePos := x, targetPos := y }]) := by
  refine ⟨?_, ?_, ?_, ?_⟩
  · intro e he
    rcases List.mem_append.1 he with h' | h'
    · exact hs.kinds e h'
    · simp only [List.mem_singleton] at h'; subst h'; simp
  · rw [List.filterMap_append, hs.sources, upTo_succ]; rfl
  · rw [List.filterMap_append, hs.targets, upTo_succ]; rfl
  · intro e he hk
    rcases List.mem_append.1 he with h' | h'
    · exact hs.keeps e h' hk
    · simp only [List.mem_singleton] at h'; subst h'; cases hk

theorem Script.keep {x y : Nat} {cmp : Nat → Nat → Bool} {h : List Edit} (hs : Script x y cmp h)
    (hc : cmp x y = true) :
    Script (x + 1) (y + 1) cmp (h ++ [{ kind := .keep, sourcePos := x, targetPos := y }]) := by
  refine ⟨?_, ?_, ?_, ?_⟩
  · intro e he
    rcases List.mem_append.1 he with h' | h'
    · exact hs.kinds e h'
    · simp only [List.mem_singleton] at h'; subst h'; simp
  · rw [List.filterMap_append, hs.sources, upTo_succ]; rfl
  · rw [List.filterMap_append, hs.targets, upTo_succ]; rfl
  · intro e he hk
    rcases List.mem_append.1 he with h' | h'
    · exact hs.keeps e h' hk
    · simp only [List.mem_singleton] at h'; subst h'; simpa using hc

/-- Taking a script apart from the end. -/
theorem Script.snoc_inv {x y : Nat} {cmp : Nat → Nat → Bool} {h : List Edit} {e : Edit}
    (hs : Script x y cmp (h ++ [e])) :
    (e.kind = .delete ∧ ∃ x', x = x' + 1 ∧ Script x' y cmp h) ∨
    (e.kind = .insert ∧ ∃ y', y = y' + 1 ∧ Script x y' cmp h) ∨
    (e.kind = .replace ∧ ∃ x' y', x = x' + 1 ∧ y = y' + 1 ∧ Script x' y' cmp h) ∨
    (e.kind = .keep ∧ ∃ x' y', x = x' + 1 ∧ y = y' + 1 ∧ cmp x' y' = true ∧ Script x' y' cmp h) := by
  have hk := hs.kinds e (by simp)
  have hkinds : ∀ e' ∈ h, _ := fun e' he' => hs.kinds e' (by simp [he'])
  have hkeeps : ∀ e' ∈ h, e'.kind = .keep → _ := fun e' he' => hs.keeps e' (by simp [he'])
  have hsrc := hs.sources
  have htgt := hs.targets
  rw [List.filterMap_append] at hsrc htgt
  have pos : ∀ (l : List Int) (p : Int) (z : Nat), l ++ [p] = upTo z →
      ∃ z', z = z' + 1 ∧ l = upTo z' ∧ p = z' := by
    intro l p z hz
    cases z with
    | zero => simp [upTo] at hz
    | succ z =>
      rw [upTo_succ] at hz
      obtain ⟨h1, h2⟩ := List.append_inj' hz rfl
      exact ⟨z, rfl, h1, by simpa using h2⟩
  rcases hk with hk | hk | hk | hk
  · right; right; right
    have e1 : [e].filterMap Edit.source? = [e.sourcePos] := by simp [Edit.source?, hk]
    have e2 : [e].filterMap Edit.target? = [e.targetPos] := by simp [Edit.target?, hk]
    rw [e1] at hsrc; rw [e2] at htgt
    obtain ⟨x', hx, hx2, hx3⟩ := pos _ _ _ hsrc
    obtain ⟨y', hy, hy2, hy3⟩ := pos _ _ _ htgt
    have hc := hs.keeps e (by simp) hk
    rw [hx3, hy3] at hc
    exact ⟨hk, x', y', hx, hy, by simpa using hc, ⟨hkinds, hx2, hy2, hkeeps⟩⟩
  · left
    have e1 : [e].filterMap Edit.source? = [e.sourcePos] := by simp [Edit.source?, hk]
    have e2 : [e].filterMap Edit.target? = [] := by simp [Edit.target?, hk]
    rw [e1] at hsrc; rw [e2, List.append_nil] at htgt
    obtain ⟨x', hx, hx2, hx3⟩ := pos _ _ _ hsrc
    exact ⟨hk, x', hx, ⟨hkinds, hx2, htgt, hkeeps⟩⟩
  · right; left
    have e1 : [e].filterMap Edit.source? = [] := by simp [Edit.source?, hk]
    have e2 : [e].filterMap Edit.target? = [e.targetPos] := by simp [Edit.target?, hk]
    rw [e1, List.append_nil] at hsrc; rw [e2] at htgt
    obtain ⟨y', hy, hy2, hy3⟩ := pos _ _ _ htgt
    exact ⟨hk, y', hy, ⟨hkinds, hsrc, hy2, hkeeps⟩⟩
  · right; right; left
    have e1 : [e].filterMap Edit.source? = [e.sourcePos] := by simp [Edit.source?, hk]
    have e2 : [e].filterMap Edit.target? = [e.targetPos] := by simp [Edit.target?, hk]
    rw [e1] at hsrc; rw [e2] at htgt
    obtain ⟨x', hx, hx2, hx3⟩ := pos _ _ _ hsrc
    obtain ⟨y', hy, hy2, hy3⟩ := pos _ _ _ htgt
    exact ⟨hk, x', y', hx, hy, ⟨hkinds, hx2, hy2, hkeeps⟩⟩

/-! ## Reachable positions -/

/-- Positions of the (unbounded) edit graph reachable with `d` insertions/deletions. -/
inductive Reach (n m : Nat) (cmp : Nat → Nat → Bool) : Nat → Int → Int → Prop where
  | start : Reach n m cmp 0 0 0
  | right {d x y} : Reach n m cmp d x y → Reach n m cmp (d + 1) (x + 1) y
  | down {d x y} : Reach n m cmp d x y → Reach n m cmp (d + 1) x (y + 1)
  | diag {d x y} : Reach n m cmp d x y → x < n → y < m → cmp x.toNat y.toNat = true →
      Reach n m cmp d (x + 1) (y + 1)

variable {n m : Nat} {cmp : Nat → Nat → Bool}

theorem Reach.nonneg {d : Nat} {x y : Int} (h : Reach n m cmp d x y) :
    0 ≤ x ∧ 0 ≤ y ∧ x - y ≤ d ∧ y - x ≤ d ∧ (x - y + d) % 2 = 0 := by
  induction h with
  | start => decide
  | right _ ih => omega
  | down _ ih => omega
  | diag _ _ _ _ ih => omega

/-- Outside of the box nothing matches, so the box corner was passed earlier. -/
theorem Reach.escape {d : Nat} {x y : Int} (h : Reach n m cmp d x y) :
    ∃ d', Reach n m cmp d' (min x n) (min y m) ∧
      (d : Int) = d' + (x - min x n) + (y - min y m) := by
  induction h with
  | start => exact ⟨0, by rw [Int.min_eq_left (by omega), Int.min_eq_left (by omega)]; exact .start, by omega⟩
  | @right d x y hr ih =>
    obtain ⟨d', h1, h2⟩ := ih
    by_cases hx : x < n
    · refine ⟨d' + 1, ?_, by omega⟩
      rw [Int.min_eq_left (by omega : x ≤ n)] at h1
      rw [Int.min_eq_left (by omega : x + 1 ≤ n)]
      exact h1.right
    · refine ⟨d', ?_, by omega⟩
      rw [Int.min_eq_right (by omega : (n : Int) ≤ x)] at h1
      rw [Int.min_eq_right (by omega : (n : Int) ≤ x + 1)]
      exact h1
  | @down d x y hr ih =>
    obtain ⟨d', h1, h2⟩ := ih
    by_cases hy : y < m
    · refine ⟨d' + 1, ?_, by omega⟩
      rw [Int.min_eq_left (by omega : y ≤ m)] at h1
      rw [Int.min_eq_left (by omega : y + 1 ≤ m)]
      exact h1.down
    · refine ⟨d', ?_, by omega⟩
      rw [Int.min_eq_right (by omega : (m : Int) ≤ y)] at h1
      rw [Int.min_eq_right (by omega : (m : Int) ≤ y + 1)]
      exact h1
  | @diag d x y hr hx hy hc ih =>
    exact ⟨d, by rw [Int.min_eq_left (by omega), Int.min_eq_left (by omega)]; exact hr.diag hx hy hc,
      by omega⟩

/-- The corner is reachable with `n + m` edits. -/
theorem reach_all : Reach n m cmp (n + m) n m := by
  have h1 : ∀ a : Nat, Reach n m cmp a a 0 := by
    intro a
    induction a with
    | zero => exact .start
    | succ a ih => exact_mod_cast ih.right
  have h2 : ∀ b : Nat, Reach n m cmp (n + b) n b := by
    intro b
    induction b with
    | zero => exact h1 n
    | succ b ih => exact_mod_cast ih.down
  exact h2 m

/-- Every script without replacements is a path. -/
theorem Script.reach (h : List Edit) : ∀ {x y : Nat}, Script x y cmp h →
    (∀ e ∈ h, e.kind ≠ .replace) → x ≤ n → y ≤ m → Reach n m cmp (cost h) x y := by
  induction h using List.reverseRecOn with
  | nil =>
    intro x y hs _ _ _
    have h1 := hs.sources
    have h2 := hs.targets
    have z : ∀ k, ([] : List Int) = upTo k → k = 0 := by
      intro k hk
      have := congrArg List.length hk
      simpa [upTo] using this.symm
    rw [List.filterMap_nil] at h1 h2
    rw [z _ h1, z _ h2]
    exact .start
  | append_singleton h e ih =>
    intro x y hs hr hx hy
    have hr' : ∀ e ∈ h, e.kind ≠ .replace := fun e he => hr e (by simp [he])
    rw [cost_snoc]
    rcases hs.snoc_inv with ⟨hk, x', rfl, hs'⟩ | ⟨hk, y', rfl, hs'⟩ | ⟨hk, -⟩ |
      ⟨hk, x', y', rfl, rfl, hc, hs'⟩
    · rw [hk]
      exact_mod_cast (ih hs' hr' (by omega) hy).right
    · rw [hk]
      exact_mod_cast (ih hs' hr' hx (by omega)).down
    · exact absurd hk (hr e (by simp))
    · rw [hk]
      have := (ih hs' hr' (by omega) (by omega)).diag (by omega) (by omega) (by simpa using hc)
      simpa using this

/-! ## The inner step -/

/-- A point of the front: furthest position on its diagonal, with its script. -/
structure Pt (n m : Nat) (cmp : Nat → Nat → Bool) (d : Nat) (k x : Int) (h : List Edit) : Prop where
  reach : Reach n m cmp d x (x - k)
  furthest : ∀ x' y', Reach n m cmp d x' y' → x' - y' = k → x' ≤ x
  open_ : ¬ ((n : Int) ≤ x ∧ (m : Int) ≤ x - k)
  script : x ≤ n → x - k ≤ m → Script x.toNat (x - k).toNat cmp h ∧ cost h = d ∧
    ∀ e ∈ h, e.kind ≠ .replace

/-- What the loop over equal elements computes. -/
theorem snake_spec (n m : Nat) (cmp : Nat → Nat → Bool) :
    ∀ (fuel : Nat) (x y : Int) (h : List Edit), 0 ≤ x → 0 ≤ y → ((n : Int) - x).toNat ≤ fuel →
    ∃ X Y h', snake n m cmp fuel x y h = .ok (X, Y, h') ∧ X - Y = x - y ∧ x ≤ X ∧
      ¬ (X < n ∧ Y < m ∧ cmp X.toNat Y.toNat = true) ∧
      (∀ d, Reach n m cmp d x y → Reach n m cmp d X Y) ∧
      (X ≤ n → Y ≤ m → x ≤ n → y ≤ m → Script x.toNat y.toNat cmp h →
        Script X.toNat Y.toNat cmp h' ∧ cost h' = cost h ∧
        ((∀ e ∈ h, e.kind ≠ .replace) → ∀ e ∈ h', e.kind ≠ .replace)) := by
  intro fuel
  induction fuel with
  | zero =>
    intro x y h hx hy hf
    refine ⟨x, y, h, ?_, rfl, by omega, by omega, fun _ h => h,
      fun _ _ _ _ hs => ⟨hs, rfl, fun h => h⟩⟩
    unfold snake
    rw [if_neg (by omega)]
  | succ fuel ih =>
    intro x y h hx hy hf
    by_cases hb : x < n ∧ y < m
    · have hcall : callCmp n m cmp x y = .ok (cmp x.toNat y.toNat) := by
        unfold callCmp; rw [if_pos (by omega)]
      cases hc : cmp x.toNat y.toNat with
      | false =>
        refine ⟨x, y, h, ?_, rfl, by omega, ?_, fun _ h => h,
          fun _ _ _ _ hs => ⟨hs, rfl, fun h => h⟩⟩
        · unfold snake
          rw [if_pos hb, hcall, hc]
        · rw [hc]; simp
      | true =>
        obtain ⟨X, Y, h', h1, h2, h3, h4, h5, h6⟩ := ih (x + 1) (y + 1)
          (h ++ [{ kind := .keep, sourcePos := x, targetPos := y }]) (by omega) (by omega) (by omega)
        refine ⟨X, Y, h', ?_, by omega, by omega, h4, fun d hd => h5 d (hd.diag hb.1 hb.2 hc), ?_⟩
        · unfold snake
          rw [if_pos hb, hcall, hc]
          exact h1
        · intro hX hY _ _ hs
          have hs' := hs.keep hc
          rw [Int.toNat_of_nonneg hx, Int.toNat_of_nonneg hy] at hs'
          have e1 : (x + 1).toNat = x.toNat + 1 := by omega
          have e2 : (y + 1).toNat = y.toNat + 1 := by omega
          obtain ⟨a, b, c⟩ := h6 hX hY (by omega) (by omega) (by rw [e1, e2]; exact hs')
          refine ⟨a, ?_, fun hr => c ?_⟩
          · rw [b, cost_snoc]; simp
          · intro e he
            rcases List.mem_append.1 he with h' | h'
            · exact hr e h'
            · simp only [List.mem_singleton] at h'; subst h'; simp
    · refine ⟨x, y, h, ?_, rfl, by omega, by omega, fun _ h => h,
        fun _ _ _ _ hs => ⟨hs, rfl, fun h => h⟩⟩
      unfold snake
      rw [if_neg hb]

/-- The start of a diagonal in round `d`: reachable, beyond every position reached by an
edit from a neighbouring diagonal. -/
structure Cand (n m : Nat) (cmp : Nat → Nat → Bool) (d : Nat) (k x : Int) (h : List Edit) : Prop where
  reach : Reach n m cmp d x (x - k)
  right : ∀ e x' y', d = e + 1 → Reach n m cmp e x' y' → x' + 1 - y' = k → x' + 1 ≤ x
  down : ∀ e x' y', d = e + 1 → Reach n m cmp e x' y' → x' - (y' + 1) = k → x' ≤ x
  script : x ≤ n → x - k ≤ m → Script x.toNat (x - k).toNat cmp h ∧ cost h = d ∧
    ∀ e ∈ h, e.kind ≠ .replace

/-- From the start of the diagonal to its furthest position. -/
theorem cand_snake {d : Nat} {k x : Int} {h : List Edit} (hc : Cand n m cmp d k x h)
    (hno : ∀ d' < d, ¬ Reach n m cmp d' n m) :
    ∃ X h', snake n m cmp ((n : Int) - x).toNat x (x - k) h = .ok (X, X - k, h') ∧
      (((n : Int) ≤ X ∧ (m : Int) ≤ X - k ∧ Script n m cmp h' ∧ cost h' = d ∧
        ∀ e ∈ h', e.kind ≠ .replace) ∨
       Pt n m cmp d k X h') := by
  have hnn := hc.reach.nonneg
  obtain ⟨X, Y, h', h1, h2, h3, h4, h5, h6⟩ := snake_spec n m cmp ((n : Int) - x).toNat x (x - k) h
    (by omega) (by omega) (by omega)
  have hY : Y = X - k := by omega
  subst hY
  refine ⟨X, h', h1, ?_⟩
  have hreach := h5 d hc.reach
  have hscript : X ≤ n → X - k ≤ m → Script X.toNat (X - k).toNat cmp h' ∧ cost h' = d ∧
      ∀ e ∈ h', e.kind ≠ .replace := by
    intro hX hY
    obtain ⟨s1, s2, s3⟩ := hc.script (by omega) (by omega)
    obtain ⟨a, b, c⟩ := h6 hX hY (by omega) (by omega) s1
    exact ⟨a, by rw [b, s2], c s3⟩
  by_cases hend : (n : Int) ≤ X ∧ (m : Int) ≤ X - k
  · left
    obtain ⟨d', hd', he⟩ := hreach.escape
    rw [Int.min_eq_right hend.1, Int.min_eq_right hend.2] at hd' he
    have hge : ¬ d' < d := fun hlt => hno d' hlt hd'
    have hX : X = n := by omega
    have hY : X - k = m := by omega
    obtain ⟨a, b, c⟩ := hscript (by omega) (by omega)
    rw [hY, hX] at a
    exact ⟨hend.1, hend.2, by simpa using a, b, c⟩
  · right
    refine ⟨hreach, ?_, hend, hscript⟩
    intro x' y' hr
    clear hscript hend hreach
    generalize hd : d = dd at hr
    induction hr with
    | start =>
      intro hk
      omega
    | @right e x' y' hr' _ =>
      intro hk
      have := hc.right e x' y' hd hr' (by omega)
      omega
    | @down e x' y' hr' _ =>
      intro hk
      have := hc.down e x' y' hd hr' (by omega)
      omega
    | @diag e x' y' hr' hx' hy' hcmp ih =>
      intro hk
      have := ih hd (by omega)
      by_cases heq : x' = X
      · exfalso
        apply h4
        refine ⟨by omega, by omega, ?_⟩
        have e2 : X - k = y' := by omega
        rw [e2, ← heq]
        exact hcmp
      · omega

theorem vecAt_of_get {α : Type} {v : List α} {i : Int} {a : α} (h0 : 0 ≤ i)
    (h : v[i.toNat]? = some a) : vecAt v i = .ok a := by
  unfold vecAt
  rw [if_neg (by omega), h]

/-- The candidate computed in round `d ≥ 1`. -/
theorem pick_cand (n m : Nat) (cmp : Nat → Nat → Bool) (front : Front) (off : Int) (d : Nat) (k : Int)
    (hoff : (d : Int) + 1 ≤ off) (hk1 : -((d : Int) + 1) ≤ k) (hk2 : k ≤ (d : Int) + 1)
    (hpar : (k + (d + 1)) % 2 = 0)
    (hfront : ∀ k' : Int, -(d : Int) ≤ k' → k' ≤ d → (k' + d) % 2 = 0 →
      ∃ x h, front[(k' + off).toNat]? = some (x, h) ∧ Pt n m cmp d k' x h) :
    ∃ down x h, goDown front off ((d + 1 : Nat) : Int) k = .ok down ∧
      pick front off k down = .ok (x, h) ∧
      Cand n m cmp (d + 1) k x (record n m down x (x - k) h) := by
  -- going down from diagonal `k + 1`
  have goDownCase : ∀ x h, Pt n m cmp d (k + 1) x h →
      (∀ e x' y', d + 1 = e + 1 → Reach n m cmp e x' y' → x' + 1 - y' = k → x' + 1 ≤ x) →
      Cand n m cmp (d + 1) k x (record n m true x (x - k) h) := by
    intro x h hp hright
    have hnn := hp.reach.nonneg
    have e1 : x - k = x - (k + 1) + 1 := by omega
    refine ⟨by rw [e1]; exact hp.reach.down, hright, ?_, ?_⟩
    · intro e x' y' he hr hk'
      have : e = d := by omega
      subst this
      exact hp.furthest x' y' hr (by omega)
    · intro hx hy
      obtain ⟨a, b, c⟩ := hp.script hx (by omega)
      unfold record
      rw [if_pos ⟨by omega, by omega, rfl⟩]
      have e2 : (x - k).toNat = (x - (k + 1)).toNat + 1 := by omega
      have e3 : x - k - 1 = ((x - (k + 1)).toNat : Int) := by omega
      refine ⟨?_, ?_, ?_⟩
      · rw [e2, e3]; exact a.insert (-1)
      · rw [cost_snoc, b]; simp
      · intro e he
        rcases List.mem_append.1 he with h' | h'
        · exact c e h'
        · simp only [List.mem_singleton] at h'; subst h'; simp
  have goRightCase : ∀ x h, Pt n m cmp d (k - 1) x h →
      (∀ e x' y', d + 1 = e + 1 → Reach n m cmp e x' y' → x' - (y' + 1) = k → x' ≤ x + 1) →
      Cand n m cmp (d + 1) k (x + 1) (record n m false (x + 1) (x + 1 - k) h) := by
    intro x h hp hdown
    have hnn := hp.reach.nonneg
    have e1 : x + 1 - k = x - (k - 1) := by omega
    refine ⟨by rw [e1]; exact hp.reach.right, ?_, hdown, ?_⟩
    · intro e x' y' he hr hk'
      have : e = d := by omega
      subst this
      have := hp.furthest x' y' hr (by omega)
      omega
    · intro hx hy
      obtain ⟨a, b, c⟩ := hp.script (by omega) (by omega)
      unfold record
      rw [if_neg (by simp), if_pos (by omega)]
      have e2 : (x + 1).toNat = x.toNat + 1 := by omega
      have e3 : x + 1 - 1 = (x.toNat : Int) := by omega
      refine ⟨?_, ?_, ?_⟩
      · rw [e2, e1, e3]; exact a.delete (-1)
      · rw [cost_snoc, b]; simp
      · intro e he
        rcases List.mem_append.1 he with h' | h'
        · exact c e h'
        · simp only [List.mem_singleton] at h'; subst h'; simp
  unfold goDown
  by_cases hlow : k = -((d + 1 : Nat) : Int)
  · -- lowest diagonal
    obtain ⟨x, h, hg, hp⟩ := hfront (k + 1) (by omega) (by omega) (by omega)
    refine ⟨true, x, h, by rw [if_pos hlow], ?_, goDownCase x h hp ?_⟩
    · unfold pick
      rw [if_pos rfl]
      refine vecAt_of_get (by omega) ?_
      rw [← hg]; congr 2; omega
    · intro e x' y' he hr hk'
      have := hr.nonneg
      omega
  · rw [if_neg hlow]
    by_cases hhigh : k = ((d + 1 : Nat) : Int)
    · obtain ⟨x, h, hg, hp⟩ := hfront (k - 1) (by omega) (by omega) (by omega)
      refine ⟨false, x + 1, h, by rw [if_pos hhigh], ?_, goRightCase x h hp ?_⟩
      · unfold pick
        rw [if_neg (by simp)]
        have : vecAt front (k + off - 1) = .ok (x, h) :=
          vecAt_of_get (by omega) (by rw [← hg]; congr 2; omega)
        simp only [this, bind, Except.bind]
      · intro e x' y' he hr hk'
        have := hr.nonneg
        omega
    · rw [if_neg hhigh]
      obtain ⟨x1, h1, hg1, hp1⟩ := hfront (k - 1) (by omega) (by omega) (by omega)
      obtain ⟨x2, h2, hg2, hp2⟩ := hfront (k + 1) (by omega) (by omega) (by omega)
      have hv1 : vecAt front (k + off - 1) = .ok (x1, h1) :=
        vecAt_of_get (by omega) (by rw [← hg1]; congr 2; omega)
      have hv2 : vecAt front (k + off + 1) = .ok (x2, h2) :=
        vecAt_of_get (by omega) (by rw [← hg2]; congr 2; omega)
      simp only [hv1, hv2, bind, Except.bind]
      by_cases hlt : x1 < x2
      · refine ⟨true, x2, h2, by simp [hlt], ?_, goDownCase x2 h2 hp2 ?_⟩
        · unfold pick
          rw [if_pos rfl, hv2]
        · intro e x' y' he hr hk'
          have : e = d := by omega
          subst this
          have := hp1.furthest x' y' hr (by omega)
          omega
      · refine ⟨false, x1 + 1, h1, by simp [hlt], ?_, goRightCase x1 h1 hp1 ?_⟩
        · unfold pick
          rw [if_neg (by simp)]
          simp only [hv1, bind, Except.bind]
        · intro e x' y' he hr hk'
          have : e = d := by omega
          subst this
          have := hp2.furthest x' y' hr (by omega)
          omega

/-- A finished script. -/
def Final (n m : Nat) (cmp : Nat → Nat → Bool) (d : Nat) (h : List Edit) : Prop :=
  Script n m cmp h ∧ cost h = d ∧ ∀ e ∈ h, e.kind ≠ .replace

theorem myersStep_of_cand {n m : Nat} {cmp : Nat → Nat → Bool} {front : Front} {off : Int} {d : Nat} {k : Int}
    {down : Bool} {x : Int} {h : List Edit}
    (hd : goDown front off (d : Int) k = .ok down) (hp : pick front off k down = .ok (x, h))
    (hc : Cand n m cmp d k x (record n m down x (x - k) h))
    (hno : ∀ d' < d, ¬ Reach n m cmp d' n m)
    (hi0 : 0 ≤ k + off) (hi1 : k + off < front.length) :
    (∃ h', myersStep n m cmp off d front k = .ok (.done h') ∧ Final n m cmp d h') ∨
    (∃ X h', myersStep n m cmp off d front k = .ok (.more (front.set (k + off).toNat (X, h'))) ∧
      Pt n m cmp d k X h') := by
  obtain ⟨X, h', hs, hcase⟩ := cand_snake hc hno
  unfold myersStep
  simp only [hd, hp, hs, bind, Except.bind]
  rcases hcase with ⟨a, b, c⟩ | hpt
  · left
    rw [if_pos ⟨a, b⟩]
    exact ⟨h', rfl, c⟩
  · right
    rw [if_neg hpt.open_]
    refine ⟨X, h', ?_, hpt⟩
    unfold vecSet
    rw [if_pos ⟨hi0, hi1⟩]

/-- The inner loop of round `d + 1`. -/
theorem inner_spec (off : Int) (d : Nat) (hoff : (d : Int) + 1 ≤ off)
    (hno : ∀ d' < d + 1, ¬ Reach n m cmp d' n m) :
    ∀ (ks : List Int) (front : Front), (front.length : Int) = 2 * off + 1 →
      (∀ k ∈ ks, -((d : Int) + 1) ≤ k ∧ k ≤ (d : Int) + 1 ∧ (k + (d + 1)) % 2 = 0) → ks.Nodup →
      (∀ k' : Int, -(d : Int) ≤ k' → k' ≤ d → (k' + d) % 2 = 0 →
        ∃ x h, front[(k' + off).toNat]? = some (x, h) ∧ Pt n m cmp d k' x h) →
      (∃ h, myersInner n m cmp off ((d + 1 : Nat) : Int) ks front = .ok (.done h) ∧
        Final n m cmp (d + 1) h) ∨
      (∃ front', myersInner n m cmp off ((d + 1 : Nat) : Int) ks front = .ok (.more front') ∧
        front'.length = front.length ∧
        (∀ k ∈ ks, ∃ x h, front'[(k + off).toNat]? = some (x, h) ∧ Pt n m cmp (d + 1) k x h) ∧
        (∀ k' : Int, -off ≤ k' → k' ∉ ks → front'[(k' + off).toNat]? = front[(k' + off).toNat]?)) := by
  intro ks
  induction ks with
  | nil =>
    intro front _ _ _ _
    exact Or.inr ⟨front, rfl, rfl, by simp, fun _ _ _ => rfl⟩
  | cons k ks ih =>
    intro front hlen hks hnd hfront
    obtain ⟨hk1, hk2, hpar⟩ := hks k (by simp)
    obtain ⟨down, x, h, hg, hp, hc⟩ := pick_cand n m cmp front off d k hoff hk1 hk2 hpar hfront
    rcases myersStep_of_cand hg hp hc hno (by omega) (by omega) with ⟨h', hst, hfin⟩ | ⟨X, h', hst, hpt⟩
    · left
      refine ⟨h', ?_, hfin⟩
      simp only [myersInner, hst, bind, Except.bind]
    · have hnd' := List.nodup_cons.1 hnd
      have hother : ∀ k' : Int, -off ≤ k' → k' ≠ k →
          (front.set (k + off).toNat (X, h'))[(k' + off).toNat]? = front[(k' + off).toNat]? := by
        intro k' h1 h2
        rw [List.getElem?_set_ne (by omega)]
      have hself : (front.set (k + off).toNat (X, h'))[(k + off).toNat]? = some (X, h') := by
        rw [List.getElem?_set_self (by omega)]
      rcases ih (front.set (k + off).toNat (X, h')) (by rw [List.length_set]; exact hlen)
        (fun k hk => hks k (by simp [hk])) hnd'.2
        (by
          intro k' h1 h2 h3
          rw [hother k' (by omega) (by omega)]
          exact hfront k' h1 h2 h3) with ⟨hh, hin, hfin⟩ | ⟨front', hin, hl, hall, hrest⟩
      · left
        exact ⟨hh, by simp only [myersInner, hst, bind, Except.bind]; exact hin, hfin⟩
      · right
        refine ⟨front', by simp only [myersInner, hst, bind, Except.bind]; exact hin,
          by rw [hl, List.length_set], ?_, ?_⟩
        · intro k0 hk0
          rcases List.mem_cons.1 hk0 with rfl | hk0
          · exact ⟨X, h', by rw [hrest k0 (by omega) hnd'.1, hself], hpt⟩
          · exact hall k0 hk0
        · intro k' h1 h2
          simp only [List.mem_cons, not_or] at h2
          rw [hrest k' h1 h2.2, hother k' h1 h2.1]

theorem mem_diagonals {d : Nat} {k : Int} :
    k ∈ diagonals d ↔ -(d : Int) ≤ k ∧ k ≤ d ∧ (k + d) % 2 = 0 := by
  unfold diagonals
  rw [List.mem_map]
  constructor
  · rintro ⟨i, hi, rfl⟩
    rw [List.mem_range] at hi
    omega
  · rintro ⟨h1, h2, h3⟩
    refine ⟨((k + d) / 2).toNat, ?_, ?_⟩
    · rw [List.mem_range]; omega
    · omega

theorem nodup_diagonals (d : Nat) : (diagonals d).Nodup := by
  unfold diagonals
  refine List.Pairwise.map _ ?_ (List.nodup_range (n := d + 1))
  intro a b hab h
  apply hab
  omega

/-- No goal among the points of a completed round. -/
theorem noGoal_succ {d : Nat} (hno : ∀ d' < d, ¬ Reach n m cmp d' n m)
    (hall : ∀ k ∈ diagonals d, ∃ x h, Pt n m cmp d k x h) :
    ∀ d' < d + 1, ¬ Reach n m cmp d' n m := by
  intro d' hd' hr
  by_cases h : d' < d
  · exact hno d' h hr
  · have : d' = d := by omega
    subst this
    have hnn := hr.nonneg
    obtain ⟨x, h, hp⟩ := hall ((n : Int) - m) (mem_diagonals.2 ⟨by omega, by omega, by omega⟩)
    have := hp.furthest n m hr rfl
    exact hp.open_ ⟨by omega, by omega⟩

/-- Rounds `d+1, …, d+c` – the outer loop. -/
theorem outer_spec (off : Int) :
    ∀ (c d : Nat) (front : Front), (front.length : Int) = 2 * off + 1 → ((d + c : Nat) : Int) ≤ off →
      n + m ≤ d + c →
      (∀ d' < d + 1, ¬ Reach n m cmp d' n m) →
      (∀ k' : Int, -(d : Int) ≤ k' → k' ≤ d → (k' + d) % 2 = 0 →
        ∃ x h, front[(k' + off).toNat]? = some (x, h) ∧ Pt n m cmp d k' x h) →
      ∃ e h, myersOuter n m cmp off (List.range' (d + 1) c) front = .ok h ∧ Final n m cmp e h ∧
        (∀ d' < e, ¬ Reach n m cmp d' n m) := by
  intro c
  induction c with
  | zero =>
    intro d front _ _ hmax hno _
    exact absurd reach_all (hno (n + m) (by omega))
  | succ c ih =>
    intro d front hlen hoff hmax hno hfront
    rw [List.range'_succ]
    rcases inner_spec off d (by omega) hno (diagonals (d + 1)) front hlen
      (fun k hk => by have := mem_diagonals.1 hk; omega) (nodup_diagonals _) hfront with
      ⟨h, hin, hfin⟩ | ⟨front', hin, hl, hall, -⟩
    · refine ⟨d + 1, h, ?_, hfin, hno⟩
      simp only [myersOuter, hin, bind, Except.bind]
    · have hno' := noGoal_succ hno (fun k hk => by
        obtain ⟨x, h, -, hp⟩ := hall k hk
        exact ⟨x, h, hp⟩)
      obtain ⟨e, h, hrec, hfin, hmin⟩ := ih (d + 1) front' (by rw [hl]; exact hlen) (by omega) (by omega)
        hno' (fun k' h1 h2 h3 => hall k' (mem_diagonals.2 ⟨h1, h2, h3⟩))
      refine ⟨e, h, ?_, hfin, hmin⟩
      simp only [myersOuter, hin, bind, Except.bind]
      exact hrec

/-- `myersDiff` returns a script whose cost no path beats. -/
theorem myers_spec (n m : Nat) (cmp : Nat → Nat → Bool) :
    ∃ e h, myersDiff n m cmp = .ok h ∧ Final n m cmp e h ∧
      (∀ d' < e, ¬ Reach n m cmp d' n m) := by
  unfold myersDiff
  by_cases h0 : n = 0 ∧ m = 0
  · rw [if_pos h0]
    obtain ⟨rfl, rfl⟩ := h0
    exact ⟨0, [], rfl, ⟨.nil, rfl, by simp⟩, by simp⟩
  · rw [if_neg h0]
    dsimp only
    -- round 0
    have hget : (List.replicate (2 * (n + m) + 1) ((0 : Int), ([] : List Edit)))[
        (0 + ((n + m : Nat) : Int) + 1).toNat]? = some (0, []) := by
      rw [List.getElem?_replicate, if_pos (by omega)]
    have hg : goDown (List.replicate (2 * (n + m) + 1) (0, [])) ((n + m : Nat) : Int) ((0 : Nat) : Int) 0
        = .ok true := by
      unfold goDown; rw [if_pos (by omega)]
    have hp : pick (List.replicate (2 * (n + m) + 1) (0, [])) ((n + m : Nat) : Int) 0 true = .ok (0, []) := by
      unfold pick
      rw [if_pos rfl]
      exact vecAt_of_get (by omega) hget
    have hc : Cand n m cmp 0 0 0 (record n m true 0 (0 - 0) []) := by
      refine ⟨.start, by omega, by omega, fun _ _ => ?_⟩
      unfold record
      rw [if_neg (by omega), if_neg (by omega)]
      exact ⟨.nil, rfl, by simp⟩
    have hdiag : diagonals 0 = [0] := rfl
    rw [show List.range (n + m + 1) = 0 :: List.range' 1 (n + m) by
      rw [List.range_eq_range', List.range'_succ]]
    rcases myersStep_of_cand hg hp hc (by simp) (by omega) (by simp; omega) with
      ⟨h', hst, hfin⟩ | ⟨X, h', hst, hpt⟩
    · refine ⟨0, h', ?_, hfin, by simp⟩
      simp only [myersOuter, myersInner, hdiag, hst, bind, Except.bind]
    · have hk0 : ∀ k' : Int, -((0 : Nat) : Int) ≤ k' → k' ≤ ((0 : Nat) : Int) → (k' + ((0 : Nat) : Int)) % 2 = 0 →
          ∃ x h, ((List.replicate (2 * (n + m) + 1) ((0 : Int), ([] : List Edit))).set
            (0 + ((n + m : Nat) : Int)).toNat (X, h'))[(k' + ((n + m : Nat) : Int)).toNat]? = some (x, h) ∧
            Pt n m cmp 0 k' x h := by
        intro k' h1 h2 _
        have : k' = 0 := by omega
        subst this
        exact ⟨X, h', by rw [List.getElem?_set_self (by simp; omega)], hpt⟩
      have hno : ∀ d' < 0 + 1, ¬ Reach n m cmp d' n m := noGoal_succ (by simp) (fun k hk => by
        have : k = 0 := by simpa [hdiag] using hk
        subst this
        exact ⟨X, h', hpt⟩)
      obtain ⟨e, h, hrec, hfin, hmin⟩ := outer_spec (n := n) (m := m) (cmp := cmp) ((n + m : Nat) : Int)
        (n + m) 0 _ (by simp) (by omega) (by omega) hno hk0
      refine ⟨e, h, ?_, hfin, hmin⟩
      simp only [myersOuter, myersInner, hdiag, hst, bind, Except.bind]
      exact hrec

end Verif.Diff
