import Mathlib.Data.List.Nodup

/-!
# Two lists in the same order

The argument behind "no node is reported as moved": a list `A` of nodes is visited from left to right and compared with the
list `A'` of the same nodes in the other tree; a visited node whose position differs is not counted any more.  If in the end
all positions agree then no node was dropped and the lists are equal.
-/

namespace Verif.AstDiff

/-- the elements up to `x`, with `x` -/
def upto (x : Nat) : List Nat → List Nat
  | [] => []
  | c :: cs => if c = x then [c] else c :: upto x cs

/-- the elements before `x` -/
def before (x : Nat) (l : List Nat) : List Nat := l.takeWhile (fun c => c ≠ x)

theorem before_cons_ne {x c : Nat} {l : List Nat} (h : c ≠ x) : before x (c :: l) = c :: before x l := by
  simp [before, h]

theorem before_cons_eq {x : Nat} {l : List Nat} : before x (x :: l) = [] := by simp [before]

theorem upto_eq {x : Nat} {l : List Nat} (h : x ∈ l) : upto x l = before x l ++ [x] := by
  induction l with
  | nil => simp at h
  | cons c cs ih =>
    rw [upto]
    by_cases e : c = x
    · subst e
      rw [if_pos rfl, before_cons_eq]
      rfl
    · rw [if_neg e, before_cons_ne e, ih (by simpa [Ne.symm e] using h)]
      rfl

theorem not_mem_before (x : Nat) (l : List Nat) : x ∉ before x l := by
  induction l with
  | nil => simp [before]
  | cons c cs ih =>
    by_cases e : c = x
    · subst e
      simp [before_cons_eq]
    · rw [before_cons_ne e]
      simp [Ne.symm e, ih]

theorem before_filter {x : Nat} {l : List Nat} {M : Nat → Bool} (hM : M x = true) : before x (l.filter M) = (before x l).filter M := by
  induction l with
  | nil => rfl
  | cons c cs ih =>
    by_cases e : c = x
    · subst e
      rw [List.filter_cons_of_pos hM, before_cons_eq, before_cons_eq]
      rfl
    · rw [before_cons_ne e]
      by_cases hc : M c = true
      · rw [List.filter_cons_of_pos hc, List.filter_cons_of_pos hc, before_cons_ne e, ih]
      · rw [List.filter_cons_of_neg hc, List.filter_cons_of_neg hc, ih]

theorem upto_filter {x : Nat} {l : List Nat} {M : Nat → Bool} (hx : x ∈ l) (hM : M x = true) : (upto x l).filter M = upto x (l.filter M) := by
  rw [upto_eq hx, upto_eq (List.mem_filter.2 ⟨hx, hM⟩), before_filter hM, List.filter_append]
  simp [hM]

theorem upto_map {f : Nat → Nat} {y : Nat} {l : List Nat} (h : ∀ c ∈ l, f c = f y → c = y) : upto (f y) (l.map f) = (upto y l).map f := by
  induction l with
  | nil => rfl
  | cons c cs ih =>
    rw [List.map_cons, upto, upto]
    by_cases e : c = y
    · subst e
      simp
    · rw [if_neg (fun e2 => e (h c (by simp) e2)), if_neg e, ih (fun d hd => h d (by simp [hd]))]
      rfl

theorem mem_upto {x z : Nat} {l : List Nat} (h : z ∈ upto x l) : z ∈ l := by
  induction l with
  | nil => simp [upto] at h
  | cons c cs ih =>
    rw [upto] at h
    split at h
    · simp at h
      simp [h]
    · rcases List.mem_cons.1 h with h | h
      · simp [h]
      · simp [ih h]

/-- a node is counted when `x` is visited, unless it was dropped before -/
def vis (F : Nat → Bool) (x : Nat) (A : List Nat) (z : Nat) : Bool := !(F z && (before x A).contains z)

theorem vis_self (F : Nat → Bool) (x : Nat) (A : List Nat) : vis F x A x = true := by
  have := not_mem_before x A
  simp [vis, this]

theorem same_order (F : Nat → Bool) : ∀ (A A' : List Nat), A.Nodup → A'.Nodup → (∀ x, x ∈ A ↔ x ∈ A') →
    (∀ x ∈ A, F x = true ↔ (upto x A).countP (vis F x A) ≠ (upto x A').countP (vis F x A)) →
    (∀ x ∈ A, (upto x A).countP (fun z => !F z) = (upto x A').countP (fun z => !F z)) → A = A'
  | [], A', _, _, hm, _, _ => by
    cases A' with
    | nil => rfl
    | cons b A' => exact absurd ((hm b).2 (by simp)) (by simp)
  | a :: A, [], _, _, hm, _, _ => absurd ((hm a).1 (by simp)) (by simp)
  | a :: A, b :: A', hn, hn', hm, hV, hN => by
    by_cases e : a = b
    · subst e
      have hFa : F a = false := by
        cases hF : F a with
        | false => rfl
        | true =>
          have := (hV a (by simp)).1 hF
          simp [upto] at this
      have ha : a ∉ A := (List.nodup_cons.1 hn).1
      have ha' : a ∉ A' := (List.nodup_cons.1 hn').1
      rw [same_order F A A' (List.nodup_cons.1 hn).2 (List.nodup_cons.1 hn').2 ?_ ?_ ?_]
      · intro x
        have := hm x
        simp only [List.mem_cons] at this
        constructor
        · intro hx
          rcases this.1 (.inr hx) with rfl | h
          · exact absurd hx ha
          · exact h
        · intro hx
          rcases this.2 (.inr hx) with rfl | h
          · exact absurd hx ha'
          · exact h
      · intro x hx
        have hax : a ≠ x := fun e => ha (e ▸ hx)
        have hvis : vis F x (a :: A) = vis F x A := by
          funext z
          rw [vis, vis, before_cons_ne hax]
          by_cases ez : z = a
          · subst ez
            simp [hFa]
          · simp [ez]
        have h1 := hV x (by simp [hx])
        rw [hvis, upto, upto, if_neg hax, if_neg hax, List.countP_cons, List.countP_cons] at h1
        rw [h1]
        omega
      · intro x hx
        have hax : a ≠ x := fun e => ha (e ▸ hx)
        have h1 := hN x (by simp [hx])
        rw [upto, upto, if_neg hax, if_neg hax, List.countP_cons, List.countP_cons] at h1
        omega
    · exfalso
      have haA' : a ∈ A' := by
        have := (hm a).1 (by simp)
        simpa [e] using this
      have hbA : b ∈ A := by
        have := (hm b).2 (by simp)
        simpa [Ne.symm e] using this
      have hFa : F a = true := by
        rw [hV a (by simp)]
        have hall : ∀ z, vis F a (a :: A) z = true := by
          intro z
          simp [vis, before_cons_eq]
        have h1 : ∀ l, List.countP (vis F a (a :: A)) l = l.length := by
          intro l
          rw [List.countP_eq_length]
          exact fun z _ => hall z
        rw [h1, h1, upto, if_pos rfl, upto, if_neg (Ne.symm e), upto_eq haA']
        simp
      have hFb : F b = true := by
        have h1 := hN a (by simp)
        rw [upto, if_pos rfl, upto, if_neg (Ne.symm e), List.countP_cons, List.countP_cons] at h1
        simp only [hFa, List.countP_nil] at h1
        cases hb : F b with
        | true => rfl
        | false =>
          simp [hb] at h1
      have hall : ∀ z ∈ upto b (a :: A), F z = true := by
        have h1 := hN b (by simp [hbA])
        rw [show upto b (b :: A') = [b] by simp [upto]] at h1
        simp only [List.countP_cons, List.countP_nil, hFb] at h1
        have h1 : (upto b (a :: A)).countP (fun z => !F z) = 0 := by simpa using h1
        intro z hz
        have := (List.countP_eq_zero.1 h1) z hz
        simpa using this
      have h2 := (hV b (by simp [hbA])).1 hFb
      apply h2
      rw [show upto b (b :: A') = [b] by simp [upto]]
      rw [upto_eq (by simp [hbA] : b ∈ a :: A)] at hall ⊢
      rw [List.countP_append]
      have h3 : (before b (a :: A)).countP (vis F b (a :: A)) = 0 := by
        rw [List.countP_eq_zero]
        intro z hz
        have := hall z (by simp [hz])
        simp [vis, this, hz]
      rw [h3, Nat.zero_add]

end Verif.AstDiff
