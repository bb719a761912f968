import Verif.Report.Model
import Mathlib.Tactic.SplitIfs

/-! # Lemmas about lines and offsets -/

namespace Verif.Report

/-! ## Specification: places -/

/-- The line of an offset, from 0: the number of line ends before it. -/
def lineAt (t : Text) (k : Nat) : Nat := (t.take k).count '\n'

/-- The column of an offset, from 0: the number of characters since the last line end. -/
def columnAt (t : Text) (k : Nat) : Nat := ((t.take k).reverse.takeWhile (· ≠ '\n')).length

/-! ## Pieces -/

theorem pieces_acc (p : Text) (hp : '\n' ∉ p) (cur r : Text) : pieces cur (p ++ '\n' :: r) = (cur ++ p) :: pieces [] r := by
  induction p generalizing cur with
  | nil => simp [pieces]
  | cons c p ih =>
    have hc : c ≠ '\n' := fun e => hp (by simp [e])
    rw [List.cons_append, pieces, if_neg hc, ih (fun h => hp (by simp [h]))]
    simp

theorem pieces_last (p : Text) (hp : '\n' ∉ p) (cur : Text) (h : cur ++ p ≠ []) : pieces cur p = [cur ++ p] := by
  induction p generalizing cur with
  | nil =>
    rw [pieces]
    rw [List.append_nil] at h
    cases cur with
    | nil => exact absurd rfl h
    | cons c r => simp
  | cons c p ih =>
    have hc : c ≠ '\n' := fun e => hp (by simp [e])
    rw [pieces, if_neg hc, ih (fun h => hp (by simp [h])) _ (by simp)]
    simp

/-- A text is a line and a rest, or a line. -/
theorem text_cases (t : Text) : (∃ p r, '\n' ∉ p ∧ t = p ++ '\n' :: r) ∨ '\n' ∉ t := by
  induction t with
  | nil => exact .inr (by simp)
  | cons c t ih =>
    by_cases hc : c = '\n'
    · exact .inl ⟨[], t, by simp, by simp [hc]⟩
    · rcases ih with ⟨p, r, h1, h2⟩ | h
      · exact .inl ⟨c :: p, r, by simp [h1, Ne.symm hc], by simp [h2]⟩
      · exact .inr (by simp [h, Ne.symm hc])

theorem takeWhile_stop (l x : Text) : (l ++ '\n' :: x).takeWhile (· ≠ '\n') = l.takeWhile (· ≠ '\n') := by
  induction l with
  | nil => simp
  | cons c l ih =>
    by_cases hc : c = '\n'
    · simp [hc]
    · simp only [List.cons_append, List.takeWhile_cons, ih]

theorem takeWhile_free {l : Text} (h : '\n' ∉ l) : l.takeWhile (· ≠ '\n') = l := by
  induction l with
  | nil => rfl
  | cons c l ih =>
    have hc : c ≠ '\n' := fun e => h (by simp [e])
    rw [List.takeWhile_cons_of_pos (by simp [hc]), ih (fun h' => h (by simp [h']))]

theorem place_free {p : Text} (hp : '\n' ∉ p) (t : Text) {k : Nat} (hk : k ≤ p.length) : lineAt (p ++ t) k = 0 ∧ columnAt (p ++ t) k = k := by
  have e : (p ++ t).take k = p.take k := List.take_append_of_le_length hk
  have hf : '\n' ∉ p.take k := fun h => hp (List.mem_of_mem_take h)
  unfold lineAt columnAt
  rw [e]
  refine ⟨List.count_eq_zero.mpr hf, ?_⟩
  rw [takeWhile_free (by rw [List.mem_reverse]; exact hf), List.length_reverse, List.length_take]
  omega

theorem place_next {p : Text} (hp : '\n' ∉ p) (r : Text) {k : Nat} (hk : p.length < k) :
    lineAt (p ++ '\n' :: r) k = lineAt r (k - p.length - 1) + 1 ∧ columnAt (p ++ '\n' :: r) k = columnAt r (k - p.length - 1) := by
  obtain ⟨m, rfl⟩ : ∃ m, k = p.length + (m + 1) := ⟨k - p.length - 1, by omega⟩
  have e : (p ++ '\n' :: r).take (p.length + (m + 1)) = p ++ '\n' :: r.take m := by
    rw [List.take_length_add_append, List.take_succ_cons]
  rw [show p.length + (m + 1) - p.length - 1 = m by omega]
  unfold lineAt columnAt
  rw [e]
  constructor
  · rw [List.count_append, List.count_eq_zero.mpr hp, List.count_cons_self]; omega
  · rw [List.reverse_append, List.reverse_cons, List.append_assoc]
    rw [show (['\n'] : Text) ++ p.reverse = '\n' :: p.reverse from rfl, takeWhile_stop]

/-! ## Lines -/

/-- A text that ends, or an offset before its end. -/
def Before (t : Text) (k : Nat) : Prop := k < t.length ∨ (k = t.length ∧ t.getLast? ≠ some '\n')

theorem before_next {p r : Text} {k : Nat} (h : Before (p ++ '\n' :: r) k) (hk : p.length < k) : Before r (k - p.length - 1) ∧ r ≠ [] := by
  unfold Before at *
  rcases h with h | ⟨h1, h2⟩
  · rw [List.length_append, List.length_cons] at h
    refine ⟨.inl (by omega), ?_⟩
    rintro rfl
    simp at h
    omega
  · have hr : r ≠ [] := by
      rintro rfl
      exact h2 (by simp)
    rw [List.length_append, List.length_cons] at h1
    refine ⟨.inr ⟨by omega, ?_⟩, hr⟩
    intro e
    apply h2
    rw [List.getLast?_append, List.getLast?_cons, e]
    rfl

/-- The lines that start at the offset or before are those up to the line of the offset, which starts as many characters before
it as the column says. -/
theorem lines_place : ∀ (n : Nat) (t : Text), t.length ≤ n → t ≠ [] → ∀ (base k : Nat), Before t k →
    ((linesFrom base (pieces [] t)).takeWhile fun l => decide ((l.offset : Int) ≤ (base + k : Nat))).length = lineAt t k + 1 ∧
    ∃ l, (linesFrom base (pieces [] t))[lineAt t k]? = some l ∧ l.offset + columnAt t k = base + k ∧ columnAt t k ≤ l.len := by
  intro n
  induction n with
  | zero => intro t ht hne; exact absurd (List.length_eq_zero_iff.mp (by omega)) hne
  | succ n ih =>
    intro t ht hne base k hk
    rcases text_cases t with ⟨p, r, hp, rfl⟩ | hp
    · rw [pieces_acc p hp, List.nil_append, linesFrom]
      by_cases hkp : k ≤ p.length
      · obtain ⟨e1, e2⟩ := place_free hp ('\n' :: r) hkp
        rw [e1, e2]
        refine ⟨?_, ⟨base, p.length⟩, rfl, rfl, hkp⟩
        rw [List.takeWhile_cons_of_pos (by simp; omega)]
        cases hq : pieces [] r with
        | nil => simp [linesFrom]
        | cons q qs =>
          rw [linesFrom, List.takeWhile_cons_of_neg (by simp; omega)]
          rfl
      · have hkp : p.length < k := by omega
        obtain ⟨e1, e2⟩ := place_next hp r hkp
        obtain ⟨h1, h2⟩ := before_next hk hkp
        rw [List.length_append, List.length_cons] at ht
        obtain ⟨i1, l, i2, i3, i4⟩ := ih r (by omega) h2 (base + p.length + 1) (k - p.length - 1) h1
        rw [show base + p.length + 1 + (k - p.length - 1) = base + k by omega] at i1 i3
        rw [e1, e2]
        refine ⟨?_, l, by rw [List.getElem?_cons_succ]; exact i2, i3, i4⟩
        rw [List.takeWhile_cons_of_pos (by simp; omega), List.length_cons, i1]
    · have hkl : k ≤ t.length := by rcases hk with h | h <;> omega
      have e := place_free hp [] hkl
      rw [List.append_nil] at e
      rw [pieces_last t hp [] (by simpa using hne), List.nil_append, linesFrom, linesFrom, e.1, e.2]
      refine ⟨?_, ⟨base, t.length⟩, rfl, rfl, hkl⟩
      rw [List.takeWhile_cons_of_pos (by simp; omega)]
      rfl

theorem end_eq : ∀ (n : Nat) (t : Text), t.length ≤ n → t ≠ [] → ∀ base, endFrom base (pieces [] t) = base + t.length + (if t.getLast? = some '\n' then 0 else 1) := by
  intro n
  induction n with
  | zero => intro t ht hne; exact absurd (List.length_eq_zero_iff.mp (by omega)) hne
  | succ n ih =>
    intro t ht hne base
    rcases text_cases t with ⟨p, r, hp, rfl⟩ | hp
    · rw [pieces_acc p hp, List.nil_append, endFrom]
      cases r with
      | nil => simp [pieces, endFrom]; omega
      | cons c r =>
        rw [List.length_append, List.length_cons] at ht
        rw [ih (c :: r) (by omega) (by simp)]
        have : (p ++ '\n' :: c :: r).getLast? = (c :: r).getLast? := by simp [List.getLast?_append, List.getLast?_cons]
        rw [this]
        simp only [List.length_append, List.length_cons]
        omega
    · rw [pieces_last t hp [] (by simpa using hne), List.nil_append, endFrom, endFrom]
      have : t.getLast? ≠ some '\n' := fun e => hp (List.mem_of_getLast? e)
      rw [if_neg this]

theorem source_len (t : Text) : (source t).len = if t = [] ∨ t.getLast? = some '\n' then t.length else t.length + 1 := by
  unfold source
  cases t with
  | nil => rfl
  | cons c r =>
    simp only [List.isEmpty_cons, Bool.false_eq_true, if_false, reduceCtorEq, false_or]
    rw [end_eq _ _ (Nat.le_refl _) (by simp)]
    split_ifs <;> omega

end Verif.Report
