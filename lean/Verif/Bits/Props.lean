import Verif.Bits.Model
import Mathlib.Tactic.SplitIfs
import Mathlib.Tactic.Conv

/-!
# Numbers in binary, octal and hexadecimal form

**C176**  The text of a number stands for the number: after the prefix of the form and without the marks, its digits in the
base of the form are the number; there are at least as many digits as asked for; and there is a mark exactly after each four
digits from the right.
-/

namespace Verif.Bits
open Verif.Drawer (Text)

/-! ## Specification -/

/-- The base of a form. -/
def radix : Form → Nat
  | .binary => 2
  | .octal => 8
  | .hex => 16
  | .other => 10

/-- What the text of a form starts with. -/
def sign : Form → Text
  | .binary => ['0', 'b']
  | .octal => ['0', 'o']
  | .hex => ['0', 'x']
  | .other => []

/-- The value of a digit. -/
def digitOf (c : Char) : Option Nat :=
  if '0' ≤ c ∧ c ≤ '9' then some (c.toNat - '0'.toNat) else if 'a' ≤ c ∧ c ≤ 'f' then some (c.toNat - 'a'.toNat + 10) else none

/-- A number read from the left, in a base. -/
def number (base : Nat) : Text → Nat → Option Nat
  | [], acc => some acc
  | c :: r, acc => (digitOf c).bind fun d => if d < base then number base r (acc * base + d) else none

/-- Without marks. -/
def unmarked (t : Text) : Text := t.filter (· ≠ '\'')

/-! ## Digits -/

theorem digit_of {d : Nat} (h : d < 16) : digitOf (digit d) = some d := by
  have : ∀ d : Fin 16, digitOf (digit d.1) = some d.1 := by decide +kernel
  exact this ⟨d, h⟩

theorem digit_plain {d : Nat} (h : d < 16) : digit d ≠ '\'' := by
  have : ∀ d : Fin 16, digit d.1 ≠ '\'' := by decide +kernel
  exact this ⟨d, h⟩

theorem digitsLoop_append {base : Nat} (hb : 2 ≤ base) : ∀ v raw, digitsLoop base v raw = digitsLoop base v [] ++ raw := by
  intro v
  induction v using Nat.strongRecOn with
  | _ v ih =>
    intro raw
    rw [digitsLoop]
    conv_rhs => rw [digitsLoop]
    split_ifs with h
    · rfl
    · have hlt : v / base < v := Nat.div_lt_self (by omega) (by omega)
      rw [ih _ hlt, ih _ hlt [digit (v % base)], List.append_assoc]
      rfl

theorem number_append (base : Nat) (a b : Text) (acc : Nat) : number base (a ++ b) acc = (number base a acc).bind (number base b) := by
  induction a generalizing acc with
  | nil => rfl
  | cons c a ih =>
    rw [List.cons_append, number, number]
    cases digitOf c with
    | none => rfl
    | some d =>
      simp only [Option.bind_some]
      split_ifs
      · exact ih _
      · rfl

theorem loop_number {base : Nat} (hb : 2 ≤ base) (hb2 : base ≤ 16) : ∀ v, number base (digitsLoop base v []) 0 = some v := by
  intro v
  induction v using Nat.strongRecOn with
  | _ v ih =>
    rw [digitsLoop]
    split_ifs with h
    · have : v = 0 := by omega
      subst this
      rfl
    · have hlt : v / base < v := Nat.div_lt_self (by omega) (by omega)
      have hm : v % base < base := Nat.mod_lt _ (by omega)
      rw [digitsLoop_append hb, number_append, ih _ hlt, Option.bind_some, number, digit_of (by omega), Option.bind_some, if_pos hm, number]
      congr 1
      rw [Nat.mul_comm]
      exact Nat.div_add_mod v base

theorem digits_number {base : Nat} (hb : 2 ≤ base) (hb2 : base ≤ 16) (v : Nat) : number base (digits base v) 0 = some v := by
  unfold digits
  split_ifs with h
  · subst h
    rw [show ("0".toList) = ['0'] from rfl, number, show digitOf '0' = some 0 from rfl, Option.bind_some, if_pos (by omega)]
    simp [number]
  · exact loop_number hb hb2 v

theorem loop_plain {base : Nat} (hb2 : base ≤ 16) : ∀ v raw, '\'' ∉ raw → '\'' ∉ digitsLoop base v raw := by
  intro v
  induction v using Nat.strongRecOn with
  | _ v ih =>
    intro raw hr
    rw [digitsLoop]
    split_ifs with h
    · exact hr
    · have hlt : v / base < v := Nat.div_lt_self (by omega) (by omega)
      refine ih _ hlt _ ?_
      rw [List.mem_cons, not_or]
      have hm : v % base < base := Nat.mod_lt _ (by omega)
      exact ⟨Ne.symm (digit_plain (by omega)), hr⟩

theorem number_zeros {base : Nat} (hb : 2 ≤ base) (k : Nat) (t : Text) : number base (List.replicate k '0' ++ t) 0 = number base t 0 := by
  induction k with
  | zero => rfl
  | succ k ih =>
    rw [List.replicate_succ, List.cons_append, number, show digitOf '0' = some 0 from rfl, Option.bind_some, if_pos (by omega)]
    simpa using ih

theorem padded_number {base : Nat} (hb : 2 ≤ base) (hb2 : base ≤ 16) (v : Nat) (p : Int) :
    number base (padded (digits base v) p) 0 = some v ∧ '\'' ∉ padded (digits base v) p ∧ p ≤ (padded (digits base v) p).length := by
  have h1 := digits_number hb hb2 v
  have h2 : '\'' ∉ digits base v := by
    unfold digits
    split_ifs
    · decide
    · exact loop_plain hb2 v [] List.not_mem_nil
  unfold padded
  split_ifs with h
  · refine ⟨by rw [number_zeros hb, h1], ?_, ?_⟩
    · rw [List.mem_append, not_or]
      refine ⟨fun k => ?_, h2⟩
      have := (List.mem_replicate.mp k).2
      cases this
    · rw [List.length_append, List.length_replicate]
      omega
  · refine ⟨h1, h2, ?_⟩
    omega

/-! ## Marks -/

theorem group_unmarked (l : Text) (hl : '\'' ∉ l) (n : Nat) (g : Text) : unmarked (groupLoop l n g) = l.reverse ++ unmarked g := by
  induction l generalizing n g with
  | nil => rfl
  | cons c r ih =>
    have hc : c ≠ '\'' := fun e => hl (e ▸ List.mem_cons_self)
    rw [groupLoop]
    rw [ih fun k => hl (List.mem_cons_of_mem _ k)]
    have : ∀ g', unmarked (c :: g') = c :: unmarked g' := by
      intro g'
      unfold unmarked
      rw [List.filter_cons_of_pos (by simpa using hc)]
    rw [this]
    split_ifs <;> simp [unmarked]

/-- From the right, each fifth character is a mark, and no other. -/
def Marked (t : Text) : Prop := ∀ i, i < t.length → (t.reverse[i]? = some '\'' ↔ i % 5 = 4)

theorem group_marked (l : Text) (hl : '\'' ∉ l) (n : Nat) (g : Text) (hg : Marked g) (hn : g.length = n + (n - 1) / 4) : Marked (groupLoop l n g) := by
  induction l generalizing n g with
  | nil => exact hg
  | cons c r ih =>
    have hc : c ≠ '\'' := fun e => hl (e ▸ List.mem_cons_self)
    have snoc : ∀ (x : Char) (t : Text), Marked t → (x = '\'' ↔ t.length % 5 = 4) → Marked (x :: t) := by
      intro x t ht hx i hi
      rw [List.reverse_cons]
      by_cases h : i < t.length
      · rw [List.getElem?_append_left (by simpa using h)]
        exact ht i h
      · have : i = t.length := by simp at hi; omega
        subst this
        rw [List.getElem?_append_right (by simp)]
        simpa using hx
    rw [groupLoop]
    apply ih fun k => hl (List.mem_cons_of_mem _ k)
    · split_ifs with h
      · refine snoc _ _ (snoc _ _ hg ?_) ?_
        · simp only [true_iff]; omega
        · simp only [hc, false_iff, List.length_cons]; omega
      · refine snoc _ _ hg ?_
        simp only [hc, false_iff]; omega
    · split_ifs with h
      · simp only [List.length_cons]; omega
      · simp only [List.length_cons]; omega

/-! ## C176 -/

theorem base_radix (f : Form) : f.base = radix f := by cases f <;> rfl

theorem prefix_sign (f : Form) : f.prefix = sign f := by cases f <;> rfl

theorem base_bounds (f : Form) : 2 ≤ f.base ∧ f.base ≤ 16 := by cases f <;> decide

/-- **C176** The digits, after the prefix and without marks, are the number in the base, and at least as many as asked for. -/
theorem format_reads (v : Nat) (f : Form) (p : Int) : ∃ body, format v f p = sign f ++ body ∧ number (radix f) (unmarked body) 0 = some v ∧
    p ≤ (unmarked body).length := by
  rw [← prefix_sign, ← base_radix]
  obtain ⟨b1, b2⟩ := base_bounds f
  obtain ⟨h1, h2, h3⟩ := padded_number b1 b2 v p
  unfold format
  dsimp only
  split_ifs with hf
  · subst hf
    refine ⟨padded (digits Form.other.base v) p, rfl, ?_⟩
    have e : unmarked (padded (digits Form.other.base v) p) = padded (digits Form.other.base v) p := by
      unfold unmarked
      rw [List.filter_eq_self]
      intro c hc
      simp only [decide_eq_true_eq]
      rintro rfl
      exact h2 hc
    rw [e]
    exact ⟨h1, h3⟩
  · refine ⟨_, rfl, ?_⟩
    rw [group_unmarked _ (by simpa using h2)]
    simp only [List.reverse_reverse, unmarked, List.filter_nil, List.append_nil]
    exact ⟨h1, h3⟩

/-- **C176** The marks are after each four digits from the right. -/
theorem format_marks (v : Nat) (f : Form) (p : Int) (hf : f ≠ .other) : ∃ body, format v f p = sign f ++ body ∧ Marked body := by
  rw [← prefix_sign]
  obtain ⟨b1, b2⟩ := base_bounds f
  obtain ⟨_, h2, _⟩ := padded_number b1 b2 v p
  unfold format
  dsimp only
  rw [if_neg hf]
  exact ⟨_, rfl, group_marked _ (by simpa using h2) 0 [] (by intro i hi; cases hi) rfl⟩

/-- **C176** No number has more zeros in front than asked for: there is no leading zero beyond the width. -/
theorem format_short (v : Nat) (f : Form) (p : Int) (hv : v ≠ 0) : ∃ body, format v f p = sign f ++ body ∧
    ((unmarked body).head? = some '0' → ((unmarked body).length : Int) = p) := by
  rw [← prefix_sign]
  obtain ⟨b1, b2⟩ := base_bounds f
  obtain ⟨_, h2, _⟩ := padded_number b1 b2 v p
  have key : ∀ v, v ≠ 0 → ∀ raw, ∃ d r, digitsLoop f.base v raw = digit d :: r ∧ 0 < d ∧ d < 16 := by
    intro v
    induction v using Nat.strongRecOn with
    | _ v ih =>
      intro hv raw
      rw [digitsLoop, dif_neg (by omega)]
      have hlt : v / f.base < v := Nat.div_lt_self (by omega) (by omega)
      by_cases h0 : v / f.base = 0
      · have hvb : v < f.base := by
          rcases Nat.div_eq_zero_iff.mp h0 with h | h
          · omega
          · exact h
        rw [h0, digitsLoop, dif_pos (.inl rfl), Nat.mod_eq_of_lt hvb]
        exact ⟨v, raw, rfl, by omega, by omega⟩
      · exact ih _ hlt h0 _
  have short : (padded (digits f.base v) p).head? = some '0' → ((padded (digits f.base v) p).length : Int) = p := by
    unfold padded
    split_ifs with h
    · intro _
      rw [List.length_append, List.length_replicate]
      omega
    · intro k
      exfalso
      unfold digits at k
      rw [if_neg hv] at k
      obtain ⟨d, r, e, e1, e2⟩ := key v hv []
      rw [e] at k
      injection k with k
      have : ∀ d : Fin 16, 0 < d.1 → digit d.1 ≠ '0' := by decide +kernel
      exact this ⟨d, e2⟩ e1 k
  unfold format
  dsimp only
  split_ifs with hf
  · subst hf
    refine ⟨padded (digits Form.other.base v) p, rfl, ?_⟩
    have e : unmarked (padded (digits Form.other.base v) p) = padded (digits Form.other.base v) p := by
      unfold unmarked
      rw [List.filter_eq_self]
      intro c hc
      simp only [decide_eq_true_eq]
      rintro rfl
      exact h2 hc
    rw [e]
    exact short
  · refine ⟨_, rfl, ?_⟩
    rw [group_unmarked _ (by simpa using h2)]
    simp only [List.reverse_reverse, unmarked, List.filter_nil, List.append_nil]
    exact short

example : format 171 .binary 0 = "0b1010'1011".toList ∧ format 48879 .hex 6 = "0x00'beef".toList ∧ format 42 .other 5 = "00042".toList := by
  decide +kernel

end Verif.Bits
