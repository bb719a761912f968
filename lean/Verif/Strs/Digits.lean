import Verif.Strs.Utf8
import Verif.Strs.Split
import Mathlib.Tactic.SplitIfs

/-!
# Model and proofs: number formatting, escaping, alignment and stripping

From src/hstd/stdlib/strutils.cpp.
-/

namespace Verif.Strs

/-! ## `format_integer_bits` – 565-622 -/

/-- Digit character for `std::hex`/`std::oct`/`std::to_string`. -/
def digitChar (d : Nat) : UInt8 := if d < 10 then UInt8.ofNat (48 + d) else UInt8.ofNat (87 + d)

/-- Digits of a number in a base: the loop of 573-576 for base 2, the standard library's
formatting for the others. -/
def digits (base : Nat) (v : Nat) (acc : Bytes) : Bytes :=
  if h : v = 0 ∨ base < 2 then acc else digits base (v / base) (digitChar (v % base) :: acc)
termination_by v
decreasing_by exact Nat.div_lt_self (by omega) (by omega)

/-- The unpadded digits, `0` for zero. -/
def rawDigits (base v : Nat) : Bytes := if v = 0 then [48] else digits base v []

/-- Padding with zeros – 594-596, 602-604. -/
def padZeros (raw : Bytes) (padTo : Int) : Bytes :=
  if 0 < padTo ∧ (raw.length : Int) < padTo then List.replicate (padTo - raw.length).toNat 48 ++ raw else raw

/-- Grouping – 606-613: goes from the right, `rev` is what is left of the digits, reversed. -/
def groupDigits : Nat → Bytes → Bytes → Bytes
  | _, [], grouped => grouped
  | count, d :: rev, grouped =>
    groupDigits (count + 1) rev (d :: (if 0 < count ∧ count % 4 = 0 then 39 :: grouped else grouped))

inductive Fmt where
  | bin | oct | hex | dec
deriving DecidableEq, Repr

/-- The base of a format character; any other character means decimal – 567-600. -/
def Fmt.base : Fmt → Nat
  | .bin => 2
  | .oct => 8
  | .hex => 16
  | .dec => 10

/-- The prefix – 615-621. -/
def Fmt.pref : Fmt → Bytes
  | .bin => [48, 98]
  | .oct => [48, 111]
  | .hex => [48, 120]
  | .dec => []

/-- `format_integer_bits` – 565-622. -/
def formatInteger (v : Nat) (fmt : Fmt) (padTo : Int) : Bytes :=
  let raw := padZeros (rawDigits fmt.base v) padTo
  if fmt = .dec then raw else fmt.pref ++ groupDigits 0 raw.reverse []

/-! ### Reading a number back -/

/-- Value of a digit character. -/
def digitVal (c : UInt8) : Nat := if c.toNat < 58 then c.toNat - 48 else c.toNat - 87

/-- Value of a digit sequence, most significant first. -/
def readDigits (base : Nat) (s : Bytes) : Nat := s.foldl (fun n c => n * base + digitVal c) 0

theorem digitVal_digitChar {d : Nat} (h : d < 16) : digitVal (digitChar d) = d := by
  have : ∀ d : Fin 16, digitVal (digitChar d) = d := by decide
  exact this ⟨d, h⟩

theorem digitChar_ne_quote {d : Nat} (h : d < 16) : digitChar d ≠ 39 := by
  have : ∀ d : Fin 16, digitChar d ≠ 39 := by decide
  exact this ⟨d, h⟩

theorem readDigits_append (base : Nat) (a b : Bytes) :
    readDigits base (a ++ b) = readDigits base a * base ^ b.length + readDigits base b := by
  unfold readDigits
  rw [List.foldl_append]
  generalize List.foldl (fun n c => n * base + digitVal c) 0 a = k
  induction b generalizing k with
  | nil => simp
  | cons c b ih =>
    rw [List.foldl_cons, List.foldl_cons, ih, ih (0 * base + digitVal c), List.length_cons, Nat.pow_succ]
    rw [Nat.zero_mul, Nat.zero_add, Nat.add_mul, Nat.mul_assoc, Nat.mul_comm base, Nat.add_assoc]

theorem digits_append (base v : Nat) (acc : Bytes) : digits base v acc = digits base v [] ++ acc := by
  induction v using Nat.strongRecOn generalizing acc with
  | _ v ih =>
    rw [digits]
    conv_rhs => rw [digits]
    split
    · rfl
    · rename_i h
      have hlt : v / base < v := Nat.div_lt_self (by omega) (by omega)
      rw [ih _ hlt, ih _ hlt [_]]
      simp

theorem readDigits_digits {base : Nat} (h2 : 2 ≤ base) (h16 : base ≤ 16) (v : Nat) :
    readDigits base (digits base v []) = v := by
  induction v using Nat.strongRecOn with
  | _ v ih =>
    rw [digits]
    split
    · rename_i h
      have : v = 0 := by omega
      rw [this]
      rfl
    · rename_i h
      have hlt : v / base < v := Nat.div_lt_self (by omega) (by omega)
      have hm : v % base < base := Nat.mod_lt _ (by omega)
      rw [digits_append, readDigits_append, ih _ hlt]
      simp only [List.length_singleton, Nat.pow_one, readDigits, List.foldl_cons, List.foldl_nil, Nat.zero_mul,
        Nat.zero_add]
      rw [digitVal_digitChar (by omega), Nat.div_add_mod']

theorem readDigits_raw {base : Nat} (h2 : 2 ≤ base) (h16 : base ≤ 16) (v : Nat) :
    readDigits base (rawDigits base v) = v := by
  unfold rawDigits
  split
  · rename_i h; rw [h]; simp [readDigits, digitVal]
  · exact readDigits_digits h2 h16 v

theorem readDigits_zeros (base n : Nat) : readDigits base (List.replicate n 48) = 0 := by
  induction n with
  | zero => rfl
  | succ n ih =>
    rw [List.replicate_succ', readDigits_append, ih]
    simp [readDigits, digitVal]

theorem readDigits_pad {base : Nat} (raw : Bytes) (padTo : Int) :
    readDigits base (padZeros raw padTo) = readDigits base raw := by
  unfold padZeros
  split
  · rw [readDigits_append, readDigits_zeros]; simp
  · rfl

theorem filter_group (count : Nat) (rev grouped : Bytes) (h : ∀ d ∈ rev, d ≠ 39) :
    (groupDigits count rev grouped).filter (· ≠ 39) = rev.reverse ++ grouped.filter (· ≠ 39) := by
  induction rev generalizing count grouped with
  | nil => simp [groupDigits]
  | cons d rev ih =>
    have hd : d ≠ 39 := h d (by simp)
    rw [groupDigits, ih _ _ (fun x hx => h x (by simp [hx]))]
    have : (if 0 < count ∧ count % 4 = 0 then 39 :: grouped else grouped).filter (· ≠ 39) = grouped.filter (· ≠ 39) := by
      split <;> simp
    rw [List.filter_cons, if_pos (by simpa using hd), this]
    simp

theorem digits_no_quote {base : Nat} (h16 : base ≤ 16) (v : Nat) : ∀ d ∈ digits base v [], d ≠ 39 := by
  induction v using Nat.strongRecOn with
  | _ v ih =>
    rw [digits]
    split
    · simp
    · rename_i h
      have hlt : v / base < v := Nat.div_lt_self (by omega) (by omega)
      have hm : v % base < base := Nat.mod_lt _ (by omega)
      rw [digits_append]
      intro d hd
      rcases List.mem_append.1 hd with h' | h'
      · exact ih _ hlt d h'
      · simp only [List.mem_singleton] at h'
        rw [h']
        exact digitChar_ne_quote (by omega)

theorem pad_no_quote {base : Nat} (h16 : base ≤ 16) (v : Nat) (padTo : Int) :
    ∀ d ∈ padZeros (rawDigits base v) padTo, d ≠ 39 := by
  have h : ∀ d ∈ rawDigits base v, d ≠ 39 := by
    unfold rawDigits
    split
    · simp
    · exact digits_no_quote h16 v
  unfold padZeros
  split
  · intro d hd
    rcases List.mem_append.1 hd with h' | h'
    · rw [(List.mem_replicate.1 h').2]; decide
    · exact h d h'
  · exact h

theorem padZeros_length (raw : Bytes) (padTo : Int) : padTo ≤ (padZeros raw padTo).length ∧ raw.length ≤ (padZeros raw padTo).length := by
  unfold padZeros
  split
  · simp; omega
  · omega

theorem Fmt.base_le (f : Fmt) : 2 ≤ f.base ∧ f.base ≤ 16 := by cases f <;> simp [Fmt.base]

/-- A `'` stands exactly in front of each full group of four digits counted from the right. -/
def Grouped : Nat → Bytes → Bytes → Prop
  | _, [], s => s = []
  | count, d :: rev, s =>
    if 0 < count ∧ count % 4 = 0 then ∃ s', s = 39 :: d :: s' ∧ Grouped (count + 1) rev s'
    else ∃ s', s = d :: s' ∧ Grouped (count + 1) rev s'

theorem grouped_spec (count : Nat) (rev grouped : Bytes) :
    ∃ s, groupDigits count rev grouped = s.reverse ++ grouped ∧ Grouped count rev s := by
  induction rev generalizing count grouped with
  | nil => exact ⟨[], rfl, rfl⟩
  | cons d rev ih =>
    rw [groupDigits]
    obtain ⟨s, h1, h2⟩ := ih (count + 1) (d :: (if 0 < count ∧ count % 4 = 0 then 39 :: grouped else grouped))
    rw [h1]
    by_cases hc : 0 < count ∧ count % 4 = 0
    · refine ⟨39 :: d :: s, ?_, ?_⟩
      · rw [if_pos hc]; simp
      · rw [Grouped, if_pos hc]; exact ⟨s, rfl, h2⟩
    · refine ⟨d :: s, ?_, ?_⟩
      · rw [if_neg hc]; simp
      · rw [Grouped, if_neg hc]; exact ⟨s, rfl, h2⟩

/-! ## `escape_for_write` – 248-266 -/

/-- One character – 253-261. -/
def escapeChar (quote : Bool) (c : UInt8) : Bytes :=
  if c = 9 then [92, 116]
  else if c = 10 then [92, 110]
  else if c = 34 ∧ quote then [92, 34]
  else [c]

/-- `escape_for_write` – 248-266. -/
def escapeForWrite (s : Bytes) (quote : Bool) : Bytes :=
  (if quote then [34] else []) ++ s.flatMap (escapeChar quote) ++ (if quote then [34] else [])

theorem escapeChar_inj {quote : Bool} {c d : UInt8} {x y : Bytes} (hc : c ≠ 92) (hd : d ≠ 92)
    (h : escapeChar quote c ++ x = escapeChar quote d ++ y) : c = d ∧ x = y := by
  unfold escapeChar at h
  split_ifs at h <;> simp_all

/-- The escape of text without a backslash determines the text. -/
theorem escape_inj_body (quote : Bool) : ∀ (a b : Bytes), 92 ∉ a → 92 ∉ b →
    a.flatMap (escapeChar quote) = b.flatMap (escapeChar quote) → a = b := by
  intro a
  induction a with
  | nil =>
    intro b _ _ h
    cases b with
    | nil => rfl
    | cons c b =>
      exfalso
      have hne : escapeChar quote c ≠ [] := by unfold escapeChar; split_ifs <;> simp
      simp only [List.flatMap_nil, List.flatMap_cons] at h
      exact hne (List.append_eq_nil_iff.1 h.symm).1
  | cons c a ih =>
    intro b ha hb h
    cases b with
    | nil =>
      exfalso
      have hne : escapeChar quote c ≠ [] := by unfold escapeChar; split_ifs <;> simp
      simp only [List.flatMap_nil, List.flatMap_cons] at h
      exact hne (List.append_eq_nil_iff.1 h).1
    | cons d b =>
      simp only [List.mem_cons, not_or] at ha hb
      have hc92 : c ≠ 92 := fun e => ha.1 e.symm
      have hd92 : d ≠ 92 := fun e => hb.1 e.symm
      simp only [List.flatMap_cons] at h
      have key := escapeChar_inj hc92 hd92 h
      rw [key.1, ih b ha.2 hb.2 key.2]

theorem escape_no_control (s : Bytes) (quote : Bool) : 9 ∉ escapeForWrite s quote ∧ 10 ∉ escapeForWrite s quote := by
  have hc : ∀ (q : Bool) (c : UInt8), 9 ∉ escapeChar q c ∧ 10 ∉ escapeChar q c := by
    intro q c
    unfold escapeChar
    split_ifs <;> simp <;> constructor <;> intro e <;> simp_all
  unfold escapeForWrite
  constructor <;>
  · intro h
    simp only [List.mem_append, List.mem_flatMap] at h
    rcases h with (h | ⟨c, -, h⟩) | h
    · split at h <;> simp at h
    · first | exact (hc quote c).1 h | exact (hc quote c).2 h
    · split at h <;> simp at h

/-! ## Alignment and stripping -/

theorem runeLength_char (c : Char) (s : Bytes) :
    runeLength (String.utf8EncodeChar c ++ s) = 1 + runeLength s := by
  rw [← chunks_length, chunks_char, List.length_cons, chunks_length, Nat.add_comm]

theorem runeLength_append_encode (cs : List Char) (r : Bytes) :
    runeLength (encode cs ++ r) = cs.length + runeLength r := by
  induction cs with
  | nil => simp [encode]
  | cons c cs ih =>
    rw [encode_cons, List.append_assoc, runeLength_char, ih, List.length_cons]
    omega

theorem repeated_eq (c : UInt8) (n : Nat) : repeated [c] n = List.replicate n c := by
  induction n with
  | zero => rfl
  | succ n ih => rw [repeated, ih, List.replicate_succ]; rfl

theorem runeLength_replicate {c : UInt8} (hc : c ≤ 127) (n : Nat) (s : Bytes) :
    runeLength (List.replicate n c ++ s) = n + runeLength s := by
  induction n with
  | zero => simp
  | succ n ih =>
    rw [List.replicate_succ, List.cons_append, runeLength]
    have : runeLen c = 1 := by unfold runeLen; rw [if_pos hc]
    rw [this, Nat.sub_self, List.drop_zero, ih]
    omega

theorem strip_spec (s : Bytes) (leading trailing : UInt8 → Bool) :
    ∃ a b, s = a ++ strip s leading trailing ++ b ∧ (∀ c ∈ a, leading c = true) ∧ (∀ c ∈ b, trailing c = true) ∧
      (∀ c, (strip s leading trailing ++ b).head? = some c → leading c = false) ∧
      (∀ c, (strip s leading trailing).getLast? = some c → trailing c = false) := by
  unfold strip
  generalize hm : s.dropWhile leading = m
  have h1 := List.takeWhile_append_dropWhile (p := leading) (l := s)
  rw [hm] at h1
  have h2 := List.takeWhile_append_dropWhile (p := trailing) (l := m.reverse)
  have h3 : m = (m.reverse.dropWhile trailing).reverse ++ (m.reverse.takeWhile trailing).reverse := by
    rw [← List.reverse_append, h2, List.reverse_reverse]
  refine ⟨s.takeWhile leading, (m.reverse.takeWhile trailing).reverse, ?_, ?_, ?_, ?_, ?_⟩
  · rw [List.append_assoc, ← h3, h1]
  · intro c hc; exact mem_takeWhile hc
  · intro c hc; exact mem_takeWhile (List.mem_reverse.1 hc)
  · rw [← h3, ← hm]
    intro c hc
    have := List.head?_dropWhile_not leading s
    rw [hc] at this
    simpa using this
  · intro c hc
    rw [List.getLast?_reverse] at hc
    have := List.head?_dropWhile_not trailing m.reverse
    rw [hc] at this
    simpa using this

theorem normalizeChar_idem : ∀ c d : UInt8, normalizeChar c = some d → normalizeChar d = some d := by
  intro c
  refine forall_byte (p := fun c => ∀ d, normalizeChar c = some d → normalizeChar d = some d) ?_ c
  intro n d h
  have : ∀ n : Fin 256, ∀ e ∈ normalizeChar (UInt8.ofFin n), normalizeChar e = some e := by decide +kernel
  exact this n d h

theorem normalize_idem (s : Bytes) : normalize (normalize s) = normalize s := by
  unfold normalize
  induction s with
  | nil => rfl
  | cons c s ih =>
    cases h : normalizeChar c with
    | none => rw [List.filterMap_cons_none h]; exact ih
    | some d =>
      rw [List.filterMap_cons_some h, List.filterMap_cons_some (normalizeChar_idem c d h), ih]

end Verif.Strs
