import Verif.Strs.Model

/-!
# Proofs about UTF-8 (C12, C38)

The reference is Lean's own `Char` (exactly the Unicode scalar values) and
`String.utf8EncodeChar`.
-/

namespace Verif.Strs

/-- Bytes of a sequence of characters. -/
def encode (cs : List Char) : Bytes := cs.flatMap String.utf8EncodeChar

theorem forall_byte {p : UInt8 → Prop} (h : ∀ n : Fin 256, p (UInt8.ofFin n)) (b : UInt8) : p b := h b.toFin

theorem isCont_iff (b : UInt8) : isCont b = true ↔ 128 ≤ b.toNat ∧ b.toNat < 192 :=
  forall_byte (p := fun b => isCont b = true ↔ 128 ≤ b.toNat ∧ b.toNat < 192) (by decide +kernel) b

theorem byte_ext {a b : UInt8} (h : a.toNat = b.toNat) : a = b := UInt8.toNat_inj.1 h

theorem encode_one {c : Char} (h : c.val.toNat ≤ 0x7f) :
    String.utf8EncodeChar c = [UInt8.ofNat c.val.toNat] := by
  unfold String.utf8EncodeChar
  simp only
  rw [if_pos h]

theorem encode_two {c : Char} (h : 0x7f < c.val.toNat) (h' : c.val.toNat ≤ 0x7ff) :
    String.utf8EncodeChar c =
      [UInt8.ofNat (c.val.toNat / 64 % 0x20 + 0xc0), UInt8.ofNat (c.val.toNat % 0x40 + 0x80)] := by
  unfold String.utf8EncodeChar
  simp only
  rw [if_neg (by omega), if_pos h']

theorem encode_three {c : Char} (h : 0x7ff < c.val.toNat) (h' : c.val.toNat ≤ 0xffff) :
    String.utf8EncodeChar c =
      [UInt8.ofNat (c.val.toNat / 4096 % 0x10 + 0xe0), UInt8.ofNat (c.val.toNat / 64 % 0x40 + 0x80),
        UInt8.ofNat (c.val.toNat % 0x40 + 0x80)] := by
  unfold String.utf8EncodeChar
  simp only
  rw [if_neg (by omega), if_neg (by omega), if_pos h']

theorem encode_four {c : Char} (h : 0xffff < c.val.toNat) :
    String.utf8EncodeChar c =
      [UInt8.ofNat (c.val.toNat / 262144 % 0x08 + 0xf0), UInt8.ofNat (c.val.toNat / 4096 % 0x40 + 0x80),
        UInt8.ofNat (c.val.toNat / 64 % 0x40 + 0x80), UInt8.ofNat (c.val.toNat % 0x40 + 0x80)] := by
  unfold String.utf8EncodeChar
  simp only
  rw [if_neg (by omega), if_neg (by omega), if_neg (by omega)]

theorem char_valid (c : Char) : c.val.toNat < 0xd800 ∨ 0xdfff < c.val.toNat ∧ c.val.toNat < 0x110000 := c.valid

/-- The character with a given scalar value. -/
theorem exists_char {v : Nat} (h : v < 0xd800 ∨ 0xdfff < v ∧ v < 0x110000) : ∃ c : Char, c.val.toNat = v := by
  have hv : v < 2 ^ 32 := by omega
  refine ⟨⟨UInt32.ofNat v, ?_⟩, ?_⟩
  · show UInt32.isValidChar _
    unfold UInt32.isValidChar Nat.isValidChar
    rw [UInt32.toNat_ofNat_of_lt' hv]
    exact h
  · exact UInt32.toNat_ofNat_of_lt' hv

theorem ofNat_toNat {n : Nat} (h : n < 256) : (UInt8.ofNat n).toNat = n := by
  rw [UInt8.toNat_ofNat']; omega

theorem le_iff (a b : UInt8) : a ≤ b ↔ a.toNat ≤ b.toNat := UInt8.le_iff_toNat_le
theorem lt_iff (a b : UInt8) : a < b ↔ a.toNat < b.toNat := UInt8.lt_iff_toNat_lt

theorem eq_iff (a b : UInt8) : a = b ↔ a.toNat = b.toNat := UInt8.toNat_inj.symm

theorem validate_one {i : Nat} {b : UInt8} {r : Bytes} (h : b.toNat ≤ 127) :
    validateFrom i (b :: r) = validateFrom (i + 1) r := by
  rw [validateFrom.eq_def]
  dsimp only
  rw [if_pos]
  rw [le_iff]; exact h

theorem validate_two {i : Nat} {b b1 : UInt8} {r : Bytes} (h : 194 ≤ b.toNat ∧ b.toNat ≤ 223)
    (h1 : 128 ≤ b1.toNat ∧ b1.toNat < 192) : validateFrom i (b :: b1 :: r) = validateFrom (i + 2) r := by
  rw [validateFrom.eq_def]
  dsimp only
  rw [if_neg, if_pos, if_neg]
  · rw [(isCont_iff b1).2 h1]; simp
  · rw [le_iff, le_iff]; exact h
  · rw [le_iff]; show ¬ b.toNat ≤ 127; omega

theorem validate_three {i : Nat} {b b1 b2 : UInt8} {r : Bytes} (h : 224 ≤ b.toNat ∧ b.toNat ≤ 239)
    (h1 : 128 ≤ b1.toNat ∧ b1.toNat < 192) (h2 : 128 ≤ b2.toNat ∧ b2.toNat < 192)
    (h3 : b.toNat = 224 → 160 ≤ b1.toNat) (h4 : b.toNat = 237 → b1.toNat ≤ 159) :
    validateFrom i (b :: b1 :: b2 :: r) = validateFrom (i + 3) r := by
  rw [validateFrom.eq_def]
  dsimp only
  rw [if_neg, if_neg, if_pos, if_neg, if_neg, if_neg]
  · rw [eq_iff, lt_iff]; show ¬ (b.toNat = 237 ∧ 159 < b1.toNat); omega
  · rw [eq_iff, lt_iff]; show ¬ (b.toNat = 224 ∧ b1.toNat < 160); omega
  · rw [(isCont_iff b1).2 h1, (isCont_iff b2).2 h2]; simp
  · rw [le_iff, le_iff]; exact h
  · rw [le_iff, le_iff]; show ¬ (194 ≤ b.toNat ∧ b.toNat ≤ 223); omega
  · rw [le_iff]; show ¬ b.toNat ≤ 127; omega

theorem validate_four {i : Nat} {b b1 b2 b3 : UInt8} {r : Bytes} (h : 240 ≤ b.toNat ∧ b.toNat ≤ 244)
    (h1 : 128 ≤ b1.toNat ∧ b1.toNat < 192) (h2 : 128 ≤ b2.toNat ∧ b2.toNat < 192)
    (h3 : 128 ≤ b3.toNat ∧ b3.toNat < 192)
    (h4 : b.toNat = 240 → 144 ≤ b1.toNat) (h5 : b.toNat = 244 → b1.toNat ≤ 143) :
    validateFrom i (b :: b1 :: b2 :: b3 :: r) = validateFrom (i + 4) r := by
  rw [validateFrom.eq_def]
  dsimp only
  rw [if_neg, if_neg, if_neg, if_pos, if_neg, if_neg, if_neg]
  · rw [eq_iff, lt_iff]; show ¬ (b.toNat = 244 ∧ 143 < b1.toNat); omega
  · rw [eq_iff, lt_iff]; show ¬ (b.toNat = 240 ∧ b1.toNat < 144); omega
  · rw [(isCont_iff b1).2 h1, (isCont_iff b2).2 h2, (isCont_iff b3).2 h3]; simp
  · rw [le_iff, le_iff]; exact h
  · rw [le_iff, le_iff]; show ¬ (224 ≤ b.toNat ∧ b.toNat ≤ 239); omega
  · rw [le_iff, le_iff]; show ¬ (194 ≤ b.toNat ∧ b.toNat ≤ 223); omega
  · rw [le_iff]; show ¬ b.toNat ≤ 127; omega

/-- One well-formed character is passed. -/
theorem validate_char (i : Nat) (c : Char) (r : Bytes) :
    validateFrom i (String.utf8EncodeChar c ++ r) = validateFrom (i + (String.utf8EncodeChar c).length) r := by
  have hv := char_valid c
  by_cases h1 : c.val.toNat ≤ 0x7f
  · rw [encode_one h1]
    generalize c.val.toNat = v at *
    exact validate_one (by rw [ofNat_toNat (by omega)]; omega)
  · by_cases h2 : c.val.toNat ≤ 0x7ff
    · rw [encode_two (by omega) h2]
      generalize c.val.toNat = v at *
      exact validate_two (by rw [ofNat_toNat (by omega)]; omega) (by rw [ofNat_toNat (by omega)]; omega)
    · by_cases h3 : c.val.toNat ≤ 0xffff
      · rw [encode_three (by omega) h3]
        generalize c.val.toNat = v at *
        exact validate_three (by rw [ofNat_toNat (by omega)]; omega) (by rw [ofNat_toNat (by omega)]; omega)
          (by rw [ofNat_toNat (by omega)]; omega)
          (by rw [ofNat_toNat (by omega), ofNat_toNat (by omega)]; omega)
          (by rw [ofNat_toNat (by omega), ofNat_toNat (by omega)]; omega)
      · rw [encode_four (by omega)]
        generalize c.val.toNat = v at *
        exact validate_four (by rw [ofNat_toNat (by omega)]; omega) (by rw [ofNat_toNat (by omega)]; omega)
          (by rw [ofNat_toNat (by omega)]; omega) (by rw [ofNat_toNat (by omega)]; omega)
          (by rw [ofNat_toNat (by omega), ofNat_toNat (by omega)]; omega)
          (by rw [ofNat_toNat (by omega), ofNat_toNat (by omega)]; omega)

theorem char_one {b : UInt8} (h : b.toNat ≤ 127) : ∃ c, String.utf8EncodeChar c = [b] := by
  obtain ⟨c, hc⟩ := exists_char (v := b.toNat) (by omega)
  refine ⟨c, ?_⟩
  rw [encode_one (by omega), hc]
  simp

theorem eq_ofNat {b : UInt8} {n : Nat} (h : n = b.toNat) : UInt8.ofNat n = b := by
  rw [h]; simp

theorem char_two {b b1 : UInt8} (h : 194 ≤ b.toNat ∧ b.toNat ≤ 223)
    (h1 : 128 ≤ b1.toNat ∧ b1.toNat < 192) : ∃ c, String.utf8EncodeChar c = [b, b1] := by
  obtain ⟨c, hc⟩ := exists_char (v := (b.toNat - 192) * 64 + (b1.toNat - 128)) (by omega)
  refine ⟨c, ?_⟩
  rw [encode_two (by omega) (by omega), hc]
  rw [eq_ofNat (b := b) (by omega), eq_ofNat (b := b1) (by omega)]

theorem char_three {b b1 b2 : UInt8} (h : 224 ≤ b.toNat ∧ b.toNat ≤ 239)
    (h1 : 128 ≤ b1.toNat ∧ b1.toNat < 192) (h2 : 128 ≤ b2.toNat ∧ b2.toNat < 192)
    (h3 : b.toNat = 224 → 160 ≤ b1.toNat) (h4 : b.toNat = 237 → b1.toNat ≤ 159) :
    ∃ c, String.utf8EncodeChar c = [b, b1, b2] := by
  obtain ⟨c, hc⟩ := exists_char (v := (b.toNat - 224) * 4096 + (b1.toNat - 128) * 64 + (b2.toNat - 128)) (by omega)
  refine ⟨c, ?_⟩
  rw [encode_three (by omega) (by omega), hc]
  rw [eq_ofNat (b := b) (by omega), eq_ofNat (b := b1) (by omega), eq_ofNat (b := b2) (by omega)]

theorem char_four {b b1 b2 b3 : UInt8} (h : 240 ≤ b.toNat ∧ b.toNat ≤ 244)
    (h1 : 128 ≤ b1.toNat ∧ b1.toNat < 192) (h2 : 128 ≤ b2.toNat ∧ b2.toNat < 192)
    (h3 : 128 ≤ b3.toNat ∧ b3.toNat < 192)
    (h4 : b.toNat = 240 → 144 ≤ b1.toNat) (h5 : b.toNat = 244 → b1.toNat ≤ 143) :
    ∃ c, String.utf8EncodeChar c = [b, b1, b2, b3] := by
  obtain ⟨c, hc⟩ := exists_char
    (v := (b.toNat - 240) * 262144 + (b1.toNat - 128) * 4096 + (b2.toNat - 128) * 64 + (b3.toNat - 128)) (by omega)
  refine ⟨c, ?_⟩
  rw [encode_four (by omega), hc]
  rw [eq_ofNat (b := b) (by omega), eq_ofNat (b := b1) (by omega), eq_ofNat (b := b2) (by omega),
    eq_ofNat (b := b3) (by omega)]

theorem encode_append (a b : List Char) : encode (a ++ b) = encode a ++ encode b := by
  simp [encode]

theorem encode_cons (c : Char) (cs : List Char) : encode (c :: cs) = String.utf8EncodeChar c ++ encode cs := by
  simp [encode]

/-- Well-formed text is passed. -/
theorem validate_encode (cs : List Char) : ∀ (i : Nat) (r : Bytes),
    validateFrom i (encode cs ++ r) = validateFrom (i + (encode cs).length) r := by
  induction cs with
  | nil => intro i r; simp [encode]
  | cons c cs ih =>
    intro i r
    rw [encode_cons, List.append_assoc, validate_char, ih, List.length_append, Nat.add_assoc]

/-- Errors are not before the start. -/
theorem validate_pos_le (i : Nat) (s : Bytes) (e : Utf8Err) (p : Nat)
    (h : validateFrom i s = .error (e, p)) : i ≤ p ∧ p < i + s.length := by
  fun_induction validateFrom i s <;> try (injection h with h; injection h with h1 h2; subst h2; simp)
  all_goals first
    | contradiction
    | (rename_i ih; have := ih h; simp only [List.length_cons]; omega)

/-- Statement about the outcome at one position. -/
def Outcome (i : Nat) (s : Bytes) (res : Except (Utf8Err × Nat) Unit) : Prop :=
  (res = .ok () ∧ ∃ cs, s = encode cs) ∨
    ∃ e cs r, s = encode cs ++ r ∧ res = .error (e, i + (encode cs).length)

theorem Outcome.here (i : Nat) (s : Bytes) (e : Utf8Err) : Outcome i s (.error (e, i)) :=
  Or.inr ⟨e, [], s, rfl, rfl⟩

theorem Outcome.char {i n : Nat} {c : Char} {l s : Bytes} {res : Except (Utf8Err × Nat) Unit}
    (hc : String.utf8EncodeChar c = l) (hn : l.length = n) (h : Outcome (i + n) s res) : Outcome i (l ++ s) res := by
  rcases h with ⟨h1, cs, rfl⟩ | ⟨e, cs, r, rfl, h2⟩
  · exact Or.inl ⟨h1, c :: cs, by rw [encode_cons, hc]⟩
  · refine Or.inr ⟨e, c :: cs, r, by rw [encode_cons, hc, List.append_assoc], ?_⟩
    rw [h2, encode_cons, hc, List.length_append, hn, Nat.add_assoc]

theorem cont_of {b : UInt8} (h : (!isCont b) = false) : 128 ≤ b.toNat ∧ b.toNat < 192 := by
  rw [← isCont_iff]; simpa using h

/-- Whatever is passed is well-formed text. -/
theorem validate_outcome (i : Nat) (s : Bytes) : Outcome i s (validateFrom i s) := by
  fun_induction validateFrom i s
  case case1 => exact Or.inl ⟨rfl, [], rfl⟩
  case case2 h ih =>
    rw [le_iff] at h
    obtain ⟨c, hc⟩ := char_one h
    exact Outcome.char hc rfl ih
  all_goals try exact Outcome.here _ _ _
  case case5 h _ _ h1 ih =>
    rw [le_iff, le_iff] at h
    obtain ⟨c, hc⟩ := char_two h (cont_of (by simpa using h1))
    exact Outcome.char hc rfl ih
  case case9 h _ _ _ h1 h2 h3 ih =>
    rw [le_iff, le_iff] at h
    rw [eq_iff, lt_iff] at h2 h3
    simp only [Bool.or_eq_true, not_or, Bool.not_eq_true] at h1
    obtain ⟨c, hc⟩ := char_three h (cont_of h1.1) (cont_of h1.2)
      (fun e => Nat.le_of_not_lt fun h => h2 ⟨e, h⟩) (fun e => Nat.le_of_not_lt fun h => h3 ⟨e, h⟩)
    exact Outcome.char hc rfl ih
  case case14 h _ _ _ _ h1 h2 h3 ih =>
    rw [le_iff, le_iff] at h
    rw [eq_iff, lt_iff] at h2 h3
    simp only [Bool.or_eq_true, not_or, Bool.not_eq_true] at h1
    obtain ⟨c, hc⟩ := char_four h (cont_of h1.1.1) (cont_of h1.1.2) (cont_of h1.2)
      (fun e => Nat.le_of_not_lt fun h => h2 ⟨e, h⟩) (fun e => Nat.le_of_not_lt fun h => h3 ⟨e, h⟩)
    exact Outcome.char hc rfl ih

/-! ## Runes -/

theorem runeLen_pos (b : UInt8) : 1 ≤ runeLen b := by
  unfold runeLen
  repeat' split
  all_goals omega

theorem runeLen_spec (b : UInt8) :
    (b.toNat ≤ 127 → runeLen b = 1) ∧ (192 ≤ b.toNat ∧ b.toNat ≤ 223 → runeLen b = 2) ∧
    (224 ≤ b.toNat ∧ b.toNat ≤ 239 → runeLen b = 3) ∧ (240 ≤ b.toNat ∧ b.toNat ≤ 247 → runeLen b = 4) :=
  forall_byte (p := fun b => (b.toNat ≤ 127 → runeLen b = 1) ∧ (192 ≤ b.toNat ∧ b.toNat ≤ 223 → runeLen b = 2) ∧
    (224 ≤ b.toNat ∧ b.toNat ≤ 239 → runeLen b = 3) ∧ (240 ≤ b.toNat ∧ b.toNat ≤ 247 → runeLen b = 4))
    (by decide +kernel) b

/-- The first byte of a character announces its length. -/
theorem encode_head (c : Char) : ∃ b r, String.utf8EncodeChar c = b :: r ∧ runeLen b = r.length + 1 := by
  have hv := char_valid c
  by_cases h1 : c.val.toNat ≤ 0x7f
  · rw [encode_one h1]
    exact ⟨_, _, rfl, (runeLen_spec _).1 (by rw [ofNat_toNat (by omega)]; omega)⟩
  · by_cases h2 : c.val.toNat ≤ 0x7ff
    · rw [encode_two (by omega) h2]
      generalize c.val.toNat = v at *
      exact ⟨_, _, rfl, (runeLen_spec _).2.1 (by rw [ofNat_toNat (by omega)]; omega)⟩
    · by_cases h3 : c.val.toNat ≤ 0xffff
      · rw [encode_three (by omega) h3]
        generalize c.val.toNat = v at *
        exact ⟨_, _, rfl, (runeLen_spec _).2.2.1 (by rw [ofNat_toNat (by omega)]; omega)⟩
      · rw [encode_four (by omega)]
        generalize c.val.toNat = v at *
        exact ⟨_, _, rfl, (runeLen_spec _).2.2.2 (by rw [ofNat_toNat (by omega)]; omega)⟩

theorem chunks_char (c : Char) (s : Bytes) :
    runeChunks (String.utf8EncodeChar c ++ s) = String.utf8EncodeChar c :: runeChunks s := by
  obtain ⟨b, r, h1, h2⟩ := encode_head c
  rw [h1, List.cons_append, runeChunks, h2]
  have e1 : (b :: (r ++ s)).take (r.length + 1) = b :: r := by simp
  have e2 : (r ++ s).drop (r.length + 1 - 1) = s := by simp
  rw [e1, e2]

theorem chunks_encode (cs : List Char) : runeChunks (encode cs) = cs.map String.utf8EncodeChar := by
  induction cs with
  | nil => rw [show encode [] = [] from rfl, runeChunks]; rfl
  | cons c cs ih => rw [encode_cons, chunks_char, ih, List.map_cons]

theorem chunks_flatten (s : Bytes) : (runeChunks s).flatten = s := by
  fun_induction runeChunks s
  case case1 => rfl
  case case2 b rest ih =>
    rw [List.flatten_cons, ih]
    have := runeLen_pos b
    obtain ⟨k, hk⟩ : ∃ k, runeLen b = k + 1 := ⟨runeLen b - 1, by omega⟩
    rw [hk]
    simp

theorem chunks_length (s : Bytes) : (runeChunks s).length = runeLength s := by
  fun_induction runeChunks s
  case case1 => rw [runeLength]; rfl
  case case2 b rest ih => rw [runeLength, List.length_cons, ih, Nat.add_comm]

theorem chunks_size (s : Bytes) : ∀ c ∈ runeChunks s, c ≠ [] ∧ c.length ≤ 6 := by
  fun_induction runeChunks s
  case case1 => simp
  case case2 b rest ih =>
    intro c hc
    rcases List.mem_cons.1 hc with rfl | h
    · have := runeLen_pos b
      have h6 : runeLen b ≤ 6 := by
        unfold runeLen
        repeat' split
        all_goals omega
      constructor
      · obtain ⟨k, hk⟩ : ∃ k, runeLen b = k + 1 := ⟨runeLen b - 1, by omega⟩
        rw [hk]; simp
      · rw [List.length_take]; omega
    · exact ih c h

end Verif.Strs
