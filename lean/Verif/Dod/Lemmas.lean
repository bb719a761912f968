import Verif.Dod.Model

/-! # Bit arithmetic of ids as arithmetic on natural numbers -/

namespace Verif.Dod

theorem toNat_ofNat_of_lt {w n : Nat} (h : n < 2 ^ w) : (BitVec.ofNat w n).toNat = n := by
  simp [BitVec.toNat_ofNat, Nat.mod_eq_of_lt h]

theorem low_bits {w off : Nat} (hoff : off ≤ w) (v : BitVec w) :
    v &&& ~~~(BitVec.allOnes w <<< off) = BitVec.ofNat w (v.toNat % 2 ^ off) := by
  apply BitVec.eq_of_getLsbD_eq
  intro i hi
  simp only [BitVec.getLsbD_and, BitVec.getLsbD_not, BitVec.getLsbD_shiftLeft,
    BitVec.getLsbD_allOnes, BitVec.getLsbD_ofNat, Nat.testBit_mod_two_pow, hi, decide_true,
    Bool.true_and]
  rw [BitVec.getLsbD, Bool.and_comm]
  congr 1
  have : i - off < w := by omega
  simp [this]

theorem high_bits {w off : Nat} (v : BitVec w) :
    v &&& (BitVec.allOnes w <<< off) = BitVec.ofNat w (v.toNat / 2 ^ off * 2 ^ off) := by
  apply BitVec.eq_of_getLsbD_eq
  intro i hi
  simp only [BitVec.getLsbD_and, BitVec.getLsbD_shiftLeft,
    BitVec.getLsbD_allOnes, BitVec.getLsbD_ofNat, hi, decide_true,
    Bool.true_and, Nat.testBit_mul_two_pow, Nat.testBit_div_two_pow]
  rw [BitVec.getLsbD, Bool.and_comm]
  have : i - off < w := by omega
  by_cases h : off ≤ i
  · simp [this, h, Nat.not_lt.mpr h]
  · simp [h, Nat.lt_of_not_le h]

theorem mask_bits {w off : Nat} (v : BitVec w) :
    (v &&& (BitVec.allOnes w <<< off)) >>> off = BitVec.ofNat w (v.toNat / 2 ^ off) := by
  apply BitVec.eq_of_toNat_eq
  have h1 : v.toNat / 2 ^ off * 2 ^ off < 2 ^ w :=
    Nat.lt_of_le_of_lt (Nat.div_mul_le_self _ _) v.isLt
  have h2 : v.toNat / 2 ^ off < 2 ^ w := Nat.lt_of_le_of_lt (Nat.div_le_self _ _) v.isLt
  rw [BitVec.toNat_ushiftRight, high_bits, toNat_ofNat_of_lt h1, toNat_ofNat_of_lt h2,
    Nat.shiftRight_eq_div_pow, Nat.mul_div_cancel _ (Nat.two_pow_pos off)]

/-- Disjoint parts: low bits and shifted mask. -/
theorem or_toNat {w off a : Nat} {u : BitVec w} (hu : u.toNat < 2 ^ off) {s : BitVec w}
    (hs : s.toNat = a * 2 ^ off) : (u ||| s).toNat = u.toNat + a * 2 ^ off := by
  rw [BitVec.toNat_or, hs, Nat.or_comm, ← Nat.shiftLeft_eq, ← Nat.shiftLeft_add_eq_or_of_lt hu,
    Nat.add_comm]

theorem highBits_ok {w m : Nat} (h0 : 0 < m) (hm : m ≤ w) :
    highBits w m = .ok (BitVec.allOnes w <<< (w - m)) := by
  unfold highBits maskOffset
  rw [if_pos (by omega)]

theorem getUnmasked_eq {w m : Nat} (hm : m ≤ w) (v : BitVec w) :
    getUnmasked m v = .ok (BitVec.ofNat w (v.toNat % 2 ^ (w - m))) := by
  unfold getUnmasked
  split
  · rename_i h
    subst h
    congr 1
    apply BitVec.eq_of_toNat_eq
    simp [Nat.mod_eq_of_lt v.isLt]
  · rename_i h
    rw [highBits_ok (by omega) hm]
    simp only [bind, Except.bind]
    rw [low_bits (by omega)]

theorem getMask_eq {w m : Nat} (h0 : 0 < m) (hm : m ≤ w) (v : BitVec w) :
    getMask m v = .ok (BitVec.ofNat w (v.toNat / 2 ^ (w - m))) := by
  unfold getMask
  rw [highBits_ok h0 hm]
  simp only [bind, Except.bind, maskOffset, mask_bits]

theorem getMaskUnshifted_eq {w m : Nat} (h0 : 0 < m) (hm : m ≤ w) (v : BitVec w) :
    getMaskUnshifted m v =
      .ok (BitVec.ofNat w (v.toNat / 2 ^ (w - m) * 2 ^ (w - m))) := by
  unfold getMaskUnshifted
  rw [highBits_ok h0 hm]
  simp only [bind, Except.bind, high_bits]

theorem two_pow_split {w m : Nat} (hm : m ≤ w) : 2 ^ w = 2 ^ m * 2 ^ (w - m) := by
  rw [← Nat.pow_add, Nat.add_sub_cancel' hm]

theorem mod_lt_width {w m n : Nat} : n % 2 ^ (w - m) < 2 ^ w :=
  Nat.lt_of_lt_of_le (Nat.mod_lt _ (Nat.two_pow_pos _)) (Nat.pow_le_pow_right (by omega) (by omega))

/-- `setMask` puts the mask above the unmasked part. -/
theorem setMask_eq {w m : Nat} (h0 : 0 < m) (hm : m ≤ w) (h64 : m < 64) (v : BitVec w) (mask : Nat)
    (hmask : mask < 2 ^ m) :
    setMask m v (BitVec.ofNat w mask) =
      .ok (BitVec.ofNat w (mask * 2 ^ (w - m) + v.toNat % 2 ^ (w - m))) := by
  have hsplit := two_pow_split hm
  have hp := Nat.two_pow_pos (w - m)
  have hmw : mask < 2 ^ w := Nat.lt_of_lt_of_le hmask (Nat.pow_le_pow_right (by omega) hm)
  unfold setMask maskOffset
  rw [if_neg (by omega), toNat_ofNat_of_lt hmw, if_neg (by omega), if_pos (by omega),
    getUnmasked_eq hm]
  simp only [bind, Except.bind]
  congr 1
  apply BitVec.eq_of_toNat_eq
  have hlow : (BitVec.ofNat w (v.toNat % 2 ^ (w - m))).toNat = v.toNat % 2 ^ (w - m) :=
    toNat_ofNat_of_lt mod_lt_width
  have hprod : mask * 2 ^ (w - m) + 2 ^ (w - m) ≤ 2 ^ w := by
    rw [hsplit, ← Nat.succ_mul]; exact Nat.mul_le_mul_right _ hmask
  have hmod := Nat.mod_lt v.toNat hp
  have hsh : (BitVec.ofNat w mask <<< (w - m)).toNat = mask * 2 ^ (w - m) := by
    rw [BitVec.toNat_shiftLeft, toNat_ofNat_of_lt hmw, Nat.shiftLeft_eq, Nat.mod_eq_of_lt (by omega)]
  rw [or_toNat (by rw [hlow]; exact hmod) hsh, hlow, toNat_ofNat_of_lt (by omega), Nat.add_comm]

theorem div_mod_parts {a b p : Nat} (hb : b < p) :
    (a * p + b) % p = b ∧ (a * p + b) / p = a := by
  constructor
  · rw [Nat.mul_comm, Nat.mul_add_mod, Nat.mod_eq_of_lt hb]
  · rw [Nat.mul_comm, Nat.mul_add_div (by omega), Nat.div_eq_of_lt hb, Nat.add_zero]

theorem fromIndex_toNat {w i : Nat} (h : i + 1 < 2 ^ w) :
    (fromIndex (BitVec.ofNat w i)).toNat = i + 1 := by
  have h1 : 1 < 2 ^ w := by omega
  simp [fromIndex, BitVec.toNat_add, Nat.mod_eq_of_lt, h, h1]

/-- Ids as packed numbers: mask and index plus one. -/
theorem fromMaskedIdx_eq {w m : Nat} (h0 : 0 < m) (hm : m ≤ w) (h64 : m < 64) {i mask : Nat}
    (hi : i + 1 < 2 ^ (w - m)) (hmask : mask < 2 ^ m) :
    fromMaskedIdx m (BitVec.ofNat w i) (BitVec.ofNat w mask) =
      .ok (BitVec.ofNat w (mask * 2 ^ (w - m) + (i + 1))) := by
  have hle : 2 ^ (w - m) ≤ 2 ^ w := Nat.pow_le_pow_right (by omega) (by omega)
  unfold fromMaskedIdx
  rw [setMask_eq h0 hm h64 _ _ hmask, fromIndex_toNat (by omega), Nat.mod_eq_of_lt hi]

theorem packed_lt {w m mask u : Nat} (hm : m ≤ w) (hmask : mask < 2 ^ m) (hu : u < 2 ^ (w - m)) :
    mask * 2 ^ (w - m) + u < 2 ^ w := by
  rw [two_pow_split hm]
  have := Nat.mul_le_mul_right (2 ^ (w - m)) (Nat.succ_le_of_lt hmask)
  rw [Nat.succ_mul] at this
  omega

/-- Unmasked part of a packed number. -/
theorem getUnmasked_packed {w m mask u : Nat} (hm : m ≤ w) (hmask : mask < 2 ^ m)
    (hu : u < 2 ^ (w - m)) :
    getUnmasked m (BitVec.ofNat w (mask * 2 ^ (w - m) + u)) = .ok (BitVec.ofNat w u) := by
  rw [getUnmasked_eq hm, toNat_ofNat_of_lt (packed_lt hm hmask hu), (div_mod_parts hu).1]

theorem getMask_packed {w m mask u : Nat} (h0 : 0 < m) (hm : m ≤ w) (hmask : mask < 2 ^ m)
    (hu : u < 2 ^ (w - m)) :
    getMask m (BitVec.ofNat w (mask * 2 ^ (w - m) + u)) = .ok (BitVec.ofNat w mask) := by
  rw [getMask_eq h0 hm, toNat_ofNat_of_lt (packed_lt hm hmask hu), (div_mod_parts hu).2]

theorem lt_width {w m u : Nat} (hu : u < 2 ^ (w - m)) : u < 2 ^ w :=
  Nat.lt_of_lt_of_le hu (Nat.pow_le_pow_right (by omega) (by omega))

theorem ofNat_eq_zero {w u : Nat} (hu : u < 2 ^ w) : BitVec.ofNat w u = 0#w ↔ u = 0 := by
  constructor
  · intro h
    have := congrArg BitVec.toNat h
    rw [toNat_ofNat_of_lt hu] at this
    simpa using this
  · rintro rfl; rfl

theorem isNil_packed {w m mask u : Nat} (hm : m ≤ w) (hmask : mask < 2 ^ m)
    (hu : u < 2 ^ (w - m)) :
    isNil m (BitVec.ofNat w (mask * 2 ^ (w - m) + u)) = .ok (decide (u = 0)) := by
  unfold isNil
  rw [getUnmasked_packed hm hmask hu]
  simp only [bind, Except.bind]
  simp only [ofNat_eq_zero (lt_width hu)]

theorem getIndex_packed {w m mask i : Nat} (hm : m ≤ w) (hmask : mask < 2 ^ m)
    (hu : i + 1 < 2 ^ (w - m)) :
    getIndex m (BitVec.ofNat w (mask * 2 ^ (w - m) + (i + 1))) = .ok (BitVec.ofNat w i) := by
  unfold getIndex
  rw [getUnmasked_packed hm hmask hu]
  have hw := lt_width hu
  simp only [bind, Except.bind]
  rw [if_neg (by rw [ofNat_eq_zero hw]; omega)]
  congr 1
  apply BitVec.eq_of_toNat_eq
  rw [BitVec.toNat_sub, toNat_ofNat_of_lt hw, toNat_ofNat_of_lt (by omega : i < 2 ^ w),
    toNat_ofNat_of_lt (by omega : 1 < 2 ^ w)]
  rw [show 2 ^ w - 1 + (i + 1) = i + 2 ^ w by omega, Nat.add_mod_right, Nat.mod_eq_of_lt (by omega)]

/-- Equality of packed numbers. -/
theorem packed_inj {w m a b u v : Nat} (hm : m ≤ w) (ha : a < 2 ^ m) (hb : b < 2 ^ m)
    (hu : u < 2 ^ (w - m)) (hv : v < 2 ^ (w - m)) :
    BitVec.ofNat w (a * 2 ^ (w - m) + u) = BitVec.ofNat w (b * 2 ^ (w - m) + v) ↔
      a = b ∧ u = v := by
  constructor
  · intro h
    have := congrArg BitVec.toNat h
    rw [toNat_ofNat_of_lt (packed_lt hm ha hu), toNat_ofNat_of_lt (packed_lt hm hb hv)] at this
    constructor
    · rw [← (div_mod_parts (a := a) hu).2, this, (div_mod_parts hv).2]
    · rw [← (div_mod_parts (a := a) hu).1, this, (div_mod_parts hv).1]
  · rintro ⟨rfl, rfl⟩; rfl

/-! ## Saturating arithmetic -/

theorem satAdd_toNat {w : Nat} (v : BitVec w) {c : Nat} (hc : c < 2 ^ w) :
    (satAdd v (c : Int)).toNat = min (v.toNat + c) (2 ^ w - 1) := by
  have hv := v.isLt
  unfold satAdd
  have hof : BitVec.ofInt w (c : Int) = BitVec.ofNat w c := by
    simp [BitVec.ofInt_natCast]
  rw [hof]
  have hres : (v + BitVec.ofNat w c).toNat = (v.toNat + c) % 2 ^ w := by
    rw [BitVec.toNat_add, toNat_ofNat_of_lt hc]
  dsimp only
  by_cases hlt : v.toNat + c < 2 ^ w
  · rw [if_neg]
    · rw [hres, Nat.mod_eq_of_lt hlt]; omega
    · rw [BitVec.lt_def, hres, Nat.mod_eq_of_lt hlt]; omega
  · have hm : (v.toNat + c) % 2 ^ w = v.toNat + c - 2 ^ w := by
      rw [Nat.mod_eq_sub_mod (by omega), Nat.mod_eq_of_lt (by omega)]
    rw [if_pos]
    · rw [BitVec.toNat_allOnes]; omega
    · rw [BitVec.lt_def, hres, hm]; omega

theorem satSub_toNat {w : Nat} (v : BitVec w) {c : Nat} (hc : c < 2 ^ w) :
    (satSub v (c : Int)).toNat = v.toNat - c := by
  have hv := v.isLt
  unfold satSub
  have hof : BitVec.ofInt w (c : Int) = BitVec.ofNat w c := by
    simp [BitVec.ofInt_natCast]
  rw [hof]
  have hres : (v - BitVec.ofNat w c).toNat = (2 ^ w - c + v.toNat) % 2 ^ w := by
    rw [BitVec.toNat_sub, toNat_ofNat_of_lt hc]
  dsimp only
  by_cases hle : c ≤ v.toNat
  · have hm : (2 ^ w - c + v.toNat) % 2 ^ w = v.toNat - c := by
      rw [show 2 ^ w - c + v.toNat = (v.toNat - c) + 2 ^ w by omega, Nat.add_mod_right,
        Nat.mod_eq_of_lt (by omega)]
    rw [if_neg]
    · rw [hres, hm]
    · rw [BitVec.lt_def, hres, hm]; omega
  · have hm : (2 ^ w - c + v.toNat) % 2 ^ w = 2 ^ w - c + v.toNat := Nat.mod_eq_of_lt (by omega)
    rw [if_pos]
    · simp; omega
    · rw [BitVec.lt_def, hres, hm]; omega

end Verif.Dod
