import Verif.Dod.Lemmas

/-!
# Ids, saturating arithmetic and immutable node ids (C04, C33, C35, C45)
-/

namespace Verif.Dod

instance {α : Type} [DecidableEq α] : DecidableEq (Except Err α)
  | .ok a, .ok b => if h : a = b then isTrue (h ▸ rfl) else isFalse (fun h' => h (by cases h'; rfl))
  | .error a, .error b =>
    if h : a = b then isTrue (h ▸ rfl) else isFalse (fun h' => h (by cases h'; rfl))
  | .ok _, .error _ => isFalse (fun h => by cases h)
  | .error _, .ok _ => isFalse (fun h => by cases h)

/-! ## C04 -/

/-- Full statement of C04 (round trip part): an id built from an index and a mask that
fit gives them back and is not nil. -/
def IdRoundTripStatement : Prop :=
  ∀ (w m i mask : Nat), 32 ≤ w → w ≤ 64 → m ≤ w → i + 1 < 2 ^ (w - m) → mask < 2 ^ m →
    ∃ id : BitVec w, fromMaskedIdx m (BitVec.ofNat w i) (BitVec.ofNat w mask) = .ok id ∧
      getIndex m id = .ok (BitVec.ofNat w i) ∧ getMask m id = .ok (BitVec.ofNat w mask) ∧
      isNil m id = .ok false

/-- **C04 is false** for id types without mask bits: building an id from an index and
the empty mask fails an assertion and reading the mask is an undefined shift. -/
theorem id_roundTrip_false : ¬ IdRoundTripStatement := by
  intro h
  obtain ⟨id, h1, -⟩ := h 64 0 0 0 (by decide) (by decide) (by decide) (by decide) (by decide)
  have : fromMaskedIdx 0 (BitVec.ofNat 64 0) (BitVec.ofNat 64 0) = .error .assertion := by
    decide +kernel
  rw [this] at h1
  cases h1

/-- Reading the mask of any id without mask bits is undefined behaviour. -/
theorem getMask_unmasked_ub {w : Nat} (id : BitVec w) : getMask 0 id = .error .ub := by
  simp [getMask, highBits, maskOffset, bind, Except.bind]

/-- **C04, partial.** Round trip for id types with at least one mask bit.  Missing: id
types without mask bits, for which it is false. -/
theorem id_roundTrip_partial (w m i mask : Nat) (h0 : 0 < m) (h64 : m < 64) (hm : m ≤ w)
    (hi : i + 1 < 2 ^ (w - m)) (hmask : mask < 2 ^ m) :
    ∃ id : BitVec w, fromMaskedIdx m (BitVec.ofNat w i) (BitVec.ofNat w mask) = .ok id ∧
      getIndex m id = .ok (BitVec.ofNat w i) ∧ getMask m id = .ok (BitVec.ofNat w mask) ∧
      isNil m id = .ok false := by
  refine ⟨_, fromMaskedIdx_eq h0 hm h64 hi hmask, getIndex_packed hm hmask hi,
    getMask_packed h0 hm hmask hi, ?_⟩
  rw [isNil_packed hm hmask hi]
  simp

/-- **C04, equality.** Two ids built from indices and masks that fit are equal exactly
when both agree. -/
theorem id_eq_iff (w m i j a b : Nat) (h0 : 0 < m) (h64 : m < 64) (hm : m ≤ w)
    (hi : i + 1 < 2 ^ (w - m)) (hj : j + 1 < 2 ^ (w - m)) (ha : a < 2 ^ m) (hb : b < 2 ^ m)
    (x y : BitVec w)
    (hx : fromMaskedIdx m (BitVec.ofNat w i) (BitVec.ofNat w a) = .ok x)
    (hy : fromMaskedIdx m (BitVec.ofNat w j) (BitVec.ofNat w b) = .ok y) :
    x = y ↔ i = j ∧ a = b := by
  rw [fromMaskedIdx_eq h0 hm h64 hi ha] at hx
  rw [fromMaskedIdx_eq h0 hm h64 hj hb] at hy
  injection hx with hx
  injection hy with hy
  rw [← hx, ← hy, packed_inj hm ha hb hi hj]
  omega

/-- **C04, rejection.** A mask that does not fit is rejected with an exception, whatever
the id. -/
theorem id_mask_rejected (w m : Nat) (h64 : m < 64) (id mask : BitVec w)
    (h : 2 ^ m ≤ mask.toNat) : fromMaskedIdx m id mask = .error .logic := by
  unfold fromMaskedIdx setMask
  rw [if_neg (by omega), if_pos h]

/-- Instance: 16 mask bits in 64 (vertex ids), largest mask, largest index. -/
example : fromMaskedIdx 16 (BitVec.ofNat 64 (2 ^ 48 - 2)) (BitVec.ofNat 64 (2 ^ 16 - 1))
      = .ok (0xFFFFFFFFFFFFFFFF#64) ∧
    getIndex 16 (0xFFFFFFFFFFFFFFFF#64) = .ok (BitVec.ofNat 64 (2 ^ 48 - 2)) ∧
    getMask 16 (0xFFFFFFFFFFFFFFFF#64) = .ok (0xFFFF#64) ∧
    fromMaskedIdx 16 (0#64) (0x10000#64) = .error .logic := by decide +kernel

/-- **C04, order.** `<` on ids compares the indices and ignores the masks. -/
theorem id_less_iff (w m i j a b : Nat) (h0 : 0 < m) (h64 : m < 64) (hm : m ≤ w)
    (hi : i + 1 < 2 ^ (w - m)) (hj : j + 1 < 2 ^ (w - m)) (ha : a < 2 ^ m) (hb : b < 2 ^ m)
    (x y : BitVec w)
    (hx : fromMaskedIdx m (BitVec.ofNat w i) (BitVec.ofNat w a) = .ok x)
    (hy : fromMaskedIdx m (BitVec.ofNat w j) (BitVec.ofNat w b) = .ok y) :
    idLess m x y = .ok (decide (i < j)) := by
  rw [fromMaskedIdx_eq h0 hm h64 hi ha] at hx
  rw [fromMaskedIdx_eq h0 hm h64 hj hb] at hy
  injection hx with hx
  injection hy with hy
  subst hx hy
  unfold idLess
  rw [getUnmasked_packed hm ha hi, getUnmasked_packed hm hb hj]
  simp only [bind, Except.bind, BitVec.lt_def, toNat_ofNat_of_lt (lt_width hi),
    toNat_ofNat_of_lt (lt_width hj)]
  congr 1
  simp

/-! ## C35 -/

/-- Nearest number representable in `w` bits. -/
def clamp (w : Nat) (x : Int) : Int := max 0 (min x (2 ^ w - 1))

/-- Full statement of C35 for unsigned types: the second argument may be any number. -/
def SaturatingStatement : Prop :=
  ∀ (w : Nat) (v : BitVec w) (c : Int), 32 ≤ w →
    ((satAdd v c).toNat : Int) = clamp w (v.toNat + c) ∧
    ((satSub v c).toNat : Int) = clamp w (v.toNat - c)

/-- **C35 is false**: adding a negative number to an unsigned one gives the largest
value instead of the (representable) sum; adding a number wider than the type wraps. -/
theorem saturating_false :
    ¬ SaturatingStatement ∧ satAdd (5#32) (-1) = BitVec.allOnes 32 ∧
    satAdd (5#32) (2 ^ 32) = 5#32 ∧
    -- signed: overflow is undefined before it can be detected
    satAddSigned 32 (2 ^ 31 - 1) 1 = .error .ub := by
  refine ⟨fun h => ?_, by decide +kernel, by decide +kernel, by decide +kernel⟩
  have := (h 32 (5#32) (-1) (by decide)).1
  revert this
  decide +kernel

/-- **C35, partial.** For a non-negative second argument representable in the first
one's unsigned type the result is the exact one or the nearest bound.  Missing:
negative or wider second arguments and signed types, for which it is false. -/
theorem saturating_partial (w : Nat) (v : BitVec w) (c : Int) (h0 : 0 ≤ c) (hc : c < 2 ^ w) :
    ((satAdd v c).toNat : Int) = clamp w (v.toNat + c) ∧
    ((satSub v c).toNat : Int) = clamp w (v.toNat - c) := by
  obtain ⟨n, rfl⟩ := Int.eq_ofNat_of_zero_le h0
  have hn : n < 2 ^ w := by exact_mod_cast hc
  have hv := v.isLt
  rw [satAdd_toNat v hn, satSub_toNat v hn]
  unfold clamp
  have hp : ((2 : Int) ^ w) = ((2 ^ w : Nat) : Int) := by simp
  rw [hp]
  constructor <;> omega

/-- `saturating_add_any` with an `int` is right for every `int` but the least one. -/
theorem saturating_any (w : Nat) (hw : 32 ≤ w) (v : BitVec w) (c : Int)
    (h1 : -(2 ^ 31) < c) (h2 : c < 2 ^ 31) :
    ∃ r : BitVec w, satAddAny v c = .ok r ∧ (r.toNat : Int) = clamp w (v.toNat + c) := by
  have hp : (2 : Nat) ^ 32 ≤ 2 ^ w := Nat.pow_le_pow_right (by omega) hw
  have hpz : (2 : Int) ^ 32 ≤ 2 ^ w := by exact_mod_cast hp
  unfold satAddAny
  by_cases h0 : 0 ≤ c
  · rw [if_pos h0]
    exact ⟨_, rfl, (saturating_partial w v c h0 (by omega)).1⟩
  · rw [if_neg h0, if_neg (by omega)]
    refine ⟨_, rfl, ?_⟩
    rw [(saturating_partial w v (-c) (by omega) (by omega)).2]
    congr 1
    omega

example : (satAdd (7#32) 3 = 10#32) ∧ satSub (2#32) 3 = 0#32 ∧
    satAddAny (0xFFFFFFFE#32) 7 = .ok (BitVec.allOnes 32) ∧
    satAddAny (4#32) (-3) = .ok 1#32 := by decide +kernel

/-! ## C45: arithmetic on ids -/

/-- Full statement of C45: adding to an id moves its index, stops at the bounds of the
index part and keeps the mask. -/
def IdArithStatement : Prop :=
  ∀ (w m i mask : Nat) (k : Int), 32 ≤ w → w ≤ 64 → m ≤ w → i + 1 < 2 ^ (w - m) → mask < 2 ^ m →
    -(2 ^ 31) < k → k < 2 ^ 31 →
    idAdd m (BitVec.ofNat w (mask * 2 ^ (w - m) + (i + 1))) k =
      .ok (BitVec.ofNat w (mask * 2 ^ (w - m) + (clamp (w - m) (i + 1 + k)).toNat))

/-- **C45 is false**: an id without mask bits is shifted by its full width (undefined);
incrementing the last id of a masked type changes the mask; replacing the index part
moves the mask into it. -/
theorem id_arith_false :
    ¬ IdArithStatement ∧
    idAdd 0 (1#64) 1 = .error .ub ∧
    idSucc 16 (0x0000FFFFFFFFFFFF#64) = .ok (0x0001000000000000#64) ∧
    setUnmasked 16 (0x0002000000000001#64) (5#64) = .ok (7#64) := by
  refine ⟨fun h => ?_, by decide +kernel, by decide +kernel, by decide +kernel⟩
  have h1 := h 64 0 0 0 1 (by decide) (by decide) (by decide) (by decide) (by decide) (by decide)
    (by decide)
  revert h1
  decide +kernel

theorem or_packed {w m mask u : Nat} (hm : m ≤ w) (hmask : mask < 2 ^ m) (hu : u < 2 ^ (w - m)) :
    BitVec.ofNat w (mask * 2 ^ (w - m)) ||| BitVec.ofNat w u
      = BitVec.ofNat w (mask * 2 ^ (w - m) + u) := by
  apply BitVec.eq_of_toNat_eq
  have h1 := packed_lt hm hmask hu
  have hlow : (BitVec.ofNat w u).toNat = u := toNat_ofNat_of_lt (lt_width hu)
  rw [BitVec.or_comm, or_toNat (by rw [hlow]; exact hu) (toNat_ofNat_of_lt (by omega)), hlow,
    toNat_ofNat_of_lt h1, Nat.add_comm]

/-- **C45, partial.** For masked id types, as long as the sum stays below the capacity
of the index part, adding moves the index (stopping at nil below) and keeps the mask.
Missing: unmasked types and sums past the capacity, for which it is false. -/
theorem id_arith_partial (w m i mask : Nat) (k : Int) (hw : 32 ≤ w) (h0 : 0 < m) (hm : m ≤ w)
    (hi : i + 1 < 2 ^ (w - m)) (hmask : mask < 2 ^ m) (h1 : -(2 ^ 31) < k) (h2 : k < 2 ^ 31)
    (hcap : (i : Int) + 1 + k < 2 ^ (w - m)) :
    idAdd m (BitVec.ofNat w (mask * 2 ^ (w - m) + (i + 1))) k =
      .ok (BitVec.ofNat w (mask * 2 ^ (w - m) + (clamp (w - m) (i + 1 + k)).toNat)) := by
  have hle : 2 ^ (w - m) ≤ 2 ^ w := Nat.pow_le_pow_right (by omega) (by omega)
  have hcast : ((2 : Int) ^ (w - m)) = ((2 ^ (w - m) : Nat) : Int) := by simp
  have hcastw : ((2 : Int) ^ w) = ((2 ^ w : Nat) : Int) := by simp
  unfold idAdd
  rw [getMaskUnshifted_eq h0 hm, getUnmasked_packed hm hmask hi,
    toNat_ofNat_of_lt (packed_lt hm hmask hi), (div_mod_parts hi).2]
  obtain ⟨r, hr, hrn⟩ := saturating_any w hw (BitVec.ofNat w (i + 1)) k h1 h2
  rw [toNat_ofNat_of_lt (lt_width hi)] at hrn
  simp only [bind, Except.bind, hr]
  congr 1
  have hval : clamp (w - m) (i + 1 + k) = clamp w (((i + 1 : Nat) : Int) + k) := by
    unfold clamp
    rw [hcast, hcastw]
    rw [hcast] at hcap
    omega
  have hr' : r = BitVec.ofNat w (clamp (w - m) (i + 1 + k)).toNat := by
    apply BitVec.eq_of_toNat_eq
    rw [hval, ← hrn, Int.toNat_natCast, toNat_ofNat_of_lt r.isLt]
  rw [hr']
  apply or_packed hm hmask
  unfold clamp
  rw [hcast] at hcap ⊢
  omega

/-- **C45, steps, partial.** `++` moves to the next index while there is one, `--` to the
previous one (from the first index to nil), both keeping the mask; the distance of two
ids is the difference of their indices, or zero.  Missing: the last id, see `id_arith_false`. -/
theorem id_step_partial (w m i j a b : Nat) (h0 : 0 < m) (hm : m ≤ w) (hmw : m < w)
    (hi : i + 1 < 2 ^ (w - m)) (hj : j + 1 < 2 ^ (w - m)) (ha : a < 2 ^ m) (hb : b < 2 ^ m) :
    (i + 2 < 2 ^ (w - m) → idSucc m (BitVec.ofNat w (a * 2 ^ (w - m) + (i + 1))) =
      .ok (BitVec.ofNat w (a * 2 ^ (w - m) + (i + 2)))) ∧
    idPred m (BitVec.ofNat w (a * 2 ^ (w - m) + (i + 1))) =
      .ok (BitVec.ofNat w (a * 2 ^ (w - m) + i)) ∧
    idDistance m (BitVec.ofNat w (a * 2 ^ (w - m) + (i + 1)))
      (BitVec.ofNat w (b * 2 ^ (w - m) + (j + 1))) = .ok (BitVec.ofNat w (j - i)) := by
  have hw1 : 1 < 2 ^ w := Nat.one_lt_two_pow (by omega)
  refine ⟨fun hc => ?_, ?_, ?_⟩
  · unfold idSucc
    rw [getMaskUnshifted_eq h0 hm, getUnmasked_packed hm ha hi,
      toNat_ofNat_of_lt (packed_lt hm ha hi), (div_mod_parts hi).2]
    simp only [bind, Except.bind]
    refine congrArg _ ?_
    have : satAdd (BitVec.ofNat w (i + 1)) 1 = BitVec.ofNat w (i + 2) := by
      apply BitVec.eq_of_toNat_eq
      have h := satAdd_toNat (BitVec.ofNat w (i + 1)) hw1
      have hl := lt_width hc
      rw [toNat_ofNat_of_lt (lt_width hi)] at h
      rw [toNat_ofNat_of_lt hl]
      have e : ((1 : Nat) : Int) = 1 := rfl
      rw [e] at h
      rw [h]
      omega
    rw [this]
    exact or_packed hm ha hc
  · unfold idPred
    rw [getMaskUnshifted_eq h0 hm, getUnmasked_packed hm ha hi,
      toNat_ofNat_of_lt (packed_lt hm ha hi), (div_mod_parts hi).2]
    simp only [bind, Except.bind]
    refine congrArg _ ?_
    have : satSub (BitVec.ofNat w (i + 1)) 1 = BitVec.ofNat w i := by
      apply BitVec.eq_of_toNat_eq
      have h := satSub_toNat (BitVec.ofNat w (i + 1)) hw1
      have hl := lt_width hi
      rw [toNat_ofNat_of_lt hl] at h
      rw [toNat_ofNat_of_lt (by omega : i < 2 ^ w)]
      have e : ((1 : Nat) : Int) = 1 := rfl
      rw [e] at h
      rw [h]
      omega
    rw [this]
    exact or_packed hm ha (by omega)
  · unfold idDistance
    rw [getUnmasked_packed hm ha hi, getUnmasked_packed hm hb hj]
    simp only [bind, Except.bind]
    refine congrArg _ ?_
    have hi' := lt_width hi
    have hj' := lt_width hj
    apply BitVec.eq_of_toNat_eq
    rw [toNat_ofNat_of_lt (by omega : j - i < 2 ^ w)]
    have hsub : (BitVec.ofNat w (j + 1) - BitVec.ofNat w (i + 1)).toNat
        = (2 ^ w - (i + 1) + (j + 1)) % 2 ^ w := by
      rw [BitVec.toNat_sub, toNat_ofNat_of_lt hi', toNat_ofNat_of_lt hj']
    by_cases hle : i ≤ j
    · have e : (2 ^ w - (i + 1) + (j + 1)) % 2 ^ w = j - i := by
        rw [show 2 ^ w - (i + 1) + (j + 1) = (j - i) + 2 ^ w by omega, Nat.add_mod_right,
          Nat.mod_eq_of_lt (by omega)]
      rw [if_neg (by rw [BitVec.lt_def, hsub, e, toNat_ofNat_of_lt hj']; omega), hsub, e]
    · have e : (2 ^ w - (i + 1) + (j + 1)) % 2 ^ w = 2 ^ w - (i + 1) + (j + 1) :=
        Nat.mod_eq_of_lt (by omega)
      rw [if_pos (by rw [BitVec.lt_def, hsub, e, toNat_ofNat_of_lt hj']; omega)]
      simp only [BitVec.toNat_ofNat, Nat.zero_mod]
      omega

example : idAdd 16 (BitVec.ofNat 64 (7 * 2 ^ 48 + 5)) (-3) = .ok (BitVec.ofNat 64 (7 * 2 ^ 48 + 2))
    ∧ idAdd 16 (BitVec.ofNat 64 (7 * 2 ^ 48 + 5)) (-30) = .ok (BitVec.ofNat 64 (7 * 2 ^ 48)) := by
  decide +kernel

/-! ## C33 -/

namespace ImmId

theorem kindBits (v : BitVec 64) :
    (v &&& nodeKindMask) >>> 40 = BitVec.ofNat 64 (v.toNat / 2 ^ 40 % 2 ^ 12) := by
  apply BitVec.eq_of_toNat_eq
  rw [BitVec.ushiftRight_and_distrib]
  have hmask : nodeKindMask >>> 40 = BitVec.ofNat 64 (2 ^ 12 - 1) := by decide +kernel
  have h12 : v.toNat / 2 ^ 40 % 2 ^ 12 < 2 ^ 64 :=
    Nat.lt_of_lt_of_le (Nat.mod_lt _ (Nat.two_pow_pos 12)) (by decide)
  rw [hmask, BitVec.toNat_and, toNat_ofNat_of_lt h12, toNat_ofNat_of_lt (by decide),
    BitVec.toNat_ushiftRight, Nat.shiftRight_eq_div_pow, Nat.and_two_pow_sub_one_eq_mod]

theorem idxBits (v : BitVec 64) : v &&& nodeIdxMask = BitVec.ofNat 64 (v.toNat % 2 ^ 40) := by
  apply BitVec.eq_of_toNat_eq
  have h40 : v.toNat % 2 ^ 40 < 2 ^ 64 :=
    Nat.lt_of_lt_of_le (Nat.mod_lt _ (Nat.two_pow_pos 40)) (by decide)
  have : nodeIdxMask = BitVec.ofNat 64 (2 ^ 40 - 1) := by decide +kernel
  rw [this, BitVec.toNat_and, toNat_ofNat_of_lt h40, toNat_ofNat_of_lt (by decide),
    Nat.and_two_pow_sub_one_eq_mod]

/-- Kind field of a packed value. -/
theorem getKind_packed {k u : Nat} (hk : k < 2 ^ 12) (hu : u < 2 ^ 40) :
    getKind (BitVec.ofNat 64 (k * 2 ^ 40 + u)) = BitVec.ofNat 16 k := by
  have hlt : k * 2 ^ 40 + u < 2 ^ 64 := by omega
  unfold getKind
  rw [kindBits, toNat_ofNat_of_lt hlt, (div_mod_parts hu).2, Nat.mod_eq_of_lt hk]
  apply BitVec.eq_of_toNat_eq
  rw [BitVec.toNat_setWidth, toNat_ofNat_of_lt (by omega : k < 2 ^ 64), toNat_ofNat_of_lt (by omega),
    Nat.mod_eq_of_lt (by omega)]

theorem ok_bind {α β : Type} (a : α) (f : α → Except Err β) : (Except.ok a >>= f) = f a := rfl

theorem resBits {k : Nat} (hk : k < 2 ^ 12) :
    ((BitVec.ofNat 64 k <<< 40) &&& nodeKindMask) >>> 40 = BitVec.ofNat 64 k := by
  have h1 : (BitVec.ofNat 64 k <<< 40).toNat = k * 2 ^ 40 := by
    rw [BitVec.toNat_shiftLeft, toNat_ofNat_of_lt (by omega : k < 2 ^ 64), Nat.shiftLeft_eq,
      Nat.mod_eq_of_lt (by omega)]
  rw [kindBits, h1]
  exact congrArg (BitVec.ofNat 64) (by omega)

theorem maskedZero {k : Nat} (hk : k < 2 ^ 12) :
    fromMaskedIdx maskSize (0#64) (BitVec.ofNat 64 k) = .ok (BitVec.ofNat 64 (k * 2 ^ 40 + 1)) := by
  have := fromMaskedIdx_eq (w := 64) (m := 24) (i := 0) (mask := k) (by omega) (by omega)
    (by omega) (by omega) (by omega)
  rw [show (64 : Nat) - 24 = 40 from rfl] at this
  exact this

theorem signBits {k : Nat} (hk : k < 2 ^ 12) :
    (BitVec.ofNat 16 k).signExtend 64 = BitVec.ofNat 64 k := by
  have hk16 : (BitVec.ofNat 16 k).toNat = k := toNat_ofNat_of_lt (by omega)
  rw [BitVec.signExtend_eq_setWidth_of_msb_false]
  · apply BitVec.eq_of_toNat_eq
    rw [BitVec.toNat_setWidth, hk16, toNat_ofNat_of_lt (by omega), Nat.mod_eq_of_lt (by omega)]
  · rw [BitVec.msb_eq_false_iff_two_mul_lt, hk16]; omega

theorem combineMask_eq {k : Nat} (hk : k < 2 ^ 12) :
    combineMask (BitVec.ofNat 16 k) = .ok (BitVec.ofNat 64 k) := by
  unfold combineMask
  have hres := resBits hk
  have hid := maskedZero hk
  have hkind := getKind_packed (u := 1) hk (by omega)
  simp only [offset]
  rw [signBits hk, hres, hid, ok_bind]
  exact if_pos hkind

theorem make_eq {k n : Nat} (hk : k < 2 ^ 12) (hn : n < 2 ^ 32) :
    make (BitVec.ofNat 16 k) (BitVec.ofNat 32 n) = .ok (BitVec.ofNat 64 (k * 2 ^ 40 + (n + 1))) := by
  unfold make combineFullValue
  rw [combineMask_eq hk, ok_bind, ok_bind]
  refine congrArg Except.ok ?_
  have hidx : ((BitVec.ofNat 32 n).setWidth 64 <<< 0) &&& nodeIdxMask = BitVec.ofNat 64 n := by
    rw [idxBits]
    refine congrArg (BitVec.ofNat 64) ?_
    simp only [BitVec.toNat_shiftLeft, BitVec.toNat_setWidth, BitVec.toNat_ofNat]
    rw [Nat.mod_eq_of_lt hn, Nat.shiftLeft_zero]
    omega
  have hsh : BitVec.ofNat 64 k <<< offset = BitVec.ofNat 64 (k * 2 ^ 40) := by
    apply BitVec.eq_of_toNat_eq
    unfold offset
    rw [BitVec.toNat_shiftLeft, toNat_ofNat_of_lt (by omega : k < 2 ^ 64), Nat.shiftLeft_eq,
      toNat_ofNat_of_lt (by omega), Nat.mod_eq_of_lt (by omega)]
  rw [hidx, hsh]
  have hor := or_packed (w := 64) (m := 24) (mask := k) (u := n) (by decide) (by omega)
    (Nat.lt_trans hn (by decide))
  simp only [show (64 : Nat) - 24 = 40 from rfl] at hor
  rw [hor]
  apply BitVec.eq_of_toNat_eq
  have := fromIndex_toNat (w := 64) (i := k * 2 ^ 40 + n) (by omega)
  rw [this, toNat_ofNat_of_lt (by omega)]
  omega

end ImmId

/-- Full statement of C33: kind and index can be read back from the id made of them. -/
def ImmIdStatement : Prop :=
  ∀ (k n : Nat), k < 2 ^ 12 → n < 2 ^ 32 → ∃ id,
    ImmId.make (BitVec.ofNat 16 k) (BitVec.ofNat 32 n) = .ok id ∧
    ImmId.getKind id = BitVec.ofNat 16 k ∧ ImmId.getNodeIdx id = BitVec.ofNat 32 n

/-- **C33 is false**: `getNodeIndex` gives one more than the index the id was made of. -/
theorem immId_index_false : ¬ ImmIdStatement := by
  intro h
  obtain ⟨id, h1, -, h3⟩ := h 3 0 (by decide) (by decide)
  have hmk : ImmId.make (BitVec.ofNat 16 3) (BitVec.ofNat 32 0) = .ok (BitVec.ofNat 64 (3 * 2 ^ 40 + 1)) := by
    decide +kernel
  rw [hmk] at h1
  injection h1 with h1
  rw [← h1] at h3
  revert h3
  decide +kernel

/-- **C33, partial.** For every kind below 4096 (all kinds of the code base) and every
32-bit index the id exists, its kind reads back, `getIndex` is the index,
`getNodeIndex` is the index plus one, and it is not nil.  Missing: `getNodeIndex` equal
to the index, which is false. -/
theorem immId_partial (k n : Nat) (hk : k < 2 ^ 12) (hn : n < 2 ^ 32) :
    ∃ id, ImmId.make (BitVec.ofNat 16 k) (BitVec.ofNat 32 n) = .ok id ∧
      ImmId.getKind id = BitVec.ofNat 16 k ∧
      getIndex ImmId.maskSize id = .ok (BitVec.ofNat 64 n) ∧
      ImmId.getNodeIdx id = BitVec.ofNat 32 (n + 1) ∧
      isNil ImmId.maskSize id = .ok false := by
  refine ⟨_, ImmId.make_eq hk hn, ImmId.getKind_packed hk (by omega), ?_, ?_, ?_⟩
  · exact getIndex_packed (w := 64) (m := 24) (mask := k) (i := n) (by decide) (by omega)
      (Nat.lt_of_le_of_lt (Nat.succ_le_of_lt hn) (by decide))
  · unfold ImmId.getNodeIdx
    have h64 : k * 2 ^ 40 + (n + 1) < 2 ^ 64 := by omega
    rw [ImmId.idxBits, toNat_ofNat_of_lt h64]
    apply BitVec.eq_of_toNat_eq
    simp only [BitVec.toNat_setWidth, BitVec.toNat_ushiftRight, BitVec.toNat_ofNat,
      Nat.shiftRight_zero]
    omega
  · have := isNil_packed (w := 64) (m := 24) (mask := k) (u := n + 1) (by decide) (by omega)
      (Nat.lt_of_le_of_lt (Nat.succ_le_of_lt hn) (by decide))
    simpa [ImmId.maskSize] using this

/-- **C33, distinctness.** Ids made of different kinds or indices differ. -/
theorem immId_inj (k k' n n' : Nat) (hk : k < 2 ^ 12) (hk' : k' < 2 ^ 12) (hn : n < 2 ^ 32)
    (hn' : n' < 2 ^ 32)
    (h : ImmId.make (BitVec.ofNat 16 k) (BitVec.ofNat 32 n)
      = ImmId.make (BitVec.ofNat 16 k') (BitVec.ofNat 32 n')) : k = k' ∧ n = n' := by
  rw [ImmId.make_eq hk hn, ImmId.make_eq hk' hn'] at h
  injection h with h
  have := (packed_inj (w := 64) (m := 24) (a := k) (b := k') (u := n + 1) (v := n' + 1) (by decide)
    (by omega) (by omega) (Nat.lt_of_le_of_lt (Nat.succ_le_of_lt hn) (by decide))
    (Nat.lt_of_le_of_lt (Nat.succ_le_of_lt hn') (by decide))).1 h
  omega

/-- A kind that needs more than twelve bits is rejected. -/
theorem immId_kind_rejected :
    ImmId.combineMask (BitVec.ofNat 16 4096) = .error .assertion := by decide +kernel

/-- The id made by the default constructor is not nil: it is the first node of kind zero. -/
theorem immId_default_not_nil :
    isNil ImmId.maskSize ImmId.default = .ok false ∧ ImmId.default ≠ ImmId.nil := by decide +kernel

end Verif.Dod
