import Verif.Base.Model
import Mathlib.Data.List.FinRange
import Mathlib.Data.List.Sort
import Mathlib.Data.Fintype.Pi
import Mathlib.Data.Fintype.Basic

/-!
# Slices, packed sets, time (C03, C14, C40, C51)
-/

namespace Verif.Base

instance {ε α : Type} [DecidableEq ε] [DecidableEq α] : DecidableEq (Except ε α)
  | .ok a, .ok b => if h : a = b then isTrue (h ▸ rfl) else isFalse (fun h' => h (by cases h'; rfl))
  | .error a, .error b =>
    if h : a = b then isTrue (h ▸ rfl) else isFalse (fun h' => h (by cases h'; rfl))
  | .ok _, .error _ => isFalse (fun h => by cases h)
  | .error _, .ok _ => isFalse (fun h => by cases h)

/-! ## C14 -/

/-- The points of a slice. -/
def Slice.pts (s : Slice) : Int → Prop := fun v => s.first ≤ v ∧ v ≤ s.last

instance (s : Slice) (v : Int) : Decidable (s.pts v) := by unfold Slice.pts; infer_instance

theorem contains_iff (s : Slice) (v : Int) : s.contains v = true ↔ s.pts v := by
  simp [Slice.contains, Slice.pts]

/-- Construction accepts exactly `first ≤ last`. -/
theorem slice_make (a b : Int) : Slice.make a b = if a ≤ b then .ok ⟨a, b⟩ else .error .range := by
  unfold Slice.make
  by_cases h : a ≤ b <;> simp [h]

/-- The full claim: operations agree with sets of points. -/
def SliceStatement : Prop :=
  ∀ s t : Slice, s.first ≤ s.last → t.first ≤ t.last →
    (s.containsSlice t = true ↔ ∀ v, t.pts v → s.pts v) ∧
    (∀ v w, (s.expand v).pts w ↔ (∃ x, (s.pts x ∨ x = v) ∧ x ≤ w) ∧ ∃ x, (s.pts x ∨ x = v) ∧ w ≤ x) ∧
    (∃ r, s.expanded t = .ok r ∧ ∀ w, r.pts w ↔ (∃ x, (s.pts x ∨ t.pts x) ∧ x ≤ w) ∧ ∃ x, (s.pts x ∨ t.pts x) ∧ w ≤ x) ∧
    (∃ r, s.narrow t = .ok r ∧ ∀ w, r.pts w ↔ s.pts w ∧ t.pts w) ∧
    (match s.overlap t with
      | some r => ∀ w, r.pts w ↔ s.pts w ∧ t.pts w
      | none => ∀ w, ¬ (s.pts w ∧ t.pts w))

/-- **C14**, what holds: containment of points and slices, hulls; narrowing to a slice that
shares a point is intersection (otherwise nothing changes); an overlap that is reported is
the intersection, and one that is not reported has at most one point. -/
theorem slice_partial (s t : Slice) (hs : s.first ≤ s.last) (ht : t.first ≤ t.last) :
    (∀ v, s.contains v = true ↔ s.pts v) ∧
    (s.containsSlice t = true ↔ ∀ v, t.pts v → s.pts v) ∧
    (∀ v w, (s.expand v).pts w ↔ (∃ x, (s.pts x ∨ x = v) ∧ x ≤ w) ∧ ∃ x, (s.pts x ∨ x = v) ∧ w ≤ x) ∧
    (∃ r, s.expanded t = .ok r ∧ ∀ w, r.pts w ↔ (∃ x, (s.pts x ∨ t.pts x) ∧ x ≤ w) ∧ ∃ x, (s.pts x ∨ t.pts x) ∧ w ≤ x) ∧
    (∃ r, s.narrow t = .ok r ∧ ((∃ v, s.pts v ∧ t.pts v) → ∀ w, r.pts w ↔ s.pts w ∧ t.pts w) ∧
      ((¬ ∃ v, s.pts v ∧ t.pts v) → r = s)) ∧
    (∀ r, s.overlap t = some r → r.first ≤ r.last ∧ ∀ w, r.pts w ↔ s.pts w ∧ t.pts w) ∧
    (s.overlap t = none → ∀ v w, s.pts v ∧ t.pts v → s.pts w ∧ t.pts w → v = w) := by
  refine ⟨contains_iff s, ?_, ?_, ?_, ?_, ?_, ?_⟩
  · simp only [Slice.containsSlice, Bool.and_eq_true, contains_iff]
    constructor
    · rintro ⟨h1, h2⟩ v h
      simp only [Slice.pts] at *
      omega
    · intro h
      exact ⟨h _ ⟨Int.le_refl _, ht⟩, h _ ⟨ht, Int.le_refl _⟩⟩
  · intro v w
    unfold Slice.expand Slice.isBefore Slice.isAfter
    constructor
    · intro h
      by_cases h1 : v < s.first
      · rw [if_pos (by simpa using h1)] at h
        simp only [Slice.pts] at *
        exact ⟨⟨v, Or.inr rfl, h.1⟩, s.last, Or.inl (by omega), h.2⟩
      · rw [if_neg (by simpa using h1)] at h
        by_cases h2 : s.last < v
        · rw [if_pos (by simpa using h2)] at h
          simp only [Slice.pts] at *
          exact ⟨⟨s.first, Or.inl (by omega), h.1⟩, v, Or.inr rfl, h.2⟩
        · rw [if_neg (by simpa using h2)] at h
          exact ⟨⟨w, Or.inl h, Int.le_refl w⟩, w, Or.inl h, Int.le_refl w⟩
    · rintro ⟨⟨x, hx, hxw⟩, y, hy, hwy⟩
      simp only [Slice.pts] at hx hy ⊢
      split
      · rename_i h1; simp only [decide_eq_true_eq] at h1; dsimp only; omega
      · rename_i h1
        simp only [decide_eq_true_eq] at h1
        split
        · rename_i h2; simp only [decide_eq_true_eq] at h2; dsimp only; omega
        · rename_i h2; simp only [decide_eq_true_eq] at h2; omega
  · refine ⟨⟨min t.first s.first, max t.last s.last⟩, ?_, ?_⟩
    · unfold Slice.expanded; rw [slice_make, if_pos (by omega)]
    · intro w
      simp only [Slice.pts]
      constructor
      · rintro ⟨h1, h2⟩
        refine ⟨⟨min t.first s.first, by omega, h1⟩, max t.last s.last, by omega, h2⟩
      · rintro ⟨⟨x, hx, hxw⟩, y, hy, hwy⟩
        omega
  · unfold Slice.narrow
    rw [slice_make]
    simp only [Slice.contains, Bool.and_eq_true, decide_eq_true_eq]
    rw [if_pos (by split <;> split <;> omega)]
    refine ⟨_, rfl, ?_, ?_⟩
    · rintro ⟨v, hv, hv'⟩ w
      simp only [Slice.pts] at *
      split <;> split <;> omega
    · intro h
      have h' : s.last < t.first ∨ t.last < s.first := by
        by_contra hc
        push Not at hc
        exact h ⟨max s.first t.first, ⟨by omega, by omega⟩, ⟨by omega, by omega⟩⟩
      rw [if_neg (by omega), if_neg (by omega)]
  · intro r h
    unfold Slice.overlap at h
    split at h
    · injection h with h
      subst h
      simp only [Slice.pts]
      exact ⟨by omega, fun w => by omega⟩
    · cases h
  · intro h v w hv hw
    unfold Slice.overlap at h
    split at h
    · cases h
    · simp only [Slice.pts] at *
      omega

/-- `[1, 3]` and `[3, 5]` share the point 3 but no overlap is reported. -/
theorem overlap_touching_missed : (⟨1, 3⟩ : Slice).overlap ⟨3, 5⟩ = none ∧
    (⟨1, 3⟩ : Slice).pts 3 ∧ (⟨3, 5⟩ : Slice).pts 3 := by decide +kernel

/-- Narrowing `[1, 3]` to `[5, 6]` leaves `[1, 3]`. -/
theorem narrow_disjoint : (⟨1, 3⟩ : Slice).narrow ⟨5, 6⟩ = .ok ⟨1, 3⟩ := by decide +kernel

theorem slice_false : ¬ SliceStatement := by
  intro h
  have := (h ⟨1, 3⟩ ⟨3, 5⟩ (by decide) (by decide)).2.2.2.2
  exact this 3 (by decide)

/-- All integers from `a` on, `n` of them. -/
def upFrom (a : Int) : Nat → List Int
  | 0 => []
  | n + 1 => a :: upFrom (a + 1) n

theorem iterate_spec (hi : Int) (e : It) (he : e.pastLast = true) (last : Int) (hl : last ≤ hi) :
    ∀ (n : Nat) (now : Int) (acc : List Int) (fuel : Nat), last = now + n → n < fuel →
      Slice.iterate hi e fuel ⟨now, last, false⟩ acc = some (.ok (acc ++ upFrom now (n + 1))) := by
  intro n
  induction n with
  | zero =>
    intro now acc fuel h hf
    obtain ⟨f, rfl⟩ : ∃ f, fuel = f + 1 := ⟨fuel - 1, by omega⟩
    have hn : now = last := by omega
    unfold Slice.iterate
    simp only [It.ne, he, Bool.or_true, if_true]
    rw [if_pos (by decide)]
    simp only [It.next, hn, true_or, if_true]
    unfold Slice.iterate
    simp only [It.ne, he, Bool.or_true, if_true]
    rw [if_neg (by decide)]
    simp [upFrom]
  | succ n ih =>
    intro now acc fuel h hf
    obtain ⟨f, rfl⟩ : ∃ f, fuel = f + 1 := ⟨fuel - 1, by omega⟩
    unfold Slice.iterate
    simp only [It.ne, he, Bool.or_true, if_true]
    rw [if_pos (by decide)]
    have h1 : ¬ now = last := by push_cast at h; omega
    simp only [It.next, h1, false_or, Bool.false_eq_true, if_false, succ, if_pos (show now < hi by push_cast at h; omega),
      Except.map]
    rw [ih (now + 1) _ f (by push_cast at h; omega) (by omega)]
    rw [upFrom, List.append_assoc]
    rfl

theorem mem_upFrom (a : Int) (n : Nat) (v : Int) : v ∈ upFrom a n ↔ a ≤ v ∧ v < a + n := by
  induction n generalizing a with
  | zero => simp [upFrom]
  | succ n ih => simp only [upFrom, List.mem_cons, ih]; push_cast; omega

theorem upFrom_sorted (a : Int) (n : Nat) : (upFrom a n).Pairwise (· < ·) := by
  induction n generalizing a with
  | zero => simp [upFrom]
  | succ n ih =>
    rw [upFrom, List.pairwise_cons]
    refine ⟨?_, ih _⟩
    intro b hb
    rw [mem_upFrom] at hb
    omega

/-- **C14.** Iteration over a valid slice of an integral type yields every point once, in
order, even when its last point is the largest value `hi` of the type. -/
theorem slice_iterates (hi : Int) (s : Slice) (hv : s.first ≤ s.last) (hl : s.last ≤ hi) :
    ∃ vs, (∀ fuel, (s.last - s.first).toNat < fuel → s.values hi fuel = some (.ok vs)) ∧
      (∀ v, v ∈ vs ↔ s.pts v) ∧ vs.Pairwise (· < ·) := by
  refine ⟨upFrom s.first ((s.last - s.first).toNat + 1), ?_, ?_, upFrom_sorted _ _⟩
  · intro fuel hf
    have := iterate_spec hi ⟨s.first, s.last, true⟩ rfl s.last hl (s.last - s.first).toNat s.first [] fuel
      (by omega) hf
    rw [List.nil_append] at this
    exact this
  · intro v
    rw [mem_upFrom]
    simp only [Slice.pts]
    omega

example : Slice.values 127 256 ⟨-128, 127⟩ = some (.ok (upFrom (-128) 256)) := by decide +kernel

/-- The slice of all characters (`sliceT<char>()`, `slice(char(0), char(255))`) cannot be
built: as signed characters the bounds are 0 and -1. -/
theorem sliceChar_rejected : sliceChar = .error .range := by decide

/-! ## C51: parts of containers -/

/-- The full claim about taking a part of a vector (`vec`) or string (`str`): an index pair
inside of the container with the first not after the last selects the elements from the
first through the last; every other pair is rejected. -/
def PartStatement (part : List Nat → Index → Index → Except Err (List Nat)) : Prop :=
  ∀ xs a b,
    if 0 ≤ a.pos xs.length ∧ a.pos xs.length ≤ b.pos xs.length ∧ b.pos xs.length < xs.length then
      part xs a b = .ok ((xs.drop (a.pos xs.length).toNat).take (b.pos xs.length - a.pos xs.length + 1).toNat)
    else part xs a b = .error .range

/-- **C51** for vectors and spans, when the first index is not after the last or one of
them is outside. -/
theorem vecPart_partial {α : Type} (xs : List α) (a b : Index) :
    (0 ≤ a.pos xs.length → a.pos xs.length ≤ b.pos xs.length → b.pos xs.length < xs.length →
      atSlice xs a b = .ok ((xs.drop (a.pos xs.length).toNat).take (b.pos xs.length - a.pos xs.length + 1).toNat)) ∧
    (¬ (0 ≤ a.pos xs.length ∧ a.pos xs.length < xs.length ∧ 0 ≤ b.pos xs.length ∧ b.pos xs.length < xs.length) →
      atSlice xs a b = .error .range) := by
  constructor
  · intro h1 h2 h3
    unfold atSlice getSpan
    rw [if_neg (by omega)]
    dsimp only
    unfold view
    rw [if_pos (by omega)]
  · intro h
    unfold atSlice getSpan
    rw [if_pos (by omega)]

/-- A pair of indices in the wrong order is not rejected; the resulting view has a size of
almost 2^64. -/
theorem vecPart_false : ¬ PartStatement atSlice := by
  intro h
  have := h [1, 2, 3] (.front 2) (.front 0)
  revert this
  decide +kernel

/-- **C51** for strings: right exactly when the part starts at 1 (the end position is
passed as the length). -/
theorem strPart_partial {α : Type} (xs : List α) (a b : Index) (h1 : a.pos xs.length = 1)
    (h2 : 1 ≤ b.pos xs.length) (h3 : b.pos xs.length < xs.length) :
    strAtSlice xs a b = .ok ((xs.drop 1).take (b.pos xs.length).toNat) := by
  unfold strAtSlice getSpan
  rw [if_neg (by omega)]
  dsimp only
  unfold view
  rw [if_pos (by omega), h1]
  rfl

/-- The part from the front loses its last character. -/
theorem strPart_short : strAtSlice [1, 2, 3] (.front 0) (.back 1) = .ok [1, 2] := by decide +kernel

/-- Any part starting in the second half reads outside of the string. -/
theorem strPart_overrun : strAtSlice [1, 2, 3] (.front 2) (.back 1) = .error .ub := by decide +kernel

theorem strPart_false : ¬ PartStatement strAtSlice := by
  intro h
  have := h [1, 2, 3] (.front 0) (.back 1)
  revert this
  decide +kernel

example : atSlice [1, 2, 3, 4] (.front 1) (.back 1) = .ok [2, 3, 4] := by decide +kernel

/-! ## C52: ordering of vectors -/

/-- What sorting and ordered containers need of a comparison. -/
def StrictOrder {α : Type} (lt : α → α → Bool) : Prop :=
  (∀ a, lt a a = false) ∧ (∀ a b c, lt a b = true → lt b c = true → lt a c = true)

/-- The full claim: vectors of strictly ordered items are strictly ordered. -/
def VecOrderStatement : Prop :=
  ∀ lt : Nat → Nat → Bool, StrictOrder lt → StrictOrder (itemwiseLess lt)

/-- **C52**, what holds: no vector is less than itself, a proper prefix is less than the
whole, and items that all compare equal with as many items on the other side give an equal
result. -/
theorem vecOrder_partial {α : Type} (lt : α → α → Bool) (hirr : ∀ a, lt a a = false) (xs ys : List α) :
    itemwiseLess lt xs xs = false ∧ (ys ≠ [] → itemwiseLess lt xs (xs ++ ys) = true) ∧
    (itemwiseLess lt xs ys = true ↔
      (∃ i, ∃ h : i < xs.length, ∃ h' : i < ys.length, lt xs[i] ys[i] = true) ∨ xs.length < ys.length) := by
  have h3 : ∀ xs ys : List α, itemwiseLess lt xs ys = true ↔
      (∃ i, ∃ h : i < xs.length, ∃ h' : i < ys.length, lt xs[i] ys[i] = true) ∨ xs.length < ys.length := by
    intro xs ys
    unfold itemwiseLess
    rw [Bool.or_eq_true, decide_eq_true_eq, List.any_eq_true]
    constructor
    · rintro (⟨⟨a, b⟩, hm, hl⟩ | h)
      · obtain ⟨i, hi, he⟩ := List.getElem_of_mem hm
        rw [List.length_zip] at hi
        rw [List.getElem_zip, Prod.mk.injEq] at he
        exact Or.inl ⟨i, by omega, by omega, by rw [he.1, he.2]; exact hl⟩
      · exact Or.inr h
    · rintro (⟨i, h, h', hl⟩ | h)
      · refine Or.inl ⟨(xs[i], ys[i]), ?_, hl⟩
        rw [← List.getElem_zip (h := by rw [List.length_zip]; omega)]
        exact List.getElem_mem _
      · exact Or.inr h
  refine ⟨?_, ?_, h3 xs ys⟩
  · rw [Bool.eq_false_iff]
    intro h
    rcases (h3 xs xs).1 h with ⟨i, _, _, h⟩ | h
    · rw [hirr] at h; cases h
    · omega
  · intro hy
    rw [h3]
    right
    have := List.length_pos_iff.2 hy
    rw [List.length_append]
    omega

/-- `[1, 2]` is less than `[2, 1]` and the other way round. -/
theorem vecOrder_false : ¬ VecOrderStatement := by
  intro h
  have h1 := h (fun a b => decide (a < b)) ⟨by simp, by simp only [decide_eq_true_eq]; intros; omega⟩
  have h2 := h1.2 [1, 2] [2, 1] [1, 2] (by decide) (by decide)
  rw [h1.1] at h2
  cases h2

/-! ## C40 -/

/-- The full claim about time breakdowns. -/
def BreakdownEqStatement : Prop := ∀ a b : Breakdown, a.eq b = true ↔ a = b

/-- **C40.** Equality compares everything except the minute. -/
theorem breakdown_eq_partial (a b : Breakdown) : a.eq b = true ↔ a = { b with minute := a.minute } := by
  cases a; cases b
  simp [Breakdown.eq, and_assoc]

/-- 10:00 equals 10:30. -/
theorem breakdown_eq_false : ¬ BreakdownEqStatement := by
  intro h
  have := (h ⟨some 2024, some 1, some 1, some 10, some 0, none, none⟩
    ⟨some 2024, some 1, some 1, some 10, some 30, none, none⟩).1 (by decide)
  revert this
  decide

/-- **C40.** Times compare equal exactly when all parts agree. -/
theorem userTime_eq (a b : UserTime) : a.eq b = true ↔ a = b := by
  cases a; cases b
  simp [UserTime.eq, and_assoc]

/-- **C40.** A breakdown has exactly the components down to the alignment. -/
theorem breakdown_components (t : UserTime) :
    t.getBreakdown = ⟨some t.time.year, if 1 ≤ t.align.rank then some t.time.month else none,
      if 2 ≤ t.align.rank then some t.time.day else none, if 3 ≤ t.align.rank then some t.time.hour else none,
      if 4 ≤ t.align.rank then some t.time.minute else none, if 5 ≤ t.align.rank then some t.time.second else none,
      t.zone⟩ := rfl

/-- **C40.** The timestamp is the number of seconds, or rejected outside of 32 bits. -/
theorem unix_exact (s : Int) :
    (-2 ^ 31 ≤ s ∧ s < 2 ^ 31 → toUnixTimestamp s = .ok s) ∧
    (¬ (-2 ^ 31 ≤ s ∧ s < 2 ^ 31) → toUnixTimestamp s = .error .range) := by
  unfold toUnixTimestamp
  constructor
  · intro h; rw [if_neg (by omega)]
  · intro h; rw [if_pos (by omega)]

/-! ## C03 -/

/-- A domain on which positions and values agree: every value has its own bit, and the
iterator makes the same value from the bit. -/
structure Good {T : Type} (D : Domain T) : Prop where
  range : ∀ v, 0 ≤ D.ord v ∧ D.ord v < D.bits
  back : ∀ v, D.ofIndex (D.ord v).toNat = some v

variable {T : Type} {D : Domain T}

/-- The bit of a value. -/
def Good.idx (g : Good D) (v : T) : Fin D.bits := ⟨(D.ord v).toNat, by have := g.range v; omega⟩

theorem Good.toIdx_eq (g : Good D) (v : T) : toIdx (D.ord v) = (g.idx v).val := by
  have := g.range v
  unfold toIdx
  rw [if_neg (by omega)]
  rfl

theorem Good.idx_inj (g : Good D) {v w : T} (h : g.idx v = g.idx w) : v = w := by
  have h1 := congrArg Fin.val h
  simp only [Good.idx] at h1
  have h2 := g.back v
  rw [h1, g.back w] at h2
  exact (Option.some.inj h2).symm

/-- Membership: the bit of the value. -/
def Good.mem (g : Good D) (s : IntSet.Set D) (v : T) : Prop := s (g.idx v) = true

/-- Sets that have come from values only: no bit is set that belongs to no value. -/
def Good.proper (g : Good D) (s : IntSet.Set D) : Prop := ∀ i, s i = true → ∃ v, g.idx v = i

theorem contains_mem (g : Good D) (s : IntSet.Set D) (v : T) :
    IntSet.contains D s v = .ok (s (g.idx v)) := by
  unfold IntSet.contains Bits.test
  rw [g.toIdx_eq, dif_pos (g.idx v).isLt]

/-- **C03.** Adding and removing an element. -/
theorem set_incl_excl (g : Good D) (s : IntSet.Set D) (v : T) :
    (∃ s', IntSet.incl D s v = .ok s' ∧ (∀ w, g.mem s' w ↔ w = v ∨ g.mem s w) ∧ (g.proper s → g.proper s')) ∧
    (∃ s', IntSet.excl D s v = .ok s' ∧ (∀ w, g.mem s' w ↔ w ≠ v ∧ g.mem s w) ∧ (g.proper s → g.proper s')) := by
  unfold IntSet.incl IntSet.excl Bits.put
  rw [g.toIdx_eq, if_pos (g.idx v).isLt, if_pos (g.idx v).isLt]
  have key : ∀ w, (g.idx w).val = (g.idx v).val ↔ w = v :=
    fun w => ⟨fun h => g.idx_inj (Fin.ext h), fun h => by rw [h]⟩
  refine ⟨⟨_, rfl, ?_, ?_⟩, ⟨_, rfl, ?_, ?_⟩⟩
  · intro w
    simp only [Good.mem]
    split
    · rename_i h; simp [(key w).1 h]
    · rename_i h
      have : w ≠ v := fun e => h ((key w).2 e)
      simp [this]
  · intro hp i hi
    dsimp only at hi
    split at hi
    · rename_i h; exact ⟨v, Fin.ext h.symm⟩
    · exact hp i hi
  · intro w
    simp only [Good.mem]
    split
    · rename_i h; simp [(key w).1 h]
    · rename_i h
      have : w ≠ v := fun e => h ((key w).2 e)
      simp [this]
  · intro hp i hi
    dsimp only at hi
    split at hi
    · cases hi
    · exact hp i hi

/-- **C03.** Queries and the operations on two sets. -/
theorem set_algebra (g : Good D) (s t : IntSet.Set D) (v : T) :
    (IntSet.contains D s v = .ok true ↔ g.mem s v) ∧ (IntSet.contains D s v = .ok false ↔ ¬ g.mem s v) ∧
    (g.mem (IntSet.union D s t) v ↔ g.mem s v ∨ g.mem t v) ∧
    (g.mem (IntSet.inter D s t) v ↔ g.mem s v ∧ g.mem t v) ∧
    (g.mem (IntSet.diff D s t) v ↔ g.mem s v ∧ ¬ g.mem t v) ∧
    (g.mem (IntSet.symDiff D s t) v ↔ ¬ (g.mem s v ↔ g.mem t v)) ∧
    ¬ g.mem (IntSet.empty D) v ∧
    (g.proper s → g.proper t → g.proper (IntSet.union D s t) ∧ g.proper (IntSet.inter D s t) ∧
      g.proper (IntSet.diff D s t) ∧ g.proper (IntSet.symDiff D s t)) := by
  rw [contains_mem g]
  refine ⟨?_, ?_, ?_, ?_, ?_, ?_, ?_, ?_⟩
  · simp [Good.mem]
  · simp [Good.mem]
  · simp [Good.mem, IntSet.union]
  · simp [Good.mem, IntSet.inter]
  · simp [Good.mem, IntSet.diff]
  · simp only [Good.mem, IntSet.symDiff]
    cases s (g.idx v) <;> cases t (g.idx v) <;> simp
  · simp [Good.mem, IntSet.empty]
  · intro hs ht
    refine ⟨?_, ?_, ?_, ?_⟩ <;> intro i hi
    · simp only [IntSet.union, Bool.or_eq_true] at hi
      rcases hi with h | h
      · exact hs i h
      · exact ht i h
    · simp only [IntSet.inter, Bool.and_eq_true] at hi
      exact hs i hi.1
    · simp only [IntSet.diff, Bool.and_eq_true] at hi
      exact hs i hi.1
    · simp only [IntSet.symDiff] at hi
      cases h : s i with
      | true => exact hs i h
      | false => rw [h] at hi; simp at hi; exact ht i hi

theorem containsSet_iff (s t : IntSet.Set D) : IntSet.containsSet D s t = true ↔ ∀ i, t i = true → s i = true := by
  simp only [IntSet.containsSet, decide_eq_true_eq]
  constructor
  · intro h i hi
    have := h i
    rw [hi] at this
    simpa using this
  · intro h i
    cases hi : t i with
    | false => simp
    | true => simp [h i hi]

/-- **C03.** Subset tests. -/
theorem set_order (g : Good D) (s t : IntSet.Set D) (hs : g.proper s) (ht : g.proper t) :
    (IntSet.le D s t = true ↔ ∀ v, g.mem s v → g.mem t v) ∧
    (IntSet.lt D s t = true ↔ (∀ v, g.mem s v → g.mem t v) ∧ ∃ v, g.mem t v ∧ ¬ g.mem s v) := by
  have hle : (∀ i, s i = true → t i = true) ↔ ∀ v, g.mem s v → g.mem t v := by
    constructor
    · intro h v hv; exact h _ hv
    · intro h i hi
      obtain ⟨v, rfl⟩ := hs i hi
      exact h v hi
  constructor
  · unfold IntSet.le
    rw [containsSet_iff, hle]
  · unfold IntSet.lt
    rw [Bool.and_eq_true, containsSet_iff, hle, decide_eq_true_eq]
    constructor
    · rintro ⟨h1, h2⟩
      refine ⟨h1, ?_⟩
      by_contra hc
      push Not at hc
      have : IntSet.size D t ≤ IntSet.size D s := by
        unfold IntSet.size Bits.count
        apply List.countP_mono_left
        intro i _ hi
        obtain ⟨v, rfl⟩ := ht i hi
        exact hc v hi
      omega
    · rintro ⟨h1, v, h2, h3⟩
      refine ⟨h1, ?_⟩
      unfold IntSet.size Bits.count
      have h4 : ∀ i, s i = true → t i = true := hle.2 h1
      have key : ∀ l : List (Fin D.bits), g.idx v ∈ l → l.countP s < l.countP t := by
        intro l
        induction l with
        | nil => simp
        | cons a l ih =>
          intro hm
          have hmono : l.countP s ≤ l.countP t := List.countP_mono_left (fun i _ h => h4 i h)
          rcases List.mem_cons.1 hm with h | h
          · have e1 : s a = false := by rw [← h]; simpa [Good.mem] using h3
            have e2 : t a = true := by rw [← h]; exact h2
            rw [List.countP_cons_of_neg (by simp [e1]), List.countP_cons_of_pos e2]
            omega
          · have := ih h
            simp only [List.countP_cons]
            have h5 := h4 a
            cases ha : s a <;> cases hb : t a <;> (simp_all; try omega)
      exact key _ (List.mem_finRange _)

/-! ### Iteration and size -/

open IntSet

theorem skip_spec {n : Nat} (b : Bits n) (i : Nat) (hi : i ≤ n) :
    i ≤ skip b i ∧ skip b i ≤ n ∧ (∀ j (h : j < n), i ≤ j → j < skip b i → b ⟨j, h⟩ = false) ∧
      ∀ h : skip b i < n, b ⟨skip b i, h⟩ = true := by
  fun_induction skip b i with
  | case1 i h hb => exact ⟨Nat.le_refl _, hi, fun j _ h1 h2 => by omega, fun _ => hb⟩
  | case2 i h hb ih =>
    obtain ⟨h1, h2, h3, h4⟩ := ih (by omega)
    refine ⟨by omega, h2, ?_, h4⟩
    intro j hj h5 h6
    by_cases he : j = i
    · subst he; simpa using hb
    · exact h3 j hj (by omega) h6
  | case3 i h => exact ⟨Nat.le_refl _, hi, fun j hj h1 h2 => by omega, fun h' => absurd h' h⟩

/-- The set positions from `i` on. -/
def onFrom {n : Nat} (b : Bits n) (i : Nat) : List (Fin n) :=
  (List.finRange n).filter (fun j => b j && decide (i ≤ j.val))

theorem onFrom_end {n : Nat} (b : Bits n) : onFrom b n = [] := by
  unfold onFrom
  rw [List.filter_eq_nil_iff]
  intro j _
  have := j.isLt
  simp

theorem onFrom_congr {n : Nat} (b : Bits n) (i k : Nat) (h : i ≤ k)
    (hk : ∀ j (h : j < n), i ≤ j → j < k → b ⟨j, h⟩ = false) : onFrom b i = onFrom b k := by
  unfold onFrom
  apply List.filter_congr
  intro j _
  by_cases h1 : k ≤ j.val
  · simp [h1, show i ≤ j.val by omega]
  · by_cases h2 : i ≤ j.val
    · have := hk j.val j.isLt h2 (by omega)
      simp only [Fin.eta] at this
      simp [this]
    · simp [h1, h2]

theorem onFrom_cons {n : Nat} (b : Bits n) (i : Nat) (h : i < n) (hb : b ⟨i, h⟩ = true) :
    onFrom b i = ⟨i, h⟩ :: onFrom b (i + 1) := by
  have hp : ∀ k, (onFrom b k).Pairwise (· < ·) := by
    intro k
    unfold onFrom
    exact (List.pairwise_lt_finRange n).filter _
  apply List.Perm.eq_of_pairwise (le := (· < ·)) (fun a b _ _ h1 h2 => absurd h1 (lt_asymm h2)) (hp i)
  · rw [List.pairwise_cons]
    refine ⟨?_, hp _⟩
    intro j hj
    unfold onFrom at hj
    simp only [List.mem_filter, Bool.and_eq_true, decide_eq_true_eq] at hj
    rw [Fin.lt_def]
    dsimp only
    omega
  · rw [List.perm_ext_iff_of_nodup]
    · intro a
      unfold onFrom
      simp only [List.mem_filter, List.mem_finRange, true_and, Bool.and_eq_true, decide_eq_true_eq,
        List.mem_cons]
      constructor
      · rintro ⟨h1, h2⟩
        by_cases he : a.val = i
        · left; exact Fin.ext he
        · right; exact ⟨h1, by omega⟩
      · rintro (rfl | ⟨h1, h2⟩)
        · exact ⟨hb, Nat.le_refl _⟩
        · exact ⟨h1, by omega⟩
    · exact (hp i).imp (fun h => ne_of_lt h)
    · rw [List.nodup_cons]
      refine ⟨?_, (hp _).imp (fun h => ne_of_lt h)⟩
      unfold onFrom
      simp

theorem walk_spec {n : Nat} (b : Bits n) : ∀ (fuel i : Nat) (acc : List Nat), i ≤ n → n - i ≤ fuel →
    (∀ h : i < n, b ⟨i, h⟩ = true) → walk b fuel i acc = some (acc ++ (onFrom b i).map Fin.val) := by
  intro fuel
  induction fuel with
  | zero =>
    intro i acc hi hf hb
    have : i = n := by omega
    subst this
    unfold walk
    simp [onFrom_end]
  | succ fuel ih =>
    intro i acc hi hf hb
    by_cases h : i = n
    · subst h; unfold walk; simp [onFrom_end]
    · have hlt : i < n := by omega
      unfold walk
      rw [if_pos h]
      dsimp only
      unfold next
      rw [dif_pos hlt, if_pos (hb hlt)]
      obtain ⟨h1, h2, h3, h4⟩ := skip_spec b (i + 1) (by omega)
      rw [ih _ _ h2 (by omega) h4, ← onFrom_congr b _ _ h1 h3, onFrom_cons b i hlt (hb hlt)]
      simp

theorem walk_begin {n : Nat} (b : Bits n) (fuel : Nat) (hf : n ≤ fuel) :
    walk b fuel (begin b) [] = some (((List.finRange n).filter b).map Fin.val) := by
  have h0 : (List.finRange n).filter b = onFrom b 0 := by unfold onFrom; simp
  rw [h0]
  unfold begin
  split
  · rename_i h
    split
    · rename_i hb
      rw [walk_spec b fuel 0 [] (by omega) (by omega) (fun _ => hb), List.nil_append]
    · rename_i hb
      unfold next
      rw [dif_pos h, if_neg hb]
      obtain ⟨h1, h2, h3, h4⟩ := skip_spec b 0 (by omega)
      rw [walk_spec b fuel _ [] h2 (by omega) h4, List.nil_append, ← onFrom_congr b _ _ h1 h3]
  · rename_i h
    rw [walk_spec b fuel 0 [] (by omega) (by omega) (fun h' => absurd h' h), List.nil_append]

/-- **C03.** A range-`for` over a set terminates and yields the members and nothing else,
each once, in the order of the type; the size is their number. -/
theorem set_iterates (g : Good D) (s : IntSet.Set D) (hs : g.proper s) :
    ∃ vs : List T, (∀ fuel, D.bits ≤ fuel → IntSet.values D s fuel = some (vs.map some)) ∧
      (∀ v, v ∈ vs ↔ g.mem s v) ∧ vs.Pairwise (fun a b => D.ord a < D.ord b) ∧ vs.Nodup ∧
      IntSet.size D s = vs.length := by
  let bs := (List.finRange D.bits).filter s
  have hbs : ∀ i ∈ bs, ∃ v, g.idx v = i := by
    intro i hi
    exact hs i (List.mem_filter.1 hi).2
  have hvs : ∀ l : List (Fin D.bits), (∀ i ∈ l, ∃ v, g.idx v = i) → ∃ vs : List T, vs.map g.idx = l := by
    intro l
    induction l with
    | nil => intro _; exact ⟨[], rfl⟩
    | cons a l ih =>
      intro h
      obtain ⟨v, hv⟩ := h a List.mem_cons_self
      obtain ⟨vs, hvs⟩ := ih (fun i hi => h i (List.mem_cons_of_mem _ hi))
      exact ⟨v :: vs, by rw [List.map_cons, hv, hvs]⟩
  obtain ⟨vs, hvs⟩ := hvs bs hbs
  have hord : vs.Pairwise (fun a b => D.ord a < D.ord b) := by
    have hp : (vs.map g.idx).Pairwise (· < ·) := by
      rw [hvs]; exact (List.pairwise_lt_finRange _).filter _
    rw [List.pairwise_map] at hp
    refine hp.imp ?_
    intro a b hab
    have h1 := g.range a
    have h2 := g.range b
    simp only [Good.idx, Fin.lt_def] at hab
    omega
  refine ⟨vs, ?_, ?_, hord, ?_, ?_⟩
  · intro fuel hf
    unfold IntSet.values
    rw [walk_begin s fuel hf]
    change some ((bs.map Fin.val).map D.ofIndex) = _
    rw [← hvs, List.map_map, List.map_map]
    congr 1
    apply List.map_congr_left
    intro v _
    exact g.back v
  · intro v
    constructor
    · intro h
      have : g.idx v ∈ bs := by rw [← hvs]; exact List.mem_map_of_mem h
      exact (List.mem_filter.1 this).2
    · intro h
      have : g.idx v ∈ bs := List.mem_filter.2 ⟨List.mem_finRange _, h⟩
      rw [← hvs] at this
      obtain ⟨w, hw, he⟩ := List.mem_map.1 this
      rw [← g.idx_inj he]
      exact hw
  · exact hord.imp (fun h e => by rw [e] at h; exact absurd h (Int.lt_irrefl _))
  · unfold IntSet.size Bits.count
    rw [List.countP_eq_length_filter]
    change bs.length = _
    rw [← hvs, List.length_map]

/-! ### Which types this holds for -/

theorem charDomain_good : Good charDomain where
  range := by decide +kernel
  back := by decide +kernel

theorem unsignedDomain_good (w : Nat) : Good (unsignedDomain w) where
  range v := by
    have := v.isLt
    simp only [unsignedDomain]
    omega
  back v := by simp [unsignedDomain]

/-- Enumerations numbered 0, 1, 2, … in the order of their description. -/
theorem enumDomain_good (bits n : Nat) (h : n ≤ bits) : Good (enumDomain bits (List.range n)) where
  range v := by
    have := v.isLt
    simp only [List.length_range] at this
    simp only [enumDomain]
    omega
  back v := by
    have := v.isLt
    simp only [List.length_range] at this
    simp only [enumDomain, Int.toNat_natCast]
    rw [List.finIdxOf?_eq_some_iff]
    refine ⟨by simp, fun j hj he => ?_⟩
    simp only [Fin.getElem_fin, List.getElem_range] at he
    exact absurd hj (by rw [Fin.lt_def]; omega)

theorem ungappedDomain_good (bits n : Nat) (h : n ≤ bits) : Good (ungappedDomain bits 0 n) where
  range v := by
    have := v.isLt
    simp only [ungappedDomain]
    omega
  back v := by
    have := v.isLt
    simp [ungappedDomain, this]

/-- The full claim of C03 about iteration, for a type. -/
def SetIterStatement (D : Domain T) : Prop :=
  ∀ v, ∃ s, IntSet.incl D (IntSet.empty D) v = .ok s ∧ ∀ fuel, D.bits ≤ fuel → IntSet.values D s fuel = some [some v]

/-- A negative number cannot be put into a set of signed numbers. -/
theorem signed_set_false : ¬ SetIterStatement (signedDomain 8) := by
  intro h
  obtain ⟨s, h1, -⟩ := h (BitVec.ofInt 8 (-1))
  unfold IntSet.incl Bits.put at h1
  rw [if_neg (by decide)] at h1
  cases h1

theorem values_single {n : Nat} (i : Fin n) (s : Bits n) (hs : ∀ j, s j = true ↔ j = i) :
    (List.finRange n).filter s = [i] := by
  have h1 : (List.finRange n).filter s = (List.finRange n).filter (· == i) := by
    apply List.filter_congr
    intro j _
    have := hs j
    rw [Bool.eq_iff_iff, this]
    simp
  rw [h1, List.filter_beq]
  simp [List.count_eq_one_of_mem (List.nodup_finRange n) (List.mem_finRange i)]

/-- The flags 1, 2, 4: iteration over the set of the first yields the number 0, which is
none of the flags. -/
theorem enum_set_false : ¬ SetIterStatement (enumDomain 256 [1, 2, 4]) := by
  intro h
  obtain ⟨s, h1, h2⟩ := h ⟨0, by decide⟩
  have h3 := h2 256 (Nat.le_refl _)
  unfold IntSet.incl Bits.put at h1
  rw [if_pos (by decide)] at h1
  injection h1 with h1
  unfold IntSet.values at h3
  rw [walk_begin s 256 (Nat.le_refl _), values_single (n := (enumDomain 256 [1, 2, 4]).bits) ⟨0, by decide⟩ s] at h3
  · revert h3; decide
  · intro j
    rw [← h1]
    simp only [IntSet.empty]
    constructor
    · intro h; split at h
      · rename_i h'; exact Fin.ext h'
      · cases h
    · intro h; rw [if_pos (by rw [h]; rfl)]

example : SetIterStatement charDomain := by
  intro v
  obtain ⟨s, h1, h2, h3⟩ := (set_incl_excl charDomain_good (IntSet.empty charDomain) v).1
  obtain ⟨vs, h4, h5, _, h6, _⟩ := set_iterates charDomain_good s (h3 (fun i hi => by cases hi))
  refine ⟨s, h1, fun fuel hf => ?_⟩
  have h7 : ∀ w, w ∈ vs ↔ w = v := by
    intro w; rw [h5, h2]; simp [Good.mem, IntSet.empty]
  have h8 : vs = [v] := by
    have : vs.Perm [v] := (List.perm_ext_iff_of_nodup h6 (List.nodup_singleton v)).2 (by simpa using h7)
    exact List.perm_singleton.1 this
  rw [h4 fuel hf, h8]
  rfl

end Verif.Base
