import Verif.Sets.Spec

/-!
# Positions, members and loops
-/

namespace Verif.Sets

theorem ordFrom_at {l : List Nat} (hl : l.Nodup) {k : Nat} (hk : k < l.length) (i : Nat) : ordFrom l l[k] i = ((i + k : Nat) : Int) := by
  induction l generalizing k i with
  | nil => simp at hk
  | cons d ds ih =>
    obtain ⟨h1, h2⟩ := List.nodup_cons.mp hl
    cases k with
    | zero => simp [ordFrom]
    | succ k =>
      have hk' : k < ds.length := by simpa using hk
      have hne : d ≠ ds[k] := fun hx => h1 (hx ▸ List.getElem_mem hk')
      rw [List.getElem_cons_succ, ordFrom, if_neg hne, ih h2 hk']
      congr 1
      omega

theorem position_at {l : List Nat} (hl : l.Nodup) {count : Nat} (hc : l.length ≤ count) {k : Nat} (hk : k < l.length) :
    position (described count l) l[k] = .ok ⟨k, Nat.lt_of_lt_of_le hk hc⟩ := by
  have ho : (described count l).ord l[k] = (k : Int) := by
    show ordFrom l l[k] 0 = _
    rw [ordFrom_at hl hk, Nat.zero_add]
  have hc' : k < (described count l).count := Nat.lt_of_lt_of_le hk hc
  unfold position
  dsimp only
  rw [dif_pos ⟨by rw [ho]; omega, by rw [ho]; exact hc'⟩]
  congr 1
  apply Fin.ext
  show ((described count l).ord l[k]).toNat = k
  rw [ho]
  rfl

theorem incl_at {l : List Nat} (hl : l.Nodup) {count : Nat} (hc : l.length ≤ count) (s : Bits count) {j : Nat} (hj : j < l.length) :
    incl (described count l) s l[j] = .ok fun i => if i.val = j then true else s i := by
  unfold incl
  rw [position_at hl hc hj]
  show Except.ok _ = Except.ok _
  congr 1
  funext i
  exact if_congr (Fin.ext_iff) rfl rfl

theorem excl_at {l : List Nat} (hl : l.Nodup) {count : Nat} (hc : l.length ≤ count) (s : Bits count) {j : Nat} (hj : j < l.length) :
    excl (described count l) s l[j] = .ok fun i => if i.val = j then false else s i := by
  unfold excl
  rw [position_at hl hc hj]
  show Except.ok _ = Except.ok _
  congr 1
  funext i
  exact if_congr (Fin.ext_iff) rfl rfl

/-- The bits of a set that was made. -/
theorem make_bits {l : List Nat} (hl : l.Nodup) {count : Nat} (hc : l.length ≤ count) (m : Made) (hm : m.within l) :
    ∃ s, make (described count l) m = .ok s ∧ (∀ k (h : k < l.length), s ⟨k, Nat.lt_of_lt_of_le h hc⟩ = true ↔ m.has l[k]) ∧
      (m.direct → ∀ i, l.length ≤ i.val → s i = false) := by
  induction m with
  | empty => exact ⟨_, rfl, fun k h => by simp [empty, Made.has], fun _ i _ => rfl⟩
  | incl m v ih =>
    obtain ⟨h1, h2⟩ := hm
    obtain ⟨s, h3, h4, h5⟩ := ih h2
    obtain ⟨j, hj, rfl⟩ := List.mem_iff_getElem.mp h1
    refine ⟨_, by rw [make, h3]; exact incl_at hl hc s hj, ?_, ?_⟩
    · intro k h
      by_cases hkj : k = j
      · subst hkj
        simp [Made.has]
      · have hne : l[k] ≠ l[j] := fun hx => hkj ((List.Nodup.getElem_inj_iff hl).mp hx)
        rw [if_neg hkj, h4 k h]
        simp [Made.has, hne]
    · intro hd i hi
      rw [if_neg (by omega)]
      exact h5 hd i hi
  | excl m v ih =>
    obtain ⟨h1, h2⟩ := hm
    obtain ⟨s, h3, h4, h5⟩ := ih h2
    obtain ⟨j, hj, rfl⟩ := List.mem_iff_getElem.mp h1
    refine ⟨_, by rw [make, h3]; exact excl_at hl hc s hj, ?_, ?_⟩
    · intro k h
      by_cases hkj : k = j
      · subst hkj
        simp [Made.has]
      · have hne : l[k] ≠ l[j] := fun hx => hkj ((List.Nodup.getElem_inj_iff hl).mp hx)
        rw [if_neg hkj, h4 k h]
        simp [Made.has, hne]
    · intro hd i hi
      rw [if_neg (by omega)]
      exact h5 hd i hi
  | union a b iha ihb =>
    obtain ⟨s, h3, h4, h5⟩ := iha hm.1
    obtain ⟨t, h6, h7, h8⟩ := ihb hm.2
    exact ⟨union s t, by rw [make, h3, h6]; rfl, fun k h => by simp [union, Made.has, h4 k h, h7 k h],
      fun hd i hi => by simp [union, h5 hd.1 i hi, h8 hd.2 i hi]⟩
  | minus a b iha ihb =>
    obtain ⟨s, h3, h4, h5⟩ := iha hm.1
    obtain ⟨t, h6, h7, h8⟩ := ihb hm.2
    refine ⟨minus s t, by rw [make, h3, h6]; rfl, fun k h => ?_, fun hd i hi => by simp [minus, h5 hd.1 i hi]⟩
    have := h7 k h
    simp only [minus, Made.has, Bool.and_eq_true, h4 k h, Bool.not_eq_true', ← this, Bool.not_eq_true]
  | xor a b iha ihb =>
    obtain ⟨s, h3, h4, h5⟩ := iha hm.1
    obtain ⟨t, h6, h7, h8⟩ := ihb hm.2
    refine ⟨xor s t, by rw [make, h3, h6]; rfl, fun k h => ?_, fun hd i hi => by simp [xor, h5 hd.1 i hi, h8 hd.2 i hi]⟩
    rw [Made.has, ← h4 k h, ← h7 k h]
    show (s _ != t _) = true ↔ _
    cases s ⟨k, Nat.lt_of_lt_of_le h hc⟩ <;> cases t ⟨k, Nat.lt_of_lt_of_le h hc⟩ <;> simp
  | inter a b iha ihb =>
    obtain ⟨s, h3, h4, h5⟩ := iha hm.1
    obtain ⟨t, h6, h7, h8⟩ := ihb hm.2
    exact ⟨inter s t, by rw [make, h3, h6]; rfl, fun k h => by simp [inter, Made.has, h4 k h, h7 k h],
      fun hd i hi => by simp [inter, h5 hd.1 i hi]⟩
  | compl a iha =>
    obtain ⟨s, h3, h4, h5⟩ := iha hm
    refine ⟨compl s, by rw [make, h3]; rfl, fun k h => ?_, fun hd => hd.elim⟩
    rw [Made.has, ← h4 k h]
    simp [compl]

theorem contains_at {l : List Nat} (hl : l.Nodup) {count : Nat} (hc : l.length ≤ count) (s : Bits count) {k : Nat} (hk : k < l.length) :
    contains (described count l) s l[k] = .ok (s ⟨k, Nat.lt_of_lt_of_le hk hc⟩) := by
  unfold contains
  rw [position_at hl hc hk]
  rfl

/-- The bit at a position, or `false` beyond the end. -/
def bit {n : Nat} (s : Bits n) (i : Nat) : Bool := if h : i < n then s ⟨i, h⟩ else false

theorem seek_spec {n : Nat} (s : Bits n) (i : Nat) (hi : i ≤ n) : seek s i ≤ n ∧ (∀ j, i ≤ j → j < seek s i → bit s j = false) ∧
    (seek s i < n → bit s (seek s i) = true) := by
  induction hm : n - i using Nat.strongRecOn generalizing i with
  | ind m ih =>
    rw [seek]
    split_ifs with h1 h2
    · exact ⟨hi, fun j _ _ => by omega, fun _ => by simp [bit, h1, h2]⟩
    · obtain ⟨h3, h4, h5⟩ := ih (n - (i + 1)) (by omega) (i + 1) (by omega) rfl
      refine ⟨h3, fun j hj1 hj2 => ?_, h5⟩
      rcases Nat.eq_or_lt_of_le hj1 with rfl | hj
      · simp [bit, h1, h2]
      · exact h4 j hj hj2
    · exact ⟨hi, fun j _ _ => by omega, fun hx => absurd hx h1⟩

theorem mem_walk {n : Nat} (s : Bits n) (i : Nat) (hi : i ≤ n) (hb : i < n → bit s i = true) (j : Nat) :
    j ∈ walk s i ↔ i ≤ j ∧ bit s j = true := by
  induction hm : n - i using Nat.strongRecOn generalizing i with
  | ind m ih =>
    rw [walk]
    split_ifs with h1
    · have hle := le_seek s (i + 1)
      obtain ⟨h3, h4, h5⟩ := seek_spec s (i + 1) (by omega)
      rw [List.mem_cons, ih (n - seek s (i + 1)) (by omega) (seek s (i + 1)) h3 h5 rfl]
      constructor
      · rintro (rfl | ⟨h6, h7⟩)
        · exact ⟨Nat.le_refl _, hb h1⟩
        · exact ⟨by omega, h7⟩
      · rintro ⟨h6, h7⟩
        rcases Nat.eq_or_lt_of_le h6 with rfl | h6
        · exact .inl rfl
        · refine .inr ⟨?_, h7⟩
          by_contra h8
          exact absurd h7 (by rw [h4 j h6 (by omega)]; simp)
    · constructor
      · intro hx; cases hx
      · rintro ⟨h6, h7⟩
        have : ¬ j < n := by omega
        simp [bit, this] at h7

theorem walk_sorted {n : Nat} (s : Bits n) (i : Nat) (hi : i ≤ n) (hb : i < n → bit s i = true) : (walk s i).Pairwise (· < ·) := by
  induction hm : n - i using Nat.strongRecOn generalizing i with
  | ind m ih =>
    rw [walk]
    split_ifs with h1
    · have hle := le_seek s (i + 1)
      obtain ⟨h3, h4, h5⟩ := seek_spec s (i + 1) (by omega)
      refine List.pairwise_cons.mpr ⟨fun j hj => ?_, ih (n - seek s (i + 1)) (by omega) _ h3 h5 rfl⟩
      have := ((mem_walk s _ h3 h5 j).mp hj).1
      omega
    · exact List.Pairwise.nil

/-- A loop visits the positions of the bits, in order. -/
theorem elements_bits {n : Nat} (s : Bits n) : elements s = (List.range n).filter (bit s) := by
  obtain ⟨h3, -, h5⟩ := seek_spec s 0 (by omega)
  have h4 := (seek_spec s 0 (by omega)).2.1
  have hp : List.Perm (elements s) ((List.range n).filter (bit s)) := by
    refine (List.perm_ext_iff_of_nodup ?_ ?_).mpr ?_
    · exact (walk_sorted s _ h3 h5).imp (fun h => Nat.ne_of_lt h)
    · exact (List.nodup_range).filter _
    · intro j
      rw [elements, mem_walk s _ h3 h5, List.mem_filter, List.mem_range]
      constructor
      · rintro ⟨-, h⟩
        refine ⟨?_, h⟩
        by_contra hx
        simp [bit, hx] at h
      · rintro ⟨-, h⟩
        refine ⟨?_, h⟩
        by_contra hx
        exact absurd h (by rw [h4 j (Nat.zero_le _) (by omega)]; simp)
  refine hp.eq_of_pairwise (le := (· < ·)) (fun a b _ _ h1 h2 => by omega) (walk_sorted s _ h3 h5) ?_
  exact (List.pairwise_lt_range).filter _

theorem size_elements {n : Nat} (s : Bits n) : size s = (elements s).length := by
  have : List.range n = (List.finRange n).map Fin.val := by simp
  rw [elements_bits, size, List.countP_eq_length_filter, this, List.filter_map, List.length_map]
  congr 2
  funext i
  simp [bit]

end Verif.Sets
