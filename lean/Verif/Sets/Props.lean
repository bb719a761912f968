import Verif.Sets.Lemmas

/-!
# C148–C150: sets of values

For every enumeration: its values are different, and there is a bit for each of them.
-/

namespace Verif.Sets

/-! ## C148 – a value is in the set if it was put in -/

/-- **C148**  Whatever is done to make a set, with enumerators: nothing is thrown, and an enumerator is in the set
exactly if it should be. -/
theorem set_members {l : List Nat} (hl : l.Nodup) {count : Nat} (hc : l.length ≤ count) (m : Made) (hm : m.within l) :
    ∃ s, make (described count l) m = .ok s ∧ ∀ v ∈ l, ∃ b, contains (described count l) s v = .ok b ∧ (b = true ↔ m.has v) := by
  obtain ⟨s, h1, h2, -⟩ := make_bits hl hc m hm
  refine ⟨s, h1, fun v hv => ?_⟩
  obtain ⟨k, hk, rfl⟩ := List.mem_iff_getElem.mp hv
  exact ⟨_, contains_at hl hc s hk, h2 k hk⟩

/-- **C148**  Sets are compared by their members. -/
theorem set_compare {l : List Nat} (hl : l.Nodup) {count : Nat} (hc : l.length ≤ count) (a b : Made) (ha : a.within l) (hb : b.within l)
    (ha' : a.direct) (hb' : b.direct) :
    ∃ s t, make (described count l) a = .ok s ∧ make (described count l) b = .ok t ∧ (includes t s = true ↔ ∀ v ∈ l, a.has v → b.has v) ∧
      (s = t ↔ ∀ v ∈ l, a.has v ↔ b.has v) ∧ (size s = 0 ↔ ∀ v ∈ l, ¬ a.has v) := by
  obtain ⟨s, h1, h2, h3⟩ := make_bits hl hc a ha
  obtain ⟨t, h4, h5, h6⟩ := make_bits hl hc b hb
  refine ⟨s, t, h1, h4, ?_, ?_, ?_⟩
  · rw [includes, decide_eq_true_iff]
    constructor
    · intro h v hv hav
      obtain ⟨k, hk, rfl⟩ := List.mem_iff_getElem.mp hv
      rw [← h5 k hk]
      have := congrFun h ⟨k, Nat.lt_of_lt_of_le hk hc⟩
      rw [(h2 k hk).mpr hav, Bool.and_true] at this
      exact this
    · intro h
      funext i
      by_cases hi : i.val < l.length
      · have h7 := h5 i.val hi
        have h8 := h2 i.val hi
        have h9 := h l[i.val] (List.getElem_mem hi)
        rw [← h7, ← h8] at h9
        change s i = true → t i = true at h9
        revert h9
        cases s i <;> cases t i <;> simp
      · rw [h3 ha' i (by omega), Bool.and_false]
  · constructor
    · rintro rfl v hv
      obtain ⟨k, hk, rfl⟩ := List.mem_iff_getElem.mp hv
      rw [← h2 k hk, ← h5 k hk]
    · intro h
      funext i
      by_cases hi : i.val < l.length
      · have h7 := h5 i.val hi
        have h8 := h2 i.val hi
        have h9 := h l[i.val] (List.getElem_mem hi)
        rw [← h7, ← h8] at h9
        exact Bool.eq_iff_iff.mpr h9
      · rw [h3 ha' i (by omega), h6 hb' i (by omega)]
  · rw [size, List.countP_eq_zero]
    constructor
    · intro h v hv
      obtain ⟨k, hk, rfl⟩ := List.mem_iff_getElem.mp hv
      rw [← h2 k hk]
      exact h _ (List.mem_finRange _)
    · intro h i _
      by_cases hi : i.val < l.length
      · exact fun hx => h l[i.val] (List.getElem_mem hi) ((h2 i.val hi).mp hx)
      · rw [h3 ha' i (by omega)]; simp

/-- The styles of a text: italic and strikethrough, without italic. -/
def sample : Made := .excl (.union (.incl .empty 3) (.incl .empty 9)) 3

example : style.values.Nodup ∧ style.values.length ≤ 256 ∧ sample.within style.values ∧ sample.direct ∧ sample.has 9 ∧ ¬ sample.has 3 := by
  refine ⟨by decide, by decide, ⟨by decide, ⟨by decide, trivial⟩, by decide, trivial⟩, ⟨trivial, trivial⟩, ?_, ?_⟩ <;> simp [sample, Made.has]

/-! ## C149 – a loop over a set visits its members -/

/-- **C149**  For every enumeration and every set that is made of its values, a loop visits exactly the members of
the set, once each, and the size is their number. -/
def LoopStatement : Prop :=
  ∀ (l : List Nat) (count : Nat) (m : Made) (s : Bits count), l.Nodup → l.length ≤ count → m.within l → make (described count l) m = .ok s →
    (elements s).Nodup ∧ (∀ v, v ∈ elements s ↔ v ∈ l ∧ m.has v) ∧ size s = (elements s).length

/-- **C149**  It does if the enumerators are numbered from 0, and no complement is taken; and in increasing order. -/
theorem loop_partial {n count : Nat} (hc : n ≤ count) (m : Made) (hm : m.within (List.range n)) (hd : m.direct) :
    ∃ s, make (described count (List.range n)) m = .ok s ∧ (elements s).Pairwise (· < ·) ∧
      (∀ v, v ∈ elements s ↔ v ∈ List.range n ∧ m.has v) ∧ size s = (elements s).length := by
  obtain ⟨s, h1, h2, h3⟩ := make_bits (List.nodup_range) (l := List.range n) (count := count) (by simpa using hc) m hm
  refine ⟨s, h1, ?_, ?_, size_elements s⟩
  · rw [elements_bits]
    exact (List.pairwise_lt_range).filter _
  · intro v
    rw [elements_bits, List.mem_filter, List.mem_range, List.mem_range]
    constructor
    · rintro ⟨h4, h5⟩
      have h4' : v < count := h4
      have h6 : s ⟨v, h4'⟩ = true := by
        have : bit s v = s ⟨v, h4'⟩ := dif_pos h4
        rw [← this]; exact h5
      by_cases hv : v < n
      · have := (h2 v (by simpa using hv)).mp h6
        rw [List.getElem_range] at this
        exact ⟨hv, this⟩
      · rw [h3 hd ⟨v, h4'⟩ (by simpa using hv)] at h6
        cases h6
    · rintro ⟨hv, h5⟩
      have h4' : v < count := by omega
      refine ⟨h4', ?_⟩
      have : bit s v = s ⟨v, h4'⟩ := dif_pos h4'
      rw [this]
      exact (h2 v (by simpa using hv)).mpr (by rw [List.getElem_range]; exact h5)

/-- In general the loop gives the positions of the members among the enumerators, not the members. -/
theorem loop_positions {l : List Nat} (hl : l.Nodup) {count : Nat} (hc : l.length ≤ count) (m : Made) (hm : m.within l) (hd : m.direct) :
    ∃ s, make (described count l) m = .ok s ∧ ∀ i, i ∈ elements s ↔ ∃ h : i < l.length, m.has l[i] := by
  obtain ⟨s, h1, h2, h3⟩ := make_bits hl hc m hm
  refine ⟨s, h1, fun i => ?_⟩
  rw [elements_bits, List.mem_filter, List.mem_range]
  constructor
  · rintro ⟨h4, h5⟩
    have h4' : i < count := h4
    have h6 : s ⟨i, h4'⟩ = true := by
      have : bit s i = s ⟨i, h4'⟩ := dif_pos h4
      rw [← this]; exact h5
    by_cases hv : i < l.length
    · exact ⟨hv, (h2 i hv).mp h6⟩
    · rw [h3 hd ⟨i, h4'⟩ (by simpa using hv)] at h6
      cases h6
  · rintro ⟨hv, h5⟩
    have h4' : i < count := by omega
    refine ⟨h4', ?_⟩
    have : bit s i = s ⟨i, h4'⟩ := dif_pos h4'
    rw [this]
    exact (h2 i hv).mpr h5

/-- A loop over the styles {Italic} gives Dim. -/
theorem loop_false : ¬ LoopStatement := by
  intro h
  obtain ⟨s, h1, h2⟩ := loop_positions (l := style.values) (count := 256) (by decide) (by decide) (.incl .empty 3) ⟨by decide, trivial⟩ trivial
  have h3 := ((h style.values 256 (.incl .empty 3) s (by decide) (by decide) ⟨by decide, trivial⟩ h1).2.1 2).mp
    ((h2 2).mpr ⟨by decide, .inl rfl⟩)
  rcases h3.2 with h4 | h4
  · cases h4
  · exact h4

/-- The complement has elements that are no enumerators. -/
theorem complement_extra {l : List Nat} (hl : l.Nodup) {count : Nat} (hc : l.length ≤ count) (m : Made) (hm : m.within l) (hd : m.direct) :
    ∃ s, make (described count l) (.compl m) = .ok s ∧ ∀ i, l.length ≤ i → i < count → i ∈ elements s := by
  obtain ⟨s, h1, -, h3⟩ := make_bits hl hc m hm
  refine ⟨compl s, by rw [make, h1]; rfl, fun i h4 h5 => ?_⟩
  rw [elements_bits, List.mem_filter, List.mem_range]
  refine ⟨h5, ?_⟩
  have h5' : i < (described count l).count := h5
  rw [bit, dif_pos h5', compl, h3 hd ⟨i, h5⟩ h4]
  rfl

/-! ## C150 – sets survive JSON -/

/-- **C150**  A set of values of an enumeration is written to JSON and read back as the same set. -/
def JsonStatement : Prop :=
  ∀ (e : Enum) (m : Made) (s : Bits 256), (e.map (·.1)).Nodup → e.values.Nodup → e.length ≤ 256 → m.within e.values → m.direct →
    make (described 256 e.values) m = .ok s → fromJson e (toJson e s) = .ok s

/-- The styles {Bright} are written as a name that is not known, and {Dim} is read as {Bright}. -/
theorem json_false : ¬ JsonStatement := by
  intro h
  have := h style (.incl .empty 1) _ (by decide) (by decide) (by decide) ⟨by decide, trivial⟩ trivial
    (incl_at (l := style.values) (j := 0) (by decide) (by decide) (empty 256) (by decide))
  revert this
  rw [show (toJson style fun i : Fin (described 256 style.values).count => if i.val = 0 then true else empty 256 i) = ["<unnamed>"] from by
    rw [toJson, elements_bits]; decide +kernel]
  intro hx
  cases hx

theorem json_dim : ∃ s t : Bits 256, incl (described 256 style.values) (empty 256) 2 = .ok s ∧ incl (described 256 style.values) (empty 256) 1 = .ok t ∧
    fromJson style (toJson style s) = .ok t ∧ s ≠ t := by
  refine ⟨_, _, incl_at (l := style.values) (j := 1) (by decide) (by decide) (empty 256) (by decide),
    incl_at (l := style.values) (j := 0) (by decide) (by decide) (empty 256) (by decide), ?_, ?_⟩
  · rw [show (toJson style fun i : Fin (described 256 style.values).count => if i.val = 1 then true else empty 256 i) = ["Bright"] from by
      rw [toJson, elements_bits]; decide +kernel]
    exact congrArg (Except.bind · _) (incl_at (l := style.values) (j := 0) (by decide) (by decide) (empty 256) (by decide))
  · intro hx
    have := congrFun hx ⟨0, by decide⟩
    simp [empty] at this

theorem nameOf_at {e : Enum} (hv : e.values.Nodup) {k : Nat} (hk : k < e.length) : nameOf e e[k].2 = e[k].1 := by
  have : e.find? (fun x => x.2 = e[k].2) = some e[k] := by
    rw [List.find?_eq_some_iff_getElem]
    refine ⟨by simp, k, hk, rfl, fun j hj => ?_⟩
    rw [Bool.not_eq_true', decide_eq_false_iff_not]
    intro h1
    have h2 : e.values[j]'(by simpa [Enum.values] using Nat.lt_trans hj hk) = e.values[k]'(by simpa [Enum.values] using hk) := by
      simpa [Enum.values] using h1
    exact absurd ((List.Nodup.getElem_inj_iff hv).mp h2) (by omega)
  rw [nameOf, this]
  rfl

theorem valueOf_at {e : Enum} (hn : (e.map (·.1)).Nodup) {k : Nat} (hk : k < e.length) : valueOf e e[k].1 = .ok e[k].2 := by
  have : e.find? (fun x => x.1 = e[k].1) = some e[k] := by
    rw [List.find?_eq_some_iff_getElem]
    refine ⟨by simp, k, hk, rfl, fun j hj => ?_⟩
    rw [Bool.not_eq_true', decide_eq_false_iff_not]
    intro h1
    have h2 : (e.map (·.1))[j]'(by simpa using Nat.lt_trans hj hk) = (e.map (·.1))[k]'(by simpa using hk) := by simpa using h1
    exact absurd ((List.Nodup.getElem_inj_iff hn).mp h2) (by omega)
  rw [valueOf, this]
  rfl

/-- **C150**  It is, if the enumerators are numbered from 0. -/
theorem json_partial {e : Enum} (hn : (e.map (·.1)).Nodup) (hr : e.values = List.range e.length) (hc : e.length ≤ 256) (m : Made)
    (hm : m.within e.values) (hd : m.direct) : ∃ s, make (described 256 e.values) m = .ok s ∧ fromJson e (toJson e s) = .ok s := by
  have hv : e.values.Nodup := by rw [hr]; exact List.nodup_range
  have hlen : e.values.length = e.length := by rw [hr]; simp
  obtain ⟨s, h1, h2, h3⟩ := make_bits hv (count := 256) (by omega) m hm
  refine ⟨s, h1, ?_⟩
  have hval : ∀ k (hk : k < e.length), e[k].2 = k := by
    intro k hk
    have : e.values[k]'(by omega) = k := by simp only [hr, List.getElem_range]
    simpa [Enum.values] using this
  have key : ∀ (l : List Nat) (t : Bits 256), (∀ i ∈ l, i < e.length) →
      readNames e t (l.map (nameOf e)) = .ok fun i => if i.val ∈ l then true else t i := by
    intro l
    induction l with
    | nil => intro t _; simp [readNames]
    | cons k r ih =>
      intro t ht
      have hk : k < e.length := ht k (by simp)
      have hname : nameOf e k = e[k].1 := by
        have := nameOf_at hv hk
        rwa [hval k hk] at this
      have hin : incl (described 256 e.values) t k = .ok fun i => if i.val = k then true else t i := by
        have := incl_at hv (count := 256) (by omega) t (j := k) (by omega)
        rwa [show e.values[k]'(by omega) = k by simp only [hr, List.getElem_range]] at this
      show ((valueOf e (nameOf e k)).bind fun v => (incl (described 256 e.values) t v).bind fun s => readNames e s (r.map (nameOf e))) = _
      rw [hname, valueOf_at hn hk, hval k hk]
      show (incl (described 256 e.values) t k).bind _ = _
      rw [hin]
      show readNames e _ (r.map (nameOf e)) = _
      refine (ih _ (fun i hi => ht i (by simp [hi]))).trans ?_
      congr 1
      funext i
      by_cases h4 : i.val ∈ r <;> by_cases h5 : i.val = k <;> simp [h4, h5]
  rw [fromJson, toJson]
  refine (key (elements s) (empty 256) ?_).trans ?_
  swap
  · congr 1
    funext i
    have hi : i.val ∈ elements s ↔ s i = true := by
      rw [elements_bits, List.mem_filter, List.mem_range]
      have : bit s i.val = s i := dif_pos i.isLt
      rw [this]
      exact ⟨And.right, fun h => ⟨i.isLt, h⟩⟩
    by_cases h4 : s i = true
    · rw [if_pos (hi.mpr h4), h4]
    · rw [if_neg (fun hx => h4 (hi.mp hx))]
      simp [empty, h4]
  · intro i hi
    rw [elements_bits, List.mem_filter, List.mem_range] at hi
    by_contra hx
    have h5 : bit s i = s ⟨i, hi.1⟩ := dif_pos hi.1
    rw [h5, h3 hd ⟨i, hi.1⟩ (by rw [hlen]; exact Nat.le_of_not_lt hx)] at hi
    exact absurd hi.2 (by simp)

/-- An enumeration of three values, numbered from 0. -/
example : Enum.values [("Keep", 0), ("Replace", 1), ("Insert", 2)] = List.range 3 ∧
    (Made.incl (.incl .empty 2) 0).within (Enum.values [("Keep", 0), ("Replace", 1), ("Insert", 2)]) := by
  refine ⟨by decide, by decide, by decide, trivial⟩

end Verif.Sets
