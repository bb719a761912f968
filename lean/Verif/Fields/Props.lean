import Verif.Fields.Model
import Mathlib.Data.List.Nodup
import Mathlib.Data.List.Range
import Mathlib.Tactic.SplitIfs

/-!
# Named fields of nodes

* **C199** `one_field`, `many_partial`, `many_throws`, `many_false` – a field gives the subnodes in its range, in order.
* **C200** `name_partial`, `name_false`, `name_many` – each subnode has the name of the field it is in.
-/

namespace Verif.Fields

variable {Name : Type} [DecidableEq Name] {α : Type}

/-! ## Specification -/

/-- A position is in a range, for a node with so many subnodes; `^1` is the last one. -/
def In (r : Range) (size : Nat) (i : Int) : Prop :=
  match r with
  | .point k => i = k
  | .inversePoint k => i + k = size
  | .direct a b => a ≤ i ∧ i ≤ b
  | .inverse a b => size ≤ i + a ∧ i + b ≤ size
  | .mixed a b => a ≤ i ∧ i + b ≤ size

instance (r : Range) (size : Nat) (i : Int) : Decidable (In r size i) := by
  unfold In
  cases r <;> infer_instance

/-- The fields have the range under the name, and the name only once. -/
def Has (fields : List (Name × Range)) (name : Name) (r : Range) : Prop := (name, r) ∈ fields ∧ (fields.map Prod.fst).Nodup

/-- A position of a subnode. -/
def Inside (size : Nat) (i : Int) : Prop := 0 ≤ i ∧ i < size

/-! ## Lemmas -/

theorem find_nodup (l : List (Name × Range)) (hn : (l.map Prod.fst).Nodup) (name : Name) (r : Range) (hm : (name, r) ∈ l) :
    l.find? (fun f => f.1 = name) = some (name, r) := by
  induction l with
  | nil => simp at hm
  | cons f l ih =>
    rw [List.map_cons, List.nodup_cons] at hn
    rw [List.find?_cons]
    rcases List.mem_cons.mp hm with rfl | hm
    · simp
    · have : f.1 ≠ name := fun e => hn.1 (List.mem_map.mpr ⟨(name, r), hm, e.symm⟩)
      simp only [this, decide_false]
      exact ih hn.2 hm

theorem rangeOf_has (fields : List (Name × Range)) (name : Name) (r : Range) (h : Has fields name r) : rangeOf fields name = some r := by
  unfold rangeOf
  rw [find_nodup fields.reverse (by rw [List.map_reverse]; exact List.nodup_reverse.mpr h.2) name r (List.mem_reverse.mpr h.1)]
  rfl

theorem slice_in (r : Range) (size : Nat) (s : Int × Int) (h : r.toSlice size = some s) (i : Int) : (s.1 ≤ i ∧ i ≤ s.2) ↔ In r size i := by
  unfold Range.toSlice at h
  dsimp only at h
  split_ifs at h with hc
  injection h with h
  subst h
  cases r <;> simp only [In] <;> omega

theorem slice_valid (r : Range) (size : Nat) (s : Int × Int) (h : r.toSlice size = some s) : s.1 ≤ s.2 ∧ s.2 ≤ size := by
  unfold Range.toSlice at h
  dsimp only at h
  split_ifs at h with hc
  injection h with h
  subst h
  exact hc

/-- The slice is none if nothing is in the range, or something too far. -/
theorem slice_none (r : Range) (size : Nat) (h : r.toSlice size = none) : (∀ i, ¬ In r size i) ∨ ∃ i, In r size i ∧ size < i := by
  unfold Range.toSlice at h
  dsimp only at h
  split_ifs at h with hc
  rw [not_and_or] at hc
  cases r with
  | point k =>
    right
    exact ⟨k, rfl, by dsimp only at hc; omega⟩
  | inversePoint k =>
    right
    refine ⟨size - k, ?_, ?_⟩
    · simp only [In]; omega
    · dsimp only at hc; omega
  | direct a b =>
    by_cases hab : a ≤ b
    · right
      refine ⟨b, ?_, ?_⟩
      · simp only [In]; omega
      · dsimp only at hc; omega
    · left
      intro i hi
      simp only [In] at hi
      omega
  | inverse a b =>
    by_cases hab : b ≤ a
    · right
      refine ⟨size - b, ?_, ?_⟩
      · simp only [In]; omega
      · dsimp only at hc; omega
    · left
      intro i hi
      simp only [In] at hi
      omega
  | mixed a b =>
    by_cases hab : a + b ≤ size
    · right
      refine ⟨size - b, ?_, ?_⟩
      · simp only [In]; omega
      · dsimp only at hc; omega
    · left
      intro i hi
      simp only [In] at hi
      omega

theorem at_inside (nodes : List α) (i : Int) : (∃ x, at? nodes i = some x) ↔ Inside nodes.length i := by
  unfold at? Inside
  split_ifs with h
  · constructor
    · rintro ⟨x, hx⟩; simp at hx
    · rintro ⟨h1, _⟩; omega
  · constructor
    · rintro ⟨x, hx⟩
      have := (List.getElem?_eq_some_iff.mp hx).1
      omega
    · rintro ⟨h1, h2⟩
      exact ⟨_, List.getElem?_eq_getElem (by omega)⟩

theorem mapM_some (f : Int → Option α) (l : List Int) : (∃ r, l.mapM f = some r) ↔ ∀ i ∈ l, ∃ x, f i = some x := by
  induction l with
  | nil => simp
  | cons a l ih =>
    rw [List.mapM_cons, List.forall_mem_cons, ← ih]
    cases f a with
    | none => simp
    | some x =>
      cases l.mapM f with
      | none => simp
      | some r => simp

theorem mapM_filterMap (f : Int → Option α) (l : List Int) (r : List α) (h : l.mapM f = some r) : r = l.filterMap f := by
  induction l generalizing r with
  | nil =>
    simp only [List.mapM_nil, Option.pure_def, Option.some.injEq] at h
    rw [← h, List.filterMap_nil]
  | cons a l ih =>
    simp only [List.mapM_cons, Option.bind_eq_bind, Option.bind_eq_some_iff, Option.pure_def, Option.some.injEq] at h
    obtain ⟨x, hx, r', hr, rfl⟩ := h
    rw [List.filterMap_cons, hx, ← ih r' hr]

theorem mem_values (s : Int × Int) (i : Int) : i ∈ sliceValues s ↔ s.1 ≤ i ∧ i ≤ s.2 := by
  unfold sliceValues
  rw [List.mem_map]
  constructor
  · rintro ⟨k, hk, rfl⟩
    rw [List.mem_range] at hk
    omega
  · rintro ⟨h1, h2⟩
    exact ⟨(i - s.1).toNat, by rw [List.mem_range]; omega, by omega⟩

/-! ## C199 -/

/-- **C199** A field of one position gives the subnode at that position, and an exception if there is none. -/
theorem one_field (fields : List (Name × Range)) (nodes : List α) (name : Name) (r : Range) (h : Has fields name r)
    (hp : (∃ k, r = .point k) ∨ ∃ k, r = .inversePoint k) (x : α) :
    single fields nodes name = some x ↔ ∃ i : Nat, In r nodes.length i ∧ nodes[i]? = some x := by
  unfold single
  rw [rangeOf_has fields name r h]
  simp only [Option.bind_eq_bind, Option.bind_some, Option.bind_eq_some_iff]
  constructor
  · rintro ⟨s, hs, hx⟩
    have hv := slice_valid r nodes.length s hs
    unfold at? at hx
    split_ifs at hx with hneg
    refine ⟨s.1.toNat, ?_, hx⟩
    rw [Int.toNat_of_nonneg (by omega)]
    exact (slice_in r nodes.length s hs s.1).mp ⟨Int.le_refl _, hv.1⟩
  · rintro ⟨i, hi, hx⟩
    have hlt := (List.getElem?_eq_some_iff.mp hx).1
    have hat : at? nodes i = some x := by
      unfold at?
      rw [if_neg (by omega)]
      simpa using hx
    rcases hp with ⟨k, rfl⟩ | ⟨k, rfl⟩
    · simp only [In] at hi
      subst hi
      exact ⟨_, by unfold Range.toSlice; rw [if_pos (by dsimp only; omega)], hat⟩
    · simp only [In] at hi
      refine ⟨(i, i), ?_, hat⟩
      unfold Range.toSlice
      dsimp only
      rw [if_pos (by omega), show (nodes.length : Int) - k = i by omega]

/-- The positions of a field, ascending. -/
def positions (r : Range) (size : Nat) : List Nat := (List.range size).filter fun i : Nat => In r size (i : Int)

theorem values_positions (r : Range) (size : Nat) (s : Int × Int) (hs : r.toSlice size = some s) (h0 : 0 ≤ s.1) (h1 : s.2 < size) :
    sliceValues s = (positions r size).map Int.ofNat := by
  have hv := slice_valid r size s hs
  have e : size = s.1.toNat + ((s.2 - s.1 + 1).toNat + (size - (s.2 + 1).toNat)) := by omega
  unfold positions sliceValues
  conv in List.range size => rw [e]
  rw [List.range_add, List.filter_append, List.range_add, List.map_append (f := (s.1.toNat + ·)), List.filter_append]
  have f1 : (List.range s.1.toNat).filter (fun i : Nat => decide (In r size (i : Int))) = [] := by
    rw [List.filter_eq_nil_iff]
    intro i hi
    rw [List.mem_range] at hi
    rw [decide_eq_true_eq, ← slice_in r size s hs]
    omega
  have f2 : ((List.range (s.2 - s.1 + 1).toNat).map (s.1.toNat + ·)).filter (fun i : Nat => decide (In r size (i : Int))) = (List.range (s.2 - s.1 + 1).toNat).map (s.1.toNat + ·) := by
    rw [List.filter_eq_self]
    intro i hi
    rw [List.mem_map] at hi
    obtain ⟨k, hk, rfl⟩ := hi
    rw [List.mem_range] at hk
    rw [decide_eq_true_eq, ← slice_in r size s hs]
    omega
  have f3 : (((List.range (size - (s.2 + 1).toNat)).map ((s.2 - s.1 + 1).toNat + ·)).map (s.1.toNat + ·)).filter (fun i : Nat => decide (In r size (i : Int))) = [] := by
    rw [List.filter_eq_nil_iff]
    intro i hi
    simp only [List.map_map, List.mem_map, Function.comp_apply] at hi
    obtain ⟨k, hk, rfl⟩ := hi
    rw [decide_eq_true_eq, ← slice_in r size s hs]
    omega
  rw [f1, f2, f3, List.nil_append, List.append_nil, List.map_map]
  refine List.map_congr_left fun k _ => ?_
  simp only [Function.comp_apply, Int.ofNat_eq_natCast]
  omega

/-- **C199** A field of many positions, which is not empty and in the node, gives the subnodes at its positions, in order.  Missing: an
empty field. -/
theorem many_partial (fields : List (Name × Range)) (nodes : List α) (name : Name) (r : Range) (h : Has fields name r)
    (hne : ∃ i, In r nodes.length i) (hin : ∀ i, In r nodes.length i → Inside nodes.length i) :
    multiple fields nodes name = some ((positions r nodes.length).filterMap fun i => nodes[i]?) := by
  unfold multiple
  rw [rangeOf_has fields name r h]
  simp only [Option.bind_eq_bind, Option.bind_some]
  cases hs : r.toSlice nodes.length with
  | none =>
    rcases slice_none r nodes.length hs with hn | ⟨i, hi, hl⟩
    · obtain ⟨i, hi⟩ := hne
      exact absurd hi (hn i)
    · have := hin i hi
      unfold Inside at this
      omega
  | some s =>
    have hv := slice_valid r nodes.length s hs
    have ha := hin s.1 ((slice_in r nodes.length s hs s.1).mp ⟨Int.le_refl _, hv.1⟩)
    have hb := hin s.2 ((slice_in r nodes.length s hs s.2).mp ⟨hv.1, Int.le_refl _⟩)
    simp only [Option.bind_some]
    have hex : ∃ l, (sliceValues s).mapM (at? nodes) = some l := by
      rw [mapM_some]
      intro i hi
      rw [mem_values] at hi
      exact (at_inside nodes i).mpr (hin i ((slice_in r nodes.length s hs i).mp hi))
    obtain ⟨l, hl⟩ := hex
    rw [hl, mapM_filterMap _ _ _ hl, values_positions r nodes.length s hs ha.1 hb.2, List.filterMap_map]
    congr 1

/-- **C199** There is an exception if and only if the field is empty, or a position of it is not in the node. -/
theorem many_throws (fields : List (Name × Range)) (nodes : List α) (name : Name) (r : Range) (h : Has fields name r) :
    multiple fields nodes name = none ↔ (∀ i, ¬ In r nodes.length i) ∨ ∃ i, In r nodes.length i ∧ ¬ Inside nodes.length i := by
  constructor
  · intro hn
    by_contra hc
    rw [not_or] at hc
    obtain ⟨h1, h2⟩ := hc
    rw [many_partial fields nodes name r h (Classical.not_forall_not.mp h1) (fun i hi => Classical.not_not.mp fun hx => h2 ⟨i, hi, hx⟩)] at hn
    simp at hn
  · intro hc
    unfold multiple
    rw [rangeOf_has fields name r h]
    simp only [Option.bind_eq_bind, Option.bind_some]
    cases hs : r.toSlice nodes.length with
    | none => rfl
    | some s =>
      simp only [Option.bind_some]
      cases hm : (sliceValues s).mapM (at? nodes) with
      | none => rfl
      | some l =>
        exfalso
        have hall := (mapM_some (at? nodes) (sliceValues s)).mp ⟨l, hm⟩
        have hv := slice_valid r nodes.length s hs
        rcases hc with hc | ⟨i, hi, hx⟩
        · exact hc s.1 ((slice_in r nodes.length s hs s.1).mp ⟨Int.le_refl _, hv.1⟩)
        · exact hx ((at_inside nodes i).mp (hall i ((mem_values s i).mpr ((slice_in r nodes.length s hs i).mpr hi))))

/-- A field gives the subnodes at its positions, if all of them are in the node. -/
def ManyStatement : Prop := ∀ (fields : List (String × Range)) (nodes : List Nat) (name : String) (r : Range), Has fields name r →
  (∀ i, In r nodes.length i → Inside nodes.length i) → multiple fields nodes name = some ((positions r nodes.length).filterMap fun i => nodes[i]?)

/-- **C199** False: all lines of a node without lines are an exception instead of none. -/
theorem many_false : ¬ ManyStatement := by
  intro h
  have := h [("Lines", .mixed 0 1)] [] "Lines" (.mixed 0 1) ⟨by simp, by simp⟩ (by
    intro i hi
    simp only [In, List.length_nil] at hi
    omega)
  revert this
  decide

/-! ## C200 -/

omit [DecidableEq Name] in
/-- **C200** A subnode has the name of the first field it is in, if no field goes past the end of the node.  Missing: fields which do. -/
theorem name_partial (fields : List (Name × Range)) (size : Nat) (hf : ∀ f ∈ fields, ∀ i, In f.2 size i → i ≤ size) (i : Int) :
    fieldName fields size i = (fields.find? fun f => decide (In f.2 size i)).map Prod.fst := by
  unfold fieldName
  have hcontains : ∀ f ∈ fields, f.2.contains i size = decide (In f.2 size i) := by
    intro f hfm
    unfold Range.contains
    cases hs : f.2.toSlice size with
    | none =>
      rcases slice_none f.2 size hs with hn | ⟨j, hj, hl⟩
      · simp [hn i]
      · have := hf f hfm j hj
        omega
    | some s =>
      dsimp only
      rw [Bool.eq_iff_iff, Bool.and_eq_true, decide_eq_true_eq, decide_eq_true_eq, decide_eq_true_eq]
      exact slice_in f.2 size s hs i
  congr 1
  clear hf
  induction fields with
  | nil => rfl
  | cons f fields ih =>
    rw [List.find?_cons, List.find?_cons, hcontains f (by simp), ih (fun g hg => hcontains g (List.mem_cons_of_mem _ hg))]

/-- **C200** A subnode is among those that the field of its name gives. -/
theorem name_many (fields : List (Name × Range)) (hn : (fields.map Prod.fst).Nodup) (nodes : List α) (i : Nat) (x : α) (hx : nodes[i]? = some x) (name : Name)
    (h : fieldName fields nodes.length i = some name) (l : List α) (hl : multiple fields nodes name = some l) : x ∈ l := by
  unfold fieldName at h
  rw [Option.map_eq_some_iff] at h
  obtain ⟨⟨n, r⟩, hf, rfl⟩ := h
  have hm := List.mem_of_find?_eq_some hf
  have hc := List.find?_some hf
  have hh : Has fields n r := ⟨hm, hn⟩
  dsimp only at hc hl
  have hin : In r nodes.length i := by
    unfold Range.contains at hc
    cases hs : r.toSlice nodes.length with
    | none => rw [hs] at hc; simp at hc
    | some s =>
      rw [hs] at hc
      simp only [Bool.and_eq_true, decide_eq_true_eq] at hc
      exact (slice_in r nodes.length s hs i).mp hc
  have hnone : multiple fields nodes n ≠ none := by rw [hl]; simp
  rw [Ne, many_throws fields nodes n r hh, not_or] at hnone
  rw [many_partial fields nodes n r hh (Classical.not_forall_not.mp hnone.1) (fun j hj => Classical.not_not.mp fun hy => hnone.2 ⟨j, hj, hy⟩)] at hl
  injection hl with hl
  rw [← hl, List.mem_filterMap]
  refine ⟨i, ?_, hx⟩
  unfold positions
  rw [List.mem_filter, List.mem_range]
  exact ⟨(List.getElem?_eq_some_iff.mp hx).1, by simpa using hin⟩

/-- A position without a subnode has no name. -/
def NameStatement : Prop := ∀ (fields : List (String × Range)) (size : Nat) (i : Int), ¬ Inside size i → fieldName fields size i = none

/-- **C200** False: the position after the last subnode has the name of a field that is missing. -/
theorem name_false : ¬ NameStatement := by
  intro h
  have := h [("Year", .point 0), ("Clock", .point 1)] 1 1 (by unfold Inside; omega)
  revert this
  decide

/-- A row of a table: its arguments, and its cells. -/
def row : List (String × Range) := [("Args", .point 0), ("Cells", .mixed 1 1)]

example : Has row "Cells" (.mixed 1 1) ∧ multiple row [7, 8, 9] "Cells" = some [8, 9] ∧ single row [7, 8, 9] "Args" = some 7 := ⟨⟨by simp [row], by decide⟩, by decide, by decide⟩
example : fieldName row 3 2 = some "Cells" ∧ multiple row [7] "Cells" = none := by decide

end Verif.Fields
