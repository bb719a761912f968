import Verif.Picture.Model
import Mathlib.Tactic.Linarith
import Mathlib.Tactic.NormNum
import Mathlib.Tactic.Ring
import Mathlib.Tactic.SplitIfs
import Mathlib.Data.List.Nodup
import Mathlib.Data.String.Basic

/-!
# Pictures of layouts

* **C197** `drawn_covers`, `drawn_same`, `never_cyclic` – each box is drawn once, after all boxes that cover it; the order of boxes that
  overlap does not depend on the order of the map.
* **C198** `canvas_partial`, `canvas_false` – the boxes are inside of the picture, if none is left of or above the origin.
-/

namespace Verif.Picture

variable {I : Type} [LinearOrder I]

/-! ## Specification -/

/-- A point is in the interior of a box. -/
def Interior (a : Box I) (x y : ℚ) : Prop := a.x < x ∧ x < a.x + a.w ∧ a.y < y ∧ y < a.y + a.h

/-- Two boxes overlap: there is a point in the interiors of both. -/
def Overlap (a b : Box I) : Prop := ∃ x y, Interior a x y ∧ Interior b x y

/-- A box covers another: each point in the interior of the other is in its own, and the other way there are points which are not. -/
def Covers (a b : Box I) : Prop := (∀ x y, Interior b x y → Interior a x y) ∧ ∃ x y, Interior a x y ∧ ¬ Interior b x y

/-- What the solver gives for a map: different names and no negative sizes. -/
def Proper (items : List (Box I)) : Prop := (items.map Box.id).Nodup ∧ ∀ b ∈ items, 0 ≤ b.w ∧ 0 ≤ b.h

/-! ## The order -/

/-- The order by size, place and name. -/
def Pre (a b : Box I) : Prop := preferBefore a b = true

theorem pre_iff (a b : Box I) : Pre a b ↔ area b < area a ∨ (area a = area b ∧ (a.y < b.y ∨ (a.y = b.y ∧ (a.x < b.x ∨ (a.x = b.x ∧ a.id < b.id))))) := by
  unfold Pre preferBefore
  split_ifs with h1 h2 h3
  · simp only [decide_eq_true_eq, gt_iff_lt]
    constructor
    · exact Or.inl
    · rintro (h | h)
      · exact h
      · exact absurd h.1 h1
  · have h1' := not_not.mp h1
    simp only [decide_eq_true_eq]
    constructor
    · intro h; exact Or.inr ⟨h1', Or.inl h⟩
    · rintro (h | ⟨_, h | h⟩)
      · exact absurd h1' (ne_of_gt h)
      · exact h
      · exact absurd h.1 h2
  · have h1' := not_not.mp h1
    have h2' := not_not.mp h2
    simp only [decide_eq_true_eq]
    constructor
    · intro h; exact Or.inr ⟨h1', Or.inr ⟨h2', Or.inl h⟩⟩
    · rintro (h | ⟨_, h | ⟨_, h | h⟩⟩)
      · exact absurd h1' (ne_of_gt h)
      · exact absurd h2' (ne_of_lt h)
      · exact h
      · exact absurd h.1 h3
  · have h1' := not_not.mp h1
    have h2' := not_not.mp h2
    have h3' := not_not.mp h3
    simp only [decide_eq_true_eq]
    constructor
    · intro h; exact Or.inr ⟨h1', Or.inr ⟨h2', Or.inr ⟨h3', h⟩⟩⟩
    · rintro (h | ⟨_, h | ⟨_, h | h⟩⟩)
      · exact absurd h1' (ne_of_gt h)
      · exact absurd h2' (ne_of_lt h)
      · exact absurd h3' (ne_of_lt h)
      · exact h.2

theorem pre_irrefl (a : Box I) : ¬ Pre a a := by
  rw [pre_iff]
  rintro (h | ⟨_, h | ⟨_, h | ⟨_, h⟩⟩⟩) <;> exact lt_irrefl _ h

theorem pre_trans (a b c : Box I) (h1 : Pre a b) (h2 : Pre b c) : Pre a c := by
  rw [pre_iff] at *
  rcases h1 with h1 | ⟨e1, h1⟩
  · rcases h2 with h2 | ⟨e2, h2⟩
    · exact Or.inl (lt_trans h2 h1)
    · exact Or.inl (e2 ▸ h1)
  · rcases h2 with h2 | ⟨e2, h2⟩
    · exact Or.inl (e1 ▸ h2)
    · refine Or.inr ⟨e1.trans e2, ?_⟩
      rcases h1 with h1 | ⟨f1, h1⟩
      · rcases h2 with h2 | ⟨f2, h2⟩
        · exact Or.inl (lt_trans h1 h2)
        · exact Or.inl (f2 ▸ h1)
      · rcases h2 with h2 | ⟨f2, h2⟩
        · exact Or.inl (f1 ▸ h2)
        · refine Or.inr ⟨f1.trans f2, ?_⟩
          rcases h1 with h1 | ⟨g1, h1⟩
          · rcases h2 with h2 | ⟨g2, h2⟩
            · exact Or.inl (lt_trans h1 h2)
            · exact Or.inl (g2 ▸ h1)
          · rcases h2 with h2 | ⟨g2, h2⟩
            · exact Or.inl (g1 ▸ h2)
            · exact Or.inr ⟨g1.trans g2, lt_trans h1 h2⟩

theorem pre_total (a b : Box I) (h : a.id ≠ b.id) : Pre a b ∨ Pre b a := by
  rw [pre_iff, pre_iff]
  rcases lt_trichotomy (area a) (area b) with h1 | h1 | h1
  · exact Or.inr (Or.inl h1)
  · rcases lt_trichotomy a.y b.y with h2 | h2 | h2
    · exact Or.inl (Or.inr ⟨h1, Or.inl h2⟩)
    · rcases lt_trichotomy a.x b.x with h3 | h3 | h3
      · exact Or.inl (Or.inr ⟨h1, Or.inr ⟨h2, Or.inl h3⟩⟩)
      · rcases lt_or_gt_of_ne h with h4 | h4
        · exact Or.inl (Or.inr ⟨h1, Or.inr ⟨h2, Or.inr ⟨h3, h4⟩⟩⟩)
        · exact Or.inr (Or.inr ⟨h1.symm, Or.inr ⟨h2.symm, Or.inr ⟨h3.symm, h4⟩⟩⟩)
      · exact Or.inr (Or.inr ⟨h1.symm, Or.inr ⟨h2.symm, Or.inl h3⟩⟩)
    · exact Or.inr (Or.inr ⟨h1.symm, Or.inl h2⟩)
  · exact Or.inl (Or.inl h1)

/-! ## Areas -/

theorem overlap_area (a b : Box I) (h : Overlap a b) : 0 < overlapArea a b := by
  obtain ⟨x, y, ⟨a1, a2, a3, a4⟩, b1, b2, b3, b4⟩ := h
  have h1 : max a.x b.x < x := max_lt a1 b1
  have h2 : x < min (a.x + a.w) (b.x + b.w) := lt_min a2 b2
  have h3 : max a.y b.y < y := max_lt a3 b3
  have h4 : y < min (a.y + a.h) (b.y + b.h) := lt_min a4 b4
  unfold overlapArea
  dsimp only
  rw [if_neg (by rintro (h | h) <;> linarith)]
  exact mul_pos (by linarith) (by linarith)

/-- A positive overlap makes the sizes positive. -/
theorem area_sizes (a b : Box I) (h : 0 < overlapArea a b) (ha : 0 ≤ a.w ∧ 0 ≤ a.h) : 0 < a.w ∧ 0 < a.h := by
  unfold overlapArea at h
  dsimp only at h
  split_ifs at h with hc
  · exact absurd h (lt_irrefl _)
  · rw [not_or, not_lt, not_lt] at hc
    have h1 : a.x ≤ max a.x b.x := le_max_left _ _
    have h2 : min (a.x + a.w) (b.x + b.w) ≤ a.x + a.w := min_le_left _ _
    have h3 : a.y ≤ max a.y b.y := le_max_left _ _
    have h4 : min (a.y + a.h) (b.y + b.h) ≤ a.y + a.h := min_le_left _ _
    constructor
    · rcases lt_or_eq_of_le ha.1 with hw | hw
      · exact hw
      · rw [← hw] at h2
        have : min (a.x + a.w) (b.x + b.w) - max a.x b.x = 0 := by rw [← hw] at hc ⊢; linarith [hc.1]
        rw [this, zero_mul] at h
        exact absurd h (lt_irrefl _)
    · rcases lt_or_eq_of_le ha.2 with hw | hw
      · exact hw
      · rw [← hw] at h4
        have : min (a.y + a.h) (b.y + b.h) - max a.y b.y = 0 := by rw [← hw] at hc ⊢; linarith [hc.2]
        rw [this, mul_zero] at h
        exact absurd h (lt_irrefl _)

theorem overlapArea_comm (a b : Box I) : overlapArea a b = overlapArea b a := by
  unfold overlapArea
  rw [max_comm a.x, max_comm a.y, min_comm (a.x + a.w), min_comm (a.y + a.h)]

theorem contains_iff (a b : Box I) : contains a b = true ↔ a.x ≤ b.x ∧ b.x + b.w ≤ a.x + a.w ∧ a.y ≤ b.y ∧ b.y + b.h ≤ a.y + a.h := by
  unfold contains
  simp [and_assoc]

/-- A box that contains another, and not the other way, has a larger area. -/
theorem contains_pre (a b : Box I) (hb : 0 < b.w ∧ 0 < b.h) (h1 : contains a b = true) (h2 : ¬ contains b a = true) : Pre a b := by
  rw [pre_iff]
  left
  rw [contains_iff] at h1 h2
  obtain ⟨p1, p2, p3, p4⟩ := h1
  unfold area
  have hw : b.w ≤ a.w := by linarith
  have hh : b.h ≤ a.h := by linarith
  rcases lt_or_eq_of_le hw with hw' | hw'
  · calc b.w * b.h < a.w * b.h := mul_lt_mul_of_pos_right hw' hb.2
      _ ≤ a.w * a.h := mul_le_mul_of_nonneg_left hh (by linarith)
  · rcases lt_or_eq_of_le hh with hh' | hh'
    · calc b.w * b.h < b.w * a.h := mul_lt_mul_of_pos_left hh' hb.1
        _ = a.w * a.h := by rw [hw']
    · exact absurd ⟨by linarith, by linarith, by linarith, by linarith⟩ h2

/-- An edge is along the order. -/
theorem arrow_pre (a b : Box I) (ha : 0 ≤ a.w ∧ 0 ≤ a.h) (hb : 0 ≤ b.w ∧ 0 ≤ b.h) (hid : a.id ≠ b.id) (t : Bool) (h : arrow a b = some t) :
    if t then Pre a b else Pre b a := by
  unfold arrow at h
  split_ifs at h with h1 h2 h3
  · injection h with h
    subst h
    simp only [Bool.and_eq_true, Bool.not_eq_true'] at h2
    rw [if_pos rfl]
    exact contains_pre a b (area_sizes b a (by rw [overlapArea_comm]; exact not_le.mp h1) hb) h2.1 (by simp [h2.2])
  · injection h with h
    subst h
    simp only [Bool.and_eq_true, Bool.not_eq_true'] at h3
    simp only [Bool.false_eq_true, if_false]
    exact contains_pre b a (area_sizes a b (not_le.mp h1) ha) h3.1 (by simp [h3.2])
  · injection h with h
    cases t with
    | true => exact h
    | false =>
      simp only [Bool.false_eq_true, if_false]
      rcases pre_total a b hid with hp | hp
      · unfold Pre at hp
        rw [h] at hp
        exact absurd hp (by simp)
      · exact hp

theorem edge_mem (items : List (Box I)) (e : Box I × Box I) (h : e ∈ edges items) : e.1 ∈ items ∧ e.2 ∈ items := by
  induction items with
  | nil => simp [edges] at h
  | cons a r ih =>
    rw [edges, List.mem_append] at h
    rcases h with h | h
    · simp only [List.mem_filterMap, Option.map_eq_some_iff] at h
      obtain ⟨b, hb, t, _, rfl⟩ := h
      cases t <;> simp [hb]
    · exact ⟨List.mem_cons_of_mem _ (ih h).1, List.mem_cons_of_mem _ (ih h).2⟩

theorem edge_pre (items : List (Box I)) (hp : Proper items) (e : Box I × Box I) (h : e ∈ edges items) : Pre e.1 e.2 := by
  induction items with
  | nil => simp [edges] at h
  | cons a r ih =>
    obtain ⟨hn, hs⟩ := hp
    rw [List.map_cons, List.nodup_cons] at hn
    rw [edges, List.mem_append] at h
    rcases h with h | h
    · simp only [List.mem_filterMap, Option.map_eq_some_iff] at h
      obtain ⟨b, hb, t, ht, rfl⟩ := h
      have hid : a.id ≠ b.id := fun e => hn.1 (e ▸ List.mem_map_of_mem hb)
      have := arrow_pre a b (hs a (by simp)) (hs b (List.mem_cons_of_mem _ hb)) hid t ht
      cases t <;> simpa using this
    · exact ih ⟨hn.2, fun b hb => hs b (List.mem_cons_of_mem _ hb)⟩ h

/-- **C197** The graph of the boxes never has a cycle. -/
theorem never_cyclic (items : List (Box I)) (hp : Proper items) : ¬ Cyclic (edges items) := by
  rintro ⟨a, h⟩
  have : ∀ b, Relation.TransGen (fun a b => (a, b) ∈ edges items) a b → Pre a b := by
    intro b hb
    induction hb with
    | single h => exact edge_pre items hp _ h
    | tail _ h ih => exact pre_trans _ _ _ ih (edge_pre items hp _ h)
  exact pre_irrefl a (this a h)

theorem arrow_some (a b : Box I) (h : Overlap a b) : ∃ t, arrow a b = some t := by
  unfold arrow
  rw [if_neg (not_le.mpr (overlap_area a b h))]
  split_ifs <;> exact ⟨_, rfl⟩

theorem overlap_comm (a b : Box I) (h : Overlap a b) : Overlap b a := by
  obtain ⟨x, y, h1, h2⟩ := h
  exact ⟨x, y, h2, h1⟩

/-- There is an edge between any two boxes that overlap. -/
theorem edge_some (items : List (Box I)) (a b : Box I) (ha : a ∈ items) (hb : b ∈ items) (hne : a ≠ b) (ho : Overlap a b) :
    (a, b) ∈ edges items ∨ (b, a) ∈ edges items := by
  induction items with
  | nil => simp at ha
  | cons c r ih =>
    rw [edges]
    simp only [List.mem_append, List.mem_filterMap, Option.map_eq_some_iff]
    rcases List.mem_cons.mp ha with rfl | ha'
    · rcases List.mem_cons.mp hb with rfl | hb
      · exact absurd rfl hne
      · obtain ⟨t, ht⟩ := arrow_some a b ho
        cases t with
        | true => exact Or.inl (Or.inl ⟨b, hb, true, ht, by simp⟩)
        | false => exact Or.inr (Or.inl ⟨b, hb, false, ht, by simp⟩)
    · rcases List.mem_cons.mp hb with rfl | hb'
      · obtain ⟨t, ht⟩ := arrow_some b a (overlap_comm a b ho)
        cases t with
        | true => exact Or.inr (Or.inl ⟨a, ha', true, ht, by simp⟩)
        | false => exact Or.inl (Or.inl ⟨a, ha', false, ht, by simp⟩)
      · rcases ih ha' hb' with h | h
        · exact Or.inl (Or.inr h)
        · exact Or.inr (Or.inr h)

/-- Boxes that overlap are drawn in the order. -/
theorem drawn_pre (items r : List (Box I)) (hp : Proper items) (hd : Drawn items r) (a b : Box I) (ha : a ∈ items) (hb : b ∈ items) (ho : Overlap a b)
    (h : Pre a b) : Before r a b := by
  have hne : a ≠ b := fun e => pre_irrefl a (by rw [← e] at h; exact h)
  have hc := never_cyclic items hp
  rcases edge_some items a b ha hb hne ho with he | he
  · exact hd.2.1 hc _ he
  · exact absurd (pre_trans a b a h (edge_pre items hp _ he)) (pre_irrefl a)

/-- The interior determines the sides. -/
theorem covers_contains (a b : Box I) (hw : 0 < b.w) (hh : 0 < b.h) (h : ∀ x y, Interior b x y → Interior a x y) : contains a b = true := by
  rw [contains_iff]
  refine ⟨?_, ?_, ?_, ?_⟩
  · by_contra hc
    rw [not_le] at hc
    have hm : b.x < min a.x (b.x + b.w) := lt_min hc (by linarith)
    have h1 : (b.x + min a.x (b.x + b.w)) / 2 ≤ a.x := by linarith [min_le_left a.x (b.x + b.w)]
    have h2 := (h ((b.x + min a.x (b.x + b.w)) / 2) (b.y + b.h / 2)
      ⟨by linarith, by linarith [min_le_right a.x (b.x + b.w)], by linarith, by linarith⟩).1
    linarith
  · by_contra hc
    rw [not_le] at hc
    have hm : max (a.x + a.w) b.x < b.x + b.w := max_lt hc (by linarith)
    have h1 : a.x + a.w ≤ (b.x + b.w + max (a.x + a.w) b.x) / 2 := by linarith [le_max_left (a.x + a.w) b.x]
    have h2 := (h ((b.x + b.w + max (a.x + a.w) b.x) / 2) (b.y + b.h / 2)
      ⟨by linarith [le_max_right (a.x + a.w) b.x], by linarith, by linarith, by linarith⟩).2.1
    linarith
  · by_contra hc
    rw [not_le] at hc
    have hm : b.y < min a.y (b.y + b.h) := lt_min hc (by linarith)
    have h1 : (b.y + min a.y (b.y + b.h)) / 2 ≤ a.y := by linarith [min_le_left a.y (b.y + b.h)]
    have h2 := (h (b.x + b.w / 2) ((b.y + min a.y (b.y + b.h)) / 2)
      ⟨by linarith, by linarith, by linarith, by linarith [min_le_right a.y (b.y + b.h)]⟩).2.2.1
    linarith
  · by_contra hc
    rw [not_le] at hc
    have hm : max (a.y + a.h) b.y < b.y + b.h := max_lt hc (by linarith)
    have h1 : a.y + a.h ≤ (b.y + b.h + max (a.y + a.h) b.y) / 2 := by linarith [le_max_left (a.y + a.h) b.y]
    have h2 := (h (b.x + b.w / 2) ((b.y + b.h + max (a.y + a.h) b.y) / 2)
      ⟨by linarith, by linarith, by linarith [le_max_right (a.y + a.h) b.y], by linarith⟩).2.2.2
    linarith

/-- **C197** Each box is drawn once, and a box that covers another, which is not empty, is drawn before it. -/
theorem drawn_covers (items r : List (Box I)) (hp : Proper items) (hd : Drawn items r) :
    r.Perm items ∧ ∀ a ∈ items, ∀ b ∈ items, (∃ x y, Interior b x y) → Covers a b → Before r a b := by
  refine ⟨hd.1, fun a ha b hb hne hc => ?_⟩
  obtain ⟨x, y, hi⟩ := hne
  obtain ⟨i1, i2, i3, i4⟩ := hi
  have hw : 0 < b.w := by linarith
  have hh : 0 < b.h := by linarith
  refine drawn_pre items r hp hd a b ha hb ⟨x, y, hc.1 x y ⟨i1, i2, i3, i4⟩, ⟨i1, i2, i3, i4⟩⟩ ?_
  refine contains_pre a b ⟨hw, hh⟩ (covers_contains a b hw hh hc.1) ?_
  rw [contains_iff]
  rintro ⟨p1, p2, p3, p4⟩
  obtain ⟨u, v, ⟨q1, q2, q3, q4⟩, hn⟩ := hc.2
  exact hn ⟨by linarith, by linarith, by linarith, by linarith⟩

omit [LinearOrder I] in
theorem before_pre (r : List (Box I)) (hn : r.Nodup) (a b : Box I) (h1 : Before r a b) (h2 : Before r b a) : False := by
  obtain ⟨l, m, n, e⟩ := h1
  obtain ⟨l', m', n', e'⟩ := h2
  have hp : r.Pairwise (fun x y => ¬ (x = b ∧ y = a)) := by
    rw [e] at hn ⊢
    rw [List.pairwise_append, List.pairwise_append, List.pairwise_cons, List.pairwise_cons]
    rw [List.nodup_append, List.nodup_append, List.nodup_cons, List.nodup_cons] at hn
    obtain ⟨⟨g1, ⟨g2, g3⟩, g4⟩, ⟨g5, g6⟩, g7⟩ := hn
    have hba : b ≠ a := fun e => g7 a (by simp) b (by simp) e.symm
    have ha : ∀ x ∈ l ++ a :: m, x ≠ b := fun x hx => g7 x hx b (by simp)
    refine ⟨⟨?_, ⟨?_, ?_⟩, ?_⟩, ⟨?_, ?_⟩, ?_⟩
    · exact List.Pairwise.imp_of_mem (R := fun _ _ => True) (fun {x y} hx _ _ => fun h => ha x (by simp [hx]) h.1) (List.pairwise_of_forall fun _ _ => trivial)
    · exact fun y _ h => hba h.1.symm
    · exact List.Pairwise.imp_of_mem (R := fun _ _ => True) (fun {x y} hx _ _ => fun h => ha x (by simp [hx]) h.1) (List.pairwise_of_forall fun _ _ => trivial)
    · exact fun x hx y _ h => ha x (by simp [hx]) h.1
    · exact fun y hy h => g7 a (by simp) y (by simp [hy]) h.2.symm
    · exact List.Pairwise.imp_of_mem (R := fun _ _ => True) (fun {x y} _ hy _ => fun h => g7 a (by simp) y (by simp [hy]) h.2.symm) (List.pairwise_of_forall fun _ _ => trivial)
    · exact fun x hx y _ h => ha x hx h.1
  rw [e', List.pairwise_append] at hp
  exact hp.2.2 b (by simp) a (by simp) ⟨rfl, rfl⟩

/-- **C197** Boxes that overlap are drawn in the same order, whatever the order of the map. -/
theorem drawn_same (items items' r r' : List (Box I)) (hp : Proper items) (hi : items'.Perm items) (hd : Drawn items r) (hd' : Drawn items' r')
    (a b : Box I) (ha : a ∈ items) (hb : b ∈ items) (ho : Overlap a b) : Before r a b ↔ Before r' a b := by
  have hp' : Proper items' := ⟨(hi.map Box.id).nodup_iff.mpr hp.1, fun b hb => hp.2 b (hi.mem_iff.mp hb)⟩
  have hn : r.Nodup := hd.1.nodup_iff.mpr (List.Nodup.of_map _ hp.1)
  have hn' : r'.Nodup := hd'.1.nodup_iff.mpr (List.Nodup.of_map _ hp'.1)
  have ha' := hi.mem_iff.mpr ha
  have hb' := hi.mem_iff.mpr hb
  by_cases he : a = b
  · subst he
    constructor
    · intro h; exact (before_pre r hn a a h h).elim
    · intro h; exact (before_pre r' hn' a a h h).elim
  · have hid : a.id ≠ b.id := fun e => he (List.inj_on_of_nodup_map hp.1 ha hb e)
    rcases pre_total a b hid with h | h
    · exact ⟨fun _ => drawn_pre items' r' hp' hd' a b ha' hb' ho h, fun _ => drawn_pre items r hp hd a b ha hb ho h⟩
    · constructor
      · intro hab
        exact (before_pre r hn a b hab (drawn_pre items r hp hd b a hb ha (overlap_comm a b ho) h)).elim
      · intro hab
        exact (before_pre r' hn' a b hab (drawn_pre items' r' hp' hd' b a hb' ha' (overlap_comm a b ho) h)).elim

/-- An inner box, the box around it, and one beside them. -/
def inner : Box Nat := ⟨1, 2, 2, 3, 3⟩
def outer : Box Nat := ⟨2, 0, 0, 9, 9⟩
def beside : Box Nat := ⟨3, 20, 0, 5, 5⟩

theorem sample_proper : Proper [inner, outer, beside] := by
  refine ⟨by decide, ?_⟩
  intro b hb
  simp only [List.mem_cons, List.not_mem_nil, or_false] at hb
  rcases hb with rfl | rfl | rfl <;> norm_num [inner, outer, beside]

example : Proper [inner, outer, beside] ∧ Drawn [inner, outer, beside] [beside, outer, inner] ∧ Covers outer inner := by
  refine ⟨sample_proper, ⟨?_, ?_, ?_⟩, ?_, 1, 1, ?_, ?_⟩
  · decide +kernel
  · intro _ e he
    have : edges [inner, outer, beside] = [(outer, inner)] := by decide +kernel
    rw [this, List.mem_singleton] at he
    subst he
    exact ⟨[beside], [], [], rfl⟩
  · intro h
    exact absurd h (never_cyclic _ sample_proper)
  · rintro x y ⟨h1, h2, h3, h4⟩
    simp only [inner] at h1 h2 h3 h4
    refine ⟨?_, ?_, ?_, ?_⟩ <;> simp only [outer] <;> linarith
  · norm_num [Interior, outer]
  · norm_num [Interior, inner]

/-! ## C198 -/

/-- A box is drawn inside of the picture. -/
def InPicture (items : List (Box I)) (b : Box I) : Prop :=
  0 ≤ (corner b).1 ∧ 0 ≤ (corner b).2 ∧ (corner b).1 + b.w ≤ (canvas items).1 ∧ (corner b).2 + b.h ≤ (canvas items).2

omit [LinearOrder I] in
theorem foldl_max (items : List (Box I)) (m : ℚ × ℚ) :
    (m.1 ≤ (items.foldl (fun m b => (max m.1 (b.x + b.w), max m.2 (b.y + b.h))) m).1 ∧
      m.2 ≤ (items.foldl (fun m b => (max m.1 (b.x + b.w), max m.2 (b.y + b.h))) m).2) ∧
    ∀ b ∈ items, b.x + b.w ≤ (items.foldl (fun m b => (max m.1 (b.x + b.w), max m.2 (b.y + b.h))) m).1 ∧
      b.y + b.h ≤ (items.foldl (fun m b => (max m.1 (b.x + b.w), max m.2 (b.y + b.h))) m).2 := by
  induction items generalizing m with
  | nil => simp
  | cons c r ih =>
    obtain ⟨⟨h1, h2⟩, h3⟩ := ih (max m.1 (c.x + c.w), max m.2 (c.y + c.h))
    rw [List.foldl_cons]
    refine ⟨⟨le_trans (le_max_left _ _) h1, le_trans (le_max_left _ _) h2⟩, ?_⟩
    intro b hb
    rcases List.mem_cons.mp hb with rfl | hb
    · exact ⟨le_trans (le_max_right _ _) h1, le_trans (le_max_right _ _) h2⟩
    · exact h3 b hb

/-- **C198** A box is inside of the picture if and only if it is at most the margin left of and above the origin.  Missing: the others. -/
theorem canvas_partial (items : List (Box I)) (b : Box I) (hb : b ∈ items) : InPicture items b ↔ -20 ≤ b.x ∧ -20 ≤ b.y := by
  have hne : items.isEmpty = false := by
    cases items with
    | nil => simp at hb
    | cons c r => rfl
  have hm := (foldl_max items (0, 0)).2 b hb
  unfold InPicture corner canvas
  rw [hne]
  simp only [Bool.false_eq_true, if_false]
  constructor
  · rintro ⟨h1, h2, _, _⟩
    exact ⟨by linarith, by linarith⟩
  · rintro ⟨h1, h2⟩
    exact ⟨by linarith, by linarith, by linarith [hm.1], by linarith [hm.2]⟩

/-- Every box is inside of the picture. -/
def CanvasStatement : Prop := ∀ items : List (Box Nat), Proper items → ∀ b ∈ items, InPicture items b

/-- **C198** False: a box left of the origin is outside. -/
theorem canvas_false : ¬ CanvasStatement := by
  intro h
  have := h [⟨1, -100, 0, 5, 5⟩] ⟨by simp, by simp⟩ ⟨1, -100, 0, 5, 5⟩ (by simp)
  rw [canvas_partial _ _ (by simp)] at this
  norm_num at this

example : canvas [inner, outer, beside] = (65, 49) := by decide +kernel

end Verif.Picture
