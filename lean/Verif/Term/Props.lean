import Verif.Term.Lemmas
import Verif.Sets.Props

/-!
# C151–C156: coloured text
-/

namespace Verif.Term

open Verif.Sets (Bits elements)

/-! ## C151 – the text on the terminal is the text -/

/-- **C151**  Whatever the colours and styles of a text are, a terminal shows for its coloured form the characters of
its form without colours, in whatever state the terminal was; after it the terminal expects text. -/
theorem text_shown (runes : List Rune) (h : ∀ r ∈ runes, Clean r) (a : Attrs) :
    (run ⟨.text, a, []⟩ (toColoured runes true)).cells.map (·.1) = toColoured runes false ∧ (run ⟨.text, a, []⟩ (toColoured runes true)).mode = .text := by
  obtain ⟨b, more, h1, h2⟩ := run_shown runes h {} a []
  show (run ⟨.text, a, []⟩ (colouredFrom {} runes)).cells.map (·.1) = runes.flatMap (·.text) ∧ (run ⟨.text, a, []⟩ (colouredFrom {} runes)).mode = .text
  rw [h1]
  exact ⟨h2, rfl⟩

/-- A set of one style. -/
def one (v : Nat) : Bits 256 := fun i => decide (i.val + 1 = v)

theorem one_set (v : Nat) (h : v ∈ Sets.style.values) : Sets.make (Sets.described 256 Sets.style.values) (.incl .empty v) = .ok (one v) := by
  obtain ⟨k, hk, rfl⟩ := List.mem_iff_getElem.mp h
  refine (Sets.incl_at (l := Sets.style.values) (j := k) (by decide) (by decide) (Sets.empty 256) hk).trans ?_
  have hk' : k < 9 := hk
  interval_cases k <;> (congr 1; funext i; simp [Sets.empty, one, Sets.style, Sets.Enum.values])

example : ∃ r : List Rune, (∀ x ∈ r, Clean x) ∧ toColoured r false = "ab".toList ∧ (toColoured r true).length = 2 + 5 + 4 + 4 :=
  ⟨[⟨['a'], { fg := 2, style := one 4 }⟩, ⟨['b'], { fg := 2, style := one 4 }⟩], by decide, by decide, by
    rw [toColoured, if_pos rfl, colouredFrom, colouredFrom, colouredFrom, ansiDiff, ansiDiff]
    simp only [Sets.elements_bits]
    decide +kernel⟩

/-! ## C152 – the colours and styles on the terminal are those of the text -/

/-- **C152**  Every character is shown with its colours and styles, and afterwards the terminal is as it was before. -/
def ColourStatement : Prop :=
  ∀ runes : List Rune, (∀ r ∈ runes, Clean r ∧ r.style.fg.val ≤ 10 ∧ r.style.bg.val ≤ 10 ∧ ∀ i, 9 ≤ i.val → r.style.style i = false) →
    List.Forall₂ (fun cell x => cell.1 = x.1 ∧ Shows cell.2 x.2) (run {} (toColoured runes true)).cells (spelled runes) ∧
      (run {} (toColoured runes true)).attrs = {}

theorem plain_hasStyle {s : Style} (h : s.style = Sets.empty 256) (v : Nat) : ¬ s.hasStyle v := by
  unfold Style.hasStyle Sets.contains
  rw [h]
  intro hx
  cases hp : Sets.position (Sets.described 256 Sets.style.values) v with
  | error e => rw [hp] at hx; cases hx
  | ok i => rw [hp] at hx; exact absurd (Except.ok.inj hx) (by simp [Sets.empty])

/-- **C152**  They are for texts with colours from black to cyan, as foreground and as background, and without
styles. -/
theorem colour_partial (runes : List Rune) (h : ∀ r ∈ runes, Clean r ∧ Plain r.style) :
    List.Forall₂ (fun cell x => cell.1 = x.1 ∧ Shows cell.2 x.2) (run {} (toColoured runes true)).cells (spelled runes) ∧
      (run {} (toColoured runes true)).attrs = {} := by
  have h1 : run {} (toColoured runes true) = ⟨.text, {}, (spelled runes).map fun x => (x.1, attrsFor x.2)⟩ := by
    have := run_coloured (prev := {}) ⟨by decide, by decide, rfl⟩ runes (fun r hr => (h r hr).symm) []
    rw [List.nil_append] at this
    exact this
  rw [h1]
  refine ⟨?_, rfl⟩
  dsimp only
  have h2 : ∀ x ∈ spelled runes, Plain x.2 := by
    intro x hx
    obtain ⟨r, hr, hx⟩ := List.mem_flatMap.mp hx
    obtain ⟨c, -, rfl⟩ := List.mem_map.mp hx
    exact (h r hr).2
  generalize spelled runes = l at h2
  induction l with
  | nil => exact .nil
  | cons x r ih =>
    refine .cons ⟨rfl, rfl, rfl, ?_⟩ (ih (fun y hy => h2 y (by simp [hy])))
    intro y _
    exact ⟨fun hy => by simp [attrsFor] at hy, fun hy => absurd hy (plain_hasStyle (h2 x (by simp)).2.2 _)⟩

example : ∃ r : List Rune, (∀ x ∈ r, Clean x ∧ Plain x.style) ∧ r.map (·.style.fg) = [2, 0] := by
  refine ⟨[⟨['a'], { fg := 2, bg := 7 }⟩, ⟨['b'], {}⟩], ?_, rfl⟩
  intro x hx
  rcases List.mem_cons.mp hx with rfl | hx
  · exact ⟨by decide, by decide, by decide, rfl⟩
  · rcases List.mem_singleton.mp hx with rfl
    exact ⟨by decide, by decide, by decide, rfl⟩

/-- What is shown for one character with one style: the look of the style before it; nothing for `Bright`. -/
theorem style_shown (c : Char) (hc : c ≠ ESC) (v : Nat) (h1 : 1 ≤ v) (h2 : v ≤ 9) :
    (run {} (toColoured [⟨[c], { style := one v }⟩] true)).cells =
      [(c, { looks := ((lookFor.find? (·.1 = v - 1)).map (·.2)).toList })] := by
  have he : ∀ v : Fin 10, 1 ≤ v.val → elements (Sets.minus (one v.val) (Sets.empty 256)) = [v.val - 1] ∧
      elements (Sets.minus (Sets.empty 256) (one v.val)) = [] := by
    simp only [Sets.elements_bits]
    decide +kernel
  obtain ⟨h3, h4⟩ := he ⟨v, by omega⟩ h1
  rw [toColoured, if_pos rfl, colouredFrom, colouredFrom, run_append, run_append, ansiDiff]
  dsimp only at h3 h4 ⊢
  rw [h3, h4, if_pos rfl, if_pos rfl]
  have hv : 0 < Sets.size (one v) := by
    rw [Sets.size_elements]
    have h5 : Sets.minus (one v) (Sets.empty 256) = one v := by funext i; simp [Sets.minus, Sets.empty]
    rw [← h5, h3]
    exact Nat.one_pos
  rw [if_neg (by simp [isDefault]; omega)]
  have hr : ∀ a cells, run ⟨.text, a, cells⟩ [c] = ⟨.text, a, cells ++ [(c, a)]⟩ := by
    intro a cells
    exact run_text a cells [c] (by simpa using Ne.symm hc)
  have hs : run {} ((([] : List Char) ++ [] ++ List.flatMap (styleEsc false) []) ++ List.flatMap (styleEsc true) [v - 1]) =
      ⟨.text, { looks := ((lookFor.find? (·.1 = v - 1)).map (·.2)).toList }, []⟩ := by
    have : ∀ v : Fin 10, 1 ≤ v.val → run {} ((([] : List Char) ++ [] ++ List.flatMap (styleEsc false) []) ++ List.flatMap (styleEsc true) [v.val - 1]) =
      ⟨.text, { looks := ((lookFor.find? (·.1 = v.val - 1)).map (·.2)).toList }, []⟩ := by decide +kernel
    exact this ⟨v, by omega⟩ h1
  rw [hs, hr, run_esc _ _ _ (by decide)]
  rfl

/-- White is shown as bright white. -/
theorem white_shown : (run {} (toColoured [⟨['a'], { fg := 8 }⟩] true)).cells = [('a', { fg := .bright 7 })] := by
  rw [toColoured, if_pos rfl, colouredFrom, colouredFrom, ansiDiff]
  simp only [Sets.elements_bits]
  decide +kernel

/-- The colour `Default` leaves the colour as it was. -/
theorem default_shown : (run {} (toColoured [⟨['a'], { fg := 2 }⟩, ⟨['b'], { fg := 10 }⟩] true)).cells =
    [('a', { fg := .basic 1 }), ('b', { fg := .basic 1 })] := by
  rw [toColoured, if_pos rfl, colouredFrom, colouredFrom, colouredFrom, ansiDiff, ansiDiff]
  simp only [Sets.elements_bits]
  decide +kernel

theorem colour_false : ¬ ColourStatement := by
  intro h
  have h1 := (h [⟨['a'], { fg := 8 }⟩] (by
    intro r hr
    rcases List.mem_singleton.mp hr with rfl
    exact ⟨by decide, by decide, by decide, fun _ _ => rfl⟩)).1
  rw [white_shown] at h1
  cases h1 with
  | cons h2 _ => exact absurd h2.2.1 (by decide)

/-! ## C153 – the chunks -/

/-- The values of the enumeration `Style` that are in a set, in order. -/
def valuesOf (s : Bits 256) : List Nat :=
  Sets.style.values.filter fun v => match Sets.contains (Sets.described 256 Sets.style.values) s v with | .ok b => b | .error _ => false

/-- **C153**  The chunks say the text, the colours and the styles of a text, character by character. -/
def ChunkStatement : Prop :=
  ∀ runes : List Rune, (∀ r ∈ runes, ∀ i, 9 ≤ i.val → r.style.style i = false) →
    ((chunks runes).flatMap fun k => k.text.map fun c => (c, k.fg.getD 0, k.bg.getD 0, k.style.getD [])) =
      (spelled runes).map fun x => (x.1, x.2.fg.val, x.2.bg.val, valuesOf x.2.style)

theorem valuesOf_elements (s : Bits 256) (h : ∀ i, 9 ≤ i.val → s i = false) : (elements s).map (· + 1) = valuesOf s := by
  have h1 : elements s = (List.range 9).filter (Sets.bit s) := by
    have h2 : List.range 256 = List.range 9 ++ (List.range 247).map (9 + ·) := by decide +kernel
    rw [Sets.elements_bits, h2, List.filter_append, List.append_right_eq_self, List.filter_eq_nil_iff]
    intro i hi
    obtain ⟨j, hj, rfl⟩ := List.mem_map.mp hi
    have hj' : 9 + j < 256 := by have := List.mem_range.mp hj; omega
    rw [Sets.bit, dif_pos hj', h ⟨9 + j, hj'⟩ (by simp)]
    simp
  rw [h1, valuesOf, show Sets.style.values = (List.range 9).map (· + 1) from by decide, List.filter_map]
  congr 1

theorem chunks_exact (prev : Style) (cur : List Char) (runes : List Rune) :
    ((chunksFrom prev cur runes).flatMap fun k => k.text.map fun c => (c, k.fg.getD 0, k.bg.getD 0, k.style.getD [])) =
      (cur.map (·, prev) ++ spelled runes).map fun x => (x.1, x.2.fg.val, x.2.bg.val, elements x.2.style) := by
  have hd : ∀ c : Fin 256, (if isDefault c = true then none else some c.val).getD 0 = c.val := by
    intro c
    by_cases hc : c = 0
    · rw [hc]; rfl
    · rw [if_neg (by simpa [isDefault] using hc)]; rfl
  have hs : ∀ s : Bits 256, (if Sets.size s > 0 then some (elements s) else none).getD [] = elements s := by
    intro s
    split_ifs with h
    · rfl
    · rw [Sets.size_elements] at h
      exact (List.eq_nil_of_length_eq_zero (by omega)).symm
  have hp : ∀ (p : Style) (t : List Char), ((pushed p t).flatMap fun k => k.text.map fun c => (c, k.fg.getD 0, k.bg.getD 0, k.style.getD [])) =
      t.map fun c => (c, p.fg.val, p.bg.val, elements p.style) := by
    intro p t
    unfold pushed
    split_ifs with h
    · rw [h]; rfl
    · simp only [List.flatMap_cons, List.flatMap_nil, List.append_nil, chunkOf, hd, hs]
  induction runes generalizing prev cur with
  | nil => rw [chunksFrom, hp]; simp [spelled]
  | cons r rs ih =>
    rw [chunksFrom]
    split_ifs with h
    · rw [ih]
      simp [spelled, ← h]
    · rw [List.flatMap_append, hp, ih]
      simp [spelled]

/-- **C153**  The text and the colours are right; every number of a style is one too small. -/
theorem chunks_partial (runes : List Rune) (h : ∀ r ∈ runes, ∀ i, 9 ≤ i.val → r.style.style i = false) :
    ((chunks runes).flatMap fun k => k.text.map fun c => (c, k.fg.getD 0, k.bg.getD 0, (k.style.getD []).map (· + 1))) =
      (spelled runes).map fun x => (x.1, x.2.fg.val, x.2.bg.val, valuesOf x.2.style) := by
  have h1 := congrArg (List.map fun y : Char × Nat × Nat × List Nat => (y.1, y.2.1, y.2.2.1, y.2.2.2.map (· + 1))) (chunks_exact {} [] runes)
  rw [List.map_flatMap, List.map_map] at h1
  simp only [List.map_map, List.map_nil, List.nil_append] at h1
  refine Eq.trans ?_ (h1.trans ?_)
  · rfl
  · refine List.map_congr_left fun x hx => ?_
    obtain ⟨r, hr, hx⟩ := List.mem_flatMap.mp hx
    obtain ⟨c, -, rfl⟩ := List.mem_map.mp hx
    show (_, _, _, _) = (_, _, _, _)
    rw [valuesOf_elements _ (h r hr)]

theorem chunks_false : ¬ ChunkStatement := by
  intro h
  have h1 := h [⟨['a'], { style := one 3 }⟩] (by
    intro r hr i hi
    rcases List.mem_singleton.mp hr with rfl
    exact decide_eq_false (by omega))
  revert h1
  rw [chunks, chunks_exact]
  simp only [Sets.elements_bits]
  decide +kernel

example : ∃ r : List Rune, (∀ x ∈ r, ∀ i, 9 ≤ i.val → x.style.style i = false) ∧ (chunks r).length = 2 :=
  ⟨[⟨['a'], { fg := 2, style := one 4 }⟩, ⟨['b'], { fg := 2 }⟩, ⟨['c'], { fg := 2 }⟩], by
    intro r hr i hi
    simp only [List.mem_cons, List.not_mem_nil, or_false] at hr
    rcases hr with rfl | rfl | rfl
    · exact decide_eq_false (by omega)
    · rfl
    · rfl, by
    rw [chunks]
    decide +kernel⟩

/-! ## C154 – HTML -/

/-- **C154**  The tags are nested, and the text between them has no tags. -/
def HtmlStatement : Prop := ∀ runes : List Rune, Nested (html runes) ∧ ∀ s, Piece.text s ∈ html runes → '<' ∉ s

/-- The tags `t` are balanced; `k` of them are open. -/
def balancedFrom (t : Tag) : Nat → List Piece → Bool
  | k, [] => decide (k = 0)
  | k, .opens u _ :: r => balancedFrom t (if u = t then k + 1 else k) r
  | k, .closes u :: r => if u = t then decide (0 < k) && balancedFrom t (k - 1) r else balancedFrom t k r
  | k, .text _ :: r => balancedFrom t k r

theorem nested_html {prev : Style} (hp : prev.style = Sets.empty 256) (runes : List Rune) (h : ∀ r ∈ runes, r.style.style = Sets.empty 256) :
    nestedFrom (if isDefault prev.fg then [] else [.font]) (htmlFrom prev runes) = true := by
  induction runes generalizing prev with
  | nil =>
    rw [htmlFrom, hp, elements_empty]
    cases isDefault prev.fg <;> rfl
  | cons r rs ih =>
    have hr := h r (by simp)
    have ih := ih hr (fun x hx => h x (by simp [hx]))
    rw [htmlFrom, closing, opening, hp, hr, elements_none]
    by_cases h1 : r.style.fg = prev.fg
    · rw [if_pos h1, if_pos h1, ← h1]
      cases hx : isDefault r.style.fg <;> rw [hx] at ih <;> exact ih
    · rw [if_neg h1, if_neg h1]
      cases hx : isDefault r.style.fg <;> cases hy : isDefault prev.fg <;> rw [hx] at ih
      · show (decide (Tag.font = Tag.font) && _) = true
        exact ih
      · exact ih
      · show (decide (Tag.font = Tag.font) && _) = true
        exact ih
      · exact ih

/-- **C154**  The tags are nested for texts without styles, whatever their colours. -/
theorem html_partial (runes : List Rune) (h : ∀ r ∈ runes, r.style.style = Sets.empty 256) : Nested (html runes) :=
  nested_html (prev := {}) rfl runes h

/-- A text which is red, then red and in a style, then in the style only. -/
theorem html_false : ¬ HtmlStatement := by
  intro h
  have h1 := (h [⟨['a'], { fg := 2 }⟩, ⟨['b'], { fg := 2, style := one 4 }⟩, ⟨['c'], { style := one 4 }⟩]).1
  revert h1
  rw [Nested, html]
  simp only [htmlFrom, closing, opening, Sets.elements_bits]
  decide +kernel

/-- The text is not escaped. -/
theorem html_raw (s : List Char) (st : Style) : Piece.text s ∈ html [⟨s, st⟩] := by simp [html, htmlFrom]

/-- The value of the style of a tag. -/
def valueOf : Tag → Nat
  | .font => 0
  | .bold => 1
  | .italic => 3
  | .underline => 4
  | .strike => 9

theorem tagOf_value (t : Tag) (ht : t ≠ .font) (v : Nat) : tagOf v = if v = valueOf t then [t] else (tagOf v).filter (· ≠ t) := by
  cases t
  · exact absurd rfl ht
  all_goals
    unfold tagOf valueOf
    split_ifs <;> simp_all

/-- Pieces that do not matter for `t`. -/
theorem balanced_skip (t : Tag) (l : List Piece) (h : ∀ p ∈ l, ∀ u x, p ≠ .opens u x ∧ p ≠ .closes u ∨ u ≠ t) (k : Nat) (r : List Piece) :
    balancedFrom t k (l ++ r) = balancedFrom t k r := by
  induction l with
  | nil => rfl
  | cons p q ih =>
    have ih := ih (fun x hx => h x (by simp [hx]))
    have hp := h p (by simp)
    rw [List.cons_append]
    cases p with
    | opens u x =>
      rw [balancedFrom, if_neg, ih]
      intro hx
      rcases hp u x with h1 | h1
      · exact h1.1 rfl
      · exact h1 hx
    | closes u =>
      rw [balancedFrom, if_neg, ih]
      intro hx
      rcases hp u "" with h1 | h1
      · exact h1.2 rfl
      · exact h1 hx
    | text s => rw [balancedFrom, ih]

theorem tags_font (v : Nat) : Tag.font ∉ tagOf v := by
  unfold tagOf
  split_ifs <;> simp

theorem tags_other {t : Tag} (ht : t ≠ .font) {v : Nat} (hv : v ≠ valueOf t) : t ∉ tagOf v := by
  have := tagOf_value t ht v
  rw [if_neg hv] at this
  rw [this]
  simp

/-- The closing tags of the styles of a list without repetitions. -/
theorem balanced_closes {t : Tag} (ht : t ≠ .font) (l : List Nat) (hl : l.Nodup) (k : Nat) (r : List Piece) :
    balancedFrom t k (l.flatMap (fun s => (tagOf s).map .closes) ++ r) =
      if valueOf t ∈ l then decide (0 < k) && balancedFrom t (k - 1) r else balancedFrom t k r := by
  induction l generalizing k with
  | nil => simp
  | cons v q ih =>
    obtain ⟨h1, h2⟩ := List.nodup_cons.mp hl
    rw [List.flatMap_cons, List.append_assoc]
    by_cases hv : v = valueOf t
    · have h3 : tagOf v = [t] := by rw [tagOf_value t ht v, if_pos hv]
      rw [h3, List.map_cons, List.map_nil, List.cons_append, List.nil_append, balancedFrom, if_pos rfl, ih h2, if_neg (hv ▸ h1), if_pos (by simp [hv])]
    · rw [balanced_skip t _ ?_ k, ih h2]
      · have : (valueOf t ∈ v :: q) ↔ valueOf t ∈ q := by simp [Ne.symm hv]
        simp only [this]
      · intro p hp u x
        obtain ⟨w, hw, rfl⟩ := List.mem_map.mp hp
        by_cases hu : u = t
        · exact .inl ⟨by simp, fun hx => tags_other ht hv (hu ▸ (Piece.closes.inj hx) ▸ hw)⟩
        · exact .inr hu

theorem balanced_opens {t : Tag} (ht : t ≠ .font) (l : List Nat) (hl : l.Nodup) (k : Nat) (r : List Piece) :
    balancedFrom t k (l.flatMap (fun s => (tagOf s).map (.opens · "")) ++ r) = balancedFrom t (if valueOf t ∈ l then k + 1 else k) r := by
  induction l generalizing k with
  | nil => simp
  | cons v q ih =>
    obtain ⟨h1, h2⟩ := List.nodup_cons.mp hl
    rw [List.flatMap_cons, List.append_assoc]
    by_cases hv : v = valueOf t
    · have h3 : tagOf v = [t] := by rw [tagOf_value t ht v, if_pos hv]
      rw [h3, List.map_cons, List.map_nil, List.cons_append, List.nil_append, balancedFrom, if_pos rfl, ih h2, if_neg (hv ▸ h1), if_pos (by simp [hv])]
    · rw [balanced_skip t _ ?_ k, ih h2]
      · have : (valueOf t ∈ v :: q) ↔ valueOf t ∈ q := by simp [Ne.symm hv]
        simp only [this]
      · intro p hp u x
        obtain ⟨w, hw, rfl⟩ := List.mem_map.mp hp
        by_cases hu : u = t
        · exact .inl ⟨fun hx => tags_other ht hv (hu ▸ (Piece.opens.inj hx).1 ▸ hw), by simp⟩
        · exact .inr hu

theorem nodup_elements {n : Nat} (s : Bits n) : (elements s).Nodup := by
  rw [Sets.elements_bits]
  exact List.nodup_range.filter _

theorem mem_elements {n : Nat} (s : Bits n) (i : Nat) : i ∈ elements s ↔ Sets.bit s i = true := by
  rw [Sets.elements_bits, List.mem_filter, List.mem_range]
  refine ⟨And.right, fun h => ⟨?_, h⟩⟩
  by_contra hx
  rw [Sets.bit, dif_neg hx] at h
  cases h

theorem mem_minus {n : Nat} (s t : Bits n) (i : Nat) : i ∈ elements (Sets.minus s t) ↔ i ∈ elements s ∧ i ∉ elements t := by
  rw [mem_elements, mem_elements, mem_elements, Sets.bit, Sets.bit, Sets.bit]
  split_ifs with h
  · simp [Sets.minus]
  · simp

/-- **C154**  In general every tag is balanced: it is never closed if it is not open, and in the end all are closed. -/
theorem html_balanced (t : Tag) (runes : List Rune) : balancedFrom t 0 (html runes) = true := by
  by_cases ht : t = .font
  · subst ht
    have skipC : ∀ (l : List Nat) (k : Nat) (r : List Piece), balancedFrom .font k (l.flatMap (fun s => (tagOf s).map .closes) ++ r) = balancedFrom .font k r := by
      intro l k r
      apply balanced_skip
      intro p hp u x
      obtain ⟨v, -, hp⟩ := List.mem_flatMap.mp hp
      obtain ⟨w, hw, rfl⟩ := List.mem_map.mp hp
      by_cases hu : u = .font
      · exact .inl ⟨by simp, fun hx => tags_font v (hu ▸ (Piece.closes.inj hx) ▸ hw)⟩
      · exact .inr hu
    have skipO : ∀ (l : List Nat) (k : Nat) (r : List Piece), balancedFrom .font k (l.flatMap (fun s => (tagOf s).map (.opens · "")) ++ r) = balancedFrom .font k r := by
      intro l k r
      apply balanced_skip
      intro p hp u x
      obtain ⟨v, -, hp⟩ := List.mem_flatMap.mp hp
      obtain ⟨w, hw, rfl⟩ := List.mem_map.mp hp
      by_cases hu : u = .font
      · exact .inl ⟨fun hx => tags_font v (hu ▸ (Piece.opens.inj hx).1 ▸ hw), by simp⟩
      · exact .inr hu
    have key : ∀ (prev : Style), balancedFrom .font (if isDefault prev.fg then 0 else 1) (htmlFrom prev runes) = true := by
      induction runes with
      | nil =>
        intro prev
        rw [htmlFrom]
        have := skipC (elements prev.style)
        cases isDefault prev.fg
        · show (decide (0 < 1) && balancedFrom .font 0 (((elements prev.style)).flatMap (fun s => (tagOf s).map .closes))) = true
          rw [← List.append_nil (List.flatMap _ _), this]
          rfl
        · show balancedFrom .font 0 (((elements prev.style)).flatMap (fun s => (tagOf s).map .closes)) = true
          rw [← List.append_nil (List.flatMap _ _), this]
          rfl
      | cons r rs ih =>
        intro prev
        have ih := ih r.style
        rw [htmlFrom, closing, opening]
        by_cases h1 : r.style.fg = prev.fg
        · rw [if_pos h1, if_pos h1, ← h1, List.nil_append, List.nil_append, List.append_assoc, List.append_assoc, skipC, skipO]
          exact ih
        · rw [if_neg h1, if_neg h1]
          simp only [List.append_assoc]
          cases hx : isDefault r.style.fg <;> cases hy : isDefault prev.fg <;> rw [hx] at ih <;>
            simp only [if_true, Bool.false_eq_true, if_false, List.nil_append, List.singleton_append, skipC, skipO, balancedFrom, Nat.zero_add,
              Nat.one_pos, decide_true, Bool.true_and, Nat.sub_self] at ih ⊢ <;> exact ih
    exact key {}
  · have skip : ∀ (b c : Bool) (x : String) (k : Nat) (r : List Piece),
        balancedFrom t k ((if b = true then [] else if c = true then [] else [Piece.closes .font]) ++ r) = balancedFrom t k r ∧
        balancedFrom t k ((if b = true then [] else if c = true then [] else [Piece.opens .font x]) ++ r) = balancedFrom t k r := by
      intro b c x k r
      have h1 : ¬ Tag.font = t := fun hx => ht hx.symm
      cases b <;> cases c <;> simp [balancedFrom, h1]
    have key : ∀ (prev : Style), balancedFrom t (if valueOf t ∈ elements prev.style then 1 else 0) (htmlFrom prev runes) = true := by
      induction runes with
      | nil =>
        intro prev
        have h1 := (skip false (isDefault prev.fg) "" (if valueOf t ∈ elements prev.style then 1 else 0)
          ((elements prev.style).flatMap (fun s => (tagOf s).map .closes))).1
        rw [htmlFrom]
        refine h1.trans ?_
        rw [← List.append_nil (List.flatMap _ _), balanced_closes ht _ (nodup_elements _)]
        by_cases h2 : valueOf t ∈ elements prev.style <;> simp [h2, balancedFrom]
      | cons r rs ih =>
        intro prev
        have ih := ih r.style
        rw [htmlFrom, closing, opening]
        simp only [List.append_assoc]
        have h1 := fun k q => (skip (decide (r.style.fg = prev.fg)) (isDefault prev.fg) "" k q).1
        have h2 := fun k q => (skip (decide (r.style.fg = prev.fg)) (isDefault r.style.fg) (htmlColour r.style.fg) k q).2
        simp only [decide_eq_true_eq] at h1 h2
        rw [h1, balanced_closes ht _ (nodup_elements _), h2, h2, balanced_opens ht _ (nodup_elements _), balanced_opens ht _ (nodup_elements _)]
        simp only [mem_minus]
        by_cases h3 : valueOf t ∈ elements prev.style <;> by_cases h4 : valueOf t ∈ elements r.style.style <;> simp [h3, h4, balancedFrom] <;> simp [h4] at ih <;> exact ih
    have h0 := key {}
    rw [elements_empty] at h0
    exact h0

/-! ## C155 – streams -/

/-- **C155**  A colour that is put into a stream is the colour of the text that is put in next. -/
def StreamStatement : Prop :=
  ∀ (s : Stream) (c : Fin 256) (runes : List (List Char)), s.buffered = true →
    ∃ b, (puts s [.fg c, .string runes]).buffer = s.buffer ++ runes.map (⟨·, b⟩) ∧ b.fg = c

/-- **C155**  It is if no colour was set before; a colour that is set by its name always is. -/
theorem stream_partial (s : Stream) (hb : s.buffered = true) (c : Fin 256) (runes : List (List Char)) :
    (s.active.fg = 0 → ∃ b, (puts s [.fg c, .string runes]).buffer = s.buffer ++ runes.map (⟨·, b⟩) ∧ b.fg = c ∧ b.bg = s.active.bg ∧ b.style = s.active.style) ∧
    ∃ b, (puts s [.set c, .string runes]).buffer = s.buffer ++ runes.map (⟨·, b⟩) ∧ b.fg = c ∧ b.bg = s.active.bg ∧ b.style = s.active.style := by
  constructor
  · intro h0
    refine ⟨s.active.add { fg := c }, ?_, ?_, ?_, ?_⟩
    · simp [puts, put, write, hb]
    · simp [Style.add, isDefault, h0]
    · by_cases h1 : s.active.bg = 0 <;> simp [Style.add, isDefault, h1]
    · funext i; simp [Style.add, Sets.union, Sets.empty]
  · refine ⟨{ s.active with fg := c }, ?_, rfl, rfl, rfl⟩
    simp [puts, put, write, hb]

/-- **C155**  The same for a background, if none was set before. -/
theorem stream_bg_partial (s : Stream) (hb : s.buffered = true) (c : Fin 256) (runes : List (List Char)) (h0 : s.active.bg = 0) :
    (puts s [.bg c, .string runes]).buffer = s.buffer ++ runes.map (⟨·, { s.active with bg := c }⟩) := by
  have h : s.active.add { bg := c } = { s.active with bg := c } := by
    have h1 : Sets.union s.active.style (Sets.empty 256) = s.active.style := by funext i; simp [Sets.union, Sets.empty]
    by_cases h2 : s.active.fg = 0
    · simp only [Style.add, isDefault, h0, h2, decide_true, if_true]; rw [h1]
    · simp only [Style.add, isDefault, h0, h2, decide_true, if_true, decide_false, Bool.false_eq_true, if_false]; rw [h1]
  simp [puts, put, write, hb, h]

/-- **C155**  A style that is put in is added to the others, and the colours stay; a whole style is that of the text that is
put in next. -/
theorem stream_style (s : Stream) (hb : s.buffered = true) (x : Bits 256) (y : Style) (runes : List (List Char)) :
    (∃ b, (puts s [.style x, .string runes]).buffer = s.buffer ++ runes.map (⟨·, b⟩) ∧ b.fg = s.active.fg ∧ b.bg = s.active.bg ∧
      ∀ i, b.style i = (s.active.style i || x i)) ∧
    (puts s [.whole y, .string runes]).buffer = s.buffer ++ runes.map (⟨·, y⟩) := by
  constructor
  · refine ⟨s.active.add { style := x }, by simp [puts, put, write, hb], ?_, ?_, ?_⟩
    · by_cases h : s.active.fg = 0 <;> simp [Style.add, isDefault, h]
    · by_cases h : s.active.bg = 0 <;> simp [Style.add, isDefault, h]
    · intro i; simp [Style.add, Sets.union]
  · simp [puts, put, write, hb]

/-- A second background is ignored too. -/
theorem stream_bg_false : ¬ ∀ (s : Stream) (c : Fin 256) (runes : List (List Char)), s.buffered = true →
    ∃ b, (puts s [.bg c, .string runes]).buffer = s.buffer ++ runes.map (⟨·, b⟩) ∧ b.bg = c := by
  intro h
  obtain ⟨b, h1, h2⟩ := h { buffered := true, active := { bg := 2 } } 3 [['a']] rfl
  have h3 : (puts { buffered := true, active := { bg := 2 } } [.bg 3, .string [['a']]]).buffer.map (·.style.bg) = [2] := by decide +kernel
  rw [h1] at h3
  simp only [List.nil_append, List.map_cons, List.map_nil, h2] at h3
  exact absurd h3 (by decide)

example : (puts { buffered := true, active := { fg := 3 } } [.bg 2, .string [['a'], ['b']]]).buffer.map (fun r => (r.style.fg, r.style.bg)) = [(3, 2), (3, 2)] := by
  decide +kernel

/-- A second colour is ignored. -/
theorem stream_false : ¬ StreamStatement := by
  intro h
  obtain ⟨b, h1, h2⟩ := h { buffered := true, active := { fg := 2 } } 3 [['a']] rfl
  have h3 : (puts { buffered := true, active := { fg := 2 } } [.fg 3, .string [['a']]]).buffer.map (·.style.fg) = [2] := by decide +kernel
  rw [h1] at h3
  simp only [List.nil_append, List.map_cons, List.map_nil, h2] at h3
  exact absurd h3 (by decide)

/-- The position is the number of runes in the buffer. -/
theorem stream_position (s : Stream) (hb : s.buffered = true) (h : s.position = s.buffer.length) (l : List Op) :
    (puts s l).position = (puts s l).buffer.length ∧ (puts s l).buffered = true := by
  induction l generalizing s with
  | nil => exact ⟨h, hb⟩
  | cons o r ih =>
    have hw : ∀ t, (write s t).position = (write s t).buffer.length ∧ (write s t).buffered = true := by
      intro t
      simp [write, hb, h]
    cases o with
    | fg c => exact ih _ hb h
    | bg c => exact ih _ hb h
    | style c => exact ih _ hb h
    | set c => exact ih _ hb h
    | whole c => exact ih _ hb h
    | string t => exact ih _ (hw _).2 (hw _).1
    | text t => exact ih _ (hw _).2 (hw _).1

/-- After a scope the active style is the one from before it, and what was written stays. -/
theorem stream_scope (s : Stream) (l : List Op) : (inScope s l).active = s.active ∧ (inScope s l).buffer = (puts s l).buffer ∧ (inScope s l).out = (puts s l).out :=
  ⟨rfl, rfl, rfl⟩

/-- What is written in parts to a terminal looks like what is written at once, for colours from black to cyan. -/
theorem stream_parts (s : Stream) (hb : s.buffered = false) (hc : s.coloured = true) (ho : s.out = []) (ts : List (List Rune))
    (h : ∀ t ∈ ts, ∀ r ∈ t, Clean r ∧ Plain r.style) :
    run {} (puts s (ts.map .text)).out = run {} (toColoured ts.flatten true) := by
  have hone : ∀ (t : List Rune), (∀ r ∈ t, Clean r ∧ Plain r.style) → ∀ cells, run ⟨.text, {}, cells⟩ (toColoured t true) =
      ⟨.text, {}, cells ++ (spelled t).map fun x => (x.1, attrsFor x.2)⟩ := fun t ht cells =>
    run_coloured (prev := {}) ⟨by decide, by decide, rfl⟩ t (fun r hr => (ht r hr).symm) cells
  have key : ∀ (ts : List (List Rune)) (s : Stream), s.buffered = false → s.coloured = true → (∀ t ∈ ts, ∀ r ∈ t, Clean r ∧ Plain r.style) →
      ∀ cells, run {} s.out = ⟨.text, {}, cells⟩ → run {} (puts s (ts.map .text)).out = ⟨.text, {}, cells ++ (spelled ts.flatten).map fun x => (x.1, attrsFor x.2)⟩ := by
    intro ts
    induction ts with
    | nil => intro s _ _ _ cells hr; simpa [puts, spelled] using hr
    | cons t r ih =>
      intro s hb hc hx cells hr
      have h1 := ih (write s t) (by simp [write, hb]) (by simp [write, hb, hc]) (fun u hu => hx u (by simp [hu])) (cells ++ (spelled t).map fun x => (x.1, attrsFor x.2)) (by
        simp only [write, hb, Bool.false_eq_true, if_false, hc]
        rw [run_append, hr, hone t (hx t (by simp))])
      show run {} (puts (write s t) (r.map .text)).out = _
      rw [h1]
      simp [spelled]
  rw [key ts s hb hc h [] (by rw [ho]; rfl)]
  rw [show ({} : Screen) = ⟨.text, {}, []⟩ from rfl, hone ts.flatten]
  intro r hr
  obtain ⟨t, ht, hr⟩ := List.mem_flatten.mp hr
  exact h t ht r hr

/-! ## C156 – parts of texts -/

theorem split_ne (d : List Char) (cur t : List Rune) : splitFrom d cur t ≠ [] := by
  induction t generalizing cur with
  | nil => simp [splitFrom]
  | cons r rs ih =>
    rw [splitFrom]
    split_ifs
    · simp
    · exact ih _

theorem join_cons (sep t : List Rune) {l : List (List Rune)} (h : l ≠ []) : join sep (t :: l) = t ++ sep ++ join sep l := by
  cases l with
  | nil => exact absurd rfl h
  | cons u r => rfl

/-- **C156**  The parts of a text have no delimiter in them; and, joined by the delimiter, they are the text again. -/
theorem split_join (t : List Rune) (d : List Char) (st : Style) (h : ∀ r ∈ t, r.text = d → r.style = st) :
    join [⟨d, st⟩] (split t d) = t ∧ (∀ p ∈ split t d, ∀ r ∈ p, r.text ≠ d) ∧ (split t d).length = t.countP (·.text = d) + 1 := by
  have key : ∀ (t cur : List Rune), (∀ r ∈ t, r.text = d → r.style = st) → (∀ r ∈ cur, r.text ≠ d) →
      join [⟨d, st⟩] (splitFrom d cur t) = cur ++ t ∧ (∀ p ∈ splitFrom d cur t, ∀ r ∈ p, r.text ≠ d) ∧
        (splitFrom d cur t).length = t.countP (·.text = d) + 1 := by
    intro t
    induction t with
    | nil =>
      intro cur _ hc
      refine ⟨by simp [splitFrom, join], ?_, by simp [splitFrom]⟩
      intro p hp
      rw [splitFrom, List.mem_singleton] at hp
      exact hp ▸ hc
    | cons r rs ih =>
      intro cur ht hc
      rw [splitFrom]
      by_cases hr : r.text = d
      · obtain ⟨h1, h2, h3⟩ := ih [] (fun x hx => ht x (by simp [hx])) (by simp)
        rw [if_pos hr]
        refine ⟨?_, ?_, ?_⟩
        · rw [join_cons _ _ (split_ne d [] rs), h1]
          have : r = ⟨d, st⟩ := by cases r; simp only [Rune.mk.injEq]; exact ⟨hr, ht _ (by simp) hr⟩
          rw [this]
          simp
        · intro p hp
          rcases List.mem_cons.mp hp with rfl | hp
          · exact hc
          · exact h2 p hp
        · simp [h3, hr]
      · obtain ⟨h1, h2, h3⟩ := ih (cur ++ [r]) (fun x hx => ht x (by simp [hx])) (by
          intro x hx
          rcases List.mem_append.mp hx with hx | hx
          · exact hc x hx
          · rw [List.mem_singleton.mp hx]; exact hr)
        rw [if_neg hr]
        refine ⟨by rw [h1]; simp, h2, ?_⟩
        rw [h3]
        simp [hr]
  have := key t [] h (by simp)
  rwa [List.nil_append] at this

/-- **C156**  An aligned text is the text, with the given rune added on one side until it has the width. -/
theorem aligned (t : List Rune) (n : Nat) (c : Rune) :
    rightAligned t n c = List.replicate (n - t.length) c ++ t ∧ leftAligned t n c = t ++ List.replicate (n - t.length) c := by
  constructor
  · rw [rightAligned]
    split_ifs with h
    · rfl
    · rw [show n - t.length = 0 by omega]; rfl
  · induction hm : n - t.length generalizing t with
    | zero => rw [leftAligned, if_neg (by omega)]; simp
    | succ m ih =>
      rw [leftAligned, if_pos (by omega), ih (t ++ [c]) (by simp; omega), List.append_assoc, List.replicate_succ]
      rfl

/-- **C156**  Written with an indentation, a text is written with the spaces after each of its line ends. -/
theorem indented (s : Stream) (hb : s.buffered = true) (t : List Rune) (n : Nat) :
    (writeIndented s t n).buffer = s.buffer ++ join (⟨['\n'], {}⟩ :: List.replicate n ⟨[' '], {}⟩) (split t ['\n']) := by
  have hw : ∀ (s : Stream) (t : List Rune), s.buffered = true → (write s t).buffer = s.buffer ++ t ∧ (write s t).buffered = true := by
    intro s t h
    simp [write, h]
  have key : ∀ (l : List (List Rune)) (x : List Rune) (s : Stream), s.buffered = true →
      (indentRest (write s x) n l).buffer = s.buffer ++ join (⟨['\n'], {}⟩ :: List.replicate n ⟨[' '], {}⟩) (x :: l) := by
    intro l
    induction l with
    | nil => intro x s h; rw [indentRest, (hw s x h).1]; rfl
    | cons y r ih =>
      intro x s h
      have h1 := hw s x h
      have h2 := hw (write s x) [⟨['\n'], {}⟩] h1.2
      have h3 := hw (write (write s x) [⟨['\n'], {}⟩]) (List.replicate n ⟨[' '], {}⟩) h2.2
      rw [indentRest, ih y _ h3.2, h3.1, h2.1, h1.1, join_cons _ x (by simp)]
      simp
  unfold writeIndented
  cases hs : split t ['\n'] with
  | nil => exact absurd hs (split_ne _ _ _)
  | cons x r => exact key r x s hb

example : split [⟨['a'], {}⟩, ⟨['\n'], {}⟩, ⟨['b'], { fg := 2 }⟩] ['\n'] = [[⟨['a'], {}⟩], [⟨['b'], { fg := 2 }⟩]] := by decide +kernel

end Verif.Term
