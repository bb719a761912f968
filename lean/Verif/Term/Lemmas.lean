import Verif.Term.Spec
import Verif.Sets.Lemmas
import Mathlib.Tactic.IntervalCases

/-!
# What the terminal does with the sequences
-/

namespace Verif.Term

open Verif.Sets (Bits elements)

theorem run_append (s : Screen) (a b : List Char) : run s (a ++ b) = run (run s a) b := List.foldl_append

theorem run_cons (s : Screen) (c : Char) (b : List Char) : run s (c :: b) = run (step s c) b := rfl

theorem run_text (a : Attrs) (cells : List (Char × Attrs)) (l : List Char) (h : ESC ∉ l) :
    run ⟨.text, a, cells⟩ l = ⟨.text, a, cells ++ l.map (·, a)⟩ := by
  induction l generalizing cells with
  | nil => simp [run]
  | cons c r ih =>
    have h1 : c ≠ Char.ofNat 27 := fun hx => h (by rw [hx]; exact List.mem_cons_self)
    rw [run_cons, step]
    dsimp only
    rw [if_neg h1, ih _ (fun hx => h (List.mem_cons_of_mem _ hx))]
    simp

/-- The mode after digits. -/
def digits : Nat → List Char → Option Nat
  | cur, [] => some cur
  | cur, c :: r => if '0' ≤ c ∧ c ≤ '9' then digits (cur * 10 + (c.toNat - 48)) r else none

theorem run_digits (a : Attrs) (cells : List (Char × Attrs)) (done : List Nat) (l : List Char) (cur n : Nat) (h : digits cur l = some n) :
    run ⟨.params done cur, a, cells⟩ l = ⟨.params done n, a, cells⟩ := by
  induction l generalizing cur with
  | nil =>
    have : cur = n := by simpa [digits] using h
    rw [this]; rfl
  | cons c r ih =>
    rw [digits] at h
    split_ifs at h with h1
    rw [run_cons, step]
    dsimp only
    rw [if_pos h1, ih _ h]

theorem digits_of : ∀ n : Fin 256, digits 0 (Nat.toDigits 10 n.val) = some n.val := by decide +kernel

theorem run_esc (a : Attrs) (cells : List (Char × Attrs)) (n : Nat) (hn : n < 256) : run ⟨.text, a, cells⟩ (esc n) = ⟨.text, sgr a [n], cells⟩ := by
  rw [esc, run_cons, run_cons, run_append]
  show run (run ⟨.params [] 0, a, cells⟩ (Nat.toDigits 10 n)) ['m'] = _
  rw [run_digits a cells [] _ 0 n (digits_of ⟨n, hn⟩)]
  rfl

theorem run_palette (a : Attrs) (cells : List (Char × Attrs)) (l : List Char) (n : Fin 256) :
    ∃ b, run ⟨.params [l.length, 5] 0, a, cells⟩ (Nat.toDigits 10 n.val ++ ['m']) = ⟨.text, b, cells⟩ := by
  rw [run_append, run_digits a cells _ _ 0 n.val (digits_of n)]
  exact ⟨_, rfl⟩

/-- After a sequence the terminal is in text again, and nothing was written. -/
def Silent (l : List Char) : Prop := ∀ a cells, ∃ b, run ⟨.text, a, cells⟩ l = ⟨.text, b, cells⟩

theorem silent_nil : Silent [] := fun a _ => ⟨a, rfl⟩

theorem silent_append {x y : List Char} (hx : Silent x) (hy : Silent y) : Silent (x ++ y) := by
  intro a cells
  obtain ⟨b, hb⟩ := hx a cells
  rw [run_append, hb]
  exact hy b cells

theorem silent_esc {n : Nat} (hn : n < 256) : Silent (esc n) := fun a cells => ⟨_, run_esc a cells n hn⟩

theorem silent_fg (c : Fin 256) : Silent (fgEsc c) := by
  unfold fgEsc
  split_ifs
  · exact silent_esc (by omega)
  · exact silent_esc (by omega)
  · intro a cells
    show ∃ b, run ⟨.params [38, 5] 0, a, cells⟩ (Nat.toDigits 10 c.val ++ ['m']) = _
    rw [run_append, run_digits a cells _ _ 0 c.val (digits_of c)]
    exact ⟨_, rfl⟩

theorem silent_bg (c : Fin 256) : Silent (bgEsc c) := by
  unfold bgEsc
  split_ifs
  · exact silent_esc (by omega)
  · exact silent_esc (by omega)
  · intro a cells
    show ∃ b, run ⟨.params [48, 5] 0, a, cells⟩ (Nat.toDigits 10 c.val ++ ['m']) = _
    rw [run_append, run_digits a cells _ _ 0 c.val (digits_of c)]
    exact ⟨_, rfl⟩

theorem silent_style (o : Bool) (v : Nat) : Silent (styleEsc o v) := by
  unfold styleEsc
  split_ifs
  · exact silent_esc (by omega)
  · exact silent_esc (by omega)
  · exact silent_nil

theorem silent_flatMap {α : Type} (f : α → List Char) (l : List α) (h : ∀ x, Silent (f x)) : Silent (l.flatMap f) := by
  induction l with
  | nil => exact silent_nil
  | cons x r ih => rw [List.flatMap_cons]; exact silent_append (h x) ih

theorem silent_diff (s1 s2 : Style) : Silent (ansiDiff s1 s2) := by
  unfold ansiDiff
  refine silent_append (silent_append (silent_append ?_ ?_) ?_) ?_
  · split_ifs
    · exact silent_nil
    · exact silent_esc (by decide)
    · exact silent_fg _
  · split_ifs
    · exact silent_nil
    · exact silent_esc (by decide)
    · exact silent_bg _
  · exact silent_flatMap _ _ (silent_style false)
  · exact silent_flatMap _ _ (silent_style true)

/-- A style without styles, and with colours from black to cyan, or none. -/
def Plain (s : Style) : Prop := s.fg.val ≤ 7 ∧ s.bg.val ≤ 7 ∧ s.style = Sets.empty 256

/-- The rendition for it. -/
def attrsFor (s : Style) : Attrs := ⟨colourFor s.fg, colourFor s.bg, []⟩

theorem elements_none : elements (Sets.minus (Sets.empty 256) (Sets.empty 256)) = [] := by
  rw [Sets.elements_bits, List.filter_eq_nil_iff]
  intro i _
  simp [Sets.bit, Sets.minus, Sets.empty]

theorem elements_empty : elements (Sets.empty 256) = [] := by
  rw [Sets.elements_bits, List.filter_eq_nil_iff]
  intro i _
  simp [Sets.bit, Sets.empty]

theorem sgr_fg : ∀ c : Fin 256, c.val ≤ 7 → c ≠ 0 → ∀ b : Colour, ∀ a : Colour, sgr ⟨a, b, []⟩ [c.val - 1 + 30] = ⟨colourFor c, b, []⟩ := by
  intro c hc h0 b a
  have : c.val ≠ 0 := fun hx => h0 (Fin.ext hx)
  obtain ⟨n, hn⟩ : ∃ n, c.val = n + 1 := ⟨c.val - 1, by omega⟩
  have hn' : n < 7 := by omega
  rw [colourFor, if_pos (by omega), hn]
  interval_cases n <;> rfl

theorem sgr_bg : ∀ c : Fin 256, c.val ≤ 7 → c ≠ 0 → ∀ b : Colour, ∀ a : Colour, sgr ⟨a, b, []⟩ [c.val - 1 + 40] = ⟨a, colourFor c, []⟩ := by
  intro c hc h0 b a
  have : c.val ≠ 0 := fun hx => h0 (Fin.ext hx)
  obtain ⟨n, hn⟩ : ∃ n, c.val = n + 1 := ⟨c.val - 1, by omega⟩
  have hn' : n < 7 := by omega
  rw [colourFor, if_pos (by omega), hn]
  interval_cases n <;> rfl

theorem run_fg (s1 s2 : Fin 256) (h2 : s2.val ≤ 7) (b : Colour) (cells : List (Char × Attrs)) :
    run ⟨.text, ⟨colourFor s1, b, []⟩, cells⟩ (if s2 = s1 then [] else if isDefault s2 then esc 39 else fgEsc s2) = ⟨.text, ⟨colourFor s2, b, []⟩, cells⟩ := by
  split_ifs with h3 h4
  · rw [h3]; rfl
  · have : s2 = 0 := by simpa [isDefault] using h4
    rw [run_esc _ _ _ (by decide), this]
    rfl
  · have h0 : s2 ≠ 0 := by simpa [isDefault] using h4
    rw [fgEsc, if_pos h2, run_esc _ _ _ (by omega), sgr_fg s2 h2 h0]

theorem run_bg (s1 s2 : Fin 256) (h2 : s2.val ≤ 7) (a : Colour) (cells : List (Char × Attrs)) :
    run ⟨.text, ⟨a, colourFor s1, []⟩, cells⟩ (if s2 = s1 then [] else if isDefault s2 then esc 49 else bgEsc s2) = ⟨.text, ⟨a, colourFor s2, []⟩, cells⟩ := by
  split_ifs with h3 h4
  · rw [h3]; rfl
  · have : s2 = 0 := by simpa [isDefault] using h4
    rw [run_esc _ _ _ (by decide), this]
    rfl
  · have h0 : s2 ≠ 0 := by simpa [isDefault] using h4
    rw [bgEsc, if_pos h2, run_esc _ _ _ (by omega), sgr_bg s2 h2 h0]

theorem run_diff {s1 s2 : Style} (h1 : Plain s1) (h2 : Plain s2) (cells : List (Char × Attrs)) :
    run ⟨.text, attrsFor s1, cells⟩ (ansiDiff s1 s2) = ⟨.text, attrsFor s2, cells⟩ := by
  rw [ansiDiff, h1.2.2, h2.2.2, elements_none, List.flatMap_nil, List.flatMap_nil, List.append_nil, List.append_nil, run_append, attrsFor,
    run_fg s1.fg s2.fg h2.1, run_bg s1.bg s2.bg h2.2.1]
  rfl

/-- The runes of a text, character by character. -/
def spelled (runes : List Rune) : List (Char × Style) := runes.flatMap fun r => r.text.map (·, r.style)

theorem run_coloured {prev : Style} (hp : Plain prev) (runes : List Rune) (h : ∀ r ∈ runes, Plain r.style ∧ Clean r) (cells : List (Char × Attrs)) :
    run ⟨.text, attrsFor prev, cells⟩ (colouredFrom prev runes) = ⟨.text, {}, cells ++ (spelled runes).map fun x => (x.1, attrsFor x.2)⟩ := by
  induction runes generalizing prev cells with
  | nil =>
    rw [colouredFrom]
    split_ifs with h1
    · simp only [Bool.and_eq_true, isDefault, decide_eq_true_eq] at h1
      rw [attrsFor, h1.1.1, h1.1.2]
      simp [spelled, run, colourFor]
    · rw [run_esc _ _ _ (by decide)]
      simp [spelled, sgr, sgr1]
  | cons r rs ih =>
    obtain ⟨h1, h2⟩ := h r (by simp)
    rw [colouredFrom, run_append, run_append, run_diff hp h1, run_text _ _ _ h2, ih h1 (fun x hx => h x (by simp [hx]))]
    simp [spelled]

theorem run_shown (runes : List Rune) (h : ∀ r ∈ runes, Clean r) (prev : Style) (a : Attrs) (cells : List (Char × Attrs)) :
    ∃ b more, run ⟨.text, a, cells⟩ (colouredFrom prev runes) = ⟨.text, b, cells ++ more⟩ ∧ more.map (·.1) = runes.flatMap (·.text) := by
  induction runes generalizing prev a cells with
  | nil =>
    rw [colouredFrom]
    split_ifs
    · exact ⟨a, [], by simp [run], rfl⟩
    · obtain ⟨b, hb⟩ := silent_esc (n := 0) (by decide) a cells
      exact ⟨b, [], by rw [hb, List.append_nil], rfl⟩
  | cons r rs ih =>
    obtain ⟨b, hb⟩ := silent_diff prev r.style a cells
    obtain ⟨c, more, h1, h2⟩ := ih (fun x hx => h x (by simp [hx])) r.style b (cells ++ r.text.map (·, b))
    refine ⟨c, r.text.map (·, b) ++ more, ?_, ?_⟩
    · rw [colouredFrom, run_append, run_append, hb, run_text _ _ _ (h r (by simp)), h1, List.append_assoc]
    · rw [List.map_append, h2, List.flatMap_cons]
      simp [Function.comp_def]

end Verif.Term
