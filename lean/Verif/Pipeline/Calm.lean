import Verif.Tokenizer.Props
import Mathlib.Data.List.TakeWhile

/-!
# Lines without indentation and without structure are left alone by the tokenizer
-/

namespace Verif.Pipeline
open Verif.Token Verif.Tokenizer

/-- Kinds of tokens that start something other than a line of text. -/
def structural : List TK :=
  [.LeadingSpace, .Minus, .LeadingNumber, .LeadingMinus, .LeadingPlus, .LineCommand, .TreeClock, .CmdExampleLine, .SrcContent] ++
    cmdBlockClose

theorem lineKind_calm {first : Tok} (ts : List Tok) (h : first.kind ∉ structural) : lineKindOf ts first = .ok .line := by
  obtain ⟨k, x, l⟩ := first
  revert h; dsimp only
  cases k <;> first | exact fun _ => rfl | (intro h; exact absurd (by simp [structural, cmdBlockClose]) h)

theorem indent_calm {first : Tok} (h : first.kind ∉ structural) : indentOf first = 0 := by
  obtain ⟨k, x, l⟩ := first
  revert h; dsimp only
  cases k <;> first | exact fun _ => rfl | (intro h; exact absurd (by simp [structural, cmdBlockClose]) h)

theorem mkLine_calm {ts : List Tok} (hne : ts ≠ []) (h : ∀ t ∈ ts, t.kind ∉ structural) : mkLine ts = .ok ⟨ts, 0, .line⟩ := by
  cases ts with
  | nil => exact absurd rfl hne
  | cons t ts =>
    simp only [mkLine, lineKind_calm _ (h t List.mem_cons_self), indent_calm (h t List.mem_cons_self), bind, Except.bind]

theorem toLines_calm (ts : List Tok) : ∀ cur : List Tok, (∀ t ∈ cur ++ ts, t.kind ∉ structural) →
    ∃ ls, toLinesLoop cur ts = .ok ls ∧ lineTokens ls = cur ++ ts ∧ ∀ l ∈ ls, l.kind = .line ∧ l.indent = 0 ∧ ∀ t ∈ l.tokens, t.kind ∉ structural := by
  induction ts with
  | nil =>
    intro cur h
    unfold toLinesLoop
    by_cases hc : cur = []
    · subst hc
      exact ⟨[], rfl, rfl, by simp⟩
    · rw [if_neg (by simpa using hc), mkLine_calm hc (by simpa using h)]
      exact ⟨_, rfl, by simp [lineTokens], by simpa using h⟩
  | cons t ts ih =>
    intro cur h
    unfold toLinesLoop
    by_cases ht : t.kind ∈ lineEnd
    · obtain ⟨ls, h1, h2, h3⟩ := ih [] (fun x hx => h x (by simp at hx ⊢; tauto))
      have hc : ∀ x ∈ cur ++ [t], x.kind ∉ structural := fun x hx => h x (by simp at hx ⊢; tauto)
      rw [if_pos ht, mkLine_calm (by simp) hc, h1]
      refine ⟨_, rfl, by simpa [lineTokens] using h2, ?_⟩
      intro l hl
      rcases List.mem_cons.mp hl with rfl | hl
      · exact ⟨rfl, rfl, hc⟩
      · exact h3 l hl
    · rw [if_neg ht]
      obtain ⟨ls, h1, h2, h3⟩ := ih (cur ++ [t]) (by simpa using h)
      exact ⟨ls, h1, by simpa using h2, h3⟩

theorem recAddLine_calm (gk : GK) (ts : List Tok) : ∀ prev, (∀ t ∈ ts, t.kind ∉ structural) → recAddLine gk prev ts = .ok ts := by
  induction ts with
  | nil => intro _ _; rfl
  | cons t ts ih =>
    intro prev h
    have ht := h t List.mem_cons_self
    have := ih (some t) (fun x hx => h x (List.mem_cons_of_mem _ hx))
    unfold recAddLine
    obtain ⟨k, x, l⟩ := t
    revert ht
    cases k <;> first | (intro _; simp only [this, bind, Except.bind]; done) | (intro h; exact absurd (by simp [structural, cmdBlockClose]) h)

theorem recAddLines_calm (gk : GK) (ls : List Line) (h : ∀ l ∈ ls, ∀ t ∈ l.tokens, t.kind ∉ structural) :
    recAddLines gk ls = .ok (lineTokens ls) := by
  induction ls with
  | nil => rfl
  | cons l ls ih =>
    simp only [recAddLines, recAddLine_calm gk l.tokens none (h l List.mem_cons_self),
      ih (fun x hx => h x (List.mem_cons_of_mem _ hx)), bind, Except.bind]
    simp [lineTokens]

/-- The tokenizer adds no indentation to lines of text. -/
theorem regroup_calm (ts : List Tok) (h : ∀ t ∈ ts, t.kind ∉ structural) : regroup ts = .ok ts := by
  obtain ⟨ls, h1, h2, h3⟩ := toLines_calm ts [] (by simpa using h)
  simp only [List.nil_append] at h2
  simp only [regroup, toLines, h1, bind, Except.bind]
  cases ls with
  | nil =>
    simp only [lineTokens, List.map_nil, List.flatten_nil] at h2
    subst h2
    rfl
  | cons l ls =>
    have hl := h3 l List.mem_cons_self
    have hp : ∀ x ∈ l :: ls, ((decide (x.kind = .line) || decide (x.kind = .indentedLine)) && decide (l.indent ≤ x.indent)) = true := by
      intro x hx
      simp [(h3 x hx).1, (h3 x hx).2.1, hl.2.1]
    have hg : toGroups (2 * (l :: ls).length + 2) (l :: ls) = .ok (.leaf .line (l :: ls) .nil) := by
      rw [show 2 * (l :: ls).length + 2 = (2 * ls.length + 1) + 1 + 1 + 1 from by simp; omega]
      unfold toGroups recGroup
      simp only [hl.1, List.takeWhile_eq_self_iff.mpr hp, List.dropWhile_eq_nil_iff.mpr hp, bind, Except.bind]
      simp [toGroups, Groups.append]
    rw [hg]
    simp only [convertGroups, convertLoop, preGroup, recAddLines_calm .line (l :: ls) (fun x hx => (h3 x hx).2.2), bind, Except.bind]
    simp [popCount, h2]

end Verif.Pipeline
