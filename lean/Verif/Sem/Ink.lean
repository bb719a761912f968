import Verif.Sem.Prose

/-!
# All texts of a document are written
-/

namespace Verif.Sem
open Verif.Layout
open scoped List

theorem visible_sublist {a b : List Char} (h : a <+ b) : visible a <+ visible b := h.filter _

mutual

theorem ink_flat (s : Sem) (h : Inline s) : inkOf s <+ visible (flat s) := by
  match s with
  | .leaf k t =>
    cases k
    case Newline => exact List.nil_sublist _
    case Escaped => exact visible_sublist (List.sublist_cons_self _ _)
    case AtMention => exact visible_sublist (List.sublist_cons_self _ _)
    case Placeholder => exact visible_sublist ((List.sublist_append_left _ _).trans (List.sublist_cons_self _ _))
    all_goals exact List.Sublist.refl _
  | .tree k subs =>
    have h : mark k ≠ none ∧ AllInline subs := h
    simp only [inkOf, flat, visible_append]
    exact (ink_flats subs h.2).trans ((List.sublist_append_right _ _).trans (List.sublist_append_left _ _))
  | .item .. => exact h.elim
  | .head .. => exact h.elim

theorem ink_flats (ss : List Sem) (h : AllInline ss) : inksOf ss <+ visible (flats ss) := by
  match ss with
  | [] => exact List.nil_sublist _
  | s :: ss =>
    simp only [inksOf, flats, visible_append]
    exact (ink_flat s h.1).append (ink_flats ss h.2)

end

theorem sepBy_mem (sep : List Char) {t : List Char} {ts : List (List Char)} (h : t ∈ ts) : t <+ sepBy sep ts := by
  induction ts with
  | nil => cases h
  | cons u us ih =>
    cases us with
    | nil =>
      obtain rfl := List.mem_singleton.mp h
      exact List.Sublist.refl _
    | cons v us =>
      rw [sepBy_cons _ _ _ (by simp)]
      rcases List.mem_cons.mp h with rfl | h
      · exact (List.sublist_append_left _ _).trans (List.sublist_append_left _ _)
      · exact (ih h).trans (List.sublist_append_right _ _)

theorem hang_sublist (p : List Char) (ls : List (List Char)) : p ++ ls.flatten <+ (hang p ls).flatten := by
  cases ls with
  | nil => simp [hang]
  | cons l r =>
    simp only [hang, List.flatten_cons]
    rw [List.append_assoc]
    refine (List.Sublist.refl _).append ((List.Sublist.refl _).append ?_)
    induction r with
    | nil => simp
    | cons x r ih =>
      simp only [List.map_cons, List.flatten_cons]
      exact (List.sublist_append_right _ _).append ih

mutual

theorem ink_lines (s : Sem) (h : Outline s) : inkOf s <+ visible (lines s).flatten := by
  match s with
  | .leaf k t =>
    cases k
    case Newline => exact List.nil_sublist _
    all_goals
      obtain ⟨h1, h2⟩ := outline_leaf (by decide) h
      rw [h2]
      simpa using ink_flat _ h1
  | .tree k subs =>
    cases k
    case Paragraph =>
      rw [lines, parLines_flats]
      exact ink_flats subs h
    case List => exact ink_linesAll subs h
    all_goals
      obtain ⟨h1, h2⟩ := outline_tree (by decide) (by decide) h
      rw [h2]
      simpa using ink_flat _ h1
  | .item info header subs =>
    obtain ⟨hd, -, hs⟩ := h
    cases he : info.described with
    | false =>
      have e : lines (.item info header subs) = hang (bulletText info) (linesAll subs) := by
        cases subs <;> simp [lines, linesAll, he]
      rw [e]
      refine List.Sublist.trans ?_ (visible_sublist (hang_sublist _ _))
      rw [visible_append]
      refine List.Sublist.trans ?_ (List.sublist_append_right _ _)
      simpa [inkOf, he] using ink_linesAll subs hs
    | true =>
      match subs with
      | [] => exact absurd rfl (hd he).2.2.2
      | s :: ss =>
        rw [lines, he]
        simp only [if_true, inkOf, he]
        refine List.Sublist.trans ?_ (visible_sublist (hang_sublist _ _))
        rw [visible_append]
        refine List.Sublist.trans ?_ (List.sublist_append_right _ _)
        rw [List.flatten_append, visible_append, inksOf, ← List.append_assoc]
        refine List.Sublist.append ?_ (by simpa using ink_linesAll ss hs.2)
        refine List.Sublist.trans ?_ (visible_sublist (hang_sublist _ _))
        rw [visible_append]
        refine List.Sublist.append ?_ (ink_lines s hs.1)
        rw [visible_append]
        exact (ink_flats header (hd he).2.1).trans (List.sublist_append_left _ _)
  | .head info title subs =>
    obtain ⟨-, -, -, hne, hi, hn, hs⟩ := h
    rw [lines, List.flatten_cons, visible_append, inkOf]
    refine List.Sublist.append ?_ ?_
    · refine (ink_flats title hi).trans (visible_sublist ?_)
      have : flats title <+ headLine info title := sepBy_mem _ (by simp)
      exact this.trans ((List.sublist_cons_self _ _).trans (List.sublist_append_right _ _))
    · cases subs with
      | nil => exact List.nil_sublist _
      | cons s ss => simpa using ink_linesAll (s :: ss) hs

theorem ink_linesAll (ss : List Sem) (h : AllOutline ss) : inksOf ss <+ visible (linesAll ss).flatten := by
  match ss with
  | [] => exact List.nil_sublist _
  | s :: ss =>
    rw [inksOf, linesAll, List.flatten_append, visible_append]
    exact (ink_lines s h.1).append (ink_linesAll ss h.2)

end

end Verif.Sem
