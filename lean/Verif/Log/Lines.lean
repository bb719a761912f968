import Verif.Log.Read
import Verif.Stamp.Props

/-!
# The entries of a logbook
-/

namespace Verif.Log
open Verif.Sem (LK)
open Verif.Pipeline (Piece IsWord Stem fits)
open Verif.Stamp (Item Stamp Out Dated DatedFrom docRaw render)
open Verif.Drawer (Text)
open Verif.BaseLexer (normalize isAlpha isAlnum toLower)

/-! ## Words -/

theorem stem_alnum {w : Text} (h : ∀ c ∈ w, isAlnum c = true) : Stem w := by
  induction w with
  | nil => trivial
  | cons a w ih =>
    cases w with
    | nil => exact h a (by simp)
    | cons b r => exact ⟨.inl (h a (by simp)), ih fun c hc => h c (List.mem_cons_of_mem _ hc)⟩

theorem plain_word {w : Text} (h1 : ∃ c ∈ w.head?, isAlpha c = true) (h2 : ∀ c ∈ w, isAlnum c = true)
    (h3 : ¬ "http".toList <+: w.map toLower) (h4 : ¬ "src".toList <+: w.map toLower) : IsWord w :=
  ⟨h1, ⟨w, [], by simp, stem_alnum h2, .inl rfl⟩, h3, h4⟩

theorem is_state : IsWord "State".toList := plain_word ⟨'S', rfl, by decide⟩ (by decide) (by decide +kernel) (by decide +kernel)
theorem is_from : IsWord "from".toList := plain_word ⟨'f', rfl, by decide⟩ (by decide) (by decide +kernel) (by decide +kernel)
theorem is_note : IsWord "Note".toList := plain_word ⟨'N', rfl, by decide⟩ (by decide) (by decide +kernel) (by decide +kernel)
theorem is_taken : IsWord "taken".toList := plain_word ⟨'t', rfl, by decide⟩ (by decide) (by decide +kernel) (by decide +kernel)
theorem is_on : IsWord "on".toList := plain_word ⟨'o', rfl, by decide⟩ (by decide) (by decide +kernel) (by decide +kernel)
theorem is_priority : IsWord "Priority".toList := plain_word ⟨'P', rfl, by decide⟩ (by decide) (by decide +kernel) (by decide +kernel)
theorem is_added : IsWord "added".toList := plain_word ⟨'a', rfl, by decide⟩ (by decide) (by decide +kernel) (by decide +kernel)
theorem is_changed : IsWord "changed".toList := plain_word ⟨'c', rfl, by decide⟩ (by decide) (by decide +kernel) (by decide +kernel)
theorem is_removed : IsWord "removed".toList := plain_word ⟨'r', rfl, by decide⟩ (by decide) (by decide +kernel) (by decide +kernel)

/-! ## They are documents with times -/

theorem from_word {b : Bool} {w : Text} {r : List Item} (h : IsWord w) (hn : ∃ q, r.head?.map Item.like = some q ∧ ¬ q.Alnum ∧ q ≠ .colon) (hr : DatedFrom false r) :
    DatedFrom b (word w :: r) := by
  obtain ⟨q, h1, h2, h3⟩ := hn
  refine ⟨h, by simp, by simp, by simp, ?_, hr⟩
  simp only [fits, h1]
  refine ⟨by simp, ?_, ?_⟩
  · intro x hx; cases hx; exact h2
  · intro hx; cases hx; exact absurd rfl h3

theorem from_space {n : Nat} {r : List Item} (hn : ∀ m, r.head?.map Item.like ≠ some (.gap m)) (hr : DatedFrom false r) :
    DatedFrom false (space n :: r) :=
  ⟨trivial, by simp, by simp, by simp, ⟨rfl, hn⟩, hr⟩

theorem from_quote {b : Bool} {r : List Item} (hr : DatedFrom false r) : DatedFrom b (quote :: r) :=
  ⟨.inl ⟨'"', rfl, by decide⟩, by simp, by simp, by simp, trivial, hr⟩

theorem from_end : DatedFrom false [lineEnd] := ⟨trivial, by simp, by simp, by simp, by simp [fits], trivial⟩

theorem from_stamp {s : Stamp} (h : s.Valid) : DatedFrom false [.stamp s, lineEnd] :=
  ⟨h, ⟨_, rfl, rfl⟩, rfl, from_end⟩

theorem from_name {q : Bool} {w : Text} {n : Nat} {r : List Item} (h : IsWord w) (hr : DatedFrom false (space n :: r)) :
    DatedFrom false (name q w ++ space n :: r) := by
  cases q with
  | false => exact from_word h ⟨_, rfl, id, nofun⟩ hr
  | true => exact from_quote (from_word h ⟨_, rfl, id, nofun⟩ (from_quote hr))

theorem name_like (q : Bool) (w : Text) (r : List Item) : ∀ m, (name q w ++ r).head?.map Item.like ≠ some (.gap m) := by
  intro m
  cases q <;> simp [name, word, quote, Item.like]

theorem line_dated {l : Line} (h : l.Valid) (g : Nat → Nat) : Dated (l.items g) := by
  have hw := h.names
  have hs := h.stamps
  cases l with
  | state new old on =>
    have h1 := hw new (by simp [Line.names])
    have h2 := (hs on (by simp [Line.stamps])).1
    cases old with
    | none =>
      refine ⟨?_, by simp [Line.items, word], by simp [Line.items, lineEnd]⟩
      exact from_word is_state ⟨_, rfl, id, nofun⟩ (from_space (by simp [quote, Item.like]) (from_quote (from_word h1 ⟨_, rfl, id, nofun⟩ (from_quote
        (from_space (by simp [word, Item.like]) (from_word is_from ⟨_, rfl, id, nofun⟩ (from_space (by simp [quote, Item.like]) (from_quote (from_quote
        (from_space (by simp [Item.like]) (from_stamp h2)))))))))))
    | some o =>
      have h3 := hw o (by simp [Line.names])
      refine ⟨?_, by simp [Line.items, word], by simp [Line.items, lineEnd]⟩
      exact from_word is_state ⟨_, rfl, id, nofun⟩ (from_space (by simp [quote, Item.like]) (from_quote (from_word h1 ⟨_, rfl, id, nofun⟩ (from_quote
        (from_space (by simp [word, Item.like]) (from_word is_from ⟨_, rfl, id, nofun⟩ (from_space (by simp [quote, Item.like]) (from_quote
        (from_word h3 ⟨_, rfl, id, nofun⟩ (from_quote (from_space (by simp [Item.like]) (from_stamp h2))))))))))))
  | note on =>
    have h2 := (hs on (by simp [Line.stamps])).1
    refine ⟨?_, by simp [Line.items, word], by simp [Line.items, lineEnd]⟩
    exact from_word is_note ⟨_, rfl, id, nofun⟩ (from_space (by simp [word, Item.like]) (from_word is_taken ⟨_, rfl, id, nofun⟩
      (from_space (by simp [word, Item.like]) (from_word is_on ⟨_, rfl, id, nofun⟩ (from_space (by simp [Item.like]) (from_stamp h2))))))
  | added q new on =>
    have h1 := hw new (by simp [Line.names])
    have h2 := (hs on (by simp [Line.stamps])).1
    refine ⟨?_, by simp [Line.items, word], by cases q <;> simp [Line.items, name, word, quote, lineEnd]⟩
    exact from_word is_priority ⟨_, rfl, id, nofun⟩ (from_space (name_like q new _) (from_name h1 (from_space (by simp [word, Item.like])
      (from_word is_added ⟨_, rfl, id, nofun⟩ (from_space (by simp [word, Item.like]) (from_word is_on ⟨_, rfl, id, nofun⟩
      (from_space (by simp [Item.like]) (from_stamp h2))))))))
  | changed q new old on =>
    have h1 := hw new (by simp [Line.names])
    have h3 := hw old (by simp [Line.names])
    have h2 := (hs on (by simp [Line.stamps])).1
    refine ⟨?_, by simp [Line.items, word], by cases q <;> simp [Line.items, name, word, quote, lineEnd]⟩
    have e : Line.items g (.changed q new old on) = word "Priority".toList :: space (g 0) :: (name q new ++ space (g 1) :: word "changed".toList :: space (g 2) ::
        word "from".toList :: space (g 3) :: (name q old ++ space (g 4) :: word "on".toList :: space (g 5) :: [.stamp on, lineEnd])) := by
      simp [Line.items]
    rw [e]
    exact from_word is_priority ⟨_, rfl, id, nofun⟩ (from_space (name_like q new _) (from_name h1 (from_space (by simp [word, Item.like])
      (from_word is_changed ⟨_, rfl, id, nofun⟩ (from_space (by simp [word, Item.like]) (from_word is_from ⟨_, rfl, id, nofun⟩
      (from_space (name_like q old _) (from_name h3 (from_space (by simp [word, Item.like]) (from_word is_on ⟨_, rfl, id, nofun⟩
      (from_space (by simp [Item.like]) (from_stamp h2))))))))))))
  | removed q new on =>
    have h1 := hw new (by simp [Line.names])
    have h2 := (hs on (by simp [Line.stamps])).1
    refine ⟨?_, by simp [Line.items, word], by cases q <;> simp [Line.items, name, word, quote, lineEnd]⟩
    exact from_word is_priority ⟨_, rfl, id, nofun⟩ (from_space (name_like q new _) (from_name h1 (from_space (by simp [word, Item.like])
      (from_word is_removed ⟨_, rfl, id, nofun⟩ (from_space (by simp [word, Item.like]) (from_word is_on ⟨_, rfl, id, nofun⟩
      (from_space (by simp [Item.like]) (from_stamp h2))))))))
  | running s =>
    have h2 := (hs s (by simp [Line.stamps])).1
    exact ⟨⟨h2, ⟨_, rfl, rfl⟩, rfl, from_end⟩, by simp [Line.items], by simp [Line.items, lineEnd]⟩
  | clock a b =>
    have h2 := hs a (by simp [Line.stamps])
    have h3 := hs b (by simp [Line.stamps])
    exact ⟨⟨h2.1, h3.1, by rw [h2.2.2, h3.2.2], ⟨_, rfl, rfl⟩, from_end⟩, by simp [Line.items], by simp [Line.items, lineEnd]⟩

/-- The ranges are ranges of times. -/
theorem line_ranges {l : Line} (h : l.Valid) (g : Nat → Nat) : ∀ x y, Item.range x y ∈ l.items g → x.Real ∧ y.Real := by
  intro x y hm
  cases l with
  | clock a b =>
    simp only [Line.items, lineEnd, List.mem_cons, Item.range.injEq, List.not_mem_nil, or_false, reduceCtorEq] at hm
    obtain ⟨rfl, rfl⟩ := hm
    exact ⟨(h.stamps x (by simp [Line.stamps])).2.1, (h.stamps y (by simp [Line.stamps])).2.1⟩
  | state new old on => cases old <;> simp [Line.items, word, space, quote, lineEnd] at hm
  | note on => simp [Line.items, word, space, lineEnd] at hm
  | added q new on => cases q <;> simp [Line.items, name, word, space, quote, lineEnd] at hm
  | changed q new old on => cases q <;> simp [Line.items, name, word, space, quote, lineEnd] at hm
  | removed q old on => cases q <;> simp [Line.items, name, word, space, quote, lineEnd] at hm
  | running s => simp [Line.items, lineEnd] at hm

end Verif.Log
