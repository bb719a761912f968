import Verif.Log.Lines

/-!
# What the lines of a logbook are read as
-/

namespace Verif.Log
open Verif.Sem (LK)
open Verif.Pipeline (Piece IsWord)
open Verif.Stamp (Item Stamp Out Time UserTime Dated DatedFrom docRaw render)
open Verif.Drawer (Text)
open Verif.BaseLexer (normalize)



theorem norm_gap (n : Nat) : normalize (List.replicate n ' ') = [] := by
  induction n with
  | zero => rfl
  | succ n ih => exact ih

theorem trim_last (a : List Part) {x : Part} (t : Text) (hx : x.isBlank = false) :
    ((a ++ [x, .leaf .Newline t]).reverse.dropWhile Part.isBlank).reverse = a ++ [x] := by
  simp [List.dropWhile_cons, hx, show (Part.leaf .Newline t).isBlank = true from rfl]

def ws (n : Nat) : Part := .leaf .Space (List.replicate (n + 1) ' ')
def wd (s : String) : Part := .leaf .Word s.toList
def bg (w : Text) : Part := .leaf .BigIdent w
def qt : Part := .leaf .Punctuation ['"']

theorem part_space (n : Nat) : itemPart (space n) = ws n := rfl
theorem part_quote : itemPart quote = qt := rfl
theorem part_caps {w : Text} (h : Caps w) : itemPart (word w) = bg w := by
  show Part.leaf (if ∀ c ∈ w, ('A' ≤ c ∧ c ≤ 'Z') ∨ c = '_' then .BigIdent else .Word) w = _
  unfold Caps at h
  rw [if_pos h]; rfl
theorem part_word {s : String} (h : ¬ Caps s.toList) : itemPart (word s.toList) = wd s := by
  show Part.leaf (if ∀ c ∈ s.toList, ('A' ≤ c ∧ c ≤ 'Z') ∨ c = '_' then .BigIdent else .Word) _ = _
  unfold Caps at h
  rw [if_neg h]; rfl
theorem part_stamp {s : Stamp} (h : s.Real) : itemPart (.stamp s) = .time s.time := if_pos h

instance (w : Text) : Decidable (Caps w) := by unfold Caps; infer_instance

/-- The nodes of an entry. -/
def Line.parts (g : Nat → Nat) : Line → List Part
  | .state new old on =>
    [wd "State", ws (g 0), qt, bg new, qt, ws (g 1), wd "from", ws (g 2), qt] ++ (match old with | some o => [bg o] | none => []) ++ [qt, ws (g 3), .time on.time]
  | .note on => [wd "Note", ws (g 0), wd "taken", ws (g 1), wd "on", ws (g 2), .time on.time]
  | .added q new on =>
    [wd "Priority", ws (g 0)] ++ (if q then [qt, bg new, qt] else [bg new]) ++ [ws (g 1), wd "added", ws (g 2), wd "on", ws (g 3), .time on.time]
  | .changed q new old on =>
    [wd "Priority", ws (g 0)] ++ (if q then [qt, bg new, qt] else [bg new]) ++ [ws (g 1), wd "changed", ws (g 2), wd "from", ws (g 3)] ++
      (if q then [qt, bg old, qt] else [bg old]) ++ [ws (g 4), wd "on", ws (g 5), .time on.time]
  | .removed q old on =>
    [wd "Priority", ws (g 0)] ++ (if q then [qt, bg old, qt] else [bg old]) ++ [ws (g 1), wd "removed", ws (g 2), wd "on", ws (g 3), .time on.time]
  | .running s => [.time s.time]
  | .clock a b => [.range a.time b.time]

theorem line_parts {l : Line} (h : l.Valid) (hc : ∀ w ∈ l.names, Caps w) (g : Nat → Nat) :
    (((l.items g).map itemPart).reverse.dropWhile Part.isBlank).reverse = l.parts g := by
  have hs := h.stamps
  have c1 : ¬ Caps "State".toList := by decide
  have c2 : ¬ Caps "from".toList := by decide
  have c3 : ¬ Caps "Note".toList := by decide
  have c4 : ¬ Caps "taken".toList := by decide
  have c5 : ¬ Caps "on".toList := by decide
  have c6 : ¬ Caps "Priority".toList := by decide
  have c7 : ¬ Caps "added".toList := by decide
  have c8 : ¬ Caps "changed".toList := by decide
  have c9 : ¬ Caps "removed".toList := by decide
  have key : ∀ (x : Part) (a : List Item) (i : Item) (b : List Part), itemPart i = x → x.isBlank = false → a.map itemPart = b →
      (((a ++ [i, lineEnd]).map itemPart).reverse.dropWhile Part.isBlank).reverse = b ++ [x] := by
    intro x a i b h1 h2 h3
    rw [List.map_append, h3]
    subst h1
    exact trim_last b _ h2
  cases l with
  | state new old on =>
    have hr := part_stamp (hs on (by simp [Line.stamps])).2.1
    have hn := part_caps (hc new (by simp [Line.names]))
    cases old with
    | none =>
      refine key (.time on.time) [word "State".toList, space (g 0), quote, word new, quote, space (g 1), word "from".toList, space (g 2), quote, quote, space (g 3)] (.stamp on)
        [wd "State", ws (g 0), qt, bg new, qt, ws (g 1), wd "from", ws (g 2), qt, qt, ws (g 3)] hr rfl ?_
      simp only [List.map_cons, List.map_nil, part_space, part_quote, part_word c1, part_word c2, hn]
    | some o =>
      have ho := part_caps (hc o (by simp [Line.names]))
      refine key (.time on.time) [word "State".toList, space (g 0), quote, word new, quote, space (g 1), word "from".toList, space (g 2), quote, word o, quote, space (g 3)] (.stamp on)
        [wd "State", ws (g 0), qt, bg new, qt, ws (g 1), wd "from", ws (g 2), qt, bg o, qt, ws (g 3)] hr rfl ?_
      simp only [List.map_cons, List.map_nil, part_space, part_quote, part_word c1, part_word c2, hn, ho]
  | note on =>
    have hr := part_stamp (hs on (by simp [Line.stamps])).2.1
    refine key (.time on.time) [word "Note".toList, space (g 0), word "taken".toList, space (g 1), word "on".toList, space (g 2)] (.stamp on)
      [wd "Note", ws (g 0), wd "taken", ws (g 1), wd "on", ws (g 2)] hr rfl ?_
    simp only [List.map_cons, List.map_nil, part_space, part_word c3, part_word c4, part_word c5]
  | added q new on =>
    have hr := part_stamp (hs on (by simp [Line.stamps])).2.1
    have hn := part_caps (hc new (by simp [Line.names]))
    cases q with
    | false =>
      refine key (.time on.time) [word "Priority".toList, space (g 0), word new, space (g 1), word "added".toList, space (g 2), word "on".toList, space (g 3)] (.stamp on)
        [wd "Priority", ws (g 0), bg new, ws (g 1), wd "added", ws (g 2), wd "on", ws (g 3)] hr rfl ?_
      simp only [List.map_cons, List.map_nil, part_space, part_word c5, part_word c6, part_word c7, hn]
    | true =>
      refine key (.time on.time) [word "Priority".toList, space (g 0), quote, word new, quote, space (g 1), word "added".toList, space (g 2), word "on".toList, space (g 3)] (.stamp on)
        [wd "Priority", ws (g 0), qt, bg new, qt, ws (g 1), wd "added", ws (g 2), wd "on", ws (g 3)] hr rfl ?_
      simp only [List.map_cons, List.map_nil, part_space, part_quote, part_word c5, part_word c6, part_word c7, hn]
  | changed q new old on =>
    have hr := part_stamp (hs on (by simp [Line.stamps])).2.1
    have hn := part_caps (hc new (by simp [Line.names]))
    have ho := part_caps (hc old (by simp [Line.names]))
    cases q with
    | false =>
      refine key (.time on.time) [word "Priority".toList, space (g 0), word new, space (g 1), word "changed".toList, space (g 2), word "from".toList, space (g 3), word old, space (g 4), word "on".toList, space (g 5)] (.stamp on)
        [wd "Priority", ws (g 0), bg new, ws (g 1), wd "changed", ws (g 2), wd "from", ws (g 3), bg old, ws (g 4), wd "on", ws (g 5)] hr rfl ?_
      simp only [List.map_cons, List.map_nil, part_space, part_word c2, part_word c5, part_word c6, part_word c8, hn, ho]
    | true =>
      refine key (.time on.time) [word "Priority".toList, space (g 0), quote, word new, quote, space (g 1), word "changed".toList, space (g 2), word "from".toList, space (g 3), quote, word old, quote, space (g 4), word "on".toList, space (g 5)] (.stamp on)
        [wd "Priority", ws (g 0), qt, bg new, qt, ws (g 1), wd "changed", ws (g 2), wd "from", ws (g 3), qt, bg old, qt, ws (g 4), wd "on", ws (g 5)] hr rfl ?_
      simp only [List.map_cons, List.map_nil, part_space, part_quote, part_word c2, part_word c5, part_word c6, part_word c8, hn, ho]
  | removed q old on =>
    have hr := part_stamp (hs on (by simp [Line.stamps])).2.1
    have hn := part_caps (hc old (by simp [Line.names]))
    cases q with
    | false =>
      refine key (.time on.time) [word "Priority".toList, space (g 0), word old, space (g 1), word "removed".toList, space (g 2), word "on".toList, space (g 3)] (.stamp on)
        [wd "Priority", ws (g 0), bg old, ws (g 1), wd "removed", ws (g 2), wd "on", ws (g 3)] hr rfl ?_
      simp only [List.map_cons, List.map_nil, part_space, part_word c5, part_word c6, part_word c9, hn]
    | true =>
      refine key (.time on.time) [word "Priority".toList, space (g 0), quote, word old, quote, space (g 1), word "removed".toList, space (g 2), word "on".toList, space (g 3)] (.stamp on)
        [wd "Priority", ws (g 0), qt, bg old, qt, ws (g 1), wd "removed", ws (g 2), wd "on", ws (g 3)] hr rfl ?_
      simp only [List.map_cons, List.map_nil, part_space, part_quote, part_word c5, part_word c6, part_word c9, hn]
  | running s =>
    have hr := part_stamp (hs s (by simp [Line.stamps])).2.1
    exact key (.time s.time) [] (.stamp s) [] hr rfl rfl
  | clock a b =>
    exact key (.range a.time b.time) [] (.range a b) [] rfl rfl rfl

theorem n_state : normalize "State".toList = "state".toList := by decide
theorem n_from : normalize "from".toList = "from".toList := by decide
theorem n_note : normalize "Note".toList = "note".toList := by decide
theorem n_taken : normalize "taken".toList = "taken".toList := by decide
theorem n_on : normalize "on".toList = "on".toList := by decide
theorem n_priority : normalize "Priority".toList = "priority".toList := by decide
theorem n_added : normalize "added".toList = "added".toList := by decide
theorem n_changed : normalize "changed".toList = "changed".toList := by decide
theorem n_removed : normalize "removed".toList = "removed".toList := by decide
theorem n_quote : normalize ['"'] = [] := by decide

theorem after_skip {w : Text} {p : Part → Bool} {k : LK} {t : Text} {r : List Part} (h : normalize t ≠ w) :
    nodeAfter w p (.leaf k t :: r) = nodeAfter w p r := by
  rw [nodeAfter, if_neg]
  rintro ⟨-, h2⟩
  exact h h2

theorem after_hit {w : Text} {p : Part → Bool} {k : LK} {t : Text} {r : List Part} {x : Part} (h : normalize t = w) (hs : search p r = some x) :
    nodeAfter w p (.leaf k t :: r) = some x := by
  rw [nodeAfter, if_pos ⟨rfl, h⟩, hs]

theorem after_none {w : Text} {p : Part → Bool} {x : Part} {r : List Part} (hs : search p r = none) :
    nodeAfter w p (x :: r) = nodeAfter w p r := by
  rw [nodeAfter, hs]
  split_ifs <;> rfl

/-- Either way it is found. -/
theorem after_some {w : Text} {p : Part → Bool} {x y : Part} {r : List Part} (hs : search p r = some y) :
    nodeAfter w p (x :: r) = some y ∨ nodeAfter w p (x :: r) = nodeAfter w p r := by
  rw [nodeAfter, hs]
  split_ifs
  · exact .inl rfl
  · exact .inr rfl

theorem after_ws {w : Text} {p : Part → Bool} {n : Nat} {r : List Part} (h : w ≠ []) : nodeAfter w p (ws n :: r) = nodeAfter w p r :=
  after_skip (by rw [norm_gap]; exact h.symm)

theorem after_qt {w : Text} {p : Part → Bool} {r : List Part} (h : w ≠ []) : nodeAfter w p (qt :: r) = nodeAfter w p r :=
  after_skip (by rw [n_quote]; exact h.symm)

theorem after_wd {w : Text} {p : Part → Bool} {s : String} {r : List Part} (h : normalize s.toList ≠ w) : nodeAfter w p (wd s :: r) = nodeAfter w p r :=
  after_skip h

theorem after_time {w : Text} {p : Part → Bool} {t : Time} {r : List Part} : nodeAfter w p (.time t :: r) = nodeAfter w p r := by
  rw [nodeAfter, if_neg]
  rintro ⟨h, -⟩
  cases h

theorem head_state (g : Nat → Nat) (new : Text) (old : Option Text) (on : Stamp) :
    headOf (Line.parts g (.state new old on)) = .ok (Line.head (.state new old on)) := by
  have hw : wordsOf (Line.parts g (.state new old on)) = ["state".toList, "from".toList] := by
    have : wordsOf (Line.parts g (.state new old on)) = [normalize "State".toList, normalize "from".toList] := by cases old <;> rfl
    rw [this, n_state, n_from]
  have ht : firstLine (Line.parts g (.state new old on)) Part.isTime = [.time on.time] := by cases old <;> rfl
  unfold headOf
  simp only [hw]
  rw [if_neg (by simp), if_neg (by decide), if_pos (by decide)]
  have e1 : nodeAfter "state".toList Part.isBig (Line.parts g (.state new old on)) = some (bg new) := by
    cases old <;> exact after_hit n_state rfl
  have e2 : nodeAfter "from".toList Part.isBig (Line.parts g (.state new old on)) = old.map bg := by
    cases old with
    | none =>
      simp only [Line.parts, List.cons_append, List.nil_append]
      rw [after_wd (by decide), after_ws (by decide), after_qt (by decide), after_none rfl, after_qt (by decide), after_ws (by decide), after_none rfl,
        after_ws (by decide), after_qt (by decide), after_qt (by decide), after_ws (by decide), after_time]
      rfl
    | some o =>
      simp only [Line.parts, List.cons_append, List.nil_append]
      rw [after_wd (by decide), after_ws (by decide), after_qt (by decide), after_none rfl, after_qt (by decide), after_ws (by decide)]
      exact after_hit n_from rfl
  have e3 : nodeAfter "on".toList Part.isTime (Line.parts g (.state new old on)) = some (.time on.time) ∨
      nodeAfter "on".toList Part.isTime (Line.parts g (.state new old on)) = none := by
    cases old with
    | none =>
      simp only [Line.parts, List.cons_append, List.nil_append]
      rw [after_wd (by decide), after_ws (by decide), after_qt (by decide), after_none rfl, after_qt (by decide), after_ws (by decide), after_wd (by decide),
        after_ws (by decide), after_qt (by decide), after_qt (by decide), after_ws (by decide), after_time]
      exact .inr rfl
    | some o =>
      simp only [Line.parts, List.cons_append, List.nil_append]
      rw [after_wd (by decide), after_ws (by decide), after_qt (by decide), after_none rfl, after_qt (by decide), after_ws (by decide), after_wd (by decide),
        after_ws (by decide), after_qt (by decide)]
      rcases after_some (w := "on".toList) (p := Part.isTime) (x := bg o) (y := .time on.time) (r := [qt, ws (g 3), .time on.time]) rfl with h | h
      · exact .inl h
      · rw [h, after_qt (by decide), after_ws (by decide), after_time]
        exact .inr rfl
  unfold stateOf timeAfter
  rw [ht, e1, e2]
  rcases e3 with h | h <;> rw [h] <;> cases old <;> rfl

theorem head_note (g : Nat → Nat) (on : Stamp) : headOf (Line.parts g (.note on)) = .ok (Line.head (.note on)) := by
  have hw : wordsOf (Line.parts g (.note on)) = ["note".toList, "taken".toList, "on".toList] := by
    have : wordsOf (Line.parts g (.note on)) = [normalize "Note".toList, normalize "taken".toList, normalize "on".toList] := rfl
    rw [this, n_note, n_taken, n_on]
  have ht : (firstLine (Line.parts g (.note on)) Part.isTime).isEmpty = false := rfl
  unfold headOf
  simp only [hw, ht]
  rw [if_neg (by simp), if_neg (by decide), if_neg (by decide), if_neg (by decide), if_neg (by decide), if_neg (by decide), if_pos (by decide)]
  have e : nodeAfter "on".toList Part.isTime (Line.parts g (.note on)) = some (.time on.time) := by
    simp only [Line.parts]
    rw [after_wd (by decide), after_ws (by decide), after_wd (by decide), after_ws (by decide)]
    exact after_hit n_on rfl
  unfold timeAfter
  rw [e]
  rfl

theorem head_added (g : Nat → Nat) (q : Bool) (new : Text) (on : Stamp) : headOf (Line.parts g (.added q new on)) = .ok (Line.head (.added q new on)) := by
  have hw : wordsOf (Line.parts g (.added q new on)) = ["priority".toList, "added".toList, "on".toList] := by
    have : wordsOf (Line.parts g (.added q new on)) = [normalize "Priority".toList, normalize "added".toList, normalize "on".toList] := by cases q <;> rfl
    rw [this, n_priority, n_added, n_on]
  unfold headOf
  simp only [hw]
  rw [if_neg (by simp), if_neg (by decide), if_neg (by decide), if_neg (by decide), if_neg (by decide), if_pos (by decide)]
  have e1 : nodeAfter "priority".toList Part.isBig (Line.parts g (.added q new on)) = some (bg new) := by
    cases q <;> exact after_hit n_priority rfl
  have e : nodeAfter "on".toList Part.isTime (Line.parts g (.added q new on)) = some (.time on.time) := by
    cases q <;> simp only [Line.parts, Bool.false_eq_true, if_false, if_true, List.cons_append, List.nil_append]
    · rw [after_wd (by decide), after_ws (by decide), after_none rfl, after_ws (by decide), after_wd (by decide), after_ws (by decide)]
      exact after_hit n_on rfl
    · rw [after_wd (by decide), after_ws (by decide), after_qt (by decide), after_none rfl, after_qt (by decide), after_ws (by decide), after_wd (by decide), after_ws (by decide)]
      exact after_hit n_on rfl
  unfold priorityOf timeAfter
  simp only
  rw [if_pos (by decide), e, e1]
  rfl

theorem head_changed (g : Nat → Nat) (q : Bool) (new old : Text) (on : Stamp) :
    headOf (Line.parts g (.changed q new old on)) = .ok (Line.head (.changed q new old on)) := by
  have hw : wordsOf (Line.parts g (.changed q new old on)) = ["priority".toList, "changed".toList, "from".toList, "on".toList] := by
    have : wordsOf (Line.parts g (.changed q new old on)) = [normalize "Priority".toList, normalize "changed".toList, normalize "from".toList, normalize "on".toList] := by
      cases q <;> rfl
    rw [this, n_priority, n_changed, n_from, n_on]
  unfold headOf
  simp only [hw]
  rw [if_neg (by simp), if_neg (by decide), if_neg (by decide), if_neg (by decide), if_neg (by decide), if_pos (by decide)]
  have e1 : nodeAfter "priority".toList Part.isBig (Line.parts g (.changed q new old on)) = some (bg new) := by
    cases q <;> exact after_hit n_priority rfl
  have e2 : nodeAfter "from".toList Part.isBig (Line.parts g (.changed q new old on)) = some (bg old) := by
    cases q <;> simp only [Line.parts, Bool.false_eq_true, if_false, if_true, List.cons_append, List.nil_append]
    · rw [after_wd (by decide), after_ws (by decide), after_none rfl, after_ws (by decide), after_wd (by decide), after_ws (by decide)]
      exact after_hit n_from rfl
    · rw [after_wd (by decide), after_ws (by decide), after_qt (by decide), after_none rfl, after_qt (by decide), after_ws (by decide), after_wd (by decide), after_ws (by decide)]
      exact after_hit n_from rfl
  have e : nodeAfter "on".toList Part.isTime (Line.parts g (.changed q new old on)) = some (.time on.time) := by
    cases q <;> simp only [Line.parts, Bool.false_eq_true, if_false, if_true, List.cons_append, List.nil_append]
    · rw [after_wd (by decide), after_ws (by decide), after_none rfl, after_ws (by decide), after_wd (by decide), after_ws (by decide), after_wd (by decide), after_ws (by decide),
        after_none rfl, after_ws (by decide)]
      exact after_hit n_on rfl
    · rw [after_wd (by decide), after_ws (by decide), after_qt (by decide), after_none rfl, after_qt (by decide), after_ws (by decide), after_wd (by decide), after_ws (by decide),
        after_wd (by decide), after_ws (by decide), after_qt (by decide), after_none rfl, after_qt (by decide), after_ws (by decide)]
      exact after_hit n_on rfl
  unfold priorityOf timeAfter
  simp only
  rw [if_neg (by decide), if_pos (by decide), e, e1, e2]
  rfl

/-- A priority that was removed is not read. -/
theorem head_removed (g : Nat → Nat) (q : Bool) (old : Text) (on : Stamp) :
    headOf (Line.parts g (.removed q old on)) = .ok (.priority .removed none none (some on.time.time)) := by
  have hw : wordsOf (Line.parts g (.removed q old on)) = ["priority".toList, "removed".toList, "on".toList] := by
    have : wordsOf (Line.parts g (.removed q old on)) = [normalize "Priority".toList, normalize "removed".toList, normalize "on".toList] := by cases q <;> rfl
    rw [this, n_priority, n_removed, n_on]
  unfold headOf
  simp only [hw]
  rw [if_neg (by simp), if_neg (by decide), if_neg (by decide), if_neg (by decide), if_neg (by decide), if_pos (by decide)]
  have e2 : nodeAfter "from".toList Part.isBig (Line.parts g (.removed q old on)) = none := by
    cases q <;> simp only [Line.parts, Bool.false_eq_true, if_false, if_true, List.cons_append, List.nil_append]
    · rw [after_wd (by decide), after_ws (by decide), after_none rfl, after_ws (by decide), after_wd (by decide), after_ws (by decide), after_wd (by decide), after_ws (by decide), after_time]
      rfl
    · rw [after_wd (by decide), after_ws (by decide), after_qt (by decide), after_none rfl, after_qt (by decide), after_ws (by decide), after_wd (by decide), after_ws (by decide),
        after_wd (by decide), after_ws (by decide), after_time]
      rfl
  have e : nodeAfter "on".toList Part.isTime (Line.parts g (.removed q old on)) = some (.time on.time) := by
    cases q <;> simp only [Line.parts, Bool.false_eq_true, if_false, if_true, List.cons_append, List.nil_append]
    · rw [after_wd (by decide), after_ws (by decide), after_none rfl, after_ws (by decide), after_wd (by decide), after_ws (by decide)]
      exact after_hit n_on rfl
    · rw [after_wd (by decide), after_ws (by decide), after_qt (by decide), after_none rfl, after_qt (by decide), after_ws (by decide), after_wd (by decide), after_ws (by decide)]
      exact after_hit n_on rfl
  unfold priorityOf timeAfter
  simp only
  rw [if_neg (by decide), if_neg (by decide), if_pos (by decide), e, e2]
  rfl

end Verif.Log
