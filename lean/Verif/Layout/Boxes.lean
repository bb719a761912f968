import Verif.Layout.Spec

/-!
# Pictures of layouts

`linesAt` reads a layout as a picture; `format` prints that picture.
-/

namespace Verif.Layout

theorem length_chars (ps : List Piece) : (chars ps).length = spanLen ps := by
  induction ps with
  | nil => rfl
  | cons p ps ih =>
    simp only [chars, spanLen, List.flatMap_cons, List.length_append, List.map_cons, List.sum_cons] at ih ⊢
    rw [ih]
    cases p <;> simp [Piece.chars, Piece.len]

/-- The last line of `a` continued by the first line of `b`. -/
def glue : Box → Box → Box
  | [], b => b
  | [l], b =>
    match b with
    | [] => [l]
    | f :: r => (l ++ f) :: r
  | l :: ls, b => l :: glue ls b

/-- All lines except for the first one moved to the right. -/
def indentTail (c : Nat) : Box → Box
  | [] => []
  | f :: r => f :: r.map (blanks c ++ ·)

/-- The picture of a layout relative to the margin, starting in column `c`; the first line of the
result does not have the text before that column. -/
def linesAt : Lay → Nat → Box
  | .nil, _ => [[]]
  | .string ps r, c => glue [chars ps] (linesAt r (c + spanLen ps))
  | .newline r, _ => [] :: linesAt r 0
  | .print i r, c => glue (indentTail c (linesAt i 0)) (linesAt r (c + lastLen (linesAt i 0)))

theorem glue_ne_nil {a b : Box} (h : a ≠ []) : glue a b ≠ [] := by
  match a, b with
  | [], _ => exact absurd rfl h
  | [l], [] => simp [glue]
  | [l], f :: r => simp [glue]
  | l :: l' :: ls, b => simp [glue]

theorem indentTail_ne_nil {c : Nat} {a : Box} (h : a ≠ []) : indentTail c a ≠ [] := by
  cases a <;> simp_all [indentTail]

theorem linesAt_ne_nil (l : Lay) (c : Nat) : linesAt l c ≠ [] := by
  induction l generalizing c with
  | nil => simp [linesAt]
  | string ps r ih => exact glue_ne_nil (by simp)
  | newline r ih => simp [linesAt]
  | print i r ihi ihr => exact glue_ne_nil (indentTail_ne_nil (ihi 0))

theorem glue_nil_right (a : Box) (h : a ≠ []) : glue a [[]] = a := by
  match a with
  | [] => exact absurd rfl h
  | [l] => simp [glue]
  | l :: l' :: ls =>
    simp only [glue]
    rw [glue_nil_right (l' :: ls) (by simp)]

theorem glue_assoc (a b c : Box) (hb : b ≠ []) : glue (glue a b) c = glue a (glue b c) := by
  match a, b with
  | [], b => rfl
  | [l], [f] =>
    cases c with
    | nil => simp [glue]
    | cons x xs => simp [glue]
  | [l], f :: g :: r => simp [glue]
  | l :: l' :: ls, b =>
    have := glue_assoc (l' :: ls) b c hb
    obtain ⟨x, xs, hx⟩ : ∃ x xs, glue (l' :: ls) b = x :: xs := by
      cases h : glue (l' :: ls) b with
      | nil => exact absurd h (glue_ne_nil (by simp))
      | cons x xs => exact ⟨x, xs, rfl⟩
    simp only [glue]
    rw [hx] at this ⊢
    simp only [glue]
    rw [this]

theorem lastLen_cons {l : List Char} {b : Box} (h : b ≠ []) : lastLen (l :: b) = lastLen b := by
  cases b with
  | nil => exact absurd rfl h
  | cons x xs => simp [lastLen]

theorem lastLen_indent (c : Nat) (f : List Char) (r : Box) (h : r ≠ []) :
    lastLen (f :: r.map (blanks c ++ ·)) = c + lastLen (f :: r) := by
  rw [lastLen_cons (by simpa using h), lastLen_cons h]
  unfold lastLen
  rw [List.getLast?_map]
  obtain ⟨x, hx⟩ : ∃ x, r.getLast? = some x := by
    cases hr : r.getLast? with
    | none => exact absurd (List.getLast?_eq_none_iff.mp hr) h
    | some x => exact ⟨x, rfl⟩
  simp [hx, blanks]

/-- Column reached after a picture starting in column `c`. -/
def endCol (c : Nat) (b : Box) : Nat :=
  match b with
  | [x] => c + x.length
  | _ => lastLen b

/-- The output for a picture at a margin. -/
def atMargin (m : Nat) : Box → List Char
  | [] => []
  | f :: r => joinLines (f :: r.map (blanks m ++ ·))

theorem joinLines_cons (l : List Char) (b : Box) (h : b ≠ []) : joinLines (l :: b) = l ++ '\n' :: joinLines b := by
  cases b with
  | nil => exact absurd rfl h
  | cons x xs => rfl

theorem joinLines_glue (a b : Box) (ha : a ≠ []) (hb : b ≠ []) : joinLines (glue a b) = joinLines a ++ joinLines b := by
  match a, b with
  | [], _ => exact absurd rfl ha
  | _, [] => exact absurd rfl hb
  | [l], f :: r =>
    simp only [glue]
    cases r with
    | nil => rfl
    | cons x xs => simp [joinLines]
  | l :: l' :: ls, f :: r =>
    simp only [glue]
    rw [joinLines_cons _ _ (glue_ne_nil (by simp)), joinLines_glue (l' :: ls) (f :: r) (by simp) (by simp),
      joinLines_cons l (l' :: ls) (by simp)]
    simp

theorem atMargin_eq (m : Nat) (b : Box) : atMargin m b = joinLines (indentTail m b) := by
  cases b <;> rfl

theorem blanks_add (a b : Nat) : blanks a ++ blanks b = blanks (a + b) := by
  simp [blanks, List.replicate_append_replicate]

theorem indentTail_indentTail (a b : Nat) (x : Box) : indentTail a (indentTail b x) = indentTail (a + b) x := by
  cases x with
  | nil => rfl
  | cons f r => simp [indentTail, ← blanks_add, Function.comp_def]

/-- Margins of glued pictures. -/
theorem indentTail_glue (m : Nat) (a b : Box) (ha : a ≠ []) :
    indentTail m (glue a b) = glue (indentTail m a) (indentTail m b) := by
  match a, b with
  | [], _ => exact absurd rfl ha
  | [l], [] => simp [glue, indentTail]
  | [l], f :: r => simp [glue, indentTail]
  | l :: l' :: ls, b =>
    simp only [glue, indentTail, List.map_cons]
    congr 1
    have : ∀ (x : List Char) (xs : Box), (glue (x :: xs) b).map (blanks m ++ ·)
        = glue ((x :: xs).map (blanks m ++ ·)) (indentTail m b) := by
      intro x xs
      induction xs generalizing x with
      | nil =>
        cases b with
        | nil => simp [glue, indentTail]
        | cons f r => simp [glue, indentTail]
      | cons y ys ih =>
        simp only [glue, List.map_cons]
        congr 1
        exact ih y
    exact this l' ls

theorem lastLen_single (x : List Char) : lastLen [x] = x.length := rfl

theorem endCol_glue (c : Nat) (a b : Box) (ha : a ≠ []) (hb : b ≠ []) :
    endCol c (glue a b) = endCol (endCol c a) b := by
  match a, b with
  | [], _ => exact absurd rfl ha
  | _, [] => exact absurd rfl hb
  | [l], [f] => simp [glue, endCol]; omega
  | [l], f :: g :: r => simp [glue, endCol, lastLen]
  | l :: l' :: ls, f :: r =>
    have : ∀ (x : List Char) (xs : Box), lastLen (glue (x :: xs) (f :: r))
        = endCol (lastLen (x :: xs)) (f :: r) := by
      intro x xs
      induction xs generalizing x with
      | nil =>
        cases r with
        | nil => simp [glue, endCol, lastLen]
        | cons g r => simp [glue, endCol, lastLen]
      | cons y ys ih =>
        simp only [glue]
        rw [lastLen_cons (glue_ne_nil (by simp)), ih y, lastLen_cons (l := x) (by simp)]
    have h1 : endCol c (glue (l :: l' :: ls) (f :: r)) = lastLen (glue (l :: l' :: ls) (f :: r)) := by
      simp only [glue]
      cases h : glue (l' :: ls) (f :: r) with
      | nil => exact absurd h (glue_ne_nil (by simp))
      | cons x xs => rfl
    rw [h1, this]
    rfl

theorem endCol_indent (c : Nat) (b : Box) (hb : b ≠ []) : endCol c (indentTail c b) = c + lastLen b := by
  match b with
  | [] => exact absurd rfl hb
  | [x] => rfl
  | x :: y :: ys =>
    show lastLen (x :: (y :: ys).map (blanks c ++ ·)) = _
    rw [lastLen_indent c x (y :: ys) (by simp)]

theorem endCol_zero (b : Box) : endCol 0 b = lastLen b := by
  match b with
  | [] => rfl
  | [x] => simp [endCol, lastLen]
  | _ :: _ :: _ => rfl

/-- `format` prints the picture of the layout. -/
theorem format_eq (l : Lay) (m c : Nat) :
    format l m (m + c) = (atMargin m (linesAt l c), m + endCol c (linesAt l c)) := by
  induction l generalizing m c with
  | nil => simp [format, linesAt, atMargin, endCol, joinLines]
  | string ps r ih =>
    have hmax : max (m + c) m = m + c := by omega
    simp only [format, hmax]
    rw [Nat.add_assoc, ih]
    simp only [linesAt]
    rw [endCol_glue _ _ _ (by simp) (linesAt_ne_nil _ _), atMargin_eq, atMargin_eq,
      indentTail_glue _ _ _ (by simp), joinLines_glue _ _ (by simp [indentTail])
      (indentTail_ne_nil (linesAt_ne_nil _ _))]
    simp [endCol, length_chars, indentTail, joinLines]
  | newline r ih =>
    have := ih m 0
    rw [Nat.add_zero] at this
    simp only [format, linesAt, this]
    have h0 := linesAt_ne_nil r 0
    rw [endCol_zero]
    have hc : endCol c ([] :: linesAt r 0) = lastLen (linesAt r 0) := by
      cases h : linesAt r 0 with
      | nil => exact absurd h h0
      | cons x xs => simp [endCol, lastLen]
    rw [hc]
    cases h : linesAt r 0 with
    | nil => exact absurd h h0
    | cons x xs =>
      simp only [atMargin, List.map_cons]
      rw [joinLines_cons [] _ (by simp)]
      cases xs with
      | nil => simp [joinLines, blanks]
      | cons y ys => simp [joinLines, blanks]
  | print i r ihi ihr =>
    have hmax : max (m + c) m = m + c := by omega
    have h1 := ihi (m + c) 0
    rw [Nat.add_zero, endCol_zero] at h1
    simp only [format, hmax, h1, linesAt]
    rw [Nat.add_assoc, ihr]
    have hi := linesAt_ne_nil i 0
    rw [endCol_glue _ _ _ (indentTail_ne_nil hi) (linesAt_ne_nil _ _), endCol_indent _ _ hi]
    rw [atMargin_eq, atMargin_eq, atMargin_eq, indentTail_glue _ _ _ (indentTail_ne_nil hi),
      joinLines_glue _ _ (indentTail_ne_nil (indentTail_ne_nil hi)) (indentTail_ne_nil (linesAt_ne_nil _ _)),
      indentTail_indentTail]

theorem indentTail_zero (b : Box) : indentTail 0 b = b := by
  cases b <;> simp [indentTail, blanks]

/-- Printing from the start of a line. -/
theorem format_start (l : Lay) : (format l 0 0).1 = joinLines (linesAt l 0) := by
  have := format_eq l 0 0
  rw [Nat.add_zero] at this
  rw [this, atMargin_eq, indentTail_zero]

/-- Stacked layouts. -/
theorem linesAt_append (l r : Lay) (c : Nat) : linesAt (l.append (.newline r)) c = linesAt l c ++ linesAt r 0 := by
  have key : ∀ (a b d : Box), a ≠ [] → b ≠ [] → glue a (b ++ d) = glue a b ++ d := by
    intro a b d ha hb
    match a, b with
    | [], _ => exact absurd rfl ha
    | _, [] => exact absurd rfl hb
    | [l], f :: r => simp [glue]
    | l :: l' :: ls, f :: r =>
      have : ∀ (x : List Char) (xs : Box), glue (x :: xs) (f :: r ++ d) = glue (x :: xs) (f :: r) ++ d := by
        intro x xs
        induction xs generalizing x with
        | nil => simp [glue]
        | cons y ys ih =>
          simp only [glue, List.cons_append]
          congr 1
          exact ih y
      exact this l (l' :: ls)
  induction l generalizing c with
  | nil => simp [Lay.append, linesAt]
  | string ps l ih =>
    simp only [Lay.append, linesAt]
    rw [ih, key _ _ _ (by simp) (linesAt_ne_nil _ _)]
  | newline l ih =>
    simp only [Lay.append, linesAt]
    rw [ih]; rfl
  | print i l _ ih =>
    simp only [Lay.append, linesAt]
    rw [ih, key _ _ _ (indentTail_ne_nil (linesAt_ne_nil _ _)) (linesAt_ne_nil _ _)]

theorem beside_eq (a b : Box) (ha : a ≠ []) : beside a b = glue a (indentTail (lastLen a) b) := by
  match a, b with
  | [], _ => exact absurd rfl ha
  | [l], [] => simp [beside, glue, indentTail]
  | [l], f :: r => simp [beside, glue, indentTail, lastLen]
  | l :: l' :: ls, b =>
    simp only [beside, glue]
    rw [beside_eq (l' :: ls) b (by simp), lastLen_cons (l := l) (by simp)]

/-- Two layouts printed one after the other. -/
theorem linesAt_print (l r : Lay) : linesAt (.print l (.print r .nil)) 0 = beside (linesAt l 0) (linesAt r 0) := by
  simp only [linesAt, indentTail_zero, Nat.zero_add]
  rw [glue_nil_right _ (indentTail_ne_nil (linesAt_ne_nil _ _)), beside_eq _ _ (linesAt_ne_nil _ _)]

theorem beside_ne_nil {a b : Box} (ha : a ≠ []) : beside a b ≠ [] := by
  rw [beside_eq _ _ ha]
  exact glue_ne_nil ha

theorem lastLen_beside (a b : Box) (ha : a ≠ []) (hb : b ≠ []) : lastLen (beside a b) = lastLen a + lastLen b := by
  rw [beside_eq _ _ ha, ← endCol_zero, endCol_glue _ _ _ ha (indentTail_ne_nil hb), endCol_zero, endCol_indent _ _ hb]

theorem beside_assoc (a b c : Box) (ha : a ≠ []) (hb : b ≠ []) :
    beside (beside a b) c = beside a (beside b c) := by
  rw [beside_eq (beside a b) c (beside_ne_nil ha), beside_eq a (beside b c) ha, lastLen_beside a b ha hb,
    beside_eq a b ha, beside_eq b c hb, indentTail_glue _ _ _ hb, glue_assoc _ _ _ (indentTail_ne_nil hb),
    indentTail_indentTail]

theorem beside_append (a b c : Box) (hb : b ≠ []) : beside (a ++ b) c = a ++ beside b c := by
  induction a with
  | nil => rfl
  | cons l ls ih =>
    obtain ⟨x, xs, hx⟩ : ∃ x xs, ls ++ b = x :: xs := by
      cases h : ls ++ b with
      | nil => simp_all
      | cons x xs => exact ⟨x, xs, rfl⟩
    simp only [List.cons_append]
    rw [← ih, hx]
    rfl

theorem lastLen_append (a b : Box) (hb : b ≠ []) : lastLen (a ++ b) = lastLen b := by
  obtain ⟨x, hx⟩ : ∃ x, b.getLast? = some x := by
    cases hr : b.getLast? with
    | none => exact absurd (List.getLast?_eq_none_iff.mp hr) hb
    | some x => exact ⟨x, rfl⟩
  simp [lastLen, List.getLast?_append, hx]

end Verif.Layout
