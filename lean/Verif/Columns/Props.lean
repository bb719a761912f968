import Verif.Columns.Model
import Mathlib.Tactic.SplitIfs

/-!
# Tables in columns

**C179**  In the text of `format_table` each line of each cell stands in the line and at the column of its place, padded to
the width of the column, which is as small as possible; the lines between the rows are below the columns.
* `table_cells` – the cells.
* `rule_partial` – the lines between the rows, if both kinds of spacing have the same length.
* `rule_false` – otherwise they are not below the columns.
-/

namespace Verif.Columns
open Verif.Strs (Bytes splitChar)

/-! ## Specification -/

/-- The line of a cell that is shown in line `l` of its row; empty if there is none. -/
def lineOf (row : List Bytes) (c l : Nat) : Bytes :=
  match row[c]? with
  | some cell => (splitChar 10 cell).getD l []
  | none => []

/-- The smallest width for a column. -/
def IsWidth (rows : List (List Bytes)) (c w : Nat) : Prop :=
  (∀ row ∈ rows, ∀ l, (lineOf row c l).length ≤ w) ∧ (w = 0 ∨ ∃ row ∈ rows, ∃ l, (lineOf row c l).length = w)

/-- The number of lines of a row. -/
def IsHeight (row : List Bytes) (h : Nat) : Prop :=
  1 ≤ h ∧ (∀ cell ∈ row, (splitChar 10 cell).length ≤ h) ∧ (h = 1 ∨ ∃ cell ∈ row, (splitChar 10 cell).length = h)

/-- Where a column starts. -/
def left (ws : List Nat) (gap c : Nat) : Nat := (ws.take c).sum + c * gap

/-- A text at a column of a line. -/
def StandsAt (line : Bytes) (col : Nat) (t : Bytes) : Prop := (line.drop col).take t.length = t ∧ col + t.length ≤ line.length

/-- A text with spaces up to a width. -/
def Padded (w : Nat) (t p : Bytes) : Prop := p = t ++ List.replicate (w - t.length) 32 ∧ p.length = w

/-! ## Maxima -/

theorem foldl_max {α : Type} (f : α → Nat) (l : List α) (a : Nat) : a ≤ l.foldl (fun n x => max n (f x)) a ∧
    (∀ x ∈ l, f x ≤ l.foldl (fun n x => max n (f x)) a) ∧
    (l.foldl (fun n x => max n (f x)) a = a ∨ ∃ x ∈ l, f x = l.foldl (fun n x => max n (f x)) a) := by
  induction l generalizing a with
  | nil => exact ⟨Nat.le_refl _, by simp, .inl rfl⟩
  | cons y l ih =>
    obtain ⟨h1, h2, h3⟩ := ih (max a (f y))
    rw [List.foldl_cons]
    refine ⟨by omega, ?_, ?_⟩
    · intro x hx
      rcases List.mem_cons.mp hx with rfl | hx
      · omega
      · exact h2 x hx
    · rcases h3 with h3 | ⟨x, hx, h3⟩
      · by_cases h : f y ≤ a
        · exact .inl (by rw [h3]; omega)
        · exact .inr ⟨y, by simp, by rw [h3]; omega⟩
      · exact .inr ⟨x, by simp [hx], h3⟩

/-! ## Widths -/

theorem growRow_length (ws : List Nat) (row : List Bytes) : (growRow ws row).length = ws.length := by
  induction ws generalizing row with
  | nil => cases row <;> rfl
  | cons w ws ih => cases row with
    | nil => rfl
    | cons c r => rw [growRow, List.length_cons, List.length_cons, ih]

/-- A width after a row: the maximum of the width before and the lines of the cell. -/
theorem growRow_get (ws : List Nat) (row : List Bytes) (c w : Nat) (h : ws[c]? = some w) : ∃ w', (growRow ws row)[c]? = some w' ∧ w ≤ w' ∧
    (∀ l, (lineOf row c l).length ≤ w') ∧ (w' = w ∨ ∃ l, (lineOf row c l).length = w') := by
  induction ws generalizing row c with
  | nil => simp at h
  | cons v ws ih =>
    cases row with
    | nil => exact ⟨w, h, Nat.le_refl _, by simp [lineOf], .inl rfl⟩
    | cons cell r =>
      rw [growRow]
      cases c with
      | zero =>
        simp only [List.getElem?_cons_zero, Option.some.injEq] at h
        subst h
        obtain ⟨h1, h2, h3⟩ := foldl_max List.length (splitChar 10 cell) v
        refine ⟨growColumn v cell, rfl, h1, ?_, ?_⟩
        · intro l
          simp only [lineOf, List.getElem?_cons_zero, List.getD_eq_getElem?_getD]
          cases hl : (splitChar 10 cell)[l]? with
          | none => simp
          | some x => exact h2 x (List.mem_of_getElem? hl)
        · rcases h3 with h3 | ⟨x, hx, h3⟩
          · exact .inl h3
          · obtain ⟨l, hl⟩ := List.getElem?_of_mem hx
            refine .inr ⟨l, ?_⟩
            simp only [lineOf, List.getElem?_cons_zero, List.getD_eq_getElem?_getD, hl]
            exact h3
      | succ c =>
        rw [List.getElem?_cons_succ] at h
        obtain ⟨w', h1, h2, h3, h4⟩ := ih r c h
        refine ⟨w', by rw [List.getElem?_cons_succ]; exact h1, h2, ?_, ?_⟩
        · intro l; have := h3 l; simpa [lineOf] using this
        · rcases h4 with h4 | ⟨l, h4⟩
          · exact .inl h4
          · exact .inr ⟨l, by simpa [lineOf] using h4⟩

theorem grow_all (rows : List (List Bytes)) (ws : List Nat) (c w : Nat) (h : ws[c]? = some w) : ∃ w', (rows.foldl growRow ws)[c]? = some w' ∧ w ≤ w' ∧
    (∀ row ∈ rows, ∀ l, (lineOf row c l).length ≤ w') ∧ (w' = w ∨ ∃ row ∈ rows, ∃ l, (lineOf row c l).length = w') := by
  induction rows generalizing ws w with
  | nil => exact ⟨w, h, Nat.le_refl _, by simp, .inl rfl⟩
  | cons row rows ih =>
    obtain ⟨v, a1, a2, a3, a4⟩ := growRow_get ws row c w h
    obtain ⟨w', b1, b2, b3, b4⟩ := ih (growRow ws row) v a1
    refine ⟨w', b1, by omega, ?_, ?_⟩
    · intro r hr l
      rcases List.mem_cons.mp hr with rfl | hr
      · have := a3 l; omega
      · exact b3 r hr l
    · rcases b4 with b4 | ⟨r, hr, l, b4⟩
      · rcases a4 with a4 | ⟨l, a4⟩
        · exact .inl (by omega)
        · exact .inr ⟨row, by simp, l, by omega⟩
      · exact .inr ⟨r, by simp [hr], l, b4⟩

theorem fold_length (rows : List (List Bytes)) (ws : List Nat) : (rows.foldl growRow ws).length = ws.length := by
  induction rows generalizing ws with
  | nil => rfl
  | cons r rows ih => rw [List.foldl_cons, ih, growRow_length]

theorem widths_length (rows : List (List Bytes)) : (widths rows).length = columnCount rows := by
  unfold widths
  rw [fold_length, List.length_replicate]

theorem widths_spec (rows : List (List Bytes)) (c w : Nat) (h : (widths rows)[c]? = some w) : IsWidth rows c w := by
  have hc : c < columnCount rows := by
    rw [← widths_length]
    exact (List.getElem?_eq_some_iff.mp h).1
  obtain ⟨w', h1, _, h3, h4⟩ := grow_all rows (List.replicate (columnCount rows) 0) c 0 (by simp [hc])
  unfold widths at h
  rw [h1] at h
  injection h with h
  subst h
  exact ⟨h3, h4⟩

theorem count_spec {rows : List (List Bytes)} {row : List Bytes} (h : row ∈ rows) : row.length ≤ columnCount rows :=
  (foldl_max List.length rows 0).2.1 row h

/-! ## Rows -/

theorem cellLines_get (row : List Bytes) (n c : Nat) (h : c < n) : ∃ ls, (cellLines row n)[c]? = some ls ∧ ∀ l, ls.getD l [] = lineOf row c l := by
  unfold cellLines
  rw [List.getElem?_map, List.getElem?_range h]
  refine ⟨_, rfl, ?_⟩
  intro l
  unfold lineOf
  dsimp only
  cases row[c]? with
  | none => cases l <;> simp
  | some t => rfl

theorem height_spec (row : List Bytes) (n : Nat) (h : row.length ≤ n) : IsHeight row (rowHeight (cellLines row n)) := by
  obtain ⟨h1, h2, h3⟩ := foldl_max List.length (cellLines row n) 1
  refine ⟨h1, ?_, ?_⟩
  · intro cell hc
    obtain ⟨c, hc⟩ := List.getElem?_of_mem hc
    have hlt := (List.getElem?_eq_some_iff.mp hc).1
    apply h2
    unfold cellLines
    rw [List.mem_map]
    exact ⟨c, by simp; omega, by rw [hc]⟩
  · rcases h3 with h3 | ⟨ls, hls, h3⟩
    · exact .inl h3
    · unfold cellLines at hls
      rw [List.mem_map] at hls
      obtain ⟨c, hc, rfl⟩ := hls
      cases hr : row[c]? with
      | some cell =>
        rw [hr] at h3
        exact .inr ⟨cell, List.mem_of_getElem? hr, h3⟩
      | none =>
        rw [hr] at h3
        exact .inl h3.symm

/-! ## Lines -/

theorem stands_append (a b t : Bytes) (k : Nat) (h : StandsAt b k t) : StandsAt (a ++ b) (a.length + k) t := by
  obtain ⟨h1, h2⟩ := h
  refine ⟨?_, by rw [List.length_append]; omega⟩
  rw [List.drop_append, List.drop_of_length_le (by omega), List.nil_append]
  rw [show a.length + k - a.length = k by omega]
  exact h1

theorem stands_here (t b : Bytes) : StandsAt (t ++ b) 0 t := ⟨by simp, by simp⟩

theorem left_succ (w : Nat) (ws : List Nat) (g c : Nat) : left (w :: ws) g (c + 1) = w + g + left ws g c := by
  unfold left
  simp only [List.take_succ_cons, List.sum_cons, Nat.add_mul]
  omega

theorem padded_length {w : Nat} {t : Bytes} (h : t.length ≤ w) : (padded w t).length = w := by
  unfold padded
  rw [List.length_append, List.length_replicate]
  omega

theorem writeLine_stands (sp : Bytes) (l : Nat) : ∀ (cells : List (Nat × List Bytes)), (∀ p ∈ cells, (p.2.getD l []).length ≤ p.1) →
    ∀ c w ls, cells[c]? = some (w, ls) →
      StandsAt (writeLine sp l cells) (left (cells.map Prod.fst) sp.length c) (padded w (ls.getD l [])) ∧
      (c + 1 < cells.length → StandsAt (writeLine sp l cells) (left (cells.map Prod.fst) sp.length c + w) sp) := by
  intro cells
  induction cells with
  | nil => intro _ c w ls h; simp at h
  | cons p r ih =>
    intro hw c w ls h
    obtain ⟨w0, ls0⟩ := p
    have h0 : (padded w0 (ls0.getD l [])).length = w0 := padded_length (hw (w0, ls0) (by simp))
    cases r with
    | nil =>
      cases c with
      | succ c => simp at h
      | zero =>
        simp only [List.getElem?_cons_zero, Option.some.injEq, Prod.mk.injEq] at h
        obtain ⟨rfl, rfl⟩ := h
        rw [writeLine]
        refine ⟨?_, by simp⟩
        have := stands_here (padded w0 (ls0.getD l [])) []
        rw [List.append_nil] at this
        simpa [left] using this
    | cons q r =>
      have e : writeLine sp l ((w0, ls0) :: q :: r) = padded w0 (ls0.getD l []) ++ sp ++ writeLine sp l (q :: r) := by
        rw [writeLine]; simp
      rw [e]
      cases c with
      | zero =>
        simp only [List.getElem?_cons_zero, Option.some.injEq, Prod.mk.injEq] at h
        obtain ⟨rfl, rfl⟩ := h
        have hl : left (((w0, ls0) :: q :: r).map Prod.fst) sp.length 0 = 0 := by simp [left]
        rw [hl, List.append_assoc]
        refine ⟨stands_here _ _, fun _ => ?_⟩
        have := stands_append (padded w0 (ls0.getD l [])) (sp ++ writeLine sp l (q :: r)) sp 0 (stands_here _ _)
        rw [h0] at this
        simpa using this
      | succ c =>
        rw [List.getElem?_cons_succ] at h
        obtain ⟨i1, i2⟩ := ih (fun p hp => hw p (by simp [hp])) c w ls h
        have hl : left (((w0, ls0) :: q :: r).map Prod.fst) sp.length (c + 1) = w0 + sp.length + left ((q :: r).map Prod.fst) sp.length c := by
          rw [List.map_cons, left_succ]
        have hlen : (padded w0 (ls0.getD l []) ++ sp).length = w0 + sp.length := by rw [List.length_append, h0]
        refine ⟨?_, ?_⟩
        · rw [hl, ← hlen]; exact stands_append _ _ _ _ i1
        · intro hc
          rw [hl, Nat.add_assoc, ← hlen]
          exact stands_append _ _ _ _ (i2 (by simpa using hc))

theorem writeRule_stands (sp : Bytes) (ch : UInt8) : ∀ (ws : List Nat) (c w : Nat), ws[c]? = some w →
    StandsAt (writeRule sp ch ws) (left ws sp.length c) (List.replicate w ch) := by
  intro ws
  induction ws with
  | nil => intro c w h; simp at h
  | cons w0 r ih =>
    intro c w h
    cases r with
    | nil =>
      cases c with
      | succ c => simp at h
      | zero =>
        simp only [List.getElem?_cons_zero, Option.some.injEq] at h
        subst h
        rw [writeRule]
        have := stands_here (List.replicate w0 ch) []
        rw [List.append_nil] at this
        simpa [left] using this
    | cons q r =>
      have e : writeRule sp ch (w0 :: q :: r) = List.replicate w0 ch ++ sp ++ writeRule sp ch (q :: r) := by
        rw [writeRule]; simp
      rw [e]
      cases c with
      | zero =>
        simp only [List.getElem?_cons_zero, Option.some.injEq] at h
        subst h
        have hl : left (w0 :: q :: r) sp.length 0 = 0 := by simp [left]
        rw [hl, List.append_assoc]
        exact stands_here _ _
      | succ c =>
        rw [List.getElem?_cons_succ] at h
        have i1 := ih c w h
        have hlen : (List.replicate w0 ch ++ sp).length = w0 + sp.length := by rw [List.length_append, List.length_replicate]
        rw [left_succ, ← hlen]
        exact stands_append _ _ _ _ i1

/-! ## The table -/

/-- The lines of a row. -/
def rowLines (sp : Bytes) (ws : List Nat) (row : List Bytes) : List Bytes :=
  (List.range (rowHeight (cellLines row ws.length))).map fun l => writeLine sp l (ws.zip (cellLines row ws.length))

/-- The lines of a table. -/
def tableLines (sp rs : Bytes) (ch : UInt8) (ws : List Nat) : List (List Bytes) → List Bytes
  | [] => []
  | [row] => rowLines sp ws row
  | row :: next :: rest => rowLines sp ws row ++ (if rs = [] then [] else [writeRule rs ch ws]) ++ tableLines sp rs ch ws (next :: rest)

theorem writeRow_lines (sp : Bytes) (ws : List Nat) (row : List Bytes) : writeRow sp ws row = (rowLines sp ws row).flatMap (· ++ [10]) := by
  unfold writeRow rowLines
  rw [List.flatMap_map]

theorem writeRows_lines (sp rs : Bytes) (ch : UInt8) (ws : List Nat) : ∀ rows, writeRows sp rs ch ws rows = (tableLines sp rs ch ws rows).flatMap (· ++ [10])
  | [] => rfl
  | [row] => writeRow_lines sp ws row
  | row :: next :: rest => by
    rw [writeRows, tableLines, writeRow_lines, writeRows_lines sp rs ch ws (next :: rest), List.flatMap_append, List.flatMap_append]
    congr 2
    split_ifs <;> simp

/-- The number of a row's first line, if the rows have the heights `h`, and there are lines between them. -/
def top (h : Nat → Nat) (rules : Bool) : Nat → Nat
  | 0 => 0
  | r + 1 => top h rules r + h r + (if rules then 1 else 0)

theorem top_shift (h : Nat → Nat) (rules : Bool) (r : Nat) : top h rules (r + 1) = h 0 + (if rules then 1 else 0) + top (fun i => h (i + 1)) rules r := by
  induction r with
  | zero => simp [top]
  | succ r ih => rw [top, ih, top]; omega

/-- The height of each row. -/
def heights (ws : List Nat) (rows : List (List Bytes)) (r : Nat) : Nat := rowHeight (cellLines (rows.getD r []) ws.length)

theorem rowLines_length (sp : Bytes) (ws : List Nat) (row : List Bytes) : (rowLines sp ws row).length = rowHeight (cellLines row ws.length) := by
  unfold rowLines; simp

theorem table_get (sp rs : Bytes) (ch : UInt8) (ws : List Nat) : ∀ (rows : List (List Bytes)) (r : Nat) (row : List Bytes), rows[r]? = some row →
    (∀ l, l < heights ws rows r → (tableLines sp rs ch ws rows)[top (heights ws rows) (rs ≠ []) r + l]? = (rowLines sp ws row)[l]?) ∧
    (r + 1 < rows.length → rs ≠ [] →
      (tableLines sp rs ch ws rows)[top (heights ws rows) (rs ≠ []) r + heights ws rows r]? = some (writeRule rs ch ws)) ∧
    (r + 1 = rows.length → (tableLines sp rs ch ws rows).length = top (heights ws rows) (rs ≠ []) r + heights ws rows r)
  | [], r, row, h => by simp at h
  | [row0], r, row, h => by
    cases r with
    | succ r => simp at h
    | zero =>
      simp only [List.getElem?_cons_zero, Option.some.injEq] at h
      subst h
      refine ⟨?_, by simp, ?_⟩
      · intro l _; simp [top, tableLines]
      · intro _; rw [tableLines, rowLines_length]; simp [top, heights]
  | row0 :: next :: rest, r, row, h => by
    have hh : ∀ i, heights ws (row0 :: next :: rest) (i + 1) = heights ws (next :: rest) i := fun i => by simp [heights]
    have hf : (fun i => heights ws (row0 :: next :: rest) (i + 1)) = heights ws (next :: rest) := funext hh
    have h0 : heights ws (row0 :: next :: rest) 0 = (rowLines sp ws row0).length := by rw [rowLines_length]; simp [heights]
    rw [tableLines]
    cases r with
    | zero =>
      simp only [List.getElem?_cons_zero, Option.some.injEq] at h
      subst h
      refine ⟨?_, ?_, by simp⟩
      · intro l hl
        rw [h0] at hl
        rw [List.append_assoc, List.getElem?_append_left (by simpa [top] using hl)]
        simp [top]
      · intro _ hrs
        rw [h0, if_neg hrs, List.append_assoc, List.getElem?_append_right (by simp [top])]
        simp [top]
    | succ r =>
      rw [List.getElem?_cons_succ] at h
      obtain ⟨i1, i2, i3⟩ := table_get sp rs ch ws (next :: rest) r row h
      have hp : (rowLines sp ws row0 ++ (if rs = [] then [] else [writeRule rs ch ws])).length = (rowLines sp ws row0).length + (if (decide (rs ≠ [])) = true then 1 else 0) := by
        by_cases hrs : rs = [] <;> simp [hrs]
      have ht : top (heights ws (row0 :: next :: rest)) (decide (rs ≠ [])) (r + 1) =
          (rowLines sp ws row0 ++ (if rs = [] then [] else [writeRule rs ch ws])).length + top (heights ws (next :: rest)) (decide (rs ≠ [])) r := by
        rw [top_shift, hf, h0, hp]
      rw [ht, hh]
      refine ⟨?_, ?_, ?_⟩
      · intro l hl
        rw [List.getElem?_append_right (by omega), ← i1 l hl]
        congr 1
        omega
      · intro hr hrs
        rw [List.getElem?_append_right (by omega), ← i2 (by simpa using hr) hrs]
        congr 1
        omega
      · intro hr
        rw [List.length_append, i3 (by simpa using hr)]
        omega

/-- **C179** The text is a number of lines.  The lines of a row are below those of the rows before and the lines between them;
in each of them, the line of each cell stands at its column with spaces up to the width, followed by the spacing. -/
theorem table_cells (rows : List (List Bytes)) (sp rs : Bytes) (ch : UInt8) (hne : ∃ row ∈ rows, row ≠ []) :
    ∃ (lines : List Bytes) (ws : List Nat) (h : Nat → Nat),
      formatTable rows sp rs ch = lines.flatMap (· ++ [10]) ∧
      (∀ row ∈ rows, row.length ≤ ws.length) ∧ (∃ row ∈ rows, row.length = ws.length) ∧
      (∀ c w, ws[c]? = some w → IsWidth rows c w) ∧
      lines.length + (if rs ≠ [] then 1 else 0) = top h (rs ≠ []) rows.length ∧
      (∀ r row, rows[r]? = some row → IsHeight row (h r) ∧
        ∀ l, l < h r → ∃ line, lines[top h (rs ≠ []) r + l]? = some line ∧
          ∀ c w, ws[c]? = some w → ∃ p, Padded w (lineOf row c l) p ∧ StandsAt line (left ws sp.length c) p ∧
            (c + 1 < ws.length → StandsAt line (left ws sp.length c + w) sp)) ∧
      (∀ r, r + 1 < rows.length → rs ≠ [] → ∃ line, lines[top h (rs ≠ []) r + h r]? = some line ∧
        ∀ c w, ws[c]? = some w → StandsAt line (left ws rs.length c) (List.replicate w ch)) := by
  obtain ⟨row1, hr1, hr1'⟩ := hne
  have hcount : columnCount rows ≠ 0 := by
    have := count_spec hr1
    have : 0 < row1.length := List.length_pos_iff.mpr hr1'
    omega
  have hrows : rows ≠ [] := by rintro rfl; simp at hr1
  refine ⟨tableLines sp rs ch (widths rows) rows, widths rows, heights (widths rows) rows, ?_, ?_, ?_, widths_spec rows, ?_, ?_, ?_⟩
  · unfold formatTable
    rw [if_neg (by simp [hcount, hrows]), writeRows_lines]
  · intro row h; rw [widths_length]; exact count_spec h
  · rcases (foldl_max List.length rows 0).2.2 with h | ⟨row, hr, h⟩
    · exact absurd h hcount
    · exact ⟨row, hr, by rw [widths_length]; exact h⟩
  · obtain ⟨n, hn⟩ : ∃ n, rows.length = n + 1 := ⟨rows.length - 1, by have := List.length_pos_iff.mpr hrows; omega⟩
    have := (table_get sp rs ch (widths rows) rows n rows[n] (by simp [hn])).2.2 hn.symm
    rw [this, hn, top]
    simp
  · intro r row hrow
    have hmem : row ∈ rows := List.mem_of_getElem? hrow
    have hh : heights (widths rows) rows r = rowHeight (cellLines row (widths rows).length) := by
      unfold heights; simp [hrow]
    refine ⟨?_, ?_⟩
    · rw [hh]; exact height_spec row _ (by rw [widths_length]; exact count_spec hmem)
    · intro l hl
      have hg := (table_get sp rs ch (widths rows) rows r row hrow).1 l hl
      have hl' := hl
      rw [hh] at hl'
      refine ⟨writeLine sp l ((widths rows).zip (cellLines row (widths rows).length)), ?_, ?_⟩
      · rw [hg]; unfold rowLines; simp [hl']
      · intro c w hcw
        have hclt := (List.getElem?_eq_some_iff.mp hcw).1
        obtain ⟨ls, hls, hline⟩ := cellLines_get row (widths rows).length c hclt
        have hzlen : (cellLines row (widths rows).length).length = (widths rows).length := by unfold cellLines; simp
        have hmap : ((widths rows).zip (cellLines row (widths rows).length)).map Prod.fst = widths rows :=
          List.map_fst_zip (by omega)
        have hfit : ∀ p ∈ (widths rows).zip (cellLines row (widths rows).length), (p.2.getD l []).length ≤ p.1 := by
          intro p hp
          obtain ⟨i, hi⟩ := List.getElem?_of_mem hp
          rw [List.getElem?_zip_eq_some] at hi
          obtain ⟨ls', e1, e2⟩ := cellLines_get row (widths rows).length i (List.getElem?_eq_some_iff.mp hi.1).1
          rw [e1] at hi
          have e3 := Option.some.inj hi.2
          rw [← e3, e2]
          exact (widths_spec rows i p.1 hi.1).1 row hmem l
        have hz : ((widths rows).zip (cellLines row (widths rows).length))[c]? = some (w, ls) := by
          rw [List.getElem?_zip_eq_some]; exact ⟨hcw, hls⟩
        obtain ⟨s1, s2⟩ := writeLine_stands sp l _ hfit c w ls hz
        rw [hmap] at s1 s2
        rw [hline] at s1
        refine ⟨padded w (lineOf row c l), ⟨rfl, padded_length ((widths_spec rows c w hcw).1 row hmem l)⟩, s1, ?_⟩
        intro hc
        exact s2 (by rw [List.length_zip, hzlen]; omega)
  · intro r hr hrs
    have hrow : rows[r]? = some rows[r] := by simp
    exact ⟨_, (table_get sp rs ch (widths rows) rows r _ hrow).2.1 hr hrs, writeRule_stands rs ch (widths rows)⟩

/-- A table without cells has no text. -/
theorem table_empty (rows : List (List Bytes)) (sp rs : Bytes) (ch : UInt8) (h : ∀ row ∈ rows, row = []) : formatTable rows sp rs ch = [] := by
  unfold formatTable
  refine if_pos (.inl ?_)
  rcases (foldl_max List.length rows 0).2.2 with h' | ⟨row, hr, h'⟩
  · exact h'
  · rw [h row hr] at h'
    exact h'.symm

/-- **C179**, the property for the lines between the rows: they are below the columns. -/
def RuleStatement : Prop := ∀ (rows : List (List Bytes)) (sp rs : Bytes) (ch : UInt8) (ws : List Nat) (h : Nat → Nat),
  10 ∉ sp → 10 ∉ rs → ch ≠ 10 → rs ≠ [] → (∀ row ∈ rows, row.length = ws.length) → (∀ c w, ws[c]? = some w → IsWidth rows c w) →
  (∀ r row, rows[r]? = some row → IsHeight row (h r)) →
  ∀ r, r + 1 < rows.length → ∃ line, (splitChar 10 (formatTable rows sp rs ch))[top h true r + h r]? = some line ∧
    ∀ c w, ws[c]? = some w → StandsAt line (left ws sp.length c) (List.replicate w ch)

/-- The lines between the rows use the spacing of the rows between the columns, as in

```
a | b
-+-
c | d
```
-/
theorem rule_false : ¬ RuleStatement := by
  intro H
  have one : ∀ b : UInt8, b ≠ 10 → splitChar 10 [b] = [[b]] := by
    intro b hb
    rw [splitChar]
    simp [Verif.Strs.getline, hb, splitChar]
  have wide : ∀ a b c d : UInt8, a ≠ 10 → b ≠ 10 → c ≠ 10 → d ≠ 10 → ∀ i w, ([1, 1] : List Nat)[i]? = some w → IsWidth [[[a], [b]], [[c], [d]]] i w := by
    intro a b c d ha hb hc hd i w hw
    rcases i with _ | _ | i
    · obtain rfl : 1 = w := by simpa using hw
      refine ⟨?_, .inr ⟨[[a], [b]], by simp, 0, by simp [lineOf, one a ha]⟩⟩
      intro row hrow l
      simp only [List.mem_cons, List.not_mem_nil, or_false] at hrow
      rcases hrow with rfl | rfl <;> cases l <;> simp [lineOf, one a ha, one c hc]
    · obtain rfl : 1 = w := by simpa using hw
      refine ⟨?_, .inr ⟨[[a], [b]], by simp, 0, by simp [lineOf, one b hb]⟩⟩
      intro row hrow l
      simp only [List.mem_cons, List.not_mem_nil, or_false] at hrow
      rcases hrow with rfl | rfl <;> cases l <;> simp [lineOf, one b hb, one d hd]
    · simp at hw
  obtain ⟨line, h1, h2⟩ := H [[[97], [98]], [[99], [100]]] [32, 124, 32] [43] 45 [1, 1] (fun _ => 1) (by decide) (by decide) (by decide) (by decide)
    (by decide) (wide 97 98 99 100 (by decide) (by decide) (by decide) (by decide))
    (by
      intro r row hrow
      have hmem := List.mem_of_getElem? hrow
      simp only [List.mem_cons, List.not_mem_nil, or_false] at hmem
      rcases hmem with rfl | rfl
      · exact ⟨Nat.le_refl _, by intro cell hc; simp only [List.mem_cons, List.not_mem_nil, or_false] at hc; rcases hc with rfl | rfl <;> rw [one _ (by decide)] <;> simp, .inl rfl⟩
      · exact ⟨Nat.le_refl _, by intro cell hc; simp only [List.mem_cons, List.not_mem_nil, or_false] at hc; rcases hc with rfl | rfl <;> rw [one _ (by decide)] <;> simp, .inl rfl⟩)
    0 (by decide)
  have e : (splitChar 10 (formatTable [[[97], [98]], [[99], [100]]] [32, 124, 32] [43] 45))[top (fun _ => 1) true 0 + 1]? = some [45, 43, 45] := by
    decide +kernel
  rw [e] at h1
  injection h1 with h1
  subst h1
  have := (h2 1 1 rfl).2
  revert this
  decide

/-- **C179** The lines between the rows are below the columns if both kinds of spacing have the same length. -/
theorem rule_partial (rows : List (List Bytes)) (sp rs : Bytes) (ch : UInt8) (hne : ∃ row ∈ rows, row ≠ []) (hrs : rs ≠ []) (hlen : rs.length = sp.length) :
    ∃ (lines : List Bytes) (ws : List Nat) (h : Nat → Nat),
      formatTable rows sp rs ch = lines.flatMap (· ++ [10]) ∧ (∀ row ∈ rows, row.length ≤ ws.length) ∧ (∀ c w, ws[c]? = some w → IsWidth rows c w) ∧
      (∀ r row, rows[r]? = some row → IsHeight row (h r)) ∧
      ∀ r, r + 1 < rows.length → ∃ line, lines[top h true r + h r]? = some line ∧
        ∀ c w, ws[c]? = some w → StandsAt line (left ws sp.length c) (List.replicate w ch) := by
  obtain ⟨lines, ws, h, h1, h2, _, h4, _, h6, h7⟩ := table_cells rows sp rs ch hne
  refine ⟨lines, ws, h, h1, h2, h4, fun r row hr => (h6 r row hr).1, ?_⟩
  intro r hr
  obtain ⟨line, l1, l2⟩ := h7 r hr hrs
  rw [hlen] at l2
  rw [decide_eq_true hrs] at l1
  exact ⟨line, l1, l2⟩

example : formatTable [[[97, 10, 98, 98], [99]], [[], [100, 100], [101]]] [32, 124, 32] [45, 43, 45] 45 =
    "a  | c  |  \nbb |    |  \n---+----+--\n   | dd | e\n".toUTF8.toList := by decide +kernel

end Verif.Columns
