import Verif.Strs.Model

/-!
# Model of tables in columns – src/hstd/stdlib/strutils.cpp

Simplifications, for the whole file:
* `int` does not overflow.
* The loops with counters are recursions over the lists.
-/

namespace Verif.Columns
open Verif.Strs (Bytes splitChar)

/-- The loop over the rows for `col_count` – strutils.cpp:629-630 -/
def columnCount (rows : List (List Bytes)) : Nat := rows.foldl (fun n row => max n row.length) 0

/-- The loop over the lines of a cell – strutils.cpp:638-640 -/
def growColumn (w : Nat) (cell : Bytes) : Nat := (splitChar 10 cell).foldl (fun w line => max w line.length) w

/-- The loop over the cells of a row – strutils.cpp:637-641 -/
def growRow : List Nat → List Bytes → List Nat
  | w :: ws, cell :: row => growColumn w cell :: growRow ws row
  | ws, _ => ws

/-- `col_widths` – strutils.cpp:634-642 -/
def widths (rows : List (List Bytes)) : List Nat := rows.foldl growRow (List.replicate (columnCount rows) 0)

/-- `cell_lines` – strutils.cpp:649-657 -/
def cellLines (row : List Bytes) (n : Nat) : List (List Bytes) :=
  (List.range n).map fun c => match row[c]? with
    | some cell => splitChar 10 cell
    | none => [[]]

/-- `row_height` – strutils.cpp:650, 658 -/
def rowHeight (cells : List (List Bytes)) : Nat := cells.foldl (fun h lines => max h lines.length) 1

/-- One line of a cell with its padding – strutils.cpp:663-671.  The padding is not negative. -/
def padded (w : Nat) (line : Bytes) : Bytes := line ++ List.replicate (w - line.length) 32

/-- The loop over the columns for one line – strutils.cpp:662-674 -/
def writeLine (spacing : Bytes) (l : Nat) : List (Nat × List Bytes) → Bytes
  | [] => []
  | [(w, lines)] => padded w (lines.getD l [])
  | (w, lines) :: r => padded w (lines.getD l []) ++ spacing ++ writeLine spacing l r

/-- The line between two rows – strutils.cpp:680-683 -/
def writeRule (spacing : Bytes) (ch : UInt8) : List Nat → Bytes
  | [] => []
  | [w] => List.replicate w ch
  | w :: r => List.replicate w ch ++ spacing ++ writeRule spacing ch r

/-- The lines of a row – strutils.cpp:649-676 -/
def writeRow (spacing : Bytes) (ws : List Nat) (row : List Bytes) : Bytes :=
  let cells := cellLines row ws.length
  (List.range (rowHeight cells)).flatMap fun l => writeLine spacing l (ws.zip cells) ++ [10]

/-- The loop over the rows – strutils.cpp:646-687 -/
def writeRows (spacing ruleSpacing : Bytes) (ch : UInt8) (ws : List Nat) : List (List Bytes) → Bytes
  | [] => []
  | [row] => writeRow spacing ws row
  | row :: next :: rest =>
    writeRow spacing ws row ++ (if ruleSpacing = [] then [] else writeRule ruleSpacing ch ws ++ [10]) ++
      writeRows spacing ruleSpacing ch ws (next :: rest)

/-- `format_table` – strutils.cpp:624-690 -/
def formatTable (rows : List (List Bytes)) (spacing ruleSpacing : Bytes) (ch : UInt8) : Bytes :=
  if columnCount rows = 0 ∨ rows = [] then [] else writeRows spacing ruleSpacing ch (widths rows) rows

end Verif.Columns
