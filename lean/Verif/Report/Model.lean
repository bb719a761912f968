/-!
# Model of the sources and labels of reports – src/hstd/ext/error_write.cpp

Simplifications, for the whole file:
* A text is a list of characters, as counted by `rune_length`; it is well-formed.
* `int` does not overflow.
* A failed assertion is an exception.
* `std::lower_bound` over lines in the order of their offsets is the number of those that start at the offset or before.
-/

namespace Verif.Report

abbrev Text := List Char

/-- `Line` – error_write.hpp:82-99 -/
structure Line where
  offset : Nat
  len : Nat
deriving DecidableEq

/-- `Source` – error_write.hpp:105-108 -/
structure Source where
  lines : List Line
  len : Nat
  content : Text

/-- `split(l, '\n')` – strutils.cpp:111-119: nothing is read after the last line end. -/
def pieces (cur : Text) : Text → List Text
  | [] => if cur.isEmpty then [] else [cur]
  | c :: r => if c = '\n' then cur :: pieces [] r else pieces (cur ++ [c]) r

/-- The loop over the lines – error_write.cpp:1324-1328 -/
def linesFrom (offset : Nat) : List Text → List Line
  | [] => []
  | p :: r => ⟨offset, p.length⟩ :: linesFrom (offset + p.length + 1) r

/-- The offset after that loop. -/
def endFrom (offset : Nat) : List Text → Nat
  | [] => offset
  | p :: r => endFrom (offset + p.length + 1) r

/-- The constructor – error_write.cpp:1317-1332 -/
def source (l : Text) : Source :=
  if l.isEmpty then ⟨[⟨0, 0⟩], 0, l⟩ else ⟨linesFrom 0 (pieces [] l), endFrom 0 (pieces [] l), l⟩

/-- An exception, or a result. -/
inductive Out (α : Type) where
  | ok (x : α)
  | throws
deriving DecidableEq

/-- `get_offset_line` – error_write.cpp:1334-1356 -/
def offsetLine (s : Source) (offset : Int) : Out (Option (Nat × Nat)) :=
  if offset ≤ s.len then
    let idx := (s.lines.takeWhile fun l => decide ((l.offset : Int) ≤ offset)).length - 1
    match s.lines[idx]? with
    | some l => if (l.offset : Int) ≤ offset then .ok (some (idx, (offset - l.offset).toNat)) else .throws
    | none => .ok none
  else .ok none

/-- `get_line_range` – error_write.cpp:1358-1365 -/
def lineRange (s : Source) (start stop : Nat) : Out (Nat × Nat) :=
  match offsetLine s start, offsetLine s (max stop start : Nat) with
  | .ok a, .ok b =>
    let first := match a with | some x => x.1 | none => 0
    let last := match b with | some x => x.1 + 1 | none => s.lines.length - 1
    if first ≤ last then .ok (first, last) else .throws
  | _, _ => .throws

/-- `get_line_text` – error_write.cpp:1367-1373 -/
def lineText (s : Source) (l : Line) : Text :=
  if l.len = 0 then [] else (s.content.drop l.offset).take l.len

/-- `CodeSpan` and the rest of a label; `0 ≤ first ≤ last` – error_write.cpp:1412-1415 -/
structure Label where
  id : Nat
  start : Nat
  stop : Nat
  name : Nat
deriving DecidableEq

/-- `LabelInfo` – error_write.hpp:253-257 -/
structure Info where
  label : Label
  isInline : Bool
deriving DecidableEq

/-- `SourceGroup` – error_write.hpp:259-264 -/
structure Group where
  id : Nat
  first : Nat
  last : Nat
  labels : List Info
deriving DecidableEq

/-- The kind of a label – error_write.cpp:882-911 -/
def infoOf (s : Source) (label : Label) : Out Info :=
  if ¬ label.start ≤ label.stop then .throws
  else
    match offsetLine s label.start with
    | .ok (some a) =>
      match offsetLine s (max ((label.stop : Int) - 1) label.start) with
      | .ok (some b) => .ok ⟨label, a.1 = b.1⟩
      | _ => .throws
    | _ => .throws

/-- Adding to the first group of the source, or a new group – error_write.cpp:913-929 -/
def addTo (i : Info) : List Group → List Group
  | [] => [⟨i.label.id, i.label.start, i.label.stop, [i]⟩]
  | g :: r =>
    if g.id = i.label.id then ⟨g.id, min g.first i.label.start, max g.last i.label.stop, g.labels ++ [i]⟩ :: r
    else g :: addTo i r

/-- `get_source_groups` – error_write.cpp:875-932 -/
def groupsLoop (fetch : Nat → Option Source) : List Label → List Group → Out (List Group)
  | [], groups => .ok groups
  | label :: r, groups =>
    match fetch label.id with
    | none => groupsLoop fetch r groups
    | some s =>
      match infoOf s label with
      | .ok i => groupsLoop fetch r (addTo i groups)
      | .throws => .throws

/-- `LabelAttach` – error_write.hpp:276-286 -/
inductive Attach where
  | start | middle | stop
deriving DecidableEq

/-- Where a label points – error_write.cpp:722-732, 735 -/
def position (a : Attach) (l : Label) : Nat :=
  max (match a with | .start => l.start | .middle => (l.start + l.stop) / 2 | .stop => l.stop) l.start

/-- The label in `collect_inline_labels`, for one line: the column if it is drawn – error_write.cpp:710-746 -/
def drawn (s : Source) (a : Attach) (line : Line) (i : Info) : Option Nat :=
  if line.offset ≤ i.label.start ∧ (i.label.stop ≤ line.offset + line.len ∨ s.len ≤ i.label.stop) ∧ i.isInline then
    some (position a i.label - line.offset)
  else none

end Verif.Report
