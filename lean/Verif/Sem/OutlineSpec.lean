import Verif.Sem.Model
import Verif.Pipeline.OutlineSpec

/-!
# What is read from a written outline

The sem tree expected for an outline: the text of paragraphs and titles, and the nesting of the
headlines by their levels.
-/

namespace Verif.Pipeline
open Verif.Sem (Sem LK HeadInfo)

/-- The kind of leaf for a piece. -/
def Piece.semKind : Piece → LK
  | .word w => if ∀ c ∈ w, ('A' ≤ c ∧ c ≤ 'Z') ∨ c = '_' then .BigIdent else .Word
  | .number _ => .Word
  | .gap _ => .Space
  | .brk _ => .Newline
  | _ => .Punctuation

/-- A text with markup. -/
def Inl.sems : Inl → List Sem
  | .nil => []
  | .piece p r => .leaf p.semKind p.text :: r.sems
  | .bold t r => .tree .Bold t.sems :: r.sems
  | .italic t r => .tree .Italic t.sems :: r.sems

/-- The text without the spaces and line breaks at its end. -/
def Inl.trim : Inl → Inl
  | .nil => .nil
  | .piece p r =>
    match p, r.trim with
    | .gap _, .nil | .brk _, .nil => .nil
    | p, r => .piece p r
  | .bold t r => .bold t r.trim
  | .italic t r => .italic t r.trim

/-- Paragraphs. -/
def Pars.sems : Pars → List Sem
  | .nil => []
  | .brk n r => .leaf .Newline (List.replicate (n + 1) '\n') :: r.sems
  | .par t r => .tree .Paragraph t.trim.sems :: r.sems

def Mark.todo : Mark → Option (List Char)
  | .keyword w _ _ _ => some w
  | _ => Option.none

def Mark.prio : Mark → Option (List Char)
  | .none => Option.none
  | .priority c _ | .keyword _ _ c _ => some [c]

/-- The tag of archived headlines. -/
def archive : List Char := "ARCHIVE".toList

/-- What a headline says besides its title. -/
def Entry.info (e : Entry) : HeadInfo where
  level := e.level + 1
  todo := e.mark.todo
  priority := e.mark.prio
  comment := false
  archived := decide (archive ∈ e.tags)
  tags := e.tags.filter (· ≠ archive)

/-- Is the entry below one of level `l`? -/
def below (l : Nat) (e : Entry) : Bool := decide (l < e.level)

theorem takeWhile_le {α : Type} (p : α → Bool) (l : List α) : (l.takeWhile p).length ≤ l.length :=
  (List.takeWhile_sublist p).length_le

theorem dropWhile_le {α : Type} (p : α → Bool) (l : List α) : (l.dropWhile p).length ≤ l.length :=
  (List.dropWhile_sublist p).length_le

/-- The sections: below a headline there are its text, and the headlines up to the next one of the same
or of a smaller level. -/
def sections : List Entry → List Sem
  | [] => []
  | e :: r =>
    .head e.info e.title.trim.sems (e.body.sems ++ sections (r.takeWhile (below e.level))) :: sections (r.dropWhile (below e.level))
termination_by es => es.length
decreasing_by
  · have := takeWhile_le (below e.level) r; simp; omega
  · have := dropWhile_le (below e.level) r; simp; omega

/-- The document. -/
def Outline.sems (d : Outline) : List Sem := d.pre.sems ++ sections d.entries

/-- The word making a headline a comment. -/
def comment : List Char := "COMMENT".toList

/-- The headline is not a comment. -/
def Entry.Plain (e : Entry) : Prop := e.mark.todo ≠ some comment ∧ e.title.pieces.head? ≠ some (.word comment)

/-! ## Normal form -/

/-- One space after each part. -/
def Mark.Neat : Mark → Prop
  | .none => True
  | .priority _ g => g = 0
  | .keyword _ g _ g' => g = 0 ∧ g' = 0

/-- There is text or a headline below the headline. -/
def Entry.Busy (e : Entry) (r : List Entry) : Prop := e.body ≠ .nil ∨ ∃ x ∈ r.head?, e.level < x.level

/-- Single spaces between the parts of the headline, the tag of archived headlines is the first one,
there is one empty line after the headline if there is something below it, and none otherwise. -/
structure Entry.Neat (e : Entry) (r : List Entry) : Prop where
  gap : e.gap = 0
  mark : e.mark.Neat
  title : e.title.pieces = e.title.trim.pieces ++ if e.tags = [] then [] else [.gap 0]
  tags : archive ∉ e.tags.tail
  busy : e.Busy r → e.stop = some 1
  free : ¬ e.Busy r → e.stop = some 0 ∨ (r = [] ∧ e.stop = Option.none)

def EntriesNeat : List Entry → Prop
  | [] => True
  | e :: r => e.Neat r ∧ EntriesNeat r

end Verif.Pipeline

namespace Verif.Sem
open Verif.Pipeline (Entry)

/-! ## Nested headlines -/

/-- Headlines with the headlines below them. -/
inductive Secs where
  | nil
  | sec (e : Entry) (subs : Secs) (rest : Secs)

/-- In the order of the document. -/
def Secs.entries : Secs → List Entry
  | .nil => []
  | .sec e s r => e :: (s.entries ++ r.entries)

/-- What is below a headline has a greater level, and the next headline beside it has not. -/
def Secs.Nested : Secs → Prop
  | .nil => True
  | .sec e s r => (∀ x ∈ s.entries, e.level < x.level) ∧ (∀ x ∈ r.entries.head?, x.level ≤ e.level) ∧ s.Nested ∧ r.Nested

/-- The nodes: the text of a headline, and then the headlines below it. -/
def Secs.sems : Secs → List Sem
  | .nil => []
  | .sec e s r => .head e.info e.title.trim.sems (e.body.sems ++ s.sems) :: r.sems

end Verif.Sem
