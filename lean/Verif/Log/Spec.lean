import Verif.Log.Model
import Verif.Stamp.Spec

/-!
# What entries of a logbook look like and what they mean
-/

namespace Verif.Log
open Verif.Stamp (Item Stamp UserTime)
open Verif.Pipeline (Piece IsWord)
open Verif.Drawer (Text)

/-! ## Entries as they are written -/

/-- The text of an entry (what comes after the bullet). -/
inductive Line where
  /-- `State "DONE" from "TODO" […]`; without an old state `State "TODO" from "" […]` -/
  | state (new : Text) (old : Option Text) (on : Stamp)
  /-- `Note taken on […]` -/
  | note (on : Stamp)
  /-- `Priority A added on […]` -/
  | added (quoted : Bool) (new : Text) (on : Stamp)
  /-- `Priority A changed from B on […]` -/
  | changed (quoted : Bool) (new old : Text) (on : Stamp)
  /-- `Priority A removed on […]` -/
  | removed (quoted : Bool) (old : Text) (on : Stamp)
  /-- `[…]`, after `CLOCK:` -/
  | running (start : Stamp)
  /-- `[…]--[…]`, after `CLOCK:` -/
  | clock (start stop : Stamp)

def word (s : Text) : Item := .piece (.word s)
/-- One space and `n` more. -/
def space (n : Nat) : Item := .piece (.gap n)
def quote : Item := .piece (.glyph ['"'])
def lineEnd : Item := .piece (.brk 0)

def name (quoted : Bool) (s : Text) : List Item := if quoted then [quote, word s, quote] else [word s]

/-- The text of an entry; the spaces between its parts may be wider. -/
def Line.items (g : Nat → Nat) : Line → List Item
  | .state new old on =>
    [word "State".toList, space (g 0), quote, word new, quote, space (g 1), word "from".toList, space (g 2), quote] ++
      (match old with | some o => [word o] | none => []) ++ [quote, space (g 3), .stamp on, lineEnd]
  | .note on =>
    [word "Note".toList, space (g 0), word "taken".toList, space (g 1), word "on".toList, space (g 2), .stamp on, lineEnd]
  | .added q new on =>
    [word "Priority".toList, space (g 0)] ++ name q new ++ [space (g 1), word "added".toList, space (g 2), word "on".toList, space (g 3), .stamp on, lineEnd]
  | .changed q new old on =>
    [word "Priority".toList, space (g 0)] ++ name q new ++ [space (g 1), word "changed".toList, space (g 2), word "from".toList, space (g 3)] ++ name q old ++
      [space (g 4), word "on".toList, space (g 5), .stamp on, lineEnd]
  | .removed q old on =>
    [word "Priority".toList, space (g 0)] ++ name q old ++ [space (g 1), word "removed".toList, space (g 2), word "on".toList, space (g 3), .stamp on, lineEnd]
  | .running start => [.stamp start, lineEnd]
  | .clock start stop => [.range start stop, lineEnd]

/-- What the entry says. -/
def Line.head : Line → Head
  | .state new old on => .state (old.getD []) new (some on.time.time)
  | .note on => .note (some on.time.time)
  | .added _ new on => .priority .added none (some new) (some on.time.time)
  | .changed _ new old on => .priority .changed (some old) (some new) (some on.time.time)
  | .removed _ old on => .priority .removed (some old) none (some on.time.time)
  | .running start => .clock start.time.time none
  | .clock start stop => .clock start.time.time (some stop.time.time)

def Line.names : Line → List Text
  | .state new old _ => new :: old.toList
  | .added _ new _ => [new]
  | .changed _ new old _ => [new, old]
  | .removed _ old _ => [old]
  | _ => []

def Line.stamps : Line → List Stamp
  | .state _ _ on | .note on | .added _ _ on | .changed _ _ _ on | .removed _ _ on => [on]
  | .running start => [start]
  | .clock start stop => [start, stop]

/-- The names are words; the timestamps are times. -/
structure Line.Valid (l : Line) : Prop where
  names : ∀ w ∈ l.names, IsWord w
  stamps : ∀ s ∈ l.stamps, s.Valid ∧ s.Real ∧ s.active = false

/-- A name in capitals. -/
def Caps (w : Text) : Prop := ∀ c ∈ w, ('A' ≤ c ∧ c ≤ 'Z') ∨ c = '_'

/-! ## Paragraphs -/

/-- The words of the first line, without capitals. -/
def firstWords : List Part → List Text
  | [] => []
  | .leaf .Newline _ :: _ => []
  | .leaf .Word w :: r => BaseLexer.normalize w :: firstWords r
  | _ :: r => firstWords r

/-- There is a time in the first line. -/
def timeInFirstLine : List Part → Bool
  | [] => false
  | .leaf .Newline _ :: _ => false
  | .time _ :: _ => true
  | _ :: r => timeInFirstLine r

/-- A tag with nothing but spaces and punctuation and other things that are no words before it, after the word. -/
def FoundAfter (w : Text) (p : Part → Prop) (par : List Part) (x : Part) : Prop :=
  ∃ a k t b c, par = a ++ .leaf k t :: b ++ x :: c ∧ BaseLexer.normalize t = w ∧ p x ∧ ∀ y ∈ b, y.isWord = false

/-- The words of a paragraph. -/
def countWords (par : List Part) : Nat := par.countP Part.isWord

end Verif.Log
