import Verif.Stamp.Model
import Verif.Pipeline.ProseSpec

/-!
# Timestamps in a text, and what is expected of them

How a timestamp is written, what it says, and the documents in which timestamps are expected to be
found: lines of words, numbers, punctuation, timestamps and ranges.
-/

namespace Verif.Stamp
open Verif.Pipeline (Piece fits IsWord)
open Verif.Drawer (Text showNat)

/-- A digit. -/
def dig (n : Nat) : Char := Nat.digitChar (n % 10)

/-- Two digits. -/
def two (n : Nat) : Text := [dig (n / 10), dig n]

/-- Four digits. -/
def four (n : Nat) : Text := [dig (n / 1000), dig (n / 100), dig (n / 10), dig n]

/-- The letter of a unit. -/
def unitLetter : Period → Char
  | .minute => 'M'
  | .hour => 'h'
  | .day => 'd'
  | .week => 'w'
  | .month => 'm'
  | .year => 'y'

/-- `hh:mm` or `hh:mm:ss`. -/
structure Clock where
  hour : Nat
  minute : Nat
  second : Option Nat := none
deriving DecidableEq

/-- `+hh` or `+hhmm`. -/
structure Zone where
  hours : Nat
  minutes : Option Nat := none
deriving DecidableEq

/-- A repeater `+1d`, after `gap` spaces. -/
structure Rep where
  gap : Nat := 1
  mode : Mode
  count : Nat
  unit : Period
deriving DecidableEq

/-- A warning period `-1d`, after `gap` spaces. -/
structure Warning where
  gap : Nat := 1
  count : Nat
  unit : Period
deriving DecidableEq

/-- A timestamp as it is written. -/
structure Stamp where
  active : Bool
  year : Nat
  month : Nat
  day : Nat
  dayName : Option Text := none
  clock : Option Clock := none
  zone : Option Zone := none
  reps : List Rep := []
  warning : Option Warning := none
deriving DecidableEq

def Clock.text (c : Clock) : Text :=
  two c.hour ++ ':' :: two c.minute ++ (match c.second with | none => [] | some s => ':' :: two s)

def Zone.digits (z : Zone) : Text := two z.hours ++ (match z.minutes with | none => [] | some m => two m)

/-- `+`: once more, `++`: the next time that is in the future, `.+`: from the day it is done. -/
def modeText : Mode → Text
  | .none => []
  | .exact => "+".toList
  | .firstMatch => "++".toList
  | .sameDay => ".+".toList

def durText (count : Nat) (unit : Period) : Text := showNat count ++ [unitLetter unit]

def Rep.text (r : Rep) : Text := List.replicate r.gap ' ' ++ modeText r.mode ++ durText r.count r.unit

def Warning.text (w : Warning) : Text := List.replicate w.gap ' ' ++ '-' :: durText w.count w.unit

def Stamp.date (s : Stamp) : Text := four s.year ++ '-' :: two s.month ++ '-' :: two s.day

def Stamp.opening (s : Stamp) : Char := if s.active then '<' else '['
def Stamp.closing (s : Stamp) : Char := if s.active then '>' else ']'

/-- The parts of a timestamp that may be missing. -/
def nameText : Option Text → Text
  | none => []
  | some w => ' ' :: w

def clockText : Option Clock → Text
  | none => []
  | some c => ' ' :: c.text

def zoneText : Option Zone → Text
  | none => []
  | some z => ' ' :: '+' :: z.digits

def warnText : Option Warning → Text
  | none => []
  | some w => w.text

def repsText (rs : List Rep) : Text := (rs.map Rep.text).flatten

/-- `<2024-01-31 Wed 10:00 +02 +1w -1d>`. -/
def Stamp.text (s : Stamp) : Text :=
  s.opening :: s.date ++ nameText s.dayName ++ clockText s.clock ++ zoneText s.zone ++ repsText s.reps ++ warnText s.warning ++ [s.closing]

/-- The numbers have the places they are written with, second 60 is left out; the name of the day is a
word that is not all capitals; counts are `int`s; the warning is kept apart from a word and from a zone
with four digits. -/
structure Stamp.Valid (s : Stamp) : Prop where
  year : s.year < 10000
  month : s.month < 100
  day : s.day < 100
  name : ∀ w ∈ s.dayName, IsWord w ∧ ¬ ∀ c ∈ w, ('A' ≤ c ∧ c ≤ 'Z') ∨ c = '_'
  clock : ∀ c ∈ s.clock, c.hour < 100 ∧ c.minute < 100 ∧ ∀ x ∈ c.second, x < 100 ∧ x ≠ 60
  zone : ∀ z ∈ s.zone, z.hours < 24 ∧ ∀ m ∈ z.minutes, m < 60
  reps : ∀ r ∈ s.reps, r.mode ≠ .none ∧ r.count ≤ 2147483647
  warning : ∀ w ∈ s.warning, w.count ≤ 2147483647 ∧ (w.gap = 0 → s.reps = [] →
    (∀ z ∈ s.zone, z.minutes = none) ∧ (s.zone = none → s.clock = none → s.dayName = none))

/-- Leap years of the Gregorian calendar. -/
def leap (year : Nat) : Prop := year % 400 = 0 ∨ (year % 4 = 0 ∧ year % 100 ≠ 0)

instance (year : Nat) : Decidable (leap year) := by unfold leap; infer_instance

/-- The days of the months, from January on. -/
def monthDays (year month : Nat) : Nat :=
  [31, if leap year then 29 else 28, 31, 30, 31, 30, 31, 31, 30, 31, 30, 31].getD (month - 1) 0

/-- It is a day of the calendar and a time of the day. -/
def Stamp.Real (s : Stamp) : Prop :=
  1 ≤ s.month ∧ s.month ≤ 12 ∧ 1 ≤ s.day ∧ s.day ≤ monthDays s.year s.month ∧
    ∀ c ∈ s.clock, c.hour ≤ 23 ∧ c.minute ≤ 59 ∧ ∀ x ∈ c.second, x ≤ 59

instance (s : Stamp) : Decidable s.Real :=
  decidable_of_iff (1 ≤ s.month ∧ s.month ≤ 12 ∧ 1 ≤ s.day ∧ s.day ≤ monthDays s.year s.month ∧
      s.clock.all (fun c => decide (c.hour ≤ 23 ∧ c.minute ≤ 59) && c.second.all (fun x => decide (x ≤ 59))) = true) <| by
    unfold Stamp.Real
    rcases s.clock with _ | ⟨h, m, _ | x⟩ <;> simp [and_assoc]

/-- What the timestamp says. -/
def Stamp.time (s : Stamp) : Time where
  active := s.active
  time := {
    time := match s.clock with
      | none => { year := s.year, month := s.month, day := s.day }
      | some c => { year := s.year, month := s.month, day := s.day, hour := c.hour, minute := c.minute, second := c.second.getD 0 }
    align := match s.clock with
      | none => .day
      | some ⟨_, _, none⟩ => .minute
      | some _ => .second
    zone := s.zone.map fun z => z.hours * 3600 + z.minutes.getD 0 * 60 }
  repeats := s.reps.map fun r => ⟨r.mode, r.unit, r.count⟩
  warn := s.warning.map fun w => (w.unit, - (w.count : Int))

/-! ## Documents -/

inductive Item where
  | piece (p : Piece)
  | stamp (s : Stamp)
  /-- `<…>--<…>` -/
  | range (a b : Stamp)
deriving DecidableEq

def Item.text : Item → Text
  | .piece p => p.text
  | .stamp s => s.text
  | .range a b => a.text ++ "--".toList ++ b.text

/-- The document. -/
def render (is : List Item) : Text := (is.map Item.text).flatten

/-- For the text before it a timestamp is like an opening parenthesis. -/
def Item.like : Item → Piece
  | .piece p => p
  | _ => .glyph ['(']

def Item.isPiece : Item → Bool
  | .piece _ => true
  | _ => false

/-- Between here and the next range are only words, numbers, spaces and timestamps. -/
def rangeAhead : List Item → Bool
  | .range _ _ :: _ => true
  | .stamp _ :: r => rangeAhead r
  | .piece (.word _) :: r | .piece (.number _) :: r | .piece (.gap _) :: r => rangeAhead r
  | _ => false

/-- A paragraph of prose without markup, with timestamps and ranges: no two of them without something
between them, and no range after a timestamp with nothing but words, numbers and spaces between them.
`bol`: at the start of a line. -/
def DatedFrom (bol : Bool) : List Item → Prop
  | [] => True
  | .piece p :: r => p.Valid ∧ p ≠ .star ∧ p ≠ .slash ∧ (∀ n, p ≠ .brk (n + 1)) ∧ fits bol p (r.head?.map Item.like) ∧
      DatedFrom p.isBrk r
  | .stamp s :: r => s.Valid ∧ (∃ i ∈ r.head?, i.isPiece = true) ∧ rangeAhead r = false ∧ DatedFrom false r
  | .range a b :: r => a.Valid ∧ b.Valid ∧ a.active = b.active ∧ (∃ i ∈ r.head?, i.isPiece = true) ∧ DatedFrom false r

/-- It does not start with an empty line and ends with the end of a line. -/
structure Dated (is : List Item) : Prop where
  from_ : DatedFrom true is
  first : is.head? ≠ some (.piece (.brk 0))
  last : is.getLast? = some (.piece (.brk 0))

/-- The same without the condition on a range after a timestamp. -/
def MixedFrom (bol : Bool) : List Item → Prop
  | [] => True
  | .piece p :: r => p.Valid ∧ p ≠ .star ∧ p ≠ .slash ∧ (∀ n, p ≠ .brk (n + 1)) ∧ fits bol p (r.head?.map Item.like) ∧
      MixedFrom p.isBrk r
  | .stamp s :: r => s.Valid ∧ (∃ i ∈ r.head?, i.isPiece = true) ∧ MixedFrom false r
  | .range a b :: r => a.Valid ∧ b.Valid ∧ a.active = b.active ∧ (∃ i ∈ r.head?, i.isPiece = true) ∧ MixedFrom false r

structure Mixed (is : List Item) : Prop where
  from_ : MixedFrom true is
  first : is.head? ≠ some (.piece (.brk 0))
  last : is.getLast? = some (.piece (.brk 0))

/-- What is to be found. -/
def Item.found : Item → List (Out Found)
  | .piece _ => []
  | .stamp s => [if s.Real then .ok (.time s.time) else .bad]
  | .range a b => [if a.Real ∧ b.Real then .ok (.range a.time b.time) else .throws]

end Verif.Stamp
