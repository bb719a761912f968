import Verif.Sem.Model
import Verif.Drawer.Model

/-!
# Model of timestamps: from the nodes of a timestamp to a time, and back to a text

* `src/haxorg/sem/SemConvert.cpp`: `ConvertToTimeZone`, `ParseUserTime`, `get_text`, `convertTime`,
  `convertTimeRange`;
* `src/hstd/stdlib/Time.cpp`: `UserTime::format`;
* `src/haxorg/sem/SemOrgFormat.cpp`: the formatter of a time, `FormatTimeDelta`.

The library `cctz` is modelled by what its documentation and source say about the formats used here:
fields of digits in their ranges, no day that the month does not have, second 60 is the next minute.
A sign in front of a field is left out (the lexer makes no such text).  A time zone is a fixed offset in
seconds; converting a civil time of such a zone to a point in time and back changes nothing.
-/

namespace Verif.Stamp
open Verif.Token Verif.NodeGroup
open Verif.BaseLexer (isDigit isAlpha toLower)
open Verif.Drawer (Text stoi showNat showInt digitsValue isSpace)
open Verif.Parser (NK)

/-! ## `cctz` -/

/-- `cctz::civil_second`, years from 0 on. -/
structure Civil where
  year : Nat
  month : Nat
  day : Nat
  hour : Nat := 0
  minute : Nat := 0
  second : Nat := 0
deriving DecidableEq, Repr

/-- Days of a month in the Gregorian calendar. -/
def daysIn (year month : Nat) : Nat :=
  if month = 2 then (if year % 4 = 0 ∧ (year % 100 ≠ 0 ∨ year % 400 = 0) then 29 else 28)
  else if month = 4 ∨ month = 6 ∨ month = 9 ∨ month = 11 then 30
  else 31

/-- One second later, with the carries. -/
def Civil.tick (c : Civil) : Civil :=
  if c.second < 59 then { c with second := c.second + 1 }
  else if c.minute < 59 then { c with minute := c.minute + 1, second := 0 }
  else if c.hour < 23 then { c with hour := c.hour + 1, minute := 0, second := 0 }
  else if c.day < daysIn c.year c.month then { c with day := c.day + 1, hour := 0, minute := 0, second := 0 }
  else if c.month < 12 then ⟨c.year, c.month + 1, 1, 0, 0, 0⟩
  else ⟨c.year + 1, 1, 1, 0, 0, 0⟩

/-- The parts of a format for `cctz::parse`. -/
inductive Field where
  /-- `%Y` -/
  | year
  /-- `%m` -/
  | month
  /-- `%d` -/
  | day
  /-- `%H` -/
  | hour
  /-- `%M` -/
  | minute
  /-- `%S` -/
  | second
  /-- `%a` -/
  | weekday
  /-- a blank: any number of blanks -/
  | blank
  | lit (c : Char)
deriving DecidableEq, Repr

/-- `ParseInt` of `cctz` (time_zone_format.cc): digits, at most `width` of them if it is not 0, the
value from `lo` to `hi`. -/
def parseInt (width lo hi : Nat) (s : Text) : Option (Nat × Text) :=
  let ds := if width = 0 then s.takeWhile isDigit else (s.take width).takeWhile isDigit
  let v := digitsValue ds
  if ds = [] then none else if lo ≤ v ∧ v ≤ hi then some (v, s.drop ds.length) else none

/-- `strptime("%a")`: a name of a day, full or with three letters, in any case. -/
def parseWeekday (s : Text) : Option Text :=
  let names := ["sunday", "monday", "tuesday", "wednesday", "thursday", "friday", "saturday",
    "sun", "mon", "tue", "wed", "thu", "fri", "sat"].map String.toList
  (names.find? (fun n => n.isPrefixOf (s.map toLower))).map (fun n => s.drop n.length)

/-- The loop of `cctz::parse` over the format. -/
def parseFields : List Field → Civil → Text → Option (Civil × Text)
  | [], c, s => some (c, s)
  | f :: fs, c, s =>
    match f with
    | .year => (parseInt 0 0 999999999 s).bind fun r => parseFields fs { c with year := r.1 } r.2
    | .month => (parseInt 2 1 12 s).bind fun r => parseFields fs { c with month := r.1 } r.2
    | .day => (parseInt 2 1 31 s).bind fun r => parseFields fs { c with day := r.1 } r.2
    | .hour => (parseInt 2 0 23 s).bind fun r => parseFields fs { c with hour := r.1 } r.2
    | .minute => (parseInt 2 0 59 s).bind fun r => parseFields fs { c with minute := r.1 } r.2
    | .second => (parseInt 2 0 60 s).bind fun r => parseFields fs { c with second := r.1 } r.2
    | .weekday => (parseWeekday s).bind fun r => parseFields fs c r
    | .blank => parseFields fs c (s.dropWhile isSpace)
    | .lit x => if s.head? = some x then parseFields fs c s.tail else none

/-- `cctz::parse`: blanks around the text are skipped, the day must be one of the month, second 60 is
the second after 59. -/
def cctzParse (fs : List Field) (s : Text) : Option Civil :=
  match parseFields fs ⟨1970, 1, 1, 0, 0, 0⟩ (s.dropWhile isSpace) with
  | none => none
  | some (c, r) =>
    if r.dropWhile isSpace ≠ [] then none
    else if daysIn c.year c.month < c.day then none
    else if c.second = 60 then some ({ c with second := 59 } : Civil).tick
    else some c

/-- `cctz::fixed_time_zone`: more than a day is UTC. -/
def fixedZone (offset : Int) : Int := if -86400 ≤ offset ∧ offset ≤ 86400 then offset else 0

/-! ## Reading -/

/-- `UserTime::Alignment`. -/
inductive Align where
  | year | month | day | hour | minute | second
deriving DecidableEq, Repr

/-- `UserTime` – src/hstd/stdlib/Time.hpp; the zone is its offset. -/
structure UserTime where
  time : Civil
  align : Align
  zone : Option Int
deriving DecidableEq, Repr

/-- `std::stoi` of two characters that are digits. -/
def stoi2 (s : Text) : Int := digitsValue s

/-- `ConvertToTimeZone` – SemConvert.cpp:165-186.  (`std::stoi` of something that is no number would
be an exception; the lexer puts only digits there.) -/
def convertZone (z : Text) : Int :=
  let positive := z.head? ≠ some '-'
  let z := if z.head? = some '+' ∨ z.head? = some '-' then z.tail else z
  let hours : Int := if z.length = 2 then stoi2 z else if z.length = 4 then stoi2 (z.take 2) else 0
  let minutes : Int := if z.length = 4 then stoi2 (z.drop 2) else 0
  let offset := hours * 3600 + minutes * 60
  fixedZone (if positive then offset else -offset)

/-- `formats` – SemConvert.cpp:194-206. -/
def formats : List (List Field × Align) :=
  [([.year, .lit '-', .month, .lit '-', .day, .blank, .hour, .lit ':', .minute, .lit ':', .second], .second),
   ([.year, .lit '/', .month, .lit '/', .day, .blank, .hour, .lit ':', .minute, .lit ':', .second], .second),
   ([.day, .lit '-', .month, .lit '-', .year, .blank, .hour, .lit ':', .minute, .lit ':', .second], .second),
   ([.day, .lit '/', .month, .lit '/', .year, .blank, .hour, .lit ':', .minute, .lit ':', .second], .second),
   ([.year, .lit '-', .month, .lit '-', .day, .blank, .weekday, .blank, .hour, .lit ':', .minute, .lit ':', .second], .second),
   ([.year, .lit '-', .month, .lit '-', .day, .blank, .hour, .lit ':', .minute], .minute),
   ([.year, .lit '-', .month, .lit '-', .day], .day)]

/-- `ParseUserTime` – SemConvert.cpp:188-221: the first format that fits. -/
def parseUserTime (datetime : Text) (zone : Option Int) : Option UserTime :=
  formats.findSome? fun f => (cctzParse f.1 datetime).map fun c => ⟨c, f.2, zone⟩

/-- `Time::Repeat::Mode` – SemOrgTypes.hpp:320-330. -/
inductive Mode where
  | none | exact | firstMatch | sameDay
deriving DecidableEq, Repr

/-- `Time::Repeat::Period` – SemOrgTypes.hpp:333. -/
inductive Period where
  | year | month | week | day | hour | minute
deriving DecidableEq, Repr

/-- `Time::Repeat`. -/
structure Repeat where
  mode : Mode
  period : Period
  count : Int
deriving DecidableEq, Repr

/-- `Time` with `Time::Static`; the mode of `warn` is never set (SemConvert.cpp:1103-1108) and left
out. -/
structure Time where
  active : Bool
  time : UserTime
  repeats : List Repeat := []
  warn : Option (Period × Int) := none
deriving DecidableEq, Repr

/-- What becomes of a node. -/
inductive Out (α : Type) where
  | ok (a : α)
  /-- an error node: `TimeFormatFail` – SemConvert.cpp:1113-1118 -/
  | bad
  /-- an exception -/
  | throws
  /-- not modelled: times given by code -/
  | outside
deriving DecidableEq, Repr

def Out.bind {α β : Type} (o : Out α) (f : α → Out β) : Out β :=
  match o with
  | .ok a => f a
  | .bad => .bad
  | .throws => .throws
  | .outside => .outside

/-- `which_period` – SemConvert.cpp:1070-1080. -/
def whichPeriod (c : Option Char) : Out Period :=
  if c = some 'd' then .ok .day
  else if c = some 'm' then .ok .month
  else if c = some 'w' then .ok .week
  else if c = some 'y' then .ok .year
  else if c = some 'M' then .ok .minute
  else if c = some 'h' then .ok .hour
  else .throws

/-- `get_text` – SemConvert.cpp:234-250, without lists. -/
def getText (toks : List Tok) (a : Sem.Adapter) : Out Text :=
  match a with
  | ⟨.Empty, _⟩ :: _ => .ok []
  | ⟨_, .tok i⟩ :: _ => match Pipeline.tokAt toks i with | some t => .ok t.text | none => .throws
  | _ => .throws

/-- Count and period: all but the last character, and the last one (`at(1_B)`) –
SemConvert.cpp:1093-1095, 1104-1107. -/
def countPeriod (s : Text) : Out (Period × Int) :=
  match stoi s.dropLast with
  | .error _ => .throws
  | .ok n => (whichPeriod s.getLast?).bind fun p => .ok (p, n)

/-- One repeater – SemConvert.cpp:1083-1098 (a spec that is none of the three would leave the mode
unset). -/
def convertRepeat (toks : List Tok) (r : Sem.Adapter) : Out Repeat :=
  match Sem.children r with
  | a :: b :: _ =>
    (getText toks a).bind fun spec =>
    (getText toks b).bind fun period =>
    (countPeriod period).bind fun pc =>
      .ok ⟨if spec = "++".toList then .firstMatch else if spec = ".+".toList then .sameDay
        else if spec = "+".toList then .exact else .none, pc.1, pc.2⟩
  | _ => .throws

/-- All of them, in order; the first one that fails ends it. -/
def convertRepeats (toks : List Tok) : List Sem.Adapter → Out (List Repeat)
  | [] => .ok []
  | r :: rs => (convertRepeat toks r).bind fun x => (convertRepeats toks rs).bind fun xs => .ok (x :: xs)

/-- Is it an empty node? -/
def isEmpty : Sem.Adapter → Bool
  | ⟨.Empty, _⟩ :: _ => true
  | _ => false

/-- `datetime` – SemConvert.cpp:1048-1057. -/
def dateTime (date clock : Text) : Text := if clock = [] then date else if date = [] then clock else date ++ ' ' :: clock

/-- The repeaters of a time – SemConvert.cpp:1082-1100. -/
def repeatsOf (toks : List Tok) (rep : Sem.Adapter) : Out (List Repeat) :=
  if isEmpty rep then .ok [] else convertRepeats toks (Sem.children rep)

/-- The warning of a time – SemConvert.cpp:1102-1109. -/
def warnOf (toks : List Tok) (warn : Sem.Adapter) : Out (Option (Period × Int)) :=
  if isEmpty warn then .ok none else (getText toks warn).bind fun s => (countPeriod s).bind fun p => .ok (some p)

/-- `convertTime` – SemConvert.cpp:1028-1127; the fields are the subnodes in this order
(OrgSpec.cpp:53-59). -/
def convertTime (toks : List Tok) (a : Sem.Adapter) : Out Time :=
  match a with
  | ⟨.StaticActiveTime, _⟩ :: _ | ⟨.StaticInactiveTime, _⟩ :: _ =>
    match Sem.children a with
    | [year, clock, zone, rep, warn] =>
      (getText toks year).bind fun y =>
      (getText toks clock).bind fun c =>
      (getText toks zone).bind fun z =>
      match parseUserTime (dateTime y c) (if isEmpty zone then none else some (convertZone z)) with
      | none => .bad
      | some t =>
        (repeatsOf toks rep).bind fun rs =>
        (warnOf toks warn).bind fun w =>
        .ok ⟨decide (a.head?.map (·.kind) = some .StaticActiveTime), t, rs, w⟩
    | _ => .throws
  | ⟨.DynamicActiveTime, _⟩ :: _ | ⟨.DynamicInactiveTime, _⟩ :: _ => .outside
  | _ => .throws

/-- `.value()` of a result: an error node is an exception. -/
def Out.value {α : Type} : Out α → Out α
  | .bad => .throws
  | o => o

/-- A time or a range of times found in a document. -/
inductive Found where
  | time (t : Time)
  | range (a b : Time)
deriving DecidableEq, Repr

/-- `convertTimeRange` – SemConvert.cpp:1129-1143. -/
def convertRange (toks : List Tok) (a : Sem.Adapter) : Out Found :=
  match Sem.children a with
  | x :: y :: _ => (convertTime toks x).value.bind fun x => (convertTime toks y).value.bind fun y => .ok (.range x y)
  | _ => .throws

/-- A time or a range – SemConvert.cpp:2640-2735 (`convert`). -/
def convertFound (toks : List Tok) (a : Sem.Adapter) : Out Found :=
  match a with
  | ⟨.TimeRange, _⟩ :: _ => convertRange toks a
  | _ => (convertTime toks a).bind fun t => .ok (.time t)

/-- The kinds of nodes for times. -/
def timeKinds : List NK := [.StaticActiveTime, .StaticInactiveTime, .DynamicActiveTime, .DynamicInactiveTime, .TimeRange]

/-- The times and ranges of a tree (given by its nodes in preorder), in the order of the text. -/
def timeNodes : Nat → List (Node NK Unit) → List Sem.Adapter
  | 0, _ => []
  | _ + 1, [] => []
  | f + 1, n :: rest =>
    if n.kind ∈ timeKinds then (n :: rest.take n.getExtent.toNat) :: timeNodes f (rest.drop n.getExtent.toNat)
    else timeNodes f rest

/-- The times of a document: lexer, parser and conversion of each time (`n`: fuel of the parser). -/
def readTimes (n : Nat) (text : Text) : Except Pipeline.Err (List (Out Found)) :=
  match Pipeline.parse BaseLexer.stdLex n text with
  | .error e => .error e
  | .ok (toks, nodes) => .ok ((timeNodes nodes.length nodes).map (convertFound toks))

/-! ## Writing -/

/-- `{:02}` and the fields of `cctz::format` but the year. -/
def pad2 (n : Nat) : Text := if n < 10 then '0' :: showNat n else showNat n

/-- `{:+0w}` for `w` digits and the sign. -/
def signed (w : Nat) (n : Int) : Text :=
  (if n < 0 then '-' else '+') :: (List.replicate (w - (showNat n.natAbs).length) '0' ++ showNat n.natAbs)

/-- The zone – Time.cpp:63-75; division of `int` rounds towards zero. -/
def showZone (offset : Int) : Text :=
  let minutes := offset.tdiv 60
  if minutes.tmod 60 = 0 then ' ' :: signed 2 (minutes.tdiv 60) else ' ' :: signed 4 minutes

def zonePart : Option Int → Text
  | none => []
  | some z => showZone z

/-- `UserTime::format(OrgFormat)` – Time.cpp:42-82 (`%Y` of `cctz` has no padding). -/
def UserTime.show (t : UserTime) : Text :=
  let c := t.time
  let date := match t.align with
    | .year => showNat c.year
    | .month => showNat c.year ++ '-' :: pad2 c.month
    | _ => showNat c.year ++ '-' :: pad2 c.month ++ '-' :: pad2 c.day
  let clock := match t.align with
    | .hour => ' ' :: pad2 c.hour
    | .minute => ' ' :: pad2 c.hour ++ ':' :: pad2 c.minute
    | .second => ' ' :: pad2 c.hour ++ ':' :: pad2 c.minute ++ ':' :: pad2 c.second
    | _ => []
  date ++ clock ++ zonePart t.zone

/-- `fmt_period` – SemOrgFormat.cpp:923-932. -/
def Period.char : Period → Char
  | .day => 'd'
  | .month => 'm'
  | .hour => 'h'
  | .week => 'w'
  | .year => 'y'
  | .minute => 'M'

/-- SemOrgFormat.cpp:935-940. -/
def Mode.show : Mode → Text
  | .none => []
  | .exact => ['+']
  | .firstMatch => ['+', '+']
  | .sameDay => ['.', '+']

def Repeat.show (r : Repeat) : Text := r.mode.show ++ showInt r.count ++ [r.period.char]

/-- SemOrgFormat.cpp:948-952. -/
def showWarn : Option (Period × Int) → Text
  | none => []
  | some (p, n) => showInt n ++ [p.char]

/-- `Formatter::toString(SemId<Time>)` – SemOrgFormat.cpp:912-958. -/
def Time.show (t : Time) : Text :=
  [if t.active then '<' else '['] ++ t.time.show ++ (t.repeats.map Repeat.show).flatten ++
    showWarn t.warn ++ [if t.active then '>' else ']']

/-- `{:02}` for a number that may be negative. -/
def pad2Int (n : Int) : Text :=
  if 0 ≤ n then pad2 n.toNat else '-' :: showNat n.natAbs

/-- `FormatTimeDelta` – SemOrgFormat.cpp:26-31. -/
def formatDelta (seconds : Int) : Text :=
  let delta := seconds.tdiv 60
  showInt (delta.tdiv 60) ++ ':' :: pad2Int (delta.tmod 60)

end Verif.Stamp
