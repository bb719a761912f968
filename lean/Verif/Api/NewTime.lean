/-!
# C95: times made from parts

Model of `newSemTimeStatic` (`src/haxorg/api/SemBaseApi.cpp:308-352`) and `UserTime::getBreakdown` (`src/hstd/stdlib/Time.cpp:6-38`), and their
properties.  `cctz::civil_second` normalizes what is out of range: the numbers of months, days, hours, minutes and seconds carry over.
-/

namespace Verif.Api.NewTime

/-- `UserTimeBreakdown` – Time.hpp:15-39; the zone is its name. -/
structure Breakdown where
  year : Option Int := none
  month : Option Int := none
  day : Option Int := none
  hour : Option Int := none
  minute : Option Int := none
  second : Option Int := none
  zone : Option String := none
deriving DecidableEq, Repr

/-- `cctz::civil_second` -/
structure Civil where
  year : Int
  month : Int
  day : Int
  hour : Int
  minute : Int
  second : Int
deriving DecidableEq, Repr

inductive Align where
  | Year | Month | Day | Hour | Minute | Second
deriving DecidableEq, Repr

/-- `UserTime` – Time.hpp:41-58 -/
structure UserTime where
  time : Civil
  zone : Option String
  align : Align
deriving DecidableEq, Repr

def leap (y : Int) : Bool := y % 4 = 0 && (y % 100 ≠ 0 || y % 400 = 0)

def daysIn (y m : Int) : Int :=
  if m = 2 then (if leap y then 29 else 28) else if m = 4 ∨ m = 6 ∨ m = 9 ∨ m = 11 then 30 else 31

/-- The month before and after. -/
def prevMonth (y m : Int) : Int × Int := if m = 1 then (y - 1, 12) else (y, m - 1)
def nextMonth (y m : Int) : Int × Int := if m = 12 then (y + 1, 1) else (y, m + 1)

/-- Days out of range carry over to the months; each step brings the day at least 28 days closer to the range. -/
def fixDay : Nat → Int → Int → Int → Int × Int × Int
  | 0, y, m, d => (y, m, d)
  | n + 1, y, m, d =>
    if d < 1 then
      let (y', m') := prevMonth y m
      fixDay n y' m' (d + daysIn y' m')
    else if daysIn y m < d then
      let (y', m') := nextMonth y m
      fixDay n y' m' (d - daysIn y m)
    else (y, m, d)

/-- The constructor of `cctz::civil_second` (the library normalizes its arguments). -/
def civil (y m d hh mm ss : Int) : Civil :=
  let mm := mm + ss / 60
  let hh := hh + mm / 60
  let d := d + hh / 24
  let y := y + (m - 1) / 12
  let m := (m - 1) % 12 + 1
  let r := fixDay (d.natAbs + 1) y m d
  ⟨r.1, r.2.1, r.2.2, hh % 24, mm % 60, ss % 60⟩

/-- The alignment – SemBaseApi.cpp:331-343; without any part the field is not written (an arbitrary value, here the year). -/
def alignOf (b : Breakdown) : Align :=
  if b.second.isSome then .Second
  else if b.minute.isSome then .Minute
  else if b.hour.isSome then .Hour
  else if b.day.isSome then .Day
  else if b.month.isSome then .Month
  else .Year

/-- `newSemTimeStatic` – SemBaseApi.cpp:308-352; the zone is known. -/
def newTime (b : Breakdown) : UserTime :=
  ⟨civil (b.year.getD 0) (b.month.getD 0) (b.day.getD 0) (b.hour.getD 0) (b.minute.getD 0) (b.second.getD 0), b.zone, alignOf b⟩

/-- `getBreakdown` – Time.cpp:6-38 -/
def getBreakdown (t : UserTime) : Breakdown :=
  let a : Nat := match t.align with | .Year => 0 | .Month => 1 | .Day => 2 | .Hour => 3 | .Minute => 4 | .Second => 5
  { year := some t.time.year
    month := if 1 ≤ a then some t.time.month else none
    day := if 2 ≤ a then some t.time.day else none
    hour := if 3 ≤ a then some t.time.hour else none
    minute := if 4 ≤ a then some t.time.minute else none
    second := if 5 ≤ a then some t.time.second else none
    zone := t.zone }

/-! ## Specification -/

/-- The parts are in the calendar. -/
structure Breakdown.Valid (b : Breakdown) : Prop where
  month : ∀ m, b.month = some m → 1 ≤ m ∧ m ≤ 12
  day : ∀ d, b.day = some d → 1 ≤ d ∧ ∀ y m, b.year = some y → b.month = some m → d ≤ daysIn y m
  hour : ∀ h, b.hour = some h → 0 ≤ h ∧ h < 24
  minute : ∀ h, b.minute = some h → 0 ≤ h ∧ h < 60
  second : ∀ h, b.second = some h → 0 ≤ h ∧ h < 60

/-- There are no gaps: a part is given only if the larger ones are. -/
structure Breakdown.Full (b : Breakdown) : Prop where
  year : b.year.isSome
  month : b.day.isSome → b.month.isSome
  day : b.hour.isSome → b.day.isSome
  hour : b.minute.isSome → b.hour.isSome
  minute : b.second.isSome → b.minute.isSome

/-- **C95.** In full: a time made from parts of the calendar without gaps has these parts. -/
def NewTimeStatement : Prop := ∀ b : Breakdown, b.Valid → b.Full → getBreakdown (newTime b) = b

/-- The code: month and day are zero if they are not given, so that the time made from `2024` is in 2023. -/
theorem new_time_year : getBreakdown (newTime { year := some 2024 }) = { year := some 2023 } := by decide +kernel

/-- The code: the time made from March 2024 is in February. -/
theorem new_time_month : getBreakdown (newTime { year := some 2024, month := some 3 }) = { year := some 2024, month := some 2 } := by decide +kernel

theorem newTime_false : ¬ NewTimeStatement := by
  intro h
  have := h { year := some 2024 } ⟨by simp, by simp, by simp, by simp, by simp⟩ ⟨rfl, by simp, by simp, by simp, by simp⟩
  rw [new_time_year] at this
  revert this
  decide

theorem civil_valid {y m d hh mm ss : Int} (hm : 1 ≤ m ∧ m ≤ 12) (hd : 1 ≤ d ∧ d ≤ daysIn y m) (h1 : 0 ≤ hh ∧ hh < 24) (h2 : 0 ≤ mm ∧ mm < 60)
    (h3 : 0 ≤ ss ∧ ss < 60) : civil y m d hh mm ss = ⟨y, m, d, hh, mm, ss⟩ := by
  have e1 : ss / 60 = 0 := by omega
  have e2 : mm / 60 = 0 := by omega
  have e3 : hh / 24 = 0 := by omega
  have e4 : (m - 1) / 12 = 0 := by omega
  have e5 : (m - 1) % 12 + 1 = m := by omega
  unfold civil
  simp only [e1, Int.add_zero, e2, e3, e4, e5]
  have hf : fixDay (d.natAbs + 1) y m d = (y, m, d) := by
    rw [fixDay, if_neg (by omega), if_neg (by omega)]
  rw [hf]
  have e6 : hh % 24 = hh := by omega
  have e7 : mm % 60 = mm := by omega
  have e8 : ss % 60 = ss := by omega
  simp only [e6, e7, e8]

/-- **C95**, when the day is given. -/
theorem new_time_partial (b : Breakdown) (hv : b.Valid) (hf : b.Full) (hd : b.day.isSome) : getBreakdown (newTime b) = b := by
  obtain ⟨year, month, day, hour, minute, second, zone⟩ := b
  obtain ⟨y, rfl⟩ := Option.isSome_iff_exists.1 hf.year
  obtain ⟨d, rfl⟩ := Option.isSome_iff_exists.1 hd
  obtain ⟨m, rfl⟩ := Option.isSome_iff_exists.1 (hf.month rfl)
  have hm := hv.month m rfl
  have hd' := hv.day d rfl
  have hd'' := hd'.2 y m rfl rfl
  have key : ∀ h mi s : Int, 0 ≤ h ∧ h < 24 → 0 ≤ mi ∧ mi < 60 → 0 ≤ s ∧ s < 60 → civil y m d h mi s = ⟨y, m, d, h, mi, s⟩ :=
    fun h mi s h1 h2 h3 => civil_valid hm ⟨hd'.1, hd''⟩ h1 h2 h3
  cases hour with
  | none =>
    have h1 : minute = none := by
      cases minute with
      | none => rfl
      | some v => exact absurd (hf.hour rfl) (by simp)
    subst h1
    have h2 : second = none := by
      cases second with
      | none => rfl
      | some v => exact absurd (hf.minute rfl) (by simp)
    subst h2
    simp [newTime, alignOf, getBreakdown, key 0 0 0 (by omega) (by omega) (by omega)]
  | some h =>
    have hh := hv.hour h rfl
    cases minute with
    | none =>
      have h2 : second = none := by
        cases second with
        | none => rfl
        | some v => exact absurd (hf.minute rfl) (by simp)
      subst h2
      simp [newTime, alignOf, getBreakdown, key h 0 0 hh (by omega) (by omega)]
    | some mi =>
      have hmi := hv.minute mi rfl
      cases second with
      | none => simp [newTime, alignOf, getBreakdown, key h mi 0 hh hmi (by omega)]
      | some s => simp [newTime, alignOf, getBreakdown, key h mi s hh hmi (hv.second s rfl)]

/-- 29 February 2024, 23:59 -/
def exTime : Breakdown := { year := some 2024, month := some 2, day := some 29, hour := some 23, minute := some 59 }

example : exTime.Valid ∧ exTime.Full ∧ exTime.day.isSome := by
  refine ⟨⟨?_, ?_, ?_, ?_, ?_⟩, ⟨?_, ?_, ?_, ?_, ?_⟩, rfl⟩ <;> simp [exTime, daysIn, leap]

end Verif.Api.NewTime
