import Verif.Stamp.Lex

/-!
# Reading dates and times of the day
-/

namespace Verif.Stamp
open Verif.BaseLexer (isDigit toLower)
open Verif.Drawer (Text digitsValue isSpace digit_plain)

theorem dig_value (n : Nat) : (dig n).toNat - 48 = n % 10 := by
  unfold dig
  have h : n % 10 < 10 := Nat.mod_lt _ (by omega)
  generalize n % 10 = k at *
  revert k
  decide

theorem value_two {n : Nat} (h : n < 100) : digitsValue (two n) = n := by
  simp only [digitsValue, two, List.foldl_cons, List.foldl_nil, dig_value]
  omega

theorem value_four {n : Nat} (h : n < 10000) : digitsValue (four n) = n := by
  simp only [digitsValue, four, List.foldl_cons, List.foldl_nil, dig_value]
  omega

theorem parseInt_eq {w lo hi : Nat} {s ds : Text} (h : (if w = 0 then s.takeWhile isDigit else (s.take w).takeWhile isDigit) = ds) :
    parseInt w lo hi s = if ds = [] then none else
      if lo ≤ digitsValue ds ∧ digitsValue ds ≤ hi then some (digitsValue ds, s.drop ds.length) else none := by
  subst h
  rfl

theorem parse_two {lo hi n : Nat} (h : n < 100) (r : Text) : parseInt 2 lo hi (two n ++ r) = if lo ≤ n ∧ n ≤ hi then some (n, r) else none := by
  have e : (List.take 2 (two n ++ r)).takeWhile isDigit = two n := by
    simp [two, dig_digit]
  rw [parseInt_eq (w := 2) ((if_neg (by decide)).trans e), value_two h, if_neg (by simp [two])]
  rfl

theorem parse_four {n : Nat} (h : n < 10000) {r : Text} (hr : ∀ c, r.head? = some c → isDigit c = false) :
    parseInt 0 0 999999999 (four n ++ r) = some (n, r) := by
  have e : (four n ++ r).takeWhile isDigit = four n := by
    cases r with
    | nil => simp [four, dig_digit]
    | cons c r => simp [four, dig_digit, hr c rfl]
  rw [parseInt_eq (w := 0) ((if_pos rfl).trans e), value_four h, if_neg (by simp [four]), if_pos ⟨Nat.zero_le _, by omega⟩]
  rfl

theorem parse_none {w lo hi : Nat} {r : Text} (hr : ∀ c, r.head? = some c → isDigit c = false) : parseInt w lo hi r = none := by
  have e : (if w = 0 then r.takeWhile isDigit else (r.take w).takeWhile isDigit) = [] := by
    cases r with
    | nil => cases w <;> rfl
    | cons c r => cases w <;> simp [hr c rfl]
  rw [parseInt_eq e]
  rfl

/-- `%Y-%m-%d` on a date. -/
theorem fields_date {y m d : Nat} (hy : y < 10000) (hm : m < 100) (hd : d < 100) (fs : List Field) (c : Civil) (r : Text) :
    parseFields (.year :: .lit '-' :: .month :: .lit '-' :: .day :: fs) c (four y ++ '-' :: two m ++ '-' :: two d ++ r) =
      if (1 ≤ m ∧ m ≤ 12) ∧ 1 ≤ d ∧ d ≤ 31 then parseFields fs { c with year := y, month := m, day := d } r else none := by
  have e : four y ++ '-' :: two m ++ '-' :: two d ++ r = four y ++ ('-' :: (two m ++ ('-' :: (two d ++ r)))) := by simp
  rw [e]
  simp only [parseFields]
  rw [parse_four hy (by intro c hc; cases hc; decide)]
  simp only [Option.bind_some, List.head?_cons, if_true, List.tail_cons]
  rw [parse_two hm]
  by_cases h1 : 1 ≤ m ∧ m ≤ 12
  · simp only [if_pos h1, Option.bind_some, List.head?_cons, if_true, List.tail_cons]
    rw [parse_two hd]
    by_cases h2 : 1 ≤ d ∧ d ≤ 31
    · simp [h1, h2]
    · simp [h1, h2]
  · simp [h1]

/-- `%Y/…` on a date. -/
theorem fields_slash {y : Nat} (hy : y < 10000) (fs : List Field) (c : Civil) (r : Text) :
    parseFields (.year :: .lit '/' :: fs) c (four y ++ '-' :: r) = none := by
  simp only [parseFields]
  rw [parse_four hy (by intro c hc; cases hc; decide)]
  simp

/-- `%d-…` and `%d/…` on a date. -/
theorem fields_day {y : Nat} {x : Char} (hx : isDigit x = false) (fs : List Field) (c : Civil) (r : Text) :
    parseFields (.day :: .lit x :: fs) c (four y ++ r) = none := by
  have e : four y ++ r = two (y / 100) ++ (two y ++ r) := by
    simp only [four, two, List.cons_append, List.nil_append, Nat.div_div_eq_div_mul]
  have hne : some (dig (y / 10)) ≠ some x := by
    intro h
    injection h with h
    rw [← h, dig_digit] at hx
    cases hx
  have e2 : (List.take 2 (four y ++ r)).takeWhile isDigit = two (y / 100) := by
    simp [four, two, dig_digit, Nat.div_div_eq_div_mul]
  simp only [parseFields]
  rw [parseInt_eq (w := 2) ((if_neg (by decide)).trans e2), if_neg (by simp [two])]
  split_ifs
  · simp only [Option.bind_some, e]
    rw [if_neg]
    simp only [two, List.cons_append, List.nil_append, List.length_cons, List.length_nil, List.drop_succ_cons, List.drop_zero, List.head?_cons]
    exact hne
  · rfl

theorem space_digit {c : Char} (h : isDigit c = true) : isSpace c = false := (digit_plain h).1

theorem drop_two (n : Nat) (r : Text) : (two n ++ r).dropWhile isSpace = two n ++ r := by
  simp [two, space_digit (dig_digit _)]

theorem drop_four (n : Nat) (r : Text) : (four n ++ r).dropWhile isSpace = four n ++ r := by
  simp [four, space_digit (dig_digit _)]

/-- ` %H:%M…` after the date. -/
theorem fields_clock {h m : Nat} (hh : h < 100) (hm : m < 100) (fs : List Field) (c : Civil) (r : Text) :
    parseFields (.blank :: .hour :: .lit ':' :: .minute :: fs) c (' ' :: (two h ++ ':' :: (two m ++ r))) =
      if h ≤ 23 ∧ m ≤ 59 then parseFields fs { c with hour := h, minute := m } r else none := by
  simp only [parseFields, List.dropWhile_cons, show isSpace ' ' = true from rfl, if_true]
  rw [drop_two, parse_two hh]
  by_cases h1 : h ≤ 23
  · simp only [h1, Nat.zero_le, and_self, if_true, Option.bind_some, List.head?_cons, List.tail_cons]
    rw [parse_two hm]
    by_cases h2 : m ≤ 59 <;> simp [h2]
  · simp [h1]

theorem fields_weekday (h : Nat) (fs : List Field) (c : Civil) (r : Text) :
    parseFields (.blank :: .weekday :: fs) c (' ' :: (two h ++ r)) = none := by
  simp only [parseFields, List.dropWhile_cons, show isSpace ' ' = true from rfl, if_true]
  rw [drop_two]
  have hd : ∀ n, toLower (dig n) = dig n ∧ dig n ∉ ['s', 'm', 't', 'w', 'f'] := by
    intro n
    unfold dig
    have h : n % 10 < 10 := Nat.mod_lt _ (by omega)
    generalize n % 10 = k at *
    revert k
    decide
  obtain ⟨h1, h2⟩ := hd (h / 10)
  have : parseWeekday (two h ++ r) = none := by
    unfold parseWeekday
    simp only [Option.map_eq_none_iff, List.find?_eq_none]
    intro n hn
    have key : ∀ n ∈ ["sunday", "monday", "tuesday", "wednesday", "thursday", "friday", "saturday",
        "sun", "mon", "tue", "wed", "thu", "fri", "sat"].map String.toList, ∃ c r, n = c :: r ∧ c ∈ ['s', 'm', 't', 'w', 'f'] := by
      intro n hn
      have hh : ∀ n ∈ ["sunday", "monday", "tuesday", "wednesday", "thursday", "friday", "saturday",
        "sun", "mon", "tue", "wed", "thu", "fri", "sat"].map String.toList, ∃ c ∈ n.head?, c ∈ ['s', 'm', 't', 'w', 'f'] := by decide +kernel
      obtain ⟨c, hc, hm⟩ := hh n hn
      cases n with
      | nil => cases hc
      | cons a n => cases hc; exact ⟨_, _, rfl, hm⟩
    obtain ⟨c, r', rfl, hm⟩ := key n hn
    have hne : c ≠ dig (h / 10) := fun he => h2 (he ▸ hm)
    simp only [two, List.cons_append, List.nil_append, List.map_cons, h1, List.isPrefixOf, beq_iff_eq, hne, Bool.and_eq_true, false_and, not_false_eq_true]
  rw [this]
  rfl

/-- The time of the day without the blank before it. -/
def clockPart : Option Clock → Text
  | none => []
  | some c => c.text

theorem datetime_eq (s : Stamp) : dateTime s.date (clockPart s.clock) = s.date ++ clockText s.clock := by
  cases h : s.clock with
  | none => simp [dateTime, clockPart, clockText]
  | some c =>
    have h1 : c.text ≠ [] := by simp [Clock.text, two]
    have h2 : s.date ≠ [] := by simp [Stamp.date, four]
    simp [dateTime, clockPart, clockText, h1, h2]

/-- After the fields: nothing may be left, and the day must be one of the month. -/
def finish (p : Option (Civil × Text)) : Option Civil :=
  match p with
  | none => none
  | some (c, r) =>
    if r.dropWhile isSpace ≠ [] then none
    else if daysIn c.year c.month < c.day then none
    else if c.second = 60 then some ({ c with second := 59 } : Civil).tick
    else some c

theorem cctz_eq (fs : List Field) (s : Text) : cctzParse fs s = finish (parseFields fs ⟨1970, 1, 1, 0, 0, 0⟩ (s.dropWhile isSpace)) := by
  unfold cctzParse finish
  rfl

theorem days_bound (y m : Nat) : daysIn y m ≤ 31 := by
  unfold daysIn
  split_ifs <;> omega

theorem finish_date {y m d : Nat} (r : Text) (h : r.dropWhile isSpace = []) :
    finish (if (1 ≤ m ∧ m ≤ 12) ∧ 1 ≤ d ∧ d ≤ 31 then some (⟨y, m, d, 0, 0, 0⟩, r) else none) =
      if 1 ≤ m ∧ m ≤ 12 ∧ 1 ≤ d ∧ d ≤ daysIn y m then some ⟨y, m, d, 0, 0, 0⟩ else none := by
  have hb := days_bound y m
  by_cases h1 : (1 ≤ m ∧ m ≤ 12) ∧ 1 ≤ d ∧ d ≤ 31
  · rw [if_pos h1]
    unfold finish
    simp only [h, ne_eq, not_true, if_false]
    by_cases h2 : d ≤ daysIn y m
    · rw [if_neg (by omega), if_neg (by simp), if_pos ⟨h1.1.1, h1.1.2, h1.2.1, h2⟩]
    · rw [if_pos (by omega), if_neg (by omega)]
  · rw [if_neg h1, if_neg (by omega)]
    rfl

theorem lead_date (y m d : Nat) (r : Text) : (four y ++ '-' :: two m ++ '-' :: two d ++ r).dropWhile isSpace = four y ++ '-' :: two m ++ '-' :: two d ++ r := by
  rw [show four y ++ '-' :: two m ++ '-' :: two d ++ r = four y ++ ('-' :: two m ++ '-' :: two d ++ r) by simp, drop_four]

/-- Three formats that are never the right one. -/
theorem cctz_wrong {y m d : Nat} (hy : y < 10000) (r : Text) (fs : List Field) :
    cctzParse (.year :: .lit '/' :: fs) (four y ++ '-' :: two m ++ '-' :: two d ++ r) = none ∧
    cctzParse (.day :: .lit '-' :: fs) (four y ++ '-' :: two m ++ '-' :: two d ++ r) = none ∧
    cctzParse (.day :: .lit '/' :: fs) (four y ++ '-' :: two m ++ '-' :: two d ++ r) = none := by
  have e : four y ++ '-' :: two m ++ '-' :: two d ++ r = four y ++ '-' :: (two m ++ '-' :: two d ++ r) := by simp
  refine ⟨?_, ?_, ?_⟩
  · rw [cctz_eq, lead_date, e, fields_slash hy]; rfl
  · rw [cctz_eq, lead_date, e, fields_day (by decide)]; rfl
  · rw [cctz_eq, lead_date, e, fields_day (by decide)]; rfl

theorem cctz_date {y m d : Nat} (hy : y < 10000) (hm : m < 100) (hd : d < 100) (fs : List Field) (r : Text) :
    cctzParse (.year :: .lit '-' :: .month :: .lit '-' :: .day :: fs) (four y ++ '-' :: two m ++ '-' :: two d ++ r) =
      finish (if (1 ≤ m ∧ m ≤ 12) ∧ 1 ≤ d ∧ d ≤ 31 then parseFields fs ⟨y, m, d, 0, 0, 0⟩ r else none) := by
  rw [cctz_eq, lead_date, fields_date hy hm hd]

/-- A valid day of the calendar. -/
def RealDate (y m d : Nat) : Prop := 1 ≤ m ∧ m ≤ 12 ∧ 1 ≤ d ∧ d ≤ daysIn y m

instance (y m d : Nat) : Decidable (RealDate y m d) := by unfold RealDate; infer_instance

theorem first_format {t : Text} {z : Option Int} {r1 r5 r6 r7 : Option Civil}
    (h1 : cctzParse [.year, .lit '-', .month, .lit '-', .day, .blank, .hour, .lit ':', .minute, .lit ':', .second] t = r1)
    (h2 : cctzParse [.year, .lit '/', .month, .lit '/', .day, .blank, .hour, .lit ':', .minute, .lit ':', .second] t = none)
    (h3 : cctzParse [.day, .lit '-', .month, .lit '-', .year, .blank, .hour, .lit ':', .minute, .lit ':', .second] t = none)
    (h4 : cctzParse [.day, .lit '/', .month, .lit '/', .year, .blank, .hour, .lit ':', .minute, .lit ':', .second] t = none)
    (h5 : cctzParse [.year, .lit '-', .month, .lit '-', .day, .blank, .weekday, .blank, .hour, .lit ':', .minute, .lit ':', .second] t = r5)
    (h6 : cctzParse [.year, .lit '-', .month, .lit '-', .day, .blank, .hour, .lit ':', .minute] t = r6)
    (h7 : cctzParse [.year, .lit '-', .month, .lit '-', .day] t = r7) :
    parseUserTime t z = ((r1.map fun c => ⟨c, .second, z⟩).or ((r5.map fun c => ⟨c, .second, z⟩).or
      ((r6.map fun c => ⟨c, .minute, z⟩).or (r7.map fun c => ⟨c, .day, z⟩)))) := by
  unfold parseUserTime formats
  simp only [List.findSome?_cons, List.findSome?_nil, h1, h2, h3, h4, h5, h6, h7, Option.map_none]
  cases r1 <;> cases r5 <;> cases r6 <;> cases r7 <;> rfl

theorem finish_none {p : Prop} [Decidable p] : finish (if p then none else none) = none := by split <;> rfl

theorem finish_left {p : Prop} [Decidable p] {c : Civil} {r : Text} (h : r.dropWhile isSpace ≠ []) : finish (if p then some (c, r) else none) = none := by
  split
  · simp only [finish, if_pos h]
  · rfl

theorem userTime_day {y m d : Nat} (hy : y < 10000) (hm : m < 100) (hd : d < 100) (z : Option Int) :
    parseUserTime (four y ++ '-' :: two m ++ '-' :: two d ++ []) z = if RealDate y m d then some ⟨⟨y, m, d, 0, 0, 0⟩, .day, z⟩ else none := by
  have hn : ∀ fs c, parseFields (.blank :: .hour :: fs) c [] = none := by
    intro fs c; simp only [parseFields]; rw [parse_none (by simp)]; rfl
  have hw : ∀ fs c, parseFields (.blank :: .weekday :: fs) c [] = none := by
    intro fs c; simp only [parseFields]; rfl
  rw [first_format (r1 := none) (r5 := none) (r6 := none) (r7 := if RealDate y m d then some ⟨y, m, d, 0, 0, 0⟩ else none)
    (by rw [cctz_date hy hm hd, hn, finish_none]) (cctz_wrong hy _ _).1 (cctz_wrong hy _ _).2.1 (cctz_wrong hy _ _).2.2
    (by rw [cctz_date hy hm hd, hw, finish_none]) (by rw [cctz_date hy hm hd, hn, finish_none])
    (by rw [cctz_date hy hm hd]; exact finish_date [] rfl)]
  split_ifs <;> rfl

theorem finish_clock {y m d hh mm ss : Nat} (hs : ss ≠ 60) {q : Prop} [Decidable q] :
    finish (if (1 ≤ m ∧ m ≤ 12) ∧ 1 ≤ d ∧ d ≤ 31 then (if q then some (⟨y, m, d, hh, mm, ss⟩, []) else none) else none) =
      if RealDate y m d ∧ q then some ⟨y, m, d, hh, mm, ss⟩ else none := by
  have hb := days_bound y m
  unfold RealDate
  by_cases h1 : (1 ≤ m ∧ m ≤ 12) ∧ 1 ≤ d ∧ d ≤ 31
  · rw [if_pos h1]
    by_cases hq : q
    · rw [if_pos hq]
      unfold finish
      simp only [List.dropWhile_nil, ne_eq, not_true, if_false]
      by_cases h2 : d ≤ daysIn y m
      · rw [if_neg (by omega), if_neg hs, if_pos ⟨⟨h1.1.1, h1.1.2, h1.2.1, h2⟩, hq⟩]
      · rw [if_pos (by omega), if_neg (by omega)]
    · rw [if_neg hq, if_neg (fun h => hq h.2)]; rfl
  · rw [if_neg h1, if_neg (by omega)]
    rfl

theorem finish_nested {p q : Prop} [Decidable p] [Decidable q] {c : Civil} {r : Text} (h : r.dropWhile isSpace ≠ []) :
    finish (if p then (if q then some (c, r) else none) else none) = none := by
  split
  · exact finish_left h
  · rfl

theorem userTime_minute {y m d hh mm : Nat} (hy : y < 10000) (hm : m < 100) (hd : d < 100) (h1 : hh < 100) (h2 : mm < 100) (z : Option Int) :
    parseUserTime (four y ++ '-' :: two m ++ '-' :: two d ++ ' ' :: (two hh ++ ':' :: (two mm ++ []))) z =
      if RealDate y m d ∧ hh ≤ 23 ∧ mm ≤ 59 then some ⟨⟨y, m, d, hh, mm, 0⟩, .minute, z⟩ else none := by
  have hs : ∀ c, parseFields [.lit ':', .second] c [] = none := by
    intro c; simp [parseFields]
  rw [first_format (r1 := none) (r5 := none) (r7 := none) (r6 := if RealDate y m d ∧ hh ≤ 23 ∧ mm ≤ 59 then some ⟨y, m, d, hh, mm, 0⟩ else none)
    (by rw [cctz_date hy hm hd, fields_clock h1 h2, hs, ite_self, ite_self]; rfl) (cctz_wrong hy _ _).1 (cctz_wrong hy _ _).2.1 (cctz_wrong hy _ _).2.2
    (by rw [cctz_date hy hm hd, fields_weekday, finish_none])
    (by rw [cctz_date hy hm hd, fields_clock h1 h2]; exact finish_clock (ss := 0) (by decide))
    (by rw [cctz_date hy hm hd]; exact finish_left (by
          rw [List.dropWhile_cons, show isSpace ' ' = true from rfl, if_pos rfl, drop_two]; simp [two]))]
  split_ifs <;> rfl

theorem userTime_second {y m d hh mm ss : Nat} (hy : y < 10000) (hm : m < 100) (hd : d < 100) (h1 : hh < 100) (h2 : mm < 100) (h3 : ss < 100)
    (h60 : ss ≠ 60) (z : Option Int) :
    parseUserTime (four y ++ '-' :: two m ++ '-' :: two d ++ ' ' :: (two hh ++ ':' :: (two mm ++ ':' :: two ss))) z =
      if RealDate y m d ∧ hh ≤ 23 ∧ mm ≤ 59 ∧ ss ≤ 59 then some ⟨⟨y, m, d, hh, mm, ss⟩, .second, z⟩ else none := by
  have hs : ∀ c, parseFields [.lit ':', .second] c (':' :: two ss) = if ss ≤ 59 then some ({ c with second := ss }, []) else none := by
    intro c
    simp only [parseFields, List.head?_cons, if_true, List.tail_cons]
    have := parse_two (lo := 0) (hi := 60) h3 []
    rw [List.append_nil] at this
    rw [this]
    by_cases h : ss ≤ 59
    · rw [if_pos (by omega), if_pos h]; rfl
    · rw [if_neg (by omega), if_neg h]; rfl
  rw [first_format (r1 := if RealDate y m d ∧ hh ≤ 23 ∧ mm ≤ 59 ∧ ss ≤ 59 then some ⟨y, m, d, hh, mm, ss⟩ else none) (r5 := none) (r6 := none) (r7 := none)
    (by
      rw [cctz_date hy hm hd, fields_clock h1 h2, hs]
      have := finish_clock (y := y) (m := m) (d := d) (hh := hh) (mm := mm) h60 (q := hh ≤ 23 ∧ mm ≤ 59 ∧ ss ≤ 59)
      rw [← this]
      congr 2
      by_cases a : hh ≤ 23 ∧ mm ≤ 59 <;> by_cases b : ss ≤ 59 <;> simp [a, b])
    (cctz_wrong hy _ _).1 (cctz_wrong hy _ _).2.1 (cctz_wrong hy _ _).2.2
    (by rw [cctz_date hy hm hd, fields_weekday, finish_none])
    (by rw [cctz_date hy hm hd, fields_clock h1 h2]; exact finish_nested (by simp [isSpace]))
    (by rw [cctz_date hy hm hd]; exact finish_left (by
          rw [List.dropWhile_cons, show isSpace ' ' = true from rfl, if_pos rfl, drop_two]; simp [two]))]
  split_ifs <;> rfl

theorem days_eq {y m : Nat} (h1 : 1 ≤ m) (h2 : m ≤ 12) : daysIn y m = monthDays y m := by
  have hl : (y % 4 = 0 ∧ (y % 100 ≠ 0 ∨ y % 400 = 0)) ↔ leap y := by unfold leap; omega
  unfold daysIn monthDays
  rw [if_congr hl rfl rfl]
  obtain rfl | rfl | rfl | rfl | rfl | rfl | rfl | rfl | rfl | rfl | rfl | rfl :
    m = 1 ∨ m = 2 ∨ m = 3 ∨ m = 4 ∨ m = 5 ∨ m = 6 ∨ m = 7 ∨ m = 8 ∨ m = 9 ∨ m = 10 ∨ m = 11 ∨ m = 12 := by omega
  all_goals simp

/-- A date and a time of the day are read if and only if they are one. -/
theorem userTime_stamp {s : Stamp} (h : s.Valid) (z : Option Int) :
    parseUserTime (dateTime s.date (clockPart s.clock)) z = if s.Real then some { s.time.time with zone := z } else none := by
  rw [datetime_eq]
  have hy := h.year
  have hm := h.month
  have hd := h.day
  have hc := h.clock
  unfold Stamp.date Stamp.time
  have hr : s.Real ↔ RealDate s.year s.month s.day ∧ ∀ c ∈ s.clock, c.hour ≤ 23 ∧ c.minute ≤ 59 ∧ ∀ x ∈ c.second, x ≤ 59 := by
    unfold Stamp.Real RealDate
    constructor
    · rintro ⟨a, b, c, d, e⟩
      exact ⟨⟨a, b, c, by rw [days_eq a b]; exact d⟩, e⟩
    · rintro ⟨⟨a, b, c, d⟩, e⟩
      exact ⟨a, b, c, by rw [← days_eq a b]; exact d, e⟩
  rw [if_congr hr rfl rfl]
  rcases hk : s.clock with _ | ⟨hh, mm, _ | ss⟩ <;> rw [hk] at hc
  · have := userTime_day hy hm hd z
    simpa [clockText] using this
  · obtain ⟨c1, c2, -⟩ := hc _ rfl
    have := userTime_minute hy hm hd c1 c2 z
    simpa [clockText, Clock.text] using this
  · obtain ⟨c1, c2, c3⟩ := hc _ rfl
    obtain ⟨c3, c4⟩ := c3 _ rfl
    have := userTime_second hy hm hd c1 c2 c3 c4 z
    simpa [clockText, Clock.text] using this

end Verif.Stamp
