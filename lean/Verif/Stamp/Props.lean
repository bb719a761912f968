import Verif.Stamp.Convert

/-!
# Properties of timestamps

C120: timestamps and ranges in a text are read as they are written.  C121: a timestamp is read as a time
exactly if it is a day of the calendar and a time of the day.  C122: times read from a text are written
so that they are read again.  C123: a duration is written in hours and minutes.
-/

namespace Verif.Stamp
open Verif.Drawer (Text showNat showInt showNat_digit)
open Verif.Pipeline (Piece)

/-! ## The number of tokens -/

theorem said_ne {r : Raw} (h : ∀ u ∈ said r, u ≠ []) : r.length ≤ (rawText r).length := by
  induction r with
  | nil => simp
  | cons x r ih =>
    obtain ⟨k, u⟩ := x
    have h1 : u ≠ [] := h u (by simp [said])
    have h2 := ih fun v hv => h v (by simp only [said, List.map_cons, List.mem_cons] at hv ⊢; exact .inr hv)
    have h3 : 0 < u.length := List.length_pos_of_ne_nil h1
    simp only [rawText, List.map_cons, List.flatten_cons, List.length_append, List.length_cons] at h2 ⊢
    omega

theorem gap_ne (n : Nat) : ∀ u ∈ said (gapRaw n), u ≠ [] := by
  intro u hu
  unfold gapRaw at hu
  split at hu
  · cases hu
  · rename_i h
    simp only [said, List.map_cons, List.map_nil, List.mem_singleton] at hu
    rw [hu]
    simpa using h

theorem stamp_ne {s : Stamp} (h : s.Valid) : ∀ u ∈ said s.raw, u ≠ [] := by
  intro u hu
  simp only [Stamp.raw, Stamp.inside, said_append, List.mem_append] at hu
  have hdur : ∀ n p, durText n p ≠ [] := by intro n p; simp [durText]
  rcases hu with hu | hu | hu
  · simp only [said, List.map_cons, List.map_nil, List.mem_singleton] at hu; rw [hu]; simp
  · have : said ((Token.TK.Date, s.date) :: (nameRaw s ++ (clockRaw s ++ (zoneRaw s ++ (repsRaw s ++ warnRaw s))))) =
        s.date :: (said (nameRaw s) ++ (said (clockRaw s) ++ (said (zoneRaw s) ++ (said (repsRaw s) ++ said (warnRaw s))))) := by simp [said]
    rw [this] at hu
    simp only [List.mem_cons, List.mem_append] at hu
    rcases hu with hu | hu | hu | hu | hu | hu
    · rw [hu]; simp [Stamp.date, four]
    · unfold nameRaw at hu
      cases hw : s.dayName with
      | none => rw [hw] at hu; cases hu
      | some w =>
        rw [hw] at hu
        simp only [said_append, List.mem_append] at hu
        rcases hu with hu | hu
        · exact gap_ne _ u hu
        · simp only [said, List.map_cons, List.map_nil, List.mem_singleton] at hu
          obtain ⟨⟨⟨c, hc, -⟩, -⟩, -⟩ := h.name w hw
          rw [hu]
          rintro rfl
          cases hc
    · unfold clockRaw at hu
      cases hw : s.clock with
      | none => rw [hw] at hu; cases hu
      | some w =>
        rw [hw] at hu
        simp only [said_append, List.mem_append] at hu
        rcases hu with hu | hu
        · exact gap_ne _ u hu
        · simp only [said, List.map_cons, List.map_nil, List.mem_singleton] at hu
          rw [hu]
          simp [Clock.text, two]
    · unfold zoneRaw at hu
      cases hw : s.zone with
      | none => rw [hw] at hu; cases hu
      | some w =>
        rw [hw] at hu
        simp only [said_append, List.mem_append] at hu
        rcases hu with hu | hu
        · exact gap_ne _ u hu
        · simp only [said, List.map_cons, List.map_nil, List.mem_cons, List.not_mem_nil, or_false] at hu
          rcases hu with hu | hu <;> rw [hu] <;> simp [Zone.digits, two]
    · have hr := h.reps
      unfold repsRaw at hu
      revert hu hr
      generalize s.reps = rs
      intro hu hr
      induction rs with
      | nil => cases hu
      | cons r rs ih =>
        simp only [List.map_cons, List.flatten_cons, said_append, List.mem_append] at hu
        rcases hu with hu | hu
        · simp only [Rep.raw, said_append, List.mem_append] at hu
          rcases hu with hu | hu
          · exact gap_ne _ u hu
          · simp only [said, List.map_cons, List.map_nil, List.mem_cons, List.not_mem_nil, or_false] at hu
            have := (hr r List.mem_cons_self).1
            rcases hu with hu | hu <;> rw [hu]
            · revert this; cases r.mode <;> simp [modeText]
            · exact hdur _ _
        · exact ih hu fun x hx => hr x (List.mem_cons_of_mem _ hx)
    · unfold warnRaw at hu
      cases hw : s.warning with
      | none => rw [hw] at hu; cases hu
      | some w =>
        rw [hw] at hu
        simp only [Warning.raw, said_append, List.mem_append] at hu
        rcases hu with hu | hu
        · exact gap_ne _ u hu
        · simp only [said, List.map_cons, List.map_nil, List.mem_singleton] at hu
          rw [hu]
          simp
  · simp only [said, List.map_cons, List.map_nil, List.mem_singleton] at hu; rw [hu]; simp

theorem piece_ne {p : Piece} (h : p.Valid) : p.text ≠ [] := by
  cases p with
  | word w =>
    obtain ⟨⟨c, hc, -⟩, -⟩ := h
    intro he
    have : w = [] := he
    rw [this] at hc
    cases hc
  | number w => exact h.1
  | gap n => simp [Piece.text]
  | brk n => simp [Piece.text]
  | colon => simp [Piece.text]
  | star => simp [Piece.text]
  | slash => simp [Piece.text]
  | glyph u => rcases h with ⟨x, rfl, -⟩ | ⟨a, b, rfl, -⟩ | ⟨a, b, d, rfl, -⟩ <;> simp [Piece.text]

theorem items_ne {b : Bool} {is : List Item} (h : DatedFrom b is) : ∀ u ∈ said (docRaw is), u ≠ [] := by
  induction is generalizing b with
  | nil => intro u hu; cases hu
  | cons i r ih =>
    intro u hu
    have e : said (docRaw (i :: r)) = said i.raw ++ said (docRaw r) := by simp [docRaw, said]
    rw [e] at hu
    cases i with
    | piece p =>
      obtain ⟨h1, -, -, -, -, h6⟩ := h
      rcases List.mem_append.mp hu with hu | hu
      · simp only [Item.raw, said, List.map_cons, List.map_nil, List.mem_singleton] at hu
        rw [hu]
        exact piece_ne h1
      · exact ih h6 u hu
    | stamp s =>
      obtain ⟨h1, -, -, h4⟩ := h
      rcases List.mem_append.mp hu with hu | hu
      · exact stamp_ne h1 u hu
      · exact ih h4 u hu
    | range x y =>
      obtain ⟨h1, h2, -, -, h5⟩ := h
      rcases List.mem_append.mp hu with hu | hu
      · simp only [Item.raw, said_append, List.mem_append] at hu
        rcases hu with hu | hu | hu
        · exact stamp_ne h1 u hu
        · simp only [said, List.map_cons, List.map_nil, List.mem_singleton] at hu
          rw [hu]; simp
        · exact stamp_ne h2 u hu
      · exact ih h5 u hu

theorem doc_length {b : Bool} {is : List Item} (h : DatedFrom b is) : (docRaw is).length ≤ (render is).length := by
  obtain ⟨_, hr⟩ := run_items h
  have := said_ne (items_ne h)
  rwa [hr.1] at this

/-! ## C120 -/

/-- Every timestamp and range of the text is found, in order, and says what is written. -/
def ReadStatement : Prop :=
  ∀ is, Mixed is → ∀ n, (render is).length + 4 ≤ n → readTimes n (render is) = .ok (is.flatMap Item.found)

/-- C120, for texts with no range after a timestamp that is separated from it by nothing but words,
numbers and spaces. -/
theorem stamps_read_partial {is : List Item} (h : Dated is) {n : Nat} (hn : (render is).length + 4 ≤ n) :
    readTimes n (render is) = .ok (is.flatMap Item.found) :=
  dated_times h (by have := doc_length h.from_; omega)

/-- A day without a time of the day. -/
def day (y m d : Nat) : Stamp := { active := true, year := y, month := m, day := d }

theorem day_valid {y m d : Nat} (h : y < 10000 ∧ m < 100 ∧ d < 100) : (day y m d).Valid :=
  ⟨h.1, h.2.1, h.2.2, by simp [day], by simp [day], by simp [day], by simp [day], by simp [day]⟩

/-- `<2024-01-01> <2024-01-02>--<2024-01-03>`: the first timestamp is taken for the start of a range. -/
theorem read_false : ¬ ReadStatement := by
  intro h
  have := h [.stamp (day 2024 1 1), .piece (.gap 0), .range (day 2024 1 2) (day 2024 1 3), .piece (.brk 0)]
    ⟨⟨day_valid (by decide), ⟨_, rfl, rfl⟩, trivial, by simp, by simp, by simp, by simp [Pipeline.fits, Item.like],
      day_valid (by decide), day_valid (by decide), rfl, ⟨_, rfl, rfl⟩, trivial, by simp, by simp, by simp, by simp [Pipeline.fits], trivial⟩, by simp, rfl⟩ 60 (by decide +kernel)
  exact absurd this (by decide +kernel)

/-- What becomes of it: an exception for the first timestamp. -/
theorem stamp_before_range : readTimes 60 "<2024-01-01> <2024-01-02>--<2024-01-03>\n".toList =
    .ok [.throws, .ok (.range (day 2024 1 2).time (day 2024 1 3).time)] := by decide +kernel

/-- Other notation of timestamps that is read as something else: a zone to the west, a range of times of
the day, two units, a name of a unit. -/
theorem stamps_misread :
    readTimes 60 "<2024-01-01 10:00 -03>\n".toList = readTimes 60 "<2024-01-01 10:00>\n".toList ∧
    readTimes 60 "<2024-01-01 10:00-11:00>\n".toList = readTimes 60 "<2024-01-01 10:00>\n".toList ∧
    readTimes 60 "<2024-01-01 +1d2w>\n".toList = readTimes 60 "<2024-01-01 +1w>\n".toList ∧
    readTimes 60 "<2024-01-01 +1day>\n".toList = readTimes 60 "<2024-01-01 +1y>\n".toList := by decide +kernel

/-- `On <2024-02-29 Thu 10:00:05 +0530 ++1w -2d>, [2024-01-31 +01]--[2024-02-30].` and its times. -/
def sample : List Item :=
  [.piece (.word "On".toList), .piece (.gap 0),
   .stamp { active := true, year := 2024, month := 2, day := 29, dayName := some "Thu".toList, clock := some ⟨10, 0, some 5⟩, zone := some ⟨5, some 30⟩,
            reps := [⟨1, .firstMatch, 1, .week⟩], warning := some ⟨1, 2, .day⟩ },
   .piece (.glyph [',']), .piece (.gap 0),
   .range { active := false, year := 2024, month := 1, day := 31, zone := some ⟨1, none⟩ } { active := false, year := 2024, month := 2, day := 30 },
   .piece (.glyph ['.']), .piece (.brk 0)]

theorem thu_word : Pipeline.IsWord "Thu".toList ∧ Pipeline.IsWord "On".toList := by
  refine ⟨⟨⟨'T', rfl, by decide⟩, ⟨"Thu".toList, [], by simp, ?_, .inl rfl⟩, by decide +kernel, by decide +kernel⟩,
    ⟨⟨'O', rfl, by decide⟩, ⟨"On".toList, [], by simp, ?_, .inl rfl⟩, by decide +kernel, by decide +kernel⟩⟩
  · exact ⟨.inl (by decide), .inl (by decide), (by decide : Verif.BaseLexer.isAlnum 'u' = true)⟩
  · exact ⟨.inl (by decide), (by decide : Verif.BaseLexer.isAlnum 'n' = true)⟩

theorem sample_dated : Dated sample := by
  have glyph : ∀ c, c ∈ Pipeline.marksTable.map (·.1) → Pipeline.IsGlyph [c] := fun c h => .inl ⟨c, rfl, h⟩
  refine ⟨⟨thu_word.2, by simp, by simp, by simp, by simp [Pipeline.fits, Item.like, Piece.Alnum],
    trivial, by simp, by simp, by simp, by simp [Pipeline.fits, Item.like, Piece.isBrk],
    ⟨by decide, by decide, by decide, ?_, ?_, ?_, ?_, ?_⟩, ⟨_, rfl, rfl⟩, rfl,
    glyph _ (by decide), by simp, by simp, by simp, trivial,
    trivial, by simp, by simp, by simp, by simp [Pipeline.fits, Item.like, Piece.isBrk],
    ⟨by decide, by decide, by decide, by simp, by simp, ?_, by simp, by simp⟩, ⟨by decide, by decide, by decide, by simp, by simp, by simp, by simp, by simp⟩, rfl, ⟨_, rfl, rfl⟩,
    glyph _ (by decide), by simp, by simp, by simp, trivial,
    trivial, by simp, by simp, by simp, by simp [Pipeline.fits], trivial⟩, by simp [sample], rfl⟩
  · intro w hw
    cases hw
    exact ⟨thu_word.1, by decide⟩
  · intro c hc
    cases hc
    exact ⟨by decide, by decide, by intro x hx; cases hx; decide⟩
  · intro z hz
    cases hz
    exact ⟨by decide, by intro x hx; cases hx; decide⟩
  · simp
  · intro w hw
    cases hw
    exact ⟨by decide, by intro h; cases h⟩
  · intro z hz
    cases hz
    exact ⟨by decide, by intro x hx; cases hx⟩

example : Dated sample ∧
    render sample = "On <2024-02-29 Thu 10:00:05 +0530 ++1w -2d>, [2024-01-31 +01]--[2024-02-30].\n".toList ∧
    sample.flatMap Item.found =
      [.ok (.time ⟨true, ⟨⟨2024, 2, 29, 10, 0, 5⟩, .second, some 19800⟩, [⟨.firstMatch, .week, 1⟩], some (.day, -2)⟩), .throws] :=
  ⟨sample_dated, by decide +kernel, by decide +kernel⟩

/-! ## C121 -/

theorem single_dated {s : Stamp} (h : s.Valid) : Dated [.stamp s, .piece (.brk 0)] :=
  ⟨⟨h, ⟨_, rfl, rfl⟩, rfl, trivial, by simp, by simp, by simp, by simp [Pipeline.fits], trivial⟩, by simp, rfl⟩

theorem single_text (s : Stamp) : render [.stamp s, .piece (.brk 0)] = s.text ++ ['\n'] := by simp [render, Item.text, Piece.text]

/-- C121: a timestamp is read as a time exactly if it is a day of the calendar and a time of the day; the
time is then the one that is written, and otherwise there is an error in its place. -/
theorem stamp_accepted {s : Stamp} (h : s.Valid) {n : Nat} (hn : s.text.length + 5 ≤ n) :
    ((∃ t, readTimes n (s.text ++ ['\n']) = .ok [.ok t]) ↔ s.Real) ∧
    (s.Real → readTimes n (s.text ++ ['\n']) = .ok [.ok (.time s.time)]) ∧
    (¬ s.Real → readTimes n (s.text ++ ['\n']) = .ok [.bad]) := by
  have key := stamps_read_partial (single_dated h) (n := n) (by rw [single_text, List.length_append]; simpa using hn)
  rw [single_text] at key
  simp only [List.flatMap_cons, List.flatMap_nil, Item.found, List.append_nil] at key
  rw [key]
  by_cases hr : s.Real
  · simp [hr]
  · simp [hr]

/-- A range with a day that is not in the calendar ends the conversion with an exception. -/
theorem range_throws {a b : Stamp} (ha : a.Valid) (hb : b.Valid) (hab : a.active = b.active) {n : Nat} (hn : a.text.length + b.text.length + 7 ≤ n) :
    readTimes n (a.text ++ "--".toList ++ b.text ++ ['\n']) = .ok [if a.Real ∧ b.Real then .ok (.range a.time b.time) else .throws] := by
  have e : render [.range a b, .piece (.brk 0)] = a.text ++ "--".toList ++ b.text ++ ['\n'] := by simp [render, Item.text, Piece.text]
  have := stamps_read_partial (is := [.range a b, .piece (.brk 0)])
    ⟨⟨ha, hb, hab, ⟨_, rfl, rfl⟩, trivial, by simp, by simp, by simp, by simp [Pipeline.fits], trivial⟩, by simp, rfl⟩ (n := n)
    (by rw [e]; simp; omega)
  rwa [e] at this

/-- 29 February: in 2024, not in 2023, in 2000, not in 1900. -/
example : (day 2024 2 29).Valid ∧ (day 2024 2 29).Real ∧ ¬ (day 2023 2 29).Real ∧ (day 2000 2 29).Real ∧ ¬ (day 1900 2 29).Real :=
  ⟨day_valid (by decide), by decide, by decide, by decide, by decide⟩

/-- A leap second is the next minute. -/
theorem leap_second : readTimes 60 "<2023-12-31 23:59:60>\n".toList =
    .ok [.ok (.time ⟨true, ⟨⟨2024, 1, 1, 0, 0, 0⟩, .second, none⟩, [], none⟩)] := by decide +kernel

/-! ## C122 -/

/-- A time that was read from a text is written so that it is read again. -/
def WriteReadStatement : Prop :=
  ∀ s : Stamp, s.Valid → s.Real → ∀ n, s.time.show.length + 5 ≤ n → readTimes n (s.time.show ++ ['\n']) = .ok [.ok (.time s.time)]

/-- The timestamp that is written: no day name and no spaces before repeaters and the warning. -/
def canon (s : Stamp) : Stamp :=
  { s with
    dayName := none
    zone := s.zone.map fun z => ⟨z.hours, none⟩
    reps := s.reps.map fun r => { r with gap := 0 }
    warning := s.warning.map fun w => { w with gap := 0 } }

theorem show_small {n : Nat} (h : n < 10) : showNat n = [dig n] := by
  revert n
  decide +kernel

theorem show_step {n : Nat} (h : 10 ≤ n) : showNat n = showNat (n / 10) ++ [dig n] := by
  unfold showNat
  rw [Nat.toDigits_of_base_le (by decide) h]
  rfl

theorem dig_mod {a b : Nat} (h : a % 10 = b % 10) : dig a = dig b := by unfold dig; rw [h]

theorem pad2_two {n : Nat} (h : n < 100) : pad2 n = two n := by
  unfold pad2 two
  by_cases h1 : n < 10
  · rw [if_pos h1, show_small h1, show n / 10 = 0 by omega]
    rfl
  · rw [if_neg h1, show_step (by omega), show_small (by omega)]
    rfl

theorem show_four {n : Nat} (h1 : 1000 ≤ n) (h2 : n < 10000) : showNat n = four n := by
  rw [show_step (by omega), show_step (by omega), show_step (by omega), show_small (by omega)]
  simp [four, Nat.div_div_eq_div_mul]

theorem unit_char (p : Period) : p.char = unitLetter p := by cases p <;> rfl

theorem mode_char (m : Mode) : m.show = modeText m := by cases m <;> rfl

theorem zone_show {h : Nat} (hh : h < 24) : showZone ((h : Int) * 3600) = ' ' :: '+' :: two h := by
  have e1 : ((h : Int) * 3600).tdiv 60 = (h : Int) * 60 := by
    rw [show (h : Int) * 3600 = (h * 60) * 60 by omega, Int.mul_tdiv_cancel _ (by decide)]
  have e2 : ((h : Int) * 60).tdiv 60 = h := Int.mul_tdiv_cancel _ (by decide)
  have e3 : ((h : Int) * 60).tmod 60 = 0 := Int.mul_tmod_left _ _
  unfold showZone
  simp only [e1, e2, e3, if_true]
  revert hh h
  decide +kernel

theorem canon_text {s : Stamp} (h : s.Valid) (hr : s.Real) (hy : 1000 ≤ s.year) (hz : ∀ z ∈ s.zone, z.minutes.getD 0 = 0) (hw : ∀ w ∈ s.warning, w.count ≠ 0) :
    s.time.show = (canon s).text := by
  have hdate : showNat s.year ++ '-' :: pad2 s.month ++ '-' :: pad2 s.day = s.date := by
    rw [show_four hy h.year, pad2_two h.month, pad2_two h.day]
    rfl
  have hzone : zonePart (s.zone.map (fun z => (z.hours * 3600 + z.minutes.getD 0 * 60 : Int))) = zoneText (canon s).zone := by
    unfold canon
    cases hk : s.zone with
    | none => rfl
    | some z =>
      have h1 := hz z hk
      have h2 := (h.zone z hk).1
      simp only [Option.map_some, h1, zonePart, zoneText, Zone.digits, List.append_nil]
      rw [show ((z.hours : Int) * 3600 + ((0 : Nat) : Int) * 60) = (z.hours : Int) * 3600 by omega, zone_show h2]
  have htime : s.time.time.show = s.date ++ clockText s.clock ++ zoneText (canon s).zone := by
    unfold UserTime.show Stamp.time
    have hc := h.clock
    rcases hk : s.clock with _ | ⟨hh, mm, _ | ss⟩ <;> rw [hk] at hc <;> simp only <;> rw [hzone, hdate]
    · rfl
    · obtain ⟨c1, c2, -⟩ := hc _ rfl
      rw [pad2_two c1, pad2_two c2]
      simp [clockText, Clock.text]
    · obtain ⟨c1, c2, c3⟩ := hc _ rfl
      rw [pad2_two c1, pad2_two c2, Option.getD_some, pad2_two (c3 ss rfl).1]
      simp [clockText, Clock.text]
  have hreps : (s.time.repeats.map Repeat.show).flatten = repsText (canon s).reps := by
    unfold Stamp.time canon repsText
    simp only [List.map_map]
    congr 1
    apply List.map_congr_left
    intro r _
    simp [Repeat.show, Rep.text, mode_char, durText, unit_char, showInt]
  have hwarn : showWarn s.time.warn = warnText (canon s).warning := by
    unfold Stamp.time canon
    cases hk : s.warning with
    | none => rfl
    | some w =>
      have := hw w hk
      obtain ⟨g, c, u⟩ := w
      cases c with
      | zero => exact absurd rfl this
      | succ c =>
        have : (-((c + 1 : Nat) : Int)) = Int.negSucc c := rfl
        simp only [Option.map_some, showWarn, warnText, Warning.text, durText, unit_char]
        rw [this]
        simp [showInt]
  unfold Time.show
  rw [htime, hreps, hwarn]
  unfold Stamp.text
  simp [Stamp.opening, Stamp.closing, nameText, canon, Stamp.time, Stamp.date]
  exact ⟨rfl, rfl⟩

theorem canon_valid {s : Stamp} (h : s.Valid) : (canon s).Valid where
  year := h.year
  month := h.month
  day := h.day
  name := by simp [canon]
  clock := h.clock
  zone := by
    intro z hz
    obtain ⟨x, hx, rfl⟩ := Option.map_eq_some_iff.mp hz
    exact ⟨(h.zone x hx).1, by simp⟩
  reps := by
    intro r hr
    obtain ⟨x, hx, rfl⟩ := List.mem_map.mp hr
    exact h.reps x hx
  warning := by
    intro w hw
    obtain ⟨x, hx, rfl⟩ := Option.map_eq_some_iff.mp hw
    refine ⟨(h.warning x hx).1, fun _ _ => ⟨fun z hz => ?_, fun _ _ => rfl⟩⟩
    obtain ⟨y, hy, rfl⟩ := Option.map_eq_some_iff.mp hz
    rfl

theorem canon_time {s : Stamp} (hz : ∀ z ∈ s.zone, z.minutes.getD 0 = 0) : (canon s).time = s.time := by
  have h1 : (canon s).time.time.zone = s.time.time.zone := by
    unfold canon Stamp.time
    cases hk : s.zone with
    | none => simp
    | some z => simp [hz z hk]
  have h2 : (canon s).time.repeats = s.time.repeats := by
    unfold canon Stamp.time
    simp
  have h3 : (canon s).time.warn = s.time.warn := by
    unfold canon Stamp.time
    cases s.warning <;> rfl
  have e : ∀ t : Time, t = ⟨t.active, ⟨t.time.time, t.time.align, t.time.zone⟩, t.repeats, t.warn⟩ := fun _ => rfl
  rw [e (canon s).time, h1, h2, h3]
  rfl

/-- C122, for years from 1000 on, zones with whole hours and warnings of at least one unit: what is read,
written and read again is the same time. -/
theorem time_write_read_partial {s : Stamp} (h : s.Valid) (hr : s.Real) (hy : 1000 ≤ s.year) (hz : ∀ z ∈ s.zone, z.minutes.getD 0 = 0)
    (hw : ∀ w ∈ s.warning, w.count ≠ 0) {n : Nat} (hn : s.time.show.length + 5 ≤ n) :
    readTimes n (s.time.show ++ ['\n']) = .ok [.ok (.time s.time)] := by
  have e := canon_text h hr hy hz hw
  rw [e] at hn ⊢
  have := (stamp_accepted (canon_valid h) hn).2.1 hr
  rwa [canon_time hz] at this

/-- `<2024-01-01 10:00 +0530>` is written with `+0330`, and that is another zone. -/
theorem write_read_false : ¬ WriteReadStatement := by
  intro h
  have := h { active := true, year := 2024, month := 1, day := 1, clock := some ⟨10, 0, none⟩, zone := some ⟨5, some 30⟩ }
    ⟨by decide, by decide, by decide, by simp, by intro c hc; cases hc; decide, by intro z hz; cases hz; exact ⟨by decide, by intro x hx; cases hx; decide⟩, by simp, by simp⟩
    (by decide) 60 (by decide +kernel)
  exact absurd this (by decide +kernel)

/-- The text and the offsets: five and a half hours, then three and a half. -/
theorem zone_changes :
    (UserTime.show ⟨⟨2024, 1, 1, 10, 0, 0⟩, .minute, some 19800⟩ = "2024-01-01 10:00 +0330".toList) ∧
    readTimes 60 "<2024-01-01 10:00 +0330>\n".toList = .ok [.ok (.time ⟨true, ⟨⟨2024, 1, 1, 10, 0, 0⟩, .minute, some 12600⟩, [], none⟩)] := by decide +kernel

/-- A year before 1000 is written without its zeros, and is not read again. -/
theorem early_year_lost : (day 999 1 1).time.show = "<999-01-01>".toList ∧ readTimes 60 "<999-01-01>\n".toList = .ok [] := by decide +kernel

example : ∃ s : Stamp, s.Valid ∧ s.Real ∧ 1000 ≤ s.year ∧ (∀ z ∈ s.zone, z.minutes.getD 0 = 0) ∧ (∀ w ∈ s.warning, w.count ≠ 0) ∧
    s.time.show = "[2024-02-29 23:59 +02+1w-3d]".toList :=
  ⟨{ active := false, year := 2024, month := 2, day := 29, clock := some ⟨23, 59, none⟩, zone := some ⟨2, none⟩, reps := [⟨2, .exact, 1, .week⟩],
     warning := some ⟨1, 3, .day⟩ },
   ⟨by decide, by decide, by decide, by simp, by intro c hc; cases hc; decide, by intro z hz; cases hz; exact ⟨by decide, by simp⟩, by simp,
    by intro w hw; cases hw; exact ⟨by decide, by simp⟩⟩, by decide, by decide, by simp, by simp, by decide +kernel⟩

/-! ## C123 -/

/-- A duration is written as hours, a colon and two digits of minutes. -/
def DeltaStatement : Prop :=
  ∀ seconds : Int, ∃ (h : Int) (m : Nat), m < 60 ∧ formatDelta seconds = showInt h ++ ':' :: two m ∧ (0 ≤ seconds → h * 60 + m = seconds / 60)

/-- C123, for durations that are not negative: full hours, and the minutes above them. -/
theorem delta_partial {seconds : Int} (h : 0 ≤ seconds) : ∃ hours minutes : Nat, minutes < 60 ∧
    formatDelta seconds = showNat hours ++ ':' :: two minutes ∧
    (hours * 60 + minutes : Int) * 60 ≤ seconds ∧ seconds < ((hours * 60 + minutes : Int) + 1) * 60 := by
  obtain ⟨n, rfl⟩ := Int.eq_ofNat_of_zero_le h
  have e1 : ((n : Int)).tdiv 60 = (n / 60 : Nat) := by rw [Int.tdiv_eq_ediv_of_nonneg (by omega)]; omega
  have e2 : ((n / 60 : Nat) : Int).tdiv 60 = (n / 3600 : Nat) := by rw [Int.tdiv_eq_ediv_of_nonneg (by omega)]; omega
  have e3 : ((n / 60 : Nat) : Int).tmod 60 = (n / 60 % 60 : Nat) := by rw [Int.tmod_eq_emod_of_nonneg (by omega)]; omega
  refine ⟨n / 3600, n / 60 % 60, Nat.mod_lt _ (by decide), ?_, by omega, by omega⟩
  unfold formatDelta
  simp only [e1, e2, e3]
  have e4 : pad2Int ((n / 60 % 60 : Nat) : Int) = two (n / 60 % 60) := by
    unfold pad2Int
    rw [if_pos (Int.natCast_nonneg _), Int.toNat_natCast, pad2_two (by omega)]
  rw [e4]
  rfl

/-- Minus one and a half hours is written `-1:-30`. -/
theorem delta_negative : formatDelta (-5400) = "-1:-30".toList ∧ formatDelta (-1800) = "0:-30".toList := by decide +kernel

theorem delta_false : ¬ DeltaStatement := by
  intro h
  obtain ⟨k, m, hm, e, -⟩ := h (-5400)
  rw [delta_negative.1] at e
  have hl := congrArg List.reverse e
  simp only [two, List.reverse_append, List.reverse_cons, List.reverse_nil, List.nil_append, List.singleton_append, List.cons_append] at hl
  have h3 : "-1:-30".toList.reverse = ['0', '3', '-', ':', '1', '-'] := by decide +kernel
  rw [h3] at hl
  injection hl with _ hl
  injection hl with _ hl
  injection hl with hl _
  exact absurd hl (by decide)

example : (0 : Int) ≤ 45000 ∧ formatDelta 45000 = "12:30".toList := by decide +kernel

end Verif.Stamp
