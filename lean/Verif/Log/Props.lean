import Verif.Log.Heads
import Mathlib.Logic.Function.Iterate

/-!
# Logbooks: the properties (C124–C129)
-/

namespace Verif.Log
open Verif.Sem (LK)
open Verif.Pipeline (Piece IsWord)
open Verif.Stamp (Item Stamp Out Time UserTime Dated DatedFrom docRaw render canon)
open Verif.Drawer (Text)
open Verif.BaseLexer (normalize)

/-! ## C124: what an entry says is what is read -/

def Line.isRemoved : Line → Bool
  | .removed _ _ _ => true
  | _ => false

/-- The full statement. -/
def ReadStatement : Prop :=
  ∀ (l : Line) (g : Nat → Nat), l.Valid → ∀ n, (render (l.items g)).length + 4 ≤ n → readEntry n (render (l.items g)) = .ok (.ok ⟨l.head, none⟩)

theorem no_break (l : Line) (g : Nat → Nat) : ∀ p ∈ l.parts g, p.isBreak = false := by
  cases l with
  | state new old on => cases old <;> simp [Line.parts, ws, wd, bg, qt, Part.isBreak]
  | note on => simp [Line.parts, ws, wd, Part.isBreak]
  | added q new on => cases q <;> simp [Line.parts, ws, wd, bg, qt, Part.isBreak]
  | changed q new old on => cases q <;> simp [Line.parts, ws, wd, bg, qt, Part.isBreak]
  | removed q old on => cases q <;> simp [Line.parts, ws, wd, bg, qt, Part.isBreak]
  | running s => simp [Line.parts, Part.isBreak]
  | clock a b => simp [Line.parts, Part.isBreak]

theorem desc_none {par : List Part} (h : ∀ p ∈ par, p.isBreak = false) : descPara par = [] := by
  unfold descPara
  have : par.dropWhile (fun p => !p.isBreak) = [] := by
    rw [List.dropWhile_eq_nil_iff]
    intro x hx
    rw [h x hx]; rfl
  rw [this]; rfl

theorem head_line {l : Line} (hk : l.isRemoved = false) (g : Nat → Nat) : headOf (l.parts g) = .ok l.head := by
  cases l with
  | state new old on => exact head_state g new old on
  | note on => exact head_note g on
  | added q new on => exact head_added g q new on
  | changed q new old on => exact head_changed g q new old on
  | removed q old on => cases hk
  | running s => rfl
  | clock a b => rfl

theorem head_known {l : Line} : l.head ≠ .unknown := by cases l <;> simp [Line.head]

/-- C124, for names in capitals and without removed priorities. -/
theorem entry_read_partial {l : Line} (h : l.Valid) (hc : ∀ w ∈ l.names, Caps w) (hk : l.isRemoved = false) (g : Nat → Nat) {n : Nat}
    (hn : (render (l.items g)).length + 4 ≤ n) : readEntry n (render (l.items g)) = .ok (.ok ⟨l.head, none⟩) := by
  have hd := line_dated h g
  rw [read_items hd (line_ranges h g) (by have := Stamp.doc_length hd.from_; omega), line_parts h hc g]
  unfold convertLog
  simp only [head_line hk g, Out.bind]
  unfold descOf
  rw [if_neg head_known, if_pos ⟨desc_none (no_break l g), rfl⟩]

/-- The priority that was removed is never read. -/
theorem removed_read (q : Bool) {old : Text} {on : Stamp} (h : (Line.removed q old on).Valid) (hc : Caps old) (g : Nat → Nat) {n : Nat}
    (hn : (render ((Line.removed q old on).items g)).length + 4 ≤ n) :
    readEntry n (render ((Line.removed q old on).items g)) = .ok (.ok ⟨.priority .removed none none (some on.time.time), none⟩) := by
  have hd := line_dated h g
  rw [read_items hd (line_ranges h g) (by have := Stamp.doc_length hd.from_; omega), line_parts h (by simpa [Line.names] using hc) g]
  unfold convertLog
  simp only [head_removed, Out.bind]
  unfold descOf
  rw [if_neg (by simp), if_pos ⟨desc_none (no_break _ g), rfl⟩]

def firstJan : Stamp := { active := false, year := 2024, month := 1, day := 1 }

theorem firstJan_valid : firstJan.Valid ∧ firstJan.Real ∧ firstJan.active = false :=
  ⟨⟨by decide, by decide, by decide, by simp [firstJan], by simp [firstJan], by simp [firstJan], by simp [firstJan], by simp [firstJan]⟩, by decide, rfl⟩

theorem a_word : IsWord "A".toList := plain_word ⟨'A', rfl, by decide⟩ (by decide) (by decide +kernel) (by decide +kernel)
theorem done_word : IsWord "DONE".toList := plain_word ⟨'D', rfl, by decide⟩ (by decide) (by decide +kernel) (by decide +kernel)
theorem todo_word : IsWord "TODO".toList := plain_word ⟨'T', rfl, by decide⟩ (by decide) (by decide +kernel) (by decide +kernel)

theorem removed_valid : (Line.removed false "A".toList firstJan).Valid where
  names := by intro w hw; simp only [Line.names, List.mem_singleton] at hw; subst hw; exact a_word
  stamps := by intro s hs; simp only [Line.stamps, List.mem_singleton] at hs; subst hs; exact firstJan_valid

/-- `Priority A removed on [2024-01-01]`. -/
theorem entry_read_false : ¬ ReadStatement := by
  intro h
  have h1 := h (.removed false "A".toList firstJan) (fun _ => 0) removed_valid _ (Nat.le_refl _)
  rw [removed_read false removed_valid (by decide) (fun _ => 0) (Nat.le_refl _)] at h1
  simp [Line.head] at h1

/-- The logbook of a document with these lines. -/
def inLogbook (lines : String) : Text := "* A\n:LOGBOOK:\n".toList ++ lines.toList ++ "\n:END:\n".toList

/-- The heads of the entries that are read from it. -/
def headsIn (lines : String) : Except Pipeline.Err (List (Out Head)) :=
  match readLogbook 100 (inLogbook lines) with
  | .error e => .error e
  | .ok es => .ok (es.map fun e => e.bind fun e => .ok e.head)

/-- In whole documents: names that are not in capitals are an error or are lost. -/
theorem names_lost :
    headsIn "- Priority A removed on [2024-01-01]" = .ok [.ok (.priority .removed none none (some firstJan.time.time))] ∧
    headsIn "- State \"Done\" from \"TODO\" [2024-01-01]" = .ok [.bad] ∧
    headsIn "- State \"DONE\" from \"Todo\" [2024-01-01]" = .ok [.ok (.state [] "DONE".toList (some firstJan.time.time))] ∧
    headsIn "- Priority 1 added on [2024-01-01]" = .ok [.ok (.priority .added none none (some firstJan.time.time))] := by
  decide +kernel

/-- And those of the theorem, in whole documents. -/
theorem names_kept :
    headsIn "- State \"DONE\" from \"TODO\" [2024-01-01]\n- Note taken on [2024-01-01]\n- Priority A changed from B on [2024-01-01]" =
      .ok [.ok (.state "TODO".toList "DONE".toList (some firstJan.time.time)), .ok (.note (some firstJan.time.time)),
        .ok (.priority .changed (some "B".toList) (some "A".toList) (some firstJan.time.time))] ∧
    headsIn "CLOCK: [2024-01-01 10:00]--[2024-01-01 11:30] => 1:30\nCLOCK: [2024-01-01 10:00]" =
      .ok [.ok (.clock ⟨⟨2024, 1, 1, 10, 0, 0⟩, .minute, none⟩ (some ⟨⟨2024, 1, 1, 11, 30, 0⟩, .minute, none⟩)),
        .ok (.clock ⟨⟨2024, 1, 1, 10, 0, 0⟩, .minute, none⟩ none)] := by
  decide +kernel

theorem done_valid : (Line.state "DONE".toList (some "TODO".toList) firstJan).Valid where
  names := by
    intro w hw
    simp only [Line.names, Option.toList, List.mem_cons, List.not_mem_nil, or_false] at hw
    rcases hw with rfl | rfl
    · exact done_word
    · exact todo_word
  stamps := by intro s hs; simp only [Line.stamps, List.mem_singleton] at hs; subst hs; exact firstJan_valid

example : ∃ l : Line, l.Valid ∧ (∀ w ∈ l.names, Caps w) ∧ l.isRemoved = false ∧ render (l.items fun _ => 0) = "State \"DONE\" from \"TODO\" [2024-01-01]\n".toList :=
  ⟨.state "DONE".toList (some "TODO".toList) firstJan, done_valid, by
    intro w hw
    simp only [Line.names, Option.toList, List.mem_cons, List.not_mem_nil, or_false] at hw
    rcases hw with rfl | rfl <;> decide, rfl, by decide +kernel⟩

/-! ## C125: what is written is read -/

def Line.isClock : Line → Bool
  | .running _ | .clock _ _ => true
  | _ => false

/-- The full statement: an entry that is no clock is written in a line that is read as the same entry. -/
def WriteReadStatement : Prop :=
  ∀ (delta : Delta) (l : Line), l.Valid → l.isClock = false →
    ∃ text, headLine delta l.head = .ok ("- ".toList ++ text) ∧ ∀ n, text.length + 5 ≤ n → readEntry n (text ++ ['\n']) = .ok (.ok ⟨l.head, none⟩)

/-- The timestamp of a time that is written. -/
def plain (s : Stamp) : Stamp := canon { s with active := false, reps := [], warning := none }

/-- Years from 1000 on and zones of whole hours. -/
def Shown (s : Stamp) : Prop := 1000 ≤ s.year ∧ ∀ z ∈ s.zone, z.minutes.getD 0 = 0

theorem plain_base {s : Stamp} (h : s.Valid) : ({ s with active := false, reps := [], warning := none } : Stamp).Valid :=
  ⟨h.year, h.month, h.day, h.name, h.clock, h.zone, by simp, by simp⟩

theorem plain_valid {s : Stamp} (h : s.Valid ∧ s.Real ∧ s.active = false) : (plain s).Valid ∧ (plain s).Real ∧ (plain s).active = false :=
  ⟨Stamp.canon_valid (plain_base h.1), h.2.1, rfl⟩

theorem plain_time {s : Stamp} (h : Shown s) : (plain s).time.time = s.time.time := by
  have : (plain s).time = ({ s with active := false, reps := [], warning := none } : Stamp).time := Stamp.canon_time (s := { s with active := false, reps := [], warning := none }) h.2
  rw [this]; rfl

theorem plain_text {s : Stamp} (h : s.Valid ∧ s.Real ∧ s.active = false) (hs : Shown s) : showTime (some s.time.time) = .ok (plain s).text := by
  have := Stamp.canon_text (plain_base h.1) h.2.1 hs.1 hs.2 (by simp)
  unfold plain
  rw [← this]
  simp [showTime, Stamp.Time.show, Stamp.Stamp.time, Stamp.showWarn]

/-- The line that is written. -/
def Line.plain : Line → Line
  | .state new old on => .state new old (Log.plain on)
  | .note on => .note (Log.plain on)
  | .added _ new on => .added false new (Log.plain on)
  | .changed _ new old on => .changed false new old (Log.plain on)
  | .removed _ old on => .removed false old (Log.plain on)
  | .running s => .running (Log.plain s)
  | .clock a b => .clock (Log.plain a) (Log.plain b)

theorem plain_names (l : Line) : l.plain.names = l.names := by cases l <;> rfl

theorem plain_stamps (l : Line) : l.plain.stamps = l.stamps.map plain := by cases l <;> rfl

theorem plain_line {l : Line} (h : l.Valid) : l.plain.Valid where
  names := by rw [plain_names]; exact h.names
  stamps := by
    rw [plain_stamps]
    intro s hs
    obtain ⟨x, hx, rfl⟩ := List.mem_map.mp hs
    exact plain_valid (h.stamps x hx)

theorem plain_head {l : Line} (hs : ∀ s ∈ l.stamps, Shown s) : l.plain.head = l.head := by
  cases l with
  | clock a b =>
    simp only [Line.plain, Line.head]
    rw [plain_time (hs a (by simp [Line.stamps])), plain_time (hs b (by simp [Line.stamps]))]
  | _ =>
    simp only [Line.plain, Line.head]
    rw [plain_time (hs _ (by simp [Line.stamps]))]

theorem line_written {l : Line} (h : l.Valid) (hs : ∀ s ∈ l.stamps, Shown s) (hc : l.isClock = false) (delta : Delta) :
    ∃ text, headLine delta l.head = .ok ("- ".toList ++ text) ∧ text ++ ['\n'] = render (l.plain.items fun _ => 0) := by
  have hx := h.stamps
  cases l with
  | state new old on =>
    have e := plain_text (hx on (by simp [Line.stamps])) (hs on (by simp [Line.stamps]))
    refine ⟨"State \"".toList ++ new ++ "\" from \"".toList ++ old.getD [] ++ "\" ".toList ++ (plain on).text, ?_, ?_⟩
    · simp only [Line.head, headLine, e, Out.bind]
      simp
    · cases old <;> simp [Line.plain, Line.items, render, word, space, quote, lineEnd, Item.text, Piece.text]
  | note on =>
    have e := plain_text (hx on (by simp [Line.stamps])) (hs on (by simp [Line.stamps]))
    refine ⟨"Note taken on ".toList ++ (plain on).text, ?_, ?_⟩
    · simp only [Line.head, headLine, e, Out.bind]
      simp
    · simp [Line.plain, Line.items, render, word, space, quote, lineEnd, Item.text, Piece.text]
  | added q new on =>
    have e := plain_text (hx on (by simp [Line.stamps])) (hs on (by simp [Line.stamps]))
    refine ⟨"Priority ".toList ++ new ++ " added on ".toList ++ (plain on).text, ?_, ?_⟩
    · simp only [Line.head, headLine, valueOf, e, Out.bind]
      simp
    · simp [Line.plain, Line.items, render, word, space, quote, lineEnd, Item.text, Piece.text, name]
  | changed q new old on =>
    have e := plain_text (hx on (by simp [Line.stamps])) (hs on (by simp [Line.stamps]))
    refine ⟨"Priority ".toList ++ new ++ " changed from ".toList ++ old ++ " on ".toList ++ (plain on).text, ?_, ?_⟩
    · simp only [Line.head, headLine, valueOf, e, Out.bind]
      simp
    · simp [Line.plain, Line.items, render, word, space, quote, lineEnd, Item.text, Piece.text, name]
  | removed q old on =>
    have e := plain_text (hx on (by simp [Line.stamps])) (hs on (by simp [Line.stamps]))
    refine ⟨"Priority ".toList ++ old ++ " removed on ".toList ++ (plain on).text, ?_, ?_⟩
    · simp only [Line.head, headLine, valueOf, e, Out.bind]
      simp
    · simp [Line.plain, Line.items, render, word, space, quote, lineEnd, Item.text, Piece.text, name]
  | running s => cases hc
  | clock a b => cases hc

/-- C125, for names in capitals, years from 1000 on, zones of whole hours and without removed
priorities. -/
theorem entry_write_read_partial {l : Line} (h : l.Valid) (hn : ∀ w ∈ l.names, Caps w) (hs : ∀ s ∈ l.stamps, Shown s)
    (hc : l.isClock = false) (hk : l.isRemoved = false) (delta : Delta) :
    ∃ text, headLine delta l.head = .ok ("- ".toList ++ text) ∧ ∀ n, text.length + 5 ≤ n → readEntry n (text ++ ['\n']) = .ok (.ok ⟨l.head, none⟩) := by
  obtain ⟨text, h1, h2⟩ := line_written h hs hc delta
  refine ⟨text, h1, fun n hl => ?_⟩
  rw [h2, entry_read_partial (plain_line h) (by rw [plain_names]; exact hn) (by cases l <;> first | rfl | cases hk) _ ?_, plain_head hs]
  rw [← h2]
  simp
  omega

theorem entry_write_read_false : ¬ WriteReadStatement := by
  intro h
  obtain ⟨text, h1, h2⟩ := h (fun _ _ => 0) (.removed false "A".toList firstJan) removed_valid rfl
  have e : headLine (fun _ _ => 0) (Line.removed false "A".toList firstJan).head = .ok ("- Priority A removed on [2024-01-01]".toList) := by decide +kernel
  rw [e] at h1
  have : text = "Priority A removed on [2024-01-01]".toList := by
    have h3 := Out.ok.inj h1
    have h4 : "- ".toList ++ "Priority A removed on [2024-01-01]".toList = "- ".toList ++ text := by rw [← h3]; decide
    exact (List.append_cancel_left h4).symm
  subst this
  have := h2 60 (by decide)
  exact absurd this (by decide +kernel)

/-- What was read from `Priority A removed on […]` and from `Priority 1 added on […]` cannot be written. -/
theorem removed_not_written (delta : Delta) (on : Option UserTime) (desc : Option (List Text)) :
    writeEntry delta (.priority .removed none none on) desc = .throws ∧ writeEntry delta (.priority .added none none on) desc = .throws := ⟨rfl, rfl⟩

example : ∃ l : Line, l.Valid ∧ (∀ w ∈ l.names, Caps w) ∧ (∀ s ∈ l.stamps, Shown s) ∧ l.isClock = false ∧ l.isRemoved = false ∧
    headLine (fun _ _ => 0) l.head = .ok "- State \"DONE\" from \"TODO\" [2024-01-01]".toList :=
  ⟨.state "DONE".toList (some "TODO".toList) firstJan, done_valid, by
    intro w hw
    simp only [Line.names, Option.toList, List.mem_cons, List.not_mem_nil, or_false] at hw
    rcases hw with rfl | rfl <;> decide, by
    intro s hs
    simp only [Line.stamps, List.mem_singleton] at hs
    subst hs
    exact ⟨by decide, by simp [firstJan]⟩, rfl, rfl, by decide +kernel⟩

/-! ## C126: when reading an entry fails with an exception -/

theorem words_eq (par : List Part) : wordsOf par = firstWords par := by
  unfold wordsOf firstLine
  induction par with
  | nil => rfl
  | cons p r ih =>
    cases p with
    | leaf k t =>
      cases k <;> first
        | rfl
        | (simp only [firstWords]; rw [← ih]; rfl)
    | _ => simp only [firstWords]; rw [← ih]; rfl

theorem search_some {p : Part → Bool} {par : List Part} {x : Part} (h : search p par = some x) : x ∈ par ∧ p x = true := by
  induction par with
  | nil => cases h
  | cons y r ih =>
    rw [search] at h
    split_ifs at h with h1 h2
    · cases h; exact ⟨by simp, h2⟩
    · have := ih h
      exact ⟨List.mem_cons_of_mem _ this.1, this.2⟩

theorem search_iff {p : Part → Bool} (hp : ∀ x, p x = true → x.isWord = false) (par : List Part) :
    (∃ x, search p par = some x) ↔ ∃ b x c, par = b ++ x :: c ∧ p x = true ∧ ∀ y ∈ b, y.isWord = false := by
  induction par with
  | nil => simp [search]
  | cons y r ih =>
    rw [search]
    split_ifs with h1 h2
    · refine ⟨by simp, ?_⟩
      rintro ⟨b, x, c, h3, h4, h5⟩
      cases b with
      | nil => cases h3; rw [hp _ h4] at h1; cases h1
      | cons z b => cases h3; rw [h5 y (by simp)] at h1; cases h1
    · exact ⟨fun _ => ⟨[], y, r, rfl, h2, by simp⟩, fun _ => ⟨y, rfl⟩⟩
    · rw [ih]
      constructor
      · rintro ⟨b, x, c, rfl, h4, h5⟩
        refine ⟨y :: b, x, c, rfl, h4, ?_⟩
        intro z hz
        rcases List.mem_cons.mp hz with rfl | hz
        · simpa using h1
        · exact h5 z hz
      · rintro ⟨b, x, c, h3, h4, h5⟩
        cases b with
        | nil => cases h3; exact absurd h4 h2
        | cons z b => cases h3; exact ⟨b, x, c, rfl, h4, fun z hz => h5 z (by simp [hz])⟩

theorem after_found {w : Text} {p : Part → Bool} {par : List Part} {x : Part} (h : nodeAfter w p par = some x) : x ∈ par ∧ p x = true := by
  induction par with
  | nil => cases h
  | cons y r ih =>
    rw [nodeAfter] at h
    split_ifs at h with h1
    · cases hs : search p r with
      | none => rw [hs] at h; exact ⟨List.mem_cons_of_mem _ (ih h).1, (ih h).2⟩
      | some z =>
        rw [hs] at h; cases h
        exact ⟨List.mem_cons_of_mem _ (search_some hs).1, (search_some hs).2⟩
    · exact ⟨List.mem_cons_of_mem _ (ih h).1, (ih h).2⟩

theorem after_iff {w : Text} {p : Part → Bool} (hp : ∀ x, p x = true → x.isWord = false) (par : List Part) :
    (∃ x, nodeAfter w p par = some x) ↔ ∃ x, FoundAfter w (p · = true) par x := by
  induction par with
  | nil => simp [nodeAfter, FoundAfter]
  | cons y r ih =>
    have step : (∃ x, FoundAfter w (p · = true) (y :: r) x) ↔
        (y.isLeaf = true ∧ normalize y.text = w ∧ ∃ b x c, r = b ++ x :: c ∧ p x = true ∧ ∀ z ∈ b, z.isWord = false) ∨ ∃ x, FoundAfter w (p · = true) r x := by
      constructor
      · rintro ⟨x, a, k, t, b, c, h1, h2, h3, h4⟩
        cases a with
        | nil =>
          simp only [List.nil_append, List.cons_append, List.cons.injEq] at h1
          obtain ⟨rfl, h1⟩ := h1
          exact .inl ⟨rfl, h2, b, x, c, h1, h3, h4⟩
        | cons z a =>
          simp only [List.cons_append, List.cons.injEq] at h1
          exact .inr ⟨x, a, k, t, b, c, by simpa using h1.2, h2, h3, h4⟩
      · rintro (⟨h1, h2, b, x, c, rfl, h3, h4⟩ | ⟨x, a, k, t, b, c, rfl, h2, h3, h4⟩)
        · cases y with
          | leaf k t => exact ⟨x, [], k, t, b, c, by simp, h2, h3, h4⟩
          | _ => cases h1
        · exact ⟨x, y :: a, k, t, b, c, by simp, h2, h3, h4⟩
    rw [step, nodeAfter]
    split_ifs with h1
    · rw [← search_iff hp]
      cases hs : search p r with
      | none => rw [ih]; simp
      | some z => simp [h1]
    · rw [ih]
      constructor
      · exact .inr
      · rintro (⟨h2, h3, -⟩ | h)
        · exact absurd ⟨h2, h3⟩ h1
        · exact h

theorem static_ok {p : Part} (h : p.isTime = true) (hd : p ≠ .dynamic) : ∃ t, p.static = .ok t := by
  cases p with
  | time t => exact ⟨_, rfl⟩
  | dynamic => exact absurd rfl hd
  | _ => cases h

theorem time_ok {w : Text} {par : List Part} (hd : Part.dynamic ∉ par) : ∃ t, timeAfter w par = .ok t := by
  unfold timeAfter
  cases h : nodeAfter w Part.isTime par with
  | none => exact ⟨_, rfl⟩
  | some p =>
    obtain ⟨h1, h2⟩ := after_found h
    obtain ⟨t, ht⟩ := static_ok h2 (fun e => hd (e ▸ h1))
    exact ⟨some t, by simp [ht, Out.bind]⟩

theorem time_first (par : List Part) (hd : Part.dynamic ∉ par) : (firstLine par Part.isTime).isEmpty = !timeInFirstLine par := by
  unfold firstLine
  induction par with
  | nil => rfl
  | cons p r ih =>
    have ih := ih (fun h => hd (List.mem_cons_of_mem _ h))
    cases p with
    | leaf k t =>
      cases k <;> first
        | rfl
        | (simp only [timeInFirstLine]; rw [← ih]; rfl)
    | time t => rfl
    | dynamic => simp at hd
    | _ => simp only [timeInFirstLine]; rw [← ih]; rfl

/-- The full statement: reading an entry does not fail. -/
def NoThrowStatement : Prop := ∀ (item : Option (List Part × List Unit)), convertLog item ≠ .throws

/-- C126: when it fails (for paragraphs without times given by code). -/
theorem entry_throws_iff {β : Type} {par : List Part} (hd : Part.dynamic ∉ par) (rest : List β) :
    convertLog (some (par, rest)) = .throws ↔
      (firstWords par = [] ∧ ∀ p ∈ par, p.isTime = false ∧ p.isRange = false) ∨
      (firstWords par = ["tag".toList] ∧ ∃ x, FoundAfter "tag".toList (·.isTag = true) par x) ∨
      ((firstWords par).head? = some "refiled".toList ∧ timeInFirstLine par = false) ∨
      ((firstWords par).head? = some "priority".toList ∧ (firstWords par)[1]? ≠ some "deadline".toList ∧
        ∀ w ∈ firstWords par, w ≠ "added".toList ∧ w ≠ "changed".toList ∧ w ≠ "removed".toList) := by
  obtain ⟨on, hon⟩ := time_ok (w := "on".toList) hd
  have hbind : convertLog (some (par, rest)) = .throws ↔ headOf par = .throws := by
    unfold convertLog
    simp only
    generalize headOf par = o
    cases o <;> simp [Out.bind]
  rw [hbind]
  unfold headOf
  simp only [words_eq]
  generalize hw : firstWords par = ws
  cases ws with
  | nil =>
    simp only [if_true, List.head?_nil, true_and]
    unfold clockOf
    constructor
    · intro h
      left
      cases hf : par.filter (fun p => p.isTime || p.isRange) with
      | nil =>
        intro p hp
        have := List.filter_eq_nil_iff.mp hf p hp
        simpa using this
      | cons q r =>
        rw [hf] at h
        have hq : q ∈ par.filter (fun p => p.isTime || p.isRange) := by rw [hf]; simp
        have hq := List.mem_filter.mp hq
        cases q with
        | range a b => cases h
        | time t => cases h
        | dynamic => exact absurd hq.1 hd
        | _ => simp [Part.isTime, Part.isRange] at hq
    · rintro (h | h | h | h)
      · have : par.filter (fun p => p.isTime || p.isRange) = [] := by
          rw [List.filter_eq_nil_iff]
          intro p hp
          simp [h p hp]
        rw [this]
      · cases h.1
      · cases h.1
      · cases h.1
  | cons w ws =>
    rw [if_neg (by simp)]
    simp only [List.getElem?_cons_zero, List.head?_cons, Option.some.injEq]
    by_cases h1 : w = "tag".toList
    · subst h1
      rw [if_pos rfl]
      unfold tagOf
      rw [hon]
      simp only [Out.bind]
      have key := after_iff (w := "tag".toList) (p := Part.isTag) (by intro x; cases x <;> simp [Part.isTag, Part.isWord]) par
      cases hn : nodeAfter "tag".toList Part.isTag par with
      | none =>
        rw [hn] at key
        simp only [reduceCtorEq, exists_false, false_iff] at key
        refine iff_of_false (by simp) ?_
        rintro (h | h | h | h)
        · cases h.1
        · exact key h.2
        · exact absurd h.1 (by decide)
        · exact absurd h.1 (by decide)
      | some x =>
        rw [hn] at key
        have key := key.mp ⟨x, rfl⟩
        cases ws with
        | nil => exact iff_of_true rfl (.inr (.inl ⟨rfl, key⟩))
        | cons v ws => simp
    · rw [if_neg h1]
      by_cases h2 : w = "state".toList
      · subst h2
        rw [if_pos rfl]
        unfold stateOf
        rw [hon]
        refine iff_of_false ?_ (by simp)
        cases nodeAfter "state".toList Part.isBig par with
        | none => simp
        | some new =>
          simp only [Out.bind]
          cases on with
          | some t => simp
          | none =>
            simp only
            cases hf : firstLine par Part.isTime with
            | nil => simp
            | cons t r =>
              have ht : t ∈ firstLine par Part.isTime := by rw [hf]; simp
              have ht := List.mem_filter.mp ht
              obtain ⟨u, hu⟩ := static_ok ht.2 (fun e => hd (e ▸ (List.takeWhile_subset _ ht.1)))
              simp [hu, Out.bind]
      · rw [if_neg h2]
        by_cases h3 : w = "refiled".toList
        · subst h3
          rw [if_pos rfl]
          unfold refileOf
          rw [hon, time_first par hd]
          simp only [Out.bind]
          cases timeInFirstLine par with
          | false => simp
          | true => cases on <;> simp
        · rw [if_neg h3]
          by_cases h4 : (w :: ws)[1]? = some "deadline".toList
          · rw [if_pos h4]
            refine iff_of_false (by simp) ?_
            rintro (h | h | h | h)
            · cases h.1
            · exact h1 (List.cons.inj h.1).1
            · exact h3 h.1
            · exact h.2.1 h4
          · rw [if_neg h4]
            by_cases h5 : w = "priority".toList
            · subst h5
              rw [if_pos rfl]
              unfold priorityOf
              rw [hon]
              simp only [Out.bind]
              split_ifs with a b c
              · simp only [reduceCtorEq, false_iff]
                rintro (h | h | h | h)
                · cases h.1
                · simp at h
                · simp at h
                · exact (h.2.2 _ a).1 rfl
              · simp only [reduceCtorEq, false_iff]
                rintro (h | h | h | h)
                · cases h.1
                · simp at h
                · simp at h
                · exact (h.2.2 _ b).2.1 rfl
              · simp only [reduceCtorEq, false_iff]
                rintro (h | h | h | h)
                · cases h.1
                · simp at h
                · simp at h
                · exact (h.2.2 _ c).2.2 rfl
              · refine iff_of_true rfl (.inr (.inr (.inr ⟨by trivial, h4, ?_⟩)))
                intro w hw
                exact ⟨fun e => a (e ▸ hw), fun e => b (e ▸ hw), fun e => c (e ▸ hw)⟩
            · rw [if_neg h5]
              refine iff_of_false ?_ ?_
              · rw [hon]
                split_ifs <;> simp [Out.bind]
              · rintro (h | h | h | h)
                · cases h.1
                · exact h1 (List.cons.inj h.1).1
                · exact h3 h.1
                · exact h5 h.1

/-- An empty list item fails, too. -/
theorem empty_throws : convertLog (β := Unit) none = .throws := rfl

theorem no_throw_false : ¬ NoThrowStatement := fun h => h none rfl

/-- In whole documents. -/
theorem documents_throw :
    headsIn "- !" = .ok [.throws] ∧ headsIn "- Tag #work" = .ok [.throws] ∧ headsIn "- Refiled here" = .ok [.throws] ∧
    headsIn "- Priority raised to A" = .ok [.throws] := by
  decide +kernel

/-! ## C127: entries that are not understood -/

/-- They are written twice. -/
theorem unknown_written (delta : Delta) (s : Text) : writeEntry delta .unknown (some [s]) = .ok ["- ".toList ++ s ++ " \\\\".toList, "  ".toList ++ s] := rfl

/-- The nodes of the paragraph that is written for an unknown entry with these nodes. -/
def saved (par : List Part) : List Part := par ++ [.leaf .Space [' '], .leaf .Punctuation "\\\\".toList, .leaf .Newline ['\n']] ++ par

theorem line_saved (par : List Part) {p : Part → Bool} (h1 : p (.leaf .Space [' ']) = false) (h2 : p (.leaf .Punctuation "\\\\".toList) = false) :
    firstLine (saved par) p = firstLine par p := by
  unfold firstLine saved
  generalize hm : [Part.leaf .Space [' '], .leaf .Punctuation "\\\\".toList, .leaf .Newline ['\n']] = m
  generalize hc : (par : List Part) = c
  have : ∀ r : List Part, ((r ++ m ++ c).takeWhile fun x => !x.isNewline).filter p = (r.takeWhile fun x => !x.isNewline).filter p := by
    intro r
    induction r with
    | nil =>
      subst hm
      simp only [List.nil_append, List.cons_append, List.takeWhile_cons, Part.isNewline, Bool.not_false, Bool.not_true, if_true, Bool.false_eq_true, if_false,
        List.filter_cons, h1, h2, List.takeWhile_nil, List.filter_nil]
    | cons q r ih =>
      simp only [List.cons_append, List.takeWhile_cons]
      split_ifs
      · simp only [List.filter_cons, ih]
      · rfl
  exact this c

theorem unknown_iff (par : List Part) : headOf par = .ok .unknown ↔
    ∃ w ws, wordsOf par = w :: ws ∧ w ≠ "tag".toList ∧ w ≠ "state".toList ∧ w ≠ "refiled".toList ∧ w ≠ "priority".toList ∧
      ws.head? ≠ some "deadline".toList ∧ (w = "note".toList → (firstLine par Part.isTime).isEmpty = true) := by
  unfold headOf
  simp only
  cases hw : wordsOf par with
  | nil =>
    simp only [if_true]
    refine iff_of_false ?_ (by simp)
    unfold clockOf
    split
    · simp
    · simp
    · rename_i p r _ _
      cases p <;> simp [Part.static, Out.bind]
  | cons w ws =>
    rw [if_neg (by simp)]
    simp only [List.getElem?_cons_zero, Option.some.injEq, List.getElem?_cons_succ, show ws[0]? = ws.head? by cases ws <;> rfl]
    have ne : ∀ {o : Out Head}, o ≠ .ok .unknown → ∀ {q : Prop}, ¬ q → (o = .ok .unknown ↔ q) := fun h _ hq => iff_of_false h hq
    have tb : ∀ {f : Option UserTime → Out Head}, (∀ t, f t ≠ .ok .unknown) → (timeAfter "on".toList par).bind f ≠ .ok .unknown := by
      intro f hf
      cases timeAfter "on".toList par with
      | ok t => exact hf t
      | _ => simp [Out.bind]
    split_ifs with h1 h2 h3 h4 h5 h6
    · refine ne ?_ (by rintro ⟨_, _, h, h', -⟩; cases h; exact h' h1)
      unfold tagOf
      split
      · simp
      · apply tb
        intro t
        split <;> simp
    · refine ne ?_ (by rintro ⟨_, _, h, -, h', -⟩; cases h; exact h' h2)
      unfold stateOf
      split
      · simp
      · apply tb
        intro t
        split
        · simp
        · split
          · simp
          · rename_i p _ _
            cases p <;> simp [Part.static, Out.bind]
    · refine ne ?_ (by rintro ⟨_, _, h, -, -, h', -⟩; cases h; exact h' h3)
      unfold refileOf
      split
      · simp
      · apply tb
        intro t
        split <;> simp
    · exact ne (by simp) (by rintro ⟨_, _, h, -, -, -, -, h', -⟩; cases h; exact h' h4)
    · refine ne ?_ (by rintro ⟨_, _, h, -, -, -, h', -⟩; cases h; exact h' h5)
      unfold priorityOf
      simp only
      split_ifs
      · exact tb (by simp)
      · exact tb (by simp)
      · exact tb (by simp)
      · simp
    · refine ne (tb (by simp)) ?_
      rintro ⟨_, _, h, -, -, -, -, -, h'⟩
      cases h
      rw [h' h6.1] at h6
      simp at h6
    · refine iff_of_true rfl ⟨w, ws, rfl, h1, h2, h3, h5, h4, ?_⟩
      intro hn
      cases hf : (firstLine par Part.isTime).isEmpty with
      | true => rfl
      | false => exact absurd ⟨hn, hf⟩ h6

/-- C127: what was not understood once is never understood, and every time it is saved it has twice as
many words. -/
theorem unknown_grows {par : List Part} (h : headOf par = .ok .unknown) (k : Nat) :
    (convertLog (β := Unit) (some (saved^[k] par, [])) = .ok ⟨.unknown, some ⟨saved^[k] par, []⟩⟩) ∧ countWords (saved^[k] par) = 2 ^ k * countWords par := by
  have step : ∀ p : List Part, headOf p = .ok .unknown → headOf (saved p) = .ok .unknown := by
    intro p hp
    rw [unknown_iff] at hp ⊢
    have e1 : wordsOf (saved p) = wordsOf p := by
      unfold wordsOf
      rw [line_saved p rfl rfl]
    rw [e1, line_saved p rfl rfl]
    exact hp
  have count : ∀ p : List Part, countWords (saved p) = 2 * countWords p := by
    intro p
    simp [countWords, saved, Part.isWord]
    omega
  have both : headOf (saved^[k] par) = .ok .unknown ∧ countWords (saved^[k] par) = 2 ^ k * countWords par := by
    induction k with
    | zero => exact ⟨h, by simp⟩
    | succ k ih =>
      rw [Function.iterate_succ_apply']
      refine ⟨step _ ih.1, ?_⟩
      rw [count, ih.2, Nat.pow_succ]
      rw [← Nat.mul_assoc, Nat.mul_comm 2]
  refine ⟨?_, both.2⟩
  unfold convertLog
  simp only [both.1, Out.bind]
  unfold descOf
  rw [if_pos rfl]

/-- The texts of the description. -/
def descText (lines : String) : Except Pipeline.Err (List (Out (Option Text))) :=
  match readLogbook 100 (inLogbook lines) with
  | .error e => .error e
  | .ok es => .ok (es.map fun e => e.bind fun e => .ok (e.desc.map fun d => (d.para.map Part.text).flatten))

/-- In whole documents: what is read, written and read again. -/
theorem unknown_doubled :
    headsIn "- Something else" = .ok [.ok .unknown] ∧ descText "- Something else" = .ok [.ok (some "Something else".toList)] ∧
    writeEntry (fun _ _ => 0) .unknown (some ["Something else".toList]) = .ok ["- Something else \\\\".toList, "  Something else".toList] ∧
    headsIn "- Something else \\\\\n  Something else" = .ok [.ok .unknown] ∧
    descText "- Something else \\\\\n  Something else" = .ok [.ok (some "Something else \\\\\nSomething else".toList)] := by
  decide +kernel

/-- The full statement: when an entry of one line that is not understood is written and read again, its
text is the same. -/
def UnknownKeptStatement : Prop :=
  ∀ (s : String) (lines : List Text), headsIn ("- " ++ s) = .ok [.ok .unknown] → writeEntry (fun _ _ => 0) .unknown (some [s.toList]) = .ok lines →
    descText (String.ofList (List.intercalate ['\n'] lines)) = .ok [.ok (some s.toList)]

theorem unknown_kept_false : ¬ UnknownKeptStatement := by
  intro h
  have := h "Something else" _ (by decide +kernel) unknown_doubled.2.2.1
  exact absurd this (by decide +kernel)

example : ∃ par : List Part, headOf par = .ok .unknown ∧ countWords par = 2 :=
  ⟨[wd "Something", ws 0, wd "else"], by decide +kernel, by decide⟩

/-! ## C128: entries about deadlines -/

/-- The full statement: entries about deadlines with different times are different. -/
def DeadlineStatement : Prop :=
  ∀ p q : List Part, (firstWords p)[1]? = some "deadline".toList → (firstWords q)[1]? = some "deadline".toList → p.filter Part.isTime ≠ q.filter Part.isTime →
    headOf p ≠ headOf q

/-- C128: no entry about a deadline keeps anything of its line, and without a description it cannot be written. -/
theorem deadline_lost {par : List Part} (h : (firstWords par)[1]? = some "deadline".toList)
    (h0 : (firstWords par).head? ≠ some "tag".toList ∧ (firstWords par).head? ≠ some "state".toList ∧ (firstWords par).head? ≠ some "refiled".toList) :
    headOf par = .ok .deadline ∧ ∀ delta, writeEntry delta .deadline none = .throws := by
  refine ⟨?_, fun _ => rfl⟩
  unfold headOf
  simp only [words_eq]
  rw [List.head?_eq_getElem?] at h0
  rw [if_neg, if_neg h0.1, if_neg h0.2.1, if_neg h0.2.2, if_pos h]
  intro e
  rw [e] at h
  cases h

theorem deadline_false : ¬ DeadlineStatement := by
  intro h
  exact h [wd "New", ws 0, wd "deadline", ws 0, .time firstJan.time] [wd "New", ws 0, wd "deadline"] (by decide +kernel) (by decide +kernel) (by decide) (by decide +kernel)

theorem deadline_document :
    headsIn "- New deadline from \"[2019-09-26 Thu]\" on [2019-09-27 Fri 22:36]\n- New deadline from \"[2020-09-26]\" on [2021-09-27]" = .ok [.ok .deadline, .ok .deadline] := by
  decide +kernel

/-! ## C129: descriptions -/

/-- C129: the description is what comes after the first `\\` and the spaces and line ends after it, and the other
statements of the item. -/
theorem desc_read {β : Type} {a blanks d : List Part} {h : Head} (ha : ∀ p ∈ a, p ≠ .leaf .Punctuation "\\\\".toList)
    (hb : ∀ p ∈ blanks, ∃ t, p = .leaf .Space t ∨ p = .leaf .Newline t) (hd : ∀ p ∈ d.head?, ∀ t, p ≠ .leaf .Space t ∧ p ≠ .leaf .Newline t)
    (hne : d ≠ []) (rest : List β) (hh : headOf (a ++ .leaf .Punctuation "\\\\".toList :: blanks ++ d) = .ok h) (hu : h ≠ .unknown) :
    convertLog (some (a ++ .leaf .Punctuation "\\\\".toList :: blanks ++ d, rest)) = .ok ⟨h, some ⟨d, rest⟩⟩ := by
  have hp : descPara (a ++ .leaf .Punctuation "\\\\".toList :: blanks ++ d) = d := by
    unfold descPara
    have h1 : (a ++ .leaf .Punctuation "\\\\".toList :: blanks ++ d).dropWhile (fun p => !p.isBreak) = .leaf .Punctuation "\\\\".toList :: blanks ++ d := by
      rw [List.append_assoc, List.dropWhile_append_of_pos]
      · rfl
      · intro p hp
        have := ha p hp
        cases p with
        | leaf k t =>
          cases k <;> simp [Part.isBreak]
          intro e
          exact this (by rw [e]; rfl)
        | _ => rfl
    rw [h1]
    simp only [List.cons_append, List.drop_succ_cons, List.drop_zero]
    rw [List.dropWhile_append_of_pos]
    · cases d with
      | nil => rfl
      | cons x d =>
        have := hd x rfl
        rw [List.dropWhile_cons_of_neg]
        cases x with
        | leaf k t =>
          have := this t
          cases k <;> simp [Part.isBlank] at this ⊢
        | _ => simp [Part.isBlank]
    · intro p hp
      obtain ⟨t, rfl | rfl⟩ := hb p hp <;> rfl
  unfold convertLog
  simp only [hh, Out.bind]
  unfold descOf
  rw [if_neg hu, hp, if_neg (by simp [hne])]

/-- Without a `\\` there is a description only if the item has other statements. -/
theorem desc_absent {β : Type} {par : List Part} {h : Head} (ha : ∀ p ∈ par, p ≠ .leaf .Punctuation "\\\\".toList) (rest : List β)
    (hh : headOf par = .ok h) (hu : h ≠ .unknown) :
    convertLog (some (par, rest)) = .ok ⟨h, if rest = [] then none else some ⟨[], rest⟩⟩ := by
  have hp : descPara par = [] := by
    apply desc_none
    intro p hp
    have := ha p hp
    cases p with
    | leaf k t =>
      cases k <;> simp [Part.isBreak]
      intro e
      exact this (by rw [e]; rfl)
    | _ => rfl
  unfold convertLog
  simp only [hh, Out.bind]
  unfold descOf
  rw [if_neg hu, hp]
  cases rest <;> simp

theorem desc_document :
    headsIn "- Note taken on [2024-01-01] \\\\\n  some text" = .ok [.ok (.note (some firstJan.time.time))] ∧
    descText "- Note taken on [2024-01-01] \\\\\n  some text" = .ok [.ok (some "some text".toList)] ∧
    descText "- Note taken on [2024-01-01]" = .ok [.ok none] := by
  decide +kernel

example : ∃ (a blanks d : List Part) (h : Head), (∀ p ∈ a, p ≠ .leaf .Punctuation "\\\\".toList) ∧ (∀ p ∈ blanks, ∃ t, p = .leaf .Space t ∨ p = .leaf .Newline t) ∧
    (∀ p ∈ d.head?, ∀ t, p ≠ .leaf .Space t ∧ p ≠ .leaf .Newline t) ∧ d ≠ [] ∧ headOf (a ++ .leaf .Punctuation "\\\\".toList :: blanks ++ d) = .ok h ∧ h ≠ .unknown :=
  ⟨[wd "Note", ws 0, wd "on", ws 0, .time firstJan.time, ws 0], [.leaf .Newline ['\n']], [wd "text"], .note (some firstJan.time.time),
    by decide, by simp, by simp [wd], by simp, by decide +kernel, by simp⟩

end Verif.Log
