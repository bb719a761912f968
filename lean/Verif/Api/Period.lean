/-!
# C91: time periods and creation times

Model of `getTimePeriods` (`src/haxorg/sem/SemOrgSharedApi.cpp:269-402`) and `getCreationTime` (`src/haxorg/api/SemBaseApi.cpp:206-222`),
and their properties.  A point in time is a number here.
-/

namespace Verif.Api

/-- `SubtreePeriod::Kind` -/
inductive PeriodKind where
  | Clocked | Closed | Scheduled | Titled | Deadline | Created
deriving DecidableEq, Repr

/-- `SubtreePeriod` -/
structure Period where
  kind : PeriodKind
  start : Nat
  stop : Option Nat := none
deriving DecidableEq, Repr

/-- `Time`: a date, or an expression giving dates (`<%%(…)>`). -/
inductive Stamp where
  | fixed (t : Nat)
  | dynamic
deriving DecidableEq, Repr

/-- A node of a title. -/
inductive TitleNode where
  | time (t : Stamp)
  | range (a b : Stamp)
  | other
deriving DecidableEq, Repr

/-- An entry of the log. -/
inductive LogEntry where
  | clock (a : Nat) (b : Option Nat)
  | other
deriving DecidableEq, Repr

/-- A subtree, as far as times go. -/
structure Timed where
  title : List TitleNode := []
  deadline : Option Stamp := none
  scheduled : Option Stamp := none
  closed : Option Stamp := none
  logbook : List LogEntry := []
  /-- the `CREATED` properties -/
  created : List Nat := []
deriving DecidableEq, Repr

/-- `getStatic`: `std::bad_variant_access` for a dynamic time. -/
inductive TimeErr where
  | badVariant
deriving DecidableEq, Repr

def Stamp.getStatic : Stamp → Except TimeErr Nat
  | .fixed t => .ok t
  | .dynamic => .error .badVariant

/-- The loop over the title – SemOrgSharedApi.cpp:306-327 -/
def titlePeriods : List TitleNode → Except TimeErr (List Period)
  | [] => .ok []
  | .time t :: r => do
    let t ← t.getStatic
    let ps ← titlePeriods r
    .ok (⟨.Titled, t, none⟩ :: ps)
  | .range a b :: r => do
    let a ← a.getStatic
    let b ← b.getStatic
    let ps ← titlePeriods r
    .ok (⟨.Titled, a, some b⟩ :: ps)
  | .other :: r => titlePeriods r

/-- Deadline, schedule or closing time – SemOrgSharedApi.cpp:329-363 -/
def fieldPeriod (kinds : List PeriodKind) (kind : PeriodKind) : Option Stamp → Except TimeErr (List Period)
  | some t =>
    if kind ∈ kinds then do
      let t ← t.getStatic
      .ok [⟨kind, t, none⟩]
    else .ok []
  | none => .ok []

/-- The loop over the log – SemOrgSharedApi.cpp:375-389 -/
def clockPeriods (log : List LogEntry) : List Period :=
  log.filterMap fun
    | .clock a b => some ⟨.Clocked, a, b⟩
    | .other => none

/-- `Subtree_getTimePeriodsImpl` – SemOrgSharedApi.cpp:284-405 -/
def getTimePeriods (t : Timed) (kinds : List PeriodKind) : Except TimeErr (List Period) := do
  let title ← titlePeriods t.title
  let deadline ← fieldPeriod kinds .Deadline t.deadline
  let scheduled ← fieldPeriod kinds .Scheduled t.scheduled
  let closed ← fieldPeriod kinds .Closed t.closed
  let clocks := if .Clocked ∈ kinds then clockPeriods t.logbook else []
  .ok (title ++ deadline ++ scheduled ++ closed ++ clocks ++ t.created.map fun c => ⟨.Created, c, none⟩)

/-- `getCreationTime` for subtrees – SemBaseApi.cpp:206-222 -/
def getCreationTime (t : Timed) : Except TimeErr (Option Nat) := do
  match ← getTimePeriods t [.Created] with
  | p :: _ => .ok (some p.start)
  | [] =>
    match ← getTimePeriods t [.Titled] with
    | p :: _ => .ok (some p.start)
    | [] => .ok none

/-! ## Specification -/

def Stamp.date : Stamp → Option Nat
  | .fixed t => some t
  | .dynamic => none

def TitleNode.period : TitleNode → Option Period
  | .time (.fixed t) => some ⟨.Titled, t, none⟩
  | .range (.fixed a) (.fixed b) => some ⟨.Titled, a, some b⟩
  | _ => none

def TitleNode.Fixed : TitleNode → Prop
  | .time t => t ≠ .dynamic
  | .range a b => a ≠ .dynamic ∧ b ≠ .dynamic
  | .other => True

/-- The date of a field as a period. -/
def ofField (k : PeriodKind) (s : Option Stamp) : List Period := (s.bind Stamp.date).toList.map fun t => ⟨k, t, none⟩

/-- All periods of a subtree. -/
def Timed.periods (t : Timed) : List Period :=
  t.title.filterMap TitleNode.period ++ ofField .Deadline t.deadline ++ ofField .Scheduled t.scheduled ++ ofField .Closed t.closed ++
    (t.logbook.filterMap fun | .clock a b => some ⟨.Clocked, a, b⟩ | .other => none) ++ t.created.map fun c => ⟨.Created, c, none⟩

/-- There are only dates. -/
structure Timed.Fixed (t : Timed) : Prop where
  title : ∀ n ∈ t.title, n.Fixed
  deadline : t.deadline ≠ some .dynamic
  scheduled : t.scheduled ≠ some .dynamic
  closed : t.closed ≠ some .dynamic

/-! ## Properties -/

/-- **C91.** In full: asking for the periods of some kinds gives the periods of these kinds. -/
def PeriodsStatement : Prop :=
  ∀ (t : Timed) (kinds : List PeriodKind), getTimePeriods t kinds = .ok (t.periods.filter fun p => decide (p.kind ∈ kinds))

/-- The code: the times in the title and the creation times are given whatever was asked for. -/
theorem periods_false : ¬ PeriodsStatement := by
  intro h
  have := h { title := [.time (.fixed 1)], deadline := some (.fixed 2) } [.Deadline]
  simp [getTimePeriods, titlePeriods, fieldPeriod, clockPeriods, Stamp.getStatic, bind, Except.bind, Timed.periods, ofField, Stamp.date,
    TitleNode.period] at this

/-- The code: a subtree with an expression as time in its title cannot be asked. -/
theorem periods_dynamic : getTimePeriods { title := [.time .dynamic] } [.Deadline] = .error .badVariant := rfl

theorem titlePeriods_eq (ns : List TitleNode) (h : ∀ n ∈ ns, n.Fixed) : titlePeriods ns = .ok (ns.filterMap TitleNode.period) := by
  induction ns with
  | nil => rfl
  | cons n ns ih =>
    have ih := ih fun m hm => h m (by simp [hm])
    have hn := h n (by simp)
    cases n with
    | other => simpa [titlePeriods, List.filterMap_cons, TitleNode.period] using ih
    | time t =>
      cases t with
      | dynamic => exact absurd rfl hn
      | fixed t => simp [titlePeriods, ih, Stamp.getStatic, TitleNode.period, bind, Except.bind]
    | range a b =>
      cases a with
      | dynamic => exact absurd rfl hn.1
      | fixed a =>
        cases b with
        | dynamic => exact absurd rfl hn.2
        | fixed b => simp [titlePeriods, ih, Stamp.getStatic, TitleNode.period, bind, Except.bind]

theorem fieldPeriod_eq (kinds : List PeriodKind) (k : PeriodKind) (s : Option Stamp) (h : s ≠ some .dynamic) :
    fieldPeriod kinds k s = .ok (if k ∈ kinds then ofField k s else []) := by
  cases s with
  | none => simp [fieldPeriod, ofField]
  | some t =>
    cases t with
    | dynamic => exact absurd rfl h
    | fixed t =>
      by_cases hk : k ∈ kinds <;> simp [fieldPeriod, hk, Stamp.getStatic, ofField, Stamp.date, bind, Except.bind]

theorem filter_kind (kinds : List PeriodKind) (k : PeriodKind) (l : List Period) (h : ∀ p ∈ l, p.kind = k) :
    (l.filter fun p => decide (p.kind ∈ kinds)) = if k ∈ kinds then l else [] := by
  by_cases hk : k ∈ kinds
  · rw [if_pos hk, List.filter_eq_self]
    intro p hp; rw [h p hp]; simpa using hk
  · rw [if_neg hk, List.filter_eq_nil_iff]
    intro p hp; rw [h p hp]; simpa using hk

theorem kind_title (ns : List TitleNode) : ∀ p ∈ ns.filterMap TitleNode.period, p.kind = .Titled := by
  intro p hp
  obtain ⟨n, _, hn⟩ := List.mem_filterMap.mp hp
  match n, hn with
  | .time (.fixed _), hn => cases hn; rfl
  | .range (.fixed _) (.fixed _), hn => cases hn; rfl

theorem kind_field (k : PeriodKind) (s : Option Stamp) : ∀ p ∈ ofField k s, p.kind = k := by
  intro p hp
  obtain ⟨_, _, rfl⟩ := List.mem_map.mp hp
  rfl

theorem kind_clock (l : List LogEntry) : ∀ p ∈ (l.filterMap fun | .clock a b => some (⟨.Clocked, a, b⟩ : Period) | .other => none), p.kind = .Clocked := by
  intro p hp
  obtain ⟨n, _, hn⟩ := List.mem_filterMap.mp hp
  cases n with
  | clock a b => cases hn; rfl
  | other => cases hn

/-- **C91**, for subtrees with dates only: what is given are the periods of the kinds asked for, and those in the title and the creation times;
so exactly the periods of these kinds if both of them are asked for. -/
theorem periods_partial (t : Timed) (ht : t.Fixed) (kinds : List PeriodKind) :
    getTimePeriods t kinds = .ok (t.periods.filter fun p => decide (p.kind ∈ .Titled :: .Created :: kinds)) := by
  unfold getTimePeriods
  rw [titlePeriods_eq _ ht.title, fieldPeriod_eq _ _ _ ht.deadline, fieldPeriod_eq _ _ _ ht.scheduled, fieldPeriod_eq _ _ _ ht.closed]
  simp only [bind, Except.bind, Timed.periods, List.filter_append]
  rw [filter_kind _ .Titled _ (kind_title _), filter_kind _ .Deadline _ (kind_field _ _), filter_kind _ .Scheduled _ (kind_field _ _),
    filter_kind _ .Closed _ (kind_field _ _), filter_kind _ .Clocked _ (kind_clock _),
    filter_kind _ .Created (t.created.map fun c => ⟨.Created, c, none⟩) (by intro p hp; obtain ⟨_, _, rfl⟩ := List.mem_map.mp hp; rfl)]
  simp [clockPeriods]

/-- In full: the creation time is the one of the property, and without the property the first time in the title. -/
def CreationStatement : Prop :=
  ∀ t : Timed, t.Fixed → getCreationTime t = .ok (t.created.head?.or (t.title.filterMap TitleNode.period |>.head?.map (·.start)))

/-- The code: with a time in the title, the property is not looked at. -/
theorem creation_false : ¬ CreationStatement := by
  intro h
  have := h { title := [.time (.fixed 1)], created := [2] } ⟨by simp [TitleNode.Fixed], by simp, by simp, by simp⟩
  simp [getCreationTime, getTimePeriods, titlePeriods, fieldPeriod, clockPeriods, Stamp.getStatic, bind, Except.bind] at this

/-- When only one of them is there, it is the creation time. -/
theorem creation_partial (t : Timed) (ht : t.Fixed) (h : t.created = [] ∨ t.title.filterMap TitleNode.period = []) :
    getCreationTime t = .ok (t.created.head?.or (t.title.filterMap TitleNode.period |>.head?.map (·.start))) := by
  have hp : ∀ kinds, (kinds = [.Created] ∨ kinds = [.Titled]) →
      getTimePeriods t kinds = .ok (t.title.filterMap TitleNode.period ++ t.created.map fun c => ⟨.Created, c, none⟩) := by
    intro kinds hk
    rw [periods_partial t ht]
    simp only [Timed.periods, List.filter_append]
    rw [filter_kind _ .Titled _ (kind_title _), filter_kind _ .Deadline _ (kind_field _ _), filter_kind _ .Scheduled _ (kind_field _ _),
      filter_kind _ .Closed _ (kind_field _ _), filter_kind _ .Clocked _ (kind_clock _),
      filter_kind _ .Created (t.created.map fun c => ⟨.Created, c, none⟩) (by intro p hp; obtain ⟨_, _, rfl⟩ := List.mem_map.mp hp; rfl)]
    rcases hk with rfl | rfl <;> simp
  unfold getCreationTime
  rw [hp _ (.inl rfl), hp _ (.inr rfl)]
  simp only [bind, Except.bind]
  rcases h with h | h
  · rw [h]
    cases t.title.filterMap TitleNode.period <;> simp
  · rw [h]
    cases t.created <;> simp

/-- A subtree with a deadline, a clock and a creation time. -/
def exTimed : Timed := { deadline := some (.fixed 5), logbook := [.clock 1 (some 2), .other], created := [0] }

example : exTimed.Fixed := ⟨by simp [exTimed], by decide, by decide, by decide⟩
example : getTimePeriods exTimed [.Clocked] = .ok [⟨.Clocked, 1, some 2⟩, ⟨.Created, 0, none⟩] ∧ getCreationTime exTimed = .ok (some 0) := ⟨rfl, rfl⟩

end Verif.Api
