/-!
# Sinks, metadata and differences of the log

Models `src/hstd/ext/logger.cpp`.  Locks, formatters and filters are left out:
each function here is one critical section.
-/

namespace Verif.Logger

/-- A sink is a number. The stack of `log_sink_manager` (its top is the head of
the list), and the sinks of `boost::log::core` which get the records. -/
structure Sinks where
  stack : List Nat := []
  core : List Nat := []
  deriving DecidableEq, Repr

/-- `boost::log::core::add_sink`: a sink that is there is not added again. -/
def addSink (core : List Nat) (s : Nat) : List Nat := if s ∈ core then core else core ++ [s]

/-- `sync_sinks` (`logger.cpp:142-157`): the sinks are removed and added again,
from the bottom of the stack to its top. -/
def sync (stack : List Nat) : Sinks := { stack := stack, core := stack.reverse.foldl addSink [] }

/-- `push_sink` (`logger.cpp:101-112`). -/
def push (s : Sinks) (x : Nat) : Sinks := { stack := x :: s.stack, core := addSink s.core x }

/-- `pop_sink` (`logger.cpp:114-126`). -/
def pop (s : Sinks) : Sinks :=
  match s.stack with
  | [] => s
  | _ :: r => sync r

/-- What a program does with sinks: `push_sink`, `pop_sink`,
`clear_sink_backends` (`logger.cpp:176`), a part of it in a `log_sink_scope`,
and exceptions. -/
inductive Op where
  | push (x : Nat)
  | pop
  | clear
  | scope (body : List Op)
  | fail

mutual
/-- A run of an operation, `false` if it throws.  The constructor of
`log_sink_scope` keeps the stack and the destructor sets it
(`logger.cpp:163-168`, `set_sinks` `133-137`). -/
def runOne (s : Sinks) : Op → Sinks × Bool
  | .push x => (Logger.push s x, true)
  | .pop => (Logger.pop s, true)
  | .clear => (sync [], true)
  | .scope body => (sync s.stack, (runAll s body).2)
  | .fail => (s, false)
/-- Operations one after the other, until one throws. -/
def runAll (s : Sinks) : List Op → Sinks × Bool
  | [] => (s, true)
  | o :: r => if (runOne s o).2 then runAll (runOne s o).1 r else runOne s o
end

/-- The metadata of a record: an object with fields, or another value. -/
inductive Json where
  | object (fields : List (String × String))
  | other
  deriving DecidableEq, Repr

/-- `log_record::metadata` with a field (`logger.cpp:410-421`); nothing if it
throws. -/
def setField (m : Option Json) (k v : String) : Option (Option Json) :=
  match m with
  | none => some (some (.object []))
  | some .other => none
  | some (.object fields) => some (some (.object ((k, v) :: fields.filter (·.1 != k))))

/-- A field of the metadata. -/
def field (m : Option Json) (k : String) : Option String :=
  match m with
  | some (.object fields) => fields.lookup k
  | _ => none

abbrev Line := List Char

/-- What is written for a record which is the same in both runs
(`logger.cpp:324-325`): two spaces, and its text, which can have many lines. -/
def same : List Line → List Line
  | [] => [[' ', ' ']]
  | l :: r => ([' ', ' '] ++ l) :: r

/-- `prefixed_write` (`logger.cpp:318-320`), for the lines of the text. -/
def prefixed (c : Char) (r : List Line) : List Line := r.map ([c, ' '] ++ ·)

/-- The destructor of `log_differential_sink` (`logger.cpp:312-345`): the lines
of the file for the records of the run before and of this run.  A record is the
list of the lines of its text. -/
def differ : List (List Line) → List (List Line) → List Line
  | [], cs => cs.flatMap (prefixed '+')
  | p :: ps, [] => prefixed '-' p ++ differ ps []
  | p :: ps, c :: cs =>
    (if p = c then same c else prefixed '-' p ++ prefixed '+' c) ++ differ ps cs

end Verif.Logger
