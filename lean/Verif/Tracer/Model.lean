import Verif.TraceView.Model

/-!
# Tracing of operations

Models `OperationsTracer` of `src/hstd/stdlib/TraceBase.{hpp,cpp}`: messages,
scopes and turning the trace on and off, in programs which can end with an
exception at any point.
-/

namespace Verif.Tracer

open Verif.TraceView (Kind)

/-- What a message or a scope writes.  A message in text is its level, by which
it is indented, and its text; the location before the text and the layout of
texts with many lines are left out (`TraceBase.cpp:136-170`).  In a structured
trace it is an event, of which the kind and the message are kept
(`TraceBase.cpp:129-134`). -/
inductive Line where
  | text (level : Int) (m : String)
  | event (k : Kind) (m : Option String)
  deriving DecidableEq, Repr

/-- The tracer: `TraceState`, `traceStructured`, `activeLevel`, and all that was
written to its stream (`getStream`, `endStream`, `TraceBase.cpp:83-107`;
buffer, file and standard output are one stream here).  `traceStructured` does
not change while a program runs. -/
structure Tr where
  on : Bool
  structured : Bool
  level : Int := 0
  out : List Line := []
  deriving DecidableEq, Repr

/-- `message` (`TraceBase.cpp:109-174`). -/
def message (t : Tr) (m : String) : Tr :=
  if t.on then
    { t with out := t.out ++
        [if t.structured then .event .instant (some m) else .text t.level m] }
  else t

/-- `begin_scope_event` (`TraceBase.cpp:190-207`), called by `begin_scope`
(`TraceBase.cpp:228-237`). -/
def beginScope (t : Tr) (m : Option String) : Tr :=
  if t.structured then { t with out := t.out ++ [.event .begin m] }
  else
    let t := match m with
      | some m => message t m
      | none => t
    { t with level := t.level + 1 }

/-- `end_scope_event` (`TraceBase.cpp:209-226`), called by `ScopeHandle::end`
(`TraceBase.cpp:259-266`). -/
def endScope (t : Tr) (m : Option String) : Tr :=
  if t.structured then { t with out := t.out ++ [.event .end m] }
  else
    let t := { t with level := t.level - 1 }
    match m with
    | some m => message t m
    | none => t

/-- What a traced program does: send a message, throw, run a part of it in a
scope, which is ended with a message or by the destructor, or run a part with
the trace on or off (`scopeTrace`). -/
inductive Act where
  | msg (m : String)
  | fail
  | scope (m : Option String) (body : List Act) (last : Option String)
  | trace (b : Bool) (body : List Act)

mutual
/-- A run of an action; `false` if it ends with an exception.  The destructor of
`ScopeHandle` (`TraceBase.hpp:89-91`) ends the scope without a message if it was
not ended before, and the `finally_std` of `scopeTrace`
(`TraceBase.cpp:239-243`) sets the state to what it was. -/
def runOne (t : Tr) : Act → Tr × Bool
  | .msg m => (message t m, true)
  | .fail => (t, false)
  | .scope m body last =>
    let r := runAll (beginScope t m) body
    if r.2 then (endScope r.1 last, true) else (endScope r.1 none, false)
  | .trace b body =>
    let r := runAll { t with on := b } body
    ({ r.1 with on := t.on }, r.2)
/-- A run of actions, one after the other, until one throws. -/
def runAll (t : Tr) : List Act → Tr × Bool
  | [] => (t, true)
  | a :: r =>
    let x := runOne t a
    if x.2 then runAll x.1 r else x
end

/-- The kinds of the events which were written, as the viewer gets them. -/
def kinds (ls : List Line) : List Kind := ls.filterMap fun
  | .event k _ => some k
  | .text _ _ => none

end Verif.Tracer
