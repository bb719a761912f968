/-!
# The viewer of structured traces

Models `src/app/log_viewer/trace_log_viewer.cpp`: building the hierarchy of the
recorded events, and the order in which its rows are drawn.
-/

namespace Verif.TraceView

/-- The phase of a recorded event: `ph` is `'B'`, `'E'` or `'I'`
(`trace_log_viewer.cpp:123-139`).  The names, messages and sources of the
events are left out: the hierarchy is not affected by them (`OpenFrame::name`
is stored and never read). -/
inductive Kind where
  | «begin» | «end» | instant
  deriving DecidableEq, Repr

/-- `EventRecord` (`trace_log_viewer.hpp:46-51`); the id of a record is its
position in `records`, and `record_index` (`trace_log_viewer.cpp:65-68`) maps
every id to itself. -/
structure Rec where
  level : Nat
  nested : List Nat
  deriving DecidableEq, Repr

/-- The state of the loop of `build_event_hierarchy`: `records`, `root_events`
and `open_stack`, whose back is the head of the list. -/
structure St where
  recs : List Rec := []
  roots : List Nat := []
  stack : List Nat := []
  deriving DecidableEq, Repr

/-- The change of `open_stack` at the end of an iteration
(`trace_log_viewer.cpp:99-107`). -/
def push (k : Kind) (id : Nat) (stack : List Nat) : List Nat :=
  match k with
  | .begin => id :: stack
  | .end => stack.tail
  | .instant => stack

/-- One iteration of the loop (`trace_log_viewer.cpp:80-108`). -/
def step (s : St) (k : Kind) : St :=
  let id := s.recs.length
  let recs := s.recs ++ [{ level := s.stack.length, nested := [] }]
  match s.stack with
  | [] => { recs := recs, roots := s.roots ++ [id], stack := push k id [] }
  | o :: rest =>
    { recs := recs.modify o fun r => { r with nested := r.nested ++ [id] }
      roots := s.roots
      stack := push k id (o :: rest) }

/-- `set_events` and `rebuild` (`trace_log_viewer.cpp:9-12`, `56-63`, `70-109`):
the tables are cleared and filled from the events. -/
def build (ks : List Kind) : St := ks.foldl step {}

/-- `draw` and `draw_event_row_recursive` (`trace_log_viewer.cpp:50`,
`188-200`): the rows drawn for a list of ids, as a relation between the list and
the sequence of the rows, so that a derivation is a run which ends.  `isOpen`
is what `TreeNodeEx` answers for a row with nested events; a row without
nested events is always open (`trace_log_viewer.cpp:240`).  The state rows and
the contents of the cells are left out. -/
inductive Draws (recs : List Rec) (isOpen : Nat → Bool) : List Nat → List Nat → Prop where
  | nil : Draws recs isOpen [] []
  | shown {id ids r o1 o2} : recs[id]? = some r → (r.nested = [] ∨ isOpen id = true) →
      Draws recs isOpen r.nested o1 → Draws recs isOpen ids o2 →
      Draws recs isOpen (id :: ids) (id :: (o1 ++ o2))
  | hidden {id ids r o2} : recs[id]? = some r → r.nested ≠ [] → isOpen id = false →
      Draws recs isOpen ids o2 → Draws recs isOpen (id :: ids) (id :: o2)

/-- `get_hierarchy` (`trace_log_viewer.cpp:25-30`): the hierarchy is one static
object for all viewers, filled at every call, and a reference to it is returned.
The slot holds the roots and the viewer whose records the getter reads. -/
def getHierarchy (viewers : Nat → St) (_slot : Option (Nat × List Nat)) (v : Nat) :
    Option (Nat × List Nat) := some (v, (viewers v).roots)

/-- The contents of the static object after calls on the given viewers, in
order. -/
def slotAfter (viewers : Nat → St) (calls : List Nat) : Option (Nat × List Nat) :=
  calls.foldl (getHierarchy viewers) none

end Verif.TraceView
