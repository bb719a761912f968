import Mathlib.Order.Defs.LinearOrder

/-!
# Model of the agenda – src/app/org_viewer/shared_org_logic.{hpp,cpp}, file_agenda_table.{hpp,cpp}

Simplifications, for the whole file:
* A node of a document has what the agenda asks for: if its kind is one of `AGENDA_NODE_TYPES`, its todo keyword (empty for nodes
  that are not subtrees), its clock entries (none for nodes that are not subtrees) and its subnodes.
* Times are numbers of seconds.  Numbers are unbounded.  Links to parents are left out.
* Qt sorts with a stable sort, by `lessThan(a, b)` if ascending and `lessThan(b, a)` if descending.
-/

namespace Verif.Agenda

/-- A node of a document. -/
inductive Doc where
  | mk (agenda : Bool) (todo : String) (clocks : List (Int × Option Int)) (subs : List Doc)

/-- `OrgAgendaNode` – shared_org_logic.hpp:31-40 -/
inductive Node where
  | mk (todo : String) (clocks : List (Int × Option Int)) (children : List Node)

def Node.todo : Node → String
  | .mk t _ _ => t

def Node.clocks : Node → List (Int × Option Int)
  | .mk _ c _ => c

def Node.children : Node → List Node
  | .mk _ _ c => c

/-- `COMPLETED_TASK_SET` – shared_org_logic.cpp:6-11 -/
def completedSet : List String := ["DONE", "FAILED", "COMPLETED", "CANCELED"]

mutual
/-- The function in `getRecursiveCompletion`, with the two counters – shared_org_logic.cpp:118-139 -/
def completionAux (acc : Nat × Nat) : Node → Nat × Nat
  | .mk todo _ children =>
    let acc := if todo ≠ "" then (if todo ∈ completedSet then (acc.1 + 1, acc.2 + 1) else (acc.1, acc.2 + 1)) else acc
    completionAll acc children
/-- The loop over the children – shared_org_logic.cpp:134 -/
def completionAll (acc : Nat × Nat) : List Node → Nat × Nat
  | [] => acc
  | n :: ns => completionAll (completionAux acc n) ns
end

/-- `getRecursiveCompletion` – shared_org_logic.cpp:118-139 -/
def completion (n : Node) : Nat × Nat := completionAux (0, 0) n

mutual
/-- `buildAgendaTree` – shared_org_logic.cpp:201-218 -/
def build : Doc → Node
  | .mk _ todo clocks subs => .mk todo clocks (buildAll subs)
/-- The loop over the subnodes – shared_org_logic.cpp:208-215 -/
def buildAll : List Doc → List Node
  | [] => []
  | .mk agenda todo clocks subs :: ds =>
    if agenda then
      let added := build (.mk agenda todo clocks subs)
      if (completion added).2 ≠ 0 then added :: buildAll ds else buildAll ds
    else buildAll ds
end

/-- The closed clock entries of a node – shared_org_logic.cpp:89-95 -/
def closed (clocks : List (Int × Option Int)) : List (Int × Int) := clocks.filterMap fun c => c.2.map fun t => (c.1, t)

mutual
/-- The function in `getClockPeriods`: it reads `data` of the node `getClockPeriods` was called for, in each call –
shared_org_logic.cpp:87-100 -/
def clockAux (data : List (Int × Option Int)) (recursive : Bool) : Node → List (Int × Int)
  | .mk _ _ children => closed data ++ if recursive then clockAll data recursive children else []
/-- The loop over the children – shared_org_logic.cpp:98 -/
def clockAll (data : List (Int × Option Int)) (recursive : Bool) : List Node → List (Int × Int)
  | [] => []
  | n :: ns => clockAux data recursive n ++ clockAll data recursive ns
end

/-- `getClockPeriods` – shared_org_logic.cpp:83-104 -/
def clockPeriods (n : Node) (recursive : Bool) : List (Int × Int) := clockAux n.clocks recursive n

/-- `getClockedSeconds` – shared_org_logic.hpp:53-60 -/
def clockedSeconds (n : Node) (recursive : Bool) : Int := (clockPeriods n recursive).foldl (fun r p => r + (p.2 - p.1)) 0

/-- `units` – shared_org_logic.cpp:41-49 -/
def units : List (String × Int) :=
  [("y", 365 * 24 * 3600), ("mo", 30 * 24 * 3600), ("w", 7 * 24 * 3600), ("d", 24 * 3600), ("h", 3600), ("m", 60), ("s", 1)]

/-- The loop over the units, with the parts that are still allowed – shared_org_logic.cpp:51-59 -/
def ageParts (us : List (String × Int)) (seconds : Int) (allowed : Nat) : List String :=
  match us with
  | [] => []
  | u :: us =>
    if u.2 ≤ seconds then
      (toString (seconds / u.2) ++ u.1) :: (if allowed ≤ 1 then [] else ageParts us (seconds % u.2) (allowed - 1))
    else ageParts us seconds allowed

/-- `getAgeDisplay`, for an age in seconds – shared_org_logic.cpp:36-65 -/
def ageDisplay (seconds : Int) : String :=
  if seconds = 0 then ""
  else
    let parts := ageParts units seconds 2
    let result := parts.foldl (· ++ ·) ""
    if parts.isEmpty then "0s" else result

/-- The options of `OrgTreeProxyModel` – file_agenda_table.hpp:163-165 -/
structure Options where
  hideNoTodo : Bool
  hideCompleted : Bool
  hideNested : Bool

/-- `isCompletedTask`, of a keyword in lower case – file_agenda_table.hpp:152-159.  `lower` is that of the library. -/
def isCompletedTask (lower : String → String) (todo : String) : Bool := lower todo ∈ ["done", "completed"]

/-- `filterAcceptsRow` in the list – file_agenda_table.cpp:25-31 -/
def acceptFlat (lower : String → String) (o : Options) (n : Node) : Bool :=
  if o.hideCompleted && isCompletedTask lower n.todo then false
  else if o.hideNoTodo && n.todo == "" then false
  else true

/-- `filterAcceptsRow` in the tree – file_agenda_table.cpp:32-63 -/
def acceptTree (lower : String → String) (o : Options) (n : Node) : Bool :=
  let c := completion n
  if (o.hideCompleted && isCompletedTask lower n.todo && (o.hideNested || n.children.isEmpty)) || c.1 == c.2 then false
  else if o.hideNoTodo && n.todo == "" && (o.hideNested || n.children.isEmpty) then false
  else true

/-- `lessThan` in the list, for the values of a column – file_agenda_table.cpp:66-122.  `none` is the empty option or the empty value
of the column. -/
def lessThan {K : Type} [LinearOrder K] (ascending : Bool) (left right : Option K) : Bool :=
  match left, right with
  | none, none => false
  | none, some _ => !ascending
  | some _, none => ascending
  | some a, some b => decide (a < b)

/-- The rows of the list, sorted by a column – file_agenda_table.hpp:133-143 -/
def sortRows {K : Type} [LinearOrder K] (ascending : Bool) (rows : List (Option K)) : List (Option K) :=
  if ascending then rows.mergeSort fun a b => !lessThan true b a else rows.mergeSort fun a b => !lessThan false a b

end Verif.Agenda
