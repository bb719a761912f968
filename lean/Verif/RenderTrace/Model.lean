/-!
# The trace of what is drawn

Models `ImRenderTraceRecord` (`src/app/org_imgui/gui_lib/imgui_utils.cpp`): the
records of windows and items which are drawn while the trace is on.
-/

namespace Verif.RenderTrace

/-- `ImRenderTraceRecord`: what was drawn (function, name and place are one text
here) and the records in it. -/
inductive Rec where
  | mk (label : String) (nested : List Rec)

/-- The static members `stack` and `TraceState` (`imgui_utils.cpp:20-21`); the
back of the stack is first. -/
structure State where
  stack : List Rec
  on : Bool

/-- The label of `ImRenderTraceRecord::init()` without a function
(`imgui_utils.cpp:201`): it is written as `<>`. -/
def rootLabel : String := "<>"

/-- `StartTrace` (`imgui_utils.cpp:188-191`). -/
def startTrace (_ : State) : State := ⟨[], true⟩

/-- `EndTrace` (`imgui_utils.cpp:193`). -/
def endTrace (s : State) : State := { s with on := false }

/-- `PushRecord` (`imgui_utils.cpp:195-197`). -/
def pushRecord (s : State) (r : Rec) : State := if s.on then { s with stack := r :: s.stack } else s

/-- `PushUnitRecord` (`imgui_utils.cpp:199-204`). -/
def pushUnit (s : State) (r : Rec) : State :=
  if s.on then
    match s.stack with
    | [] => { s with stack := [.mk rootLabel [r]] }
    | .mk l ns :: rest => { s with stack := .mk l (ns ++ [r]) :: rest }
  else s

/-- `PopRecord` (`imgui_utils.cpp:206-208`); `none` if `pop_back_v` finds no
record (`Vec.hpp:210-216`). -/
def popRecord (s : State) : Option State :=
  if s.on then
    match s.stack with
    | [] => none
    | r :: rest => some (pushUnit { s with stack := rest } r)
  else some s

/-- What is drawn: windows with what is in them (`IM_FN_BEGIN` and `IM_FN_END`,
`imgui_utils.hpp:193-199`) and single items (`IM_FN_UNIT`, `IM_FN_EXPR`,
`IM_FN_STMT`, `IM_FN_PRINT`, `:201-213`). -/
inductive Frame where
  | done
  | window (label : String) (inner rest : Frame)
  | item (label : String) (rest : Frame)

/-- Drawing.  `ImRenderBegin` and `ImRenderUnit` are `imgui_utils.cpp:225-285`;
`ImRenderEnd` is `imgui_utils.hpp:177`. -/
def draw : State → Frame → Option State
  | s, .done => some s
  | s, .window l inner rest =>
    match draw (pushRecord s (.mk l [])) inner with
    | none => none
    | some t => match popRecord t with
      | none => none
      | some u => draw u rest
  | s, .item l rest => draw (pushUnit s (.mk l [])) rest

mutual
/-- `WriteRecord` (`imgui_utils.cpp:296-314`): the lines, each with its level. -/
def writeRec (level : Nat) : Rec → List (Nat × String)
  | .mk l ns => (level, l) :: writeRecs (level + 1) ns
/-- The loop over `nested` (`imgui_utils.cpp:313`). -/
def writeRecs (level : Nat) : List Rec → List (Nat × String)
  | [] => []
  | r :: rs => writeRec level r ++ writeRecs level rs
end

/-- `WriteTrace` (`imgui_utils.cpp:287-294`), without the lines of indices: the
records from the bottom of the stack, each one level deeper. -/
def writeTrace (s : State) : List (Nat × String) :=
  (s.stack.reverse.zipIdx).flatMap fun p => writeRec (p.2 + 1) p.1

end Verif.RenderTrace
