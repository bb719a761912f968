import Verif.RenderTrace.Model

/-!
# Properties of the trace of what is drawn (C226)
-/

namespace Verif.RenderTrace

/-! ## Specification -/

/-- What is drawn, in order, each with the number of windows around it. -/
def drawn : Nat → Frame → List (Nat × String)
  | _, .done => []
  | d, .window l inner rest => (d, l) :: (drawn (d + 1) inner ++ drawn d rest)
  | d, .item l rest => (d, l) :: drawn d rest

/-! ## C226 -/

/-- The records of a frame. -/
def recs : Frame → List Rec
  | .done => []
  | .window l inner rest => .mk l (recs inner) :: recs rest
  | .item l rest => .mk l [] :: recs rest

/-- The frame is drawn in the window on top. -/
theorem draw_top (f : Frame) (l : String) (ns rest : List Rec) :
    draw ⟨.mk l ns :: rest, true⟩ f = some ⟨.mk l (ns ++ recs f) :: rest, true⟩ := by
  induction f generalizing l ns rest with
  | done => simp [draw, recs]
  | window m i r hi hr =>
    simp [draw, pushRecord, hi, popRecord, pushUnit, hr, recs]
  | item m r hr => simp [draw, pushUnit, hr, recs]

theorem draw_empty (f : Frame) :
    draw ⟨[], true⟩ f =
      some ⟨if (recs f).isEmpty then [] else [.mk rootLabel (recs f)], true⟩ := by
  cases f with
  | done => simp [draw, recs]
  | window m i r => simp [draw, pushRecord, draw_top, popRecord, pushUnit, recs]
  | item m r => simp [draw, pushUnit, draw_top, recs]

theorem write_append (n : Nat) (a b : List Rec) :
    writeRecs n (a ++ b) = writeRecs n a ++ writeRecs n b := by
  induction a with
  | nil => simp [writeRecs]
  | cons x r ih => simp [writeRecs, ih]

theorem write_recs (f : Frame) (n : Nat) : writeRecs n (recs f) = drawn n f := by
  induction f generalizing n with
  | done => simp [recs, writeRecs, drawn]
  | window l i r hi hr => simp [recs, writeRecs, writeRec, drawn, hi, hr]
  | item l r hr => simp [recs, writeRecs, writeRec, drawn, hr]

/-- **C226** (trace): whatever was traced before, a frame which is drawn between
the start and the end of the trace is drawn without an error, and its trace has a
line for each thing drawn, in order, at the level of the windows around it, below
one line for the frame. -/
theorem traced (s : State) (f : Frame) :
    ∃ t, draw (startTrace s) f = some t ∧ (endTrace t).on = false ∧
      writeTrace (endTrace t) = if drawn 2 f = [] then [] else (1, "<>") :: drawn 2 f := by
  refine ⟨_, draw_empty f, rfl, ?_⟩
  have h := write_recs f 2
  cases hr : recs f with
  | nil =>
    rw [hr] at h
    rw [← h]
    simp [writeTrace, endTrace, writeRecs]
  | cons x r =>
    rw [hr] at h
    have hn : drawn 2 f ≠ [] := by
      rw [← h]; cases x; simp [writeRecs, writeRec]
    rw [if_neg hn, ← h]
    simp [writeTrace, endTrace, writeRec, rootLabel]

/-- **C226** (off): while the trace is off, drawing records nothing and does not
fail. -/
theorem off_nothing (s : State) (h : s.on = false) (f : Frame) : draw s f = some s := by
  induction f with
  | done => rfl
  | window l i r hi hr => simp [draw, pushRecord, h, hi, popRecord, hr]
  | item l r hr => simp [draw, pushUnit, h, hr]

/-- A window with an item and another window, and an item after it. -/
example : ∃ t, draw (startTrace ⟨[.mk "old" []], false⟩)
      (.window "w" (.item "a" (.window "v" .done .done)) (.item "b" .done)) = some t ∧
    writeTrace (endTrace t) = [(1, "<>"), (2, "w"), (3, "a"), (3, "v"), (2, "b")] := by
  obtain ⟨t, h1, _, h2⟩ := traced ⟨[.mk "old" []], false⟩
    (.window "w" (.item "a" (.window "v" .done .done)) (.item "b" .done))
  exact ⟨t, h1, by rw [h2]; simp [drawn]⟩

/-- Nothing is recorded while the trace is off. -/
example : draw ⟨[.mk "old" []], false⟩ (.window "w" (.item "a" .done) .done) =
    some ⟨[.mk "old" []], false⟩ := off_nothing _ rfl _

/-- A window which is left after the trace was started in it: there is no record
to take from the stack. -/
theorem start_inside (s : State) : popRecord (startTrace s) = none := rfl

end Verif.RenderTrace
