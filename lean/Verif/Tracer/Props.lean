import Verif.Tracer.Model
import Verif.TraceView.Props

/-!
# Properties of tracing (C214-C216)
-/

namespace Verif.Tracer

open Verif.TraceView (Kind build depth)

/-! ## Specification -/

mutual
/-- What is to be said by an action inside of `d` scopes, each message with the
number of scopes around it; `false` if it throws. -/
def sayOne (on : Bool) (d : Nat) : Act → List (Nat × String) × Bool
  | .msg m => (if on then [(d, m)] else [], true)
  | .fail => ([], false)
  | .scope m body last =>
    let r := sayAll on (d + 1) body
    ((if on then m.toList.map (d, ·) else []) ++ r.1 ++
      (if on && r.2 then last.toList.map (d, ·) else []), r.2)
  | .trace b body => sayAll b d body
def sayAll (on : Bool) (d : Nat) : List Act → List (Nat × String) × Bool
  | [] => ([], true)
  | a :: r =>
    let x := sayOne on d a
    if x.2 then (x.1 ++ (sayAll on d r).1, (sayAll on d r).2) else x
end

mutual
/-- The number of scopes around each event of an action; the end of a scope is
inside of it. -/
def levelsOne (on : Bool) (d : Nat) : Act → List Nat × Bool
  | .msg _ => (if on then [d] else [], true)
  | .fail => ([], false)
  | .scope _ body _ =>
    let r := levelsAll on (d + 1) body
    (d :: r.1 ++ [d + 1], r.2)
  | .trace b body => levelsAll b d body
def levelsAll (on : Bool) (d : Nat) : List Act → List Nat × Bool
  | [] => ([], true)
  | a :: r =>
    let x := levelsOne on d a
    if x.2 then (x.1 ++ (levelsAll on d r).1, (levelsAll on d r).2) else x
end

mutual
/-- The trace is not turned on in an action. -/
def Act.staysOff : Act → Bool
  | .msg _ => true
  | .fail => true
  | .scope _ body _ => staysOffAll body
  | .trace b body => !b && staysOffAll body
def staysOffAll : List Act → Bool
  | [] => true
  | a :: r => a.staysOff && staysOffAll r
end

/-! ## C214: levels in text -/

def texts (l : List (Nat × String)) : List Line := l.map fun x => .text x.1 x.2

theorem texts_append (a b : List (Nat × String)) : texts (a ++ b) = texts a ++ texts b := by
  simp [texts]

mutual
theorem text_one (a : Act) (t : Tr) (d : Nat) (hs : t.structured = false) (hl : t.level = d) :
    runOne t a = ({ t with out := t.out ++ texts (sayOne t.on d a).1 }, (sayOne t.on d a).2) := by
  match a with
  | .msg m =>
    obtain ⟨on, st, lv, out⟩ := t
    simp only at hs hl
    subst hs hl
    cases on <;> simp [runOne, message, sayOne, texts]
  | .fail => simp [runOne, sayOne, texts]
  | .scope m body last =>
    obtain ⟨on, st, lv, out⟩ := t
    simp only at hs hl
    subst hs hl
    have hb : beginScope { on := on, structured := false, level := (d : Int), out := out } m =
        { on := on, structured := false, level := ((d + 1 : Nat) : Int)
          out := out ++ texts (if on then m.toList.map (d, ·) else []) } := by
      cases m <;> cases on <;> simp [beginScope, message, texts]
    rw [runOne, sayOne, hb, text_all body _ (d + 1) rfl rfl]
    simp only
    cases hr : (sayAll on (d + 1) body).2
    · simp [endScope, texts_append]
    · have e : ((d : Int) + 1) - 1 = d := by omega
      cases last <;> cases on <;> simp [endScope, message, texts_append, e] <;> simp [texts]
  | .trace b body =>
    obtain ⟨on, st, lv, out⟩ := t
    simp only at hs hl
    subst hs hl
    rw [runOne, sayOne, text_all body _ d rfl rfl]
theorem text_all (l : List Act) (t : Tr) (d : Nat) (hs : t.structured = false) (hl : t.level = d) :
    runAll t l = ({ t with out := t.out ++ texts (sayAll t.on d l).1 }, (sayAll t.on d l).2) := by
  match l with
  | [] => simp [runAll, sayAll, texts]
  | a :: r =>
    rw [runAll, sayAll, text_one a t d hs hl]
    simp only
    cases ha : (sayOne t.on d a).2
    · simp [ha]
    · simp only [if_true]
      rw [text_all r { t with out := t.out ++ texts (sayOne t.on d a).1 } d hs hl]
      simp [texts_append]
end

/-- **C214**: in text, each message is written once, in order, at the number of
scopes around it, also after exceptions were thrown out of scopes. -/
theorem text_levels (l : List Act) (t : Tr) (d : Nat) (hs : t.structured = false)
    (hl : t.level = d) :
    (runAll t l).1.out = t.out ++ (sayAll t.on d l).1.map (fun x => .text x.1 x.2) ∧
      (runAll t l).2 = (sayAll t.on d l).2 := by
  rw [text_all l t d hs hl]
  exact ⟨rfl, rfl⟩

/-! ## Runs in a structured trace -/

/-- The number of open spans after events, from `d` on. -/
def fin (d : Nat) (ks : List Kind) : Nat := ks.foldl (fun d k => match k with
  | .begin => d + 1
  | .end => d - 1
  | .instant => d) d

def lv (d : Nat) : List Kind → List Nat
  | [] => []
  | k :: r => d :: lv (fin d [k]) r

theorem fin_append (d : Nat) (a b : List Kind) : fin d (a ++ b) = fin (fin d a) b := by
  simp [fin]

theorem lv_append (d : Nat) (a b : List Kind) : lv d (a ++ b) = lv d a ++ lv (fin d a) b := by
  induction a generalizing d with
  | nil => rfl
  | cons k r ih =>
    rw [List.cons_append, lv, lv, ih, List.cons_append]
    rw [← fin_append]; rfl

theorem lv_get (d : Nat) (ks : List Kind) (i : Nat) :
    (lv d ks)[i]? = if i < ks.length then some (fin d (ks.take i)) else none := by
  induction ks generalizing d i with
  | nil => simp [lv]
  | cons k r ih =>
    cases i with
    | zero => simp [lv, fin]
    | succ i =>
      rw [lv, List.getElem?_cons_succ, ih, List.take_succ_cons]
      have : fin d (k :: r.take i) = fin (fin d [k]) (r.take i) := by
        rw [← fin_append]; rfl
      rw [this]
      simp

theorem levels_build (ks : List Kind) : (build ks).recs.map (·.level) = lv 0 ks := by
  refine List.ext_getElem? fun i => ?_
  rw [List.getElem?_map, TraceView.level_of, lv_get]
  rfl

theorem kinds_append (a b : List Line) : kinds (a ++ b) = kinds a ++ kinds b := by
  simp [kinds]

mutual
theorem struct_one (a : Act) (t : Tr) (d : Nat) (hs : t.structured = true) :
    ∃ e, runOne t a = ({ t with out := t.out ++ e }, (levelsOne t.on d a).2) ∧
      lv d (kinds e) = (levelsOne t.on d a).1 ∧ fin d (kinds e) = d := by
  match a with
  | .msg m =>
    obtain ⟨on, st, l, out⟩ := t
    simp only at hs
    subst hs
    cases on
    · exact ⟨[], by simp [runOne, message, levelsOne], by simp [levelsOne, kinds, lv], rfl⟩
    · exact ⟨[.event .instant (some m)], by simp [runOne, message, levelsOne],
        by simp [levelsOne, kinds, lv], rfl⟩
  | .fail => exact ⟨[], by simp [runOne, levelsOne], by simp [levelsOne, kinds, lv], rfl⟩
  | .scope m body last =>
    obtain ⟨on, st, l, out⟩ := t
    simp only at hs
    subst hs
    obtain ⟨e, h1, h2, h3⟩ := struct_all body
      { on := on, structured := true, level := l, out := out ++ [.event .begin m] } (d + 1) rfl
    simp only at h1 h2
    refine ⟨.event .begin m :: e ++ [.event .end (if (levelsAll on (d + 1) body).2 then last else none)],
      ?_, ?_, ?_⟩
    · rw [runOne, levelsOne]
      simp only [beginScope, if_true]
      rw [h1]
      cases hr : (levelsAll on (d + 1) body).2 <;> simp [endScope]
    · rw [kinds_append, lv_append, levelsOne]
      have k1 : kinds (.event .begin m :: e) = .begin :: kinds e := rfl
      have k2 : fin d [Kind.begin] = d + 1 := rfl
      have k3 : fin d (.begin :: kinds e) = fin (d + 1) (kinds e) := rfl
      rw [k1, lv, k2, h2, k3, h3]
      rfl
    · rw [kinds_append, fin_append]
      have k3 : fin d (kinds (.event .begin m :: e)) = fin (d + 1) (kinds e) := rfl
      rw [k3, h3]
      rfl
  | .trace b body =>
    obtain ⟨on, st, l, out⟩ := t
    simp only at hs
    subst hs
    obtain ⟨e, h1, h2, h3⟩ := struct_all body
      { on := b, structured := true, level := l, out := out } d rfl
    refine ⟨e, ?_, by rw [levelsOne]; exact h2, h3⟩
    rw [runOne, levelsOne]
    simp only at h1 ⊢
    rw [h1]
theorem struct_all (l : List Act) (t : Tr) (d : Nat) (hs : t.structured = true) :
    ∃ e, runAll t l = ({ t with out := t.out ++ e }, (levelsAll t.on d l).2) ∧
      lv d (kinds e) = (levelsAll t.on d l).1 ∧ fin d (kinds e) = d := by
  match l with
  | [] => exact ⟨[], by simp [runAll, levelsAll], by simp [levelsAll, kinds, lv], rfl⟩
  | a :: r =>
    obtain ⟨e, h1, h2, h3⟩ := struct_one a t d hs
    cases ha : (levelsOne t.on d a).2
    · refine ⟨e, ?_, ?_, h3⟩
      · rw [runAll, levelsAll, h1]; simp [ha]
      · rw [levelsAll, h2]; simp [ha]
    · obtain ⟨f, g1, g2, g3⟩ := struct_all r { t with out := t.out ++ e } d hs
      refine ⟨e ++ f, ?_, ?_, ?_⟩
      · rw [runAll, levelsAll, h1]
        simp only [ha, if_true]
        rw [g1]
        simp
      · rw [kinds_append, lv_append, h2, h3, g2, levelsAll]
        simp [ha]
      · rw [kinds_append, fin_append, h3, g3]
end

/-- **C214**: after any run, thrown out of or not, the level and the state are
those before it, and what was written before is still there. -/
theorem restored (l : List Act) (t : Tr) (d : Nat) (hl : t.level = d) :
    (runAll t l).1.level = t.level ∧ (runAll t l).1.on = t.on ∧
      (runAll t l).1.structured = t.structured ∧ t.out <+: (runAll t l).1.out := by
  cases hs : t.structured
  · rw [text_all l t d hs hl]
    exact ⟨rfl, rfl, hs, List.prefix_append _ _⟩
  · obtain ⟨e, h, _⟩ := struct_all l t d hs
    rw [h]
    exact ⟨rfl, rfl, hs, List.prefix_append _ _⟩

/-! ## C215: the trace in the viewer -/

/-- **C215**: the viewer shows the events of a structured trace at the number of
scopes of the program around them, whatever the program does and wherever it
throws. -/
theorem viewer_levels (l : List Act) (t : Tr) (hs : t.structured = true) (ho : t.out = []) :
    (build (kinds (runAll t l).1.out)).recs.map (·.level) = (levelsAll t.on 0 l).1 := by
  obtain ⟨e, h1, h2, _⟩ := struct_all l t 0 hs
  rw [levels_build, h1, ho]
  exact h2

/-- **C215**: at the end of the program no span is open in the viewer. -/
theorem viewer_closed (l : List Act) (t : Tr) (hs : t.structured = true) (ho : t.out = []) :
    depth (kinds (runAll t l).1.out) = 0 := by
  obtain ⟨e, h1, _, h3⟩ := struct_all l t 0 hs
  rw [h1, ho]
  exact h3

/-! ## C216: the trace is off -/

/-- Nothing is written while the trace is off. -/
def OffStatement : Prop :=
  ∀ (t : Tr) (l : List Act), t.on = false → staysOffAll l = true → (runAll t l).1.out = t.out

/-- **C216**: false, scopes of a structured trace are written also if it is off. -/
theorem off_false : ¬ OffStatement := by
  intro h
  have := h { on := false, structured := true } [.scope none [.msg "a"] none] rfl (by decide +kernel)
  revert this
  decide +kernel

mutual
theorem say_off_one (a : Act) (d : Nat) (h : a.staysOff = true) : (sayOne false d a).1 = [] := by
  match a with
  | .msg m => simp [sayOne]
  | .fail => simp [sayOne]
  | .scope m body last =>
    rw [Act.staysOff] at h
    simp [sayOne, say_off_all body (d + 1) h]
  | .trace b body =>
    rw [Act.staysOff] at h
    cases b
    · exact say_off_all body d (by simpa using h)
    · simp at h
theorem say_off_all (l : List Act) (d : Nat) (h : staysOffAll l = true) :
    (sayAll false d l).1 = [] := by
  match l with
  | [] => rfl
  | a :: r =>
    rw [staysOffAll, Bool.and_eq_true] at h
    rw [sayAll]
    split
    · simp [say_off_one a d h.1, say_off_all r d h.2]
    · exact say_off_one a d h.1
end

/-- **C216**, in text: nothing is written while the trace is off.  Missing: the
scopes of structured traces. -/
theorem off_partial (t : Tr) (l : List Act) (d : Nat) (hs : t.structured = false)
    (hl : t.level = d) (hoff : t.on = false) (h : staysOffAll l = true) :
    (runAll t l).1.out = t.out := by
  rw [(text_levels l t d hs hl).1, hoff, say_off_all l d h]
  simp

/-- **C216**, in structured traces: messages are not written while it is off. -/
theorem off_messages_partial (t : Tr) (m : String) (hoff : t.on = false) :
    (runAll t [.msg m]).1.out = t.out := by
  simp [runAll, runOne, message, hoff]

/-! ## Concrete cases -/

/-- A scope which is thrown out of, in another one. -/
def sample : List Act :=
  [.msg "a", .scope (some "b") [.msg "c", .trace false [.msg "d", .scope (some "x") [] none],
    .scope none [.msg "e", .fail, .msg "f"] (some "g")] (some "h"), .msg "i"]

example : (runAll { on := true, structured := false } sample) =
    ({ on := true, structured := false,
       out := [.text 0 "a", .text 0 "b", .text 1 "c", .text 2 "e"] }, false) := by decide +kernel

example : (levelsAll true 0 sample).1 = [0, 0, 1, 1, 2, 1, 2, 2, 1] := by decide +kernel

example : (build (kinds (runAll { on := true, structured := true } sample).1.out)).recs.map (·.level)
    = [0, 0, 1, 1, 2, 1, 2, 2, 1] := by decide +kernel

example : (runAll { on := false, structured := false } [.scope (some "a") [.msg "b"] none]).1.out = [] :=
  off_partial _ _ 0 rfl rfl rfl (by decide +kernel)

end Verif.Tracer
