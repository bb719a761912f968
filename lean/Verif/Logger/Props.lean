import Verif.Logger.Model

/-!
# Properties of the log (C219-C221)
-/

namespace Verif.Logger

/-! ## C219: sinks -/

/-- The elements of a list, each where it is first. -/
def firsts : List Nat → List Nat
  | [] => []
  | x :: r => x :: (firsts r).filter (· ≠ x)

theorem foldl_add (l acc : List Nat) :
    l.foldl addSink acc = acc ++ (firsts l).filter (· ∉ acc) := by
  induction l generalizing acc with
  | nil => simp [firsts]
  | cons x r ih =>
    rw [List.foldl_cons, ih, firsts]
    unfold addSink
    by_cases hx : x ∈ acc
    · rw [if_pos hx, List.filter_cons_of_neg (by simpa using hx), List.filter_filter]
      congr 1
      refine List.filter_congr fun y _ => ?_
      by_cases hy : y ∈ acc
      · simp [hy]
      · have : y ≠ x := fun h => hy (h ▸ hx)
        simp [hy, this]
    · rw [if_neg hx, List.filter_cons_of_pos (by simpa using hx), List.filter_filter,
        List.append_assoc, List.singleton_append]
      congr 2
      refine List.filter_congr fun y _ => ?_
      by_cases hy : y ∈ acc <;> by_cases hyx : y = x <;> simp [hy, hyx]

theorem sync_core (stack : List Nat) : (sync stack).core = firsts stack.reverse := by
  rw [sync, foldl_add]; simp

theorem push_sync (stack : List Nat) (x : Nat) : push (sync stack) x = sync (x :: stack) := by
  simp [push, sync]

mutual
theorem run_sync_one (o : Op) (stack : List Nat) : ∃ st, (runOne (sync stack) o).1 = sync st := by
  match o with
  | .push x => exact ⟨_, by rw [runOne]; exact push_sync stack x⟩
  | .pop =>
    cases stack with
    | nil => exact ⟨[], rfl⟩
    | cons y r => exact ⟨r, rfl⟩
  | .clear => exact ⟨[], rfl⟩
  | .scope body => exact ⟨stack, rfl⟩
  | .fail => exact ⟨stack, rfl⟩
theorem run_sync_all (l : List Op) (stack : List Nat) : ∃ st, (runAll (sync stack) l).1 = sync st := by
  match l with
  | [] => exact ⟨stack, rfl⟩
  | o :: r =>
    obtain ⟨st, h⟩ := run_sync_one o stack
    rw [runAll]
    split
    · rw [h]; exact run_sync_all r st
    · exact ⟨st, h⟩
end

/-- **C219**: after any program the sinks which get the records are those on the
stack, in the order in which they were pushed, each once. -/
theorem sinks_current (l : List Op) :
    (runAll {} l).1.core = firsts (runAll {} l).1.stack.reverse := by
  obtain ⟨st, h⟩ := run_sync_all l []
  rw [show sync [] = {} from rfl] at h
  rw [h, sync_core]
  rfl

/-- **C219**: after a scope the sinks are those before it, whatever was done in
it, also if it was left with an exception. -/
theorem scope_restores (before body : List Op) (h : (runAll {} before).2 = true) :
    (runAll {} (before ++ [.scope body])).1 = (runAll {} before).1 := by
  have key : ∀ (l : List Op) (s : Sinks), (runAll s l).2 = true →
      (runAll s (l ++ [.scope body])).1 = sync (runAll s l).1.stack := by
    intro l
    induction l with
    | nil =>
      intro s _
      by_cases hb : (runAll s body).2 = true <;> simp [runAll, runOne, hb]
    | cons o r ih =>
      intro s hs
      rw [runAll] at hs
      rw [List.cons_append, runAll, runAll]
      by_cases ho : (runOne s o).2 = true
      · rw [if_pos ho] at hs
        rw [if_pos ho, if_pos ho]
        exact ih _ hs
      · rw [if_neg ho] at hs
        exact absurd hs ho
  rw [key before {} h]
  obtain ⟨st, hst⟩ := run_sync_all before []
  rw [show sync [] = {} from rfl] at hst
  rw [hst]
  rfl

/-- What is on the stack after operations that are not in scopes: the last sink
first. -/
def pushed : List Op → List Nat → List Nat
  | [], st => st
  | .push x :: r, st => pushed r (x :: st)
  | .pop :: r, st => pushed r st.tail
  | .clear :: r, _ => pushed r []
  | .scope _ :: r, st => pushed r st
  | .fail :: _, st => st

/-- A scope from which an exception comes ends the program. -/
def quiet : Op → Prop
  | .scope body => ∀ s, (runAll s body).2 = true
  | _ => True

/-- **C219**: pushes add a sink, pops take the last one that was pushed, clearing
takes all, and scopes take and add none. -/
theorem stack_of (l : List Op) (h : ∀ o ∈ l, quiet o) (s : Sinks) :
    (runAll s l).1.stack = pushed l s.stack := by
  induction l generalizing s with
  | nil => rfl
  | cons o r ih =>
    have ih := ih fun o ho => h o (by simp [ho])
    have ho := h o (by simp)
    rw [runAll]
    cases o with
    | push x => rw [if_pos (by rfl), ih]; rfl
    | pop =>
      rw [if_pos (by rfl), ih, pushed, runOne, Logger.pop]
      cases hs : s.stack <;> simp [sync, hs]
    | clear => rw [if_pos (by rfl), ih]; rfl
    | scope body => rw [if_pos (by rw [runOne]; exact ho s), ih]; rfl
    | fail => rw [if_neg (by simp [runOne])]; rfl

/-! ## C220: metadata -/

/-- A field that is set has the value, unless it is an exception. -/
def FieldStatement : Prop :=
  ∀ (m : Option Json) (k v : String) (m' : Option Json), setField m k v = some m' → field m' k = some v

/-- **C220**: false, the first field is lost. -/
theorem field_false : ¬ FieldStatement := by
  intro h
  have := h none "k" "v" (some (.object [])) rfl
  revert this
  decide +kernel

/-- **C220**: true for all fields but the first, and others stay. -/
theorem field_partial (m : Json) (k v : String) (m' : Option Json) (h : setField (some m) k v = some m') :
    field m' k = some v ∧ ∀ k', k' ≠ k → field m' k' = field (some m) k' := by
  cases m with
  | other => cases h
  | object fields =>
    simp only [setField, Option.some.injEq] at h
    subst h
    refine ⟨by simp [field], fun k' hk => ?_⟩
    simp only [field]
    rw [List.lookup_cons]
    have hk' : (k' == k) = false := by simpa using hk
    rw [hk']
    simp only
    induction fields with
    | nil => rfl
    | cons f fs ih =>
      obtain ⟨a, b⟩ := f
      by_cases ha : a = k
      · subst ha
        rw [List.filter_cons_of_neg (by simp), ih, List.lookup_cons, hk']
      · rw [List.filter_cons_of_pos (by simpa using ha), List.lookup_cons, List.lookup_cons, ih]

/-! ## C221: differences between runs -/

/-- The lines of a file with one of two marks, without the mark. -/
def marked (c : Char) (file : List Line) : List Line :=
  (file.filter fun l => l.take 2 = [' ', ' '] ∨ l.take 2 = [c, ' ']).map (·.drop 2)

/-- Both runs can be read from the file: lines with spaces are in both, those
with a minus in the one before, those with a plus in this one. -/
def DifferStatement : Prop :=
  ∀ prev curr : List (List Line),
    marked '-' (differ prev curr) = prev.flatten ∧ marked '+' (differ prev curr) = curr.flatten

/-- **C221**: false, a record with many lines which is in both has only one mark. -/
theorem differ_false : ¬ DifferStatement := by
  intro h
  have := (h [[['a'], ['b']]] [[['a'], ['b']]]).1
  revert this
  decide +kernel

theorem marked_append (c : Char) (a b : List Line) : marked c (a ++ b) = marked c a ++ marked c b := by
  simp [marked]

theorem marked_prefixed (c d : Char) (hd : d ≠ ' ') (r : List Line) :
    marked c (prefixed d r) = if c = d then r else [] := by
  induction r with
  | nil => simp [marked, prefixed]
  | cons l r ih =>
    have : prefixed d (l :: r) = [[d, ' '] ++ l] ++ prefixed d r := rfl
    rw [this, marked_append, ih]
    by_cases h : c = d
    · subst h; simp [marked]
    · have h' : ¬ d = c := fun e => h e.symm
      simp [marked, h, h', hd]

/-- **C221**, for records of one line: both runs can be read from the file, of
any lengths.  Missing: records of many lines. -/
theorem differ_partial (prev curr : List (List Line)) (hp : ∀ r ∈ prev, ∃ l, r = [l])
    (hc : ∀ r ∈ curr, ∃ l, r = [l]) :
    marked '-' (differ prev curr) = prev.flatten ∧ marked '+' (differ prev curr) = curr.flatten := by
  have m1 := marked_prefixed '-' '-' (by decide)
  have m2 := marked_prefixed '-' '+' (by decide)
  have m3 := marked_prefixed '+' '-' (by decide)
  have m4 := marked_prefixed '+' '+' (by decide)
  simp only [if_true, Char.reduceEq, if_false] at m1 m2 m3 m4
  induction prev generalizing curr with
  | nil =>
    rw [differ]
    clear hp hc
    induction curr with
    | nil => exact ⟨rfl, rfl⟩
    | cons c cs ih =>
      rw [List.flatMap_cons, marked_append, marked_append, ih.1, ih.2, m2, m4]
      simp
  | cons p ps ih =>
    cases curr with
    | nil =>
      have ih := ih [] (fun r hr => hp r (by simp [hr])) (by simp)
      rw [differ, marked_append, marked_append, ih.1, ih.2, m1, m3]
      simp
    | cons c cs =>
      have ih := ih cs (fun r hr => hp r (by simp [hr])) (fun r hr => hc r (by simp [hr]))
      rw [differ, marked_append, marked_append, ih.1, ih.2]
      by_cases h : p = c
      · obtain ⟨l, rfl⟩ := hc c (by simp)
        subst h
        simp [same, marked]
      · simp [h, marked_append, m1, m2, m3, m4]

/-! ## Concrete cases -/

example : (runAll {} [.push 1, .push 2, .scope [.pop, .pop], .pop, .push 3]).1.stack = [3, 1] :=
  stack_of [.push 1, .push 2, .scope [.pop, .pop], .pop, .push 3]
    (by simp [quiet, runAll, runOne]) {}

example : (runAll {} [.push 1, .push 2, .push 1, .scope [.clear, .push 3, .fail]]).1 =
    { stack := [1, 2, 1], core := [1, 2] } := by decide +kernel

example : (runAll {} [.push 1, .push 2, .pop, .push 3]).1.core = [1, 3] := by decide +kernel

example : setField (some (.object [("a", "1")])) "b" "2" = some (some (.object [("b", "2"), ("a", "1")])) := by
  decide +kernel

example : differ [[['a']], [['b']]] [[['a']], [['c']], [['d']]] =
    [[' ', ' ', 'a'], ['-', ' ', 'b'], ['+', ' ', 'c'], ['+', ' ', 'd']] := by decide +kernel

end Verif.Logger
