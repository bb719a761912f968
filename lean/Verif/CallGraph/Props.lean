import Verif.CallGraph.Model

/-!
# Properties of graphs of calls (C224, C225)
-/

namespace Verif.CallGraph

/-! ## Specification -/

/-- The call of a function, if something calls it other than itself. -/
def callFn : Option String → String → List (String × String)
  | some q, n => if q ≠ n then [(q, n)] else []
  | none, _ => []

/-- The entry of a scope, if it is in something. -/
def callScope : Option String → String → List (String × String)
  | some q, n => [(q, n)]
  | none, _ => []

/-- The calls of a program, each with what calls it; a function which calls
itself is left out. -/
def calls : Option String → Prog → List (String × String)
  | _, .done => []
  | p, .fn n inner rest => callFn p n ++ (calls (some n) inner ++ calls p rest)
  | p, .scope n inner rest => callScope p n ++ (calls (some n) inner ++ calls p rest)
  | p, .jump _ rest => calls p rest

/-- The names of functions and scopes in a program. -/
def names : Prog → List String
  | .done => []
  | .fn n inner rest => n :: (names inner ++ names rest)
  | .scope n inner rest => n :: (names inner ++ names rest)
  | .jump _ rest => names rest

/-- There are no jumps in the program. -/
def NoJump : Prog → Prop
  | .done => True
  | .fn _ inner rest => NoJump inner ∧ NoJump rest
  | .scope _ inner rest => NoJump inner ∧ NoJump rest
  | .jump _ _ => False

/-! ## C224: numbers of calls -/

theorem stack_addSub (s : State) (p n : String) : (addSub s p n).stack = s.stack := by
  unfold addSub; split <;> rfl

theorem edges_addSub (s : State) (p n : String) : (addSub s p n).edges = s.edges := by
  unfold addSub; split <;> rfl

theorem pending_addSub (s : State) (p n : String) : (addSub s p n).pending = s.pending := by
  unfold addSub; split <;> rfl

/-- **C224** (stack): after a program the stack is the one before it. -/
theorem run_stack (c : Prog) (s : State) : (run s c).stack = s.stack := by
  induction c generalizing s with
  | done => rfl
  | fn n i r hi hr => simp [run, hr, leave, hi, startFn]
  | scope n i r hi hr => simp [run, hr, leave, hi, enterScope]
  | jump d r hr => simp [run, hr]

/-- `n` more calls on an edge. -/
def more (e : Option Edge) (n : Nat) : Option Edge :=
  match e with
  | some e => some ⟨e.desc, e.count + n⟩
  | none => if n = 0 then none else some ⟨"", n⟩

theorem more_more (e : Option Edge) (m n : Nat) : more (more e m) n = more e (m + n) := by
  cases e with
  | some e => simp [more, Nat.add_assoc]
  | none =>
    by_cases h : m = 0
    · simp [more, h]
    · simp [more, h]

/-- No descriptions in the state. -/
def Plain (s : State) : Prop := s.pending = "" ∧ ∀ a b e, s.edges a b = some e → e.desc = ""

theorem addEdge_plain {s : State} (h : Plain s) (p n a b : String) :
    (addEdge s p n).edges a b = more (s.edges a b) ([(p, n)].count (a, b)) := by
  by_cases hab : a = p ∧ b = n
  · obtain ⟨rfl, rfl⟩ := hab
    cases he : s.edges a b with
    | none => simp [addEdge, he, more, h.1]
    | some e => simp [addEdge, he, more, h.1, h.2 a b e he]
  · have : ((p, n) : String × String) ≠ (a, b) := by
      intro hc; cases hc; exact hab ⟨rfl, rfl⟩
    have h0 : [(p, n)].count (a, b) = 0 := by
      simp [List.count_cons, this]
    rw [h0]
    simp only [addEdge, hab, if_false]
    cases s.edges a b <;> simp [more]

theorem plain_of_more {s t : State} (h : Plain s) (hp : t.pending = "")
    (k : String → String → Nat) (he : ∀ a b, t.edges a b = more (s.edges a b) (k a b)) :
    Plain t := by
  refine ⟨hp, fun a b e hab => ?_⟩
  rw [he] at hab
  cases hs : s.edges a b with
  | none =>
    rw [hs] at hab
    by_cases h0 : k a b = 0 <;> simp [more, h0] at hab
    rw [← hab]
  | some e' =>
    rw [hs] at hab
    simp [more] at hab
    rw [← hab]; exact h.2 a b e' hs

theorem start_more {s : State} (h : Plain s) (n a b : String) :
    (startFn s n).pending = "" ∧ (startFn s n).edges a b = more (s.edges a b)
      ((callFn s.stack.head? n).count (a, b)) := by
  have zero : more (s.edges a b) 0 = s.edges a b := by cases s.edges a b <;> simp [more]
  cases hs : s.stack with
  | nil => simp [startFn, hs, h.1, zero, callFn]
  | cons p r =>
    by_cases hp : p = n
    · simp [startFn, hs, hp, h.1, zero, callFn]
    · have := addEdge_plain h p n a b
      simp only [startFn, hs, ne_eq, hp, not_false_eq_true, if_true, edges_addSub,
        pending_addSub, List.head?_cons, callFn, this]
      exact ⟨rfl, trivial⟩

theorem enter_more {s : State} (h : Plain s) (n a b : String) :
    (enterScope s n).pending = "" ∧ (enterScope s n).edges a b = more (s.edges a b)
      ((callScope s.stack.head? n).count (a, b)) := by
  have zero : more (s.edges a b) 0 = s.edges a b := by cases s.edges a b <;> simp [more]
  cases hs : s.stack with
  | nil => simp [enterScope, hs, h.1, zero, callScope]
  | cons p r =>
    have := addEdge_plain h p n a b
    simp only [enterScope, hs, List.head?_cons, callScope, this]
    exact ⟨rfl, trivial⟩

theorem run_more (c : Prog) (s : State) (h : Plain s) (hj : NoJump c) :
    (run s c).pending = "" ∧
    ∀ a b, (run s c).edges a b = more (s.edges a b) ((calls s.stack.head? c).count (a, b)) := by
  induction c generalizing s with
  | done =>
    refine ⟨h.1, fun a b => ?_⟩
    cases hs : s.edges a b <;> simp [run, calls, more, hs]
  | fn n i r hi hr =>
    have p1 : Plain (startFn s n) :=
      plain_of_more h (start_more h n "" "").1 _ (fun a b => (start_more h n a b).2)
    have h1 := hi _ p1 hj.1
    have p2 : Plain (leave (run (startFn s n) i)) := plain_of_more p1 h1.1 _ h1.2
    have h2 := hr _ p2 hj.2
    refine ⟨h2.1, fun a b => ?_⟩
    rw [run, h2.2 a b]
    have e1 : (leave (run (startFn s n) i)).stack = s.stack := by
      simp [leave, run_stack, startFn]
    have e2 : (startFn s n).stack.head? = some n := by simp [startFn]
    rw [e1, show (leave (run (startFn s n) i)).edges = (run (startFn s n) i).edges from rfl,
      h1.2 a b, e2, (start_more h n a b).2, more_more, more_more]
    congr 1
    simp [calls, List.count_append, Nat.add_assoc]
  | scope n i r hi hr =>
    have p1 : Plain (enterScope s n) :=
      plain_of_more h (enter_more h n "" "").1 _ (fun a b => (enter_more h n a b).2)
    have h1 := hi _ p1 hj.1
    have p2 : Plain (leave (run (enterScope s n) i)) := plain_of_more p1 h1.1 _ h1.2
    have h2 := hr _ p2 hj.2
    refine ⟨h2.1, fun a b => ?_⟩
    rw [run, h2.2 a b]
    have e1 : (leave (run (enterScope s n) i)).stack = s.stack := by
      simp [leave, run_stack, enterScope]
    have e2 : (enterScope s n).stack.head? = some n := by simp [enterScope]
    rw [e1, show (leave (run (enterScope s n) i)).edges = (run (enterScope s n) i).edges from rfl,
      h1.2 a b, e2, (enter_more h n a b).2, more_more, more_more]
    congr 1
    simp [calls, List.count_append, Nat.add_assoc]
  | jump d r hr => exact absurd hj (by simp [NoJump])

/-- The number on an edge of the graph is the number of calls, and there is no
edge without calls. -/
def CountStatement : Prop :=
  ∀ (c : Prog) (a b : String),
    ((run State.init c).edges a b).elim 0 Edge.count = (calls none c).count (a, b)

/-- **C224**, partial: without jumps the number on an edge is the number of calls
of the one by the other, and there is no edge without calls.  Missing: programs
with jumps. -/
theorem count_partial (c : Prog) (hj : NoJump c) (a b : String) :
    (run State.init c).edges a b =
      if (calls none c).count (a, b) = 0 then none
      else some ⟨"", (calls none c).count (a, b)⟩ := by
  have h : Plain State.init := ⟨rfl, fun _ _ _ h => by simp [State.init] at h⟩
  have := (run_more c State.init h hj).2 a b
  exact this

/-- **C224** is false with jumps: the calls with other descriptions before the
last are not counted. -/
theorem count_false : ¬ CountStatement := by
  intro h
  have := h (.fn "f" (.fn "g" .done (.jump "j" (.fn "g" .done .done))) .done) "f" "g"
  revert this; decide

/-- A function which calls another one twice. -/
example : (run State.init (.fn "f" (.fn "g" .done (.fn "g" .done .done)) .done)).edges "f" "g" =
    some ⟨"", 2⟩ := by
  rw [count_partial _ (by simp [NoJump])]; decide

/-! ## C225: nodes -/

theorem failed_addEdge (s : State) (a b : String) : (addEdge s a b).failed = s.failed := rfl

theorem nodes_addEdge (s : State) (a b : String) : (addEdge s a b).nodes = s.nodes := rfl

/-- What is on the stack has a node. -/
def Known (s : State) : Prop := s.failed = false ∧ ∀ p ∈ s.stack, s.nodes p ≠ none

theorem start_known {s : State} (h : Known s) (n : String) :
    Known (startFn s n) ∧ ∀ m, (startFn s n).nodes m ≠ none ↔ m = n ∨ s.nodes m ≠ none := by
  have key : ∀ m, (startFn s n).nodes m ≠ none ↔ m = n ∨ s.nodes m ≠ none := by
    intro m
    by_cases hm : m = n
    · simp [startFn, setNode, hm]
    · cases hs : s.stack with
      | nil => simp [startFn, setNode, hs, hm]
      | cons p r =>
        by_cases hp : p = n
        · simp [startFn, setNode, hs, hm, hp]
        · cases hq : s.nodes p with
          | none => exact absurd hq (h.2 p (by simp [hs]))
          | some i =>
            by_cases hmp : m = p
            · subst hmp
              simp [startFn, setNode, hs, hm, addSub, nodes_addEdge, hq]
            · simp [startFn, setNode, hs, hm, hp, addSub, nodes_addEdge, hq, hmp]
  refine ⟨⟨?_, ?_⟩, key⟩
  · cases hs : s.stack with
    | nil => simp [startFn, hs, h.1]
    | cons p r =>
      by_cases hp : p = n
      · simp [startFn, hs, hp, h.1]
      · cases hq : s.nodes p with
        | none => exact absurd hq (h.2 p (by simp [hs]))
        | some i => simp [startFn, hs, hp, addSub, nodes_addEdge, hq, failed_addEdge, h.1]
  · intro p hp
    have hp' : p = n ∨ p ∈ s.stack := by simpa [startFn] using hp
    rw [key p]
    rcases hp' with rfl | hp'
    · exact Or.inl rfl
    · exact Or.inr (h.2 p hp')

theorem enter_known {s : State} (h : Known s) (n : String) :
    Known (enterScope s n) ∧ ∀ m, (enterScope s n).nodes m ≠ none ↔ m = n ∨ s.nodes m ≠ none := by
  have key : ∀ m, (enterScope s n).nodes m ≠ none ↔ m = n ∨ s.nodes m ≠ none := by
    intro m
    by_cases hm : m = n
    · simp [enterScope, setNode, hm]
    · cases hs : s.stack <;> simp [enterScope, setNode, hs, hm, nodes_addEdge]
  refine ⟨⟨?_, ?_⟩, key⟩
  · cases hs : s.stack <;> simp [enterScope, hs, failed_addEdge, h.1]
  · intro p hp
    have hp' : p = n ∨ p ∈ s.stack := by simpa [enterScope] using hp
    rw [key p]
    rcases hp' with rfl | hp'
    · exact Or.inl rfl
    · exact Or.inr (h.2 p hp')

theorem leave_known {s : State} (h : Known s) : Known (leave s) :=
  ⟨h.1, fun p hp => h.2 p (List.mem_of_mem_drop hp)⟩

theorem run_known (c : Prog) (s : State) (h : Known s) :
    Known (run s c) ∧ ∀ m, (run s c).nodes m ≠ none ↔ m ∈ names c ∨ s.nodes m ≠ none := by
  induction c generalizing s with
  | done => exact ⟨h, fun m => by simp [run, names]⟩
  | fn n i r hi hr =>
    have h1 := start_known h n
    have h2 := hi _ h1.1
    have h3 := hr _ (leave_known h2.1)
    refine ⟨h3.1, fun m => ?_⟩
    rw [run, h3.2 m, show (leave (run (startFn s n) i)).nodes = (run (startFn s n) i).nodes from rfl,
      h2.2 m, h1.2 m]
    simp only [names, List.mem_cons, List.mem_append]
    constructor
    · rintro (a | a | a | a) <;> simp [a]
    · rintro ((a | a | a) | a) <;> simp [a]
  | scope n i r hi hr =>
    have h1 := enter_known h n
    have h2 := hi _ h1.1
    have h3 := hr _ (leave_known h2.1)
    refine ⟨h3.1, fun m => ?_⟩
    rw [run, h3.2 m, show (leave (run (enterScope s n) i)).nodes = (run (enterScope s n) i).nodes
      from rfl, h2.2 m, h1.2 m]
    simp only [names, List.mem_cons, List.mem_append]
    constructor
    · rintro (a | a | a | a) <;> simp [a]
    · rintro ((a | a | a) | a) <;> simp [a]
  | jump d r hr => exact hr _ h

/-- **C225** (nodes): the processor does not throw, and the graph has a node
exactly for the functions and scopes which were entered. -/
theorem shown_iff (c : Prog) :
    (run State.init c).failed = false ∧
    ∀ n, (run State.init c).nodes n ≠ none ↔ n ∈ names c := by
  have h := run_known c State.init ⟨rfl, fun _ hp => by simp [State.init] at hp⟩
  refine ⟨h.1.1, fun n => ?_⟩
  rw [h.2 n]; simp [State.init]

/-- The functions which are called directly by a part of a program. -/
def direct : Prog → List String
  | .done => []
  | .fn n _ rest => n :: direct rest
  | .scope _ _ rest => direct rest
  | .jump _ rest => direct rest

/-- A function which is called somewhere and calls others is a cluster with them
in it. -/
def ClusterStatement : Prop :=
  ∀ (f g : String) (inner rest : Prog), f ≠ g → g ∈ direct inner →
    ∃ i, (run State.init (.fn f inner rest)).nodes f = some i ∧ i.isCluster = true ∧ g ∈ i.subnodes

/-- **C225** is false: when a function is called again its cluster is lost. -/
theorem cluster_false : ¬ ClusterStatement := by
  intro h
  obtain ⟨i, h1, h2, _⟩ := h "f" "g" (.fn "g" .done .done) (.fn "f" .done .done) (by decide)
    (by simp [direct])
  have e : (run State.init (.fn "f" (.fn "g" .done .done) (.fn "f" .done .done))).nodes "f" =
    some ⟨false, false, []⟩ := by decide
  rw [e] at h1
  cases h1
  cases h2

theorem start_other {s : State} {f n : String} (hn : n ≠ f) (ht : s.stack.head? ≠ some f) :
    (startFn s n).nodes f = s.nodes f := by
  cases hs : s.stack with
  | nil => simp [startFn, hs, setNode, Ne.symm hn]
  | cons p r =>
    have hp : f ≠ p := by rintro rfl; simp [hs] at ht
    by_cases hpn : p = n
    · simp [startFn, hs, setNode, Ne.symm hn, hpn]
    · cases hq : s.nodes p <;>
        simp [startFn, hs, setNode, Ne.symm hn, hpn, addSub, nodes_addEdge, hq, hp]

theorem enter_other {s : State} {f n : String} (hn : n ≠ f) :
    (enterScope s n).nodes f = s.nodes f := by
  cases hs : s.stack <;> simp [enterScope, hs, setNode, Ne.symm hn, nodes_addEdge]

/-- A program without `f`, not called by `f`, leaves its node. -/
theorem run_other (c : Prog) (s : State) (f : String) (hf : f ∉ names c)
    (ht : s.stack.head? ≠ some f) : (run s c).nodes f = s.nodes f := by
  induction c generalizing s with
  | done => rfl
  | fn n i r hi hr =>
    simp only [names, List.mem_cons, List.mem_append, not_or] at hf
    have hn : n ≠ f := Ne.symm hf.1
    rw [run, hr _ hf.2.2 (by simpa [leave, run_stack, startFn] using ht)]
    show (run (startFn s n) i).nodes f = _
    rw [hi _ hf.2.1 (by simpa [startFn] using hn), start_other hn ht]
  | scope n i r hi hr =>
    simp only [names, List.mem_cons, List.mem_append, not_or] at hf
    have hn : n ≠ f := Ne.symm hf.1
    rw [run, hr _ hf.2.2 (by simpa [leave, run_stack, enterScope] using ht)]
    show (run (enterScope s n) i).nodes f = _
    rw [hi _ hf.2.1 (by simpa [enterScope] using hn), enter_other hn]
  | jump d r hr => exact hr _ hf ht

theorem start_top {s : State} {f n : String} {r : List String} {i : Node} (hn : n ≠ f)
    (ht : s.stack = f :: r) (hi : s.nodes f = some i) :
    (startFn s n).nodes f = some ⟨i.isScope, true, i.subnodes ++ [n]⟩ := by
  simp [startFn, ht, setNode, Ne.symm hn, addSub, nodes_addEdge, hi]

/-- What `f` calls is added to its cluster. -/
theorem run_top (c : Prog) (s : State) (f : String) (r : List String) (i : Node)
    (hf : f ∉ names c) (ht : s.stack = f :: r) (hi : s.nodes f = some i) :
    (run s c).nodes f =
      some ⟨i.isScope, i.isCluster || !(direct c).isEmpty, i.subnodes ++ direct c⟩ := by
  induction c generalizing s i with
  | done => simp [run, direct, hi]
  | fn n inner rest h1 h2 =>
    simp only [names, List.mem_cons, List.mem_append, not_or] at hf
    have hn : n ≠ f := Ne.symm hf.1
    have e : (leave (run (startFn s n) inner)).nodes f =
        some ⟨i.isScope, true, i.subnodes ++ [n]⟩ := by
      show (run (startFn s n) inner).nodes f = _
      rw [run_other inner _ f hf.2.1 (by simpa [startFn] using hn), start_top hn ht hi]
    rw [run, h2 _ _ hf.2.2 (by simpa [leave, run_stack, startFn] using ht) e]
    simp [direct]
  | scope n inner rest h1 h2 =>
    simp only [names, List.mem_cons, List.mem_append, not_or] at hf
    have hn : n ≠ f := Ne.symm hf.1
    have e : (leave (run (enterScope s n) inner)).nodes f = some i := by
      show (run (enterScope s n) inner).nodes f = _
      rw [run_other inner _ f hf.2.1 (by simpa [enterScope] using hn), enter_other hn, hi]
    rw [run, h2 _ _ hf.2.2 (by simpa [leave, run_stack, enterScope] using ht) e]
    simp [direct]
  | jump d rest h =>
    exact h _ i hf ht hi

/-- **C225**, partial: a function which is called once is a cluster, if it calls
functions, and these are in it, in the order of the calls.  Missing: functions
which are called again (`cluster_false`). -/
theorem cluster_partial (s : State) (f : String) (inner rest : Prog)
    (hi : f ∉ names inner) (hr : f ∉ names rest) (ht : s.stack.head? ≠ some f) :
    (run s (.fn f inner rest)).nodes f = some ⟨false, !(direct inner).isEmpty, direct inner⟩ := by
  rw [run, run_other rest _ f hr (by simpa [leave, run_stack, startFn] using ht)]
  show (run (startFn s f) inner).nodes f = _
  rw [run_top inner (startFn s f) f s.stack ⟨false, false, []⟩ hi rfl (by simp [startFn, setNode])]
  simp

/-- **C225**, partial: the same for a scope which is entered once; it is marked as
a scope. -/
theorem scope_partial (s : State) (f : String) (inner rest : Prog)
    (hi : f ∉ names inner) (hr : f ∉ names rest) (ht : s.stack.head? ≠ some f) :
    (run s (.scope f inner rest)).nodes f = some ⟨true, !(direct inner).isEmpty, direct inner⟩ := by
  rw [run, run_other rest _ f hr (by simpa [leave, run_stack, enterScope] using ht)]
  show (run (enterScope s f) inner).nodes f = _
  rw [run_top inner (enterScope s f) f s.stack ⟨true, false, []⟩ hi rfl
    (by simp [enterScope, setNode])]
  simp

/-- A function which calls two others is a cluster with both. -/
example : (run State.init (.fn "f" (.fn "g" .done (.fn "h" .done .done)) (.fn "g" .done .done))).nodes
    "f" = some ⟨false, true, ["g", "h"]⟩ := by
  rw [cluster_partial] <;> simp [names, direct, State.init]

/-- A scope in which a function is called. -/
example : (run State.init (.scope "s" (.fn "g" .done .done) .done)).nodes "s" =
    some ⟨true, true, ["g"]⟩ := by
  rw [scope_partial] <;> simp [names, direct, State.init]

end Verif.CallGraph
