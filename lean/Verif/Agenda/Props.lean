import Verif.Agenda.Model
import Mathlib.Tactic.SplitIfs
import Mathlib.Data.List.Basic
import Mathlib.Data.List.Count
import Mathlib.Order.Nat

/-!
# The agenda

* **C204** `completion_counts`, `build_tasks`, `build_completion`, `build_pruned` – the tree of the agenda has all tasks, and no branch without one.
* **C205** `clock_own`, `clock_leaf_partial`, `clock_actual`, `clock_false` – clocked time.
* **C206** `age_zero`, `age_past`, `age_spec` – how old a task is.
* **C207** `unfinished_partial`, `shown_false`, `done_hidden_false`, `empty_hidden` – which rows are shown.
* **C208** `sorted_rows` – rows sorted by a column.
-/

namespace Verif.Agenda

/-! ## Specification: the tasks of a document and of a tree, in the order of the text -/

mutual
/-- The keywords of a node and all nodes below it. -/
def Node.todos : Node → List String
  | .mk todo _ children => todo :: todosAll children
def todosAll : List Node → List String
  | [] => []
  | n :: ns => n.todos ++ todosAll ns
end

mutual
/-- The keywords of a node of a document and all below it, where only nodes of the agenda are entered. -/
def Doc.todos : Doc → List String
  | .mk _ todo _ subs => todo :: docTodos subs
def docTodos : List Doc → List String
  | [] => []
  | .mk agenda todo clocks subs :: ds => (if agenda then Doc.todos (.mk agenda todo clocks subs) else []) ++ docTodos ds
end

/-- The tasks: nodes with a keyword. -/
def tasks (todos : List String) : List String := todos.filter (· ≠ "")

/-- The tasks that are completed. -/
def finished (todos : List String) : List String := (tasks todos).filter fun t => t = "DONE" ∨ t = "FAILED" ∨ t = "COMPLETED" ∨ t = "CANCELED"

mutual
/-- A node, and all nodes below it. -/
def Node.all : Node → List Node
  | .mk t c children => .mk t c children :: allOf children
def allOf : List Node → List Node
  | [] => []
  | n :: ns => n.all ++ allOf ns
end

/-! ## C204 -/

theorem mem_completed (t : String) : t ∈ completedSet ↔ (t = "DONE" ∨ t = "FAILED" ∨ t = "COMPLETED" ∨ t = "CANCELED") := by
  simp [completedSet]

theorem tasks_append (a b : List String) : tasks (a ++ b) = tasks a ++ tasks b := by simp [tasks]

theorem finished_append (a b : List String) : finished (a ++ b) = finished a ++ finished b := by simp [finished, tasks]

mutual
theorem completionAux_spec (acc : Nat × Nat) (n : Node) :
    completionAux acc n = (acc.1 + (finished n.todos).length, acc.2 + (tasks n.todos).length) := by
  match n with
  | .mk todo clocks children =>
    rw [completionAux, completionAll_spec, Node.todos]
    rw [show todo :: todosAll children = [todo] ++ todosAll children from rfl, tasks_append, finished_append, List.length_append, List.length_append]
    by_cases h : todo = ""
    · have h1 : tasks [todo] = [] := by simp [tasks, h]
      have h2 : finished [todo] = [] := by simp [finished, h1]
      rw [if_neg (by simp [h]), h1, h2]
      simp
    · have h1 : tasks [todo] = [todo] := by simp [tasks, h]
      by_cases hc : todo ∈ completedSet
      · have h2 : finished [todo] = [todo] := by
          rw [finished, h1, List.filter_cons_of_pos (by simpa using (mem_completed todo).mp hc), List.filter_nil]
        simp only [h1, h2, ne_eq, h, not_false_eq_true, if_true, hc, List.length_singleton]
        congr 1 <;> omega
      · have h2 : finished [todo] = [] := by
          rw [finished, h1, List.filter_cons_of_neg (by simpa using fun e => hc ((mem_completed todo).mpr e)), List.filter_nil]
        simp only [h1, h2, ne_eq, h, not_false_eq_true, if_true, hc, if_false, List.length_singleton, List.length_nil]
        congr 1 <;> omega
theorem completionAll_spec (acc : Nat × Nat) (ns : List Node) :
    completionAll acc ns = (acc.1 + (finished (todosAll ns)).length, acc.2 + (tasks (todosAll ns)).length) := by
  match ns with
  | [] => simp [completionAll, todosAll, finished, tasks]
  | n :: ns =>
    rw [completionAll, completionAux_spec, completionAll_spec, todosAll, tasks_append, finished_append, List.length_append, List.length_append]
    dsimp only
    congr 1 <;> omega
end

/-- **C204** The completion of a node is the number of completed tasks and the number of tasks at or below it. -/
theorem completion_counts (n : Node) : completion n = ((finished n.todos).length, (tasks n.todos).length) := by
  unfold completion
  rw [completionAux_spec]
  simp

mutual
theorem build_tasks_aux (d : Doc) : tasks (build d).todos = tasks d.todos := by
  match d with
  | .mk agenda todo clocks subs =>
    rw [build, Node.todos, Doc.todos]
    have e : ∀ l : List String, tasks (todo :: l) = tasks [todo] ++ tasks l := fun l => tasks_append [todo] l
    rw [e (todosAll _), e (docTodos _), buildAll_tasks subs]
theorem buildAll_tasks (ds : List Doc) : tasks (todosAll (buildAll ds)) = tasks (docTodos ds) := by
  match ds with
  | [] => simp [buildAll, todosAll, docTodos]
  | .mk agenda todo clocks subs :: ds =>
    rw [buildAll, docTodos, tasks_append]
    cases agenda with
    | false => simpa [tasks] using buildAll_tasks ds
    | true =>
      rw [if_pos rfl, if_pos rfl]
      dsimp only
      have hb := build_tasks_aux (.mk true todo clocks subs)
      rw [completion_counts]
      split_ifs with h
      · rw [todosAll, tasks_append, hb, buildAll_tasks ds]
      · have h0 : tasks (build (.mk true todo clocks subs)).todos = [] := List.eq_nil_of_length_eq_zero (Classical.not_not.mp h)
        rw [hb] at h0
        rw [h0, List.nil_append, buildAll_tasks ds]
end

/-- **C204** The tree has the tasks of the document, in their order. -/
theorem build_tasks (d : Doc) : tasks (build d).todos = tasks d.todos := build_tasks_aux d

/-- **C204** The completion of the tree is that of the document. -/
theorem build_completion (d : Doc) : completion (build d) = ((finished d.todos).length, (tasks d.todos).length) := by
  rw [completion_counts]
  unfold finished
  rw [build_tasks]

mutual
theorem build_pruned_aux (d : Doc) : ∀ n ∈ allOf (build d).children, tasks n.todos ≠ [] := by
  match d with
  | .mk agenda todo clocks subs =>
    rw [build, Node.children]
    exact buildAll_pruned subs
theorem buildAll_pruned (ds : List Doc) : ∀ n ∈ allOf (buildAll ds), tasks n.todos ≠ [] := by
  match ds with
  | [] => simp [buildAll, allOf]
  | .mk agenda todo clocks subs :: ds =>
    rw [buildAll]
    cases agenda with
    | false => simpa using buildAll_pruned ds
    | true =>
      rw [if_pos rfl]
      dsimp only
      have hb := build_pruned_aux (.mk true todo clocks subs)
      rw [completion_counts]
      split_ifs with h
      · rw [allOf]
        intro n hn
        rcases List.mem_append.mp hn with hn | hn
        · have e : ∀ m : Node, m.all = m :: allOf m.children := fun m => by cases m; rw [Node.all, Node.children]
          rw [e] at hn
          rcases List.mem_cons.mp hn with rfl | hn
          · intro h0
            rw [h0] at h
            exact h rfl
          · exact hb n hn
        · exact buildAll_pruned ds n hn
      · exact buildAll_pruned ds
end

/-- **C204** Each node below the root of the tree has a task at or below it. -/
theorem build_pruned (d : Doc) (n : Node) (h : n ∈ allOf (build d).children) : ∃ t ∈ n.todos, t ≠ "" := by
  have := build_pruned_aux d n h
  obtain ⟨t, ht⟩ := List.exists_mem_of_ne_nil _ this
  unfold tasks at ht
  rw [List.mem_filter] at ht
  exact ⟨t, ht.1, by simpa using ht.2⟩

/-- A file with a task that is done, a part without tasks, and a task with another one. -/
def sample : Doc := .mk true "" []
  [.mk true "DONE" [] [], .mk false "" [] [], .mk true "" [] [.mk true "" [] []], .mk true "" [(1, some 5)] [.mk true "TODO" [(10, some 17), (20, none)] []]]

example : (build sample).todos = ["", "DONE", "", "TODO"] ∧ completion (build sample) = (1, 2) := by decide +kernel

/-! ## C205 -/

/-- The periods of the entries which have an end, in their order. -/
def ended : List (Int × Option Int) → List (Int × Int)
  | [] => []
  | (a, some b) :: r => (a, b) :: ended r
  | (_, none) :: r => ended r

theorem closed_eq (clocks : List (Int × Option Int)) : closed clocks = ended clocks := by
  induction clocks with
  | nil => rfl
  | cons c r ih =>
    obtain ⟨a, _ | b⟩ := c
    · simpa [closed, ended] using ih
    · simpa [closed, ended] using ih

/-- The clock entries that are closed, of a node and all below it. -/
def allPeriods (n : Node) : List (Int × Int) := n.all.flatMap fun m => ended m.clocks

/-- The seconds of periods. -/
def total (ps : List (Int × Int)) : Int := (ps.map fun p => p.2 - p.1).sum

theorem foldl_total (ps : List (Int × Int)) (r : Int) : ps.foldl (fun r p => r + (p.2 - p.1)) r = r + total ps := by
  induction ps generalizing r with
  | nil => simp [total]
  | cons p ps ih =>
    rw [List.foldl_cons, ih]
    simp only [total, List.map_cons, List.sum_cons]
    omega

/-- **C205** Without the nodes below, the time is that of the closed entries of the node. -/
theorem clock_own (n : Node) : clockPeriods n false = ended n.clocks ∧ clockedSeconds n false = total (ended n.clocks) := by
  have h : clockPeriods n false = ended n.clocks := by
    cases n
    simp [clockPeriods, clockAux, Node.clocks, closed_eq]
  refine ⟨h, ?_⟩
  unfold clockedSeconds
  rw [foldl_total, h]
  omega

/-- **C205** With the nodes below, for a node without them.  Missing: nodes with others below. -/
theorem clock_leaf_partial (todo : String) (clocks : List (Int × Option Int)) :
    clockPeriods (.mk todo clocks []) true = allPeriods (.mk todo clocks []) := by
  simp [clockPeriods, clockAux, clockAll, allPeriods, Node.all, allOf, Node.clocks, closed_eq]

mutual
theorem clockAux_rep (data : List (Int × Option Int)) (n : Node) : clockAux data true n = n.all.flatMap fun _ => closed data := by
  match n with
  | .mk t c children => rw [clockAux, Node.all, List.flatMap_cons, if_pos rfl, clockAll_rep]
theorem clockAll_rep (data : List (Int × Option Int)) (ns : List Node) : clockAll data true ns = (allOf ns).flatMap fun _ => closed data := by
  match ns with
  | [] => rfl
  | n :: ns => rw [clockAll, allOf, List.flatMap_append, clockAux_rep, clockAll_rep]
end

theorem total_append (a b : List (Int × Int)) : total (a ++ b) = total a + total b := by simp [total]

theorem total_rep {β : Type} (l : List β) (ps : List (Int × Int)) : total (l.flatMap fun _ => ps) = l.length * total ps := by
  induction l with
  | nil => simp [total]
  | cons x l ih =>
    rw [List.flatMap_cons, total_append, ih, List.length_cons, Int.natCast_succ, Int.add_mul, Int.one_mul, Int.add_comm]

/-- **C205** What the time with the nodes below really is: that of the node, as often as there are nodes. -/
theorem clock_actual (n : Node) : clockedSeconds n true = n.all.length * total (ended n.clocks) := by
  rw [← closed_eq]
  unfold clockedSeconds
  rw [foldl_total]
  unfold clockPeriods
  rw [clockAux_rep, total_rep]
  omega

/-- The time with the nodes below is that of all of them. -/
def ClockStatement : Prop := ∀ n : Node, clockedSeconds n true = total (allPeriods n)

/-- **C205** False: the time of the nodes below is not counted, and that of the node once for each. -/
theorem clock_false : ¬ ClockStatement := by
  intro h
  have := h (.mk "" [(0, some 60)] [.mk "TODO" [] []])
  revert this
  decide +kernel

example : clockedSeconds (.mk "" [(0, some 60)] [.mk "TODO" [(0, some 5)] []]) false = 60 := by decide +kernel

/-! ## C206 -/

/-- The greatest unit that is at most a number of seconds. -/
def Greatest (u : String × Int) (s : Int) : Prop := u ∈ units ∧ u.2 ≤ s ∧ ∀ v ∈ units, v.2 ≤ s → v.2 ≤ u.2

theorem units_sorted : units.Pairwise fun a b => b.2 < a.2 := by decide
theorem units_pos : ∀ u ∈ units, 0 < u.2 := by decide
theorem units_one : ∃ u ∈ units, u.2 = 1 := ⟨("s", 1), by decide, rfl⟩

theorem parts_none (us : List (String × Int)) (s : Int) (k : Nat) (h : ∀ v ∈ us, s < v.2) : ageParts us s k = [] := by
  induction us with
  | nil => rfl
  | cons u us ih =>
    rw [ageParts, if_neg (by have := h u (by simp); omega)]
    exact ih fun v hv => h v (List.mem_cons_of_mem _ hv)

theorem parts_some (us : List (String × Int)) (hs : us.Pairwise fun a b => b.2 < a.2) (s : Int) (k : Nat) (h : ∃ v ∈ us, v.2 ≤ s) :
    ∃ u ∈ us, u.2 ≤ s ∧ (∀ v ∈ us, v.2 ≤ s → v.2 ≤ u.2) ∧ ∃ post, (∀ v ∈ us, v.2 < u.2 → v ∈ post) ∧ (∀ v ∈ post, v ∈ us) ∧ (post.Pairwise fun a b => b.2 < a.2) ∧
      ageParts us s k = (toString (s / u.2) ++ u.1) :: (if k ≤ 1 then [] else ageParts post (s % u.2) (k - 1)) := by
  induction us with
  | nil => obtain ⟨v, hv, _⟩ := h; simp at hv
  | cons u us ih =>
    rw [List.pairwise_cons] at hs
    by_cases hu : u.2 ≤ s
    · refine ⟨u, by simp, hu, ?_, us, ?_, fun v hv => List.mem_cons_of_mem _ hv, hs.2, by rw [ageParts, if_pos hu]⟩
      · intro v hv _
        rcases List.mem_cons.mp hv with rfl | hv
        · exact Int.le_refl _
        · exact Int.le_of_lt (hs.1 v hv)
      · intro v hv hl
        rcases List.mem_cons.mp hv with rfl | hv
        · omega
        · exact hv
    · obtain ⟨v, hv, hvs⟩ := h
      have hv' : v ∈ us := by
        rcases List.mem_cons.mp hv with rfl | hv
        · exact absurd hvs hu
        · exact hv
      obtain ⟨w, h1, h2, h3, post, h4, h5, h6, h7⟩ := ih hs.2 ⟨v, hv', hvs⟩
      refine ⟨w, List.mem_cons_of_mem _ h1, h2, ?_, post, ?_, fun v hv => List.mem_cons_of_mem _ (h5 v hv), h6, by rw [ageParts, if_neg hu, h7]⟩
      · intro x hx hxs
        rcases List.mem_cons.mp hx with rfl | hx
        · exact absurd hxs hu
        · exact h3 x hx hxs
      · intro x hx hl
        rcases List.mem_cons.mp hx with rfl | hx
        · have := hs.1 w h1; omega
        · exact h4 x hx hl

/-- **C206** Tasks of unknown age show nothing. -/
theorem age_zero : ageDisplay 0 = "" := rfl

/-- **C206** Tasks created in the future have no age. -/
theorem age_past (s : Int) (h : s < 0) : ageDisplay s = "0s" := by
  unfold ageDisplay
  rw [if_neg (by omega), parts_none units s 2 (fun v hv => by have := units_pos v hv; omega)]
  rfl

/-- **C206** The age is shown by the greatest unit that is in it, as often as it is; then the rest by the greatest unit that is in the rest, if there is a rest. -/
theorem age_spec (s : Int) (h : 0 < s) : ∃ u, Greatest u s ∧
    ((s % u.2 = 0 ∧ ageDisplay s = toString (s / u.2) ++ u.1) ∨
     ∃ v, Greatest v (s % u.2) ∧ ageDisplay s = toString (s / u.2) ++ u.1 ++ (toString (s % u.2 / v.2) ++ v.1)) := by
  obtain ⟨one, hone, e1⟩ := units_one
  obtain ⟨u, h1, h2, h3, post, h4, h5, h6, h7⟩ := parts_some units units_sorted s 2 ⟨one, hone, by omega⟩
  refine ⟨u, ⟨h1, h2, h3⟩, ?_⟩
  have hpos := units_pos u h1
  have hlt : s % u.2 < u.2 := Int.emod_lt_of_pos s hpos
  have hge : 0 ≤ s % u.2 := Int.emod_nonneg s (by omega)
  rw [if_neg (by omega)] at h7
  by_cases h0 : s % u.2 = 0
  · left
    refine ⟨h0, ?_⟩
    rw [parts_none post _ _ (fun v hv => by have := units_pos v (h5 v hv); omega)] at h7
    unfold ageDisplay
    rw [if_neg (by omega), h7]
    simp
  · right
    have hex : ∃ v ∈ post, v.2 ≤ s % u.2 := ⟨one, h4 one hone (by omega), by omega⟩
    obtain ⟨v, g1, g2, g3, post', _, _, _, g7⟩ := parts_some post h6 (s % u.2) (2 - 1) hex
    refine ⟨v, ⟨h5 v g1, g2, fun w hw hws => g3 w (h4 w hw (by omega)) hws⟩, ?_⟩
    rw [g7, if_pos (by omega)] at h7
    unfold ageDisplay
    rw [if_neg (by omega), h7]
    simp

example : ageDisplay (365 * 24 * 3600 + 3 * 3600 + 59) = "1y3h" ∧ ageDisplay 120 = "2m" := by decide +kernel

/-! ## C207 -/

/-- **C207** Without options, rows with a task that is not completed are shown in the tree.  Missing: rows without one. -/
theorem unfinished_partial (lower : String → String) (n : Node) (h : ∃ t ∈ n.todos, t ≠ "" ∧ t ∉ completedSet) :
    acceptTree lower ⟨false, false, false⟩ n = true := by
  obtain ⟨t, ht, hne, hnc⟩ := h
  have hlt : (finished n.todos).length < (tasks n.todos).length := by
    unfold finished
    refine List.length_filter_lt_length_iff_exists.mpr ⟨t, ?_, ?_⟩
    · unfold tasks
      rw [List.mem_filter]
      exact ⟨ht, by simpa using hne⟩
    · rw [mem_completed] at hnc
      simpa using hnc
  unfold acceptTree
  rw [completion_counts]
  simp
  omega

/-- Without options, all rows are shown. -/
def ShownStatement : Prop := ∀ (lower : String → String) (n : Node), acceptTree lower ⟨false, false, false⟩ n = true

/-- **C207** False: rows with completed tasks only are hidden in the tree, although nothing says so. -/
theorem shown_false : ¬ ShownStatement := by
  intro h
  have := h id (.mk "DONE" [] [])
  revert this
  decide +kernel

/-- With the option, tasks counted as completed are hidden in the list. -/
def DoneHiddenStatement : Prop := ∀ (n : Node), n.todo ∈ completedSet → acceptFlat String.toLower ⟨false, true, false⟩ n = false

/-- **C207** False: canceled tasks count as completed, but are shown. -/
theorem done_hidden_false : ¬ DoneHiddenStatement := by
  intro h
  have := h (.mk "CANCELED" [] []) (by decide)
  revert this
  decide +kernel

/-- **C207** With the option, rows without a keyword are hidden in the list, and others are not. -/
theorem empty_hidden (lower : String → String) (nested : Bool) (n : Node) : acceptFlat lower ⟨true, false, nested⟩ n = true ↔ n.todo ≠ "" := by
  unfold acceptFlat
  simp

example : ∃ t ∈ (build sample).todos, t ≠ "" ∧ t ∉ completedSet := ⟨"TODO", by decide +kernel, by decide, by decide⟩

/-! ## C208 -/

variable {K : Type} [LinearOrder K]

/-- What a sorted list of rows is: rows without a value are last, others ascending or descending. -/
def InOrder (ascending : Bool) (a b : Option K) : Prop :=
  match a, b with
  | none, some _ => False
  | some x, some y => if ascending then x ≤ y else y ≤ x
  | _, none => True

theorem up_iff (a b : Option K) : (!lessThan true b a) = true ↔ InOrder true a b := by
  cases a <;> cases b <;> simp [lessThan, InOrder]

theorem down_iff (a b : Option K) : (!lessThan false a b) = true ↔ InOrder false a b := by
  cases a <;> cases b <;> simp [lessThan, InOrder]

theorem order_trans (asc : Bool) (a b c : Option K) (h1 : InOrder asc a b) (h2 : InOrder asc b c) : InOrder asc a c := by
  cases a <;> cases b <;> cases c <;> cases asc <;> simp_all [InOrder] <;> first | exact le_trans h1 h2 | exact le_trans h2 h1

theorem order_total (asc : Bool) (a b : Option K) : InOrder asc a b ∨ InOrder asc b a := by
  cases a <;> cases b <;> cases asc <;> simp [InOrder, le_total]

/-- **C208** Rows sorted by a column are the same rows; rows without a value in it are the last ones, whether the order is ascending or descending, and the others are in order. -/
theorem sorted_rows (asc : Bool) (rows : List (Option K)) : (sortRows asc rows).Perm rows ∧ (sortRows asc rows).Pairwise (InOrder asc) := by
  unfold sortRows
  cases asc with
  | true =>
    rw [if_pos rfl]
    refine ⟨List.mergeSort_perm _ _, ?_⟩
    refine (List.pairwise_mergeSort ?_ ?_ rows).imp fun h => (up_iff _ _).mp h
    · intro a b c h1 h2
      rw [up_iff] at h1 h2 ⊢
      exact order_trans true a b c h1 h2
    · intro a b
      rw [Bool.or_eq_true, up_iff, up_iff]
      exact order_total true a b
  | false =>
    rw [if_neg (by simp)]
    refine ⟨List.mergeSort_perm _ _, ?_⟩
    refine (List.pairwise_mergeSort ?_ ?_ rows).imp fun h => (down_iff _ _).mp h
    · intro a b c h1 h2
      rw [down_iff] at h1 h2 ⊢
      exact order_trans false a b c h1 h2
    · intro a b
      rw [Bool.or_eq_true, down_iff, down_iff]
      exact order_total false a b

example : sortRows true [none, some (3 : Nat), some 1] = [some 1, some 3, none] ∧ sortRows false [none, some (1 : Nat), some 3] = [some 3, some 1, none] := by
  simp [sortRows, List.mergeSort, List.MergeSort.Internal.splitInTwo, List.merge, lessThan]

end Verif.Agenda
