import Verif.Explorer.Model

/-!
# Properties of the explorer (C217, C218)
-/

namespace Verif.Explorer

/-! ## Specification -/

mutual
/-- The files shown in a directory and all below it. -/
def Node.shown : Node → List (List Name × String)
  | .mk _ files nested => files ++ shownAll nested
def shownAll : List Node → List (List Name × String)
  | [] => []
  | n :: r => n.shown ++ shownAll r
end

mutual
/-- A directory and all below it. -/
def Node.all : Node → List Node
  | .mk rel files nested => .mk rel files nested :: allOf nested
def allOf : List Node → List Node
  | [] => []
  | n :: r => n.all ++ allOf r
end

/-- There is an org file at a path below a directory, in directories of which
none satisfies `hide`. -/
inductive At (hide : List Name → Prop) : List Name → List Entry → List Name → String → Prop where
  | file {rel es n c} : .file n c ∈ es → (∃ base, base ≠ [] ∧ n = base ++ ['.', 'o', 'r', 'g']) →
      At hide rel es (rel ++ [n]) c
  | dir {rel es n sub q c} : .dir n sub ∈ es → ¬ hide (rel ++ [n]) →
      At hide (rel ++ [n]) sub q c → At hide rel es q c

/-- A hidden directory: its name begins with a point. -/
def Hidden (rel : List Name) : Prop := ∃ n, rel.getLast? = some n ∧ n.head? = some '.'

/-! ## C217 -/

theorem isOrg_iff (n : Name) : isOrg n = true ↔ ∃ base, base ≠ [] ∧ n = base ++ ['.', 'o', 'r', 'g'] := by
  have e : ".org".toList = ['.', 'o', 'r', 'g'] := by decide +kernel
  unfold isOrg
  rw [e]
  simp only [Bool.and_eq_true, decide_eq_true_eq]
  constructor
  · rintro ⟨h1, h2⟩
    refine ⟨n.take (n.length - 4), ?_, ?_⟩
    · intro h
      have := congrArg List.length h
      simp at this
      omega
    · rw [← h2, List.take_append_drop]
  · rintro ⟨base, h1, rfl⟩
    have : 0 < base.length := List.length_pos_iff.2 h1
    simp
    omega

theorem mem_filesOf (rel : List Name) (es : List Entry) (q : List Name) (c : String) :
    (q, c) ∈ filesOf rel es ↔ ∃ n, .file n c ∈ es ∧ isOrg n = true ∧ q = rel ++ [n] := by
  unfold filesOf
  rw [List.mem_filterMap]
  constructor
  · rintro ⟨e, h1, h2⟩
    cases e with
    | file n d =>
      simp only at h2
      split at h2
      · cases h2
        exact ⟨n, h1, by assumption, rfl⟩
      · cases h2
    | _ => cases h2
  · rintro ⟨n, h1, h2, rfl⟩
    exact ⟨_, h1, by simp [h2]⟩

theorem at_iff (rel : List Name) (es : List Entry) (q : List Name) (c : String) :
    At (fun r => skipped r = true) rel es q c ↔
      (q, c) ∈ filesOf rel es ∨ ∃ n sub, .dir n sub ∈ es ∧ skipped (rel ++ [n]) = false ∧
        At (fun r => skipped r = true) (rel ++ [n]) sub q c := by
  rw [mem_filesOf]
  constructor
  · intro h
    cases h with
    | file a b => exact .inl ⟨_, a, (isOrg_iff _).2 b, rfl⟩
    | dir a b d => exact .inr ⟨_, _, a, by simpa using b, d⟩
  · rintro (⟨n, a, b, rfl⟩ | ⟨n, sub, a, b, d⟩)
    · exact .file a ((isOrg_iff _).1 b)
    · exact .dir a (by simp [b]) d

theorem shown_empty (x : Node) (h : x.empty = true) : x.shown = [] := by
  obtain ⟨rel, files, nested⟩ := x
  simp only [Node.empty, Bool.and_eq_true, List.isEmpty_iff] at h
  rw [h.1, h.2, Node.shown, shownAll]
  rfl

theorem shownAll_append (a b : List Node) : shownAll (a ++ b) = shownAll a ++ shownAll b := by
  induction a with
  | nil => simp [shownAll]
  | cons x a ih => simp [shownAll, ih]

theorem allOf_append (a b : List Node) : allOf (a ++ b) = allOf a ++ allOf b := by
  induction a with
  | nil => simp [allOf]
  | cons x a ih => simp [allOf, ih]

mutual
theorem shown_one (e : Entry) (rel q : List Name) (c : String) :
    (q, c) ∈ shownAll (nodeOf rel e).toList ↔
      ∃ n sub, e = .dir n sub ∧ skipped (rel ++ [n]) = false ∧
        At (fun r => skipped r = true) (rel ++ [n]) sub q c := by
  match e with
  | .file n d => simp [nodeOf, shownAll]
  | .other n => simp [nodeOf, shownAll]
  | .dir n sub =>
    have key : ∀ x : Node, shownAll (if x.empty = true then none else some x : Option Node).toList = x.shown := by
      intro x
      by_cases hx : x.empty = true
      · simp [hx, shownAll, shown_empty x hx]
      · simp [hx, shownAll]
    rw [nodeOf, key]
    cases hs : skipped (rel ++ [n])
    · simp only [Bool.false_eq_true, if_false, Node.shown, List.mem_append]
      rw [shown_all sub (rel ++ [n]) q c, ← at_iff]
      constructor
      · intro h; exact ⟨n, sub, rfl, hs, h⟩
      · rintro ⟨n', sub', h1, _, h3⟩
        cases h1
        exact h3
    · simp only [if_true, Node.shown, shownAll, List.append_nil, List.not_mem_nil, false_iff]
      rintro ⟨n', sub', h1, h2, _⟩
      cases h1
      rw [hs] at h2
      cases h2
theorem shown_all (es : List Entry) (rel q : List Name) (c : String) :
    (q, c) ∈ shownAll (nodesOf rel es) ↔
      ∃ n sub, .dir n sub ∈ es ∧ skipped (rel ++ [n]) = false ∧
        At (fun r => skipped r = true) (rel ++ [n]) sub q c := by
  match es with
  | [] => simp [nodesOf, shownAll]
  | e :: r =>
    rw [nodesOf, shownAll_append, List.mem_append, shown_one e rel q c, shown_all r rel q c]
    constructor
    · rintro (⟨n, sub, a, b⟩ | ⟨n, sub, a, b⟩)
      · exact ⟨n, sub, by simp [a], b⟩
      · exact ⟨n, sub, by simp [a], b⟩
    · rintro ⟨n, sub, a, b⟩
      rcases List.mem_cons.1 a with a | a
      · exact .inl ⟨n, sub, a.symm, b⟩
      · exact .inr ⟨n, sub, a, b⟩
end

/-- **C217**: what is shown: the org files with their contents, in directories of
which no relative path is skipped. -/
theorem shown_iff (es : List Entry) (q : List Name) (c : String) :
    (q, c) ∈ (fromRoot es).shown ↔ At (fun r => skipped r = true) [] es q c := by
  have : skipped [] = false := by decide +kernel
  unfold fromRoot
  rw [this]
  simp only [Bool.false_eq_true, if_false, Node.shown, List.mem_append]
  rw [shown_all, ← at_iff]

theorem text_head (n : Name) (r : List Name) (h : n ≠ []) : (text (n :: r)).head? = n.head? := by
  cases n with
  | nil => exact absurd rfl h
  | cons a n => cases r <;> simp [text]

/-- The paths that are skipped begin with a hidden directory. -/
theorem skipped_hidden (n : Name) (r : List Name) (h : n ≠ []) (hs : skipped (n :: r) = true) :
    n.head? = some '.' := by
  unfold skipped at hs
  rw [text_head n r h] at hs
  simp at hs
  exact hs.1

/-- **C217**: a hidden directory at the top with a name of three or more
characters is not loaded, and nothing below it is. -/
theorem hidden_partial (n : Name) (r : List Name) (h : n.head? = some '.') (hl : 2 < n.length) :
    skipped (n :: r) = true := by
  have hn : n ≠ [] := by rintro rfl; simp at h
  unfold skipped
  rw [text_head n r hn, h]
  have : n.length ≤ (text (n :: r)).length := by cases r <;> simp [text]
  simp
  omega

/-- Org files in directories that are not hidden are shown, and no others. -/
def HiddenStatement : Prop :=
  ∀ (es : List Entry) (q : List Name) (c : String), (q, c) ∈ (fromRoot es).shown ↔ At Hidden [] es q c

/-- **C217**: false, files of hidden directories below others are shown. -/
theorem hidden_false : ¬ HiddenStatement := by
  intro h
  have h1 := (h [.dir ['a'] [.dir ['.', 'g', 'i', 't'] [.file ['b', '.', 'o', 'r', 'g'] "x"]]]
    [['a'], ['.', 'g', 'i', 't'], ['b', '.', 'o', 'r', 'g']] "x").1 (by decide +kernel)
  cases h1 with
  | dir a b d =>
    simp at a
    obtain ⟨rfl, rfl⟩ := a
    cases d with
    | dir a b d =>
      simp at a
      obtain ⟨rfl, rfl⟩ := a
      exact b ⟨['.', 'g', 'i', 't'], by decide, by decide⟩

theorem at_top {es : List Entry} {rel q : List Name} {c : String} {n0 : Name}
    (hrel : ∃ r, rel = n0 :: r) (h0 : n0 ≠ []) (hd : n0.head? ≠ some '.')
    (h : At (fun _ => False) rel es q c) : At (fun r => skipped r = true) rel es q c := by
  induction h with
  | file a b => exact .file a b
  | @dir rel es n sub q c a b d ih =>
    obtain ⟨r, rfl⟩ := hrel
    refine .dir a (fun hs => ?_) (ih ⟨r ++ [n], by simp⟩)
    exact hd (skipped_hidden n0 (r ++ [n]) h0 (by simpa using hs))

theorem At.mono {hide hide' : List Name → Prop} (hm : ∀ r, hide' r → hide r) {rel q : List Name}
    {es : List Entry} {c : String} (h : At hide rel es q c) : At hide' rel es q c := by
  induction h with
  | file a b => exact .file a b
  | dir a b _ ih => exact .dir a (fun h => b (hm _ h)) ih

/-- **C217**: without hidden directories at the top all org files are shown, and
nothing else. -/
theorem all_shown_partial (es : List Entry)
    (h : ∀ n sub, .dir n sub ∈ es → n ≠ [] ∧ n.head? ≠ some '.') (q : List Name) (c : String) :
    (q, c) ∈ (fromRoot es).shown ↔ At (fun _ => False) [] es q c := by
  rw [shown_iff]
  constructor
  · exact fun hh => hh.mono fun _ h => h.elim
  · intro hh
    cases hh with
    | file a b => exact .file a b
    | dir a b d =>
      have hn := h _ _ a
      refine .dir a (fun hs => hn.2 (skipped_hidden _ [] hn.1 (by simpa using hs))) ?_
      exact at_top ⟨[], rfl⟩ hn.1 hn.2 d

mutual
theorem nonempty_one (e : Entry) (rel : List Name) :
    (∀ x ∈ (nodeOf rel e).toList, x.shown ≠ []) ∧ ∀ x ∈ allOf (nodeOf rel e).toList, x.shown ≠ [] := by
  match e with
  | .file n d => simp [nodeOf, allOf]
  | .other n => simp [nodeOf, allOf]
  | .dir n sub =>
    have ih := nonempty_all sub (rel ++ [n])
    have key : ∀ (files : List (List Name × String)) (nested : List Node),
        (∀ x ∈ nested, x.shown ≠ []) → (∀ x ∈ allOf nested, x.shown ≠ []) →
        (∀ x ∈ (if (Node.mk (rel ++ [n]) files nested).empty = true then none
          else some (Node.mk (rel ++ [n]) files nested) : Option Node).toList, x.shown ≠ []) ∧
        ∀ x ∈ allOf (if (Node.mk (rel ++ [n]) files nested).empty = true then none
          else some (Node.mk (rel ++ [n]) files nested) : Option Node).toList, x.shown ≠ [] := by
      intro files nested h1 h2
      by_cases hx : (Node.mk (rel ++ [n]) files nested).empty = true
      · simp [hx, allOf]
      · have hne : (Node.mk (rel ++ [n]) files nested).shown ≠ [] := by
          rw [Node.shown]
          intro hh
          rw [List.append_eq_nil_iff] at hh
          cases nested with
          | nil => exact hx (by simp [Node.empty, hh.1])
          | cons y ys =>
            have := hh.2
            rw [shownAll, List.append_eq_nil_iff] at this
            exact h1 y (by simp) this.1
        rw [if_neg hx]
        simp only [Option.toList_some, allOf, Node.all, List.append_nil, List.mem_cons]
        constructor
        · rintro x (rfl | hx)
          · exact hne
          · cases hx
        rintro x (rfl | hx)
        · exact hne
        · exact h2 x hx
    rw [nodeOf]
    cases hs : skipped (rel ++ [n])
    · exact key _ _ ih.1 ih.2
    · exact key _ _ (by simp) (by simp [allOf])
theorem nonempty_all (es : List Entry) (rel : List Name) :
    (∀ x ∈ nodesOf rel es, x.shown ≠ []) ∧ ∀ x ∈ allOf (nodesOf rel es), x.shown ≠ [] := by
  match es with
  | [] => simp [nodesOf, allOf]
  | e :: r =>
    have h1 := nonempty_one e rel
    have h2 := nonempty_all r rel
    rw [nodesOf, allOf_append]
    constructor
    · intro x hx
      rcases List.mem_append.1 hx with hx | hx
      · exact h1.1 x hx
      · exact h2.1 x hx
    · intro x hx
      rcases List.mem_append.1 hx with hx | hx
      · exact h1.2 x hx
      · exact h2.2 x hx
end

/-- **C217**: each directory shown below the root has a file at or below it. -/
theorem no_empty (es : List Entry) (rel : List Name) (files : List (List Name × String))
    (nested : List Node) (h : fromRoot es = .mk rel files nested) : ∀ x ∈ allOf nested, x.shown ≠ [] := by
  have : skipped [] = false := by decide +kernel
  unfold fromRoot at h
  rw [this] at h
  cases h
  exact (nonempty_all es []).2

/-! ## C218 -/

theorem states_calls (l : List (String × Nat × String)) (c : Ctx) : (calls c l).states = c.states := by
  induction l generalizing c with
  | nil => rfl
  | cons x l ih =>
    rw [calls, List.foldl_cons]
    rw [show List.foldl _ _ l = calls (getFileNode c x.1 x.2.1 x.2.2).1 l from rfl, ih]
    unfold getFileNode
    simp only
    split
    · split <;> rfl
    · rfl

theorem parser_calls (l : List (String × Nat × String)) (c : Ctx) : (calls c l).parser = c.parser := by
  induction l generalizing c with
  | nil => rfl
  | cons x l ih =>
    rw [calls, List.foldl_cons]
    rw [show List.foldl _ _ l = calls (getFileNode c x.1 x.2.1 x.2.2).1 l from rfl, ih]
    unfold getFileNode
    simp only
    split
    · split <;> rfl
    · rfl

/-- **C218**: whatever was read before, a file is shown with the content it has
when it is asked for, if there is a parser. -/
theorem current_partial (l : List (String × Nat × String)) (path : String) (modified : Nat) (content : String) :
    (getFileNode (calls {} l) path modified content).2 = some content := by
  have h1 : (calls {} l).states = [] := states_calls l {}
  have h2 : (calls {} l).parser = true := parser_calls l {}
  simp [getFileNode, hadChanges, h1, h2]

/-- The explorer shows a file with its content. -/
def ExplorerStatement : Prop :=
  ∀ (l : List (String × Nat × String)) (path : String) (modified : Nat) (content : String),
    (getFileNode (calls loopCtx l) path modified content).2 = some content

/-- **C218**: false, the explorer has no parser and fails at the first file. -/
theorem explorer_false : ¬ ExplorerStatement := by
  intro h
  have := h [] "a.org" 1 "x"
  revert this
  decide +kernel

/-- **C218**: it fails at every file. -/
theorem explorer_actual (l : List (String × Nat × String)) (path : String) (modified : Nat) (content : String) :
    (getFileNode (calls loopCtx l) path modified content).2 = none := by
  have h1 : (calls loopCtx l).states = [] := states_calls l loopCtx
  have h2 : (calls loopCtx l).parser = false := parser_calls l loopCtx
  simp [getFileNode, hadChanges, h1, h2]

/-- A file that was not changed since it was read is not parsed again. -/
def CachedStatement : Prop :=
  ∀ (l : List (String × Nat × String)) (path : String) (modified : Nat) (content : String),
    (path, modified, content) ∈ l →
    (getFileNode (calls {} l) path modified content).1.parsed = (calls {} l).parsed

/-- **C218**: false, the times of files are never kept. -/
theorem cached_false : ¬ CachedStatement := by
  intro h
  have := h [("a.org", 1, "x")] "a.org" 1 "x" (by simp)
  revert this
  decide +kernel

/-- What is true: each call parses the file. -/
theorem parsed_actual (l : List (String × Nat × String)) : (calls {} l).parsed = l.map (·.1) := by
  have key : ∀ c : Ctx, c.states = [] → c.parser = true → (calls c l).parsed = c.parsed ++ l.map (·.1) := by
    induction l with
    | nil => simp [calls]
    | cons x l ih =>
      intro c hc hp
      rw [calls, List.foldl_cons]
      rw [show List.foldl _ _ l = calls (getFileNode c x.1 x.2.1 x.2.2).1 l from rfl, ih]
      · simp [getFileNode, hadChanges, hc, hp]
      · simp [getFileNode, hadChanges, hc, hp]
      · simp [getFileNode, hadChanges, hc, hp]
  simpa using key {} rfl rfl

/-! ## Concrete cases -/

/-- A directory with files, one without, a hidden one. -/
def sample : List Entry :=
  [.dir ['d'] [.file "a.org".toList "1", .file "b.txt".toList "2", .dir ['e'] []],
   .dir ['f'] [.other ['g'], .file ".org".toList "3"], .dir ".git".toList [.file "c.org".toList "4"],
   .file "r.org".toList "5"]

example : (fromRoot sample).shown = [([['r', '.', 'o', 'r', 'g']], "5"), ([['d'], ['a', '.', 'o', 'r', 'g']], "1")] := by
  decide +kernel

example : (allOf (nodesOf [] sample)).length = 1 := by decide +kernel

example : At (fun r => skipped r = true) [] sample [['d'], "a.org".toList] "1" :=
  (shown_iff _ _ _).1 (by decide +kernel)

example : (getFileNode (calls {} [("a", 1, "x"), ("a", 2, "y")]) "a" 3 "z").2 = some "z" := by decide +kernel

end Verif.Explorer
