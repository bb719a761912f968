import Verif.Dir.Props

/-!
# Links and includes of parsed documents
-/

namespace Verif.Dir

/-! ## Links are resolved once, from the directory of their document -/

/-- the node a link gets for the file it refers to -/
def target (fs : FS) (file root : Path) (i : Info) : List Node :=
  match i with
  | .link (some t) =>
    match resolvePath fs (parent file) t with
    | .ok (some full) => [.mk (.file (fs.relative full root) full) [] []]
    | _ => []
  | _ => []

mutual
/-- a document with a `File` node added to each link that refers to an existing file -/
def resolved (fs : FS) (file root : Path) : Node → Node
  | .mk i s f => .mk i (resolvedAll fs file root s ++ target fs file root i) (resolvedAll fs file root f)
/-- the same for a list of nodes -/
def resolvedAll (fs : FS) (file root : Path) : List Node → List Node
  | [] => []
  | x :: xs => resolved fs file root x :: resolvedAll fs file root xs
end

/-- no includes in a tree -/
def NoIncl (nd : Node) : Prop := ∀ x ∈ nodes nd, ∀ p k, x.info ≠ .incl p k

theorem noIncl_mk {i : Info} {s f : List Node} :
    NoIncl (.mk i s f) ↔ (∀ p k, i ≠ .incl p k) ∧ (∀ x ∈ s, NoIncl x) ∧ (∀ x ∈ f, NoIncl x) := by
  unfold NoIncl
  simp only [nodes, List.mem_cons, List.mem_append, mem_nodesAll]
  constructor
  · intro h
    refine ⟨fun p k => h _ (.inl rfl) p k, fun x hx y hy => h y (.inr (.inl ⟨x, hx, hy⟩)),
      fun x hx y hy => h y (.inr (.inr ⟨x, hx, hy⟩))⟩
  · rintro ⟨h1, h2, h3⟩ x (rfl | ⟨y, hy, hx⟩ | ⟨y, hy, hx⟩)
    · exact h1
    · exact h2 y hy x hx
    · exact h3 y hy x hx

theorem visit_leaf {fs : FS} {n : Nat} {file root rel abs : Path} {st : St} {r : List Node} {st' : St}
    (h : visitAll fs n file root [.mk (.file rel abs) [] []] st = .ok (r, st')) :
    r = [.mk (.file rel abs) [] []] ∧ st' = st := by
  match n with
  | 0 => rw [visitAll] at h; cases h
  | 1 => rw [visitAll, visit] at h; cases h
  | 2 =>
    rw [visitAll, visit] at h
    simp [Node.info, visitAll] at h
  | n + 3 =>
    rw [visitAll, visit] at h
    simp [Node.info, Node.subs, Node.fields, visitAll] at h
    exact ⟨h.1.symm, h.2.symm⟩

theorem visitAll_append {fs : FS} {n : Nat} {file root : Path} {a b : List Node} {st : St} {r : List Node} {st' : St}
    (h : visitAll fs n file root (a ++ b) st = .ok (r, st')) :
    ∃ r1 r2 st1 m, m ≤ n ∧ visitAll fs n file root a st = .ok (r1, st1) ∧
      visitAll fs m file root b st1 = .ok (r2, st') ∧ r = r1 ++ r2 := by
  induction a generalizing n st r with
  | nil =>
    match n with
    | 0 => rw [visitAll] at h; cases h
    | n + 1 => exact ⟨[], r, st, n + 1, Nat.le_refl _, by rw [visitAll], h, rfl⟩
  | cons x xs ih =>
    match n with
    | 0 => rw [visitAll] at h; cases h
    | n + 1 =>
      rw [List.cons_append, visitAll] at h
      split at h
      · cases h
      · rename_i y st1 hy
        split at h
        · cases h
        · rename_i ys st2 hys
          injection h with h; injection h with h1 h2; subst h1 h2
          obtain ⟨r1, r2, st3, m, hm, e1, e2, e3⟩ := ih hys
          refine ⟨y :: r1, r2, st3, m, by omega, ?_, e2, by rw [e3]; rfl⟩
          rw [visitAll, hy]
          dsimp only
          rw [e1]

theorem visit_noIncl {fs : FS} (n : Nat) :
    (∀ file root nd st r st', NoIncl nd → visit fs n file root nd st = .ok (r, st') →
      r = resolved fs file root nd ∧ st' = st) ∧
    (∀ file root nds st r st', (∀ x ∈ nds, NoIncl x) → visitAll fs n file root nds st = .ok (r, st') →
      r = resolvedAll fs file root nds ∧ st' = st) := by
  induction n using Nat.strongRecOn with
  | _ n ih =>
  match n with
  | 0 =>
    refine ⟨?_, ?_⟩
    · intro _ _ _ _ _ _ _ h; rw [visit] at h; cases h
    · intro _ _ _ _ _ _ _ h; rw [visitAll] at h; cases h
  | n + 1 =>
    obtain ⟨ihV, ihL⟩ := ih n (Nat.lt_succ_self n)
    refine ⟨?_, ?_⟩
    · intro file root nd st r st' hn h
      obtain ⟨i, s, f⟩ := nd
      rw [noIncl_mk] at hn
      -- the visit after the callback
      have fin : ∀ t, visit fs (n + 1) file root (.mk i s f) st = (match visitAll fs n file root (s ++ t) st with
            | .error e => .error e
            | .ok (subs, st) =>
              match visitAll fs n file root f st with
              | .error e => .error e
              | .ok (fields, st) => .ok (.mk i subs fields, st)) →
          t = target fs file root i → r = resolved fs file root (.mk i s f) ∧ st' = st := by
        intro t ht htt
        rw [ht] at h
        split at h
        · cases h
        · rename_i subs st1 h1
          split at h
          · cases h
          · rename_i fields st2 h2
            injection h with h; injection h with h3 h4; subst h3 h4
            obtain ⟨r1, r2, st3, m, hm, e1, e2, e3⟩ := visitAll_append h1
            obtain ⟨q1, q2⟩ := ihL _ _ _ _ _ _ hn.2.1 e1
            have ht2 : r2 = t ∧ st1 = st3 := by
              rw [htt] at e2 ⊢
              unfold target at e2 ⊢
              split at e2
              · split at e2
                · exact visit_leaf e2
                · match m with
                  | 0 => rw [visitAll] at e2; cases e2
                  | m + 1 =>
                    rw [visitAll] at e2
                    injection e2 with e2; injection e2 with e4 e5; exact ⟨e4.symm, e5.symm⟩
              · match m with
                | 0 => rw [visitAll] at e2; cases e2
                | m + 1 =>
                  rw [visitAll] at e2
                  injection e2 with e2; injection e2 with e4 e5; exact ⟨e4.symm, e5.symm⟩
            obtain ⟨q3, q4⟩ := ihL _ _ _ _ _ _ hn.2.2 h2
            subst q2
            rw [resolved, e3, q1, q3, ht2.1, q4, ht2.2, htt]
            exact ⟨rfl, rfl⟩
      cases i with
      | incl p k => exact absurd rfl (hn.1 p k)
      | link t =>
        rcases ht : linkStep fs file root (.mk (.link t) s f) t with e | nd1
        · rw [visit] at h
          simp only [Node.info, ht] at h
          cases h
        · unfold linkStep at ht
          split at ht
          · injection ht with ht; subst ht
            apply fin []
            · rw [visit]; simp [Node.info, Node.subs, Node.fields, linkStep]; rfl
            · rfl
          · rename_i t
            split at ht
            · cases ht
            · rename_i hr
              injection ht with ht; subst ht
              apply fin []
              · rw [visit]; simp [Node.info, Node.subs, Node.fields, linkStep, hr]; rfl
              · simp [target, hr]
            · rename_i full hr
              injection ht with ht; subst ht
              apply fin [.mk (.file (fs.relative full root) full) [] []]
              · rw [visit]; simp [Node.info, Node.subs, Node.fields, Node.push, linkStep, hr]; rfl
              · simp [target, hr]
      | _ =>
        apply fin []
        · rw [visit]; simp [Node.info, Node.subs, Node.fields]; rfl
        · rfl
    · intro file root nds st r st' hn h
      cases nds with
      | nil =>
        rw [visitAll] at h
        injection h with h; injection h with h2 h3; subst h2 h3
        exact ⟨rfl, rfl⟩
      | cons x xs =>
        rw [visitAll] at h
        split at h
        · cases h
        · rename_i r1 st1 h1
          split at h
          · cases h
          · rename_i r2 st2 h2
            injection h with h; injection h with h3 h4; subst h3 h4
            obtain ⟨a1, a2⟩ := ihV _ _ _ _ _ _ (hn _ List.mem_cons_self) h1
            obtain ⟨b1, b2⟩ := ihL _ _ _ _ _ _ (fun y hy => hn y (List.mem_cons_of_mem _ hy)) h2
            rw [a1, b1, b2, a2]
            exact ⟨rfl, rfl⟩

/-- every `File` node with content in a tree holds the document of its path with the links resolved -/
def Resolved (fs : FS) (nd : Node) : Prop :=
  ∀ x ∈ nodes nd, ∀ rel p, x.info = .file rel p → x.subs ≠ [] →
    ∃ d root, fs.parse p = some (some d) ∧ x.subs = [resolved fs p root d]

mutual
theorem plain_nodes (nd : Node) (h : files nd = []) :
    ∀ x ∈ nodes nd, ∀ rel p, x.info = .file rel p → x.subs = [] := by
  cases nd with
  | mk i s f =>
    rw [files_mk, List.append_eq_nil_iff, List.append_eq_nil_iff] at h
    intro x hx rel p hi
    rw [nodes, List.mem_cons, List.mem_append] at hx
    rcases hx with rfl | hx | hx
    · simp only [Node.info] at hi
      subst hi
      have := h.1
      simp only [own] at this
      by_cases hs : s.isEmpty = true
      · simpa [Node.subs] using hs
      · rw [if_neg hs] at this; cases this
    · exact plain_nodesAll s h.2.1 x hx rel p hi
    · exact plain_nodesAll f h.2.2 x hx rel p hi
theorem plain_nodesAll (l : List Node) (h : filesAll l = []) :
    ∀ x ∈ nodesAll l, ∀ rel p, x.info = .file rel p → x.subs = [] := by
  cases l with
  | nil => intro x hx; cases hx
  | cons y ys =>
    rw [filesAll, List.append_eq_nil_iff] at h
    intro x hx rel p hi
    rw [nodesAll, List.mem_append] at hx
    rcases hx with hx | hx
    · exact plain_nodes y h.1 x hx rel p hi
    · exact plain_nodesAll ys h.2 x hx rel p hi
end

mutual
theorem files_resolved (fs : FS) (file root : Path) (nd : Node) (h : files nd = []) :
    files (resolved fs file root nd) = [] := by
  cases nd with
  | mk i s f =>
    rw [files_mk, List.append_eq_nil_iff, List.append_eq_nil_iff] at h
    rw [resolved, files_mk, filesAll_append, filesAll_resolved fs file root s h.2.1,
      filesAll_resolved fs file root f h.2.2]
    have ht : filesAll (target fs file root i) = [] := by
      unfold target
      split
      · split <;> simp [filesAll, files_mk, own]
      · rfl
    rw [ht]
    have ho : own i (resolvedAll fs file root s ++ target fs file root i) = [] := by
      cases i with
      | file rel abs =>
        have := h.1
        simp only [own] at this
        cases s with
        | nil => simp [own, resolvedAll, target]
        | cons x xs => simp at this
      | _ => rfl
    rw [ho]
    rfl
theorem filesAll_resolved (fs : FS) (file root : Path) (l : List Node) (h : filesAll l = []) :
    filesAll (resolvedAll fs file root l) = [] := by
  cases l with
  | nil => rfl
  | cons y ys =>
    rw [filesAll, List.append_eq_nil_iff] at h
    rw [resolvedAll, filesAll, files_resolved fs file root y h.1, filesAll_resolved fs file root ys h.2]
    rfl
end

theorem resolved_mk {fs : FS} {i : Info} {s : List Node} (hi : ∀ rel p, i ≠ .file rel p)
    (hs : ∀ x ∈ s, Resolved fs x) : Resolved fs (.mk i s []) := by
  intro x hx rel p hinfo hne
  simp only [nodes, nodesAll, List.mem_cons, List.append_nil, mem_nodesAll] at hx
  rcases hx with rfl | ⟨y, hy, hx⟩
  · exact absurd hinfo (hi rel p)
  · exact hs y hy x hx rel p hinfo hne

theorem resolves {fs : FS} (hpl : ∀ p d, fs.parse p = some (some d) → files d = [] ∧ NoIncl d) (n : Nat) :
    (∀ path root st r st', parsePath fs n path root st = .ok (r, st') → ∀ t ∈ r.toList, Resolved fs t) ∧
    (∀ es root st r st', parseAll fs n es root st = .ok (r, st') → ∀ t ∈ r, Resolved fs t) ∧
    (∀ path root st r st', parseFile fs n path root st = .ok (r, st') → ∀ t ∈ r.toList, Resolved fs t) := by
  induction n with
  | zero =>
    refine ⟨?_, ?_, ?_⟩
    · intro _ _ _ _ _ h; rw [parsePath] at h; cases h
    · intro _ _ _ _ _ h; rw [parseAll] at h; cases h
    · intro _ _ _ _ _ h; rw [parseFile] at h; cases h
  | succ n ih =>
    obtain ⟨ihP, ihA, ihF⟩ := ih
    refine ⟨?_, ?_, ?_⟩
    · intro path root st r st' h
      rw [parsePath] at h
      split at h
      · injection h with h; injection h with h1 h2; subst h1 h2; simp
      · dsimp only at h
        split at h
        · injection h with h; injection h with h1 h2; subst h1 h2; simp
        · split at h
          · split at h
            · split at h
              · cases h
              · rename_i h1
                injection h with h; injection h with h2 h3; subst h2 h3
                simpa using resolved_mk (by simp) (ihP _ _ _ _ _ h1)
            · split at h
              · split at h
                · cases h
                · rename_i h1
                  injection h with h; injection h with h2 h3; subst h2 h3
                  simpa using resolved_mk (by simp) (ihP _ _ _ _ _ h1)
              · injection h with h; injection h with h1 h2; subst h1 h2; simp
          · split at h
            · split at h
              · cases h
              · rename_i h1
                injection h with h; injection h with h2 h3; subst h2 h3
                simpa using resolved_mk (by simp) (ihA _ _ _ _ _ h1)
            · split at h
              · split at h
                · exact ihF _ _ _ _ _ h
                · injection h with h; injection h with h1 h2; subst h1 h2; simp
              · injection h with h; injection h with h1 h2; subst h1 h2; simp
    · intro es root st r st' h
      cases es with
      | nil =>
        rw [parseAll] at h
        injection h with h; injection h with h2 h3; subst h2 h3
        simp
      | cons e es =>
        rw [parseAll] at h
        split at h
        · cases h
        · rename_i r1 st1 h1
          split at h
          · cases h
          · rename_i r2 st2 h2
            injection h with h; injection h with h3 h4; subst h3 h4
            intro x hx
            rcases List.mem_append.1 hx with hx | hx
            · exact ihP _ _ _ _ _ h1 x hx
            · exact ihA _ _ _ _ _ h2 x hx
    · intro path root st r st' h
      rw [parseFile] at h
      split at h
      · cases h
      · split at h
        · cases h
        · injection h with h; injection h with h2 h3; subst h2 h3
          simp
        · rename_i d hp
          dsimp only at h
          split at h
          · cases h
          · rename_i d1 st1 h1
            injection h with h; injection h with h2 h3; subst h2 h3
            obtain ⟨hf, hni⟩ := hpl _ _ hp
            obtain ⟨e1, _⟩ := (visit_noIncl n).1 _ _ _ _ _ _ hni h1
            subst e1
            intro t ht
            simp only [Option.toList, List.mem_singleton] at ht
            subst ht
            intro x hx rel p hinfo hne
            simp only [nodes, nodesAll, List.append_nil, List.mem_cons] at hx
            rcases hx with rfl | hx
            · simp only [Node.info, Info.file.injEq] at hinfo
              obtain ⟨_, rfl⟩ := hinfo
              exact ⟨d, root, hp, rfl⟩
            · exact absurd (plain_nodes _ (files_resolved fs path root d hf) x hx rel p hinfo) hne

/-- the file a node stands for -/
def fileOf (x : Node) : Option Path := match x.info with | .file _ abs => some abs | _ => none

/-- a link gets at most one `File` node -/
def linkOnceStatement : Prop :=
  ∀ (fs : FS) (n : Nat) (root : Path) (t : Node) (st : St),
    (∀ p d, fs.parse p = some (some d) → ∀ x ∈ nodes d, ∀ rel abs, x.info ≠ .file rel abs) →
    parseDirectory fs n root = .ok (some t, st) →
    ∀ x ∈ nodes t, ∀ tg, x.info = .link tg → (x.subs.filterMap fileOf).length ≤ 1

/-- `/d/a.org` includes `/d/s/b.org`, which links to `c.txt`; there are two files of that name -/
def fsLinks : FS :=
  mkFS [("/d".toList, ["/d/a.org".toList]), ("/d/s".toList, [])] []
    [("/d/a.org".toList, doc [inc "s/b.org"]), ("/d/s/b.org".toList, doc [lnk "c.txt"]),
      ("/d/c.txt".toList, none), ("/d/s/c.txt".toList, none)]

/-- what a link got -/
def got (i : Info) (s : List Node) : List (List Path) :=
  match i with
  | .link _ => [s.filterMap fileOf]
  | _ => []

mutual
/-- what the links of a tree got -/
def gots : Node → List (List Path)
  | .mk i s f => got i s ++ (gotsAll s ++ gotsAll f)
/-- the same for a list of trees -/
def gotsAll : List Node → List (List Path)
  | [] => []
  | x :: xs => gots x ++ gotsAll xs
end

/-- what the links of a result got -/
def gotsOf (r : Except Err (Option Node × St)) : List (List Path) :=
  match r with
  | .ok (some t, _) => gots t
  | _ => []

mutual
theorem gots_short (nd : Node) (h : ∀ x ∈ nodes nd, ∀ tg, x.info = .link tg → (x.subs.filterMap fileOf).length ≤ 1) :
    ∀ l ∈ gots nd, l.length ≤ 1 := by
  cases nd with
  | mk i s f =>
    intro l hl
    rw [gots, List.mem_append, List.mem_append] at hl
    have h0 := h (.mk i s f) (nodes_self _)
    rcases hl with hl | hl | hl
    · unfold got at hl
      split at hl
      · rw [List.mem_singleton] at hl
        subst hl
        exact h0 _ rfl
      · cases hl
    · exact gotsAll_short s (fun x hx => h x (by rw [nodes]; exact List.mem_cons_of_mem _ (List.mem_append_left _ hx))) l hl
    · exact gotsAll_short f (fun x hx => h x (by rw [nodes]; exact List.mem_cons_of_mem _ (List.mem_append_right _ hx))) l hl
theorem gotsAll_short (l : List Node) (h : ∀ x ∈ nodesAll l, ∀ tg, x.info = .link tg → (x.subs.filterMap fileOf).length ≤ 1) :
    ∀ g ∈ gotsAll l, g.length ≤ 1 := by
  cases l with
  | nil => intro g hg; cases hg
  | cons y ys =>
    intro g hg
    rw [gotsAll, List.mem_append] at hg
    rcases hg with hg | hg
    · exact gots_short y (fun x hx => h x (by rw [nodesAll]; exact List.mem_append_left _ hx)) g hg
    · exact gotsAll_short ys (fun x hx => h x (by rw [nodesAll]; exact List.mem_append_right _ hx)) g hg
end

theorem links_gots : gotsOf (parseDirectory fsLinks 30 "/d".toList) = [["/d/s/c.txt".toList, "/d/c.txt".toList]] := by
  decide +kernel

/-- it fails: the links of an included document are resolved a second time, from the directory of the document that
includes it -/
theorem linkOnce_false : ¬ linkOnceStatement := by
  intro h
  have hg := links_gots
  rcases hx : parseDirectory fsLinks 30 "/d".toList with e | ⟨_ | t, st⟩
  · rw [hx] at hg; cases hg
  · rw [hx] at hg; cases hg
  · rw [hx] at hg
    have hdocs : ∀ p d, fsLinks.parse p = some (some d) → ∀ x ∈ nodes d, ∀ rel abs, x.info ≠ .file rel abs := by
      intro p d hp
      simp only [fsLinks, mkFS] at hp
      rw [Option.map_eq_some_iff] at hp
      obtain ⟨⟨q, o⟩, ho, hod⟩ := hp
      have hm := List.mem_of_find?_eq_some ho
      simp only at hod
      subst hod
      simp only [List.mem_cons, List.not_mem_nil, or_false, Prod.mk.injEq] at hm
      rcases hm with ⟨_, hm⟩ | ⟨_, hm⟩ | ⟨_, hm⟩ | ⟨_, hm⟩
      · injection hm with hm; subst hm
        simp [nodes, nodesAll, inc, Node.info]
      · injection hm with hm; subst hm
        simp [nodes, nodesAll, lnk, Node.info]
      · cases hm
      · cases hm
    have := gots_short t (h _ _ _ _ _ hdocs hx)
    have h2 := this ["/d/s/c.txt".toList, "/d/c.txt".toList] (by
      have : gots t = [["/d/s/c.txt".toList, "/d/c.txt".toList]] := hg
      rw [this]; exact List.mem_singleton_self _)
    simp at h2

/-- **C109** when no document has includes, every `File` node with content in the result of `parseDirectoryOpts` holds
the parsed document of its path, unchanged but for one `File` node added at the end of each link whose target resolves
from the directory of that document -/
theorem links_resolved_partial (fs : FS)
    (hdoc : ∀ p d, fs.parse p = some (some d) → files d = [] ∧ NoIncl d)
    (n : Nat) (root : Path) (t : Node) (st : St) (h : parseDirectory fs n root = .ok (some t, st)) :
    Resolved fs t :=
  (resolves hdoc n).1 _ _ _ _ _ h t (by simp)

/-- `/d/s/b.org` links to `c.txt`; it is not included elsewhere -/
def fsLinks2 : FS :=
  mkFS [("/d".toList, ["/d/s".toList]), ("/d/s".toList, ["/d/s/b.org".toList, "/d/s/c.txt".toList])] []
    [("/d/s/b.org".toList, doc [lnk "c.txt", lnk "x.txt"]), ("/d/c.txt".toList, none), ("/d/s/c.txt".toList, none)]

example : gotsOf (parseDirectory fsLinks2 30 "/d".toList) = [["/d/s/c.txt".toList], []] := by decide +kernel

/-! ## An include that is found is not reported as an error -/

/-- an include that got content has no error -/
def includeOkStatement : Prop :=
  ∀ (fs : FS) (n : Nat) (root : Path) (t : Node) (st : St),
    (∀ p d, fs.parse p = some (some d) → ∀ x ∈ nodes d, ∀ f, x.info ≠ .error f) →
    parseDirectory fs n root = .ok (some t, st) →
    ∀ x ∈ nodes t, ∀ p k, x.info = .incl p k →
      ∀ a ∈ x.subs, (∃ rel abs, a.info = .file rel abs) → ∀ b ∈ x.subs, ∀ f, b.info ≠ .error f

/-- `/d/a.org` includes `/d/s/b.org`, which includes `/d/s/c.org` as `c.org` -/
def fsNest : FS :=
  mkFS [("/d".toList, ["/d/a.org".toList]), ("/d/s".toList, [])] []
    [("/d/a.org".toList, doc [inc "s/b.org"]), ("/d/s/b.org".toList, doc [inc "c.org"]),
      ("/d/s/c.org".toList, doc [])]

/-- is this an include with both a file and an error -/
def bothHere (i : Info) (s : List Node) : Bool :=
  match i with
  | .incl _ _ =>
    s.any (fun x => match x.info with | .file _ _ => true | _ => false) &&
      s.any (fun x => match x.info with | .error _ => true | _ => false)
  | _ => false

mutual
/-- is there an include with both a file and an error -/
def both : Node → Bool
  | .mk i s f => bothHere i s || (bothAny s || bothAny f)
/-- the same for a list of trees -/
def bothAny : List Node → Bool
  | [] => false
  | x :: xs => both x || bothAny xs
end

mutual
theorem both_spec (nd : Node) (h : both nd = true) :
    ∃ x ∈ nodes nd, (∃ p k, x.info = .incl p k) ∧ (∃ a ∈ x.subs, ∃ rel abs, a.info = .file rel abs) ∧
      ∃ b ∈ x.subs, ∃ f, b.info = .error f := by
  cases nd with
  | mk i s f =>
    rw [both, Bool.or_eq_true, Bool.or_eq_true] at h
    rcases h with h | h | h
    · unfold bothHere at h
      split at h
      · rename_i p k
        rw [Bool.and_eq_true, List.any_eq_true, List.any_eq_true] at h
        obtain ⟨⟨a, ha, ha'⟩, ⟨b, hb, hb'⟩⟩ := h
        refine ⟨_, nodes_self _, ⟨p, k, rfl⟩, ⟨a, ha, ?_⟩, ⟨b, hb, ?_⟩⟩
        · split at ha'
          · rename_i hi; exact ⟨_, _, hi⟩
          · cases ha'
        · split at hb'
          · rename_i hi; exact ⟨_, hi⟩
          · cases hb'
      · cases h
    · obtain ⟨x, hx, hr⟩ := bothAny_spec s h
      exact ⟨x, by rw [nodes]; exact List.mem_cons_of_mem _ (List.mem_append_left _ hx), hr⟩
    · obtain ⟨x, hx, hr⟩ := bothAny_spec f h
      exact ⟨x, by rw [nodes]; exact List.mem_cons_of_mem _ (List.mem_append_right _ hx), hr⟩
theorem bothAny_spec (l : List Node) (h : bothAny l = true) :
    ∃ x ∈ nodesAll l, (∃ p k, x.info = .incl p k) ∧ (∃ a ∈ x.subs, ∃ rel abs, a.info = .file rel abs) ∧
      ∃ b ∈ x.subs, ∃ f, b.info = .error f := by
  cases l with
  | nil => cases h
  | cons y ys =>
    rw [bothAny, Bool.or_eq_true] at h
    rcases h with h | h
    · obtain ⟨x, hx, hr⟩ := both_spec y h
      exact ⟨x, by rw [nodesAll]; exact List.mem_append_left _ hx, hr⟩
    · obtain ⟨x, hx, hr⟩ := bothAny_spec ys h
      exact ⟨x, by rw [nodesAll]; exact List.mem_append_right _ hx, hr⟩
end

/-- the check on a result -/
def bothOf (r : Except Err (Option Node × St)) : Bool :=
  match r with
  | .ok (some t, _) => both t
  | _ => false

/-- it fails: the include of an included document is looked up again from the directory of the outer document, not
found there, and gets an error next to the content it has already -/
theorem includeOk_false : ¬ includeOkStatement := by
  intro h
  have hg : bothOf (parseDirectory fsNest 20 "/d".toList) = true := by decide +kernel
  generalize hx : parseDirectory fsNest 20 "/d".toList = r at hg
  rcases r with e | ⟨_ | t, st⟩
  · cases hg
  · cases hg
  · obtain ⟨x, hx', ⟨p, k, hi⟩, ⟨a, ha, ha'⟩, ⟨b, hb, f, hb'⟩⟩ := both_spec t hg
    refine h _ _ _ _ _ ?_ hx x hx' p k hi a ha ha' b hb f hb'
    intro p d hp
    simp only [fsNest, mkFS] at hp
    rw [Option.map_eq_some_iff] at hp
    obtain ⟨⟨q, o⟩, ho, hod⟩ := hp
    have hm := List.mem_of_find?_eq_some ho
    simp only at hod
    subst hod
    simp only [List.mem_cons, List.not_mem_nil, or_false, Prod.mk.injEq] at hm
    rcases hm with ⟨_, hm⟩ | ⟨_, hm⟩ | ⟨_, hm⟩
    · injection hm with hm; subst hm
      simp [nodes, nodesAll, inc, Node.info]
    · injection hm with hm; subst hm
      simp [nodes, nodesAll, inc, Node.info]
    · injection hm with hm; subst hm
      simp [nodes, nodesAll, Node.info]

end Verif.Dir
