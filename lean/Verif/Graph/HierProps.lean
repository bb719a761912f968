import Verif.Graph.HierForest

/-! # C63, C64: hierarchies -/

namespace Verif.Graph

open Relation

/-! ## C63: a hierarchy is a forest -/

/-- Whatever calls are made – also with calls that throw halfway, and with any ids for the edges –
sub-vertices, parents and roots agree, and every relation is between tracked vertices. -/
theorem hierarchy_consistent {safe : Bool} {hash : V → V → E} {h : Hier} (hr : HRun safe hash h) :
    (∀ p s, s ∈ h.getSubs p ↔ h.getParent s = some p) ∧ (∀ v, v ∈ h.getRoots ↔ v ∈ h.getAll ∧ h.getParent v = none) ∧
      (∀ p s, s ∈ h.getSubs p → p ∈ h.getAll ∧ s ∈ h.getAll) ∧ (∀ p p' s, s ∈ h.getSubs p → s ∈ h.getSubs p' → p = p') := by
  have hc := run_consistent hr
  refine ⟨hc.subs, hc.roots, fun p s hs => hc.tracked p s ((hc.subs p s).1 hs), ?_⟩
  intro p p' s h1 h2
  rw [hc.subs] at h1 h2
  rw [h1, Option.some.injEq] at h2
  exact h2

/-- Missing against C63: no vertex may be nested below itself or one of its own sub-vertices, the
code does not look (`forest_false`). -/
theorem forest_partial {hash : V → V → E} {h : Hier} (hr : HRun true hash h) :
    h.Forest ∧ (∀ v ∈ h.getAll, ∃ r ∈ h.getRoots, h.Below r v) ∧ (∀ v, ¬ TransGen h.Parent v v) := by
  have hf := run_forest hr
  have hc := run_consistent hr
  refine ⟨hf, ?_, ?_⟩
  · intro v hv
    obtain ⟨l, hl⟩ := hf v
    induction hl with
    | @root v hp => exact ⟨v, (hc.roots v).2 ⟨hv, hp⟩, .refl⟩
    | @up v p l hu _ ih =>
      obtain ⟨r, h1, h2⟩ := ih (hc.tracked p v hu).1
      exact ⟨r, h1, (below_parent hu).2 (.inr h2)⟩
  · intro v hv
    obtain ⟨p, hvp, hp⟩ := TransGen.tail'_iff.1 hv
    obtain ⟨l, hl⟩ := hf p
    have h1 := (below_iff hl).1 hvp
    have h2 := anc_nodup (.up hp hl)
    rw [List.nodup_cons] at h2
    exact h2.1 h1

/-- Tracking a vertex adds it as a root; the relations stay. -/
theorem track_root {h h' : Hier} {v : V} (ht : h.track v = .ok h') :
    v ∉ h.getAll ∧ (∀ w, w ∈ h'.getAll ↔ w ∈ h.getAll ∨ w = v) ∧ (∀ w, w ∈ h'.getRoots ↔ w ∈ h.getRoots ∨ w = v) ∧
      (∀ w, h'.getParent w = h.getParent w) ∧ (∀ w, h'.getSubs w = h.getSubs w) := by
  obtain ⟨h1, h2, h3, h4, h5, _⟩ := track_effect' ht
  refine ⟨h1, ?_, ?_, ?_, ?_⟩
  · intro w
    simp only [Hier.getAll, h2, mem_incl]
  · intro w
    simp only [Hier.getRoots, h3, mem_incl]
  · intro w
    simp only [Hier.getParent, h4]
  · intro w
    simp only [Hier.getSubs, h5]

/-- A nesting that does not throw gives the sub-vertex the parent, and changes no other
relation. -/
theorem nest_effect {hash : V → V → E} {h : Hier} {p s : V} (ho : (h.nestSub hash p s).2 = none) :
    p ∈ h.getAll ∧ s ∈ h.getAll ∧ h.getParent s = none ∧ (h.nestSub hash p s).1.getAll = h.getAll ∧
      (∀ w, (h.nestSub hash p s).1.getParent w = if w = s then some p else h.getParent w) ∧
      (h.nestSub hash p s).1.hasEdge p s = true := by
  rcases nest_cases (hash := hash) (h := h) (p := p) (s := s) with ⟨h1, _⟩ | ⟨h1, h2, h3, h4, _, _, h5, h6⟩
  · exact absurd ho h1
  · refine ⟨h1, h2, h3, h5, ?_, ?_⟩
    · intro w
      simp only [Hier.getParent, h4, get_set]
    · rcases h6 with ⟨h6, _⟩ | ⟨_, h6, _⟩
      · rw [ho] at h6; cases h6
      · simp [Hier.hasEdge, h6, get_set]

/-- A nesting that throws for another reason than a taken edge changes no relation. -/
theorem nest_refused {hash : V → V → E} {h : Hier} {p s : V} (ho : (h.nestSub hash p s).2 ≠ none)
    (hr : (h.nestSub hash p s).2 ≠ some .runtime) :
    (h.nestSub hash p s).1.getAll = h.getAll ∧ (h.nestSub hash p s).1.getRoots = h.getRoots ∧
      (∀ w, (h.nestSub hash p s).1.getParent w = h.getParent w) ∧ (∀ w, (h.nestSub hash p s).1.getSubs w = h.getSubs w) ∧
      (h.nestSub hash p s).1.getEdges = h.getEdges := by
  rcases nest_cases (hash := hash) (h := h) (p := p) (s := s) with ⟨_, _, h1, h2, h3, h4, h5⟩ | ⟨_, _, _, _, _, _, _, h6⟩
  · refine ⟨h4, h3, ?_, ?_, ?_⟩
    · intro w
      simp only [Hier.getParent, h1]
    · intro w
      simp only [Hier.getSubs, h2]
    · simp only [Hier.getEdges, h5]
  · rcases h6 with ⟨h6, _⟩ | ⟨h6, _⟩
    · exact absurd h6 hr
    · exact absurd h6 ho

/-- Taking a sub-vertex out makes it a root, and changes no other relation. -/
theorem unnest_root {h h' : Hier} {p s : V} (hu : h.unnest p s = .ok h') :
    h.getParent s = some p ∧ h'.getAll = h.getAll ∧ s ∈ h'.getRoots ∧
      (∀ w, h'.getParent w = if w = s then none else h.getParent w) := by
  obtain ⟨_, h1, h2, _, h3, h4, _⟩ := unnest_effect hu
  refine ⟨h1, h4, ?_, ?_⟩
  · simp [Hier.getRoots, h3]
  · intro w
    simp only [Hier.getParent, h2, get_del]

/-- The full statement. -/
def ForestStatement : Prop := ∀ (hash : V → V → E) (h : Hier), HRun false hash h →
  h.Forest ∧ (∀ v ∈ h.getAll, ∃ r ∈ h.getRoots, h.Below r v)

/-! ### Hierarchies for the examples -/

/-- An injective numbering of pairs: `2 ^ a * (2 * b + 1)`. -/
def pair (a b : V) : E := 2 ^ a * (2 * b + 1)

/-- Tracks the vertices, then nests. -/
def build (vs : List V) (rel : List (V × V)) : Hier :=
  rel.foldl (fun h x => (h.nestSub pair x.1 x.2).1)
    (vs.foldl (fun h v => match h.track v with | .ok h' => h' | .error _ => h) .empty)

theorem track_run {safe : Bool} {hash : V → V → E} (vs : List V) : ∀ {h : Hier}, HRun safe hash h →
    HRun safe hash (vs.foldl (fun h v => match h.track v with | .ok h' => h' | .error _ => h) h) := by
  induction vs with
  | nil => intro h hr; exact hr
  | cons v vs ih =>
    intro h hr
    simp only [List.foldl_cons]
    refine ih ?_
    split
    · rename_i h' ht
      exact .track hr ht
    · exact hr

theorem build_run (vs : List V) (rel : List (V × V)) : HRun false pair (build vs rel) := by
  have key : ∀ (rel : List (V × V)) (h : Hier), HRun false pair h → HRun false pair (rel.foldl (fun h x => (h.nestSub pair x.1 x.2).1) h) := by
    intro rel
    induction rel with
    | nil => intro h hr; exact hr
    | cons x rel ih =>
      intro h hr
      exact ih _ (.nest hr (by simp))
  exact key rel _ (track_run vs .init)

/-- No pair nests a vertex below itself. -/
def nestable (n : Nat) : Hier → List (V × V) → Bool
  | _, [] => true
  | h, x :: rel =>
    (match h.chain n x.1 with
      | none => false
      | some l => decide (x.2 ∉ x.1 :: l)) && nestable n (h.nestSub pair x.1 x.2).1 rel

theorem build_safe {n : Nat} {vs : List V} {rel : List (V × V)} (hn : nestable n (build vs []) rel = true) : HRun true pair (build vs rel) := by
  have key : ∀ (rel : List (V × V)) (h : Hier), HRun true pair h → nestable n h rel = true →
      HRun true pair (rel.foldl (fun h x => (h.nestSub pair x.1 x.2).1) h) := by
    intro rel
    induction rel with
    | nil => intro h hr _; exact hr
    | cons x rel ih =>
      intro h hr hn
      simp only [nestable, Bool.and_eq_true] at hn
      obtain ⟨h1, h2⟩ := hn
      refine ih _ (.nest hr ?_) h2
      intro _ hb
      split at h1
      · cases h1
      · rename_i l hl
        rw [below_iff (chain_some _ _ _ hl).1] at hb
        exact (of_decide_eq_true h1) hb
  exact key rel _ (track_run vs .init) hn

/-- 1 holds 2 and 3; 2 holds 4; 5 stands alone. -/
def sample : Hier := build [1, 2, 3, 4, 5] [(1, 2), (1, 3), (2, 4)]

theorem sample_run : HRun true pair sample := build_safe (n := 5) (by decide +kernel)

example : sample.getSubs 1 = [2, 3] ∧ sample.getParent 4 = some 2 ∧ sample.getRoots = [1, 5] := by decide +kernel

/-- Vertices 1 and 2, each nested in the other. -/
def ring : Hier := build [1, 2] [(1, 2), (2, 1)]

theorem ring_chain : ∀ n, ring.chain n 1 = none ∧ ring.chain n 2 = none := by
  intro n
  have h1 : get ring.parent 1 = some 2 := by decide +kernel
  have h2 : get ring.parent 2 = some 1 := by decide +kernel
  induction n with
  | zero => exact ⟨rfl, rfl⟩
  | succ n ih =>
    simp only [Hier.chain, h1, h2, ih, Option.map_none]
    exact ⟨trivial, trivial⟩

/-- Two vertices can be nested in each other: no root is left, and `getParentChain` never
returns. -/
theorem forest_false : ¬ ForestStatement ∧ ring.getRoots = [] ∧ (∀ n, ring.chain n 1 = none) := by
  have hr : ring.getRoots = [] := by decide +kernel
  refine ⟨?_, hr, fun n => (ring_chain n).1⟩
  intro hs
  obtain ⟨_, h2⟩ := hs pair ring (build_run _ _)
  obtain ⟨r, h3, _⟩ := h2 1 (by decide +kernel)
  rw [hr] at h3
  cases h3

/-! ## C64: removing a vertex -/

/-- Missing against C64: that no edge of a removed vertex is listed (`removed_edges_false`).
`order` is any order in which the set of collected vertices may be walked. -/
theorem untrack_partial {safe : Bool} {hash : V → V → E} {h h' : Hier} {fuel : Nat} {v : V} {order vs : List V} (hr : HRun safe hash h)
    (hu : h.untrack fuel v order = .ok (h', vs)) (ho : ∀ x, x ∈ order ↔ x ∈ vs) :
    (∀ x, x ∈ vs ↔ h.Below v x) ∧ (∀ w, w ∈ h'.getAll ↔ w ∈ h.getAll ∧ ¬ h.Below v w) ∧
      (∀ s p, h'.getParent s = some p ↔ h.getParent s = some p ∧ ¬ h.Below v s) ∧
      (∀ p s, s ∈ h'.getSubs p ↔ s ∈ h.getSubs p ∧ ¬ h.Below v s) ∧
      (∀ w, w ∈ h'.getRoots ↔ w ∈ h.getRoots ∧ ¬ h.Below v w) := by
  have hc := run_consistent hr
  obtain ⟨_, hcol, rfl⟩ := untrack_effect' hu
  have hvs : ∀ x, x ∈ vs ↔ h.Below v x := by
    intro x
    rw [collect_mem hc _ _ _ _ hcol x]
    simp
  obtain ⟨k1, k2, k3, _⟩ := removeAll_effect (vs := order) hc
  have hord : ∀ x, x ∈ order ↔ h.Below v x := fun x => (ho x).trans (hvs x)
  have hpar : ∀ s p, (order.foldl Hier.removeOne h).getParent s = some p ↔ h.getParent s = some p ∧ ¬ h.Below v s := by
    intro s p
    refine (k3 s p).trans ?_
    rw [hord, hord]
    constructor
    · rintro ⟨h1, h2, _⟩
      exact ⟨h1, h2⟩
    · rintro ⟨h1, h2⟩
      exact ⟨h1, h2, fun h3 => h2 ((below_parent h1).2 (.inr h3))⟩
  have hall : ∀ w, w ∈ (order.foldl Hier.removeOne h).getAll ↔ w ∈ h.getAll ∧ ¬ h.Below v w := by
    intro w
    refine (k2 w).trans ?_
    rw [hord]
    rfl
  refine ⟨hvs, hall, hpar, ?_, ?_⟩
  · intro p s
    rw [k1.subs, hc.subs, hpar]
  · intro w
    rw [k1.roots, hc.roots, hall, Option.eq_none_iff_forall_ne_some, Option.eq_none_iff_forall_ne_some]
    simp only [ne_eq, hpar]
    constructor
    · rintro ⟨⟨h1, h2⟩, h3⟩
      exact ⟨⟨h1, fun p h4 => h3 p ⟨h4, h2⟩⟩, h2⟩
    · rintro ⟨⟨h1, h2⟩, h3⟩
      exact ⟨⟨h1, h3⟩, fun p h4 => h2 p h4.1⟩

/-- In a forest the removal of a tracked vertex returns. -/
theorem untrack_returns {hash : V → V → E} {h : Hier} (hr : HRun true hash h) :
    ∃ n, ∀ fuel ≥ n, ∀ v ∈ h.getAll, ∀ order, ∃ h' vs, h.untrack fuel v order = .ok (h', vs) := by
  have hc := run_consistent hr
  have hf := run_forest hr
  obtain ⟨M, hM⟩ := forest_bound hc hf
  refine ⟨M + 1, ?_⟩
  intro fuel hfu v hv order
  obtain ⟨l, hl⟩ := hf v
  have hs := collect_returns hc hM fuel [] v l hl (by omega)
  rw [Option.isSome_iff_exists] at hs
  obtain ⟨vs, hvs⟩ := hs
  refine ⟨order.foldl Hier.removeOne h, vs, ?_⟩
  simp only [Hier.getAll] at hv
  simp only [Hier.untrack, hvs]
  rw [if_neg (by simpa using hv)]

example : ∃ h', sample.untrack 9 2 [4, 2] = .ok (h', [2, 4]) ∧ h'.getAll = [1, 3, 5] ∧ h'.getSubs 1 = [3] :=
  ⟨_, rfl, by decide +kernel, by decide +kernel⟩

/-! ### Edges -/

/-- Edges carry the id of their pair; when no two pairs share an id, every relation has an edge. -/
theorem run_edges {safe : Bool} {hash : V → V → E} {h : Hier} (hr : HRun safe hash h) :
    (∀ p s e, ((p, s), e) ∈ h.edges → e = hash p s) ∧
      ((∀ a b c d, hash a b = hash c d → a = c ∧ b = d) → ∀ p s, get h.parent s = some p → get h.edges (p, s) = some (hash p s)) := by
  induction hr with
  | init => exact ⟨by simp [Hier.empty], by simp [Hier.empty]⟩
  | track _ ht ih =>
    obtain ⟨_, _, _, h4, _, h6, _⟩ := track_effect' ht
    rw [h4, h6]
    exact ih
  | @nest h p s _ _ ih =>
    rcases nest_cases (hash := hash) (h := h) (p := p) (s := s) with ⟨_, _, h1, _, _, _, h5⟩ | ⟨_, _, hsn, h1, _, _, _, h6⟩
    · rw [h1, h5]
      exact ih
    · rcases h6 with ⟨_, h7, h8⟩ | ⟨_, h7, h8, h9⟩
      · rw [h1, h7]
        refine ⟨ih.1, fun hinj p' s' hp' => ?_⟩
        rw [get_set] at hp'
        split_ifs at hp' with hs
        · rw [Option.some.injEq] at hp'
          subst hp' hs
          have key : ∃ e, get h.edges (p, s') = some e := by
            rcases h8 with h8 | h8
            · rwa [Option.isSome_iff_exists] at h8
            · rw [List.mem_map] at h8
              obtain ⟨⟨⟨a, b⟩, e⟩, h10, h11⟩ := h8
              simp only at h11
              subst h11
              obtain ⟨rfl, rfl⟩ := hinj _ _ _ _ (ih.1 _ _ _ h10)
              exact get_of_mem h10
          obtain ⟨e, he⟩ := key
          rw [he, ih.1 _ _ _ (mem_of_get he)]
        · exact ih.2 hinj p' s' hp'
      · rw [h1, h7]
        refine ⟨?_, fun hinj p' s' hp' => ?_⟩
        · intro p' s' e he
          rcases mem_set he with he | he
          · simp only [Prod.mk.injEq] at he
            obtain ⟨⟨rfl, rfl⟩, rfl⟩ := he
            rfl
          · exact ih.1 _ _ _ he
        · rw [get_set] at hp' ⊢
          split_ifs at hp' with hs
          · rw [Option.some.injEq] at hp'
            subst hp' hs
            simp
          · rw [if_neg (by simp [hs]), ih.2 hinj p' s' hp']
  | unnest _ hu ih =>
    obtain ⟨_, _, h2, _, _, _, h7⟩ := unnest_effect hu
    rw [h2, h7]
    refine ⟨ih.1, fun hinj p s hp => ?_⟩
    rw [get_del] at hp
    split_ifs at hp
    exact ih.2 hinj p s hp
  | untrack hr hu _ ih =>
    obtain ⟨_, _, rfl⟩ := untrack_effect' hu
    obtain ⟨_, _, k3, k4⟩ := removeAll_effect (run_consistent hr)
    rw [k4]
    exact ⟨ih.1, fun hinj p s hp => ih.2 hinj p s ((k3 s p).1 hp).1⟩

theorem edgesOf_ok {m : AMap (V × V) E} {f : V × V → E} : ∀ {xs : List (V × V)}, (∀ x ∈ xs, get m x = some (f x)) → edgesOf m xs = .ok (xs.map f) := by
  intro xs
  induction xs with
  | nil => intro _; rfl
  | cons x xs ih =>
    intro hx
    simp only [edgesOf, hx x (by simp), ih (fun y hy => hx y (List.mem_cons_of_mem _ hy)), List.map_cons]

/-- When no two pairs share an edge id, each vertex lists one edge for each sub-vertex and one for
its parent, also after removals. -/
theorem nesting_edges {safe : Bool} {hash : V → V → E} (hinj : ∀ a b c d, hash a b = hash c d → a = c ∧ b = d) {h : Hier}
    (hr : HRun safe hash h) :
    (∀ v, h.outgoing v = .ok ((h.getSubs v).map (hash v))) ∧ (∀ v p, h.getParent v = some p → h.incoming v = .ok [hash p v]) ∧
      (∀ v, h.getParent v = none → h.incoming v = .ok []) ∧ (∀ p s, s ∈ h.getSubs p → h.hasEdge p s = true ∧ hash p s ∈ h.getEdges) := by
  have hc := run_consistent hr
  have he := (run_edges hr).2 hinj
  refine ⟨?_, ?_, ?_, ?_⟩
  · intro v
    rw [Hier.outgoing, edgesOf_ok (f := fun x => hash x.1 x.2)]
    · simp [Function.comp_def]
    · intro x hx
      rw [List.mem_map] at hx
      obtain ⟨s, hs, rfl⟩ := hx
      exact he v s ((hc.subs v s).1 hs)
  · intro v p hp
    simp only [Hier.getParent] at hp
    simp only [Hier.incoming, hp, edgesOf, he p v hp]
  · intro v hp
    simp only [Hier.getParent] at hp
    simp only [Hier.incoming, hp]
  · intro p s hs
    have := he p s ((hc.subs p s).1 hs)
    refine ⟨by simp [Hier.hasEdge, this], ?_⟩
    rw [Hier.getEdges, List.mem_map]
    exact ⟨_, mem_of_get this, rfl⟩

theorem pair_nat : ∀ a b c d : Nat, 2 ^ a * (2 * b + 1) = 2 ^ c * (2 * d + 1) → a = c ∧ b = d := by
  intro a
  induction a with
  | zero =>
    intro b c d h
    cases c with
    | zero => simp only [Nat.pow_zero, Nat.one_mul] at h; exact ⟨rfl, by omega⟩
    | succ c =>
      rw [Nat.pow_zero, Nat.one_mul, Nat.pow_succ, Nat.mul_assoc, Nat.mul_left_comm] at h
      omega
  | succ a ih =>
    intro b c d h
    rw [Nat.pow_succ, Nat.mul_assoc, Nat.mul_left_comm] at h
    cases c with
    | zero =>
      rw [Nat.pow_zero, Nat.one_mul] at h
      omega
    | succ c =>
      rw [Nat.pow_succ, Nat.mul_assoc (2 ^ c), Nat.mul_left_comm (2 ^ c)] at h
      obtain ⟨h1, h2⟩ := ih b c d (by omega)
      exact ⟨by omega, h2⟩

theorem pair_injective (a b c d : V) (h : pair a b = pair c d) : a = c ∧ b = d := pair_nat a b c d h

example : sample.outgoing 1 = .ok [pair 1 2, pair 1 3] := rfl

/-- The full statement about edges: only relations have edges. -/
def HierEdgesStatement : Prop := ∀ (hash : V → V → E) (h : Hier), HRun true hash h → ∀ p s, h.hasEdge p s = true → h.getParent s = some p

/-- Removal keeps every edge: `getEdges` and `hasEdge` answer as before. -/
theorem removed_edges {safe : Bool} {hash : V → V → E} {h h' : Hier} {fuel : Nat} {v : V} {order vs : List V} (hr : HRun safe hash h)
    (hu : h.untrack fuel v order = .ok (h', vs)) : h'.getEdges = h.getEdges ∧ ∀ p s, h'.hasEdge p s = h.hasEdge p s := by
  obtain ⟨_, _, rfl⟩ := untrack_effect' hu
  obtain ⟨_, _, _, k4⟩ := removeAll_effect (vs := order) (run_consistent hr)
  simp only [Hier.getEdges, Hier.hasEdge, k4]
  exact ⟨trivial, fun _ _ => trivial⟩

theorem removed_edges_false : ¬ HierEdgesStatement := by
  intro hs
  have h0 : HRun true pair (sample.untrack 9 2 [4, 2] |>.toOption.get (by decide +kernel)).1 :=
    .untrack (fuel := 9) (v := 2) (order := [4, 2]) (vs := [2, 4]) sample_run rfl (by simp; tauto)
  have := hs pair _ h0 2 4 (by decide +kernel)
  revert this
  decide +kernel

/-- A relation that was taken out cannot be put back: the call throws, after the relation has been
recorded. -/
theorem renest_throws {safe : Bool} {hash : V → V → E} (hinj : ∀ a b c d, hash a b = hash c d → a = c ∧ b = d) {h h' : Hier} {p s : V}
    (hr : HRun safe hash h) (hu : h.unnest p s = .ok h') :
    (h'.nestSub hash p s).2 = some .runtime ∧ (h'.nestSub hash p s).1.getParent s = some p := by
  obtain ⟨h0, h1, h2, _, _, h5, h6⟩ := unnest_effect hu
  have he := (run_edges hr).2 hinj p s h1
  have hp := ((run_consistent hr).tracked p s h1).1
  simp only [Hier.getAll] at hp
  have hgp : get h'.parent s = none := by rw [h2, get_del, if_pos rfl]
  have hge : get h'.edges (p, s) = some (hash p s) := by rw [h6]; exact he
  rw [← h5] at h0 hp
  simp only [Hier.nestSub, Hier.nest, h0, hp, not_true_eq_false, if_false, mem_incl, or_true, hgp, hge, Option.isSome_none, Option.isSome_some,
    Bool.false_eq_true, true_or, if_true, Hier.getParent, get_set, and_self]

example : ∃ h', sample.unnest 2 4 = .ok h' := ⟨_, rfl⟩

/-- All pairs share one edge id. -/
def same (_ _ : V) : E := 0

/-- 2 and 3 nested in 1, with one edge id for both. -/
def collided : Hier := ((build [1, 2, 3] []).nestSub same 1 2).1.nestSub same 1 3 |>.1

theorem collided_run : HRun true same collided := by
  have hc : ∀ (h : Hier) n p s, h.chain n p = some [] → s ≠ p → ¬ h.Below s p := by
    intro h n p s hch hne hb
    rw [below_iff (chain_some _ _ _ hch).1] at hb
    simp [hne] at hb
  have h1 : HRun true same (build [1, 2, 3] []) := track_run [1, 2, 3] .init
  have h2 : HRun true same ((build [1, 2, 3] []).nestSub same 1 2).1 := .nest h1 (fun _ => hc _ 1 _ _ (by decide +kernel) (by decide))
  exact .nest h2 (fun _ => hc _ 1 _ _ (by decide +kernel) (by decide))

/-- Two pairs with the same edge id: the second relation is recorded without edge, the call throws,
and asking for the edges of the vertex throws as well. -/
theorem collision_false : ∃ (hash : V → V → E) (h : Hier), HRun true hash h ∧ h.getSubs 1 = [2, 3] ∧ h.outgoing 1 = .error .range :=
  ⟨same, collided, collided_run, by decide +kernel, rfl⟩

end Verif.Graph
