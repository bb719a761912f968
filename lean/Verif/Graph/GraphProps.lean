import Verif.Graph.GraphModel
import Verif.Graph.EdgeProps
import Verif.Graph.HierProps
import Mathlib.Data.List.Forall2

/-! # C67: removing a vertex from a graph -/

namespace Verif.Graph

/-! ## Specification -/

/-- The walks list the sets they walk over. -/
structure Walk.Ok (w : Walk) : Prop where
  hier : ∀ h v vs, h.collect w.fuel [] v = some vs → ∀ x, x ∈ w.hier h v ↔ x ∈ vs
  coll : ∀ c v e, e ∈ w.coll c v ↔ e ∈ toRemove c v

/-- The graphs that appear, on fixed collections and hierarchies; calls that throw are included. -/
inductive GRun (name : V → Stable) (w : Walk) : Graph → Prop
  | init {cs hs} : GRun name w ⟨[], [], cs, hs⟩
  | track {g v} : GRun name w g → GRun name w (g.track name v).1
  | untrack {g v} : GRun name w g → GRun name w (g.untrack w v).1
  /-- anything may be done to the collections and hierarchies in between -/
  | other {g cs hs} : GRun name w g → GRun name w { g with colls := cs, hiers := hs }

/-- A walk for the examples. -/
def plainWalk : Walk where
  hier h v := (h.collect 100 [] v).getD []
  coll c v := toRemove c v
  fuel := 100

theorem plainWalk_ok : plainWalk.Ok :=
  ⟨fun h v vs hc x => by
    have : h.collect 100 [] v = some vs := hc
    simp [plainWalk, this], fun c v e => Iff.rfl⟩

/-! ## Removal -/

theorem until_ok {α ε : Type} {f : α → Except ε α} : ∀ {xs : List α}, (until' f xs).2 = none →
    List.Forall₂ (fun x y => f x = .ok y) xs (until' f xs).1 := by
  intro xs
  induction xs with
  | nil => intro _; exact .nil
  | cons x xs ih =>
    intro h
    simp only [until'] at h ⊢
    split at h
    · simp at h
    · rename_i y hy
      simp only [hy]
      exact .cons hy (ih h)

theorem until_all {α ε : Type} {f : α → Except ε α} : ∀ {xs ys : List α}, List.Forall₂ (fun x y => f x = .ok y) xs ys → until' f xs = (ys, none) := by
  intro xs ys h
  induction h with
  | nil => rfl
  | cons h1 _ ih => simp only [until', h1, ih]

/-- In a graph with a hierarchy the removal of a vertex always throws, and the vertex stays
tracked: either a hierarchy does not know the vertex, or it has just dropped it when it is asked a
second time. -/
theorem untrack_never {w : Walk} (hw : w.Ok) {g : Graph} {safe : Bool} {hash : V → V → E} (hh : ∀ h ∈ g.hiers, HRun safe hash h)
    (hne : g.hiers ≠ []) (v : V) : (g.untrack w v).2 ≠ none ∧ (g.untrack w v).1.verts = g.verts := by
  simp only [Graph.untrack]
  by_cases hv : v ∉ g.verts
  · rw [if_pos hv]
    exact ⟨by simp, rfl⟩
  · rw [if_neg hv]
    simp only [andThen]
    cases h1 : (g.dropHiers w v).2 with
    | some e => exact ⟨by simp, rfl⟩
    | none =>
      simp only
      generalize hg1 : (g.dropHiers w v).1 = g1
      have e1 : g1.verts = g.verts := by rw [← hg1]; rfl
      cases h2 : (g1.dropColls w v).2 with
      | some e => exact ⟨by simp, e1⟩
      | none =>
        simp only
        generalize hg2 : (g1.dropColls w v).1 = g2
        have e2 : g2.verts = g1.verts := by rw [← hg2]; rfl
        cases h3 : (g2.dropColls w v).2 with
        | some e => exact ⟨by simp, e2.trans e1⟩
        | none =>
          simp only
          generalize hg3 : (g2.dropColls w v).1 = g3
          have e3 : g3.verts = g2.verts := by rw [← hg3]; rfl
          have hs : g3.hiers = (until' (dropH w v) g.hiers).1 := by rw [← hg3, ← hg2, ← hg1]; rfl
          have hok : (until' (dropH w v) g.hiers).2 = none := by
            have : (g.dropHiers w v).2 = (until' (dropH w v) g.hiers).2.map .hier := rfl
            rw [this, Option.map_eq_none_iff] at h1
            exact h1
          have hf := until_ok hok
          have h4 : (g3.dropHiers w v).2 ≠ none := by
            have : (g3.dropHiers w v).2 = (until' (dropH w v) g3.hiers).2.map .hier := rfl
            rw [this, Ne, Option.map_eq_none_iff, hs]
            generalize (until' (dropH w v) g.hiers).1 = ys at hf
            cases hgh : g.hiers with
            | nil => exact absurd hgh hne
            | cons h hs' =>
              rw [hgh] at hf
              cases hf with
              | @cons _ y _ ys hy _ =>
                have hrun := hh h (by simp [hgh])
                simp only [dropH] at hy
                split at hy
                · cases hy
                · rename_i r hr
                  simp only [Except.ok.injEq] at hy
                  have hgone : v ∉ y.ids := by
                    have hu := untrack_effect' (h' := r.1) (vs := r.2) hr
                    have := (untrack_partial hrun (h' := r.1) (vs := r.2) hr (hw.hier h v _ hu.2.1)).2.1 v
                    rw [hy] at this
                    intro hm
                    exact (this.1 hm).2 .refl
                  have : dropH w v y = .error .graph := by
                    simp only [dropH, Hier.untrack, if_pos hgone]
                  simp only [until', this]
                  simp
          cases h5 : (g3.dropHiers w v).2 with
          | none => exact absurd h5 h4
          | some e => exact ⟨by simp, e3.trans (e2.trans e1)⟩

/-- The sample hierarchy holds the vertices 1 to 5; removing 5 from a graph with it throws. -/
example : (Graph.untrack plainWalk ⟨[1, 2, 3, 4, 5], [], [], [sample]⟩ 5).2 = some (.hier .graph) := by decide +kernel

/-- Missing against C67: graphs with hierarchies (`untrack_never`).  Otherwise the removal returns,
and every collection then lists exactly the edges that do not touch the vertex. -/
theorem untrack_graph_partial {w : Walk} (hw : w.Ok) {g : Graph} (hne : g.hiers = []) {v : V} (hv : v ∈ g.verts)
    {Ls : List (List (E × V × V))} (hr : List.Forall₂ (Run true) g.colls Ls) :
    (g.untrack w v).2 = none ∧ (∀ x, (g.untrack w v).1.isTracking x = true ↔ g.isTracking x = true ∧ x ≠ v) ∧
      List.Forall₂ (fun c L => Lists c (L.filter (fun x => decide (x.2.1 ≠ v ∧ x.2.2 ≠ v)))) (g.untrack w v).1.colls Ls := by
  have step : ∀ {cs : List Coll} {Ls : List (List (E × V × V))}, List.Forall₂ (Run true) cs Ls → ∃ cs',
      until' (dropC w v) cs = (cs', none) ∧
        List.Forall₂ (Run true) cs' (Ls.map (fun L => L.filter (fun x => decide (x.2.1 ≠ v ∧ x.2.2 ≠ v)))) := by
    intro cs Ls hr
    induction hr with
    | nil => exact ⟨[], rfl, .nil⟩
    | @cons c L cs Ls h1 _ ih =>
      obtain ⟨cs', h2, h3⟩ := ih
      obtain ⟨c', hc'⟩ := untrackVertex_returns h1 (v := v) (es := w.coll c v) (fun e => hw.coll c v e)
      have hd : dropC w v c = .ok c' := hc'
      refine ⟨c' :: cs', ?_, ?_⟩
      · simp only [until', hd, h2]
      · exact .cons (.untrackVertex h1 (fun e => hw.coll c v e) hc') h3
  obtain ⟨cs1, h1, r1⟩ := step hr
  obtain ⟨cs2, h2, r2⟩ := step r1
  have hres : g.untrack w v = ({ g with colls := cs2, verts := excl g.verts v }, none) := by
    obtain ⟨vs, st, cs, hs⟩ := g
    simp only at hne hv h1
    subst hne
    simp [Graph.untrack, hv, Graph.dropHiers, Graph.dropColls, andThen, h1, h2, until']
  rw [hres]
  refine ⟨rfl, ?_, ?_⟩
  · intro x
    simp [Graph.isTracking]
  · have hff : Ls.map (fun L => L.filter (fun x => decide (x.2.1 ≠ v ∧ x.2.2 ≠ v))) =
        (Ls.map (fun L => L.filter (fun x => decide (x.2.1 ≠ v ∧ x.2.2 ≠ v)))).map
          (fun L => L.filter (fun x => decide (x.2.1 ≠ v ∧ x.2.2 ≠ v))) := by
      rw [List.map_map]
      refine List.map_congr_left (fun L _ => ?_)
      simp [List.filter_filter, Function.comp]
    rw [← hff] at r2
    clear hff r1 hr
    rw [List.forall₂_map_right_iff] at r2
    exact r2.imp (fun c L h => edges_partial h)

/-- Two parallel edges from 1 to 2; 2 is removed. -/
example : ∃ g, Graph.untrack plainWalk ⟨[1, 2], [], [parallel], []⟩ 2 = (g, none) ∧ g.colls.map getEdges = [[]] := ⟨_, rfl, rfl⟩

/-! ## Stable ids -/

theorem track_cases {name : V → Stable} {g : Graph} {v : V} :
    ((g.track name v).2 = some .graph ∧ v ∈ g.verts ∧ (g.track name v).1 = g) ∨
    ((g.track name v).2 = some .key ∧ v ∉ g.verts ∧ (get g.stable (name v)).isSome ∧ (g.track name v).1 = { g with verts := incl g.verts v }) ∨
    ((g.track name v).2 = none ∧ v ∉ g.verts ∧ get g.stable (name v) = none ∧
      (g.track name v).1 = { g with verts := incl g.verts v, stable := set g.stable (name v) v }) := by
  simp only [Graph.track]
  split_ifs with h1 h2
  · exact .inl ⟨rfl, h1, rfl⟩
  · exact .inr (.inl ⟨rfl, h1, h2, rfl⟩)
  · refine .inr (.inr ⟨rfl, h1, by simpa using h2, rfl⟩)

/-- No call to `untrackVertex` adds a vertex or changes the stable ids. -/
theorem untrack_keeps (w : Walk) (g : Graph) (v : V) : (g.untrack w v).1.stable = g.stable ∧ ∀ x, x ∈ (g.untrack w v).1.verts → x ∈ g.verts := by
  have key : ∀ (r : Graph × Option GErr) (f : Graph → Graph × Option GErr), (r.1.stable = g.stable ∧ ∀ x, x ∈ r.1.verts → x ∈ g.verts) →
      (∀ g', (g'.stable = g.stable ∧ ∀ x, x ∈ g'.verts → x ∈ g.verts) → (f g').1.stable = g.stable ∧ ∀ x, x ∈ (f g').1.verts → x ∈ g.verts) →
      (andThen r f).1.stable = g.stable ∧ ∀ x, x ∈ (andThen r f).1.verts → x ∈ g.verts := by
    intro r f h1 h2
    simp only [andThen]
    split
    · exact h1
    · exact h2 _ h1
  simp only [Graph.untrack]
  by_cases hv : v ∉ g.verts
  · rw [if_pos hv]
    exact ⟨rfl, fun x hx => hx⟩
  · rw [if_neg hv]
    refine key _ _ ⟨rfl, fun x hx => hx⟩ (fun g1 h1 => ?_)
    refine key _ _ h1 (fun g2 h2 => ?_)
    refine key _ _ h2 (fun g3 h3 => ?_)
    refine key _ _ h3 (fun g4 h4 => ?_)
    exact ⟨h4.1, fun x hx => h4.2 x (mem_excl.1 hx).1⟩

/-- A stable id leads to a vertex that carries it; and, if no two vertices carry the same one, to
every tracked vertex. -/
theorem stable_ids {name : V → Stable} {w : Walk} {g : Graph} (hr : GRun name w g) :
    (∀ n v, g.byStable n = some v → name v = n) ∧
      ((∀ a b, name a = name b → a = b) → (∀ v, name v ≠ []) → ∀ v, g.isTracking v = true → g.byStable (name v) = some v) := by
  have hs : (∀ n v, get g.stable n = some v → name v = n) ∧
      ((∀ a b, name a = name b → a = b) → ∀ v, v ∈ g.verts → get g.stable (name v) = some v) := by
    induction hr with
    | init => exact ⟨by simp, by simp⟩
    | @track g v _ ih =>
      rcases track_cases (name := name) (g := g) (v := v) with ⟨_, _, e⟩ | ⟨_, _, h2, e⟩ | ⟨_, _, h2, e⟩
      · rw [e]; exact ih
      · rw [e]
        refine ⟨ih.1, fun hinj x hx => ?_⟩
        rcases mem_incl.1 hx with hx | rfl
        · exact ih.2 hinj x hx
        · rw [Option.isSome_iff_exists] at h2
          obtain ⟨y, hy⟩ := h2
          have hyx := hinj _ _ (ih.1 _ _ hy)
          subst hyx
          exact hy
      · rw [e]
        constructor
        · intro n x hx
          rw [get_set] at hx
          split_ifs at hx with hn
          · rw [Option.some.injEq] at hx
            rw [← hx, hn]
          · exact ih.1 n x hx
        · intro hinj x hx
          rw [get_set]
          split_ifs with hn
          · rw [hinj _ _ hn]
          · rcases mem_incl.1 hx with hx | rfl
            · exact ih.2 hinj x hx
            · exact absurd rfl hn
    | @untrack g v _ ih =>
      obtain ⟨h1, h2⟩ := untrack_keeps w g v
      rw [h1]
      exact ⟨ih.1, fun hinj x hx => ih.2 hinj x (h2 x hx)⟩
    | other _ ih => exact ih
  constructor
  · intro n v hv
    simp only [Graph.byStable] at hv
    split_ifs at hv
    exact hs.1 n v hv
  · intro hinj hne v hv
    simp only [Graph.isTracking, decide_eq_true_eq] at hv
    simp only [Graph.byStable, if_neg (hne v)]
    exact hs.2 hinj v hv

/-- A stable id that was ever used can never be used again: adding a vertex with it throws, but the
vertex is tracked nevertheless. -/
theorem retrack_throws {name : V → Stable} {w : Walk} {g : Graph} {v v' : V} (h1 : (g.track name v).2 = none)
    (hn : name v' = name v) (hv' : v' ∉ ((g.track name v).1.untrack w v).1.verts) :
    ((((g.track name v).1.untrack w v).1).track name v').2 = some .key ∧ v' ∈ ((((g.track name v).1.untrack w v).1).track name v').1.verts := by
  rcases track_cases (name := name) (g := g) (v := v) with ⟨h, _⟩ | ⟨h, _⟩ | ⟨_, _, h3, e⟩
  · rw [h] at h1; cases h1
  · rw [h] at h1; cases h1
  · generalize ht : (g.track name v).1 = g1 at *
    obtain ⟨hst, _⟩ := untrack_keeps w g1 v
    generalize hu : (g1.untrack w v).1 = g2 at *
    rcases track_cases (name := name) (g := g2) (v := v') with ⟨_, h, _⟩ | ⟨h, _, _, e'⟩ | ⟨_, _, h, _⟩
    · exact absurd h hv'
    · exact ⟨h, by rw [e']; simp⟩
    · rw [hst, e, hn] at h
      simp [get_set] at h

/-- The full statement about adding again. -/
def RetrackStatement : Prop := ∀ (name : V → Stable) (w : Walk) (g : Graph) (v : V), w.Ok → GRun name w g → g.isTracking v = true → g.hiers = [] →
  g.colls = [] → ((g.untrack w v).1.track name v).2 = none

theorem retrack_false : ¬ RetrackStatement := by
  intro hs
  have h0 : GRun (fun _ => [7]) plainWalk (Graph.track (fun _ => [7]) ⟨[], [], [], []⟩ 1).1 := .track .init
  have := hs (fun _ => [7]) plainWalk _ 1 plainWalk_ok h0 (by decide +kernel) rfl rfl
  revert this
  decide +kernel

end Verif.Graph
