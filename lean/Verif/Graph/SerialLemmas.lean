import Verif.Graph.SerialSpec
import Verif.Graph.EdgeProps
import Verif.Graph.HierProps
import Mathlib.Tactic.Linarith

/-! # Lemmas for writing and reading graphs -/

namespace Verif.Graph

variable {A : Type}

theorem each_ok {α β : Type} {f : α → Except Err β} {k : α → β} : ∀ {l : List α}, (∀ x ∈ l, f x = .ok (k x)) → each f l = .ok (l.map k)
  | [], _ => rfl
  | x :: xs, h => by
    rw [each, h x (by simp), each_ok (fun y hy => h y (List.mem_cons_of_mem _ hy))]
    rfl

theorem each_error {α β : Type} {f : α → Except Err β} {er : Err} : ∀ {l : List α}, (∃ x ∈ l, f x = .error er) → (∀ x ∈ l, (∃ y, f x = .ok y) ∨ f x = .error er) →
    each f l = .error er
  | [], h, _ => by simp at h
  | x :: xs, h, h' => by
    rw [each]
    rcases h' x (by simp) with ⟨y, hy⟩ | hy
    · rw [hy]
      obtain ⟨z, hz, hz'⟩ := h
      rcases List.mem_cons.1 hz with rfl | hz
      · rw [hy] at hz'
        cases hz'
      · show (each f xs).bind _ = _
        rw [each_error ⟨z, hz, hz'⟩ (fun w hw => h' w (List.mem_cons_of_mem _ hw))]
        rfl
    · rw [hy]
      rfl

/-! ## Names -/

/-- The name of a vertex. -/
def Net.nm (g : Net A) (v : V) : Stable := ((get g.objs v).map (·.name)).getD []

theorem nameOf_ok {g : Net A} (hm : g.Made) {v : V} (hv : v ∈ g.verts) : g.nameOf v = .ok (g.nm v) := by
  obtain ⟨o, ho, _⟩ := hm.vertex v hv
  simp [Net.nameOf, Net.nm, ho]

theorem nm_ne {g : Net A} (hm : g.Made) {v : V} (hv : v ∈ g.verts) : g.nm v ≠ [] := by
  obtain ⟨o, ho, hn, _⟩ := hm.vertex v hv
  simpa [Net.nm, ho] using hn

theorem nm_stable {g : Net A} (hm : g.Made) {v : V} (hv : v ∈ g.verts) : get g.stable (g.nm v) = some v := by
  obtain ⟨o, ho, _, hs⟩ := hm.vertex v hv
  simpa [Net.nm, ho] using hs

theorem nm_inj {g : Net A} (hm : g.Made) {v w : V} (hv : v ∈ g.verts) (hw : w ∈ g.verts) (h : g.nm v = g.nm w) : v = w := by
  have h1 := nm_stable hm hv
  have h2 := nm_stable hm hw
  rw [h, h2] at h1
  exact (Option.some.inj h1).symm

theorem mem_order {g : Net A} {v : V} : v ∈ g.order ↔ v ∈ g.verts := by simp [Net.order, List.mem_mergeSort]

theorem order_nodup (g : Net A) : g.order.Nodup := ((List.mergeSort_perm _ _).nodup_iff).2 (List.nodup_dedup _)

/-! ## Vertices -/

theorem length_set {κ ν : Type} [DecidableEq κ] {m : AMap κ ν} {k : κ} {v : ν} (h : get m k = none) : (set m k v).length = m.length + 1 := by
  rw [set, List.length_cons]
  congr 1
  rw [List.filter_eq_self.2]
  intro x hx
  rw [decide_eq_true_iff]
  rintro rfl
  obtain ⟨v', hv'⟩ := get_of_mem (k := x.1) (v := x.2) hx
  rw [h] at hv'
  cases hv'

/-- The graph after reading some vertices. -/
structure ReadV (g : Net A) (done : List (SVert A)) : Prop where
  verts : ∀ v : Nat, v ∈ g.verts ↔ v < done.length
  size : g.objs.length = done.length
  objs : ∀ v : Nat, get g.objs v = done[v]?
  stable : ∀ (n : Stable) (v : Nat), get g.stable n = some v ↔ (done.map (·.name))[v]? = some n
  rest : g.colls = [] ∧ g.hiers = [] ∧ g.ports = []

theorem readVerts_ok : ∀ (os done : List (SVert A)) (g : Net A), ((done ++ os).map (·.name)).Nodup → ReadV g done →
    ∃ g', readVerts g os = .ok g' ∧ ReadV g' (done ++ os)
  | [], done, g, _, h => ⟨g, rfl, by simpa using h⟩
  | o :: os, done, g, hn, h => by
    have hnew : get g.stable o.name = none := by
      rw [Option.eq_none_iff_forall_ne_some]
      intro v hv
      have := (h.stable _ _).1 hv
      have hm := List.mem_of_getElem? this
      rw [List.map_append, List.map_cons] at hn
      have := (List.nodup_append.1 hn).2.2 _ hm o.name (by simp)
      exact this rfl
    have hs := h.size
    have hobj : get g.objs g.objs.length = none := by rw [h.objs, hs]; simp
    have hadd : g.addVertex o = .ok { g with
        verts := incl g.verts g.objs.length
        objs := set g.objs g.objs.length o
        stable := set g.stable o.name g.objs.length } := by
      rw [Net.addVertex, if_neg (by simp [hobj]), if_neg (by rw [h.verts, hs]; simp), if_neg (by simp [hnew])]
    obtain ⟨g', hg', hr⟩ := readVerts_ok os (done ++ [o]) { g with
        verts := incl g.verts g.objs.length
        objs := set g.objs g.objs.length o
        stable := set g.stable o.name g.objs.length } (by simpa using hn) (by
      refine ⟨?_, ?_, ?_, ?_, h.rest⟩
      · intro v
        simp only [mem_incl, h.verts, hs, List.length_append, List.length_cons, List.length_nil]
        exact (Nat.lt_succ_iff_lt_or_eq (n := done.length)).symm
      · simp only [List.length_append, List.length_cons, List.length_nil]
        rw [length_set hobj, hs]
      · intro v
        simp only [get_set, hs, h.objs]
        split
        · rename_i hv
          rw [hv]
          simp
        · rename_i hv
          replace hv : ¬ (v : Nat) = done.length := hv
          rcases Nat.lt_or_ge v done.length with hl | hl
          · rw [List.getElem?_append_left hl]
          · rw [List.getElem?_eq_none hl, List.getElem?_append_right hl, List.getElem?_eq_none]
            simp only [List.length_cons, List.length_nil]
            omega
      · intro n v
        simp only [get_set, hs]
        split
        · rename_i hv
          subst hv
          simp only [Option.some.injEq, List.map_append, List.map_cons, List.map_nil]
          constructor
          · rintro rfl
            simp
          · intro hv
            show (done.length : Nat) = v
            rcases Nat.lt_or_ge v done.length with hl | hl
            · rw [List.getElem?_append_left (by simpa using hl)] at hv
              have := (h.stable _ _).2 hv
              rw [hnew] at this
              cases this
            · have : v < (done.map (·.name) ++ [o.name]).length := by
                by_contra hc
                rw [List.getElem?_eq_none (Nat.le_of_not_lt hc)] at hv
                cases hv
              simp only [List.length_append, List.length_map, List.length_cons, List.length_nil] at this
              omega
        · rename_i hv
          rw [h.stable, List.map_append, List.map_cons, List.map_nil]
          rcases Nat.lt_or_ge v done.length with hl | hl
          · rw [List.getElem?_append_left (by simpa using hl)]
          · rw [List.getElem?_eq_none (by simpa using hl), List.getElem?_append_right (by simpa using hl)]
            constructor
            · intro hc; cases hc
            · intro hc
              have := List.mem_of_getElem? hc
              rw [List.mem_singleton] at this
              exact absurd this hv)
    refine ⟨g', ?_, by simpa using hr⟩
    rw [readVerts, hadd]
    exact hg'

/-- The number of a vertex in the order of writing. -/
def Net.place (g : Net A) (v : V) : V := g.order.idxOf v

/-- What the vertices of a message say. -/
def Net.vertsOf (g : Net A) : List (SVert A) := g.order.map (fun v => (get g.objs v).getD ⟨[], []⟩)

theorem writeVerts_ok {g : Net A} (hm : g.Made) : each (writeVert g) g.order = .ok g.vertsOf := by
  apply each_ok
  intro v hv
  obtain ⟨o, ho, _⟩ := hm.vertex v (mem_order.1 hv)
  simp [writeVert, ho]

theorem vertsOf_names {g : Net A} (hm : g.Made) : (g.vertsOf.map (·.name)) = g.order.map g.nm := by
  rw [Net.vertsOf, List.map_map]
  apply List.map_congr_left
  intro v hv
  obtain ⟨o, ho, _⟩ := hm.vertex v (mem_order.1 hv)
  simp [Net.nm, ho]

theorem names_nodup {g : Net A} (hm : g.Made) : (g.order.map g.nm).Nodup := by
  rw [List.nodup_map_iff_inj_on (order_nodup g)]
  intro x hx y hy h
  exact nm_inj hm (mem_order.1 hx) (mem_order.1 hy) h

theorem place_get {g : Net A} {v : V} (hv : v ∈ g.verts) : g.order[g.place v]? = some v := by
  have := mem_order.2 hv
  rw [Net.place, List.getElem?_eq_getElem (List.idxOf_lt_length_iff.2 this), List.getElem_idxOf]

/-- Reading the vertices that were written. -/
theorem verts_read {g : Net A} (hm : g.Made) : ∃ g1, readVerts (⟨[], [], [], [], [], []⟩ : Net A) g.vertsOf = .ok g1 ∧ SameVerts g.place g g1 ∧
    g1.colls = [] ∧ g1.hiers = [] ∧ g1.ports = [] := by
  obtain ⟨g1, h1, h2⟩ := readVerts_ok g.vertsOf [] (⟨[], [], [], [], [], []⟩ : Net A) (by rw [List.nil_append, vertsOf_names hm]; exact names_nodup hm)
    ⟨by simp, rfl, by simp, by simp, rfl, rfl, rfl⟩
  rw [List.nil_append] at h2
  refine ⟨g1, h1, ⟨?_, ?_, ?_, ?_⟩, h2.rest⟩
  · intro w
    rw [h2.verts, Net.vertsOf, List.length_map]
    constructor
    · intro hw
      refine ⟨g.order[w], mem_order.1 (List.getElem_mem hw), ?_⟩
      rw [Net.place]
      exact (order_nodup g).idxOf_getElem w hw
    · rintro ⟨v, hv, rfl⟩
      exact List.idxOf_lt_length_iff.2 (mem_order.2 hv)
  · intro v hv w hw h
    have h3 := place_get hv
    have h4 := place_get hw
    rw [h, h4] at h3
    exact (Option.some.inj h3).symm
  · intro v hv
    rw [h2.objs, Net.vertsOf, List.getElem?_map, place_get hv]
    obtain ⟨o, ho, _⟩ := hm.vertex v hv
    simp [ho]
  · intro v hv o ho
    have hn := nm_ne hm hv
    have hnm : g.nm v = o.name := by simp [Net.nm, ho]
    rw [Net.lookup, if_neg (hnm ▸ hn)]
    have : get g1.stable o.name = some (g.place v) := by
      rw [h2.stable, vertsOf_names hm, List.getElem?_map, place_get hv, Option.map_some, hnm]
    rw [this]

theorem lookup_nm {f : V → V} {g g1 : Net A} (hm : g.Made) (hs : SameVerts f g g1) {v : V} (hv : v ∈ g.verts) : g1.lookup (g.nm v) = .ok (f v) := by
  obtain ⟨o, ho, _⟩ := hm.vertex v hv
  have := hs.found v hv o ho
  simpa [Net.nm, ho] using this

/-! ## Edges -/

theorem run_named {b : Bool} {c : Coll} {L : List (E × V × V)} (h : Run b c L) : get c.stable [] = none := by
  induction h with
  | init => rfl
  | store _ hs ih =>
    simp only [storeEdge] at hs
    split at hs
    · simp at hs
    · simp only [Except.ok.injEq] at hs
      subst hs
      exact ih
  | @track c L e s t c' _ ht ih =>
    rw [trackEdge] at ht
    split at ht
    · simp at ht
    · split at ht
      · simp at ht
      · split at ht
        · simp at ht
        · simp only [Except.ok.injEq] at ht
          subst ht
          rename_i n _ hn _
          simp only [get_set]
          rw [if_neg (fun h => hn h.symm)]
          exact ih
  | untrack hr hu _ ih =>
    obtain ⟨_, _, h1⟩ := untrack_effect hu
    simp_all
  | trackVertex _ ih => exact ih
  | untrackVertex hr _ hu ih =>
    have := untrackVertex_effect (run_base hr) hu
    simp_all

/-- The name of an edge. -/
def EColl.nm (c : EColl A) (e : E) : Stable := (get c.coll.store e).getD []

/-- The ends of an edge. -/
def EColl.ends (c : EColl A) (e : E) : V × V := (get c.coll.ends e).getD (0, 0)

/-- What is known about the edges of a collection. -/
theorem edge_known {b : Bool} {c : EColl A} {L : List (E × V × V)} (hr : Run b c.coll L) {e : E} (he : e ∈ getEdges c.coll) :
    get c.coll.store e = some (c.nm e) ∧ c.nm e ≠ [] ∧ get c.coll.stable (c.nm e) = some e ∧ get c.coll.ends e = some (c.ends e) := by
  obtain ⟨s, t, hin⟩ := mem_edges.1 he
  have h1 := (run_base hr).ends _ _ _ hin
  obtain ⟨n, h2, h3⟩ := (run_base hr).known e _ h1
  have : c.nm e = n := by simp [EColl.nm, h2]
  rw [this]
  refine ⟨h2, ?_, h3, by simp [EColl.ends, h1]⟩
  rintro rfl
  rw [run_named hr] at h3
  cases h3

theorem find_coll {l : List (EColl A)} (hn : (l.map (·.id)).Nodup) {c : EColl A} (hc : c ∈ l) {k : Nat} (hk : k = c.id) :
    l.find? (fun x => decide (x.id = k)) = some c := by
  subst hk
  induction l with
  | nil => cases hc
  | cons x xs ih =>
    rw [List.map_cons, List.nodup_cons] at hn
    rw [List.find?_cons]
    rcases List.mem_cons.1 hc with rfl | hc
    · simp
    · have : x.id ≠ c.id := fun h => hn.1 (h ▸ List.mem_map_of_mem hc)
      simp only [this, decide_false]
      exact ih hn.2 hc

/-- What the message says about an edge. -/
def Net.edgeOf (g : Net A) (c : EColl A) (e : E) : SEdge A := ⟨c.nm e, g.nm (c.ends e).1, g.nm (c.ends e).2, []⟩

theorem writeColl_ok {g : Net A} (hm : g.Made) {c : EColl A} (hc : c ∈ g.colls) : writeColl g c = .ok ((getEdges c.coll).dedup.map (g.edgeOf c)) := by
  apply each_ok
  intro e he
  rw [List.mem_dedup] at he
  obtain ⟨b, L, hr⟩ := hm.colls c hc
  obtain ⟨h1, _, _, h4⟩ := edge_known hr he
  obtain ⟨h5, h6⟩ := hm.edges c hc e he
  obtain ⟨h7, h8⟩ := h6 (c.ends e).1 (c.ends e).2 (ends_ok.2 h4)
  rw [writeEdge, h1]
  have : g.ends e = .ok (c.ends e) := by
    rw [Net.ends, Net.collOf, find_coll hm.ids hc h5]
    exact ends_ok.2 h4
  rw [this]
  show (g.nameOf (c.ends e).1).bind _ = _
  rw [nameOf_ok hm h7]
  show (g.nameOf (c.ends e).2).bind _ = _
  rw [nameOf_ok hm h8]
  rfl

/-- The collection after reading some edges. -/
structure ReadE (c : EColl A) (done : List (Stable × V × V)) : Prop where
  run : Run true c.coll (done.mapIdx (fun i x => (i, x.2.1, x.2.2)))
  size : c.coll.store.length = done.length
  store : ∀ i : Nat, get c.coll.store i = (done.map (·.1))[i]?
  stable : ∀ n, get c.coll.stable n = none ↔ n ∉ done.map (·.1)

theorem readColl_ok {g1 : Net A} : ∀ (es : List (SEdge A × V × V)) (done : List (Stable × V × V)) (c : EColl A),
    (∀ x ∈ es, x.1.name ≠ [] ∧ x.1.attrs = [] ∧ g1.lookup x.1.source = .ok x.2.1 ∧ g1.lookup x.1.target = .ok x.2.2) →
    (done.map (·.1) ++ es.map (·.1.name)).Nodup → ReadE c done → (∀ e, (get c.attrs e).getD [] = []) →
    ∃ c', readColl g1 c (es.map (·.1)) = .ok c' ∧ ReadE c' (done ++ es.map (fun x => (x.1.name, x.2))) ∧ c'.id = c.id ∧ ∀ e, (get c'.attrs e).getD [] = []
  | [], done, c, _, _, h, ha => ⟨c, rfl, by simpa using h, rfl, ha⟩
  | (e, s, t) :: es, done, c, hx, hn, h, ha => by
    obtain ⟨h1, h2, h3, h4⟩ := hx (e, s, t) (by simp)
    simp only at h1 h2 h3 h4
    have hi : nextId c.coll = done.length := h.size
    have hnew : get c.coll.store done.length = none := by rw [h.store]; simp
    have hfresh : get c.coll.stable e.name = none := by
      rw [h.stable]
      intro hc
      exact (List.nodup_append.1 hn).2.2 _ hc e.name (by simp) rfl
    have hst : storeEdge c.coll done.length e.name = .ok { c.coll with store := set c.coll.store done.length e.name } := by
      rw [storeEdge, hnew]
    have htr : ∃ c2, trackEdge { c.coll with store := set c.coll.store done.length e.name } done.length s t = .ok c2 := by
      rw [trackEdge]
      simp only [get_set, if_true]
      rw [if_neg h1, if_neg (by simp [hfresh])]
      exact ⟨_, rfl⟩
    obtain ⟨c2, hc2⟩ := htr
    obtain ⟨n, k1, k2, k3, k4, k5, k6, k7⟩ := track_effect hc2
    simp only [get_set, if_true, Option.some.injEq] at k1
    subst k1
    simp only at k2 k3 k4
    have hrd : readEdge g1 c e = .ok { c with coll := c2, attrs := set c.attrs done.length e.attrs } := by
      rw [readEdge]
      simp only [hi]
      rw [hst]
      show (g1.lookup e.source).bind _ = _
      rw [h3]
      show (g1.lookup e.target).bind _ = _
      rw [h4]
      show (trackEdge _ _ s t).bind _ = _
      rw [hc2]
      rfl
    obtain ⟨c', hc', hr, hid, hat⟩ := readColl_ok es (done ++ [(e.name, s, t)]) { c with coll := c2, attrs := set c.attrs done.length e.attrs }
      (fun x hxm => hx x (List.mem_cons_of_mem _ hxm)) (by simpa using hn) (by
      refine ⟨?_, ?_, ?_, ?_⟩
      · rw [List.mapIdx_append]
        have := Run.track (.store h.run hst) hc2
        simpa using this
      · simp only [k3, length_set hnew, h.size, List.length_append, List.length_cons, List.length_nil]
      · intro i
        simp only [k3, get_set, List.map_append, List.map_cons, List.map_nil]
        split
        · rename_i hv
          rw [hv]
          simp
        · rename_i hv
          replace hv : ¬ (i : Nat) = done.length := hv
          rw [h.store]
          rcases Nat.lt_or_ge i done.length with hl | hl
          · rw [List.getElem?_append_left (by simpa using hl)]
          · rw [List.getElem?_eq_none (by simpa using hl), List.getElem?_append_right (by simpa using hl), List.getElem?_eq_none]
            simp only [List.length_cons, List.length_nil, List.length_map]
            omega
      · intro m
        simp only [k4, get_set, List.map_append, List.map_cons, List.map_nil, List.mem_append, List.mem_singleton]
        split
        · rename_i hv
          simp [hv]
        · rename_i hv
          rw [h.stable]
          simp [hv]) (by
      intro e'
      simp only [get_set]
      split
      · simp [h2]
      · exact ha e')
    refine ⟨c', ?_, by simpa using hr, hid, hat⟩
    rw [List.map_cons, readColl, hrd]
    exact hc'

theorem joins_read {c : EColl A} {done : List (Stable × V × V)} (h : ReadE c done) {n : Stable} {s t : V} : c.Joins n s t ↔ (n, s, t) ∈ done := by
  have hl := edges_partial h.run
  have hmem : ∀ i s t, (i, s, t) ∈ done.mapIdx (fun i x => (i, x.2.1, x.2.2)) ↔ ∃ m, done[i]? = some (m, s, t) := by
    intro i s t
    rw [List.mem_iff_getElem?]
    simp only [List.getElem?_mapIdx, Option.map_eq_some_iff, Prod.mk.injEq]
    constructor
    · rintro ⟨j, ⟨m, s', t'⟩, hj, rfl, rfl, rfl⟩
      exact ⟨m, hj⟩
    · rintro ⟨m, hm⟩
      exact ⟨i, (m, s, t), hm, rfl, rfl, rfl⟩
  constructor
  · rintro ⟨e, he, hends, hst⟩
    obtain ⟨s', t', hm⟩ := (hl.edges e).1 he
    rw [hl.ends _ _ _ hm] at hends
    cases hends
    obtain ⟨m, hm'⟩ := (hmem _ _ _).1 hm
    rw [h.store, List.getElem?_map, hm'] at hst
    cases hst
    exact List.mem_of_getElem? hm'
  · intro hm
    obtain ⟨i, hi⟩ := List.mem_iff_getElem?.1 hm
    have := (hmem i s t).2 ⟨n, hi⟩
    refine ⟨i, (hl.edges i).2 ⟨s, t, this⟩, hl.ends _ _ _ this, ?_⟩
    rw [h.store, List.getElem?_map, hi]
    rfl

/-- Reading the edges that were written. -/
theorem coll_read {f : V → V} {g g1 : Net A} (hm : g.Made) (hs : SameVerts f g g1) {c : EColl A} (hc : c ∈ g.colls) (k : Nat) :
    ∃ c', readColl g1 ⟨k, .empty, []⟩ ((getEdges c.coll).dedup.map (g.edgeOf c)) = .ok c' ∧ SameEdges f c c' ∧ c'.id = k ∧
      (∀ e, (get c'.attrs e).getD [] = []) ∧ (∀ e ∈ getEdges c'.coll, e < (getEdges c.coll).dedup.length) := by
  obtain ⟨b, L, hr⟩ := hm.colls c hc
  obtain ⟨c', h1, h2, h3, h4⟩ := readColl_ok (g1 := g1) ((getEdges c.coll).dedup.map (fun e => (g.edgeOf c e, f (c.ends e).1, f (c.ends e).2))) []
    ⟨k, .empty, []⟩ (by
      intro x hx
      rw [List.mem_map] at hx
      obtain ⟨e, he, rfl⟩ := hx
      rw [List.mem_dedup] at he
      obtain ⟨_, k2, _, k4⟩ := edge_known hr he
      obtain ⟨k7, k8⟩ := (hm.edges c hc e he).2 (c.ends e).1 (c.ends e).2 (ends_ok.2 k4)
      exact ⟨k2, rfl, lookup_nm hm hs k7, lookup_nm hm hs k8⟩) (by
      rw [List.map_nil, List.nil_append, List.map_map]
      rw [List.nodup_map_iff_inj_on (List.nodup_dedup _)]
      intro x hx y hy h
      rw [List.mem_dedup] at hx hy
      obtain ⟨_, _, k3, _⟩ := edge_known hr hx
      obtain ⟨_, _, k3', _⟩ := edge_known hr hy
      simp only [Function.comp, Net.edgeOf] at h
      rw [h, k3'] at k3
      exact (Option.some.inj k3).symm) ⟨.init, rfl, fun _ => by simp [Coll.empty], fun _ => by simp [Coll.empty]⟩ (fun _ => by simp)
  rw [List.map_map] at h1
  refine ⟨c', h1, ?_, h3, h4, ?_⟩
  · intro n s' t'
    rw [joins_read h2]
    simp only [List.nil_append, List.map_map, List.mem_map, List.mem_dedup, Function.comp, Net.edgeOf, Prod.mk.injEq]
    constructor
    · rintro ⟨e, he, rfl, rfl, rfl⟩
      obtain ⟨k1, _, _, k4⟩ := edge_known hr he
      exact ⟨_, _, rfl, rfl, e, he, ends_ok.2 k4, k1⟩
    · rintro ⟨s, t, rfl, rfl, e, he, k1, k2⟩
      obtain ⟨k1', _, _, k4⟩ := edge_known hr he
      rw [ends_ok.2 k4] at k1
      rw [k2] at k1'
      refine ⟨e, he, (Option.some.inj k1').symm, ?_, ?_⟩
      · rw [Except.ok.inj k1]
      · rw [Except.ok.inj k1]
  · intro e he
    obtain ⟨s, t, hm'⟩ := ((edges_partial h2.run).edges e).1 he
    rw [List.mem_iff_getElem?] at hm'
    obtain ⟨i, hi⟩ := hm'
    rw [List.getElem?_mapIdx, Option.map_eq_some_iff] at hi
    obtain ⟨x, hx, hx'⟩ := hi
    simp only [Prod.mk.injEq] at hx'
    obtain ⟨rfl, _⟩ := hx'
    have : i < (([] : List (Stable × V × V)) ++ ((getEdges c.coll).dedup.map (fun e => (g.edgeOf c e, f (c.ends e).1, f (c.ends e).2))).map (fun x => (x.1.name, x.2))).length := by
      by_contra hcon
      rw [List.getElem?_eq_none (by omega)] at hx
      cases hx
    simpa using this

end Verif.Graph
