import Verif.Graph.SerialHier
import Verif.Graph.HierProps

/-! # Graphs survive being written and read – C157 to C160 -/

namespace Verif.Graph

variable {A : Type}

/-! ### Graphs that are built -/

/-- A graph made by adding vertices, edges and hierarchy relations; `hash` gives the ids of the edges of the
hierarchies. -/
inductive Net.Built (hash : V → V → E) : Net A → Prop
  | empty {ids : List Nat} (n : Nat) (ports : List Ports) : ids.Nodup →
      Net.Built hash ⟨[], [], [], ids.map (fun i => ⟨i, .empty, []⟩), List.replicate n .empty, ports⟩
  | vertex {g g' : Net A} {o : SVert A} : g.Built hash → o.name ≠ [] → g.addVertex o = .ok g' → g'.Built hash
  | edge {g : Net A} {l r : List (EColl A)} {c c' : EColl A} {s t : V} {n : Stable} {attrs : List A} :
      g.Built hash → g.colls = l ++ c :: r → s ∈ g.verts → t ∈ g.verts → c.coll.store.length < 2 ^ 48 →
      c.addEdge s t n attrs = .ok c' → Net.Built hash { g with colls := l ++ c' :: r }
  | track {g : Net A} {l r : List Hier} {h h' : Hier} {v : V} :
      g.Built hash → g.hiers = l ++ h :: r → v ∈ g.verts → h.track v = .ok h' → Net.Built hash { g with hiers := l ++ h' :: r }
  | nest {g : Net A} {l r : List Hier} {h : Hier} {p s : V} :
      g.Built hash → g.hiers = l ++ h :: r → Net.Built hash { g with hiers := l ++ (h.nestSub hash p s).1 :: r }

theorem nestSub_ids {hash : V → V → E} {h : Hier} {p s : V} : (h.nestSub hash p s).1.ids = h.ids := by
  rw [Hier.nestSub]
  split
  · rfl
  · split
    · rfl
    · rw [Hier.nest]
      simp only
      repeat' split
      all_goals rfl

/-- What every built graph satisfies. -/
structure Known (hash : V → V → E) (g : Net A) : Prop where
  vertex : ∀ v ∈ g.verts, ∃ o, get g.objs v = some o ∧ o.name ≠ [] ∧ get g.stable o.name = some v
  ids : (g.colls.map (·.id)).Nodup
  colls : ∀ c ∈ g.colls, ∃ L, Run true c.coll L ∧ ∀ x ∈ L, maskOf x.1 = c.id ∧ x.2.1 ∈ g.verts ∧ x.2.2 ∈ g.verts
  hiers : ∀ h ∈ g.hiers, HRun false hash h
  inside : ∀ h ∈ g.hiers, ∀ v ∈ h.getAll, v ∈ g.verts

theorem built_known {hash : V → V → E} {g : Net A} (hb : g.Built hash) : Known hash g := by
  induction hb with
  | empty n ports hn =>
    refine ⟨by simp, by simpa [Function.comp_def] using hn, ?_, ?_, ?_⟩
    · intro c hc
      obtain ⟨i, _, rfl⟩ := List.mem_map.1 hc
      exact ⟨[], .init, by simp⟩
    · intro h hh
      rw [(List.mem_replicate.1 hh).2]
      exact .init
    · intro h hh
      rw [(List.mem_replicate.1 hh).2]
      simp [Hier.getAll, Hier.empty]
  | @vertex g g' o _ hne ha ih =>
    rw [Net.addVertex] at ha
    split at ha
    · cases ha
    · split at ha
      · cases ha
      · split at ha
        · cases ha
        · rename_i h1 h2 h3
          cases ha
          refine ⟨?_, ih.ids, ?_, ih.hiers, ?_⟩
          · intro v hv
            rcases (mem_incl ..).1 hv with hv | rfl
            · obtain ⟨p, k1, k2, k3⟩ := ih.vertex v hv
              have hvn : v ≠ g.objs.length := by
                rintro rfl
                exact h2 hv
              have hon : p.name ≠ o.name := by
                intro hc
                rw [hc] at k3
                exact h3 (by rw [k3]; rfl)
              refine ⟨p, ?_, k2, ?_⟩
              · show get (set _ _ _) _ = _
                rw [get_set, if_neg hvn]
                exact k1
              · show get (set _ _ _) _ = _
                rw [get_set, if_neg hon]
                exact k3
            · refine ⟨o, ?_, hne, ?_⟩
              · show get (set _ _ _) _ = _
                rw [get_set, if_pos rfl]
              · show get (set _ _ _) _ = _
                rw [get_set, if_pos rfl]
          · intro c hc
            obtain ⟨L, k1, k2⟩ := ih.colls c hc
            exact ⟨L, k1, fun x hx => ⟨(k2 x hx).1, (mem_incl ..).2 (.inl (k2 x hx).2.1), (mem_incl ..).2 (.inl (k2 x hx).2.2)⟩⟩
          · intro h hh v hv
            exact (mem_incl ..).2 (.inl (ih.inside h hh v hv))
  | @edge g l r c c' s t n attrs _ hg hs ht hlen ha ih =>
    have hc : c ∈ g.colls := by rw [hg]; simp
    rw [EColl.addEdge] at ha
    cases h1 : storeEdge c.coll (masked c.id c.coll.store.length) n with
    | error e => rw [h1] at ha; cases ha
    | ok c1 =>
      rw [h1, ok_bind] at ha
      cases h2 : trackEdge c1 (masked c.id c.coll.store.length) s t with
      | error e => rw [h2] at ha; cases ha
      | ok c2 =>
        rw [h2, ok_bind] at ha
        cases ha
        refine ⟨ih.vertex, ?_, ?_, ih.hiers, ih.inside⟩
        · have := ih.ids
          rw [hg] at this
          simpa using this
        · intro d hd
          rcases List.mem_append.1 hd with hd | hd
          · exact ih.colls d (by rw [hg]; simp [hd])
          · rcases List.mem_cons.1 hd with rfl | hd
            · obtain ⟨L, k1, k2⟩ := ih.colls c hc
              refine ⟨_, .track (.store k1 h1) h2, ?_⟩
              intro x hx
              rcases List.mem_append.1 hx with hx | hx
              · exact k2 x hx
              · rw [List.mem_singleton.1 hx]
                refine ⟨?_, hs, ht⟩
                show (masked c.id c.coll.store.length) / 2 ^ 48 = c.id
                rw [masked, Nat.mul_comm, Nat.mul_add_div (by decide), Nat.div_eq_of_lt hlen, Nat.add_zero]
            · exact ih.colls d (by rw [hg]; simp [hd])
  | @track g l r h h' v _ hg hv ht ih =>
    have hh : h ∈ g.hiers := by rw [hg]; simp
    refine ⟨ih.vertex, ih.ids, ih.colls, ?_, ?_⟩
    · intro k hk
      rcases List.mem_append.1 hk with hk | hk
      · exact ih.hiers k (by rw [hg]; simp [hk])
      · rcases List.mem_cons.1 hk with rfl | hk
        · exact .track (ih.hiers h hh) ht
        · exact ih.hiers k (by rw [hg]; simp [hk])
    · intro k hk
      rcases List.mem_append.1 hk with hk | hk
      · exact ih.inside k (by rw [hg]; simp [hk])
      · rcases List.mem_cons.1 hk with rfl | hk
        · rw [Hier.track] at ht
          split at ht
          · cases ht
          · cases ht
            intro w hw
            rcases (mem_incl ..).1 hw with hw | rfl
            · exact ih.inside h hh w hw
            · exact hv
        · exact ih.inside k (by rw [hg]; simp [hk])
  | @nest g l r h p s _ hg ih =>
    have hh : h ∈ g.hiers := by rw [hg]; simp
    refine ⟨ih.vertex, ih.ids, ih.colls, ?_, ?_⟩
    · intro k hk
      rcases List.mem_append.1 hk with hk | hk
      · exact ih.hiers k (by rw [hg]; simp [hk])
      · rcases List.mem_cons.1 hk with rfl | hk
        · exact .nest (ih.hiers h hh) (by simp)
        · exact ih.hiers k (by rw [hg]; simp [hk])
    · intro k hk
      rcases List.mem_append.1 hk with hk | hk
      · exact ih.inside k (by rw [hg]; simp [hk])
      · rcases List.mem_cons.1 hk with rfl | hk
        · intro v hv
          rw [Hier.getAll, nestSub_ids] at hv
          exact ih.inside h hh v hv
        · exact ih.inside k (by rw [hg]; simp [hk])

/-- Every graph that is built meets the condition of the theorems below. -/
theorem built_made {hash : V → V → E} {g : Net A} (hb : g.Built hash) : g.Made := by
  have hk := built_known hb
  refine ⟨hk.vertex, hk.ids, fun c hc => ?_, fun c hc e he => ?_, fun h hh => ⟨false, hash, hk.hiers h hh⟩, hk.inside⟩
  · obtain ⟨L, h1, _⟩ := hk.colls c hc
    exact ⟨true, L, h1⟩
  · obtain ⟨L, h1, h2⟩ := hk.colls c hc
    have hl := edges_partial h1
    obtain ⟨s, t, hin⟩ := (hl.edges e).1 he
    refine ⟨(h2 _ hin).1, fun s' t' hst => ?_⟩
    rw [hl.ends e s t hin] at hst
    cases hst
    exact (h2 _ hin).2

/-! ### Writing and reading -/

theorem each_rel {α β : Type} {f : α → Except Err β} {R : α → β → Prop} : ∀ {l : List α}, (∀ x ∈ l, ∃ y, f x = .ok y ∧ R x y) →
    ∃ ys, each f l = .ok ys ∧ List.Forall₂ R l ys
  | [], _ => ⟨[], rfl, .nil⟩
  | x :: xs, h => by
    obtain ⟨y, h1, h2⟩ := h x (by simp)
    obtain ⟨ys, h3, h4⟩ := each_rel (f := f) (R := R) (l := xs) (fun z hz => h z (List.mem_cons_of_mem _ hz))
    refine ⟨y :: ys, ?_, .cons h2 h4⟩
    rw [each, h1, ok_bind, h3, ok_bind]

theorem each_map {α β γ : Type} (f : β → Except Err γ) (k : α → β) : ∀ l : List α, each f (l.map k) = each (fun x => f (k x)) l
  | [] => rfl
  | x :: xs => by
    rw [List.map_cons, each, each, each_map f k xs]

theorem write_ok {g : Net A} (hm : g.Made) :
    g.write = .ok ⟨g.colls.map (fun c => (getEdges c.coll).dedup.map (g.edgeOf c)), g.hiers.map g.hierOf, g.vertsOf, []⟩ := by
  rw [Net.write, each_ok (fun c hc => writeColl_ok hm hc), ok_bind, each_ok (fun h hh => writeHier_ok hm hh), ok_bind, writeVerts_ok hm, ok_bind]

/-- What is read of a collection. -/
def CollRead (f : V → V) (k : Nat) (c c' : EColl A) : Prop :=
  SameEdges f c c' ∧ c'.id = k ∧ (∀ e, (get c'.attrs e).getD [] = []) ∧ (∀ e ∈ getEdges c'.coll, e < (getEdges c.coll).dedup.length)

/-- Reading up to the hierarchies. -/
theorem read_step {g : Net A} (hm : g.Made) {ids : List Nat} (hn : ids.Nodup) (hl : ids.length = g.colls.length) :
    ∃ (g1 : Net A) (cs : List (EColl A)), SameVerts g.place g g1 ∧ List.Forall₂ (fun x c' => CollRead g.place x.1 x.2 c') (ids.zip g.colls) cs ∧
      ∀ d, g.write = .ok d → Net.read ids d = (each (readHier g1) (g.hiers.map g.hierOf)).bind fun hs => .ok { g1 with colls := cs, hiers := hs, ports := [] } := by
  obtain ⟨g1, h1, h2, h3⟩ := verts_read hm
  obtain ⟨cs, h4, h5⟩ := each_rel (f := fun x : Nat × EColl A => readColl g1 ⟨x.1, .empty, []⟩ ((getEdges x.2.coll).dedup.map (g.edgeOf x.2)))
    (R := fun x c' => CollRead g.place x.1 x.2 c') (l := ids.zip g.colls) (by
      intro x hx
      exact coll_read hm h2 (List.of_mem_zip hx).2 x.1)
  refine ⟨g1, cs, h2, h5, ?_⟩
  intro d hd
  rw [write_ok hm] at hd
  cases hd
  rw [Net.read, if_neg (by simpa using hn)]
  dsimp only
  rw [h1, ok_bind, List.zip_map_right, each_map]
  simp only [Prod.map, id]
  rw [h4, ok_bind]

theorem same_colls {f : V → V} : ∀ {ids : List Nat} {l cs : List (EColl A)}, ids.length = l.length →
    List.Forall₂ (fun x c' => CollRead f x.1 x.2 c') (ids.zip l) cs → List.Forall₂ (SameEdges f) l cs ∧ cs.map (·.id) = ids
  | [], [], cs, _, h => by
    cases h
    exact ⟨.nil, rfl⟩
  | i :: ids, c :: l, cs, hl, h => by
    rw [List.zip_cons_cons] at h
    cases h with
    | cons h1 h2 =>
      obtain ⟨h3, h4⟩ := same_colls (by simpa using hl) h2
      refine ⟨.cons h1.1 h3, ?_⟩
      rw [List.map_cons, h1.2.1, h4]

/-- The order of the vertices is kept. -/
theorem place_mono {g : Net A} {v w : V} (hv : v ∈ g.verts) (hw : w ∈ g.verts) (h : v < w) : g.place v < g.place w := by
  have hs : g.order.Pairwise (fun a b => decide (a ≤ b) = true) :=
    List.pairwise_mergeSort (fun a b c h1 h2 => by rw [decide_eq_true_iff] at *; exact Nat.le_trans h1 h2) (fun a b => by
      simp only [Bool.or_eq_true, decide_eq_true_iff]; exact Nat.le_total a b) _
  by_contra hc
  have hlt : g.place w < g.place v := by
    rcases Nat.lt_or_eq_of_le (Nat.not_lt.1 hc) with h1 | he
    · exact h1
    · have h1 := place_get hv
      rw [← he, place_get hw] at h1
      rw [Option.some.inj h1] at h
      exact absurd h (Nat.lt_irrefl _)
  have h1 := place_get hv
  have h2 := place_get hw
  obtain ⟨h3, h4⟩ := List.getElem?_eq_some_iff.1 h1
  obtain ⟨h5, h6⟩ := List.getElem?_eq_some_iff.1 h2
  have h7 := List.pairwise_iff_getElem.1 hs _ _ h5 h3 hlt
  rw [h4, h6, decide_eq_true_iff] at h7
  exact absurd h (Nat.not_lt.2 h7)

/-! ### C157: vertices -/

/-- C157: every graph can be written, and whenever the message can be read the vertices are there with their names and
attributes, found under their names and in the same order. -/
theorem vertices_kept {g : Net A} (hm : g.Made) : ∃ d, g.write = .ok d ∧
    ∀ ids : List Nat, ids.length = g.colls.length → ∀ g', Net.read ids d = .ok g' →
      ∃ f, SameVerts f g g' ∧ ∀ v ∈ g.verts, ∀ w ∈ g.verts, v < w → f v < f w := by
  refine ⟨_, write_ok hm, fun ids hl g' hr => ⟨g.place, ?_, fun v hv w hw => place_mono hv hw⟩⟩
  by_cases hn : ids.Nodup
  · obtain ⟨g1, cs, h1, _, h3⟩ := read_step hm hn hl
    rw [h3 _ (write_ok hm)] at hr
    cases he : each (readHier g1) (g.hiers.map g.hierOf) with
    | error e => rw [he] at hr; cases hr
    | ok hs =>
      rw [he, ok_bind] at hr
      cases hr
      exact ⟨h1.onto, h1.inj, h1.objs, h1.found⟩
  · rw [Net.read, if_pos hn] at hr
    cases hr

/-! ### C158 and C159: edges and hierarchies -/

/-- C158 and C159, what holds: a graph without a vertex that stands alone in a hierarchy is read back, with its edges
(their names, sources and targets) and its nesting. -/
theorem graph_partial {g : Net A} (hm : g.Made) {ids : List Nat} (hn : ids.Nodup) (hl : ids.length = g.colls.length)
    (alone : ∀ h ∈ g.hiers, ∀ v ∈ h.getRoots, h.getSubs v ≠ []) :
    ∃ d g' f, g.write = .ok d ∧ Net.read ids d = .ok g' ∧ SameVerts f g g' ∧ List.Forall₂ (SameEdges f) g.colls g'.colls ∧
      g'.colls.map (·.id) = ids ∧ List.Forall₂ (SameNesting f) g.hiers g'.hiers := by
  obtain ⟨g1, cs, h1, h2, h3⟩ := read_step hm hn hl
  obtain ⟨hs, h4, h5⟩ := each_rel (f := fun h => readHier g1 (g.hierOf h)) (R := SameNesting g.place) (l := g.hiers) (by
    intro h hh
    obtain ⟨h', k1, k2, _⟩ := hier_read hm h1 hh (alone h hh)
    exact ⟨h', k1, k2⟩)
  obtain ⟨h6, h7⟩ := same_colls hl h2
  refine ⟨_, { g1 with colls := cs, hiers := hs, ports := [] }, g.place, write_ok hm, ?_, ⟨h1.onto, h1.inj, h1.objs, h1.found⟩, h6, h7, h5⟩
  rw [h3 _ (write_ok hm), each_map, h4, ok_bind]

/-- C159, the missing case: a graph with a vertex that stands alone in a hierarchy is written, and what is written
cannot be read. -/
theorem lone_unreadable {g : Net A} (hm : g.Made) {ids : List Nat} (hn : ids.Nodup) (hl : ids.length = g.colls.length)
    {h : Hier} (hh : h ∈ g.hiers) {v : V} (hv : v ∈ h.getRoots) (hs : h.getSubs v = []) :
    ∃ d, g.write = .ok d ∧ Net.read ids d = .error .graph := by
  obtain ⟨g1, cs, h1, h2, h3⟩ := read_step hm hn hl
  refine ⟨_, write_ok hm, ?_⟩
  rw [h3 _ (write_ok hm), each_map, each_error (er := .graph) ⟨h, hh, hier_refused hm h1 hh ⟨v, hv, hs⟩⟩]
  · rfl
  · intro k hk
    by_cases hc : ∃ v ∈ k.getRoots, k.getSubs v = []
    · exact .inr (hier_refused hm h1 hk hc)
    · obtain ⟨k', h4, _⟩ := hier_read hm h1 hk (by
        intro w hw he
        exact hc ⟨w, hw, he⟩)
      exact .inl ⟨k', h4⟩

/-- A pair of one list belongs to a pair of the other. -/
theorem forall_mem {α β : Type} {R : α → β → Prop} : ∀ {l : List α} {m : List β}, List.Forall₂ R l m → ∀ y ∈ m, ∃ x ∈ l, R x y
  | _, _, .nil, y, hy => by cases hy
  | _, _, .cons h1 h2, y, hy => by
    rcases List.mem_cons.1 hy with rfl | hy
    · exact ⟨_, by simp, h1⟩
    · obtain ⟨x, hx, hr⟩ := forall_mem h2 y hy
      exact ⟨x, List.mem_cons_of_mem _ hx, hr⟩

/-- What is known of a graph that was read. -/
theorem read_facts {g g' : Net A} (hm : g.Made) {ids : List Nat} (hl : ids.length = g.colls.length) {d : Doc A} (hw : g.write = .ok d)
    (hr : Net.read ids d = .ok g') :
    (∀ c' ∈ g'.colls, ∃ k ∈ ids, ∃ c ∈ g.colls, CollRead g.place k c c') ∧ g'.ports = [] ∧ (∀ h ∈ g'.hiers, h.edges = []) ∧
      List.Forall₂ (SameEdges g.place) g.colls g'.colls ∧ (∀ c ∈ g'.colls, c.id ∈ ids) := by
  by_cases hn : ids.Nodup
  · obtain ⟨g1, cs, h1, h2, h3⟩ := read_step hm hn hl
    rw [h3 _ hw, each_map] at hr
    by_cases hc : ∀ h ∈ g.hiers, ∀ v ∈ h.getRoots, h.getSubs v ≠ []
    · obtain ⟨hs, h4, h5⟩ := each_rel (f := fun h => readHier g1 (g.hierOf h)) (R := fun _ h' => h'.edges = []) (l := g.hiers) (by
        intro h hh
        obtain ⟨h', k1, _, k2⟩ := hier_read hm h1 hh (hc h hh)
        exact ⟨h', k1, k2⟩)
      rw [h4, ok_bind] at hr
      cases hr
      refine ⟨?_, rfl, ?_, (same_colls hl h2).1, ?_⟩
      · intro c' hc'
        obtain ⟨x, hx, hR⟩ := forall_mem h2 c' hc'
        have := List.of_mem_zip hx
        exact ⟨x.1, this.1, x.2, this.2, hR⟩
      · intro h hh
        obtain ⟨_, _, hR⟩ := forall_mem h5 h hh
        exact hR
      · intro c' hc'
        obtain ⟨x, hx, hR⟩ := forall_mem h2 c' hc'
        rw [hR.2.1]
        exact (List.of_mem_zip hx).1
    · push Not at hc
      obtain ⟨h, hh, v, hv, hsub⟩ := hc
      obtain ⟨d', k1, k2⟩ := lone_unreadable hm hn hl hh hv hsub
      rw [hw] at k1
      cases k1
      rw [h3 _ hw, each_map, hr] at k2
      cases k2
  · rw [Net.read, if_pos hn] at hr
    cases hr

/-- C158, what does not hold: no edge of a graph that was read has attributes. -/
theorem attrs_lost {g g' : Net A} (hm : g.Made) {ids : List Nat} (hl : ids.length = g.colls.length) {d : Doc A} (hw : g.write = .ok d)
    (hr : Net.read ids d = .ok g') : ∀ c ∈ g'.colls, ∀ n l, c.AttrsOf n l → l = [] := by
  rintro c hc n l ⟨e, _, _, h3⟩
  obtain ⟨_, _, _, _, h4⟩ := (read_facts hm hl hw hr).1 c hc
  rw [← h3, h4.2.2.1]

/-- C158, what does not hold: if no collection has the id zero, the graph that was read does not know the ends of its
own edges, -/
theorem edges_unreachable {g g' : Net A} (hm : g.Made) {ids : List Nat} (hl : ids.length = g.colls.length) {d : Doc A} (hw : g.write = .ok d)
    (hr : Net.read ids d = .ok g') (hz : 0 ∉ ids) (small : ∀ c ∈ g.colls, (getEdges c.coll).dedup.length ≤ 2 ^ 48) :
    ∀ c ∈ g'.colls, ∀ e ∈ getEdges c.coll, g'.ends e = .error .assertion := by
  intro c hc e he
  obtain ⟨h1, _, _, _, h5⟩ := read_facts hm hl hw hr
  obtain ⟨_, _, c0, hc0, h4⟩ := h1 c hc
  have hlt : e < 2 ^ 48 := Nat.lt_of_lt_of_le (h4.2.2.2 e he) (small c0 hc0)
  have hmask : maskOf e = 0 := Nat.div_eq_of_lt hlt
  have : g'.colls.find? (fun c => decide (c.id = maskOf e)) = none := by
    rw [List.find?_eq_none]
    intro c' hc' hd
    rw [decide_eq_true_iff, hmask] at hd
    exact hz (hd ▸ h5 c' hc')
  rw [Net.ends, Net.collOf, this]
  rfl

/-- … and if it has an edge it cannot be written again. -/
theorem rewrite_fails {g g' : Net A} (hm : g.Made) {ids : List Nat} (hl : ids.length = g.colls.length) {d : Doc A} (hw : g.write = .ok d)
    (hr : Net.read ids d = .ok g') (hz : 0 ∉ ids) (small : ∀ c ∈ g.colls, (getEdges c.coll).dedup.length ≤ 2 ^ 48)
    (edge : ∃ c ∈ g.colls, ∃ n s t, c.Joins n s t) : g'.write = .error .assertion := by
  have hu := edges_unreachable hm hl hw hr hz small
  have key : ∀ c ∈ g'.colls, ∀ e ∈ (getEdges c.coll).dedup, writeEdge g' c e = .error .assertion := by
    intro c hc e he
    rw [writeEdge]
    split
    · rfl
    · rw [hu c hc e (List.mem_dedup.1 he)]
      rfl
  have hcoll : ∀ c ∈ g'.colls, ((getEdges c.coll).dedup = [] ∧ writeColl g' c = .ok []) ∨ ((getEdges c.coll).dedup ≠ [] ∧ writeColl g' c = .error .assertion) := by
    intro c hc
    by_cases hempty : (getEdges c.coll).dedup = []
    · left
      exact ⟨hempty, by rw [writeColl, hempty]; rfl⟩
    · right
      obtain ⟨e, he⟩ := List.exists_mem_of_ne_nil _ hempty
      exact ⟨hempty, each_error ⟨e, he, key c hc e he⟩ (fun x hx => .inr (key c hc x hx))⟩
  obtain ⟨c, hc, n, s, t, hj⟩ := edge
  obtain ⟨_, _, _, h4, _⟩ := read_facts hm hl hw hr
  obtain ⟨i, hi, rfl⟩ := List.mem_iff_getElem.1 hc
  have hi' : i < g'.colls.length := by rw [← h4.length_eq]; exact hi
  have hsame := List.forall₂_iff_get.1 h4
  have h6 := hsame.2 i hi hi'
  simp only [List.get_eq_getElem] at h6
  obtain ⟨e, he, _⟩ := (h6 n (g.place s) (g.place t)).2 ⟨s, t, rfl, rfl, hj⟩
  have hin : g'.colls[i] ∈ g'.colls := List.getElem_mem hi'
  rw [Net.write, each_error (er := .assertion) (f := writeColl g') ⟨g'.colls[i], hin, ?_⟩]
  · rfl
  · intro x hx
    rcases hcoll x hx with ⟨_, h⟩ | ⟨_, h⟩
    · exact .inl ⟨_, h⟩
    · exact .inr h
  · rcases hcoll _ hin with ⟨h, _⟩ | ⟨_, h⟩
    · have := List.mem_dedup.2 he
      rw [h] at this
      cases this
    · exact h

/-- C159, what does not hold: a hierarchy that was read has no edges, and asking for those of a vertex with sub-vertices is an
error. -/
theorem nest_edges_lost {g g' : Net A} (hm : g.Made) {ids : List Nat} (hl : ids.length = g.colls.length) {d : Doc A} (hw : g.write = .ok d)
    (hr : Net.read ids d = .ok g') : ∀ h ∈ g'.hiers, (∀ s t, h.hasEdge s t = false) ∧ ∀ v, h.getSubs v ≠ [] → h.outgoing v = .error .range := by
  intro h hh
  have he := (read_facts hm hl hw hr).2.2.1 h hh
  constructor
  · intro s t
    simp [Hier.hasEdge, he]
  · intro v hv
    rw [Hier.outgoing, he]
    cases hs : h.getSubs v with
    | nil => exact absurd hs hv
    | cons s l => simp [edgesOf]

/-! ### C160: ports -/

/-- C160, what does not hold: no graph that was read has ports. -/
theorem ports_lost {g g' : Net A} (hm : g.Made) {ids : List Nat} (hl : ids.length = g.colls.length) {d : Doc A} (hw : g.write = .ok d)
    (hr : Net.read ids d = .ok g') : g'.ports = [] := (read_facts hm hl hw hr).2.1

/-! ### A graph for the examples -/

/-- Three vertices with names and attributes, two edges in the collection 7, a hierarchy with 0 above 1 and 2, and a
collection of ports. -/
theorem demo_built : ∃ g : Net Nat, g.Built pair ∧ g.verts = [0, 1, 2] ∧ (g.colls.map fun c => getEdges c.coll) = [[masked 7 1, masked 7 0]] ∧
    (g.hiers.map fun h => (h.getRoots, h.getSubs 0)) = [([0], [1, 2])] ∧ g.ports = [⟨[(0, 3)], [(3, masked 7 0, true)], 1⟩] ∧
    (∀ c ∈ g.colls, c.AttrsOf [9] [5]) := by
  refine ⟨_, .edge (l := []) (r := []) (s := 1) (t := 1) (n := [10]) (attrs := []) (.edge (l := []) (r := []) (s := 0) (t := 2) (n := [9]) (attrs := [5])
    (.nest (l := []) (r := []) (p := 0) (s := 2) (.nest (l := []) (r := []) (p := 0) (s := 1)
      (.track (l := []) (r := []) (v := 2) (.track (l := []) (r := []) (v := 1) (.track (l := []) (r := []) (v := 0)
        (.vertex (o := ⟨[3], [8]⟩) (.vertex (o := ⟨[2], []⟩) (.vertex (o := ⟨[1], [4, 4]⟩) (.empty (ids := [7]) 1 [⟨[(0, 3)], [(3, masked 7 0, true)], 1⟩] (by decide)) (by decide) rfl) (by decide) rfl)
          (by decide) rfl) rfl (by decide) rfl) rfl (by decide) rfl) rfl (by decide) rfl) rfl) rfl) rfl (by decide) (by decide) (by decide) rfl)
    rfl (by decide) (by decide) (by decide) rfl, rfl, rfl, rfl, rfl, ?_⟩
  intro c hc
  rw [List.mem_singleton.1 hc]
  exact ⟨masked 7 0, by decide, rfl, rfl⟩

theorem one_of_map {α β : Type} {f : α → β} {l : List α} {y : β} (h : l.map f = [y]) : ∃ x, l = [x] ∧ f x = y := by
  match l, h with
  | [x], h => exact ⟨x, rfl, by simpa using h⟩

/-- The graph is read back, into a collection with any id. -/
theorem demo_read (k : Nat) : ∃ (g : Net Nat) (d : Doc Nat) (g' : Net Nat) (f : V → V), g.Made ∧ g.colls.length = 1 ∧ g.write = .ok d ∧
    Net.read [k] d = .ok g' ∧ SameVerts f g g' ∧ List.Forall₂ (SameEdges f) g.colls g'.colls ∧ g'.colls.map (·.id) = [k] ∧
    List.Forall₂ (SameNesting f) g.hiers g'.hiers ∧ g.ports = [⟨[(0, 3)], [(3, masked 7 0, true)], 1⟩] ∧ (∀ c ∈ g.colls, c.AttrsOf [9] [5]) ∧ g.verts = [0, 1, 2] ∧
    (g.colls.map fun c => getEdges c.coll) = [[masked 7 1, masked 7 0]] ∧ (g.hiers.map fun h => (h.getRoots, h.getSubs 0)) = [([0], [1, 2])] := by
  obtain ⟨g, h1, h2, h3, h4, h5, h6⟩ := demo_built
  obtain ⟨c, hc, _⟩ := one_of_map h3
  obtain ⟨d, g', f, k1, k2, k3, k4, k5, k6⟩ := graph_partial (built_made h1) (ids := [k]) (by simp) (by rw [hc]; rfl) (by
    intro h hh v hv
    obtain ⟨h', hh', hx⟩ := one_of_map h4
    rw [hh', List.mem_singleton] at hh
    subst hh
    rw [Prod.mk.injEq] at hx
    rw [hx.1, List.mem_singleton] at hv
    subst hv
    rw [hx.2]
    simp)
  exact ⟨g, d, g', f, built_made h1, by rw [hc]; rfl, k1, k2, k3, k4, k5, k6, h5, h6, h2, h3, h4⟩

/-! ### The full statements, which are false -/

/-- C158: the edges that are read have the attributes of those that were written. -/
def EdgeAttrsStatement : Prop := ∀ (A : Type) (g g' : Net A) (ids : List Nat) (d : Doc A), g.Made → ids.length = g.colls.length →
  g.write = .ok d → Net.read ids d = .ok g' → ∀ n l, (∃ c ∈ g.colls, c.AttrsOf n l) → ∃ c ∈ g'.colls, c.AttrsOf n l

theorem edge_attrs_false : ¬ EdgeAttrsStatement := by
  intro hs
  obtain ⟨g, d, g', f, h1, h2, h3, h4, _, _, _, _, _, h5, _, h6, _⟩ := demo_read 7
  obtain ⟨c, hc, _⟩ := one_of_map h6
  obtain ⟨c', hc', ha⟩ := hs Nat g g' [7] d h1 (by rw [h2]; rfl) h3 h4 [9] [5] ⟨c, by rw [hc]; simp, h5 c (by rw [hc]; simp)⟩
  have := attrs_lost h1 (by rw [h2]; rfl) h3 h4 c' hc' _ _ ha
  cases this

/-- C158: a graph that is read knows the ends of its edges. -/
def EdgeEndsStatement : Prop := ∀ (A : Type) (g g' : Net A) (ids : List Nat) (d : Doc A), g.Made → ids.length = g.colls.length →
  g.write = .ok d → Net.read ids d = .ok g' → ∀ c ∈ g'.colls, ∀ e ∈ getEdges c.coll, ∃ x, g'.ends e = .ok x

theorem edge_ends_false : ¬ EdgeEndsStatement := by
  intro hs
  obtain ⟨g, d, g', f, h1, h2, h3, h4, _, h7, h8, _, _, h5, _, h6, _⟩ := demo_read 7
  obtain ⟨c, hc, hce⟩ := one_of_map h6
  obtain ⟨c', hc', _⟩ := one_of_map h8
  rw [hc, hc'] at h7
  cases h7 with
  | cons h7 _ =>
  have hin : masked 7 0 ∈ getEdges c.coll := by rw [hce]; simp
  obtain ⟨e0, he0, hn0, _⟩ := h5 c (by rw [hc]; simp)
  obtain ⟨b, L, hr⟩ := h1.colls c (by rw [hc]; simp)
  obtain ⟨q1, _, _, q4⟩ := edge_known hr he0
  obtain ⟨e, he, _⟩ := (h7 (c.nm e0) (f (c.ends e0).1) (f (c.ends e0).2)).2 ⟨_, _, rfl, rfl, e0, he0, by rw [getEnds, q4], q1⟩
  obtain ⟨x, hx⟩ := hs Nat g g' [7] d h1 (by rw [h2]; rfl) h3 h4 c' (by rw [hc']; simp) e he
  rw [edges_unreachable h1 (by rw [h2]; rfl) h3 h4 (by simp) (by
    intro c2 hc2
    rw [hc, List.mem_singleton] at hc2
    subst hc2
    rw [hce]
    exact Nat.le_trans ((List.dedup_sublist _).length_le) (by decide)) c' (by rw [hc']; simp) e he] at hx
  cases hx

/-- C159: what is written can be read. -/
def HierarchyStatement : Prop := ∀ (A : Type) (g : Net A) (ids : List Nat) (d : Doc A), g.Made → ids.Nodup → ids.length = g.colls.length →
  g.write = .ok d → ∃ g', Net.read ids d = .ok g'

/-- A graph with one vertex that the hierarchy tracks. -/
theorem lone_built : ∃ g : Net Nat, g.Built pair ∧ g.colls = [] ∧ g.hiers.map (fun h => (h.getRoots, h.getSubs 0)) = [([0], [])] :=
  ⟨_, .track (l := []) (r := []) (v := 0) (.vertex (o := ⟨[1], []⟩) (.empty (ids := []) 1 [] (by decide)) (by decide) rfl) rfl (by decide) rfl, rfl, rfl⟩

theorem hierarchy_false : ¬ HierarchyStatement := by
  intro hs
  obtain ⟨g, h1, h2, h3⟩ := lone_built
  obtain ⟨h, hh, hx⟩ := one_of_map h3
  rw [Prod.mk.injEq] at hx
  obtain ⟨d, k1, k2⟩ := lone_unreadable (built_made h1) (ids := []) (by simp) (by rw [h2]; rfl) (h := h) (v := 0) (by rw [hh]; simp) (by rw [hx.1]; simp) hx.2
  obtain ⟨g', k3⟩ := hs Nat g [] d (built_made h1) (by simp) (by rw [h2]; rfl) k1
  rw [k2] at k3
  cases k3

/-- C160: the collections of ports are kept. -/
def PortsStatement : Prop := ∀ (A : Type) (g g' : Net A) (ids : List Nat) (d : Doc A), g.Made → ids.length = g.colls.length →
  g.write = .ok d → Net.read ids d = .ok g' → g'.ports.length = g.ports.length

theorem ports_false : ¬ PortsStatement := by
  intro hs
  obtain ⟨g, d, g', f, h1, h2, h3, h4, _, _, _, _, h5, _⟩ := demo_read 7
  have h6 := hs Nat g g' [7] d h1 (by rw [h2]; rfl) h3 h4
  rw [ports_lost h1 (by rw [h2]; rfl) h3 h4, h5] at h6
  cases h6

end Verif.Graph
