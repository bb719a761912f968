import Verif.Graph.SegModel
import Verif.Graph.EdgeProps
import Verif.Graph.HierPaths
import Verif.Graph.PortProps

/-! # C69: an edge is split at the boundaries it crosses -/

namespace Verif.Graph

/-- The default stable id `"{}-{}"` of two printed vertex ids: not empty, and the vertices can be
read back. -/
structure Naming (name : V → V → Stable) : Prop where
  some : ∀ a b, name a b ≠ []
  inj : ∀ a b c d, name a b = name c d → a = c ∧ b = d

/-- Histories: edges are added, also ones that throw; the hierarchy may be another one each time. -/
inductive SRun (name : V → V → Stable) (ord : List E → List E) : Seg → Prop
  | init : SRun name ord .empty
  | add {g} (h : Hier) (fuel : Nat) (o : E) (s t : V) : SRun name ord g → SRun name ord (g.addEdge name ord h fuel o s t).1

/-! ## The invariant -/

structure SInv (name : V → V → Stable) (g : Seg) : Prop where
  store : ∀ e, get g.edges.store e = none ↔ g.edges.store.length ≤ e
  stable : ∀ n e, get g.edges.stable n = some e → ∃ a b, n = name a b ∧ get g.edges.ends e = some (a, b)
  ends : ∀ e x, get g.edges.ends e = some x → e < g.edges.store.length
  owner : ∀ e o, get g.owner e = some o → e < g.edges.store.length
  keys : (g.owner.map (·.1)).Nodup
  links : ∀ e1 e2 i, get g.links (e1, e2) = some i → e1 < g.edges.store.length
  ports : ∃ own con, PRun g.ports own con

theorem set_new {κ ν : Type} [DecidableEq κ] {m : AMap κ ν} {k : κ} {v : ν} (h : get m k = none) : set m k v = (k, v) :: m := by
  rw [set, List.filter_eq_self.2]
  intro x hx
  simp only [ne_eq, decide_eq_true_eq]
  rintro rfl
  obtain ⟨v', hv⟩ := get_of_mem (m := m) (k := x.1) (v := x.2) hx
  rw [h] at hv
  cases hv

theorem none_of_keys {κ ν : Type} [DecidableEq κ] {m : AMap κ ν} {k : κ} : get m k = none ↔ k ∉ m.map (·.1) := by
  constructor
  · intro h hm
    obtain ⟨x, hx, rfl⟩ := List.mem_map.1 hm
    obtain ⟨v', hv⟩ := get_of_mem (m := m) (k := x.1) (v := x.2) hx
    rw [h] at hv
    cases hv
  · intro h
    cases hg : get m k with
    | none => rfl
    | some v => exact absurd (List.mem_map.2 ⟨_, mem_of_get hg, rfl⟩) h

theorem lt_store {name : V → V → Stable} {g : Seg} (hi : SInv name g) {e : E} {n : Stable} (h : get g.edges.store e = some n) :
    e < g.edges.store.length := by
  rcases Nat.lt_or_ge e g.edges.store.length with hx | hx
  · exact hx
  · rw [(hi.store e).2 hx] at h
    cases h

/-- Adding one segment: either the pair of vertices is new and the segment is there, or it throws. -/
theorem addSegment {name : V → V → Stable} (hn : Naming name) {g : Seg} (hi : SInv name g) (a b : V) :
    (∃ c, Graph.addEdge g.edges a b (name a b) = (c, .error .assertion) ∧ SInv name { g with edges := c } ∧ ∃ e, getEnds g.edges e = .ok (a, b)) ∨
    (∃ c, Graph.addEdge g.edges a b (name a b) = (c, .ok g.edges.store.length) ∧ c.store.length = g.edges.store.length + 1 ∧
      (∀ e, get c.ends e = if e = g.edges.store.length then some (a, b) else get g.edges.ends e) ∧
      (∀ o idx, SInv name { g with edges := c, owner := set g.owner g.edges.store.length o, index := set g.index g.edges.store.length idx }) ∧
      get g.owner g.edges.store.length = none) := by
  have hnew : get g.edges.store g.edges.store.length = none := (hi.store _).2 (Nat.le_refl _)
  have hown : get g.owner g.edges.store.length = none := by
    cases ho : get g.owner g.edges.store.length with
    | none => rfl
    | some o => exact absurd (hi.owner _ _ ho) (Nat.lt_irrefl _)
  have hst : ∀ e, get (set g.edges.store g.edges.store.length (name a b)) e = none ↔ g.edges.store.length + 1 ≤ e := by
    intro e
    rw [get_set]
    by_cases he : e = g.edges.store.length
    · subst he
      simp
    · rw [if_neg he, hi.store]
      constructor
      · intro h
        exact Nat.lt_of_le_of_ne h (Ne.symm he)
      · exact Nat.le_of_succ_le
  have hlen : (set g.edges.store g.edges.store.length (name a b)).length = g.edges.store.length + 1 := by
    rw [set_new hnew]
    rfl
  simp only [Graph.addEdge, nextId, storeEdge, hnew, trackEdge, get_set, if_true, if_neg (hn.some a b)]
  cases hs : get g.edges.stable (name a b) with
  | some e =>
    left
    refine ⟨_, by simp; rfl, ?_, ?_⟩
    · constructor
      · intro e
        simp only [hlen]
        exact hst e
      · exact hi.stable
      · intro e x hx
        simp only [hlen]
        exact Nat.lt_succ_of_lt (hi.ends e x hx)
      · intro e o ho
        simp only [hlen]
        exact Nat.lt_succ_of_lt (hi.owner e o ho)
      · exact hi.keys
      · intro e1 e2 i hl
        simp only [hlen]
        exact Nat.lt_succ_of_lt (hi.links _ _ _ hl)
      · exact hi.ports
    · obtain ⟨a', b', h1, h2⟩ := hi.stable _ _ hs
      obtain ⟨rfl, rfl⟩ := hn.inj _ _ _ _ h1
      exact ⟨e, ends_ok.2 h2⟩
  | none =>
    right
    refine ⟨_, by simp; rfl, ?_, ?_, ?_, hown⟩
    · exact hlen
    · intro e
      simp only [get_set]
    · intro o idx
      constructor
      · intro e
        simp only [hlen]
        exact hst e
      · intro n e he
        simp only [get_set] at he ⊢
        split at he
        · rename_i h
          cases he
          exact ⟨a, b, h, by simp⟩
        · obtain ⟨a', b', h1, h2⟩ := hi.stable _ _ he
          refine ⟨a', b', h1, ?_⟩
          rw [if_neg (Nat.ne_of_lt (hi.ends _ _ h2))]
          exact h2
      · intro e x hx
        simp only [hlen, get_set] at hx ⊢
        split at hx
        · rename_i h
          rw [h]
          exact Nat.lt_succ_self _
        · exact Nat.lt_succ_of_lt (hi.ends e x hx)
      · intro e o' ho
        simp only [hlen, get_set] at ho ⊢
        split at ho
        · rename_i h
          rw [h]
          exact Nat.lt_succ_self _
        · exact Nat.lt_succ_of_lt (hi.owner e o' ho)
      · simp only [set_new hown, List.map_cons, List.nodup_cons]
        exact ⟨none_of_keys.1 hown, hi.keys⟩
      · intro e1 e2 i hl
        simp only [hlen]
        exact Nat.lt_succ_of_lt (hi.links _ _ _ hl)
      · exact hi.ports

theorem split_inv {name : V → V → Stable} (hn : Naming name) {o : E} : ∀ (vs : List V) (idx : Nat) (g : Seg), SInv name g →
    SInv name (Seg.split name o idx g vs).1 := by
  intro vs
  induction vs with
  | nil => exact fun _ _ h => h
  | cons a vs ih =>
    intro idx g hi
    cases vs with
    | nil => exact hi
    | cons b vs =>
      rw [Seg.split]
      rcases addSegment hn hi a b with ⟨c, h1, h2, _⟩ | ⟨c, h1, _, _, h2, h3⟩
      · rw [h1]
        exact h2
      · rw [h1]
        simp only [h3]
        exact ih _ _ (h2 o idx)

theorem join_inv {name : V → V → Stable} : ∀ (es : List E) (g : Seg), SInv name g → SInv name (Seg.join g es).1 := by
  intro es
  induction es with
  | nil => exact fun _ h => h
  | cons e1 es ih =>
    intro g hi
    cases es with
    | nil => exact hi
    | cons e2 es =>
      have hport : ∀ p, (∃ own con, PRun p own con) → SInv name { g with ports := p } :=
        fun p hp => ⟨hi.store, hi.stable, hi.ends, hi.owner, hi.keys, hi.links, hp⟩
      rw [Seg.join]
      split
      · exact hi
      · rename_i x hx
        split
        · exact hi
        · rename_i y hy
          split
          · exact hi
          · obtain ⟨own, con, hr⟩ := hi.ports
            obtain ⟨⟨i, h1, h2⟩, _⟩ := ports_fresh hr x.2
            have hr1 := PRun.add hr h1
            have hadd : g.ports.add x.2 = ((g.ports.add x.2).1, .ok i) := Prod.ext rfl h1
            rw [hadd]
            simp only
            split
            · exact hport _ ⟨_, _, hr1⟩
            · rename_i p1 hp1
              have hr2 := PRun.addEdge hr1 hp1
              split
              · exact hport _ ⟨_, _, hr2⟩
              · rename_i p2 hp2
                have hr3 := PRun.addEdge hr2 hp2
                split
                · exact hport _ ⟨_, _, hr3⟩
                · refine ih _ ⟨hi.store, hi.stable, hi.ends, hi.owner, hi.keys, ?_, _, _, hr3⟩
                  intro f1 f2 j hl
                  simp only [get_set] at hl
                  split at hl
                  · rename_i h
                    cases h
                    exact hi.ends _ _ (ends_ok.1 hx)
                  · exact hi.links _ _ _ hl

theorem run_inv {name : V → V → Stable} (hn : Naming name) {ord : List E → List E} {g : Seg} (h : SRun name ord g) : SInv name g := by
  induction h with
  | init => exact ⟨by simp [Seg.empty, Coll.empty], by simp [Seg.empty, Coll.empty], by simp [Seg.empty, Coll.empty],
      by simp [Seg.empty], by simp [Seg.empty], by simp [Seg.empty], _, _, .init⟩
  | @add g h fuel o s t _ ih =>
    simp only [Seg.addEdge]
    split
    · exact ih
    · rename_i cr _
      have := split_inv hn (o := o) (s :: cr ++ [t]) 0 g ih
      split
      · rename_i g1 er he
        rw [he] at this
        exact this
      · rename_i g1 he
        rw [he] at this
        exact join_inv _ _ this

/-! ## The two loops -/

/-- The first loop on a path without used pairs. -/
theorem split_ok {name : V → V → Stable} (hn : Naming name) {o : E} : ∀ (vs : List V) (a : V) (idx : Nat) (g : Seg), SInv name g →
    (∀ w ∈ windows (a :: vs), ∀ e, get g.edges.ends e ≠ some w) → (windows (a :: vs)).Nodup →
    ∃ g', Seg.split name o idx g (a :: vs) = (g', none) ∧ SInv name g' ∧
      (List.range' g.edges.store.length vs.length).map (get g'.edges.ends) = (windows (a :: vs)).map some ∧
      (∀ e x, get g.edges.ends e = some x → get g'.edges.ends e = some x) ∧
      g'.owner = (List.range' g.edges.store.length vs.length).reverse.map (·, o) ++ g.owner ∧
      (∀ j < vs.length, get g'.index (g.edges.store.length + j) = some (idx + j)) ∧
      (∀ e < g.edges.store.length, get g'.index e = get g.index e) ∧ g'.ports = g.ports ∧ g'.links = g.links := by
  intro vs
  induction vs with
  | nil => intro a idx g hi _ _; exact ⟨g, rfl, hi, rfl, fun _ _ h => h, rfl, by simp, fun _ _ => rfl, rfl, rfl⟩
  | cons b vs ih =>
    intro a idx g hi hfree hnd
    have hw : windows (a :: b :: vs) = (a, b) :: windows (b :: vs) := rfl
    rw [hw] at hfree hnd ⊢
    rw [List.nodup_cons] at hnd
    rcases addSegment hn hi a b with ⟨c, _, _, e, he⟩ | ⟨c, h1, hl, he, h2, h3⟩
    · exact absurd (ends_ok.1 he) (hfree _ List.mem_cons_self e)
    · obtain ⟨g', k1, k2, k3, k4, k5, k6, k7, k8, k9⟩ := ih b (idx + 1) _ (h2 o idx) (by
          intro w hw e
          simp only [he]
          split
          · intro h
            cases h
            exact hnd.1 hw
          · exact hfree w (List.mem_cons_of_mem _ hw) e) hnd.2
      simp only [hl] at k3 k5 k6 k7
      simp only [he] at k4
      refine ⟨g', ?_, k2, ?_, ?_, ?_, ?_, ?_, k8, k9⟩
      · rw [Seg.split, h1]
        simp only [h3]
        exact k1
      · rw [List.length_cons, List.range'_succ, List.map_cons, List.map_cons, k3, k4 _ (a, b) (by simp)]
      · intro e x hx
        refine k4 e x ?_
        rw [if_neg (Nat.ne_of_lt (hi.ends _ _ hx))]
        exact hx
      · rw [k5, List.length_cons, List.range'_succ, List.reverse_cons, List.map_append, set_new h3]
        simp
      · intro j hj
        cases j with
        | zero =>
          rw [Nat.add_zero, Nat.add_zero, k7 _ (Nat.lt_succ_self _), get_set, if_pos rfl]
        | succ j =>
          have := k6 j (by simpa using hj)
          rw [Nat.add_right_comm, Nat.add_right_comm idx] at this
          exact this
      · intro e hlt
        rw [k7 e (Nat.lt_succ_of_lt hlt), get_set, if_neg (Nat.ne_of_lt hlt)]

/-- The second loop on segments that fit together. -/
theorem join_ok {name : V → V → Stable} : ∀ (es : List E) (g : Seg) (own : Pt → Option V) (con : Pt → E → Bool → Prop), SInv name g →
    PRun g.ports own con → (∀ e ∈ es, ∃ x, get g.edges.ends e = some x) →
    (∀ w ∈ windows es, ∀ x y, get g.edges.ends w.1 = some x → get g.edges.ends w.2 = some y → x.2 = y.1) → es.Nodup →
    (∀ w ∈ windows es, get g.links w = none) →
    ∃ g' own' con', Seg.join g es = (g', none) ∧ g'.edges = g.edges ∧ g'.owner = g.owner ∧ g'.index = g.index ∧ PRun g'.ports own' con' ∧
      (∀ w ∉ windows es, get g'.links w = get g.links w) ∧
      (∀ i v, own i = some v → own' i = some v ∧ ∀ e b, con' i e b ↔ con i e b) ∧
      ∀ w ∈ windows es, ∃ i x, get g'.links w = some i ∧ get g.edges.ends w.1 = some x ∧ own i = none ∧ own' i = some x.2 ∧
        ∀ e b, con' i e b ↔ (e = w.1 ∧ b = true) ∨ (e = w.2 ∧ b = false) := by
  intro es
  induction es with
  | nil => intro g own con _ hr _ _ _ _; exact ⟨g, own, con, rfl, rfl, rfl, rfl, hr, fun _ _ => rfl, fun i v h => ⟨h, fun _ _ => Iff.rfl⟩, by simp [windows]⟩
  | cons e1 es ih =>
    intro g own con hi hr hends hfit hnd hlinks
    cases es with
    | nil => exact ⟨g, own, con, rfl, rfl, rfl, rfl, hr, fun _ _ => rfl, fun i v h => ⟨h, fun _ _ => Iff.rfl⟩, by simp [windows]⟩
    | cons e2 es =>
      have hw : windows (e1 :: e2 :: es) = (e1, e2) :: windows (e2 :: es) := rfl
      rw [hw] at hfit hlinks ⊢
      rw [List.nodup_cons] at hnd
      obtain ⟨x, hx⟩ := hends e1 List.mem_cons_self
      obtain ⟨y, hy⟩ := hends e2 (by simp)
      have hxy := hfit _ List.mem_cons_self x y hx hy
      obtain ⟨⟨i, h1, h2⟩, _⟩ := ports_fresh hr x.2
      have hr1 := PRun.add hr h1
      have hadd : g.ports.add x.2 = ((g.ports.add x.2).1, .ok i) := Prod.ext rfl h1
      have hfree : ∀ e b, ¬ con i e b := by
        intro e b hc
        obtain ⟨v, hv⟩ := (ports_owned hr).2.2 _ _ _ hc
        rw [h2] at hv
        cases hv
      obtain ⟨p1, hp1⟩ := (ports_connect hr1 i e1 true).2 ⟨⟨x.2, by simp⟩, hfree _ _⟩
      have hr2 := PRun.addEdge hr1 hp1
      obtain ⟨p2, hp2⟩ := (ports_connect hr2 i e2 false).2 ⟨⟨x.2, by simp⟩, by
        rintro (h | h)
        · exact hfree _ _ h
        · simp at h⟩
      have hr3 := PRun.addEdge hr2 hp2
      have hfst : ∀ w ∈ windows (e2 :: es), w.1 ∈ e2 :: es := fun w hw => (List.of_mem_zip (a := w.1) (b := w.2) hw).1
      have hnw : (e1, e2) ∉ windows (e2 :: es) := fun hm => hnd.1 (hfst _ hm)
      have hi' : SInv name { g with ports := p2, links := set g.links (e1, e2) i } := by
        refine ⟨hi.store, hi.stable, hi.ends, hi.owner, hi.keys, ?_, _, _, hr3⟩
        intro f1 f2 j hl
        simp only [get_set] at hl
        split at hl
        · rename_i h
          cases h
          exact hi.ends _ _ hx
        · exact hi.links _ _ _ hl
      obtain ⟨g', own', con', k1, k2, k3, k4, k5, k6, k7, k8⟩ := ih _ _ _ hi' hr3 (fun e he => hends e (List.mem_cons_of_mem _ he))
        (fun w hw => hfit w (List.mem_cons_of_mem _ hw)) hnd.2 (by
          intro w hw
          simp only [get_set]
          have hne : w ≠ (e1, e2) := by
            rintro rfl
            exact hnw hw
          rw [if_neg hne]
          exact hlinks w (List.mem_cons_of_mem _ hw))
      refine ⟨g', own', con', ?_, k2, k3, k4, k5, ?_, ?_, ?_⟩
      · rw [Seg.join]
        simp only [ends_ok.2 hx, ends_ok.2 hy, hxy, ne_eq, not_true_eq_false, if_false]
        rw [← hxy, hadd]
        simp only [hp1, hp2, hlinks _ List.mem_cons_self]
        exact k1
      · intro w hw
        rw [List.mem_cons, not_or] at hw
        rw [k6 w hw.2]
        simp only [get_set]
        rw [if_neg hw.1]
      · intro j v hj
        have hji : j ≠ i := by
          rintro rfl
          rw [h2] at hj
          cases hj
        obtain ⟨h3, h4⟩ := k7 j v (by simp [hji, hj])
        refine ⟨h3, fun e b => ?_⟩
        rw [h4]
        simp [hji]
      · intro w hw
        rcases List.mem_cons.1 hw with rfl | hw
        · obtain ⟨h3, h4⟩ := k7 i x.2 (by simp)
          refine ⟨i, x, ?_, hx, h2, h3, ?_⟩
          · rw [k6 _ hnw]
            simp only [get_set, if_true]
          · intro e b
            rw [h4]
            simp [hfree]
        · obtain ⟨j, z, h3, h4, h5, h6, h7⟩ := k8 w hw
          refine ⟨j, z, h3, h4, ?_, h6, h7⟩
          by_cases hji : j = i
          · rw [hji] at h5
            simp at h5
          · simpa [hji] using h5

/-! ## Sorting and windows -/

theorem sort_unique {f : E → Nat} {l l' : List E} (hp : l.Perm l') (h : l'.Pairwise (fun a b => f a < f b)) :
    l.insertionSort (fun a b => f a ≤ f b) = l' := by
  have : Std.Total (fun a b : E => f a ≤ f b) := ⟨fun a b => Nat.le_total _ _⟩
  have : IsTrans E (fun a b : E => f a ≤ f b) := ⟨fun a b c => Nat.le_trans⟩
  have hperm := (List.perm_insertionSort (fun a b : E => f a ≤ f b) l).trans hp
  refine List.Perm.eq_of_pairwise (le := fun a b => f a ≤ f b) ?_ (List.pairwise_insertionSort _ _) (h.imp Nat.le_of_lt) hperm
  intro a b ha hb hab hba
  have ha' := hperm.mem_iff.1 ha
  obtain ⟨i, hi, rfl⟩ := List.getElem_of_mem ha'
  obtain ⟨j, hj, rfl⟩ := List.getElem_of_mem hb
  rw [List.pairwise_iff_getElem] at h
  rcases Nat.lt_trichotomy i j with hij | hij | hij
  · exact absurd (h i j hi hj hij) (Nat.not_lt.2 hba)
  · subst hij
    rfl
  · exact absurd (h j i hj hi hij) (Nat.not_lt.2 hab)

theorem sort_congr {f f' : E → Nat} : ∀ {l : List E}, (∀ a ∈ l, f a = f' a) →
    l.insertionSort (fun a b => f a ≤ f b) = l.insertionSort (fun a b => f' a ≤ f' b) := by
  have ins : ∀ (l : List E) (a : E), f a = f' a → (∀ b ∈ l, f b = f' b) →
      l.orderedInsert (fun a b => f a ≤ f b) a = l.orderedInsert (fun a b => f' a ≤ f' b) a := by
    intro l
    induction l with
    | nil => intros; rfl
    | cons b l ih =>
      intro a ha hl
      simp only [List.orderedInsert, ha, hl b List.mem_cons_self, ih a ha (fun c hc => hl c (List.mem_cons_of_mem _ hc))]
  intro l
  induction l with
  | nil => intro _; rfl
  | cons a l ih =>
    intro h
    rw [List.insertionSort_cons, List.insertionSort_cons, ih (fun b hb => h b (List.mem_cons_of_mem _ hb))]
    refine ins _ _ (h a List.mem_cons_self) ?_
    intro b hb
    exact h b (List.mem_cons_of_mem _ ((List.perm_insertionSort _ _).mem_iff.1 hb))

theorem windows_snd {α : Type} (a : α) (l : List α) : (windows (a :: l)).map (·.2) = l := by
  rw [windows, List.map_snd_zip]
  · rfl
  · simp

theorem windows_fst {α : Type} : ∀ l : List α, (windows l).map (·.1) = l.dropLast
  | [] => rfl
  | [_] => rfl
  | a :: b :: l => by
    have := windows_fst (b :: l)
    rw [List.dropLast_cons_cons, ← this]
    rfl

/-! ## Theorems -/

theorem segments_perm {ord : List E → List E} (hord : ∀ l, (ord l).Perm l) (g : Seg) (o : E) : (g.segments ord o).Perm (g.left o) :=
  (List.perm_insertionSort _ _).trans (hord _)

/-- `getSegments` lists the segments that lead back to the edge. -/
theorem segments_original {name : V → V → Stable} (hn : Naming name) {ord : List E → List E} (hord : ∀ l, (ord l).Perm l) {g : Seg}
    (hr : SRun name ord g) (o e : E) : e ∈ g.segments ord o ↔ g.original e = some o := by
  rw [(segments_perm hord g o).mem_iff, Seg.left, Seg.original]
  have hk := (run_inv hn hr).keys
  simp only [List.mem_map, List.mem_filter, decide_eq_true_eq]
  constructor
  · rintro ⟨⟨e', o'⟩, ⟨h1, rfl⟩, rfl⟩
    obtain ⟨v, hv⟩ := get_of_mem h1
    have := mem_of_get hv
    have := List.inj_on_of_nodup_map hk h1 this rfl
    simp only [Prod.mk.injEq, true_and] at this
    rw [this]
    exact hv
  · intro h
    exact ⟨_, ⟨mem_of_get h, rfl⟩, rfl⟩

/-- After any history: if the crossings of an edge are known, the edge has no segments yet and no
two neighbours on its way have been connected before, then the edge is split into segments that
lead from the source through the crossings to the target; they are listed in this order, lead back
to the edge, the segments of other edges stay the same, and there is a port at each crossing that
is connected to the two segments that meet there.

Missing: edges that cross a boundary some other edge has crossed before (`segments_false`), and the
direction of the connections (`seg_ports_false`). -/
theorem segments_partial {name : V → V → Stable} (hn : Naming name) {ord : List E → List E} (hord : ∀ l, (ord l).Perm l) {g : Seg}
    (hr : SRun name ord g) {h : Hier} {fuel : Nat} {o : E} {s t : V} {cr : List V} (hc : h.crossings fuel s t = .ok cr)
    (hnew : g.segments ord o = []) (hfree : ∀ w ∈ windows (s :: cr ++ [t]), ∀ e, getEnds g.edges e ≠ .ok w)
    (hnd : (windows (s :: cr ++ [t])).Nodup) :
    ∃ g', g.addEdge name ord h fuel o s t = (g', none) ∧
      (g'.segments ord o).map (getEnds g'.edges) = (windows (s :: cr ++ [t])).map .ok ∧
      (∀ e ∈ g'.segments ord o, g'.original e = some o) ∧
      (∀ o' ≠ o, g'.segments ord o' = g.segments ord o') ∧
      ∃ ps, g'.segPorts ord o = ps.map some ∧ ps.map g'.ports.vertexOf = cr.map .ok ∧
        List.Forall₂ (fun i w => ∃ es, g'.ports.edgesFor i = .ok es ∧ ∀ e, e ∈ es ↔ e = w.1 ∨ e = w.2) ps (windows (g'.segments ord o)) := by
  have hi := run_inv hn hr
  have hfree' : ∀ w ∈ windows (s :: (cr ++ [t])), ∀ e, get g.edges.ends e ≠ some w := fun w hw e he => hfree w hw e (ends_ok.2 he)
  obtain ⟨g1, k1, k2, k3, k4, k5, k6, k7, k8, k9⟩ := split_ok hn (o := o) (cr ++ [t]) s 0 g hi hfree' hnd
  have hleft : g.left o = [] := by
    have := segments_perm hord g o
    rw [hnew] at this
    exact this.symm.eq_nil
  have hleft1 : g1.left o = (List.range' g.edges.store.length (cr ++ [t]).length).reverse := by
    simp only [Seg.left] at hleft ⊢
    rw [k5, List.filter_append, List.map_append, hleft, List.append_nil, List.filter_eq_self.2]
    · rw [List.map_map]
      exact List.map_id _
    · intro x hx
      obtain ⟨e, _, rfl⟩ := List.mem_map.1 hx
      simp
  have hsort : g1.segments ord o = List.range' g.edges.store.length (cr ++ [t]).length := by
    rw [Seg.segments]
    refine sort_unique (f := fun a => (get g1.index a).getD 0) (((hord _).trans (List.Perm.of_eq hleft1)).trans (List.reverse_perm _)) ?_
    rw [List.pairwise_iff_getElem]
    intro i j hi hj hij
    rw [List.length_range'] at hi hj
    simp only [List.getElem_range', Nat.one_mul, k6 i hi, k6 j hj, Option.getD_some]
    omega
  generalize hes : List.range' g.edges.store.length (cr ++ [t]).length = es at *
  obtain ⟨own, con, hp⟩ := k2.ports
  have hlen : es.length = (cr ++ [t]).length := by rw [← hes, List.length_range']
  have hget : ∀ e ∈ es, ∃ x, get g1.edges.ends e = some x := by
    intro e he
    have : get g1.edges.ends e ∈ es.map (get g1.edges.ends) := List.mem_map.2 ⟨e, he, rfl⟩
    rw [k3] at this
    obtain ⟨x, _, hx⟩ := List.mem_map.1 this
    exact ⟨x, hx.symm⟩
  have hfit : ∀ (es : List E) (vs : List V) (a : V), es.map (get g1.edges.ends) = (windows (a :: vs)).map some →
      ∀ w ∈ windows es, ∀ x y, get g1.edges.ends w.1 = some x → get g1.edges.ends w.2 = some y → x.2 = y.1 := by
    intro es
    induction es with
    | nil => intro vs a _ w hw; cases hw
    | cons e1 es ih =>
      intro vs a he w hw x y hx hy
      cases es with
      | nil => cases hw
      | cons e2 es =>
        match vs, he with
        | [], he => simp [windows] at he
        | [_], he => simp [windows] at he
        | b :: c :: vs, he =>
          have he' : get g1.edges.ends e1 = some (a, b) ∧ (e2 :: es).map (get g1.edges.ends) = (windows (b :: c :: vs)).map some := by
            simpa [windows] using he
          rcases List.mem_cons.1 (show w ∈ (e1, e2) :: windows (e2 :: es) from hw) with rfl | hw
          · simp only at hx hy
            have h2 : get g1.edges.ends e2 = some (b, c) := by simpa [windows] using (List.cons.inj he'.2).1
            rw [he'.1] at hx
            rw [h2] at hy
            cases hx
            cases hy
            rfl
          · exact ih _ _ he'.2 w hw x y hx hy
  have hnodup : es.Nodup := hes ▸ List.nodup_range'
  have hlk : ∀ w ∈ windows es, get g1.links w = none := by
    intro w hw
    rw [k9]
    cases hg : get g.links w with
    | none => rfl
    | some i =>
      have h1 := hi.links w.1 w.2 i hg
      have h2 := (List.of_mem_zip (a := w.1) (b := w.2) hw).1
      rw [← hes, List.mem_range'_1] at h2
      exact absurd h1 (Nat.not_lt.2 h2.1)
  obtain ⟨g', own', con', j1, j2, j3, j4, j5, _, _, j8⟩ := join_ok es g1 own con k2 hp hget (hfit es _ s k3) hnodup hlk
  have hsame : ∀ o', g'.segments ord o' = g1.segments ord o' := by
    intro o'
    rw [Seg.segments, Seg.segments, Seg.left, Seg.left, j3, j4]
  have hadd : g.addEdge name ord h fuel o s t = (g', none) := by
    simp only [Seg.addEdge, hc]
    rw [show s :: cr ++ [t] = s :: (cr ++ [t]) from rfl, k1]
    simp only [hsort]
    exact j1
  have hrun : SRun name ord g' := by
    have := SRun.add h fuel o s t hr
    rw [hadd] at this
    exact this
  refine ⟨g', hadd, ?_, ?_, ?_, ?_⟩
  · rw [hsame, hsort, j2]
    have : ∀ l : List E, l.map (getEnds g1.edges) = (l.map (get g1.edges.ends)).map (fun x => match x with | none => Except.error Err.range | some x => Except.ok x) := by
      intro l
      rw [List.map_map]
      rfl
    rw [this, k3, List.map_map]
    rfl
  · intro e he
    exact (segments_original hn hord hrun o e).1 he
  · intro o' ho
    rw [hsame]
    have hl : g1.left o' = g.left o' := by
      simp only [Seg.left]
      rw [k5, List.filter_append, List.filter_eq_nil_iff.2]
      · rfl
      · intro x hx
        obtain ⟨e, _, rfl⟩ := List.mem_map.1 hx
        simpa using fun h => ho h.symm
    rw [Seg.segments, Seg.segments, hl]
    refine sort_congr (f := fun a => (get g1.index a).getD 0) (f' := fun a => (get g.index a).getD 0) ?_
    intro e he
    have he := (hord _).mem_iff.1 he
    simp only [Seg.left, List.mem_map, List.mem_filter] at he
    obtain ⟨x, ⟨hx, _⟩, rfl⟩ := he
    obtain ⟨v, hv⟩ := get_of_mem (k := x.1) (v := x.2) hx
    simp only [k7 _ (hi.owner _ _ hv)]
  · have hps : ∀ (ws : List (E × E)), (∀ w ∈ ws, w ∈ windows es) → ∃ ps : List Pt, ws.map (get g'.links) = ps.map some ∧
        ps.map g'.ports.vertexOf = (ws.map (·.1)).map (fun e => match get g1.edges.ends e with | none => .error .structure | some x => .ok x.2) ∧
        List.Forall₂ (fun i w => ∃ es, g'.ports.edgesFor i = .ok es ∧ ∀ e, e ∈ es ↔ e = w.1 ∨ e = w.2) ps ws := by
      intro ws
      induction ws with
      | nil => exact fun _ => ⟨[], rfl, rfl, .nil⟩
      | cons w ws ih =>
        intro hw
        obtain ⟨ps, h1, h2, h3⟩ := ih (fun x hx => hw x (List.mem_cons_of_mem _ hx))
        obtain ⟨i, x, l1, l2, _, l4, l5⟩ := j8 w (hw w List.mem_cons_self)
        refine ⟨i :: ps, by simp [h1, l1], ?_, .cons ?_ h3⟩
        · have hv := ((ports_owned j5).1 i x.2).2 l4
          simp only [List.map_cons, List.cons.injEq]
          refine ⟨?_, h2⟩
          rw [l2]
          exact hv
        · obtain ⟨⟨fs, m1, m2⟩, _⟩ := ports_of_port j5 l4
          refine ⟨fs, m1, fun e => ?_⟩
          rw [m2]
          simp [l5, or_comm]
    obtain ⟨ps, h1, h2, h3⟩ := hps (windows es) (fun _ h => h)
    refine ⟨ps, ?_, ?_, ?_⟩
    · rw [Seg.segPorts, hsame, hsort, h1]
    · rw [h2, windows_fst]
      have hmap : ∀ l : List E, l.map (fun e => match get g1.edges.ends e with | none => Except.error PErr.structure | some x => Except.ok x.2) =
          (l.map (get g1.edges.ends)).map (fun x => match x with | none => Except.error PErr.structure | some x => Except.ok x.2) := by
        intro l
        rw [List.map_map]
        rfl
      rw [hmap, List.map_dropLast, k3, ← List.map_dropLast, List.map_map]
      have : (windows (s :: (cr ++ [t]))).dropLast.map (·.2) = cr := by
        rw [List.map_dropLast, windows_snd, List.dropLast_concat]
      conv_rhs => rw [← this, List.map_map]
      rfl
    · rw [hsame, hsort]
      exact h3

/-- A way that begins with two vertices connected before: `addEdge` throws, whatever the rest. -/
theorem segments_again {name : V → V → Stable} (hn : Naming name) {ord : List E → List E} {g : Seg} (hr : SRun name ord g) {h : Hier}
    {fuel : Nat} {o : E} {s t x : V} {cr cr' : List V} (hc : h.crossings fuel s t = .ok cr) (hx : cr ++ [t] = x :: cr')
    (hused : get g.edges.stable (name s x) ≠ none) : (g.addEdge name ord h fuel o s t).2 = some (.edge .assertion) := by
  simp only [Seg.addEdge, hc]
  rw [List.cons_append, hx, Seg.split]
  have hi := run_inv hn hr
  have hnew : get g.edges.store g.edges.store.length = none := (hi.store _).2 (Nat.le_refl _)
  obtain ⟨e, he⟩ := Option.ne_none_iff_exists'.1 hused
  simp [Graph.addEdge, nextId, storeEdge, hnew, trackEdge, get_set, hn.some, he]

/-! ### Examples -/

def plainName (a b : V) : Stable := [a, b]

theorem plainName_ok : Naming plainName := ⟨by simp [plainName], by simp [plainName]⟩

/-- The edge 0 from `c` to `g` of the documented tree. -/
def docSeg : Seg := (Seg.addEdge plainName id doc 9 .empty 0 3 7).1

theorem docSeg_run : SRun plainName id docSeg := .add _ _ _ _ _ .init

/-- Four segments through `b`, `e` and `f`, with three ports. -/
example : ∃ g', Seg.addEdge plainName id doc 9 .empty 0 3 7 = (g', none) ∧
    (g'.segments id 0).map (getEnds g'.edges) = [(3, 2), (2, 5), (5, 6), (6, 7)].map .ok ∧
    ∃ ps : List Pt, g'.segPorts id 0 = ps.map some ∧ ps.map g'.ports.vertexOf = [2, 5, 6].map .ok := by
  have hc : doc.crossings 9 3 7 = .ok [2, 5, 6] := crossings_partial (L := 1) (us := [3, 2]) (ut := [7, 6, 5]) (rest := [])
    (anc_of_chain (n := 9) (by decide +kernel)) (anc_of_chain (n := 9) (by decide +kernel)) rfl rfl (by decide) (by decide) (by decide) (by decide)
  obtain ⟨g', h1, h2, _, _, ps, h3, h4, _⟩ := segments_partial plainName_ok (ord := id) (fun _ => List.Perm.refl _) (.init) (o := 0) hc
    (by decide +kernel) (by intro w _ e; simp [getEnds, Seg.empty, Coll.empty]) (by decide)
  exact ⟨g', h1, h2, ps, h3, h4⟩

/-- The statement of the property: every edge with known crossings is split. -/
def SegmentsStatement : Prop := ∀ g, SRun plainName id g → ∀ (h : Hier) fuel o s t cr, h.crossings fuel s t = .ok cr →
  g.segments id o = [] → ∃ g', g.addEdge plainName id h fuel o s t = (g', none) ∧
    (g'.segments id o).map (getEnds g'.edges) = (windows (s :: cr ++ [t])).map .ok

/-- A second edge out of `b`, from `c` to `h`, throws. -/
theorem segments_false : ¬ SegmentsStatement := by
  intro hs
  obtain ⟨g', h1, _⟩ := hs docSeg docSeg_run doc 9 1 3 8 [2, 5] (by decide +kernel) (by decide +kernel)
  have h2 : (docSeg.addEdge plainName id doc 9 1 3 8).2.isSome = true := by decide +kernel
  rw [h1] at h2
  cases h2

/-- The ports: as the end of the first segment and the start of the second. -/
def SegPortsStatement : Prop := ∀ g, SRun plainName id g → ∀ (h : Hier) fuel o s t g', g.addEdge plainName id h fuel o s t = (g', none) →
  ∀ w ∈ windows (g'.segments id o), ∀ x, getEnds g'.edges w.1 = .ok x →
    g'.ports.hasConnection x.2 w.1 false = .ok true ∧ g'.ports.hasConnection x.2 w.2 true = .ok true

theorem docSeg_ports : (docSeg.ports.hasConnection 2 0 false).toOption = some false ∧ (docSeg.ports.hasConnection 2 1 true).toOption = some false ∧
    (docSeg.ports.hasConnection 2 0 true).toOption = some true ∧ (docSeg.ports.hasConnection 2 1 false).toOption = some true := by
  decide +kernel

theorem seg_ports_false : ¬ SegPortsStatement := by
  intro hs
  have h1 : (Seg.addEdge plainName id doc 9 .empty 0 3 7).2.isNone = true := by decide +kernel
  have h2 := hs .empty .init doc 9 0 3 7 docSeg (Prod.ext rfl (Option.isNone_iff_eq_none.1 h1)) (0, 1) (by decide +kernel) (3, 2)
    (by
      have : (getEnds docSeg.edges 0).toOption = some (3, 2) := by decide +kernel
      cases hg : getEnds docSeg.edges 0 with
      | error e => rw [hg] at this; cases this
      | ok x => rw [hg] at this; cases this; rfl)
  have h3 := docSeg_ports.1
  rw [h2.1] at h3
  cases h3

end Verif.Graph
