import Verif.Graph.PortModel
import Mathlib.Tactic.SplitIfs
import Mathlib.Data.List.Nodup

/-! # C68: ports -/

namespace Verif.Graph

/-- Histories: next to the collection stand the ports added and not deleted since, with the vertex
each was added to, and the connections made and not deleted since. -/
inductive PRun : Ports → (Pt → Option V) → (Pt → E → Bool → Prop) → Prop
  | init : PRun .empty (fun _ => none) (fun _ _ _ => False)
  | add {p own con v i} : PRun p own con → (p.add v).2 = .ok i →
      PRun (p.add v).1 (fun j => if j = i then some v else own j) con
  | addFor {p own con v e b i} : PRun p own con → (p.addFor v e b).2 = .ok i →
      PRun (p.addFor v e b).1 (fun j => if j = i then some v else own j) (fun j e' b' => con j e' b' ∨ (j, e', b') = (i, e, b))
  | addEdge {p own con e b i p'} : PRun p own con → p.addEdge i e b = .ok p' →
      PRun p' own (fun j e' b' => con j e' b' ∨ (j, e', b') = (i, e, b))
  | delete {p own con i p'} : PRun p own con → p.delete i = .ok p' →
      PRun p' (fun j => if j = i then none else own j) (fun j e' b' => con j e' b' ∧ j ≠ i)

/-! ## Lemmas -/

theorem vertexOf_ok {p : Ports} (hn : (p.ports.map (·.2)).Nodup) {i : Pt} {v : V} : p.vertexOf i = .ok v ↔ (v, i) ∈ p.ports := by
  simp only [Ports.vertexOf]
  obtain ⟨ps, _, _⟩ := p
  simp only at hn ⊢
  induction ps with
  | nil => simp
  | cons x ps ih =>
    simp only [List.map_cons, List.nodup_cons] at hn
    have ih := ih hn.2
    simp only [List.find?_cons]
    by_cases hx : x.2 = i
    · simp only [hx, decide_true, Except.ok.injEq, List.mem_cons]
      constructor
      · intro h
        exact .inl (Prod.ext h.symm hx.symm)
      · rintro (h | h)
        · rw [← h]
        · exact absurd (List.mem_map.2 ⟨_, h, hx.symm⟩) hn.1
    · simp only [hx, decide_false, List.mem_cons]
      rw [ih]
      constructor
      · exact .inr
      · rintro (h | h)
        · exact absurd (by rw [← h]) hx
        · exact h

theorem vertexOf_error {p : Ports} {i : Pt} : (∃ e, p.vertexOf i = .error e) ↔ ∀ v, (v, i) ∉ p.ports := by
  simp only [Ports.vertexOf]
  split
  · rename_i h
    rw [List.find?_eq_none] at h
    refine ⟨fun _ v hv => ?_, fun _ => ⟨_, rfl⟩⟩
    exact h _ hv (by simp)
  · rename_i x h
    have h1 := List.find?_some h
    have h2 := List.mem_of_find?_eq_some h
    simp only [decide_eq_true_eq] at h1
    refine ⟨fun ⟨e, he⟩ => by simp at he, fun hx => ?_⟩
    exact absurd (show (x.1, i) ∈ p.ports from h1 ▸ h2) (hx x.1)

/-- Ids are below the number of stored ports, unique, and connections name ports. -/
structure Ports.Good (p : Ports) (own : Pt → Option V) (con : Pt → E → Bool → Prop) : Prop where
  nodup : (p.ports.map (·.2)).Nodup
  below : ∀ v i, (v, i) ∈ p.ports → i < p.stored
  owner : ∀ v i, (v, i) ∈ p.ports ↔ own i = some v
  conn : ∀ i e b, (i, e, b) ∈ p.conns ↔ con i e b
  named : ∀ i e b, con i e b → ∃ v, own i = some v
  once : p.conns.Nodup

theorem good_fresh {p : Ports} {own : Pt → Option V} {con : Pt → E → Bool → Prop} (h : p.Good own con) : own p.stored = none := by
  cases ho : own p.stored with
  | none => rfl
  | some v =>
    exact absurd (h.below v _ ((h.owner v _).2 ho)) (Nat.lt_irrefl _)

theorem good_vertexOf {p : Ports} {own : Pt → Option V} {con : Pt → E → Bool → Prop} (h : p.Good own con) {i : Pt} {v : V} :
    p.vertexOf i = .ok v ↔ own i = some v := by
  rw [vertexOf_ok h.nodup, h.owner]

/-- Adding a port always works, with an unused id. -/
theorem good_add {p : Ports} {own : Pt → Option V} {con : Pt → E → Bool → Prop} (h : p.Good own con) (v : V) :
    (p.add v).2 = .ok p.stored ∧ (p.add v).1.Good (fun j => if j = p.stored then some v else own j) con ∧
      (p.add v).1 = { p with stored := p.stored + 1, ports := p.ports ++ [(v, p.stored)] } := by
  have hno : ∀ w, (w, p.stored) ∉ p.ports := by
    intro w hw
    exact Nat.lt_irrefl _ (h.below w _ hw)
  have hv : ∃ e, Ports.vertexOf { p with stored := p.stored + 1 } p.stored = .error e := vertexOf_error.2 hno
  obtain ⟨e, he⟩ := hv
  have ha : p.add v = ({ p with stored := p.stored + 1, ports := p.ports ++ [(v, p.stored)] }, .ok p.stored) := by
    simp only [Ports.add, Ports.register, he]
  rw [ha]
  refine ⟨rfl, ⟨?_, ?_, ?_, h.conn, ?_, h.once⟩, rfl⟩
  · simp only [List.map_append, List.map_cons, List.map_nil]
    rw [List.nodup_append]
    refine ⟨h.nodup, by simp, ?_⟩
    intro a ha b hb
    simp only [List.mem_singleton] at hb
    subst hb
    rintro rfl
    rw [List.mem_map] at ha
    obtain ⟨x, hx, hxe⟩ := ha
    exact hno x.1 (by rw [← hxe]; exact hx)
  · intro w i hw
    simp only [List.mem_append, List.mem_singleton, Prod.mk.injEq] at hw
    rcases hw with hw | ⟨_, rfl⟩
    · exact Nat.lt_succ_of_lt (h.below w i hw)
    · simp
  · intro w i
    simp only [List.mem_append, List.mem_singleton, Prod.mk.injEq]
    by_cases hi : i = p.stored
    · subst hi
      simp [hno w, eq_comm]
    · simp [hi, h.owner]
  · intro i e b hc
    obtain ⟨w, hw⟩ := h.named i e b hc
    by_cases hi : i = p.stored
    · exact ⟨v, by simp [hi]⟩
    · exact ⟨w, by simp [hi, hw]⟩

theorem good_connect {p p' : Ports} {own : Pt → Option V} {con : Pt → E → Bool → Prop} (h : p.Good own con) {v : V} {e : E} {b : Bool} {i : Pt}
    (hc : p.connect v e b i = .ok p') :
    own i = some v ∧ ¬ con i e b ∧ p'.Good own (fun j e' b' => con j e' b' ∨ (j, e', b') = (i, e, b)) := by
  simp only [Ports.connect] at hc
  split at hc
  · cases hc
  · rename_i v' hv
    by_cases h1 : v' ≠ v
    · rw [if_pos h1] at hc; cases hc
    · rw [if_neg h1] at hc
      by_cases h2 : (i, e, b) ∈ p.conns
      · rw [if_pos h2] at hc; cases hc
      · rw [if_neg h2, Except.ok.injEq] at hc
        subst hc
        have h1 : v' = v := Decidable.not_not.1 h1
        subst h1
        rw [good_vertexOf h] at hv
        refine ⟨hv, fun hx => h2 ((h.conn _ _ _).2 hx), ⟨h.nodup, h.below, h.owner, ?_, ?_, ?_⟩⟩
        · intro j e' b'
          simp only [List.mem_append, List.mem_singleton, h.conn]
        · intro j e' b' hx
          rcases hx with hx | hx
          · exact h.named j e' b' hx
          · simp only [Prod.mk.injEq] at hx
            exact ⟨v', by rw [hx.1]; exact hv⟩
        · rw [List.nodup_append]
          refine ⟨h.once, by simp, ?_⟩
          intro a ha c hc
          simp only [List.mem_singleton] at hc
          subst hc
          rintro rfl
          exact h2 ha

theorem good_run {p : Ports} {own : Pt → Option V} {con : Pt → E → Bool → Prop} (hr : PRun p own con) : p.Good own con := by
  induction hr with
  | init => constructor <;> simp [Ports.empty]
  | @add p own con v i _ ha ih =>
    obtain ⟨h1, h2, _⟩ := good_add ih v
    rw [h1, Except.ok.injEq] at ha
    rw [← ha]
    exact h2
  | @addFor p own con v e b i _ ha ih =>
    obtain ⟨h1, h2, h3⟩ := good_add ih v
    have hadd : p.add v = ((p.add v).1, .ok p.stored) := Prod.ext rfl h1
    simp only [Ports.addFor] at ha ⊢
    rw [hadd] at ha ⊢
    simp only at ha ⊢
    split at ha
    · simp at ha
    · rename_i p2 hp2
      simp only [Except.ok.injEq] at ha
      subst ha
      simp only [hp2]
      exact (good_connect h2 hp2).2.2
  | @addEdge p own con e b i p' _ ha ih =>
    simp only [Ports.addEdge] at ha
    split at ha
    · cases ha
    · exact (good_connect ih ha).2.2
  | @delete p own con i p' _ hd ih =>
    simp only [Ports.delete] at hd
    split at hd
    · cases hd
    · simp only [Except.ok.injEq] at hd
      subst hd
      refine ⟨?_, ?_, ?_, ?_, ?_, ih.once.filter _⟩
      · exact (ih.nodup).sublist (List.filter_sublist.map _)
      · intro v j hj
        exact ih.below v j (List.mem_filter.1 hj).1
      · intro v j
        simp only [List.mem_filter, ih.owner, decide_eq_true_eq]
        by_cases hj : j = i
        · simp [hj]
        · simp [hj]
      · intro j e b
        simp only [List.mem_filter, ih.conn, decide_eq_true_eq]
      · rintro j e b ⟨hc, hj⟩
        obtain ⟨v, hv⟩ := ih.named j e b hc
        exact ⟨v, by simp [hj, hv]⟩

theorem search_spec {p : Ports} {own : Pt → Option V} {con : Pt → E → Bool → Prop} (h : p.Good own con) {v : V} {b : Bool} :
    ∀ cs : List (Pt × E × Bool), (∀ c ∈ cs, c ∈ p.conns) →
      (∃ i, p.search v b cs = .ok (some i) ∧ own i = some v ∧ ∃ e, (i, e, b) ∈ cs) ∨
      (p.search v b cs = .ok none ∧ ∀ i e, (i, e, b) ∈ cs → own i ≠ some v) := by
  intro cs
  induction cs with
  | nil => intro _; exact .inr ⟨rfl, by simp⟩
  | cons c cs ih =>
    intro hc
    have ih := ih (fun x hx => hc x (List.mem_cons_of_mem _ hx))
    obtain ⟨i, e, b'⟩ := c
    simp only [Ports.search]
    by_cases hb : b' ≠ b
    · rw [if_pos hb]
      rcases ih with ⟨j, h1, h2, e', h3⟩ | ⟨h1, h2⟩
      · exact .inl ⟨j, h1, h2, e', List.mem_cons_of_mem _ h3⟩
      · refine .inr ⟨h1, fun j e' hm => ?_⟩
        rcases List.mem_cons.1 hm with hm | hm
        · simp only [Prod.mk.injEq] at hm
          exact absurd hm.2.2.symm hb
        · exact h2 j e' hm
    · rw [if_neg hb]
      have hb : b' = b := Decidable.not_not.1 hb
      subst hb
      obtain ⟨w, hw⟩ := h.named i e b' ((h.conn _ _ _).1 (hc _ (by simp)))
      have hv := (good_vertexOf h).2 hw
      simp only [hv]
      by_cases hwv : w = v
      · rw [if_pos hwv]
        exact .inl ⟨i, rfl, hwv ▸ hw, e, by simp⟩
      · rw [if_neg hwv]
        rcases ih with ⟨j, h1, h2, e', h3⟩ | ⟨h1, h2⟩
        · exact .inl ⟨j, h1, h2, e', List.mem_cons_of_mem _ h3⟩
        · refine .inr ⟨h1, fun j e' hm => ?_⟩
          rcases List.mem_cons.1 hm with hm | hm
          · simp only [Prod.mk.injEq] at hm
            rw [hm.1, hw]
            simpa using hwv
          · exact h2 j e' hm

/-! ## Theorems -/

/-- Every port belongs to the vertex it was added to, and to no other; only registered ports are
connected, each at most once to the same end of the same edge. -/
theorem ports_owned {p : Ports} {own : Pt → Option V} {con : Pt → E → Bool → Prop} (hr : PRun p own con) :
    (∀ i v, p.vertexOf i = .ok v ↔ own i = some v) ∧ (∀ v i, i ∈ p.forVertex v ↔ own i = some v) ∧
      (∀ i e b, con i e b → ∃ v, own i = some v) := by
  have h := good_run hr
  refine ⟨fun i v => good_vertexOf h, ?_, h.named⟩
  intro v i
  simp only [Ports.forVertex, List.mem_map, List.mem_filter, decide_eq_true_eq]
  rw [← h.owner]
  constructor
  · rintro ⟨⟨w, j⟩, ⟨h1, h2⟩, h3⟩
    simp only at h2 h3
    subst h2 h3
    exact h1
  · intro hm
    exact ⟨_, ⟨hm, rfl⟩, rfl⟩

/-- A new port can always be added, also together with a connection, and gets an id that no
existing port has. -/
theorem ports_fresh {p : Ports} {own : Pt → Option V} {con : Pt → E → Bool → Prop} (hr : PRun p own con) (v : V) :
    (∃ i, (p.add v).2 = .ok i ∧ own i = none) ∧ ∀ e b, ∃ i, (p.addFor v e b).2 = .ok i ∧ own i = none := by
  have h := good_run hr
  obtain ⟨h1, h2, h3⟩ := good_add h v
  refine ⟨⟨_, h1, good_fresh h⟩, fun e b => ⟨p.stored, ?_, good_fresh h⟩⟩
  have hadd : p.add v = ((p.add v).1, .ok p.stored) := Prod.ext rfl h1
  have hv : (p.add v).1.vertexOf p.stored = .ok v := (good_vertexOf h2).2 (by simp)
  have hno : (p.stored, e, b) ∉ (p.add v).1.conns := by
    rw [h2.conn]
    intro hc
    obtain ⟨w, hw⟩ := h.named _ _ _ hc
    rw [good_fresh h] at hw
    cases hw
  simp only [Ports.addFor]
  rw [hadd]
  simp only [Ports.connect, hv, ne_eq, not_true_eq_false, if_false, if_neg hno]

/-- A registered port can be connected to every end of an edge it is not connected to. -/
theorem ports_connect {p : Ports} {own : Pt → Option V} {con : Pt → E → Bool → Prop} (hr : PRun p own con) (i : Pt) (e : E) (b : Bool) :
    (∃ p', p.addEdge i e b = .ok p') ↔ (∃ v, own i = some v) ∧ ¬ con i e b := by
  have h := good_run hr
  simp only [Ports.addEdge]
  constructor
  · rintro ⟨p', hp⟩
    split at hp
    · cases hp
    · obtain ⟨h1, h2, _⟩ := good_connect h hp
      exact ⟨⟨_, h1⟩, h2⟩
  · rintro ⟨⟨v, hv⟩, hc⟩
    rw [← good_vertexOf h] at hv
    rw [← h.conn] at hc
    simp only [hv, Ports.connect, ne_eq, not_true_eq_false, if_false, if_neg hc]
    exact ⟨_, rfl⟩

/-- Queries by vertex and edge: a connected port is found iff there is one. -/
theorem ports_connection {p : Ports} {own : Pt → Option V} {con : Pt → E → Bool → Prop} (hr : PRun p own con) (v : V) (e : E) (b : Bool) :
    (p.hasConnection v e b = .ok true ↔ ∃ i, own i = some v ∧ con i e b) ∧
      (p.hasConnection v e b = .ok false ↔ ¬ ∃ i, own i = some v ∧ con i e b) ∧
      (∀ i, p.forConnection v e b = .ok i → own i = some v ∧ con i e b) ∧
      ((∃ i, p.forConnection v e b = .ok i) ↔ ∃ i, own i = some v ∧ con i e b) := by
  have h := good_run hr
  have hmem : ∀ i e' b', (i, e', b') ∈ p.ofEdge e ↔ con i e' b' ∧ e' = e := by
    intro i e' b'
    simp only [Ports.ofEdge, List.mem_filter, h.conn, decide_eq_true_eq]
  simp only [Ports.hasConnection, Ports.forConnection]
  rcases search_spec h (v := v) (b := b) (p.ofEdge e) (fun c hc => (List.mem_filter.1 hc).1) with ⟨i, h1, h2, e', h3⟩ | ⟨h1, h2⟩
  · obtain ⟨hcon, rfl⟩ := (hmem _ _ _).1 h3
    clear h3
    rename con i e' b => h3
    simp only [h1, Option.isSome_some, Except.ok.injEq]
    refine ⟨⟨fun _ => ⟨i, h2, h3⟩, fun _ => trivial⟩, ⟨fun hx => (by cases hx), fun hx => absurd ⟨i, h2, h3⟩ hx⟩, ?_,
      ⟨fun _ => ⟨i, h2, h3⟩, fun _ => ⟨i, rfl⟩⟩⟩
    rintro j rfl
    exact ⟨h2, h3⟩
  · have hno : ¬ ∃ i, own i = some v ∧ con i e b := by
      rintro ⟨i, h3, h4⟩
      exact h2 i e ((hmem _ _ _).2 ⟨h4, rfl⟩) h3
    simp only [h1, Option.isSome_none, Except.ok.injEq]
    refine ⟨⟨fun hx => (by cases hx), fun hx => absurd hx hno⟩, ⟨fun _ => hno, fun _ => trivial⟩, ?_, ⟨?_, fun hx => absurd hx hno⟩⟩
    · intro j hj; cases hj
    · rintro ⟨j, hj⟩; cases hj

theorem fold_ends : ∀ (cs : List (Pt × E × Bool)) (r : Option Pt × Option Pt),
    let r' := cs.foldl (fun r c => if c.2.2 then (some c.1, r.2) else (r.1, some c.1)) r
    ((∃ i e, r'.1 = some i ∧ (i, e, true) ∈ cs) ∨ (r'.1 = r.1 ∧ ∀ i e, (i, e, true) ∉ cs)) ∧
      ((∃ i e, r'.2 = some i ∧ (i, e, false) ∈ cs) ∨ (r'.2 = r.2 ∧ ∀ i e, (i, e, false) ∉ cs)) := by
  intro cs
  induction cs with
  | nil => intro r; simp
  | cons c cs ih =>
    intro r
    obtain ⟨i, e, b⟩ := c
    simp only [List.foldl_cons]
    have ih := ih (if b = true then (some i, r.2) else (r.1, some i))
    simp only at ih
    cases b
    · simp only [Bool.false_eq_true, if_false, List.mem_cons, Prod.mk.injEq, and_false, Bool.true_eq_false, false_or, and_true] at ih ⊢
      refine ⟨ih.1, ?_⟩
      rcases ih.2 with ⟨j, e', h1, h2⟩ | ⟨h1, _⟩
      · exact .inl ⟨j, e', h1, .inr h2⟩
      · exact .inl ⟨i, e, h1, .inl ⟨rfl, rfl⟩⟩
    · simp only [if_true, List.mem_cons, Prod.mk.injEq, and_false, Bool.false_eq_true, false_or, and_true] at ih ⊢
      refine ⟨?_, ih.2⟩
      rcases ih.1 with ⟨j, e', h1, h2⟩ | ⟨h1, _⟩
      · exact .inl ⟨j, e', h1, .inr h2⟩
      · exact .inl ⟨i, e, h1, .inl ⟨rfl, rfl⟩⟩

/-- Queries by edge: each end shows a port connected to it, and none iff there is none. -/
theorem ports_of_edge {p : Ports} {own : Pt → Option V} {con : Pt → E → Bool → Prop} (hr : PRun p own con) (e : E) :
    (∀ i, (p.forEdge e).1 = some i → con i e true) ∧ ((p.forEdge e).1 = none ↔ ∀ i, ¬ con i e true) ∧
      (∀ i, (p.forEdge e).2 = some i → con i e false) ∧ ((p.forEdge e).2 = none ↔ ∀ i, ¬ con i e false) := by
  have h := good_run hr
  have hmem : ∀ i e' b', (i, e', b') ∈ p.ofEdge e ↔ con i e' b' ∧ e' = e := by
    intro i e' b'
    simp only [Ports.ofEdge, List.mem_filter, h.conn, decide_eq_true_eq]
  obtain ⟨h1, h2⟩ := fold_ends (p.ofEdge e) (none, none)
  simp only [hmem] at h1 h2
  refine ⟨?_, ?_, ?_, ?_⟩
  · intro i hi
    rcases h1 with ⟨j, e', h3, h4, rfl⟩ | ⟨h3, _⟩
    · rw [Ports.forEdge, h3, Option.some.injEq] at hi
      exact hi ▸ h4
    · rw [Ports.forEdge, h3] at hi
      cases hi
  · rcases h1 with ⟨j, e', h3, h4, rfl⟩ | ⟨h3, h4⟩
    · rw [Ports.forEdge, h3]
      exact ⟨fun hx => (by cases hx), fun hx => absurd h4 (hx j)⟩
    · rw [Ports.forEdge, h3]
      exact ⟨fun _ i hi => h4 i e ⟨hi, rfl⟩, fun _ => rfl⟩
  · intro i hi
    rcases h2 with ⟨j, e', h3, h4, rfl⟩ | ⟨h3, _⟩
    · rw [Ports.forEdge, h3, Option.some.injEq] at hi
      exact hi ▸ h4
    · rw [Ports.forEdge, h3] at hi
      cases hi
  · rcases h2 with ⟨j, e', h3, h4, rfl⟩ | ⟨h3, h4⟩
    · rw [Ports.forEdge, h3]
      exact ⟨fun hx => (by cases hx), fun hx => absurd h4 (hx j)⟩
    · rw [Ports.forEdge, h3]
      exact ⟨fun _ i hi => h4 i e ⟨hi, rfl⟩, fun _ => rfl⟩

/-- Queries by port. -/
theorem ports_of_port {p : Ports} {own : Pt → Option V} {con : Pt → E → Bool → Prop} (hr : PRun p own con) {i : Pt} {v : V}
    (hv : own i = some v) :
    (∃ es, p.edgesFor i = .ok es ∧ ∀ e, e ∈ es ↔ ∃ b, con i e b) ∧
      ∀ b, p.isSource i = .ok b ↔ (∃ e, con i e b) ∧ ∀ e b', con i e b' → b' = b := by
  have h := good_run hr
  have hmem : ∀ j e' b', (j, e', b') ∈ p.ofPort i ↔ con j e' b' ∧ j = i := by
    intro j e' b'
    simp only [Ports.ofPort, List.mem_filter, h.conn, decide_eq_true_eq]
  rw [← good_vertexOf h] at hv
  constructor
  · simp only [Ports.edgesFor, hv]
    refine ⟨_, rfl, fun e => ?_⟩
    simp only [List.mem_map]
    constructor
    · rintro ⟨⟨j, e', b⟩, h1, h2⟩
      obtain ⟨h3, rfl⟩ := (hmem _ _ _).1 h1
      exact ⟨b, h2 ▸ h3⟩
    · rintro ⟨b, hb⟩
      exact ⟨_, (hmem _ _ _).2 ⟨hb, rfl⟩, rfl⟩
  · intro b
    simp only [Ports.isSource, hv]
    cases hc : p.ofPort i with
    | nil =>
      rw [hc] at hmem
      refine ⟨fun hx => (by cases hx), fun hx => ?_⟩
      obtain ⟨⟨e, he⟩, _⟩ := hx
      have := (hmem i e b).2 ⟨he, rfl⟩
      cases this
    | cons c cs =>
      rw [hc] at hmem
      obtain ⟨j, e0, b0⟩ := c
      simp only
      obtain ⟨hc0, hj0⟩ := (hmem j e0 b0).1 (by simp)
      subst hj0
      split_ifs with ha
      · rw [List.all_eq_true] at ha
        have hall : ∀ e b', con j e b' → b' = b0 := by
          intro e b' hcb
          rcases List.mem_cons.1 ((hmem j e b').2 ⟨hcb, rfl⟩) with h1 | h1
          · simp only [Prod.mk.injEq] at h1
            exact h1.2.2
          · simpa using ha _ h1
        simp only [Except.ok.injEq]
        constructor
        · rintro rfl
          exact ⟨⟨e0, hc0⟩, hall⟩
        · rintro ⟨⟨e, he⟩, _⟩
          exact (hall e b he).symm
      · refine ⟨fun hx => (by cases hx), fun hx => ?_⟩
        exfalso
        apply ha
        rw [List.all_eq_true]
        rintro ⟨j', e', b'⟩ hm
        obtain ⟨h1, h2⟩ := (hmem j' e' b').1 (List.mem_cons_of_mem _ hm)
        subst h2
        simp only [beq_iff_eq]
        rw [hx.2 e' b' h1, hx.2 e0 b0 hc0]

/-! ### An example -/

/-- Two ports on vertex 5, the first deleted after being connected; the next gets a new id. -/
def portsDemo : Ports := ⟨[(5, 1)], [(1, 1, false)], 2⟩

theorem portsDemo_run : ∃ own con, PRun portsDemo own con ∧ own 1 = some 5 ∧ own 0 = none ∧ con 1 1 false := by
  refine ⟨_, _, .delete (i := 0) (.addFor (v := 5) (e := 1) (b := false) (i := 1) (.addFor (v := 5) (e := 0) (b := true) (i := 0) .init rfl) rfl) rfl, rfl, rfl, ?_⟩
  simp

example : (portsDemo.add 6).2 = .ok 2 ∧ portsDemo.forVertex 5 = [1] ∧ portsDemo.forEdge 1 = (none, some 1) := ⟨rfl, rfl, rfl⟩

end Verif.Graph
