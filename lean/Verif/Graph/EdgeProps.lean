import Verif.Graph.EdgeLemmas

/-! # C62 – Edge collections -/

namespace Verif.Graph

/-! ## The invariant -/

/-- What holds after every history. -/
structure Base (c : Coll) : Prop where
  tight : Tight c.incidence
  ends : ∀ s t e, InM c.incidence s t e → get c.ends e = some (s, t)
  known : ∀ e x, get c.ends e = some x → ∃ n, get c.store e = some n ∧ get c.stable n = some e

theorem base_store {c c' : Coll} {e : E} {n : Stable} (h : Base c) (hs : storeEdge c e n = .ok c') : Base c' := by
  simp only [storeEdge] at hs
  split at hs
  · simp at hs
  · rename_i hn
    simp only [Except.ok.injEq] at hs
    subst hs
    refine ⟨h.tight, h.ends, ?_⟩
    intro e' x hx
    obtain ⟨n', h1, h2⟩ := h.known e' x hx
    refine ⟨n', ?_, h2⟩
    have : e' ≠ e := by
      rintro rfl
      rw [hn] at h1
      cases h1
    rw [get_set, if_neg this]
    exact h1

/-- The effect of `trackEdge`. -/
theorem track_effect {c c' : Coll} {e : E} {s t : V} (h : trackEdge c e s t = .ok c') :
    ∃ n, get c.store e = some n ∧ get c.stable n = none ∧ c'.store = c.store ∧ c'.stable = set c.stable n e ∧
      c'.incidence = addIncidence c.incidence s t e ∧ c'.incoming = set c.incoming t ((get c.incoming t).getD [] ++ [s]) ∧
      c'.ends = set c.ends e (s, t) := by
  simp only [trackEdge] at h
  split at h
  · simp at h
  · rename_i n hn
    split at h
    · simp at h
    · split at h
      · simp at h
      · rename_i hs
        simp only [Except.ok.injEq] at h
        subst h
        exact ⟨n, hn, by simpa using hs, rfl, rfl, rfl, rfl, rfl⟩

/-- An edge is tracked at most once. -/
theorem track_fresh {c c' : Coll} {e : E} {s t : V} (hb : Base c) (h : trackEdge c e s t = .ok c') : get c.ends e = none := by
  obtain ⟨n, h1, h2, _⟩ := track_effect h
  cases hx : get c.ends e with
  | none => rfl
  | some x =>
    obtain ⟨n', h3, h4⟩ := hb.known e x hx
    rw [h1] at h3
    cases h3
    rw [h2] at h4
    cases h4

theorem base_track {c c' : Coll} {e : E} {s t : V} (hb : Base c) (h : trackEdge c e s t = .ok c') : Base c' := by
  have hf := track_fresh hb h
  obtain ⟨n, h1, h2, h3, h4, h5, h6, h7⟩ := track_effect h
  refine ⟨h5 ▸ tight_add hb.tight s t e, ?_, ?_⟩
  · intro s' t' e' hin
    rw [h5, in_add] at hin
    rw [h7, get_set]
    rcases hin with hin | ⟨rfl, rfl, rfl⟩
    · have := hb.ends _ _ _ hin
      have hne : e' ≠ e := by
        rintro rfl
        rw [hf] at this
        cases this
      rw [if_neg hne]
      exact this
    · simp
  · intro e' x hx
    rw [h7, get_set] at hx
    rw [h3, h4]
    by_cases he : e' = e
    · subst he
      exact ⟨n, h1, by rw [get_set, if_pos rfl]⟩
    · rw [if_neg he] at hx
      obtain ⟨n', h8, h9⟩ := hb.known e' x hx
      refine ⟨n', h8, ?_⟩
      rw [get_set, if_neg]
      · exact h9
      · rintro rfl
        rw [h2] at h9
        cases h9

/-- The effect of `untrackEdge`. -/
theorem untrack_effect {c c' : Coll} {e : E} (h : untrackEdge c e = .ok c') :
    ∃ s t, get c.ends e = some (s, t) ∧ c'.incidence = dropIncidence c.incidence s t e ∧
      c'.incoming = dropIncoming c.incoming s t ∧ c'.ends = c.ends ∧ c'.store = c.store ∧ c'.stable = c.stable := by
  simp only [untrackEdge] at h
  split at h
  · simp at h
  · rename_i s t he
    simp only [Except.ok.injEq] at h
    subst h
    exact ⟨s, t, he, rfl, rfl, rfl, rfl, rfl⟩

theorem base_untrack {c c' : Coll} {e : E} (hb : Base c) (h : untrackEdge c e = .ok c') : Base c' := by
  obtain ⟨s, t, h1, h2, h3, h4, h5, h6⟩ := untrack_effect h
  refine ⟨h2 ▸ tight_drop hb.tight s t e, ?_, ?_⟩
  · intro s' t' e' hin
    rw [h2, in_drop] at hin
    rw [h4]
    exact hb.ends _ _ _ hin.1
  · rw [h4, h5, h6]
    exact hb.known

/-- The effect of removing several edges. -/
theorem untrackAll_effect {es : List E} : ∀ {c c' : Coll}, Base c → untrackAll c es = .ok c' →
    Base c' ∧ c'.ends = c.ends ∧ c'.store = c.store ∧ c'.stable = c.stable ∧
      (∀ s t e, InM c'.incidence s t e ↔ InM c.incidence s t e ∧ e ∉ es) ∧
      (∀ t s, FromM c'.incoming t s ↔ FromM c.incoming t s ∧ ¬ ∃ e ∈ es, get c.ends e = some (s, t)) := by
  induction es with
  | nil =>
    intro c c' hb h
    simp only [untrackAll, Except.ok.injEq] at h
    subst h
    simp [hb]
  | cons e es ih =>
    intro c c' hb h
    simp only [untrackAll] at h
    split at h
    · simp at h
    · rename_i c1 h1
      obtain ⟨s0, t0, h2, h3, h4, h5, h6, h7⟩ := untrack_effect h1
      obtain ⟨g1, g2, g3, g4, g5, g6⟩ := ih (base_untrack hb h1) h
      refine ⟨g1, g2.trans h5, g3.trans h6, g4.trans h7, ?_, ?_⟩
      · intro s t e'
        rw [g5, h3, in_drop, List.mem_cons, not_or]
        constructor
        · rintro ⟨⟨h8, h9⟩, h10⟩
          refine ⟨h8, ?_, h10⟩
          rintro rfl
          have := hb.ends _ _ _ h8
          rw [h2] at this
          cases this
          exact h9 ⟨rfl, rfl, rfl⟩
        · rintro ⟨h8, h9, h10⟩
          exact ⟨⟨h8, fun h => h9 h.2.2⟩, h10⟩
      · intro t s
        rw [g6, h4, from_drop, h5]
        constructor
        · rintro ⟨⟨h8, h9⟩, h10⟩
          refine ⟨h8, ?_⟩
          rintro ⟨e', he', hx⟩
          rcases List.mem_cons.1 he' with rfl | he'
          · rw [h2] at hx
            cases hx
            exact h9 ⟨rfl, rfl⟩
          · exact h10 ⟨e', he', hx⟩
        · rintro ⟨h8, h9⟩
          refine ⟨⟨h8, ?_⟩, ?_⟩
          · rintro ⟨rfl, rfl⟩
            exact h9 ⟨e, by simp, h2⟩
          · rintro ⟨e', he', hx⟩
            exact h9 ⟨e', by simp [he'], hx⟩

/-- The effect of removing a vertex. -/
theorem untrackVertex_effect {c c' : Coll} {v : V} {es : List E} (hb : Base c) (h : untrackVertex c v es = .ok c') :
    Base c' ∧ c'.ends = c.ends ∧ c'.store = c.store ∧ c'.stable = c.stable ∧
      (∀ s t e, InM c'.incidence s t e ↔ InM c.incidence s t e ∧ e ∉ es ∧ s ≠ v) ∧
      (∀ t s, FromM c'.incoming t s ↔ FromM c.incoming t s ∧ (¬ ∃ e ∈ es, get c.ends e = some (s, t)) ∧ t ≠ v) := by
  simp only [untrackVertex] at h
  split at h
  · simp at h
  · rename_i c1 h1
    simp only [Except.ok.injEq] at h
    subst h
    obtain ⟨g1, g2, g3, g4, g5, g6⟩ := untrackAll_effect hb h1
    have hin : ∀ s t e, InM (del c1.incidence v) s t e ↔ InM c1.incidence s t e ∧ s ≠ v := by
      intro s t e
      simp only [InM, get_del]
      by_cases hs : s = v <;> simp [hs]
    refine ⟨⟨?_, ?_, ?_⟩, g2, g3, g4, ?_, ?_⟩
    · intro s t row hrow
      simp only [get_del] at hrow
      split_ifs at hrow
      exact g1.tight s t row hrow
    · intro s t e hx
      exact g1.ends s t e ((hin s t e).1 hx).1
    · exact g1.known
    · intro s t e
      simp only [hin, g5]
      exact and_assoc
    · intro t s
      have : FromM (del c1.incoming v) t s ↔ FromM c1.incoming t s ∧ t ≠ v := by
        simp only [FromM, get_del]
        by_cases hs : t = v <;> simp [hs]
      simp only [this, g6]
      exact and_assoc

theorem trackVertex_in {c : Coll} {v : V} (s t : V) (e : E) :
    InM (trackVertex c v).incidence s t e ↔ InM c.incidence s t e := by
  simp only [trackVertex]
  split_ifs with h
  · rfl
  · simp only [InM, get_set]
    by_cases hs : s = v
    · subst hs
      simp only [Bool.not_eq_true, Option.isSome_eq_false_iff, Option.isNone_iff_eq_none] at h
      simp [h]
    · simp [hs]

theorem trackVertex_from {c : Coll} {v : V} (t s : V) :
    FromM (trackVertex c v).incoming t s ↔ FromM c.incoming t s := by
  simp only [trackVertex]
  split_ifs with h
  · rfl
  · simp only [FromM, get_set]
    by_cases hs : t = v
    · subst hs
      simp only [Bool.not_eq_true, Option.isSome_eq_false_iff, Option.isNone_iff_eq_none] at h
      simp [h]
    · simp [hs]

theorem base_trackVertex {c : Coll} (hb : Base c) (v : V) : Base (trackVertex c v) := by
  refine ⟨?_, fun s t e h => hb.ends s t e ((trackVertex_in s t e).1 h), hb.known⟩
  intro s t row hrow
  simp only [trackVertex] at hrow
  split_ifs at hrow
  · exact hb.tight s t row hrow
  · rw [get_set] at hrow
    split_ifs at hrow
    · cases hrow
      simp
    · exact hb.tight s t row hrow

theorem run_base {b : Bool} {c : Coll} {L : List (E × V × V)} (h : Run b c L) : Base c := by
  induction h with
  | init => exact ⟨by intro s t row h; simp [Coll.empty] at h, by rintro s t e ⟨_, _, h, _⟩; simp [Coll.empty] at h,
      by intro e x h; simp [Coll.empty] at h⟩
  | store _ h ih => exact base_store ih h
  | track _ h ih => exact base_track ih h
  | untrack _ h _ ih => exact base_untrack ih h
  | trackVertex _ ih => exact base_trackVertex ih _
  | untrackVertex _ _ h ih => exact (untrackVertex_effect ih h).1

/-! ## What always holds -/

theorem mem_toRemove {c : Coll} (hb : Base c) {v : V} {e : E} (h : e ∈ toRemove c v) :
    ∃ s t, get c.ends e = some (s, t) ∧ (s = v ∨ t = v) := by
  rw [toRemove, List.mem_append, mem_outgoing, mem_incoming] at h
  rcases h with ⟨t, h⟩ | ⟨s, _, h⟩
  · exact ⟨v, t, hb.ends _ _ _ h, .inl rfl⟩
  · exact ⟨s, v, hb.ends _ _ _ h, .inr rfl⟩

theorem run_in {b : Bool} {c : Coll} {L : List (E × V × V)} (h : Run b c L) :
    ∀ e s t, (e, s, t) ∈ L → InM c.incidence s t e := by
  induction h with
  | init => simp
  | @store c L e n c' hr h ih =>
    intro e' s t hm
    simp only [storeEdge] at h
    split at h
    · simp at h
    · simp only [Except.ok.injEq] at h
      subst h
      exact ih e' s t hm
  | track hr h ih =>
    intro e' s' t' hm
    obtain ⟨n, h1, h2, h3, h4, h5, h6, h7⟩ := track_effect h
    rw [h5, in_add]
    rcases List.mem_append.1 hm with hm | hm
    · exact .inl (ih _ _ _ hm)
    · simp only [List.mem_singleton, Prod.mk.injEq] at hm
      exact .inr ⟨hm.2.1, hm.2.2, hm.1⟩
  | untrack hr h _ ih =>
    intro e' s' t' hm
    obtain ⟨s, t, h1, h2, _⟩ := untrack_effect h
    rw [h2, in_drop]
    simp only [List.mem_filter, decide_eq_true_eq] at hm
    exact ⟨ih _ _ _ hm.1, fun h => hm.2 h.2.2⟩
  | trackVertex hr ih =>
    intro e s t hm
    rw [trackVertex_in]
    exact ih _ _ _ hm
  | @untrackVertex c L v es c' hr hes h ih =>
    intro e s t hm
    obtain ⟨_, _, _, _, g5, _⟩ := untrackVertex_effect (run_base hr) h
    simp only [List.mem_filter, decide_eq_true_eq] at hm
    have hin := ih _ _ _ hm.1
    rw [g5]
    refine ⟨hin, ?_, hm.2.1⟩
    intro he
    obtain ⟨s', t', h1, h2⟩ := mem_toRemove (run_base hr) ((hes e).1 he)
    rw [(run_base hr).ends _ _ _ hin] at h1
    cases h1
    rcases h2 with h2 | h2
    · exact hm.2.1 h2
    · exact hm.2.2 h2

theorem ends_ok {c : Coll} {e : E} {x : V × V} : getEnds c e = .ok x ↔ get c.ends e = some x := by
  simp only [getEnds]
  cases get c.ends e <;> simp

/-- **C62**, for all histories: no edge is lost before it is removed. -/
theorem edges_kept {b : Bool} {c : Coll} {L : List (E × V × V)} (h : Run b c L) {e : E} {s t : V} (hm : (e, s, t) ∈ L) :
    e ∈ getEdges c ∧ e ∈ getOutgoing c s ∧ getEnds c e = .ok (s, t) ∧ hasEdge c s t = true ∧ isTrackingEdge c e = .ok true := by
  have hin := run_in h e s t hm
  have he := (run_base h).ends _ _ _ hin
  refine ⟨mem_edges.2 ⟨s, t, hin⟩, mem_outgoing.2 ⟨t, hin⟩, ends_ok.2 he, (has_iff (run_base h).tight).2 ⟨e, hin⟩, ?_⟩
  obtain ⟨row, es, h1, h2, h3⟩ := hin
  simp [isTrackingEdge, he, h1, h2, h3]

/-- **C62**, for all histories: outgoing edges are the listed edges that start at the vertex,
incoming edges are listed edges that end there. -/
theorem edges_directed {b : Bool} {c : Coll} {L : List (E × V × V)} (h : Run b c L) (v : V) (e : E) :
    (e ∈ getOutgoing c v ↔ e ∈ getEdges c ∧ ∃ t, getEnds c e = .ok (v, t)) ∧
    (e ∈ getIncoming c v → e ∈ getEdges c ∧ ∃ s, getEnds c e = .ok (s, v)) := by
  have hb := run_base h
  simp only [mem_outgoing, mem_incoming, mem_edges, ends_ok]
  constructor
  · constructor
    · rintro ⟨t, hin⟩
      exact ⟨⟨v, t, hin⟩, t, hb.ends _ _ _ hin⟩
    · rintro ⟨⟨s, t, hin⟩, t', he⟩
      rw [hb.ends _ _ _ hin] at he
      cases he
      exact ⟨t, hin⟩
  · rintro ⟨s, _, hin⟩
    exact ⟨⟨s, v, hin⟩, s, hb.ends _ _ _ hin⟩

/-! ## Without removal next to a parallel edge -/

theorem run_calm {c : Coll} {L : List (E × V × V)} (h : Run true c L) :
    (∀ s t e, InM c.incidence s t e ↔ (e, s, t) ∈ L) ∧ (∀ t s, FromM c.incoming t s ↔ ∃ e, (e, s, t) ∈ L) := by
  induction h with
  | init =>
    constructor
    · intro s t e
      simp [InM, Coll.empty]
    · intro t s
      simp [FromM, Coll.empty]
  | @store c L e n c' hr h ih =>
    simp only [storeEdge] at h
    split at h
    · simp at h
    · simp only [Except.ok.injEq] at h
      subst h
      exact ih
  | track hr h ih =>
    obtain ⟨n, h1, h2, h3, h4, h5, h6, h7⟩ := track_effect h
    constructor
    · intro s' t' e'
      rw [h5, in_add, ih.1]
      simp only [List.mem_append, List.mem_singleton, Prod.mk.injEq]
      constructor
      · rintro (h | ⟨rfl, rfl, rfl⟩)
        · exact .inl h
        · exact .inr ⟨rfl, rfl, rfl⟩
      · rintro (h | ⟨rfl, rfl, rfl⟩)
        · exact .inl h
        · exact .inr ⟨rfl, rfl, rfl⟩
    · intro t' s'
      rw [h6, from_add, ih.2]
      simp only [List.mem_append, List.mem_singleton, Prod.mk.injEq]
      constructor
      · rintro (⟨e', h⟩ | ⟨rfl, rfl⟩)
        · exact ⟨e', .inl h⟩
        · exact ⟨_, .inr ⟨rfl, rfl, rfl⟩⟩
      · rintro ⟨e', h | ⟨rfl, rfl, rfl⟩⟩
        · exact .inl ⟨e', h⟩
        · exact .inr ⟨rfl, rfl⟩
  | @untrack c L e c' hr h hcalm ih =>
    obtain ⟨s, t, h1, h2, h3, _⟩ := untrack_effect h
    have hcalm := fun e' => hcalm rfl s t e' (ends_ok.2 h1)
    constructor
    · intro s' t' e'
      rw [h2, in_drop, ih.1]
      simp only [List.mem_filter, decide_eq_true_eq]
      constructor
      · rintro ⟨h4, h5⟩
        refine ⟨h4, ?_⟩
        rintro rfl
        have := (run_base hr).ends _ _ _ ((ih.1 _ _ _).2 h4)
        rw [h1] at this
        cases this
        exact h5 ⟨rfl, rfl, rfl⟩
      · rintro ⟨h4, h5⟩
        exact ⟨h4, fun h => h5 h.2.2⟩
    · intro t' s'
      rw [h3, from_drop, ih.2]
      simp only [List.mem_filter, decide_eq_true_eq]
      constructor
      · rintro ⟨⟨e', h4⟩, h5⟩
        refine ⟨e', h4, ?_⟩
        rintro rfl
        have := (run_base hr).ends _ _ _ ((ih.1 _ _ _).2 h4)
        rw [h1] at this
        cases this
        exact h5 ⟨rfl, rfl⟩
      · rintro ⟨e', h4, h5⟩
        refine ⟨⟨e', h4⟩, ?_⟩
        rintro ⟨rfl, rfl⟩
        exact h5 (hcalm e' h4)
  | trackVertex hr ih =>
    simp only [trackVertex_in, trackVertex_from]
    exact ih
  | @untrackVertex c L v es c' hr hes h ih =>
    have hb := run_base hr
    obtain ⟨_, _, _, _, g5, g6⟩ := untrackVertex_effect hb h
    have hrem : ∀ e s t, (e, s, t) ∈ L → (e ∈ es ↔ s = v ∨ t = v) := by
      intro e s t hm
      have hin := (ih.1 s t e).2 hm
      constructor
      · intro he
        obtain ⟨s', t', h1, h2⟩ := mem_toRemove hb ((hes e).1 he)
        rw [hb.ends _ _ _ hin] at h1
        cases h1
        exact h2
      · intro hv
        rw [hes, toRemove, List.mem_append, mem_outgoing, mem_incoming]
        rcases hv with rfl | rfl
        · exact .inl ⟨t, hin⟩
        · exact .inr ⟨s, (ih.2 _ _).2 ⟨e, hm⟩, hin⟩
    constructor
    · intro s t e
      rw [g5, ih.1]
      simp only [List.mem_filter, decide_eq_true_eq]
      constructor
      · rintro ⟨h1, h2, h3⟩
        refine ⟨h1, h3, fun h => h2 ((hrem e s t h1).2 (.inr h))⟩
      · rintro ⟨h1, h2, h3⟩
        refine ⟨h1, fun h => ?_, h2⟩
        rcases (hrem e s t h1).1 h with h | h
        · exact h2 h
        · exact h3 h
    · intro t s
      rw [g6, ih.2]
      simp only [List.mem_filter, decide_eq_true_eq]
      constructor
      · rintro ⟨⟨e, h1⟩, h2, h3⟩
        refine ⟨e, h1, ?_, h3⟩
        rintro rfl
        exact h2 ⟨e, (hrem e _ t h1).2 (.inl rfl), hb.ends _ _ _ ((ih.1 _ _ _).2 h1)⟩
      · rintro ⟨e, h1, h2, h3⟩
        refine ⟨⟨e, h1⟩, ?_, h3⟩
        rintro ⟨e', h4, h5⟩
        obtain ⟨s', t', h6, h7⟩ := mem_toRemove hb ((hes e').1 h4)
        rw [h5] at h6
        cases h6
        rcases h7 with h7 | h7
        · exact h2 h7
        · exact h3 h7

/-- **C62**, when no edge is removed while a parallel one is there: the collection lists exactly
the edges added and not removed. -/
theorem edges_partial {c : Coll} {L : List (E × V × V)} (h : Run true c L) : Lists c L := by
  obtain ⟨h1, h2⟩ := run_calm h
  have hb := run_base h
  refine ⟨?_, ?_, ?_, ?_, ?_⟩
  · intro e
    simp only [mem_edges, h1]
  · intro v e
    simp only [mem_outgoing, h1]
  · intro v e
    simp only [mem_incoming, h1, h2]
    constructor
    · rintro ⟨s, _, h⟩
      exact ⟨s, h⟩
    · rintro ⟨s, h⟩
      exact ⟨s, ⟨e, h⟩, h⟩
  · intro e s t hm
    exact ends_ok.2 (hb.ends _ _ _ ((h1 _ _ _).2 hm))
  · intro s t
    rw [has_iff hb.tight]
    simp only [h1]

theorem untrackAll_ok {es : List E} : ∀ {c : Coll}, (∀ e ∈ es, get c.ends e ≠ none) → ∃ c', untrackAll c es = .ok c' := by
  induction es with
  | nil => intro c _; exact ⟨c, rfl⟩
  | cons e es ih =>
    intro c h
    cases hx : get c.ends e with
    | none => exact absurd hx (h e (by simp))
    | some x =>
      have : untrackEdge c e = .ok { c with incidence := dropIncidence c.incidence x.1 x.2 e, incoming := dropIncoming c.incoming x.1 x.2 } := by
        simp [untrackEdge, hx]
      simp only [untrackAll, this]
      exact ih (fun e he => h e (by simp [he]))

/-- **C62**: a vertex can always be removed. -/
theorem untrackVertex_returns {b : Bool} {c : Coll} {L : List (E × V × V)} (h : Run b c L) {v : V} {es : List E}
    (hes : ∀ e, e ∈ es ↔ e ∈ toRemove c v) : ∃ c', untrackVertex c v es = .ok c' := by
  have : ∀ e ∈ es, get c.ends e ≠ none := by
    intro e he hx
    obtain ⟨s, t, h1, _⟩ := mem_toRemove (run_base h) ((hes e).1 he)
    rw [hx] at h1
    cases h1
  obtain ⟨c', hc⟩ := untrackAll_ok this
  simp only [untrackVertex, hc]
  exact ⟨_, rfl⟩

/-! ## Adding -/

/-- `addEdge` is a step of the histories. -/
theorem addEdge_run {b : Bool} {c : Coll} {L : List (E × V × V)} (h : Run b c L) (s t : V) (n : Stable) :
    (∀ er, (addEdge c s t n).2 = .error er → Run b (addEdge c s t n).1 L) ∧
    (∀ e, (addEdge c s t n).2 = .ok e → Run b (addEdge c s t n).1 (L ++ [(e, s, t)])) := by
  simp only [addEdge]
  split
  · simp [h]
  · rename_i c1 h1
    split
    · constructor
      · intro er _
        exact .store h h1
      · simp
    · rename_i c2 h2
      constructor
      · simp
      · intro e he
        simp only [Except.ok.injEq] at he
        subst he
        exact .track (.store h h1) h2

theorem mapEnds_mem {c : Coll} {f : V × V → V} {es : List E} : ∀ {vs}, mapEnds c f es = .ok vs →
    ∀ w, w ∈ vs ↔ ∃ e ∈ es, ∃ x, getEnds c e = .ok x ∧ f x = w := by
  induction es with
  | nil =>
    intro vs h w
    simp only [mapEnds, Except.ok.injEq] at h
    subst h
    simp
  | cons e es ih =>
    intro vs h w
    simp only [mapEnds] at h
    split at h
    · simp at h
    · rename_i x hx
      split at h
      · simp at h
      · rename_i vs' hv
        simp only [Except.ok.injEq] at h
        subst h
        simp only [List.mem_cons, ih hv, exists_eq_or_imp, hx, Except.ok.injEq, exists_eq_left']
        constructor
        · rintro (rfl | h)
          · exact .inl rfl
          · exact .inr h
        · rintro (rfl | h)
          · exact .inl rfl
          · exact .inr h

theorem mapEnds_ok {c : Coll} {f : V × V → V} {es : List E} (h : ∀ e ∈ es, get c.ends e ≠ none) :
    ∃ vs, mapEnds c f es = .ok vs := by
  induction es with
  | nil => exact ⟨_, rfl⟩
  | cons e es ih =>
    obtain ⟨vs, hv⟩ := ih (fun e he => h e (by simp [he]))
    cases hx : get c.ends e with
    | none => exact absurd hx (h e (by simp))
    | some x =>
      simp only [mapEnds, getEnds, hx, hv]
      exact ⟨_, rfl⟩

/-- **C62**: the targets of the outgoing edges. -/
theorem out_nodes {c : Coll} {L : List (E × V × V)} (h : Run true c L) (v : V) :
    ∃ vs, getOutNodes c v = .ok vs ∧ ∀ w, w ∈ vs ↔ ∃ e, (e, v, w) ∈ L := by
  have hb := run_base h
  have hl := edges_partial h
  have hne : ∀ e ∈ getOutgoing c v, get c.ends e ≠ none := by
    intro e he
    obtain ⟨t, hin⟩ := mem_outgoing.1 he
    rw [hb.ends _ _ _ hin]
    simp
  obtain ⟨vs, hv⟩ := mapEnds_ok (f := (·.2)) hne
  refine ⟨vs, hv, fun w => ?_⟩
  rw [mapEnds_mem hv]
  constructor
  · rintro ⟨e, he, x, hx, rfl⟩
    obtain ⟨t, hm⟩ := (hl.outgoing v e).1 he
    rw [hl.ends _ _ _ hm] at hx
    cases hx
    exact ⟨e, hm⟩
  · rintro ⟨e, hm⟩
    exact ⟨e, (hl.outgoing v e).2 ⟨w, hm⟩, _, hl.ends _ _ _ hm, rfl⟩

/-! ## Where it fails -/

/-- Two edges from 1 to 2 with stable ids 7 and 8. -/
def parallel : Coll := (addEdge (addEdge .empty 1 2 [7]).1 1 2 [8]).1

theorem parallel_run (b : Bool) : Run b parallel [(0, 1, 2), (1, 1, 2)] := by
  have h1 := (addEdge_run (b := b) (L := []) .init 1 2 [7]).2 0 rfl
  exact (addEdge_run h1 1 2 [8]).2 1 rfl

/-- The full claim about listing. -/
def EdgesStatement : Prop := ∀ c L, Run false c L → Lists c L

/-- **C62** fails: after the removal of one of two parallel edges the other one is no longer
listed as incoming. -/
theorem incoming_false : ∃ c, untrackEdge parallel 0 = .ok c ∧ getOutgoing c 1 = [1] ∧ getIncoming c 2 = [] := by
  refine ⟨_, rfl, ?_, ?_⟩ <;> decide +kernel

/-- … and it survives the removal of its target. -/
theorem dangling_false : ∃ c c', untrackEdge parallel 0 = .ok c ∧ untrackVertex c 2 (toRemove c 2) = .ok c' ∧ getEdges c' = [1] := by
  refine ⟨_, _, rfl, rfl, ?_⟩
  decide +kernel

theorem edges_false : ¬ EdgesStatement := by
  intro h
  obtain ⟨c, h1, h2, h3⟩ := incoming_false
  have hr : Run false c _ := .untrack (parallel_run false) h1 (by simp)
  have := ((h c _ hr).incoming 2 1).2 ⟨1, by simp⟩
  rw [h3] at this
  cases this

/-- **C62** fails: asking about a removed edge throws. -/
theorem tracking_false {b : Bool} {c c' : Coll} {L : List (E × V × V)} {e : E} (h : Run b c L) (hu : untrackEdge c e = .ok c') :
    isTrackingEdge c' e = .error .range ∨ isTrackingEdge c' e = .error .assertion := by
  obtain ⟨s, t, h1, h2, h3, h4, _⟩ := untrack_effect hu
  have hnot : ¬ InM c'.incidence s t e := by
    rw [h2, in_drop]
    rintro ⟨_, h⟩
    exact h ⟨rfl, rfl, rfl⟩
  rw [isTrackingEdge, h4, h1]
  simp only
  cases h5 : get c'.incidence s with
  | none => exact .inl rfl
  | some row =>
    simp only
    cases h6 : get row t with
    | none => exact .inl rfl
    | some es =>
      simp only
      split_ifs with h7
      · exact absurd ⟨row, es, h5, h6, h7⟩ hnot
      · exact .inr rfl

/-- **C62** fails: a removed edge cannot be added again, nor another one with its stable id. -/
theorem readd_false {b : Bool} {c : Coll} {L : List (E × V × V)} {e : E} {x : V × V} {n : Stable} (h : Run b c L)
    (he : getEnds c e = .ok x) (hn : get c.store e = some n) (s t : V) :
    (∀ c', trackEdge c e s t ≠ .ok c') ∧ (∀ e', (addEdge c s t n).2 ≠ .ok e') := by
  have hb := run_base h
  rw [ends_ok] at he
  constructor
  · intro c' h'
    rw [track_fresh hb h'] at he
    cases he
  · intro e' h'
    simp only [addEdge] at h'
    split at h'
    · cases h'
    · rename_i c1 h1
      simp only [storeEdge] at h1
      split at h1
      · cases h1
      · simp only [Except.ok.injEq] at h1
        subst h1
        split at h'
        · cases h'
        · rename_i c2 h2
          obtain ⟨n', h3, h4, _⟩ := track_effect h2
          simp only [get_set, if_true, Option.some.injEq] at h3
          subst h3
          obtain ⟨n', h5, h6⟩ := hb.known e x he
          rw [hn] at h5
          cases h5
          rw [h4] at h6
          cases h6

/-- **C62** fails: the only possible answer for the sources of the incoming edges is the vertex
itself. -/
theorem in_nodes_false {b : Bool} {c : Coll} {L : List (E × V × V)} (h : Run b c L) (v : V) :
    ∃ vs, getInNodes c v = .ok vs ∧ ∀ w ∈ vs, w = v := by
  have hb := run_base h
  have hends : ∀ e ∈ getIncoming c v, ∃ s, get c.ends e = some (s, v) := by
    intro e he
    obtain ⟨s, _, hin⟩ := mem_incoming.1 he
    exact ⟨s, hb.ends _ _ _ hin⟩
  have hne : ∀ e ∈ getIncoming c v, get c.ends e ≠ none := by
    intro e he
    obtain ⟨s, hs⟩ := hends e he
    rw [hs]
    simp
  obtain ⟨vs, hv⟩ := mapEnds_ok (f := (·.2)) hne
  refine ⟨vs, hv, fun w hw => ?_⟩
  obtain ⟨e, he, x, hx, rfl⟩ := (mapEnds_mem hv w).1 hw
  obtain ⟨s, hs⟩ := hends e he
  rw [ends_ok, hs] at hx
  cases hx
  rfl

/-- The edge from 1 to 2: the sources of the edges into 2 should be 1. -/
example : getInNodes (addEdge .empty 1 2 [7]).1 2 = .ok [2] := by rfl

/-- A history with a loop, a removed edge and a removed vertex that meets `edges_partial`. -/
example : ∃ c, Run true c [(0, 1, 1)] ∧ getOutgoing c 1 = [0] := by
  have h1 := (addEdge_run (b := true) (L := []) .init 1 1 [7]).2 0 rfl
  have h2 := (addEdge_run h1 1 2 [8]).2 1 rfl
  have h3 := (addEdge_run h2 3 1 [9]).2 2 rfl
  have h4 := Run.untrack (e := 1) h3 rfl (by
    intro _ s t e' he hm
    have : getEnds (addEdge (addEdge (addEdge Coll.empty 1 1 [7]).1 1 2 [8]).1 3 1 [9]).1 1 = .ok (1, 2) := rfl
    rw [this] at he
    cases he
    simpa using hm)
  have h5 := Run.untrackVertex (v := 3) (es := [2]) h4 (by
    intro e
    exact Iff.rfl) rfl
  exact ⟨_, h5, rfl⟩

end Verif.Graph
