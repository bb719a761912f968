import Verif.MapGraph.Spec
import Mathlib.Data.List.Basic
import Mathlib.Tactic.Push

/-! # C34 – Mind map graph -/

namespace Verif.MapGraph

instance instDecEqExcept {ε α : Type} [DecidableEq ε] [DecidableEq α] : DecidableEq (Except ε α)
  | .ok a, .ok b => if h : a = b then isTrue (by rw [h]) else isFalse (by intro h'; cases h'; exact h rfl)
  | .error a, .error b => if h : a = b then isTrue (by rw [h]) else isFalse (by intro h'; cases h'; exact h rfl)
  | .ok _, .error _ => isFalse (by intro h; cases h)
  | .error _, .ok _ => isFalse (by intro h; cases h)

/-! ## The stages -/

theorem resolve_iff {e : Env} {l : Lnk} {ts : List Uniq} (h : resolve e l = .ok ts) (t : Uniq) : t ∈ ts ↔ Aims e l t := by
  cases l with
  | radio x =>
    simp only [resolve, Except.ok.injEq] at h
    subst h
    rw [List.mem_singleton]
    constructor
    · rintro rfl
      exact .radio
    · rintro ⟨⟩
      rfl
  | link k =>
    simp only [resolve] at h
    constructor
    · intro ht
      exact .link h ht
    · rintro ⟨h', ht⟩
      rw [h] at h'
      injection h' with h'
      subst h'
      exact ht

theorem mem_collect1 {nodes : List Uniq} {n : Uniq} {ts : List Uniq} {r : Res} :
    r ∈ (collectRadio nodes n ts).1 ↔ ∃ t ∈ ts, t ∈ nodes ∧ r = ⟨none, t, n⟩ := by
  induction ts with
  | nil => simp [collectRadio]
  | cons t ts ih =>
    simp only [collectRadio]
    split
    · rename_i h
      simp only [List.mem_cons, ih, exists_eq_or_imp, h, true_and]
    · rename_i h
      simp only [List.mem_cons, ih, exists_eq_or_imp, h, false_and, false_or]

theorem mem_collect2 {nodes : List Uniq} {n : Uniq} {ts : List Uniq} {l : Lnk} :
    l ∈ (collectRadio nodes n ts).2 ↔ ∃ t ∈ ts, t ∉ nodes ∧ l = .radio t := by
  induction ts with
  | nil => simp [collectRadio]
  | cons t ts ih =>
    simp only [collectRadio]
    split
    · rename_i h
      simp only [List.mem_cons, ih, exists_eq_or_imp, h, not_true_eq_false, false_and, false_or]
    · rename_i h
      simp only [List.mem_cons, ih, exists_eq_or_imp, h, not_false_eq_true, true_and]

theorem mem_one1 {nodes : List Uniq} {n : Uniq} {l : Lnk} {ts : List Uniq} {r : Res} :
    r ∈ (attemptOne nodes n l ts).1 ↔ ∃ t ∈ ts, t ∈ nodes ∧ r = ⟨some l, t, n⟩ := by
  induction ts with
  | nil => simp [attemptOne]
  | cons t ts ih =>
    simp only [attemptOne]
    split
    · rename_i h
      simp only [List.mem_cons, ih, exists_eq_or_imp, h, true_and]
    · rename_i h
      simp only [List.mem_cons, ih, exists_eq_or_imp, h, false_and, false_or]

theorem mem_one2 {nodes : List Uniq} {n : Uniq} {l : Lnk} {ts : List Uniq} {l' : Lnk} :
    l' ∈ (attemptOne nodes n l ts).2 ↔ l' = l ∧ ∃ t ∈ ts, t ∉ nodes := by
  induction ts with
  | nil => simp [attemptOne]
  | cons t ts ih =>
    simp only [attemptOne]
    split
    · rename_i h
      simp only [ih, List.mem_cons, exists_eq_or_imp, h, not_true_eq_false, false_or]
    · rename_i h
      simp only [List.mem_cons, ih, exists_eq_or_imp, h, not_false_eq_true, true_or, and_true]
      constructor
      · rintro (h | ⟨h, _⟩) <;> exact h
      · exact .inl

theorem mem_attempt {e : Env} {nodes : List Uniq} {n : Uniq} {ls : List Lnk} {a} (h : attempt e nodes n ls = .ok a) :
    (∀ r, r ∈ a.1 ↔ ∃ l t, l ∈ ls ∧ Aims e l t ∧ t ∈ nodes ∧ r = ⟨some l, t, n⟩) ∧
    (∀ l, l ∈ a.2 ↔ l ∈ ls ∧ ((∀ t, ¬ Aims e l t) ∨ ∃ t, Aims e l t ∧ t ∉ nodes)) := by
  induction ls generalizing a with
  | nil =>
    simp only [attempt, Except.ok.injEq] at h
    subst h
    simp
  | cons l ls ih =>
    simp only [attempt] at h
    split at h
    · simp at h
    · rename_i ts hts
      split at h
      · simp at h
      · rename_i r hr
        simp only [Except.ok.injEq] at h
        subst h
        obtain ⟨h1, h2⟩ := ih hr
        have ht := resolve_iff hts
        constructor
        · intro r'
          simp only [List.mem_append, h1]
          split
          · rename_i he
            rw [List.isEmpty_iff] at he
            subst he
            simp only [List.not_mem_nil, false_or, List.mem_cons]
            constructor
            · rintro ⟨l', t, h, h'⟩
              exact ⟨l', t, .inr h, h'⟩
            · rintro ⟨l', t, rfl | h, h', h''⟩
              · rw [← ht] at h'
                simp at h'
              · exact ⟨l', t, h, h', h''⟩
          · rw [mem_one1]
            constructor
            · rintro (⟨t, h3, h4, rfl⟩ | ⟨l', t, h, h'⟩)
              · exact ⟨l, t, by simp, (ht t).1 h3, h4, rfl⟩
              · exact ⟨l', t, by simp [h], h'⟩
            · rintro ⟨l', t, h, h', h''⟩
              rcases List.mem_cons.1 h with rfl | h
              · exact .inl ⟨t, (ht t).2 h', h''⟩
              · exact .inr ⟨l', t, h, h', h''⟩
        · intro l'
          simp only [List.mem_append, h2]
          split
          · rename_i he
            rw [List.isEmpty_iff] at he
            subst he
            simp only [List.mem_cons, List.not_mem_nil, or_false]
            constructor
            · rintro (rfl | ⟨h, h'⟩)
              · refine ⟨.inl rfl, .inl (fun t h => ?_)⟩
                rw [← ht] at h
                simp at h
              · exact ⟨.inr h, h'⟩
            · rintro ⟨rfl | h, h'⟩
              · exact .inl rfl
              · exact .inr ⟨h, h'⟩
          · rename_i he
            rw [mem_one2]
            simp only [List.mem_cons]
            constructor
            · rintro (⟨rfl, t, h3, h4⟩ | ⟨h, h'⟩)
              · exact ⟨.inl rfl, .inr ⟨t, (ht t).1 h3, h4⟩⟩
              · exact ⟨.inr h, h'⟩
            · rintro ⟨rfl | h, h'⟩
              · left
                refine ⟨rfl, ?_⟩
                rcases h' with h' | ⟨t, h3, h4⟩
                · exfalso
                  apply he
                  rw [List.isEmpty_iff]
                  cases ts with
                  | nil => rfl
                  | cons t ts => exact absurd ((ht t).1 (by simp)) (h' t)
                · exact ⟨t, (ht t).2 h3, h4⟩
              · exact .inr ⟨h, h'⟩

theorem mem_pendingOne {e : Env} {nodes : List Uniq} {s : Uniq} {ls : List Lnk} {p} (h : pendingOne e nodes s ls = .ok p)
    (r : Res) : r ∈ p ↔ ∃ l t, l ∈ ls ∧ Aims e l t ∧ t ∈ nodes ∧ r = ⟨some l, t, s⟩ := by
  induction ls generalizing p with
  | nil =>
    simp only [pendingOne, Except.ok.injEq] at h
    subst h
    simp
  | cons l ls ih =>
    simp only [pendingOne] at h
    split at h
    · simp at h
    · rename_i ts hts
      split at h
      · simp at h
      · rename_i q hq
        simp only [Except.ok.injEq] at h
        subst h
        simp only [List.mem_append, ih hq, List.mem_map, List.mem_filter, decide_eq_true_eq, resolve_iff hts]
        constructor
        · rintro (⟨t, ⟨h1, h2⟩, rfl⟩ | ⟨l', t, h, h'⟩)
          · exact ⟨l, t, by simp, h1, h2, rfl⟩
          · exact ⟨l', t, by simp [h], h'⟩
        · rintro ⟨l', t, h, h1, h2, rfl⟩
          rcases List.mem_cons.1 h with rfl | h
          · exact .inl ⟨t, ⟨h1, h2⟩, rfl⟩
          · exact .inr ⟨l', t, h, h1, h2, rfl⟩

theorem mem_pending {e : Env} {nodes : List Uniq} {attr : Uniq → List Lnk} {n : Uniq} {us : List Uniq} {p}
    (h : pending e nodes attr n us = .ok p) (r : Res) :
    r ∈ p ↔ ∃ s l t, s ∈ us ∧ l ∈ attr s ∧ Aims e l t ∧ t ∈ nodes ∧ r = ⟨some l, t, s⟩ := by
  induction us generalizing p with
  | nil =>
    simp only [pending, Except.ok.injEq] at h
    subst h
    simp
  | cons s us ih =>
    simp only [pending] at h
    split at h
    · simp at h
    · split at h
      · simp at h
      · rename_i a ha
        split at h
        · simp at h
        · rename_i q hq
          simp only [Except.ok.injEq] at h
          subst h
          simp only [List.mem_append, ih hq, mem_pendingOne ha]
          constructor
          · rintro (⟨l, t, h⟩ | ⟨s', l, t, h, h'⟩)
            · exact ⟨s, l, t, by simp, h⟩
            · exact ⟨s', l, t, by simp [h], h'⟩
          · rintro ⟨s', l, t, h, h'⟩
            rcases List.mem_cons.1 h with rfl | h
            · exact .inl ⟨l, t, h'⟩
            · exact .inr ⟨s', l, t, h, h'⟩

theorem fill_sub {less : Uniq → Uniq → Bool} {rs : List Res} : ∀ {seen r}, r ∈ fill less seen rs → r ∈ rs := by
  induction rs with
  | nil => intro seen r h; exact h
  | cons x rs ih =>
    intro seen r h
    simp only [fill] at h
    split at h
    · exact List.mem_cons_of_mem _ (ih h)
    · rcases List.mem_cons.1 h with rfl | h
      · simp
      · exact List.mem_cons_of_mem _ (ih h)

theorem fill_first {less : Uniq → Uniq → Bool} {x : Res} {rs : List Res} : x ∈ fill less [] (x :: rs) := by
  simp [fill]

/-! ## One insertion -/

theorem mem_keep {resolved : List Res} {ls : List Lnk} {l : Lnk} :
    l ∈ keepLinks resolved ls ↔ l ∈ ls ∧ ∀ r ∈ resolved, r.link ≠ some l := by
  simp [keepLinks, sameLink]

/-- The parts of a successful insertion. -/
structure Parts (e : Env) (s : State) (n : Uniq) (s' : State) : Prop where
  fresh : n.id ∉ s.nodes.map (·.id)
  ex : ∃ links rts a p, e.init n = .ok links ∧ e.radio n = .ok rts ∧
    attempt e (s.nodes ++ [n]) n (links.map .link ++ (collectRadio (s.nodes ++ [n]) n rts).2) = .ok a ∧
    pending e (s.nodes ++ [n]) (fun u => if u = n then a.2 else s.attr u) n s.unresolved = .ok p ∧
    ∃ resolved, resolved = fill (Uniq.less e.stepLess) [] ((collectRadio (s.nodes ++ [n]) n rts).1 ++ a.1 ++ p) ∧
      s'.nodes = s.nodes ++ [n] ∧
      s'.attr = removeProps resolved (s.unresolved ++ [n]) (fun u => if u = n then a.2 else s.attr u) ∧
      tracking resolved s'.attr n s.unresolved = .ok s'.unresolved ∧
      s'.edges = s.edges ++ resolved.map (fun r => (r.source, r.target))

theorem addNode_parts {e : Env} {s : State} {n : Uniq} {s' : State} (h : addNode e s n = .ok s') : Parts e s n s' := by
  simp only [addNode] at h
  split at h
  · simp at h
  · rename_i links hl
    split at h
    · simp at h
    · rename_i hf
      split at h
      · simp at h
      · split at h
        · simp at h
        · rename_i rts hr
          split at h
          · simp at h
          · rename_i a ha
            split at h
            · simp at h
            · rename_i p hp
              split at h
              · simp at h
              · rename_i un hu
                simp only [Except.ok.injEq] at h
                subst h
                exact ⟨hf, links, rts, a, p, hl, hr, ha, hp, _, rfl, rfl, rfl, hu, rfl⟩

/-- What an insertion may resolve. -/
theorem resolved_mem {e : Env} {ns : List Uniq} {s : State} (hc : Consistent e ns s) {n : Uniq} {links rts a p}
    (hl : e.init n = .ok links) (hr : e.radio n = .ok rts)
    (ha : attempt e (s.nodes ++ [n]) n (links.map .link ++ (collectRadio (s.nodes ++ [n]) n rts).2) = .ok a)
    (hp : pending e (s.nodes ++ [n]) (fun u => if u = n then a.2 else s.attr u) n s.unresolved = .ok p) (hn : n ∉ ns) {r : Res}
    (h : r ∈ (collectRadio (s.nodes ++ [n]) n rts).1 ++ a.1 ++ p) :
    ∃ l, Has e r.source l ∧ Aims e l r.target ∧ r.source ∈ ns ++ [n] ∧ r.target ∈ ns ++ [n] ∧
      (r.source = n ∧ (r.link = some l ∨ (r.link = none ∧ l = .radio r.target)) ∨
        (r.source ∈ ns ∧ r.link = some l ∧ l ∈ s.attr r.source)) := by
  rw [hc.nodes] at ha hp h
  rw [List.mem_append, List.mem_append] at h
  rcases h with (h | h) | h
  · obtain ⟨t, h1, h2, rfl⟩ := mem_collect1.1 h
    exact ⟨.radio t, .radio hr h1, .radio, by simp, h2, .inl ⟨rfl, .inr ⟨rfl, rfl⟩⟩⟩
  · obtain ⟨l, t, h1, h2, h3, rfl⟩ := ((mem_attempt ha).1 r).1 h
    refine ⟨l, ?_, h2, by simp, h3, .inl ⟨rfl, .inl rfl⟩⟩
    rcases List.mem_append.1 h1 with h1 | h1
    · obtain ⟨k, hk, rfl⟩ := List.mem_map.1 h1
      exact .link hl hk
    · obtain ⟨t, ht, _, rfl⟩ := mem_collect2.1 h1
      exact .radio hr ht
  · obtain ⟨u, l, t, h1, h2, h3, h4, rfl⟩ := (mem_pending hp r).1 h
    have hu := ((hc.listed u).1 h1).1
    have hne : u ≠ n := fun h => hn (h ▸ hu)
    simp only [hne, if_false] at h2
    exact ⟨l, hc.links u l h2, h3, List.mem_append_left _ hu, h4, .inr ⟨hu, rfl, h2⟩⟩

theorem notMem_of_fresh {ns : List Uniq} {n : Uniq} (h : n.id ∉ ns.map (·.id)) : n ∉ ns := fun h' =>
  h (List.mem_map.2 ⟨n, h', rfl⟩)

theorem tracking_mem {resolved : List Res} {attr : Uniq → List Lnk} {n : Uniq} {us us' : List Uniq}
    (h : tracking resolved attr n us = .ok us') (hn : n ∉ us) :
    (n ∈ us' ↔ attr n ≠ []) ∧ ∀ v, v ≠ n → (v ∈ us' ↔ v ∈ us ∧ (resolved = [] ∨ attr v ≠ [])) := by
  have hr : resolved.isEmpty = true ↔ resolved = [] := List.isEmpty_iff
  have ha : ∀ v, (attr v).isEmpty = true ↔ attr v = [] := fun v => List.isEmpty_iff
  simp only [tracking, hr, ha] at h
  by_cases h1 : attr n = []
  · rw [if_pos h1, Except.ok.injEq] at h
    subst h
    by_cases h2 : resolved = []
    · rw [if_pos h2]
      refine ⟨by simp [h1], fun v hv => by simp [hv, h2]⟩
    · rw [if_neg h2]
      refine ⟨by simp [h1], fun v hv => by simp [hv, h2]⟩
  · rw [if_neg h1, if_neg hn, Except.ok.injEq] at h
    subst h
    by_cases h2 : resolved = []
    · rw [if_pos h2]
      refine ⟨by simp [h1], fun v hv => by simp [hv, h2]⟩
    · rw [if_neg h2]
      refine ⟨by simp [h1], fun v hv => by simp [hv, h2]⟩

theorem consistent_step {e : Env} {ns : List Uniq} {s s' : State} {n : Uniq} (hc : Consistent e ns s)
    (h : addNode e s n = .ok s') : Consistent e (ns ++ [n]) s' := by
  obtain ⟨hf, links, rts, a, p, hl, hr, ha, hp, resolved, hres, hnodes, hattr, htr, hedges⟩ := addNode_parts h
  rw [hc.nodes] at hf
  have hn := notMem_of_fresh hf
  have hm := fun {r} => resolved_mem hc hl hr ha hp hn (r := r)
  have hout : ∀ u, u ∉ ns → s.attr u = [] → u ≠ n → s'.attr u = [] := by
    intro u hu h0 hne
    have : u ∉ s.unresolved ++ [n] := by
      intro hmem
      rcases List.mem_append.1 hmem with h' | h'
      · exact hu ((hc.listed u).1 h').1
      · exact hne (by simpa using h')
    rw [hattr, removeProps]
    simp [this, hne, h0]
  refine ⟨by rw [hnodes, hc.nodes], ?_, ?_, ?_⟩
  · intro x y hxy
    rw [hedges] at hxy
    rcases List.mem_append.1 hxy with hxy | hxy
    · obtain ⟨h1, h2, h3⟩ := hc.edges x y hxy
      exact ⟨List.mem_append_left _ h1, List.mem_append_left _ h2, h3⟩
    · obtain ⟨r, hr', he⟩ := List.mem_map.1 hxy
      injection he with h1 h2
      subst h1 h2
      rw [hres] at hr'
      obtain ⟨l, h1, h2, h3, h4, _⟩ := hm (fill_sub hr')
      exact ⟨h3, h4, l, h1, h2⟩
  · -- the listed nodes
    have hnu : n ∉ s.unresolved := fun h' => hn ((hc.listed n).1 h').1
    have hsame : resolved = [] → ∀ u, u ≠ n → s'.attr u = s.attr u := by
      intro h0 u hu
      rw [hattr, removeProps, h0]
      have : keepLinks [] (if u = n then a.2 else s.attr u) = s.attr u := by simp [keepLinks, hu]
      rw [this]
      simp [hu]
    have hshrink : ∀ u, u ≠ n → s'.attr u ≠ [] → s.attr u ≠ [] := by
      intro u hu h1 h2
      apply h1
      rw [hattr, removeProps]
      simp [hu, h2, keepLinks]
    intro v
    obtain ⟨ht1, ht2⟩ := tracking_mem htr hnu
    by_cases hv : v = n
    · subst hv
      rw [ht1]
      simp
    · have key := ht2 v hv
      rw [key, hc.listed]
      simp only [List.mem_append, List.mem_singleton, hv, or_false]
      constructor
      · rintro ⟨⟨h1, h2⟩, h3 | h3⟩
        · exact ⟨h1, by rw [hsame h3 v hv]; exact h2⟩
        · exact ⟨h1, h3⟩
      · rintro ⟨h1, h2⟩
        exact ⟨⟨h1, hshrink v hv h2⟩, .inr h2⟩
  · intro v l hl'
    rw [hattr, removeProps] at hl'
    have hl2 : l ∈ (if v = n then a.2 else s.attr v) := by
      by_cases h0 : v ∈ s.unresolved ++ [n]
      · rw [if_pos h0] at hl'
        exact (mem_keep.1 hl').1
      · rw [if_neg h0] at hl'
        exact hl'
    clear hl'
    split at hl2
    · rename_i hv
      subst hv
      obtain ⟨h1, _⟩ := ((mem_attempt ha).2 l).1 hl2
      rcases List.mem_append.1 h1 with h1 | h1
      · obtain ⟨k, hk, rfl⟩ := List.mem_map.1 h1
        exact .link hl hk
      · obtain ⟨t, ht, _, rfl⟩ := mem_collect2.1 h1
        exact .radio hr ht
    · exact hc.links v l hl2

theorem consistent_empty (e : Env) : Consistent e [] State.empty :=
  ⟨rfl, by simp [State.empty], by simp [State.empty], by simp [State.empty]⟩

theorem consistent_from {e : Env} {ns' : List Uniq} : ∀ {ns : List Uniq} {s s' : State}, Consistent e ns s →
    addNodes e s ns' = .ok s' → Consistent e (ns ++ ns') s' := by
  induction ns' with
  | nil =>
    intro ns s s' hc h
    simp only [addNodes, Except.ok.injEq] at h
    subst h
    simpa using hc
  | cons n ns' ih =>
    intro ns s s' hc h
    simp only [addNodes] at h
    split at h
    · simp at h
    · rename_i s1 h1
      have := ih (consistent_step hc h1) h
      simpa using this

/-- **C34**, first part: after any insertions every edge joins two added nodes and comes from a
link of the first to the second, and a node is listed as unresolved exactly when it has
unresolved links. -/
theorem consistent_partial {e : Env} {ns : List Uniq} {s : State} (h : addNodes e .empty ns = .ok s) : Consistent e ns s := by
  simpa using consistent_from (consistent_empty e) h

/-! ## Completeness -/

/-- `Complete` with: nothing that waits could be resolved. -/
structure Inv (e : Env) (ns : List Uniq) (s : State) : Prop extends Complete e ns s where
  current : ∀ a l b, a ∈ ns → l ∈ s.attr a → Aims e l b → b ∉ ns

theorem aims_single {e : Env} (hs : SingleTargets e) {l : Lnk} {t t' : Uniq} (h : Aims e l t) (h' : Aims e l t') : t = t' := by
  cases h with
  | radio => cases h'; rfl
  | @link k ts t h1 h2 =>
    cases h' with
    | link h3 h4 =>
      rw [h1] at h3
      injection h3 with h3
      subst h3
      have := hs _ _ h1
      match ts, this with
      | [x], _ => rw [List.mem_singleton] at h2 h4; rw [h2, h4]

theorem complete_step {e : Env} {ns : List Uniq} {s s' : State} {n : Uniq} (hs : SingleTargets e) (hc : Consistent e ns s)
    (hi : Inv e ns s) (h : addNode e s n = .ok s')
    (hone : ∀ s l t s' l' t', Completes e ns n s l t → Completes e ns n s' l' t' → s = s' ∧ l = l' ∧ t = t') :
    Inv e (ns ++ [n]) s' := by
  obtain ⟨hf, links, rts, a, p, hl, hr, ha, hp, resolved, hres, hnodes, hattr, htr, hedges⟩ := addNode_parts h
  rw [hc.nodes] at hf
  have hn := notMem_of_fresh hf
  have hm := fun {r} => resolved_mem hc hl hr ha hp hn (r := r)
  rw [hc.nodes] at ha hp hres hm
  generalize hall : (collectRadio (ns ++ [n]) n rts).1 ++ a.1 ++ p = all at hres hm
  -- everything resolved completes a link
  have hcomp : ∀ r ∈ all, ∃ l, Completes e ns n r.source l r.target ∧
      (r.link = some l ∨ (r.link = none ∧ r.source = n)) := by
    intro r hr'
    obtain ⟨l, h1, h2, h3, h4, h5⟩ := hm hr'
    refine ⟨l, ⟨h1, h2, h3, h4, ?_⟩, ?_⟩
    · rcases h5 with ⟨h5, _⟩ | ⟨h5, _, h6⟩
      · exact .inl h5
      · right
        rcases List.mem_append.1 h4 with h7 | h7
        · exact absurd h7 (hi.current _ _ _ h5 h6 h2)
        · simpa using h7
    · rcases h5 with ⟨h5, h6 | ⟨h6, _⟩⟩ | ⟨_, h6, _⟩
      · exact .inl h6
      · exact .inr ⟨h6, h5⟩
      · exact .inl h6
  -- everything that completes a link is resolved
  have hfind : ∀ u l t, Completes e ns n u l t → ∃ r ∈ resolved, r.source = u ∧ r.target = t ∧ (r.link = some l ∨ u = n) := by
    rintro u l t ⟨h1, h2, h3, h4, h5⟩
    have hex : ∃ r ∈ all, r.source = u ∧ r.target = t := by
      by_cases hu : u = n
      · subst hu
        cases h1 with
        | @link ks k hk1 hk2 =>
          rw [hl] at hk1
          injection hk1 with hk1
          subst hk1
          refine ⟨⟨some (.link k), t, u⟩, ?_, rfl, rfl⟩
          rw [← hall]
          refine List.mem_append_left _ (List.mem_append_right _ (((mem_attempt ha).1 _).2 ⟨_, t, ?_, h2, h4, rfl⟩))
          exact List.mem_append_left _ (List.mem_map.2 ⟨_, hk2, rfl⟩)
        | radio hk1 hk2 =>
          rw [hr] at hk1
          injection hk1 with hk1
          subst hk1
          cases h2
          refine ⟨⟨none, t, u⟩, ?_, rfl, rfl⟩
          rw [← hall]
          exact List.mem_append_left _ (List.mem_append_left _ (mem_collect1.2 ⟨t, hk2, h4, rfl⟩))
      · have hu' : u ∈ ns := by
          rcases List.mem_append.1 h3 with h3 | h3
          · exact h3
          · exact absurd (by simpa using h3) hu
        have ht : t = n := by
          rcases h5 with h5 | h5
          · exact absurd h5 hu
          · exact h5
        subst ht
        have hw := hi.waiting u l t hu' h1 h2 hn
        refine ⟨⟨some l, t, u⟩, ?_, rfl, rfl⟩
        rw [← hall]
        refine List.mem_append_right _ ((mem_pending hp _).2 ⟨u, l, t, ?_, ?_, h2, h4, rfl⟩)
        · rw [hc.listed]
          exact ⟨hu', List.ne_nil_of_mem hw⟩
        · simp [hu, hw]
    obtain ⟨r, hr', _, _⟩ := hex
    cases all with
    | nil => cases hr'
    | cons r0 rs =>
      obtain ⟨l0, h6, h7⟩ := hcomp r0 (by simp)
      obtain ⟨rfl, rfl, rfl⟩ := hone _ _ _ _ _ _ ⟨h1, h2, h3, h4, h5⟩ h6
      refine ⟨r0, by rw [hres]; exact fill_first, rfl, rfl, ?_⟩
      rcases h7 with h7 | ⟨_, h7⟩
      · exact .inl h7
      · exact .inr h7
  have hresmem : ∀ r ∈ resolved, r ∈ all := fun r h' => fill_sub (by rw [hres] at h'; exact h')
  have hkeep : ∀ u l b, Aims e l b → b ∉ ns ++ [n] → l ∈ (if u = n then a.2 else s.attr u) → l ∈ s'.attr u := by
    intro u l b h1 h2 h3
    rw [hattr, removeProps]
    split
    · refine mem_keep.2 ⟨h3, ?_⟩
      intro r hr' hlink
      obtain ⟨l', ⟨_, h5, _, h6, _⟩, h7⟩ := hcomp r (hresmem r hr')
      rcases h7 with h7 | ⟨h7, _⟩
      · rw [hlink] at h7
        injection h7 with h7
        subst h7
        exact h2 (aims_single hs h1 h5 ▸ h6)
      · rw [hlink] at h7
        cases h7
    · exact h3
  refine ⟨⟨?_, ?_⟩, ?_⟩
  · rintro x y hx hy ⟨l, h1, h2⟩
    rw [hedges]
    by_cases hold : x ∈ ns ∧ y ∈ ns
    · exact List.mem_append_left _ (hi.edges x y hold.1 hold.2 ⟨l, h1, h2⟩)
    · have hxy : x = n ∨ y = n := by
        simp only [List.mem_append, List.mem_singleton] at hx hy
        rcases hx with hx | hx
        · rcases hy with hy | hy
          · exact absurd ⟨hx, hy⟩ hold
          · exact .inr hy
        · exact .inl hx
      obtain ⟨r, h3, rfl, rfl, _⟩ := hfind x l y ⟨h1, h2, hx, hy, hxy⟩
      exact List.mem_append_right _ (List.mem_map.2 ⟨r, h3, rfl⟩)
  · intro x l y hx h1 h2 hy
    refine hkeep x l y h2 hy ?_
    by_cases hxn : x = n
    · subst hxn
      simp only [if_true]
      rw [(mem_attempt ha).2]
      refine ⟨?_, .inr ⟨y, h2, hy⟩⟩
      cases h1 with
      | link hk1 hk2 =>
        rw [hl] at hk1
        injection hk1 with hk1
        subst hk1
        exact List.mem_append_left _ (List.mem_map.2 ⟨_, hk2, rfl⟩)
      | radio hk1 hk2 =>
        rw [hr] at hk1
        injection hk1 with hk1
        subst hk1
        cases h2
        exact List.mem_append_right _ (mem_collect2.2 ⟨y, hk2, hy, rfl⟩)
    · simp only [hxn, if_false]
      simp only [List.mem_append, List.mem_singleton, hxn, or_false] at hx
      exact hi.waiting x l y hx h1 h2 (fun h' => hy (List.mem_append_left _ h'))
  · intro x l y hx h1 h2 hy
    have hl' := h1
    rw [hattr, removeProps] at hl'
    by_cases hxn : x = n
    · subst hxn
      have hl' : l ∈ a.2 := by
        simp only [List.mem_append, List.mem_singleton, or_true, if_true] at hl'
        exact (mem_keep.1 hl').1
      obtain ⟨_, h3 | ⟨t, h3, h4⟩⟩ := ((mem_attempt ha).2 l).1 hl'
      · exact h3 y h2
      · exact h4 (aims_single hs h2 h3 ▸ hy)
    · simp only [List.mem_append, List.mem_singleton, hxn, or_false] at hx
      have hl0 : l ∈ s.attr x := by
        simp only [hxn, if_false] at hl'
        split at hl'
        · exact (mem_keep.1 hl').1
        · exact hl'
      have hyn : y ∉ ns := hi.current x l y hx hl0 h2
      have hyn : y = n := by
        rcases List.mem_append.1 hy with h' | h'
        · exact absurd h' hyn
        · simpa using h'
      obtain ⟨r, h3, h4, h5, h6⟩ := hfind x l y ⟨hc.links x l hl0, h2, List.mem_append_left _ hx, hy, .inr hyn⟩
      have h6 : r.link = some l := by
        rcases h6 with h6 | h6
        · exact h6
        · exact absurd h6 hxn
      have hun : x ∈ s.unresolved := (hc.listed x).2 ⟨hx, List.ne_nil_of_mem hl0⟩
      simp only [List.mem_append, hun, true_or, if_true] at hl'
      exact (mem_keep.1 hl').2 r h3 h6

theorem complete_from {e : Env} (hs : SingleTargets e) {ns' : List Uniq} : ∀ {ns : List Uniq} {s s' : State},
    Consistent e ns s → Inv e ns s → OneByOne e (ns ++ ns') → addNodes e s ns' = .ok s' → Inv e (ns ++ ns') s' := by
  induction ns' with
  | nil =>
    intro ns s s' hc hi _ h
    simp only [addNodes, Except.ok.injEq] at h
    subst h
    simpa using hi
  | cons n ns' ih =>
    intro ns s s' hc hi hone h
    simp only [addNodes] at h
    split at h
    · simp at h
    · rename_i s1 h1
      have := ih (consistent_step hc h1) (complete_step hs hc hi h1 (hone ns n ns' rfl)) (by simpa using hone) h
      simpa using this

/-- **C34**, second part, when links have one target and each insertion completes at most one
link: all links between added nodes are edges, all others wait. -/
theorem complete_partial {e : Env} {ns : List Uniq} {s : State} (hs : SingleTargets e) (hone : OneByOne e ns)
    (h : addNodes e .empty ns = .ok s) : Complete e ns s := by
  have : Inv e ([] ++ ns) s := complete_from hs (consistent_empty e) ⟨⟨by simp, by simp⟩, by simp⟩ (by simpa using hone) h
  exact this.toComplete

/-! ## Insertions return -/

theorem attempt_ok {e : Env} (ht : ∀ k, ∃ ts, e.targets k = .ok ts) (nodes : List Uniq) (n : Uniq) (ls : List Lnk) :
    ∃ a, attempt e nodes n ls = .ok a := by
  induction ls with
  | nil => exact ⟨_, rfl⟩
  | cons l ls ih =>
    obtain ⟨a, ha⟩ := ih
    have : ∃ ts, resolve e l = .ok ts := by
      cases l with
      | radio t => exact ⟨_, rfl⟩
      | link k => exact ht k
    obtain ⟨ts, hts⟩ := this
    simp only [attempt, hts, ha]
    exact ⟨_, rfl⟩

theorem pendingOne_ok {e : Env} (ht : ∀ k, ∃ ts, e.targets k = .ok ts) (nodes : List Uniq) (n : Uniq) (ls : List Lnk) :
    ∃ a, pendingOne e nodes n ls = .ok a := by
  induction ls with
  | nil => exact ⟨_, rfl⟩
  | cons l ls ih =>
    obtain ⟨a, ha⟩ := ih
    have : ∃ ts, resolve e l = .ok ts := by
      cases l with
      | radio t => exact ⟨_, rfl⟩
      | link k => exact ht k
    obtain ⟨ts, hts⟩ := this
    simp only [pendingOne, hts, ha]
    exact ⟨_, rfl⟩

theorem pending_ok {e : Env} (ht : ∀ k, ∃ ts, e.targets k = .ok ts) (nodes : List Uniq) (attr : Uniq → List Lnk) (n : Uniq)
    (us : List Uniq) (hn : n ∉ us) : ∃ a, pending e nodes attr n us = .ok a := by
  induction us with
  | nil => exact ⟨_, rfl⟩
  | cons u us ih =>
    rw [List.mem_cons, not_or] at hn
    obtain ⟨a, ha⟩ := ih hn.2
    obtain ⟨b, hb⟩ := pendingOne_ok ht nodes u (attr u)
    have hne : u ≠ n := fun h => hn.1 h.symm
    simp only [pending, hne, if_false, hb, ha]
    exact ⟨_, rfl⟩

/-- **C34**: adding returns for nodes with different ids, when the document answers. -/
theorem add_returns {e : Env} (h1 : ∀ u, ∃ ks, e.init u = .ok ks) (h2 : ∀ u, ∃ ts, e.radio u = .ok ts)
    (h3 : ∀ k, ∃ ts, e.targets k = .ok ts) {ns : List Uniq} (hd : (ns.map (·.id)).Nodup) : ∃ s, addNodes e .empty ns = .ok s := by
  suffices h : ∀ (ns' ns : List Uniq) s, Consistent e ns s → ((ns ++ ns').map (·.id)).Nodup → ∃ s', addNodes e s ns' = .ok s' from
    h ns [] _ (consistent_empty e) (by simpa using hd)
  intro ns'
  induction ns' with
  | nil => intro ns s _ _; exact ⟨s, rfl⟩
  | cons n ns' ih =>
    intro ns s hc hd
    have hfresh : n.id ∉ s.nodes.map (·.id) := by
      rw [hc.nodes]
      rw [List.map_append, List.nodup_append] at hd
      intro h
      exact hd.2.2 _ h n.id (by simp) rfl
    have hn : n ∉ s.unresolved := fun h => notMem_of_fresh (hc.nodes ▸ hfresh) ((hc.listed n).1 h).1
    obtain ⟨ks, hks⟩ := h1 n
    obtain ⟨ts, hts⟩ := h2 n
    obtain ⟨a, ha⟩ := attempt_ok h3 (s.nodes ++ [n]) n (ks.map .link ++ (collectRadio (s.nodes ++ [n]) n ts).2)
    obtain ⟨p, hp⟩ := pending_ok h3 (s.nodes ++ [n]) (fun u => if u = n then a.2 else s.attr u) n s.unresolved hn
    have : ∃ s1, addNode e s n = .ok s1 := by
      simp only [addNode, hks, hfresh, if_false, hn, hts, ha, hp]
      simp only [tracking, hn, if_false]
      split
      · rename_i he
        split at he <;> simp at he
      · exact ⟨_, rfl⟩
    obtain ⟨s1, hs1⟩ := this
    simp only [addNodes, hs1]
    exact ih (ns ++ [n]) s1 (consistent_step hc hs1) (by simpa using hd)

/-! ## Where it fails -/

def u (i : Nat) : Uniq := ⟨i, 0, [i]⟩

/-- The first node has a link (10) to the second and a link (11) to the third. -/
def two : Env where
  init x := .ok (if x = u 1 then [u 10, u 11] else [])
  radio _ := .ok []
  targets k := .ok (if k = u 10 then [u 2] else if k = u 11 then [u 3] else [])
  stepLess a b := decide (a < b)

/-- The full claim. -/
def MapStatement : Prop := ∀ (e : Env) (ns : List Uniq) (s : State), SingleTargets e → addNodes e .empty ns = .ok s →
  Consistent e ns s ∧ Complete e ns s

/-- Both targets are there, only the first link becomes an edge. -/
theorem two_edges : ∃ s, addNodes two .empty [u 2, u 3, u 1] = .ok s ∧ s.edges = [(u 1, u 2)] ∧ s.attr (u 1) = [] := by
  refine ⟨_, rfl, ?_, ?_⟩ <;> decide +kernel

/-- With the source first both edges appear. -/
theorem two_edges_first : ∃ s, addNodes two .empty [u 1, u 2, u 3] = .ok s ∧ s.edges = [(u 1, u 2), (u 1, u 3)] := by
  refine ⟨_, rfl, ?_⟩
  decide +kernel

/-- **C34** fails: of several links that an insertion completes only one becomes an edge. -/
theorem map_false : ¬ MapStatement := by
  intro h
  obtain ⟨s, h1, h2, _⟩ := two_edges
  have hs : SingleTargets two := by
    intro k ts hk
    simp only [two, Except.ok.injEq] at hk
    subst hk
    split
    · simp
    · split <;> simp
  have := (h two _ s hs h1).2.edges (u 1) (u 3) (by simp) (by simp)
    ⟨.link (u 11), .link (ks := [u 10, u 11]) (by simp [two]) (by simp), .link (ts := [u 3]) (by decide) (by simp)⟩
  rw [h2] at this
  revert this
  decide

/-- All nodes of one document are alike for the set of edges seen. -/
theorem less_same_root {less : Nat → Nat → Bool} {a b : Uniq} (h : a.root = b.root) : a.less less b = false := by
  simp [Uniq.less, h]

/-- **C34** fails: in one document every insertion keeps only the first resolved link. -/
theorem fill_same_root {less : Nat → Nat → Bool} {root : Nat} {r : Res} {rs : List Res}
    (h : ∀ x ∈ r :: rs, x.source.root = root ∧ x.target.root = root) : fill (Uniq.less less) [] (r :: rs) = [r] := by
  suffices h' : ∀ rs : List Res, (∀ x ∈ rs, x.source.root = root ∧ x.target.root = root) → fill (Uniq.less less) [r] rs = [] by
    simp only [fill, List.any_nil, Bool.false_eq_true, if_false, List.nil_append]
    rw [h' rs (fun x hx => h x (by simp [hx]))]
  intro rs hrs
  induction rs with
  | nil => rfl
  | cons x rs ih =>
    have h1 := h r (by simp)
    have h2 := hrs x (by simp)
    have key : ∀ a b : Uniq, a.root = root → b.root = root → a.less less b = false := fun a b ha hb =>
      less_same_root (ha.trans hb.symm)
    simp only [fill, pairLess, List.any_cons, List.any_nil, key _ _ h1.2 h2.2, key _ _ h2.2 h1.2, key _ _ h1.1 h2.1,
      key _ _ h2.1 h1.1]
    simpa using ih (fun x hx => hrs x (by simp [hx]))

/-- Two nodes with the same content. -/
def same : Env where
  init _ := .ok []
  radio _ := .ok []
  targets _ := .ok []
  stepLess a b := decide (a < b)

/-- **C34** fails: a second node with the same content cannot be added. -/
theorem equal_nodes_throw : ∃ s, addNodes same .empty [⟨1, 0, [0]⟩] = .ok s ∧ addNode same s ⟨1, 0, [1]⟩ = .error .duplicate := by
  refine ⟨_, rfl, ?_⟩
  simp [addNode, same]

/-- A link (10) to a node that occurs twice. -/
def positions : Env where
  init x := .ok (if x = u 1 then [u 10] else [])
  radio _ := .ok []
  targets k := .ok (if k = u 10 then [u 2, u 3] else [])
  stepLess a b := decide (a < b)

/-- **C34** fails: a link to several positions is forgotten after the first of them. -/
theorem positions_false : ∃ s, addNodes positions .empty [u 1, u 2, u 3] = .ok s ∧ s.edges = [(u 1, u 2)] ∧ s.attr (u 1) = [] := by
  refine ⟨_, rfl, ?_, ?_⟩ <;> decide +kernel

/-- The hypotheses of `complete_partial` hold for the order in which both edges appear. -/
example : SingleTargets two ∧ OneByOne two [u 1, u 2, u 3] ∧ ∃ s, addNodes two .empty [u 1, u 2, u 3] = .ok s := by
  have hcase : ∀ R n R', [u 1, u 2, u 3] = R ++ n :: R' → (R = [] ∧ n = u 1) ∨ (R = [u 1] ∧ n = u 2) ∨ (R = [u 1, u 2] ∧ n = u 3) := by
    intro R n R' h
    match R, h with
    | [], h => injection h with h1 h2; exact .inl ⟨rfl, h1.symm⟩
    | [a], h => injection h with h1 h2; injection h2 with h2 h3; exact .inr (.inl ⟨by rw [h1], h2.symm⟩)
    | [a, b], h =>
      injection h with h1 h2
      injection h2 with h2 h3
      injection h3 with h3 h4
      exact .inr (.inr ⟨by rw [h1, h2], h3.symm⟩)
    | a :: b :: c :: R, h => simp at h
  have hlink : ∀ s l t, Has two s l → Aims two l t → s = u 1 ∧ ((l = .link (u 10) ∧ t = u 2) ∨ (l = .link (u 11) ∧ t = u 3)) := by
    intro s l t h1 h2
    cases h1 with
    | link h3 h4 =>
      simp only [two, Except.ok.injEq] at h3
      subst h3
      split at h4
      · rename_i hs
        refine ⟨hs, ?_⟩
        simp only [List.mem_cons, List.not_mem_nil, or_false] at h4
        cases h2 with
        | link h5 h6 =>
          simp only [two, Except.ok.injEq] at h5
          subst h5
          rcases h4 with rfl | rfl
          · left
            simpa using h6
          · right
            rw [if_neg (by decide), if_pos rfl, List.mem_singleton] at h6
            exact ⟨rfl, h6⟩
      · cases h4
    | radio h3 h4 =>
      simp only [two, Except.ok.injEq] at h3
      subst h3
      cases h4
  refine ⟨?_, ?_, ⟨_, rfl⟩⟩
  · intro k ts hk
    simp only [two, Except.ok.injEq] at hk
    subst hk
    split
    · simp
    · split <;> simp
  · rintro R n R' he s l t s' l' t' ⟨h1, h2, h3, h4, h5⟩ ⟨h1', h2', h3', h4', h5'⟩
    obtain ⟨rfl, hlt⟩ := hlink _ _ _ h1 h2
    obtain ⟨rfl, hlt'⟩ := hlink _ _ _ h1' h2'
    refine ⟨rfl, ?_⟩
    rcases hcase R n R' he with ⟨rfl, rfl⟩ | ⟨rfl, rfl⟩ | ⟨rfl, rfl⟩ <;> rcases hlt with ⟨rfl, rfl⟩ | ⟨rfl, rfl⟩ <;>
      rcases hlt' with ⟨rfl, rfl⟩ | ⟨rfl, rfl⟩ <;> first
        | exact ⟨rfl, rfl⟩
        | (exfalso; revert h4; decide)
        | (exfalso; revert h4'; decide)
        | (exfalso; revert h5; decide)
        | (exfalso; revert h5'; decide)

end Verif.MapGraph
