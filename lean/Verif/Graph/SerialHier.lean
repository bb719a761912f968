import Verif.Graph.SerialLemmas

/-! # Writing and reading hierarchies -/

namespace Verif.Graph

variable {A : Type}

/-! ## No vertex has an empty list of sub-vertices -/

theorem dropNested_full {m : AMap V (List V)} {p s : V} (h : ∀ q, get m q ≠ some []) : ∀ q, get (dropNested m p s) q ≠ some [] := by
  intro q
  rw [dropNested]
  split
  · exact h q
  · simp only
    split
    · rw [get_del]
      split
      · simp
      · exact h q
    · rename_i hne
      rw [get_set]
      split
      · intro hc
        rw [Option.some.inj hc] at hne
        simp at hne
      · exact h q

theorem removeOne_full {h : Hier} {v : V} (hf : ∀ q, get h.nested q ≠ some []) : ∀ q, get (h.removeOne v).nested q ≠ some [] := by
  have h1 : ∀ q, get (h.detach v).nested q ≠ some [] := by
    rw [Hier.detach]
    split
    · exact hf
    · exact dropNested_full hf
  intro q
  simp only [Hier.removeOne, Hier.release]
  split
  · exact h1 q
  · simp only [get_del]
    split
    · simp
    · exact h1 q

theorem fold_full : ∀ (order : List V) {h : Hier}, (∀ q, get h.nested q ≠ some []) → ∀ q, get (order.foldl Hier.removeOne h).nested q ≠ some []
  | [], _, hf => hf
  | _ :: xs, _, hf => fold_full xs (removeOne_full hf)

theorem ok_bind {α β ε : Type} (a : α) (f : α → Except ε β) : (Except.ok a).bind f = f a := rfl

theorem run_full {safe : Bool} {hash : V → V → E} {h : Hier} (hr : HRun safe hash h) : ∀ q, get h.nested q ≠ some [] := by
  induction hr with
  | init => simp [Hier.empty]
  | track _ ht ih =>
    rw [Hier.track] at ht
    split at ht
    · cases ht
    · cases ht
      exact ih
  | @nest h p s _ _ ih =>
    intro q
    have this : get (set h.nested p (incl ((get h.nested p).getD []) s)) q ≠ some [] := by
      rw [get_set]
      split
      · intro hc
        have hm : s ∈ incl ((get h.nested p).getD []) s := by simp
        rw [Option.some.inj hc] at hm
        cases hm
      · exact ih q
    rw [Hier.nestSub]
    split
    · exact ih q
    · split
      · exact ih q
      · rw [Hier.nest]
        simp only
        repeat' split
        all_goals first
          | exact ih q
          | exact this
  | unnest _ hu ih =>
    rw [Hier.unnest] at hu
    split at hu
    · cases hu
    · split at hu
      · cases hu
      · split at hu
        · cases hu
        · cases hu
          exact dropNested_full ih
  | @untrack h fuel v order h' vs _ hu _ ih =>
    obtain ⟨_, _, rfl⟩ := untrack_effect' hu
    exact fold_full order ih

/-! ## Writing -/

/-- What the message says about a hierarchy. -/
def Net.hierOf (g : Net A) (h : Hier) : SHier :=
  ⟨h.roots.dedup.map g.nm, (entries h.parent).dedup.map (fun x => (g.nm x.1, g.nm x.2)), [],
    (entries h.nested).dedup.map (fun x => (g.nm x.1, x.2.dedup.map g.nm))⟩

theorem nested_in {g : Net A} (hm : g.Made) {h : Hier} (hh : h ∈ g.hiers) {p : V} {l : List V} (hp : get h.nested p = some l) :
    p ∈ g.verts ∧ ∀ s ∈ l, s ∈ g.verts := by
  obtain ⟨safe, hash, hr⟩ := hm.hiers h hh
  have hc := run_consistent hr
  have hs : ∀ s ∈ l, h.getParent s = some p := fun s hs => (hc.subs p s).1 (by simpa [Hier.getSubs, hp] using hs)
  constructor
  · cases l with
    | nil => exact absurd hp (run_full hr p)
    | cons s l => exact hm.inside h hh _ (hc.tracked p s (hs s (by simp))).1
  · intro s hsl
    exact hm.inside h hh _ (hc.tracked p s (hs s hsl)).2

theorem writeHier_ok {g : Net A} (hm : g.Made) {h : Hier} (hh : h ∈ g.hiers) : writeHier g h = .ok (g.hierOf h) := by
  obtain ⟨safe, hash, hr⟩ := hm.hiers h hh
  have hc := run_consistent hr
  rw [writeHier, each_ok (k := g.nm) (l := h.roots.dedup) (fun x hx => nameOf_ok hm (hm.inside h hh x ((hc.roots x).1 (List.mem_dedup.1 hx)).1))]
  show Except.bind (each _ (entries h.parent).dedup) _ = _
  rw [each_ok (k := fun x => (g.nm x.1, g.nm x.2)) (l := (entries h.parent).dedup) (by
    rintro ⟨s, p⟩ hx
    rw [List.mem_dedup, mem_entries] at hx
    obtain ⟨h1, h2⟩ := hc.tracked p s hx
    rw [nameOf_ok hm (hm.inside h hh _ h2)]
    show (g.nameOf p).bind _ = _
    rw [nameOf_ok hm (hm.inside h hh _ h1)]
    rfl)]
  show Except.bind (each _ (entries h.nested).dedup) _ = _
  rw [each_ok (k := fun x => (g.nm x.1, x.2.dedup.map g.nm)) (l := (entries h.nested).dedup) (by
    rintro ⟨p, l⟩ hx
    rw [List.mem_dedup, mem_entries] at hx
    obtain ⟨h1, h2⟩ := nested_in hm hh hx
    rw [nameOf_ok hm h1]
    show (each g.nameOf l.dedup).bind _ = _
    rw [each_ok (k := g.nm) (l := l.dedup) (fun s hs => nameOf_ok hm (h2 s (List.mem_dedup.1 hs)))]
    rfl)]
  rfl

/-! ## Reading -/

/-- The hierarchy after reading the parents `P` and the pairs `D` of parent and sub-vertex. -/
structure ReadH (f : V → V) (h : Hier) (P : List V) (D : List (V × V)) : Prop where
  parent : ∀ w q, get h.parent w = some q ↔ ∃ x ∈ D, f x.2 = w ∧ f x.1 = q
  subs : ∀ q w, w ∈ (get h.nested q).getD [] ↔ ∃ x ∈ D, f x.1 = q ∧ f x.2 = w
  keys : ∀ q, (get h.nested q).isSome ↔ ∃ p ∈ P, f p = q
  ids : ∀ w, w ∈ h.ids ↔ (∃ p ∈ P, f p = w) ∨ ∃ x ∈ D, f x.2 = w
  edges : h.edges = [] ∧ h.objs = []

theorem readSubs_ok {f : V → V} {g g1 : Net A} (hm : g.Made) (hs : SameVerts f g g1) {p : V} {P : List V} (hpP : p ∈ P) :
    ∀ (ss : List V) (h : Hier) (D : List (V × V)), (∀ s ∈ ss, s ∈ g.verts) → (∀ x ∈ D, x.2 ∈ g.verts) → (D.map (·.2) ++ ss).Nodup →
      ReadH f h P D → ∃ h', readSubs g1 (f p) h (ss.map g.nm) = .ok h' ∧ ReadH f h' P (D ++ ss.map (fun s => (p, s)))
  | [], h, D, _, _, _, hr => ⟨h, rfl, by simpa using hr⟩
  | s :: ss, h, D, hss, hD, hn, hr => by
    have hsv := hss s (by simp)
    have hfresh : get h.parent (f s) = none := by
      rw [Option.eq_none_iff_forall_ne_some]
      intro q hq
      obtain ⟨x, hx, h1, _⟩ := (hr.parent _ _).1 hq
      have : x.2 = s := hs.inj _ (hD x hx) _ hsv h1
      exact (List.nodup_append.1 hn).2.2 x.2 (List.mem_map_of_mem hx) s (by simp) this
    obtain ⟨h', h1, h2⟩ := readSubs_ok hm hs hpP ss { h with
        nested := set h.nested (f p) (incl ((get h.nested (f p)).getD []) (f s))
        parent := set h.parent (f s) (f p)
        ids := incl h.ids (f s) } (D ++ [(p, s)]) (fun x hx => hss x (List.mem_cons_of_mem _ hx)) (by
          intro x hx
          rcases List.mem_append.1 hx with hx | hx
          · exact hD x hx
          · rw [List.mem_singleton.1 hx]
            exact hsv) (by simpa using hn) (by
      refine ⟨?_, ?_, ?_, ?_, hr.edges⟩
      · intro w q
        simp only [get_set, List.mem_append, List.mem_singleton]
        split
        · rename_i hw
          subst hw
          constructor
          · intro hq
            exact ⟨(p, s), .inr rfl, rfl, Option.some.inj hq⟩
          · rintro ⟨x, hx | rfl, h3, h4⟩
            · have := (hr.parent (f s) q).2 ⟨x, hx, h3, h4⟩
              rw [hfresh] at this
              cases this
            · rw [← h4]
        · rename_i hw
          rw [hr.parent]
          constructor
          · rintro ⟨x, hx, h3⟩
            exact ⟨x, .inl hx, h3⟩
          · rintro ⟨x, hx | rfl, h3, h4⟩
            · exact ⟨x, hx, h3, h4⟩
            · exact absurd h3.symm hw
      · intro q w
        simp only [get_set, List.mem_append, List.mem_singleton]
        split
        · rename_i hw
          subst hw
          rw [Option.getD_some, mem_incl, hr.subs]
          constructor
          · rintro (⟨x, hx, h3⟩ | rfl)
            · exact ⟨x, .inl hx, h3⟩
            · exact ⟨(p, s), .inr rfl, rfl, rfl⟩
          · rintro ⟨x, hx | rfl, h3, h4⟩
            · exact .inl ⟨x, hx, h3, h4⟩
            · exact .inr h4.symm
        · rename_i hw
          rw [hr.subs]
          constructor
          · rintro ⟨x, hx, h3⟩
            exact ⟨x, .inl hx, h3⟩
          · rintro ⟨x, hx | rfl, h3, h4⟩
            · exact ⟨x, hx, h3, h4⟩
            · exact absurd h3.symm hw
      · intro q
        simp only [get_set]
        split
        · rename_i hw
          subst hw
          simp only [Option.isSome_some, true_iff]
          exact ⟨p, hpP, rfl⟩
        · exact hr.keys q
      · intro w
        simp only [mem_incl, hr.ids, List.mem_append, List.mem_singleton]
        constructor
        · rintro ((h3 | ⟨x, hx, h3⟩) | rfl)
          · exact .inl h3
          · exact .inr ⟨x, .inl hx, h3⟩
          · exact .inr ⟨(p, s), .inr rfl, rfl⟩
        · rintro (h3 | ⟨x, hx | rfl, h3⟩)
          · exact .inl (.inl h3)
          · exact .inl (.inr ⟨x, hx, h3⟩)
          · exact .inr h3.symm)
    refine ⟨h', ?_, by simpa using h2⟩
    rw [List.map_cons, readSubs, lookup_nm hm hs hsv]
    show (if (get h.parent (f s)).isSome = true then _ else _) = _
    rw [if_neg (by simp [hfresh])]
    exact h1

/-- The pairs of a list of parents with their sub-vertices. -/
def pairsOf (l : List (V × List V)) : List (V × V) := l.flatMap (fun x => x.2.map (fun s => (x.1, s)))

theorem readNested_ok {f : V → V} {g g1 : Net A} (hm : g.Made) (hs : SameVerts f g g1) :
    ∀ (l : List (V × List V)) (h : Hier) (P : List V) (D : List (V × V)), (∀ x ∈ l, x.1 ∈ g.verts ∧ ∀ s ∈ x.2, s ∈ g.verts) → (∀ x ∈ D, x.2 ∈ g.verts) →
      (D.map (·.2) ++ (pairsOf l).map (·.2)).Nodup → ReadH f h P D →
      ∃ h', readNested g1 h (l.map (fun x => (g.nm x.1, x.2.map g.nm))) = .ok h' ∧ ReadH f h' (P ++ l.map (·.1)) (D ++ pairsOf l)
  | [], h, P, D, _, _, _, hr => ⟨h, rfl, by simpa [pairsOf] using hr⟩
  | (p, ss) :: l, h, P, D, hl, hD, hn, hr => by
    obtain ⟨hp, hss⟩ := hl (p, ss) (by simp)
    simp only at hp hss
    have hn' : (D.map (·.2) ++ (ss ++ (pairsOf l).map (·.2))).Nodup := by
      simpa [pairsOf, Function.comp_def] using hn
    obtain ⟨h1, k1, k2⟩ := readSubs_ok hm hs (p := p) (P := P ++ [p]) (by simp) ss
      { h with nested := set h.nested (f p) ((get h.nested (f p)).getD []), ids := incl h.ids (f p) } D hss hD
      (by rw [← List.append_assoc] at hn'; exact (List.nodup_append.1 hn').1) (by
      refine ⟨hr.parent, ?_, ?_, ?_, hr.edges⟩
      · intro q w
        simp only [get_set]
        split
        · rename_i hq
          subst hq
          rw [Option.getD_some]
          exact hr.subs _ _
        · exact hr.subs _ _
      · intro q
        simp only [get_set, List.mem_append, List.mem_singleton]
        split
        · rename_i hq
          subst hq
          simp only [Option.isSome_some, true_iff]
          exact ⟨p, .inr rfl, rfl⟩
        · rename_i hq
          rw [hr.keys]
          constructor
          · rintro ⟨x, hx, h3⟩
            exact ⟨x, .inl hx, h3⟩
          · rintro ⟨x, hx | rfl, h3⟩
            · exact ⟨x, hx, h3⟩
            · exact absurd h3.symm hq
      · intro w
        simp only [mem_incl, hr.ids, List.mem_append, List.mem_singleton]
        constructor
        · rintro ((⟨x, hx, h3⟩ | h3) | rfl)
          · exact .inl ⟨x, .inl hx, h3⟩
          · exact .inr h3
          · exact .inl ⟨p, .inr rfl, rfl⟩
        · rintro (⟨x, hx | rfl, h3⟩ | h3)
          · exact .inl (.inl ⟨x, hx, h3⟩)
          · exact .inr h3.symm
          · exact .inl (.inr h3))
    obtain ⟨h2, k3, k4⟩ := readNested_ok hm hs l h1 (P ++ [p]) (D ++ ss.map (fun s => (p, s))) (fun x hx => hl x (List.mem_cons_of_mem _ hx)) (by
      intro x hx
      rcases List.mem_append.1 hx with hx | hx
      · exact hD x hx
      · obtain ⟨s, hs', rfl⟩ := List.mem_map.1 hx
        exact hss s hs') (by simpa [Function.comp_def] using hn') k2
    refine ⟨h2, ?_, by simpa [pairsOf] using k4⟩
    rw [List.map_cons, readNested, lookup_nm hm hs hp]
    show (readSubs g1 (f p) _ (ss.map g.nm)).bind _ = _
    rw [k1]
    exact k3

theorem checkAll_ok {g1 : Net A} {bad : V → Bool} : ∀ {l : List Stable}, (∀ n ∈ l, ∃ v, g1.lookup n = .ok v ∧ bad v = false) → checkAll g1 bad l = .ok ()
  | [], _ => rfl
  | n :: ns, h => by
    obtain ⟨v, h1, h2⟩ := h n (by simp)
    rw [checkAll, h1]
    show (if bad v = true then _ else _) = _
    rw [if_neg (by simp [h2])]
    exact checkAll_ok (fun m hm => h m (List.mem_cons_of_mem _ hm))

theorem checkParents_ok {g1 : Net A} {h : Hier} : ∀ {l : List (Stable × Stable)},
    (∀ x ∈ l, ∃ v w, g1.lookup x.1 = .ok v ∧ g1.lookup x.2 = .ok w ∧ (get h.parent v).isSome) → checkParents g1 h l = .ok ()
  | [], _ => rfl
  | x :: xs, hx => by
    obtain ⟨v, w, h1, h2, h3⟩ := hx x (by simp)
    rw [checkParents, h1, ok_bind, h2, ok_bind, if_pos h3]
    exact checkParents_ok (fun m hm => hx m (List.mem_cons_of_mem _ hm))

theorem checkAll_bad {g1 : Net A} {bad : V → Bool} : ∀ {l : List Stable}, (∀ n ∈ l, ∃ v, g1.lookup n = .ok v) → (∃ n ∈ l, ∃ v, g1.lookup n = .ok v ∧ bad v = true) →
    checkAll g1 bad l = .error .graph
  | [], _, h => by simp at h
  | n :: ns, h, h' => by
    obtain ⟨v, h1⟩ := h n (by simp)
    rw [checkAll, h1]
    show (if bad v = true then _ else _) = _
    split
    · rfl
    · rename_i hb
      obtain ⟨m, hmm, w, h2, h3⟩ := h'
      rcases List.mem_cons.1 hmm with rfl | hmm
      · rw [h1] at h2
        cases h2
        exact absurd h3 hb
      · exact checkAll_bad (fun k hk => h k (List.mem_cons_of_mem _ hk)) ⟨m, hmm, w, h2, h3⟩

/-- The pairs of a hierarchy. -/
theorem mem_pairs {h : Hier} (hc : h.Consistent) {p s : V} : (p, s) ∈ pairsOf ((entries h.nested).dedup.map (fun x => (x.1, x.2.dedup))) ↔ h.getParent s = some p := by
  rw [← hc.subs, Hier.getSubs]
  simp only [pairsOf, List.mem_flatMap, List.mem_map, List.mem_dedup, Prod.mk.injEq, Prod.exists]
  constructor
  · rintro ⟨a, b, ⟨q, l, h1, rfl, rfl⟩, s', h2, rfl, rfl⟩
    rw [mem_entries] at h1
    rw [h1, Option.getD_some]
    exact List.mem_dedup.1 h2
  · intro hs
    cases hq : get h.nested p with
    | none => simp [hq] at hs
    | some l =>
      rw [hq, Option.getD_some] at hs
      exact ⟨p, l.dedup, ⟨p, l, mem_entries.2 hq, rfl, rfl⟩, s, List.mem_dedup.2 hs, rfl, rfl⟩

theorem pairs_nodup {h : Hier} (hc : h.Consistent) : ((pairsOf ((entries h.nested).dedup.map (fun x => (x.1, x.2.dedup)))).map (·.2)).Nodup := by
  have hnd : (pairsOf ((entries h.nested).dedup.map (fun x => (x.1, x.2.dedup)))).Nodup := by
    rw [pairsOf, List.nodup_flatMap]
    constructor
    · intro x hx
      obtain ⟨y, _, rfl⟩ := List.mem_map.1 hx
      exact (List.nodup_dedup _).map (fun a b hab => (Prod.mk.inj hab).2)
    · rw [List.pairwise_map]
      refine (List.nodup_dedup (entries h.nested)).imp_of_mem ?_
      rintro ⟨a, b⟩ ⟨c, d⟩ h1 h2 hne
      rw [List.mem_dedup, mem_entries] at h1 h2
      intro x hx hy
      simp only [List.mem_map] at hx hy
      obtain ⟨s, _, rfl⟩ := hx
      obtain ⟨t, _, h3⟩ := hy
      have : c = a := (Prod.mk.inj h3).1
      subst this
      rw [h1] at h2
      exact hne (by rw [Option.some.inj h2])
  rw [List.nodup_map_iff_inj_on hnd]
  rintro ⟨a, b⟩ h1 ⟨c, d⟩ h2 hbd
  simp only at hbd
  subst hbd
  rw [mem_pairs hc] at h1 h2
  rw [h1] at h2
  rw [Option.some.inj h2]

/-- The loops of reading a hierarchy that was written. -/
theorem nested_read {f : V → V} {g g1 : Net A} (hm : g.Made) (hs : SameVerts f g g1) {h : Hier} (hh : h ∈ g.hiers) :
    ∃ h1, readNested g1 .empty (g.hierOf h).nested = .ok h1 ∧
      ReadH f h1 ((entries h.nested).dedup.map (·.1)) (pairsOf ((entries h.nested).dedup.map (fun x => (x.1, x.2.dedup)))) := by
  obtain ⟨safe, hash, hr⟩ := hm.hiers h hh
  have hc := run_consistent hr
  obtain ⟨h1, k1, k2⟩ := readNested_ok hm hs ((entries h.nested).dedup.map (fun x => (x.1, x.2.dedup))) .empty [] [] (by
      intro x hx
      obtain ⟨⟨p, l⟩, hy, rfl⟩ := List.mem_map.1 hx
      rw [List.mem_dedup, mem_entries] at hy
      obtain ⟨h2, h3⟩ := nested_in hm hh hy
      exact ⟨h2, fun s hs' => h3 s (List.mem_dedup.1 hs')⟩) (by simp) (by simpa using pairs_nodup hc)
      ⟨by simp [Hier.empty], by simp [Hier.empty], by simp [Hier.empty], by simp [Hier.empty], rfl, rfl⟩
  refine ⟨h1, ?_, by simpa [Function.comp_def] using k2⟩
  rw [← k1]
  simp [Net.hierOf, Function.comp_def]

theorem mem_keys {h : Hier} {p : V} : p ∈ (entries h.nested).dedup.map (·.1) ↔ (get h.nested p).isSome := by
  simp only [List.mem_map, List.mem_dedup, Prod.exists, exists_and_right, exists_eq_right, mem_entries, Option.isSome_iff_exists]

theorem key_iff {safe : Bool} {hash : V → V → E} {h : Hier} (hr : HRun safe hash h) {p : V} : (get h.nested p).isSome ↔ h.getSubs p ≠ [] := by
  rw [Hier.getSubs]
  cases hq : get h.nested p with
  | none => simp
  | some l =>
    have : l ≠ [] := by
      rintro rfl
      exact run_full hr p hq
    simp [this]

/-- Reading a hierarchy that was written, if no vertex stands alone. -/
theorem hier_read {f : V → V} {g g1 : Net A} (hm : g.Made) (hs : SameVerts f g g1) {h : Hier} (hh : h ∈ g.hiers)
    (alone : ∀ v ∈ h.getRoots, h.getSubs v ≠ []) : ∃ h', readHier g1 (g.hierOf h) = .ok h' ∧ SameNesting f h h' ∧ h'.edges = [] := by
  obtain ⟨safe, hash, hr⟩ := hm.hiers h hh
  have hc := run_consistent hr
  obtain ⟨h1, k1, k2⟩ := nested_read hm hs hh
  have hin : ∀ v ∈ h.getAll, v ∈ g.verts := hm.inside h hh
  have hpar : ∀ v ∈ h.getAll, get h1.parent (f v) = (h.getParent v).map f := by
    intro v hv
    cases hp : h.getParent v with
    | some p => exact (k2.parent _ _).2 ⟨(p, v), (mem_pairs hc).2 hp, rfl, rfl⟩
    | none =>
      rw [Option.map_none, Option.eq_none_iff_forall_ne_some]
      intro q hq
      obtain ⟨⟨p, s⟩, hx, h3, _⟩ := (k2.parent _ _).1 hq
      rw [mem_pairs hc] at hx
      have : s = v := hs.inj _ (hin s (hc.tracked p s hx).2) _ (hin v hv) h3
      subst this
      rw [hp] at hx
      cases hx
  have hkey : ∀ v ∈ h.getAll, ((get h1.nested (f v)).isSome ↔ h.getSubs v ≠ []) := by
    intro v hv
    rw [k2.keys]
    constructor
    · rintro ⟨p, hp, h3⟩
      rw [mem_keys] at hp
      obtain ⟨l, hl⟩ := Option.isSome_iff_exists.1 hp
      have : p = v := hs.inj _ (nested_in hm hh hl).1 _ (hin v hv) h3
      subst this
      exact (key_iff hr).1 hp
    · intro hne
      exact ⟨v, mem_keys.2 ((key_iff hr).2 hne), rfl⟩
  have hall : ∀ w, w ∈ h1.ids ↔ ∃ v ∈ h.getAll, f v = w := by
    intro w
    rw [k2.ids]
    constructor
    · rintro (⟨p, hp, rfl⟩ | ⟨⟨p, s⟩, hx, rfl⟩)
      · rw [mem_keys, key_iff hr] at hp
        obtain ⟨s, hs'⟩ := List.exists_mem_of_ne_nil _ hp
        exact ⟨p, (hc.tracked p s ((hc.subs p s).1 hs')).1, rfl⟩
      · rw [mem_pairs hc] at hx
        exact ⟨s, (hc.tracked p s hx).2, rfl⟩
    · rintro ⟨v, hv, rfl⟩
      cases hp : h.getParent v with
      | some p => exact .inr ⟨(p, v), (mem_pairs hc).2 hp, rfl⟩
      | none => exact .inl ⟨v, mem_keys.2 ((key_iff hr).2 (alone v ((hc.roots v).2 ⟨hv, hp⟩))), rfl⟩
  refine ⟨{ h1 with roots := h1.ids.filter (fun v => !(get h1.parent v).isSome) }, ?_, ⟨hall, ?_, hpar, ?_⟩, k2.edges.1⟩
  · rw [readHier, k1]
    rw [ok_bind]
    dsimp only
    rw [checkAll_ok (by simp [Net.hierOf])]
    rw [ok_bind]
    rw [checkAll_ok (by
      intro n hn
      simp only [Net.hierOf, List.mem_map, List.mem_dedup] at hn
      obtain ⟨v, hv, rfl⟩ := hn
      obtain ⟨h3, h4⟩ := (hc.roots v).1 hv
      refine ⟨f v, lookup_nm hm hs (hin v h3), ?_⟩
      have h5 := (hkey v h3).2 (alone v hv)
      have h6 := hpar v h3
      rw [h4] at h6
      simp [h5, h6])]
    rw [ok_bind]
    rw [checkParents_ok (by
      intro n hn
      simp only [Net.hierOf, List.mem_map, List.mem_dedup, Prod.exists, mem_entries] at hn
      obtain ⟨s, p, hsp, rfl⟩ := hn
      obtain ⟨h2, h3⟩ := hc.tracked p s hsp
      refine ⟨f s, f p, lookup_nm hm hs (hin s h3), lookup_nm hm hs (hin p h2), ?_⟩
      have h6 := hpar s h3
      rw [show h.getParent s = some p from hsp] at h6
      show (get h1.parent (f s)).isSome = true
      rw [h6]
      rfl)]
    rfl
  · intro w
    simp only [Hier.getRoots, List.mem_filter, hall, Bool.not_eq_true', Option.isSome_eq_false_iff, Option.isNone_iff_eq_none]
    constructor
    · rintro ⟨⟨v, hv, rfl⟩, h3⟩
      rw [hpar v hv, Option.map_eq_none_iff] at h3
      exact ⟨v, (hc.roots v).2 ⟨hv, h3⟩, rfl⟩
    · rintro ⟨v, hv, rfl⟩
      obtain ⟨h3, h4⟩ := (hc.roots v).1 hv
      refine ⟨⟨v, h3, rfl⟩, ?_⟩
      rw [hpar v h3, h4]
      rfl
  · intro v hv w
    rw [show ({ h1 with roots := h1.ids.filter (fun v => !(get h1.parent v).isSome) } : Hier).getSubs (f v) = (get h1.nested (f v)).getD [] from rfl, k2.subs]
    constructor
    · rintro ⟨⟨p, s⟩, hx, h3, rfl⟩
      rw [mem_pairs hc] at hx
      have : p = v := hs.inj _ (hin p (hc.tracked p s hx).1) _ (hin v hv) h3
      subst this
      exact ⟨s, (hc.subs p s).2 hx, rfl⟩
    · rintro ⟨s, hs', rfl⟩
      exact ⟨(v, s), (mem_pairs hc).2 ((hc.subs v s).1 hs'), rfl, rfl⟩

/-- A hierarchy with a vertex that stands alone is refused. -/
theorem hier_refused {f : V → V} {g g1 : Net A} (hm : g.Made) (hs : SameVerts f g g1) {h : Hier} (hh : h ∈ g.hiers)
    (alone : ∃ v ∈ h.getRoots, h.getSubs v = []) : readHier g1 (g.hierOf h) = .error .graph := by
  obtain ⟨safe, hash, hr⟩ := hm.hiers h hh
  have hc := run_consistent hr
  obtain ⟨h1, k1, k2⟩ := nested_read hm hs hh
  have hin : ∀ v ∈ h.getAll, v ∈ g.verts := hm.inside h hh
  rw [readHier, k1]
  rw [ok_bind]
  dsimp only
  rw [checkAll_ok (by simp [Net.hierOf])]
  rw [ok_bind]
  rw [checkAll_bad (by
    intro n hn
    simp only [Net.hierOf, List.mem_map, List.mem_dedup] at hn
    obtain ⟨v, hv, rfl⟩ := hn
    exact ⟨f v, lookup_nm hm hs (hin v ((hc.roots v).1 hv).1)⟩) (by
    obtain ⟨v, hv, hl⟩ := alone
    have hv' := hin v ((hc.roots v).1 hv).1
    refine ⟨g.nm v, by simp only [Net.hierOf, List.mem_map, List.mem_dedup]; exact ⟨v, hv, rfl⟩, f v, lookup_nm hm hs hv', ?_⟩
    have : ¬ (get h1.nested (f v)).isSome := by
      rw [k2.keys]
      rintro ⟨p, hp, h3⟩
      rw [mem_keys] at hp
      obtain ⟨l, hl'⟩ := Option.isSome_iff_exists.1 hp
      have : p = v := hs.inj _ (nested_in hm hh hl').1 _ hv' h3
      subst this
      exact (key_iff hr).1 hp hl
    simp only [Bool.or_eq_true, Bool.not_eq_true', Bool.not_eq_true] at this ⊢
    exact .inl this)]
  rfl

end Verif.Graph
