import Verif.Api.AttrSpec

namespace Verif.Api
open Verif.Strs (Bytes normalize normalize_idem)

/-- The keys of a map are not repeated. -/
def Keys (m : Named) : Prop := (m.map (·.1)).Nodup

theorem lookup_nil (k : Bytes) : lookup [] k = none := rfl

theorem lookup_cons (e : Bytes × List AttrValue) (m : Named) (k : Bytes) : lookup (e :: m) k = if e.1 = k then some e.2 else lookup m k := by
  unfold lookup
  by_cases h : e.1 = k <;> simp [h]

theorem lookup_isSome (m : Named) (k : Bytes) : (lookup m k).isSome ↔ k ∈ m.map (·.1) := by
  induction m with
  | nil => simp [lookup_nil]
  | cons e m ih =>
    rw [lookup_cons]
    by_cases h : e.1 = k
    · simp [h]
    · simp only [if_neg h, ih, List.map_cons, List.mem_cons]
      constructor
      · exact .inr
      · rintro (h' | h')
        · exact absurd h'.symm h
        · exact h'

theorem lookup_none (m : Named) (k : Bytes) : lookup m k = none ↔ k ∉ m.map (·.1) := by
  rw [← lookup_isSome]; cases lookup m k <;> simp

theorem lookup_append (m m' : Named) (k : Bytes) : lookup (m ++ m') k = (lookup m k).or (lookup m' k) := by
  induction m with
  | nil => simp [lookup_nil]
  | cons e m ih =>
    rw [List.cons_append, lookup_cons, lookup_cons, ih]
    by_cases h : e.1 = k <;> simp [h]

theorem lookup_mem {m : Named} (hm : Keys m) {k : Bytes} {v : List AttrValue} : lookup m k = some v ↔ (k, v) ∈ m := by
  induction m with
  | nil => simp [lookup_nil]
  | cons e m ih =>
    have hm' := List.nodup_cons.mp hm
    rw [lookup_cons]
    by_cases h : e.1 = k
    · rw [if_pos h]
      constructor
      · intro h'; cases h'; subst h; exact .head _
      · intro h'
        cases h' with
        | head => rfl
        | tail _ h' => subst h; exact absurd (List.mem_map.mpr ⟨_, h', rfl⟩) hm'.1
    · rw [if_neg h, ih hm'.2]
      constructor
      · exact .tail _
      · intro h'
        cases h' with
        | head => exact absurd rfl h
        | tail _ h' => exact h'

theorem map_assign_keys (m : Named) (k : Bytes) (v : List AttrValue) :
    (m.map fun e => if e.1 = k then (k, v) else e).map (·.1) = m.map (·.1) := by
  rw [List.map_map]
  apply List.map_congr_left
  intro e _
  by_cases h : e.1 = k <;> simp [h]

theorem lookup_map (m : Named) (k : Bytes) (v : List AttrValue) (k' : Bytes) :
    lookup (m.map fun e => if e.1 = k then (k, v) else e) k' = if k' = k then (lookup m k).map fun _ => v else lookup m k' := by
  induction m with
  | nil => simp [lookup_nil]
  | cons e m ih =>
    rw [List.map_cons, lookup_cons, lookup_cons, lookup_cons, ih]
    by_cases h : e.1 = k
    · by_cases h' : k' = k
      · subst h'; simp [h]
      · simp only [h, if_pos, if_neg h']
        rw [if_neg (fun h'' => h' h''.symm), if_neg (fun h'' => h' h''.symm)]
    · by_cases h' : k' = k
      · subst h'; simp [h]
      · simp [h, h']

theorem lookup_assign (m : Named) (k : Bytes) (v : List AttrValue) (k' : Bytes) :
    lookup (assign m k v) k' = if k' = k then some v else lookup m k' := by
  unfold assign
  by_cases h : (lookup m k).isSome
  · rw [if_pos h, lookup_map]
    by_cases h' : k' = k
    · obtain ⟨w, hw⟩ := Option.isSome_iff_exists.mp h
      rw [if_pos h', if_pos h', hw]; rfl
    · rw [if_neg h', if_neg h']
  · rw [if_neg h, lookup_append, lookup_cons, lookup_nil]
    by_cases h' : k' = k
    · subst h'; cases hk : lookup m k' <;> simp_all
    · rw [if_neg (fun h'' => h' h''.symm), if_neg h']; simp

theorem keys_assign (m : Named) (k : Bytes) (v : List AttrValue) (hm : Keys m) : Keys (assign m k v) := by
  unfold assign Keys
  by_cases h : (lookup m k).isSome
  · rw [if_pos h, map_assign_keys]; exact hm
  · rw [if_neg h, List.map_append, List.nodup_append]
    refine ⟨hm, by simp, ?_⟩
    intro a ha b hb hab
    simp only [List.map_cons, List.map_nil, List.mem_singleton] at hb
    subst hb; subst hab
    exact h ((lookup_isSome m a).mpr ha)

/-- The values of a map, entry by entry. -/
theorem flat_lookup {m : Named} (hm : Keys m) (ks : List Bytes) (hk : ks.Perm (m.map (·.1))) (f : List AttrValue → List AttrValue) :
    (ks.flatMap fun k => f ((lookup m k).getD [])).Perm (m.flatMap fun e => f e.2) := by
  refine (hk.flatMap_right _).trans ?_
  rw [List.flatMap_map]
  apply List.Perm.of_eq
  apply List.flatMap_congr
  intro e he
  rw [(lookup_mem hm).mpr he]; rfl

theorem keys_perm (g : AttrGroup) : g.keys.Perm (g.named.map (·.1)) := List.perm_insertionSort _ _

theorem flatArgs_perm (g : AttrGroup) (hg : Keys g.named) : g.getFlatArgs.Perm (g.positional ++ g.named.flatMap (·.2)) :=
  List.Perm.append_left _ (flat_lookup hg _ (keys_perm g) id)

/-- The order in which the entries of the map are walked does not matter. -/
theorem lookup_perm {m m' : Named} (hm : Keys m) (h : m.Perm m') (k : Bytes) : lookup m k = lookup m' k := by
  have hm' : Keys m' := (h.map _).nodup_iff.mp hm
  cases hk : lookup m' k with
  | none =>
    rw [lookup_none] at hk ⊢
    exact fun hc => hk ((h.map _).mem_iff.mp hc)
  | some v =>
    rw [lookup_mem hm'] at hk
    rw [lookup_mem hm]
    exact h.mem_iff.mpr hk

theorem map_other (m : Named) (k : Bytes) (v : List AttrValue) (h : k ∉ m.map (·.1)) :
    (m.map fun e => if e.1 = k then (k, v) else e) = m := by
  induction m with
  | nil => rfl
  | cons e m ih =>
    simp only [List.map_cons, List.mem_cons, not_or] at h
    rw [List.map_cons, ih h.2, if_neg (fun h' => h.1 h'.symm)]

theorem assign_push {m : Named} (hm : Keys m) {k : Bytes} {v : List AttrValue} (a : AttrValue) (h : lookup m k = some v) :
    ((assign m k (v ++ [a])).flatMap (·.2)).Perm (m.flatMap (·.2) ++ [a]) := by
  unfold assign
  rw [if_pos (by rw [h]; rfl)]
  induction m with
  | nil => simp [lookup_nil] at h
  | cons e m ih =>
    rw [lookup_cons] at h
    have hm' := List.nodup_cons.mp hm
    by_cases hk : e.1 = k
    · rw [if_pos hk] at h
      cases h
      subst hk
      rw [List.map_cons, if_pos rfl, map_other _ _ _ hm'.1, List.flatMap_cons, List.flatMap_cons]
      simp only [List.append_assoc]
      exact List.Perm.append_left _ List.perm_append_comm
    · rw [if_neg hk] at h
      rw [List.map_cons, if_neg hk, List.flatMap_cons, List.flatMap_cons, List.append_assoc]
      exact List.Perm.append_left _ (ih hm'.2 h)

theorem assign_new {m : Named} {k : Bytes} (a : AttrValue) (h : lookup m k = none) :
    ((assign m k [a]).flatMap (·.2)).Perm (m.flatMap (·.2) ++ [a]) := by
  unfold assign
  rw [h]
  simp

/-! ## Reading -/

theorem owned_snoc (args : List AttrValue) (a : AttrValue) :
    owned (args ++ [a]) = owned args ++ [{ a with name := ((args ++ [a]).filterMap (·.name)).getLast? }] := by
  unfold owned
  rw [List.mapIdx_append]
  congr 1
  · apply List.ext_getElem (by simp)
    intro i h1 h2
    simp only [List.getElem_mapIdx]
    have : i < args.length := by simpa using h1
    unfold ownName
    rw [List.take_append_of_le_length (by omega)]
  · simp only [List.mapIdx_cons, List.mapIdx_nil, ownName, Nat.zero_add]
    rw [List.take_of_length_le (by simp)]

theorem lastName_snoc (args : List AttrValue) (a : AttrValue) :
    ((args ++ [a]).filterMap (·.name)).getLast? = match a.name with
      | some n => some n
      | none => (args.filterMap (·.name)).getLast? := by
  rw [List.filterMap_append]
  cases h : a.name with
  | none => simp [h]
  | some n => simp [h]

/-- The attributes that belong to the normal form `k`. -/
def ofKey (k : Bytes) (l : List AttrValue) : List AttrValue := l.filter fun a => decide (a.name.map normalize = some k)

/-- What the group holds after reading attributes. -/
structure Holds (g : AttrGroup) (l : List AttrValue) : Prop where
  keys : Keys g.named
  look : ∀ k, lookup g.named k = if ofKey k l = [] then none else some (ofKey k l)
  pos : g.positional = l.filter fun a => a.name.isNone
  flat : (g.positional ++ g.named.flatMap (·.2)).Perm l

theorem Holds.add {g : AttrGroup} {l : List AttrValue} (h : Holds g l) (a : AttrValue) : Holds (addArgument g a) (l ++ [a]) := by
  unfold addArgument
  cases hn : a.name with
  | none =>
    refine ⟨h.keys, fun k => ?_, ?_, ?_⟩
    · have : ofKey k (l ++ [a]) = ofKey k l := by simp [ofKey, hn]
      rw [this]; exact h.look k
    · simp [h.pos, hn]
    · simp only [List.append_assoc]
      refine (List.Perm.append_left _ (List.perm_append_comm)).trans ?_
      rw [← List.append_assoc]
      exact List.Perm.append_right _ h.flat
  | some n =>
    have look : ∀ k, ofKey k (l ++ [a]) = ofKey k l ++ (if k = normalize n then [a] else []) := by
      intro k
      simp only [ofKey, List.filter_append, List.filter_cons, List.filter_nil, hn, Option.map_some, Option.some.injEq, decide_eq_true_eq]
      congr 1
      by_cases hk : k = normalize n
      · simp [hk]
      · rw [if_neg (fun h' => hk h'.symm), if_neg hk]
    cases hl : lookup g.named (normalize n) with
    | some items =>
      simp only [hl]
      have hi : items = ofKey (normalize n) l := by
        have := h.look (normalize n)
        rw [hl] at this
        split at this
        · cases this
        · cases this; rfl
      refine ⟨keys_assign _ _ _ h.keys, fun k => ?_, ?_, ?_⟩
      · simp only [lookup_assign, look k]
        by_cases hk : k = normalize n
        · subst hk; simp [hi]
        · simp only [if_neg hk, List.append_nil]; exact h.look k
      · simp [h.pos, hn]
      · refine (List.Perm.append_left _ (assign_push h.keys a hl)).trans ?_
        rw [← List.append_assoc]
        exact List.Perm.append_right _ h.flat
    | none =>
      simp only [hl]
      have hi : ofKey (normalize n) l = [] := by
        have := h.look (normalize n)
        rw [hl] at this
        split at this
        · assumption
        · cases this
      refine ⟨keys_assign _ _ _ h.keys, fun k => ?_, ?_, ?_⟩
      · simp only [lookup_assign, look k]
        by_cases hk : k = normalize n
        · subst hk; simp [hi]
        · simp only [if_neg hk, List.append_nil]; exact h.look k
      · simp [h.pos, hn]
      · refine (List.Perm.append_left _ (assign_new a hl)).trans ?_
        rw [← List.append_assoc]
        exact List.Perm.append_right _ h.flat

theorem read_state (args : List AttrValue) :
    Holds (args.foldl pushArgument ({}, none)).1 (owned args) ∧
      (args.foldl pushArgument ({}, none)).2 = (args.filterMap (·.name)).getLast? := by
  induction args using List.reverseRecOn with
  | nil => exact ⟨⟨by simp [Keys], fun k => by simp [lookup_nil, ofKey, owned], by simp [owned], by simp [owned]⟩, rfl⟩
  | append_singleton args a ih =>
    obtain ⟨h1, h2⟩ := ih
    rw [List.foldl_append, List.foldl_cons, List.foldl_nil, owned_snoc, lastName_snoc]
    generalize args.foldl pushArgument ({}, none) = s at h1 h2
    unfold pushArgument
    cases hn : a.name with
    | some n =>
      refine ⟨?_, rfl⟩
      have : ({ a with name := some n } : AttrValue) = a := by cases a; simp_all
      simp only [this]
      exact h1.add a
    | none =>
      rw [← h2]
      cases hs : s.2 with
      | some n => exact ⟨h1.add { a with name := some n }, rfl⟩
      | none =>
        refine ⟨?_, rfl⟩
        have : ({ a with name := none } : AttrValue) = a := by cases a; simp_all
        simp only [this]
        exact h1.add a

theorem readAttrs_holds (args : List AttrValue) : Holds (readAttrs args) (owned args) := (read_state args).1

theorem ofKey_belongs (k : Bytes) (l : List AttrValue) : ofKey (normalize k) l = l.filter fun a => decide (Belongs k a) := by
  unfold ofKey
  apply List.filter_congr
  intro a _
  have : (a.name.map normalize = some (normalize k)) ↔ Belongs k a := by
    unfold Belongs SameName
    cases a.name <;> simp
  simp [this]

end Verif.Api
