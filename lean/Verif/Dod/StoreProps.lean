import Verif.Dod.Props
import Verif.Dod.Source
import Mathlib.Data.List.Nodup

/-!
# Stores, interning and the source manager (C05, C06, C37)
-/

namespace Verif.Dod

/-! ## Ids of stores -/

theorem toInt32_of_lt {n : Nat} (h : n < 2 ^ 31) : toInt32 n = n := by
  unfold toInt32
  rw [BitVec.toInt_eq_toNat_of_lt]
  · rw [toNat_ofNat_of_lt (by omega)]
  · rw [toNat_ofNat_of_lt (by omega)]; omega

/-- The id of index `n` with mask `mask`, as a number. -/
def packed (w m mask n : Nat) : BitVec w := BitVec.ofNat w (mask * 2 ^ (w - m) + (n + 1))

theorem isNil_index {w m mask n : Nat} (hm : m ≤ w) (hmask : mask < 2 ^ m)
    (hn : n + 1 < 2 ^ (w - m)) : isNil m (packed w m mask n) = .ok false := by
  unfold packed
  rw [isNil_packed hm hmask hn]
  simp

theorem Store.add_eq {T : Type} {w m : Nat} (hm : m ≤ w) (c : List T) (v : T)
    (h31 : c.length < 2 ^ 31) (hcap : c.length + 1 < 2 ^ (w - m)) :
    Store.add w m c v = .ok (c ++ [v], packed w m 0 c.length) := by
  have hid : fromIndex (BitVec.ofInt w (toInt32 c.length)) = packed w m 0 c.length := by
    rw [toInt32_of_lt h31, BitVec.ofInt_natCast]
    apply BitVec.eq_of_toNat_eq
    unfold packed
    rw [fromIndex_toNat (lt_width hcap), Nat.zero_mul, Nat.zero_add,
      toNat_ofNat_of_lt (lt_width hcap)]
  unfold Store.add
  simp only [hid, isNil_index hm (Nat.two_pow_pos m) hcap, bind, Except.bind]
  rfl

theorem Store.addMasked_eq {T : Type} {w m mask : Nat} (h0 : 0 < m) (h64 : m < 64) (hm : m ≤ w)
    (hmask : mask < 2 ^ m) (c : List T) (v : T) (h31 : c.length < 2 ^ 31)
    (hcap : c.length + 1 < 2 ^ (w - m)) :
    Store.addMasked w m c v (BitVec.ofNat w mask) = .ok (c ++ [v], packed w m mask c.length) := by
  unfold Store.addMasked
  rw [toInt32_of_lt h31, BitVec.ofInt_natCast, fromMaskedIdx_eq h0 hm h64 hcap hmask]
  have := isNil_index hm hmask hcap
  unfold packed at this
  simp only [this, bind, Except.bind]
  rfl

theorem getIndex_id {w m mask n : Nat} (hm : m ≤ w) (hmask : mask < 2 ^ m)
    (hn : n + 1 < 2 ^ (w - m)) : getIndex m (packed w m mask n) = .ok (BitVec.ofNat w n) :=
  getIndex_packed hm hmask hn

theorem Store.at_eq {T : Type} {w m mask n : Nat} (hm : m ≤ w) (hmask : mask < 2 ^ m)
    (hn : n + 1 < 2 ^ (w - m)) (h31 : n < 2 ^ 31) (c : List T) :
    Store.at m c (packed w m mask n) =
      match c[n]? with | some v => .ok v | none => .error .range := by
  unfold Store.at
  rw [getIndex_id hm hmask hn]
  have hw := lt_width hn
  simp only [bind, Except.bind]
  rw [toNat_ofNat_of_lt (by omega : n < 2 ^ w), toInt32_of_lt h31]
  unfold vecAt
  rw [if_neg (by omega)]
  simp only [Int.toNat_natCast]
  cases c[n]? <;> rfl

theorem Store.contains_eq {T : Type} {w m mask n : Nat} (hm : m ≤ w) (hmask : mask < 2 ^ m)
    (hn : n + 1 < 2 ^ (w - m)) (c : List T) :
    Store.contains m c (packed w m mask n) = .ok (decide (n < c.length)) := by
  unfold Store.contains
  have hw := lt_width hn
  simp only [isNil_index hm hmask hn, getIndex_id hm hmask hn, bind, Except.bind]
  rw [toNat_ofNat_of_lt (by omega : n < 2 ^ w)]
  rfl

/-! ## C05 -/

/-- Full statement of C05, last part: reading through an id succeeds exactly for the
ids the store contains. -/
def StoreAtStatement : Prop :=
  ∀ (w m : Nat) (T : Type) (c : List T) (id : BitVec w), 32 ≤ w → w ≤ 64 → m < 32 →
    ((∃ v, Store.at m c id = .ok v) ↔ Store.contains m c id = .ok true)

/-- **C05 is false**: the index is converted to a 32-bit `int` on reading, so an id far
past the end reads the first element; `insert` past the end is silently dropped. -/
theorem store_at_false :
    ¬ StoreAtStatement ∧
    Store.contains 0 ["a"] (fromIndex (BitVec.ofNat 64 (2 ^ 32))) = .ok false ∧
    Store.at 0 ["a"] (fromIndex (BitVec.ofNat 64 (2 ^ 32))) = .ok "a" ∧
    Store.insert 0 ["a"] (fromIndex (5#64)) "b" = .ok ["a"] := by
  have h1 : Store.contains 0 ["a"] (fromIndex (BitVec.ofNat 64 (2 ^ 32))) = .ok false := by
    decide +kernel
  have h2 : Store.at 0 ["a"] (fromIndex (BitVec.ofNat 64 (2 ^ 32))) = .ok "a" := by
    decide +kernel
  refine ⟨fun h => ?_, h1, h2, by decide +kernel⟩
  have := (h 64 0 String ["a"] (fromIndex (BitVec.ofNat 64 (2 ^ 32))) (by decide) (by decide)
    (by decide)).1 ⟨_, h2⟩
  rw [h1] at this
  cases this

/-- An operation leaves the element at index `n` alone: it is not an `insert` there. -/
def Store.Op.Avoids {T : Type} {w : Nat} (m n : Nat) : Store.Op T w → Prop
  | .insert id _ => ∀ i, getIndex m id = .ok i → i.toNat ≠ n
  | _ => True

theorem Store.add_content {T : Type} {w m : Nat} {c c' : List T} {v : T} {id : BitVec w}
    (h : Store.add w m c v = .ok (c', id)) : c' = c ++ [v] := by
  simp only [Store.add, bind, Except.bind] at h
  split at h
  · cases h
  · split at h
    · cases h
    · cases h; rfl

theorem Store.addMasked_content {T : Type} {w m : Nat} {c c' : List T} {v : T} {id mask : BitVec w}
    (h : Store.addMasked w m c v mask = .ok (c', id)) : c' = c ++ [v] := by
  simp only [Store.addMasked, bind, Except.bind] at h
  split at h
  · cases h
  · split at h
    · cases h
    · split at h
      · cases h
      · cases h; rfl

/-- One operation does not change the element at `n` if it avoids it. -/
theorem Store.step_get {T : Type} {w m n : Nat} {c c' : List T} {op : Store.Op T w}
    (h : Store.step m c op = .ok c') (hav : op.Avoids m n) {v : T} (hv : c[n]? = some v) :
    c'[n]? = some v := by
  have hlt : n < c.length := (List.getElem?_eq_some_iff.1 hv).1
  cases op with
  | add x =>
    simp only [Store.step, bind, Except.bind] at h
    split at h
    · cases h
    · rename_i r hr
      cases h
      rw [Store.add_content hr, List.getElem?_append_left hlt, hv]
  | addMasked x mask =>
    simp only [Store.step, bind, Except.bind] at h
    split at h
    · cases h
    · rename_i r hr
      cases h
      rw [Store.addMasked_content hr, List.getElem?_append_left hlt, hv]
  | insert id x =>
    simp only [Store.step, Store.insert, bind, Except.bind] at h
    split at h
    · cases h
    · rename_i i hi
      have hne := hav i hi
      split at h
      · cases h
        rw [List.getElem?_append_left hlt, hv]
      · split at h
        · cases h
          rw [List.getElem?_set_ne hne, hv]
        · cases h; exact hv

theorem Store.run_get {T : Type} {w m n : Nat} (ops : List (Store.Op T w)) {c c' : List T}
    (h : Store.run m c ops = .ok c') (hav : ∀ op ∈ ops, op.Avoids m n) {v : T}
    (hv : c[n]? = some v) : c'[n]? = some v := by
  induction ops generalizing c with
  | nil => cases h; exact hv
  | cons op ops ih =>
    simp only [Store.run, bind, Except.bind] at h
    split at h
    · cases h
    · rename_i c1 h1
      exact ih h (fun o ho => hav o (by simp [ho]))
        (Store.step_get h1 (hav op (by simp)) hv)

/-- **C05.** An id returned by `add` reads back the added value, and stays in the store,
after any further history of operations that does not overwrite that very index. -/
theorem store_add_stable (w m : Nat) (hm : m ≤ w) (T : Type) (c : List T) (v : T)
    (h31 : c.length < 2 ^ 31) (hcap : c.length + 1 < 2 ^ (w - m)) :
    ∃ c1 id, Store.add w m c v = .ok (c1, id) ∧
      getIndex m id = .ok (BitVec.ofNat w c.length) ∧
      ∀ (ops : List (Store.Op T w)) c2, Store.run m c1 ops = .ok c2 →
        (∀ op ∈ ops, op.Avoids m c.length) →
        Store.at m c2 id = .ok v ∧ Store.contains m c2 id = .ok true := by
  refine ⟨_, _, Store.add_eq hm c v h31 hcap, getIndex_id hm (Nat.two_pow_pos m) hcap, ?_⟩
  intro ops c2 hrun hav
  have hget := Store.run_get ops hrun hav (v := v) (by simp)
  have hlt : c.length < c2.length := (List.getElem?_eq_some_iff.1 hget).1
  rw [Store.at_eq hm (Nat.two_pow_pos m) hcap h31, hget,
    Store.contains_eq hm (Nat.two_pow_pos m) hcap]
  simp [hlt]

/-- **C05, masked.** The same for `add` with a mask that fits. -/
theorem store_addMasked_stable (w m mask : Nat) (h0 : 0 < m) (h64 : m < 64) (hm : m ≤ w)
    (hmask : mask < 2 ^ m) (T : Type) (c : List T) (v : T)
    (h31 : c.length < 2 ^ 31) (hcap : c.length + 1 < 2 ^ (w - m)) :
    ∃ c1 id, Store.addMasked w m c v (BitVec.ofNat w mask) = .ok (c1, id) ∧
      getIndex m id = .ok (BitVec.ofNat w c.length) ∧ getMask m id = .ok (BitVec.ofNat w mask) ∧
      ∀ (ops : List (Store.Op T w)) c2, Store.run m c1 ops = .ok c2 →
        (∀ op ∈ ops, op.Avoids m c.length) →
        Store.at m c2 id = .ok v ∧ Store.contains m c2 id = .ok true := by
  refine ⟨_, _, Store.addMasked_eq h0 h64 hm hmask c v h31 hcap, getIndex_id hm hmask hcap,
    getMask_packed h0 hm hmask hcap, ?_⟩
  intro ops c2 hrun hav
  have hget := Store.run_get ops hrun hav (v := v) (by simp)
  have hlt : c.length < c2.length := (List.getElem?_eq_some_iff.1 hget).1
  rw [Store.at_eq hm hmask hcap h31, hget, Store.contains_eq hm hmask hcap]
  simp [hlt]

theorem Store.run_length {T : Type} {w m : Nat} (ops : List (Store.Op T w)) {c c' : List T}
    (h : Store.run m c ops = .ok c') : c.length ≤ c'.length := by
  induction ops generalizing c with
  | nil => cases h; omega
  | cons op ops ih =>
    simp only [Store.run, bind, Except.bind] at h
    split at h
    · cases h
    · rename_i c1 h1
      refine Nat.le_trans ?_ (ih h)
      cases op with
      | add x =>
        simp only [Store.step, bind, Except.bind] at h1
        split at h1
        · cases h1
        · rename_i r hr; cases h1; rw [Store.add_content hr]; simp
      | addMasked x mask =>
        simp only [Store.step, bind, Except.bind] at h1
        split at h1
        · cases h1
        · rename_i r hr; cases h1; rw [Store.addMasked_content hr]; simp
      | insert id x =>
        simp only [Store.step, Store.insert, bind, Except.bind] at h1
        split at h1
        · cases h1
        · split at h1
          · cases h1; simp
          · split at h1 <;> cases h1 <;> simp

/-- **C05, distinctness.** Two `add` calls in one history return different ids. -/
theorem store_ids_distinct (w m : Nat) (hm : m ≤ w) (T : Type) (c c1 c2 c3 : List T) (v v' : T)
    (id id' : BitVec w) (ops : List (Store.Op T w))
    (h1 : Store.add w m c v = .ok (c1, id)) (hrun : Store.run m c1 ops = .ok c2)
    (h2 : Store.add w m c2 v' = .ok (c3, id'))
    (h31 : c2.length < 2 ^ 31) (hcap : c2.length + 1 < 2 ^ (w - m)) : id ≠ id' := by
  have hl := Store.run_length ops hrun
  have hc1 := Store.add_content h1
  rw [hc1] at hl
  simp only [List.length_append, List.length_singleton] at hl
  rw [Store.add_eq hm c v (by omega) (by omega)] at h1
  rw [Store.add_eq hm c2 v' h31 hcap] at h2
  injection h1 with h1
  injection h2 with h2
  have e1 : packed w m 0 c.length = id := congrArg Prod.snd h1
  have e2 : packed w m 0 c2.length = id' := congrArg Prod.snd h2
  rw [← e1, ← e2]
  unfold packed
  intro he
  have := (packed_inj hm (Nat.two_pow_pos m) (Nat.two_pow_pos m)
    (by omega : c.length + 1 < 2 ^ (w - m)) hcap).1 he
  omega

/-- **C05, partial.** `at` accepts exactly the contained ids whose index is below 2^31.
Missing: larger indices, for which it is false. -/
theorem store_at_iff_partial (w m mask n : Nat) (hm : m ≤ w) (hmask : mask < 2 ^ m)
    (hn : n + 1 < 2 ^ (w - m)) (h31 : n < 2 ^ 31) (T : Type) (c : List T) :
    ((∃ v, Store.at m c (packed w m mask n) = .ok v) ↔
      Store.contains m c (packed w m mask n) = .ok true) ∧
    (Store.contains m c (packed w m mask n) = .ok true ↔ n < c.length) := by
  rw [Store.at_eq hm hmask hn h31, Store.contains_eq hm hmask hn]
  constructor
  · by_cases h : n < c.length
    · simp [h]
    · simp [h, List.getElem?_eq_none (Nat.le_of_not_lt h)]
  · simp

/-- Instance with a history: two adds, an overwrite and a masked add. -/
example : Store.run (T := String) (w := 64) 16 ["a", "b"]
    [.add "c", .insert (packed 64 16 0 1) "x", .addMasked "d" 9#64] = .ok ["a", "x", "c", "d"] := by
  decide +kernel

/-! ## C06 -/

variable {T : Type} [DecidableEq T]

/-- Invariant: the map lists the contents in order, without repetition, each with the
id of its index (with some mask). -/
structure Intern.Inv {w : Nat} (m : Nat) (s : Intern T w) : Prop where
  len : s.idMap.length = s.content.length
  fst : s.idMap.map (·.1) = s.content
  nodup : s.content.Nodup
  ids : ∀ n e, s.idMap[n]? = some e → ∃ mask, mask < 2 ^ m ∧ e.2 = packed w m mask n

/-- A mask argument of `add` fits the id type. -/
def MaskFits {w : Nat} (m : Nat) : Option (BitVec w) → Prop
  | none => True
  | some k => 0 < m ∧ m < 64 ∧ k.toNat < 2 ^ m

theorem Intern.find_some {w : Nat} {s : Intern T w} {v : T} {id : BitVec w}
    (h : s.find v = some id) : ∃ n : Nat, s.idMap[n]? = some (v, id) := by
  unfold Intern.find at h
  cases hf : s.idMap.find? (fun e => decide (e.1 = v)) with
  | none => rw [hf] at h; cases h
  | some e =>
    rw [hf] at h
    simp only [Option.map_some, Option.some.injEq] at h
    have h1 := List.find?_some hf
    have h2 := List.mem_of_find?_eq_some hf
    obtain ⟨n, hn⟩ := List.getElem?_of_mem h2
    refine ⟨n, ?_⟩
    rw [hn]
    simp only [decide_eq_true_eq] at h1
    rw [← h1, ← h]

theorem Intern.find_none {w : Nat} {s : Intern T w} {v : T} (h : s.find v = none) :
    v ∉ s.idMap.map (·.1) := by
  unfold Intern.find at h
  simp only [Option.map_eq_none_iff, List.find?_eq_none, decide_eq_true_eq] at h
  intro hm
  obtain ⟨e, he, rfl⟩ := List.mem_map.1 hm
  exact h e he rfl

theorem Intern.inv_find {w m : Nat} {s : Intern T w} (hs : s.Inv m) {v : T} {n : Nat}
    (hn : s.content[n]? = some v) : ∃ mask, mask < 2 ^ m ∧ s.find v = some (packed w m mask n) := by
  have hlt : n < s.content.length := (List.getElem?_eq_some_iff.1 hn).1
  have hm : v ∈ s.idMap.map (·.1) := by rw [hs.fst]; exact List.mem_of_getElem? hn
  cases hf : s.find v with
  | none => exact absurd hm (Intern.find_none hf)
  | some id =>
    obtain ⟨k, hk⟩ := Intern.find_some hf
    have hkc : s.content[k]? = some v := by
      rw [← hs.fst, List.getElem?_map, hk]; rfl
    have : k = n := by
      have hk2 : k < s.content.length := (List.getElem?_eq_some_iff.1 hkc).1
      exact (List.Nodup.getElem_inj_iff hs.nodup).1
        ((List.getElem?_eq_some_iff.1 hkc).2.trans (List.getElem?_eq_some_iff.1 hn).2.symm)
    subst this
    obtain ⟨mask, h1, h2⟩ := hs.ids k _ hk
    exact ⟨mask, h1, by rw [← h2]⟩

/-- One `add`: it returns normally, keeps the invariant and the old contents, and the
returned id is the one of the value's index. -/
theorem Intern.add_spec {w m : Nat} (hm : m ≤ w) {s : Intern T w} (hs : s.Inv m) (v : T)
    (mask : Option (BitVec w)) (hmask : MaskFits m mask) (h31 : s.content.length < 2 ^ 31)
    (hcap : s.content.length + 1 < 2 ^ (w - m)) :
    ∃ s' id, s.add m v mask = .ok (s', id) ∧ s'.Inv m ∧ s.content <+: s'.content ∧
      s'.content.length ≤ s.content.length + 1 ∧
      (v ∈ s.content → s' = s) ∧
      (∃ n : Nat, s'.content[n]? = some v) ∧ s'.find v = some id ∧
      (∀ u id', s.find u = some id' → s'.find u = some id') := by
  cases hf : s.find v with
  | some id =>
    obtain ⟨n, hn⟩ := Intern.find_some hf
    obtain ⟨k, hk, he⟩ := hs.ids n _ hn
    have hnl : n < s.content.length := by rw [← hs.len]; exact (List.getElem?_eq_some_iff.1 hn).1
    dsimp only at he
    subst he
    have hadd : Intern.add m s v mask = .ok (s, packed w m k n) := by
      simp only [Intern.add, hf, isNil_index hm hk (by omega : n + 1 < 2 ^ (w - m)), bind,
        Except.bind]
      rfl
    refine ⟨s, _, hadd, hs, List.prefix_refl _, by omega, fun _ => rfl, ⟨n, ?_⟩, hf,
      fun _ _ h => h⟩
    rw [← hs.fst, List.getElem?_map, hn]; rfl
  | none =>
    have hnot : v ∉ s.content := by rw [← hs.fst]; exact Intern.find_none hf
    have hstore : ∃ k, k < 2 ^ m ∧ Intern.add m s v mask
        = .ok (⟨s.idMap ++ [(v, packed w m k s.content.length)], s.content ++ [v]⟩,
            packed w m k s.content.length) := by
      cases mask with
      | none =>
        refine ⟨0, Nat.two_pow_pos m, ?_⟩
        simp only [Intern.add, hf, Store.add_eq hm _ _ h31 hcap, bind, Except.bind,
          isNil_index hm (Nat.two_pow_pos m) hcap]
        rfl
      | some k =>
        refine ⟨k.toNat, hmask.2.2, ?_⟩
        have := Store.addMasked_eq hmask.1 hmask.2.1 hm hmask.2.2 s.content v h31 hcap
        rw [BitVec.ofNat_toNat, BitVec.setWidth_eq] at this
        simp only [Intern.add, hf, this, bind, Except.bind, isNil_index hm hmask.2.2 hcap]
        rfl
    obtain ⟨k, hk, hst⟩ := hstore
    have hfnd : ∀ u, (Intern.find (w := w) ⟨s.idMap ++ [(v, packed w m k s.content.length)],
        s.content ++ [v]⟩ u) = (s.find u).or
          (if v = u then some (packed w m k s.content.length) else none) := by
      intro u
      unfold Intern.find
      dsimp only
      rw [List.find?_append]
      cases s.idMap.find? (fun e => decide (e.1 = u)) with
      | some e => simp
      | none =>
        by_cases hu : v = u <;> simp [hu]
    refine ⟨⟨s.idMap ++ [(v, packed w m k s.content.length)], s.content ++ [v]⟩, _, hst, ?_,
      List.prefix_append _ _, by simp, fun h => absurd h hnot,
      ⟨s.content.length, by simp⟩, ?_, ?_⟩
    · constructor
      · simp [hs.len]
      · simp [hs.fst]
      · dsimp only
        rw [List.nodup_append]
        refine ⟨hs.nodup, by simp, ?_⟩
        intro a ha b hb
        simp only [List.mem_singleton] at hb
        subst hb
        intro h; exact hnot (h ▸ ha)
      · intro n e he
        dsimp only at he
        by_cases hlt : n < s.idMap.length
        · rw [List.getElem?_append_left hlt] at he
          exact hs.ids n e he
        · rw [List.getElem?_append_right (Nat.le_of_not_lt hlt)] at he
          have h1 : n - s.idMap.length = 0 := by
            have := (List.getElem?_eq_some_iff.1 he).1
            simp at this; omega
          rw [h1] at he
          simp only [List.getElem?_cons_zero, Option.some.injEq] at he
          have h2 : n = s.content.length := by have := hs.len; omega
          exact ⟨k, hk, by rw [← he, h2]⟩
    · rw [hfnd, hf]; simp
    · intro u id' hu
      rw [hfnd, hu]; rfl

/-- **C06.** For every history of `add` calls (with masks that fit, and fewer of them than
the id type and `int` can count): all calls return normally; every returned id reads
back the value of its call at the end of the history; two returned ids are equal
exactly when their values are. -/
theorem intern_bijection (w m : Nat) (hm : m ≤ w) (hist : List (T × Option (BitVec w)))
    (hmask : ∀ e ∈ hist, MaskFits m e.2)
    (h31 : hist.length < 2 ^ 31) (hcap : hist.length < 2 ^ (w - m)) :
    ∃ (s : Intern T w) (ids : List (BitVec w)), Intern.adds m {} hist = .ok (s, ids) ∧ ids.length = hist.length ∧
      (∀ (i : Nat) e id, hist[i]? = some e → ids[i]? = some id → s.at m id = .ok e.1) ∧
      (∀ (i j : Nat) e e' id id', hist[i]? = some e → hist[j]? = some e' →
        ids[i]? = some id → ids[j]? = some id' → (id = id' ↔ e.1 = e'.1)) := by
  -- generalise over the initial state
  have key : ∀ (hist : List (T × Option (BitVec w))) (s : Intern T w), s.Inv m →
      (∀ e ∈ hist, MaskFits m e.2) →
      s.content.length + hist.length < 2 ^ 31 + 1 →
      s.content.length + hist.length < 2 ^ (w - m) →
      ∃ s' ids, Intern.adds m s hist = .ok (s', ids) ∧ s'.Inv m ∧
        ids.length = hist.length ∧ s'.content.length ≤ s.content.length + hist.length ∧
        (∀ u id, s.find u = some id → s'.find u = some id) ∧
        (∀ (i : Nat) e id, hist[i]? = some e → ids[i]? = some id → s'.find e.1 = some id) := by
    intro hist
    induction hist with
    | nil =>
      intro s hs _ _ _
      exact ⟨s, [], rfl, hs, rfl, by simp, fun _ _ h => h, by simp⟩
    | cons e rest ih =>
      intro s hs hmk hl1 hl2
      simp only [List.length_cons] at hl1 hl2
      obtain ⟨s1, id, hadd, hinv, hpre, hlen, -, -, hfind, hmono⟩ :=
        Intern.add_spec hm hs e.1 e.2 (hmk e (by simp)) (by omega) (by omega)
      obtain ⟨s2, ids, hrec, hinv2, hlen2, hsz, hmono2, hall⟩ :=
        ih s1 hinv (fun e he => hmk e (by simp [he])) (by omega) (by omega)
      refine ⟨s2, id :: ids, ?_, hinv2, by simp [hlen2], by simp only [List.length_cons]; omega,
        fun u i h => hmono2 u i (hmono u i h), ?_⟩
      · obtain ⟨v, mask⟩ := e
        simp only [Intern.adds, bind, Except.bind] at hadd hrec ⊢
        rw [hadd]
        dsimp only
        rw [hrec]
      · intro i e' id' h1 h2
        cases i with
        | zero =>
          simp only [List.getElem?_cons_zero, Option.some.injEq] at h1 h2
          subst h1 h2
          exact hmono2 _ _ hfind
        | succ i =>
          simp only [List.getElem?_cons_succ] at h1 h2
          exact hall i e' id' h1 h2
  have hinit : Intern.Inv (T := T) (w := w) m {} := ⟨rfl, rfl, List.nodup_nil, by simp⟩
  obtain ⟨s, ids, h1, hinv, h2, hsz, -, hall⟩ := key hist {} hinit hmask
    (by simpa using Nat.lt_succ_of_lt h31) (by simpa using hcap)
  simp only [List.length_nil, Nat.zero_add] at hsz
  have hat : ∀ v id, s.find v = some id → ∃ mask n, mask < 2 ^ m ∧ n < s.content.length ∧
      id = packed w m mask n ∧ s.content[n]? = some v := by
    intro v id hf
    obtain ⟨n, hn⟩ := Intern.find_some hf
    obtain ⟨mask, hk, he⟩ := hinv.ids n _ hn
    have hc : s.content[n]? = some v := by rw [← hinv.fst, List.getElem?_map, hn]; rfl
    exact ⟨mask, n, hk, (List.getElem?_eq_some_iff.1 hc).1, he, hc⟩
  refine ⟨s, ids, h1, h2, ?_, ?_⟩
  · intro i e id he hid
    obtain ⟨mask, n, hk, hn, rfl, hc⟩ := hat _ _ (hall i e id he hid)
    unfold Intern.at
    rw [Store.at_eq hm hk (by omega) (by omega), hc]
  · intro i j e e' id id' he he' hid hid'
    have f1 := hall i e id he hid
    have f2 := hall j e' id' he' hid'
    constructor
    · intro h
      subst h
      obtain ⟨mask, n, hk, hn, hp, hc⟩ := hat _ _ f1
      obtain ⟨mask', n', hk', hn', hp', hc'⟩ := hat _ _ f2
      rw [hp] at hp'
      unfold packed at hp'
      have := (packed_inj hm hk hk' (by omega) (by omega)).1 hp'
      have hnn : n = n' := by omega
      subst hnn
      rw [hc] at hc'
      exact Option.some.inj hc'
    · intro h
      rw [h, f2] at f1
      exact (Option.some.inj f1).symm

/-- Instance: values added several times, with and without masks. -/
example : (Intern.adds (T := String) (w := 64) 24 {}
    [("a", none), ("b", some 5#64), ("a", some 7#64), ("b", none), ("c", some 1#64)]).isOk = true ∧
    MaskFits (w := 64) 24 (some 7#64) := ⟨by decide +kernel, by decide, by decide, by decide +kernel⟩

/-- Adding a value again with another mask gives back the first id, with the first mask. -/
theorem intern_first_mask :
    (Intern.adds (T := String) (w := 64) 24 {} [("a", some 1#64), ("a", some 2#64)]).map (·.2)
      = .ok [packed 64 24 1 0, packed 64 24 1 0] := by decide +kernel

/-- `insert` breaks the bijection: overwriting an id leaves the old value registered
under it, so `contains` and `add` answer for a value that is no longer stored; inserting past the
end registers an id that cannot be read. -/
theorem intern_insert_false :
    ∃ s1 s2 : Intern String 64, ∃ id, Intern.add 24 {} "a" none = .ok (s1, id) ∧
      s1.insert 24 id "b" = .ok s2 ∧ s2.contains "a" = true ∧
      Intern.add 24 s2 "a" none = .ok (s2, id) ∧ s2.at 24 id = .ok "b" :=
  ⟨⟨[("a", packed 64 24 0 0)], ["a"]⟩, ⟨[("a", packed 64 24 0 0), ("b", packed 64 24 0 0)], ["b"]⟩,
    packed 64 24 0 0, rfl, rfl, rfl, rfl, by decide +kernel⟩

/-! ## C37 -/

/-- Invariant of the source manager. -/
structure SourceManager.Inv (s : SourceManager) : Prop where
  ids : s.pathIds = s.store.zipIdx.map fun e => (e.1.path, packed 32 0 0 e.2)
  nodup : (s.store.map (·.path)).Nodup

theorem SourceManager.getRight_none {s : SourceManager} (hs : s.Inv) {p : String}
    (h : s.getRight p = none) : p ∉ s.store.map (·.path) := by
  unfold SourceManager.getRight at h
  simp only [Option.map_eq_none_iff, List.find?_eq_none, decide_eq_true_eq] at h
  intro hm
  obtain ⟨f, hf, rfl⟩ := List.mem_map.1 hm
  obtain ⟨n, hn⟩ := List.getElem?_of_mem hf
  refine h (f.path, packed 32 0 0 n) ?_ rfl
  rw [hs.ids, List.mem_map]
  refine ⟨(f, n), ?_, rfl⟩
  rw [List.mem_iff_getElem?]
  exact ⟨n, by simp [hn]⟩

theorem SourceManager.getRight_some {s : SourceManager} (hs : s.Inv) {p : String} {id : BitVec 32}
    (h : s.getRight p = some id) :
    ∃ n f, s.store[n]? = some f ∧ f.path = p ∧ id = packed 32 0 0 n := by
  unfold SourceManager.getRight at h
  cases hf : s.pathIds.find? (fun e => decide (e.1 = p)) with
  | none => rw [hf] at h; cases h
  | some e =>
    rw [hf] at h
    simp only [Option.map_some, Option.some.injEq] at h
    have h1 := List.find?_some hf
    have h2 := List.mem_of_find?_eq_some hf
    rw [hs.ids, List.mem_map] at h2
    obtain ⟨⟨f, n⟩, hmem, rfl⟩ := h2
    rw [List.mem_zipIdx_iff_getElem?] at hmem
    exact ⟨n, f, hmem, by simpa using h1, h.symm⟩

theorem SourceManager.getRight_of_get {s : SourceManager} (hs : s.Inv) {n : Nat} {f : SourceFile}
    (h : s.store[n]? = some f) : s.getRight f.path = some (packed 32 0 0 n) := by
  cases hr : s.getRight f.path with
  | none =>
    exact absurd (List.mem_map.2 ⟨f, List.mem_of_getElem? h, rfl⟩) (SourceManager.getRight_none hs hr)
  | some id =>
    obtain ⟨k, g, hk, hp, rfl⟩ := SourceManager.getRight_some hs hr
    have hk' : (s.store.map (·.path))[k]? = some f.path := by rw [List.getElem?_map, hk]; simp [hp]
    have hn' : (s.store.map (·.path))[n]? = some f.path := by rw [List.getElem?_map, h]; rfl
    have : k = n := by
      have a := (List.getElem?_eq_some_iff.1 hk')
      have b := (List.getElem?_eq_some_iff.1 hn')
      exact (List.Nodup.getElem_inj_iff hs.nodup).1 (a.2.trans b.2.symm)
    rw [this]

theorem SourceManager.getLeft_of_get {s : SourceManager} (hs : s.Inv) (h31 : s.store.length < 2 ^ 31)
    {n : Nat} {f : SourceFile} (h : s.store[n]? = some f) :
    s.getLeft (packed 32 0 0 n) = some f.path := by
  have hlt := (List.getElem?_eq_some_iff.1 h).1
  unfold SourceManager.getLeft
  have hmem : (f.path, packed 32 0 0 n) ∈ s.pathIds := by
    rw [hs.ids, List.mem_map]
    exact ⟨(f, n), by rw [List.mem_zipIdx_iff_getElem?]; exact h, rfl⟩
  cases hf : s.pathIds.find? (fun e => decide (e.2 = packed 32 0 0 n)) with
  | none =>
    rw [List.find?_eq_none] at hf
    exact absurd (by simp) (hf _ hmem)
  | some e =>
    have h1 := List.find?_some hf
    have h2 := List.mem_of_find?_eq_some hf
    rw [hs.ids, List.mem_map] at h2
    obtain ⟨⟨g, k⟩, hg, rfl⟩ := h2
    rw [List.mem_zipIdx_iff_getElem?] at hg
    dsimp only at hg
    have hk := (List.getElem?_eq_some_iff.1 hg).1
    simp only [decide_eq_true_eq] at h1
    unfold packed at h1
    have := (packed_inj (w := 32) (m := 0) (Nat.zero_le _) (by decide) (by decide)
      (show k + 1 < 2 ^ (32 - 0) by omega) (show n + 1 < 2 ^ (32 - 0) by omega)).1 h1
    have hkn : k = n := by omega
    subst hkn
    rw [h] at hg
    cases hg
    rfl

theorem SourceManager.getLeft_fresh {s : SourceManager} (hs : s.Inv)
    (h31 : s.store.length < 2 ^ 31) : s.getLeft (packed 32 0 0 s.store.length) = none := by
  unfold SourceManager.getLeft
  simp only [Option.map_eq_none_iff, List.find?_eq_none, decide_eq_true_eq]
  intro e he h
  rw [hs.ids, List.mem_map] at he
  obtain ⟨⟨g, k⟩, hg, rfl⟩ := he
  rw [List.mem_zipIdx_iff_getElem?] at hg
  dsimp only at hg
  have hk := (List.getElem?_eq_some_iff.1 hg).1
  unfold packed at h
  have := (packed_inj (w := 32) (m := 0) (Nat.zero_le _) (by decide) (by decide)
    (show k + 1 < 2 ^ (32 - 0) by omega) (show s.store.length + 1 < 2 ^ (32 - 0) by omega)).1 h
  omega

theorem SourceManager.store_at {s : SourceManager} (h31 : s.store.length < 2 ^ 31) {n : Nat}
    {f : SourceFile} (h : s.store[n]? = some f) : Store.at 0 s.store (packed 32 0 0 n) = .ok f := by
  have hlt := (List.getElem?_eq_some_iff.1 h).1
  rw [Store.at_eq (Nat.zero_le _) (by decide) (by omega : n + 1 < 2 ^ (32 - 0)) (by omega), h]

/-- Outcome of one `addSource` call in a reachable state. -/
theorem SourceManager.addSource_spec {s : SourceManager} (hs : s.Inv) (h31 : s.store.length < 2 ^ 31)
    (path content : String) :
    (∃ n f, s.store[n]? = some f ∧ f.path = path ∧
      s.addSource path content =
        if f.content = content then .ok (s, packed 32 0 0 n) else .error .assertion) ∨
    (path ∉ s.store.map (·.path) ∧ ∃ s', s.addSource path content = .ok (s', packed 32 0 0 s.store.length) ∧
      s'.store = s.store ++ [⟨path, content⟩] ∧ s'.Inv) := by
  cases hr : s.getRight path with
  | some id =>
    left
    obtain ⟨n, f, hn, hp, rfl⟩ := SourceManager.getRight_some hs hr
    refine ⟨n, f, hn, hp, ?_⟩
    simp only [SourceManager.addSource, SourceManager.sameContent, hr,
      SourceManager.store_at h31 hn, bind, Except.bind]
    by_cases hc : f.content = content <;> simp [hc]
  | none =>
    right
    have hnot := SourceManager.getRight_none hs hr
    refine ⟨hnot, ⟨s.store ++ [⟨path, content⟩], s.pathIds ++ [(path, packed 32 0 0 s.store.length)]⟩, ?_, rfl, ?_⟩
    · simp only [SourceManager.addSource, SourceManager.sameContent, hr, bind, Except.bind]
      rw [Store.add_eq (Nat.zero_le _) _ _ h31 (by omega)]
      simp [SourceManager.getLeft_fresh hs h31]
    · constructor
      · simp [hs.ids, List.zipIdx_append]
      · dsimp only
        rw [List.map_append, List.nodup_append]
        refine ⟨hs.nodup, by simp, ?_⟩
        intro a ha b hb
        simp only [List.map_cons, List.map_nil, List.mem_singleton] at hb
        subst hb
        intro h; exact hnot (h ▸ ha)

theorem SourceManager.run_inv (ops : List (String × String)) :
    ∀ s : SourceManager, s.Inv → s.store.length + ops.length < 2 ^ 31 →
      (SourceManager.run s ops).Inv ∧ s.store <+: (SourceManager.run s ops).store ∧
      (SourceManager.run s ops).store.length ≤ s.store.length + ops.length := by
  induction ops with
  | nil => intro s hs _; exact ⟨hs, List.prefix_refl _, by simp [SourceManager.run]⟩
  | cons op ops ih =>
    intro s hs hl
    simp only [List.length_cons] at hl
    have hstep : (SourceManager.step s op).Inv ∧ s.store <+: (SourceManager.step s op).store ∧
        (SourceManager.step s op).store.length ≤ s.store.length + 1 := by
      unfold SourceManager.step
      rcases SourceManager.addSource_spec hs (by omega) op.1 op.2 with
        ⟨n, f, -, -, he⟩ | ⟨-, s', he, hst, hinv⟩
      · rw [he]
        split
        · rename_i s1 id hx
          split at hx
          · cases hx; exact ⟨hs, List.prefix_refl _, by omega⟩
          · cases hx
        · exact ⟨hs, List.prefix_refl _, by omega⟩
      · rw [he]
        dsimp only
        exact ⟨hinv, by rw [hst]; exact List.prefix_append _ _, by rw [hst]; simp⟩
    obtain ⟨h1, h2, h3⟩ := ih _ hstep.1 (by omega)
    exact ⟨h1, hstep.2.1.trans h2, by simp only [SourceManager.run, List.foldl_cons, List.length_cons] at h3 ⊢; omega⟩

/-- **C37.** In the state reached by any history of `addSource` calls (some of which may
have been rejected): if `addSource path content` returns an id, then after any further
history the id names that path and content, the path names that id, registering the same path and
content again returns the same id, and registering other content under the path is
rejected. -/
theorem source_registry (before after : List (String × String)) (path content : String)
    (s' : SourceManager) (id : BitVec 32)
    (hlen : before.length + 1 + after.length < 2 ^ 31)
    (hadd : (SourceManager.run {} before).addSource path content = .ok (s', id)) :
    let s := SourceManager.run s' after
    s.getPath id = .ok path ∧ s.getId path = .ok id ∧ s.getSourceContent id = .ok content ∧
      s.getContentTextForPath path = .ok content ∧
      s.addSource path content = .ok (s, id) ∧
      ∀ other, other ≠ content → s.addSource path other = .error .assertion := by
  intro s
  have hinit : SourceManager.Inv {} := ⟨rfl, by simp⟩
  obtain ⟨hb, -, hbl⟩ := SourceManager.run_inv before {} hinit (by simp; omega)
  simp only [List.length_nil, Nat.zero_add] at hbl
  have hs' : s'.Inv ∧ s'.store.length ≤ before.length + 1 ∧
      ∃ n, s'.store[n]? = some ⟨path, content⟩ ∧ id = packed 32 0 0 n := by
    rcases SourceManager.addSource_spec hb (by omega) path content with
      ⟨n, f, hn, hp, he⟩ | ⟨-, s1, he, hst, hinv⟩
    · rw [he] at hadd
      split at hadd
      · rename_i hc
        cases hadd
        exact ⟨hb, by omega, n, by rw [hn, ← hp, ← hc], rfl⟩
      · cases hadd
    · rw [he] at hadd
      cases hadd
      exact ⟨hinv, by rw [hst]; simp; omega, _, by rw [hst]; simp, rfl⟩
  obtain ⟨hinv', hlen', n, hn, rfl⟩ := hs'
  obtain ⟨hi, hpre, hl⟩ := SourceManager.run_inv after s' hinv' (by omega)
  have hn2 : s.store[n]? = some ⟨path, content⟩ := by
    obtain ⟨t, ht⟩ := hpre
    change (SourceManager.run s' after).store[n]? = _
    rw [← ht, List.getElem?_append_left (List.getElem?_eq_some_iff.1 hn).1, hn]
  have h31 : s.store.length < 2 ^ 31 := by
    change (SourceManager.run s' after).store.length < _
    omega
  have hr := SourceManager.getRight_of_get hi hn2
  have hat := SourceManager.store_at h31 hn2
  dsimp only at hr
  change s.getRight path = _ at hr
  have hlft := SourceManager.getLeft_of_get hi h31 hn2
  change s.getLeft _ = _ at hlft
  refine ⟨?_, ?_, ?_, ?_, ?_, ?_⟩
  · simp [SourceManager.getPath, hlft]
  · simp [SourceManager.getId, hr]
  · simp [SourceManager.getSourceContent, hat, bind, Except.bind]
  · simp [SourceManager.getContentTextForPath, SourceManager.getId, hr, hat, bind, Except.bind]
  · simp [SourceManager.addSource, SourceManager.sameContent, hr, hat, bind, Except.bind]
  · intro other ho
    simp [SourceManager.addSource, SourceManager.sameContent, hr, hat, bind, Except.bind, Ne.symm ho]

/-- Instance: a history with a repeated and a rejected registration. -/
example : SourceManager.run {} [("a", "x"), ("b", "y"), ("a", "x"), ("a", "z")] =
    { store := [⟨"a", "x"⟩, ⟨"b", "y"⟩],
      pathIds := [("a", packed 32 0 0 0), ("b", packed 32 0 0 1)] } := by decide +kernel

end Verif.Dod
