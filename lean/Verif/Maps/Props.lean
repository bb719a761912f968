import Verif.Maps.Model
import Mathlib.Data.List.Nodup
import Mathlib.Data.List.Sort
import Mathlib.Tactic.SplitIfs

/-!
# Maps

* **C188** `maps_function` – after any history a map is the function from keys to values that the operations describe, and each
  operation gives what it says: a value, nothing, or an exception.
* **C189** `hash_content` – maps with the same pairs have the same hash, whatever their histories and their order.
-/

namespace Verif.Maps

variable {K V : Type} [DecidableEq K]

/-! ## Specification: a function -/

/-- A call of a map. -/
inductive Op (K V : Type) where
  | assign (k : K) (v : V)
  | getOrInsert (k : K) (v : V)
  | insertUnique (k : K) (v : V)
  | pop (k : K)
  | get (k : K)
  | look (k : K)
  | contains (k : K)

/-- What a call gives. -/
inductive Res (V : Type) where
  | done
  | throws
  | value (v : V)
  | maybe (v : Option V)
  | answer (b : Bool)

/-- `f` with another value for a key. -/
def put (f : K → Option V) (k : K) (v : Option V) : K → Option V := fun x => if x = k then v else f x

/-- What the calls do to a function from keys to values. -/
def meaning (f : K → Option V) : Op K V → (K → Option V) × Res V
  | .assign k v => (put f k (some v), .done)
  | .getOrInsert k v =>
    match f k with
    | some w => (f, .value w)
    | none => (put f k (some v), .value v)
  | .insertUnique k v =>
    match f k with
    | some _ => (f, .throws)
    | none => (put f k (some v), .done)
  | .pop k => (put f k none, .maybe (f k))
  | .get k => (f, .maybe (f k))
  | .look k => (f, match f k with | some v => .value v | none => .throws)
  | .contains k => (f, .answer (f k).isSome)

/-- The function and the results after a history. -/
def meanings : (K → Option V) → List (Op K V) → (K → Option V) × List (Res V)
  | f, [] => (f, [])
  | f, o :: os => ((meanings (meaning f o).1 os).1, (meaning f o).2 :: (meanings (meaning f o).1 os).2)

/-! ## The map -/

/-- A call of the map. -/
def step (s : List (K × V)) : Op K V → List (K × V) × Res V
  | .assign k v => (insertOrAssign s k v, .done)
  | .getOrInsert k v => ((getOrInsert s k v).1, match (getOrInsert s k v).2 with | some w => .value w | none => .throws)
  | .insertUnique k v => match insertUnique s k v with | some s => (s, .done) | none => (s, .throws)
  | .pop k => ((popOpt s k).1, .maybe (popOpt s k).2)
  | .get k => (s, .maybe (get s k))
  | .look k => (s, match at? s k with | some v => .value v | none => .throws)
  | .contains k => (s, .answer (contains s k))

def steps : List (K × V) → List (Op K V) → List (K × V) × List (Res V)
  | s, [] => (s, [])
  | s, o :: os => ((steps (step s o).1 os).1, (step s o).2 :: (steps (step s o).1 os).2)

/-- The pairs of a map are those of a function. -/
def Agree (s : List (K × V)) (f : K → Option V) : Prop := (s.map Prod.fst).Nodup ∧ ∀ k v, (k, v) ∈ s ↔ f k = some v

theorem agree_at {s : List (K × V)} {f : K → Option V} (h : Agree s f) (k : K) : at? s k = f k := by
  unfold at?
  split
  · rename_i p hp
    have h1 := List.find?_some hp
    have h2 := List.mem_of_find?_eq_some hp
    simp only [decide_eq_true_eq] at h1
    rw [← h1]
    exact ((h.2 p.1 p.2).mp h2).symm
  · rename_i hp
    cases hf : f k with
    | none => rfl
    | some v =>
      have := (h.2 k v).mpr hf
      have := List.find?_eq_none.mp hp _ this
      simp at this

theorem agree_contains {s : List (K × V)} {f : K → Option V} (h : Agree s f) (k : K) : contains s k = (f k).isSome := by
  unfold contains
  rw [Bool.eq_iff_iff, List.any_eq_true, Option.isSome_iff_exists]
  constructor
  · rintro ⟨p, hp, e⟩
    simp only [decide_eq_true_eq] at e
    subst e
    exact ⟨p.2, (h.2 _ _).mp hp⟩
  · rintro ⟨v, hv⟩
    exact ⟨(k, v), (h.2 _ _).mpr hv, by simp⟩

theorem agree_get {s : List (K × V)} {f : K → Option V} (h : Agree s f) (k : K) : get s k = f k := by
  unfold get
  rw [agree_contains h, agree_at h]
  cases f k <;> rfl

theorem agree_assign {s : List (K × V)} {f : K → Option V} (h : Agree s f) (k : K) (v : V) : Agree (insertOrAssign s k v) (put f k (some v)) := by
  unfold insertOrAssign
  split_ifs with hc
  · constructor
    · have : (s.map fun p => if p.1 = k then (p.1, v) else p).map Prod.fst = s.map Prod.fst := by
        rw [List.map_map]
        apply List.map_congr_left
        intro p _
        dsimp only [Function.comp]
        split_ifs <;> rfl
      rw [this]
      exact h.1
    · intro x w
      rw [List.mem_map]
      unfold put
      constructor
      · rintro ⟨p, hp, e⟩
        split_ifs at e with hk
        · injection e with e1 e2
          subst e1 e2
          rw [if_pos hk]
        · subst e
          dsimp only at hk
          rw [if_neg hk]
          exact (h.2 _ _).mp hp
      · intro hx
        split_ifs at hx with hk
        · injection hx with hx
          subst hx hk
          rw [agree_contains h, Option.isSome_iff_exists] at hc
          obtain ⟨w, hw⟩ := hc
          exact ⟨(x, w), (h.2 _ _).mpr hw, by simp⟩
        · exact ⟨(x, w), (h.2 _ _).mpr hx, by simp [hk]⟩
  · rw [agree_contains h] at hc
    have hn : f k = none := by simpa using hc
    constructor
    · rw [List.map_append, List.nodup_append]
      refine ⟨h.1, by simp, ?_⟩
      intro a ha b hb
      simp only [List.map_cons, List.map_nil, List.mem_cons, List.not_mem_nil, or_false] at hb
      subst hb
      rintro rfl
      obtain ⟨p, hp, rfl⟩ := List.mem_map.mp ha
      have := (h.2 p.1 p.2).mp hp
      rw [hn] at this
      cases this
    · intro x w
      unfold put
      rw [List.mem_append, h.2]
      by_cases hx : x = k
      · subst hx
        simp [hn, eq_comm]
      · simp [hx]

theorem agree_erase {s : List (K × V)} {f : K → Option V} (h : Agree s f) (k : K) : Agree (erase s k) (put f k none) := by
  unfold erase
  constructor
  · exact h.1.sublist (List.Sublist.map _ List.filter_sublist)
  · intro x w
    rw [List.mem_filter, h.2]
    unfold put
    by_cases hx : x = k
    · simp [hx]
    · simp [hx]

theorem put_self (f : K → Option V) (k : K) (v : Option V) (h : f k = v) : put f k v = f := by
  funext x
  unfold put
  split_ifs with e
  · rw [e, h]
  · rfl

theorem put_same (f : K → Option V) (k : K) (v : Option V) : put f k v k = v := by simp [put]

theorem step_agree {s : List (K × V)} {f : K → Option V} (h : Agree s f) (o : Op K V) :
    Agree (step s o).1 (meaning f o).1 ∧ (step s o).2 = (meaning f o).2 := by
  cases o with
  | assign k v => exact ⟨agree_assign h k v, rfl⟩
  | getOrInsert k v =>
    unfold step meaning getOrInsert
    dsimp only
    rw [agree_contains h]
    cases hf : f k with
    | some w =>
      simp only [Option.isSome_some, if_true]
      refine ⟨h, ?_⟩
      rw [agree_at h, hf]
    | none =>
      simp only [Option.isSome_none, Bool.false_eq_true, if_false]
      refine ⟨agree_assign h k v, ?_⟩
      rw [agree_at (agree_assign h k v), put_same]
  | insertUnique k v =>
    unfold step meaning insertUnique
    dsimp only
    rw [agree_contains h]
    cases hf : f k with
    | some w => exact ⟨h, rfl⟩
    | none => exact ⟨agree_assign h k v, rfl⟩
  | pop k =>
    unfold step meaning popOpt
    dsimp only
    rw [agree_get h]
    refine ⟨?_, rfl⟩
    cases hf : f k with
    | some w => exact agree_erase h k
    | none =>
      rw [put_self f k none hf]
      exact h
  | get k => exact ⟨h, by unfold step meaning; dsimp only; rw [agree_get h]⟩
  | look k => exact ⟨h, by unfold step meaning; dsimp only; rw [agree_at h]⟩
  | contains k => exact ⟨h, by unfold step meaning; dsimp only; rw [agree_contains h]⟩

theorem steps_agree (os : List (Op K V)) (s : List (K × V)) (f : K → Option V) (h : Agree s f) :
    Agree (steps s os).1 (meanings f os).1 ∧ (steps s os).2 = (meanings f os).2 := by
  induction os generalizing s f with
  | nil => exact ⟨h, rfl⟩
  | cons o os ih =>
    obtain ⟨h1, h2⟩ := step_agree h o
    obtain ⟨h3, h4⟩ := ih _ _ h1
    exact ⟨h3, by rw [steps, meanings, h2, h4]⟩

theorem agree_nil : Agree ([] : List (K × V)) (fun _ => none) := ⟨List.nodup_nil, by simp⟩

/-- **C188** After any history all results are those of the function, the keys are those with a value, each once, and the values
stand at the positions of their keys. -/
theorem maps_function (os : List (Op K V)) :
    let f := (meanings (fun _ => none) os).1
    let s := (steps [] os).1
    (steps [] os).2 = (meanings (fun _ => none) os).2 ∧ (∀ k, get s k = f k) ∧ (keys s).Nodup ∧ (∀ k, k ∈ keys s ↔ f k ≠ none) ∧
      (keys s).map f = (values s).map some := by
  obtain ⟨h, e⟩ := steps_agree os [] (fun _ => none) agree_nil
  refine ⟨e, fun k => agree_get h k, h.1, ?_, ?_⟩
  · intro k
    unfold keys
    rw [List.mem_map]
    constructor
    · rintro ⟨p, hp, rfl⟩
      rw [(h.2 p.1 p.2).mp hp]
      simp
    · intro hk
      obtain ⟨v, hv⟩ := Option.ne_none_iff_exists'.mp hk
      exact ⟨(k, v), (h.2 _ _).mpr hv, rfl⟩
  · unfold keys values
    rw [List.map_map, List.map_map]
    apply List.map_congr_left
    intro p hp
    exact (h.2 p.1 p.2).mp hp

/-! ## Hashes -/

theorem sorted_eq (a b : List UInt64) (h : a.Perm b) :
    a.mergeSort (fun a b => decide (a.toNat ≤ b.toNat)) = b.mergeSort (fun a b => decide (a.toNat ≤ b.toNat)) := by
  have hp : ∀ l : List UInt64, (l.mergeSort (fun a b => decide (a.toNat ≤ b.toNat))).Pairwise (fun a b => a.toNat ≤ b.toNat) := by
    intro l
    have := List.pairwise_mergeSort (le := fun a b : UInt64 => decide (a.toNat ≤ b.toNat)) (by simp; omega) (by simp; omega) l
    simpa using this
  refine List.Perm.eq_of_pairwise ?_ (hp a) (hp b) ((List.mergeSort_perm a _).trans (h.trans (List.mergeSort_perm b _).symm))
  intro x y _ _ h1 h2
  exact UInt64.toNat_inj.mp (Nat.le_antisymm h1 h2)

theorem hash_perm (hk : K → UInt64) (hv : V → UInt64) (hs : UInt64 → UInt64) (s t : List (K × V)) (h : s.Perm t) :
    hash hk hv hs s = hash hk hv hs t := by
  unfold hash
  dsimp only
  rw [sorted_eq _ _ (h.map _)]

theorem agree_perm {s t : List (K × V)} {f : K → Option V} (hs : Agree s f) (ht : Agree t f) : s.Perm t := by
  apply (List.perm_ext_iff_of_nodup (List.Nodup.of_map _ hs.1) (List.Nodup.of_map _ ht.1)).mpr
  rintro ⟨k, v⟩
  rw [hs.2, ht.2]

/-- **C189** Two maps that give the same value for each key have the same hash, whatever was done to them and in which order their
pairs are. -/
theorem hash_content (hk : K → UInt64) (hv : V → UInt64) (hs : UInt64 → UInt64) (os os' : List (Op K V)) (s s' : List (K × V))
    (h : s.Perm (steps [] os).1) (h' : s'.Perm (steps [] os').1) (e : ∀ k, get s k = get s' k) : hash hk hv hs s = hash hk hv hs s' := by
  have perm : ∀ {s t : List (K × V)} {f : K → Option V}, s.Perm t → Agree t f → Agree s f := fun p a =>
    ⟨(p.map _).nodup_iff.mpr a.1, fun k v => by rw [p.mem_iff, a.2]⟩
  have a := perm h (steps_agree os [] (fun _ => none) agree_nil).1
  have a' := perm h' (steps_agree os' [] (fun _ => none) agree_nil).1
  have ef : (meanings (fun _ => none) os).1 = (meanings (fun _ => none) os').1 := by
    funext k
    rw [← agree_get a, ← agree_get a', e]
  rw [ef] at a
  exact hash_perm _ _ _ _ _ (agree_perm a a')

example : (steps [] [Op.assign 1 "a", .assign 2 "b", .pop 1, .getOrInsert 2 "c", .insertUnique 1 "d", .assign 2 "e"]).1 = [(2, "e"), (1, "d")] := by decide

end Verif.Maps
