import Verif.Serde.Round

/-!
# C97: values survive the JSON form

`Has env true ty v`: `v` is a value of the type; `Has env false ty v` leaves out the values named in Spec.lean.
-/

namespace Verif.Serde

/-- What is read after writing the value: `from_json(to_json(v))` -/
def Returns (env : Env) (ty : Ty) (v v' : Val) : Prop :=
  ∃ n0, ∀ n, n0 ≤ n → ∃ j, toN env n ty v = .ok j ∧ fromN env n ty j = .ok v'

theorem Returns.unique {env : Env} {ty : Ty} {v v' v'' : Val} (h : Returns env ty v v') (h' : Returns env ty v v'') : v' = v'' := by
  obtain ⟨n, hn⟩ := h
  obtain ⟨m, hm⟩ := h'
  obtain ⟨p, h1, h2⟩ := hn (max n m) (by omega)
  obtain ⟨q, h3, h4⟩ := hm (max n m) (by omega)
  rw [h1] at h3
  injection h3 with h3
  subst h3
  rw [h2] at h4
  injection h4

/-- The full property: every value comes back. -/
def JsonStatement : Prop := ∀ (env : Env) (ty : Ty) (v : Val), Has env true ty v → Returns env ty v v

/-- What holds: the values of all types come back, but for those left out in `Has env false`. -/
theorem json_round_trip_partial (env : Env) (ty : Ty) (v : Val) (h : Has env false ty v) : Returns env ty v v := by
  obtain ⟨n0, h0⟩ := round env ty v h
  refine ⟨n0, fun n hn => ?_⟩
  obtain ⟨j, h1, h2, _⟩ := h0 n hn
  exact ⟨j, h1, h2⟩

/-- Different values have different JSON forms. -/
theorem json_injective (env : Env) (ty : Ty) (v v' : Val) (h : Has env false ty v) (h' : Has env false ty v')
    (he : ∃ n0, ∀ n, n0 ≤ n → toN env n ty v = toN env n ty v') : v = v' := by
  obtain ⟨n, hn⟩ := json_round_trip_partial env ty v h
  obtain ⟨m, hm⟩ := json_round_trip_partial env ty v' h'
  obtain ⟨k, hk⟩ := he
  have e := hk (max k (max n m)) (by omega)
  obtain ⟨p, h1, h2⟩ := hn (max k (max n m)) (by omega)
  obtain ⟨q, h3, h4⟩ := hm (max k (max n m)) (by omega)
  rw [h1, h3] at e
  injection e with e
  subst e
  rw [h2] at h4
  injection h4

/-! ## Where it fails -/

/-- A record with an optional field that is five by default, written by `JsonSerdeDescribedRecordBaseEx`, and a recursive record. -/
def demo : Env where
  recd := fun r =>
    if r = 0 then ⟨[("width", .opt .flt), ("limit", .opt (.int true 32))], [("width", .null), ("limit", .some (.int 5))], true⟩
    else ⟨[("name", .str), ("kind", .enum ["A", "B"]), ("range", .slice (.int true 32) (.int true 32)), ("sub", .vec (.record 1)),
        ("ids", .map .immId (.opt .str)), ("parent", .opt (.record 0))],
      [("name", .str ""), ("kind", .enum 0), ("range", .pair (.int 0) (.int 0)), ("sub", .list []), ("ids", .map []), ("parent", .null)], false⟩
  readable := fun i => toString i

theorem value_of_returns {env : Env} {ty : Ty} {v v' : Val} (k : Nat)
    (h : ∀ n, ∃ j, toN env (n + k) ty v = .ok j ∧ fromN env (n + k) ty j = .ok v') : Returns env ty v v' :=
  ⟨k, fun n hn => by
    obtain ⟨m, rfl⟩ : ∃ m, n = m + k := ⟨n - k, by omega⟩
    exact h m⟩

/-- An optional that holds an empty optional comes back empty. -/
theorem nested_optional_lost (env : Env) (t : Ty) : Has env true (.opt (.opt t)) (.some .null) ∧
    Returns env (.opt (.opt t)) (.some .null) .null := by
  refine ⟨.some _ _ (.none t) (Or.inl rfl), value_of_returns 2 fun n => ⟨.null, rfl, ?_⟩⟩
  simp only [fromN, if_true]

/-- The elements of an immutable set are dropped by reading. -/
theorem imm_set_lost (env : Env) : Has env true (.immSet .bool) (.list [.bool true]) ∧
    Returns env (.immSet .bool) (.list [.bool true]) (.list []) :=
  ⟨.immSet _ _ (by decide) (Or.inl rfl) (by simpa using Has.bool true), value_of_returns 2 fun _ => ⟨_, rfl, rfl⟩⟩

/-- So are the entries of an immutable map. -/
theorem imm_map_lost (env : Env) : Has env true (.immMap .str .bool) (.map [(.str "a", .bool true)]) ∧
    Returns env (.immMap .str .bool) (.map [(.str "a", .bool true)]) (.map []) := by
  refine ⟨.immMap _ _ _ (by decide) (Or.inl rfl) ?_ ?_, value_of_returns 2 fun _ => ⟨_, rfl, rfl⟩⟩
  · intro k v h
    simp only [List.mem_singleton, Prod.mk.injEq] at h
    rw [h.1]
    exact .str "a"
  · intro k v h
    simp only [List.mem_singleton, Prod.mk.injEq] at h
    rw [h.2]
    exact .bool true

/-- Reading a variant does not return properly, whatever the JSON value is. -/
theorem variant_undefined (env : Env) (l : List Ty) (j : Json) (n : Nat) : fromN env (n + 1) (.variant l) j = .error .undef := rfl

/-- A string constant is read as the null pointer. -/
theorem cstr_lost (env : Env) (s : String) : Has env true .cstr (.str s) ∧ Returns env .cstr (.str s) .null :=
  ⟨.cstr s rfl, value_of_returns 1 fun _ => ⟨_, rfl, rfl⟩⟩

/-- An empty field that is left out comes back with its default. -/
theorem default_comes_back : Has demo true (.record 0) (.record [("width", .null), ("limit", .null)]) ∧
    Returns demo (.record 0) (.record [("width", .null), ("limit", .null)]) (.record [("width", .null), ("limit", .some (.int 5))]) := by
  refine ⟨.record 0 _ (by decide) rfl rfl ?_ (Or.inl rfl), value_of_returns 3 fun _ => ⟨_, rfl, rfl⟩⟩
  intro f t v hf hv
  have : v = .null := by
    simp only [List.mem_cons, Prod.mk.injEq, List.not_mem_nil, or_false] at hv
    rcases hv with h | h <;> exact h.2
  subst this
  simp only [demo, if_true, List.mem_cons, Prod.mk.injEq, List.not_mem_nil, or_false] at hf
  rcases hf with ⟨_, h⟩ | ⟨_, h⟩ <;> (rw [h]; exact .none _)

theorem json_false : ¬ JsonStatement := by
  intro h
  obtain ⟨h1, h2⟩ := imm_set_lost demo
  have := (h demo _ _ h1).unique h2
  simp at this

/-! ## A value that comes back -/

/-- A record with an enumerator, a range, records in it, a map with optionals, and a record with fields left out. -/
def leaf : Val :=
  .record [("name", .str "leaf"), ("kind", .enum 1), ("range", .pair (.int (-2)) (.int 7)), ("sub", .list []),
    ("ids", .map [(.int 3, .some (.str "x")), (.int 4, .null)]),
    ("parent", .some (.record [("width", .null), ("limit", .some (.int 9))]))]

def root : Val :=
  .record [("name", .str "root"), ("kind", .enum 0), ("range", .pair (.int 0) (.int 1)), ("sub", .list [leaf, leaf]), ("ids", .map []), ("parent", .null)]

theorem demo_inner : Has demo false (.record 0) (.record [("width", .null), ("limit", .some (.int 9))]) := by
  refine .record 0 _ (by decide) rfl rfl ?_ (Or.inr (Or.inr ?_))
  · intro f t v hf hv
    simp only [demo, if_true, List.mem_cons, Prod.mk.injEq, List.not_mem_nil, or_false] at hf hv
    rcases hf with ⟨rfl, rfl⟩ | ⟨rfl, rfl⟩ <;> rcases hv with ⟨h, rfl⟩ | ⟨h, rfl⟩ <;>
      first
      | exact absurd h (by decide)
      | exact .none _
      | exact .some _ _ (.int true 32 9 (by unfold InRange; decide)) (Or.inr (by simp))
  · intro f v hv hn
    simp only [List.mem_cons, Prod.mk.injEq, List.not_mem_nil, or_false] at hv
    rcases hv with ⟨rfl, rfl⟩ | ⟨rfl, rfl⟩
    · simp [demo]
    · simp at hn

theorem demo_record (name : String) (k : Nat) (hk : k < 2) (a b : Int) (ha : InRange true 32 a) (hb : InRange true 32 b) (sub : List Val)
    (hs : ∀ v ∈ sub, Has demo false (.record 1) v) (ids : List (Val × Val)) (hi : Has demo false (.map .immId (.opt .str)) (.map ids))
    (p : Val) (hp : Has demo false (.opt (.record 0)) p) :
    Has demo false (.record 1) (.record [("name", .str name), ("kind", .enum k), ("range", .pair (.int a) (.int b)), ("sub", .list sub),
      ("ids", .map ids), ("parent", p)]) := by
  refine .record 1 _ (by decide) rfl rfl ?_ (Or.inr (Or.inl rfl))
  intro f t v hf hv
  simp only [demo, List.mem_cons, Prod.mk.injEq, List.not_mem_nil, or_false, Nat.one_ne_zero, if_false] at hf hv
  rcases hf with ⟨rfl, rfl⟩ | ⟨rfl, rfl⟩ | ⟨rfl, rfl⟩ | ⟨rfl, rfl⟩ | ⟨rfl, rfl⟩ | ⟨rfl, rfl⟩ <;>
    rcases hv with ⟨h, rfl⟩ | ⟨h, rfl⟩ | ⟨h, rfl⟩ | ⟨h, rfl⟩ | ⟨h, rfl⟩ | ⟨h, rfl⟩ <;>
    first
    | exact absurd h (by decide)
    | exact .str _
    | exact .enum _ _ (by decide) (Or.inr hk)
    | exact .slice _ _ _ _ (.int _ _ _ ha) (.int _ _ _ hb)
    | exact .vec _ _ hs
    | exact hi
    | exact hp

theorem demo_leaf : Has demo false (.record 1) leaf := by
  refine demo_record "leaf" 1 (by decide) (-2) 7 (by unfold InRange; decide) (by unfold InRange; decide) [] (by simp) _ ?_ _
    (.some _ _ demo_inner (Or.inr (by simp)))
  refine .map _ _ _ (by simp) ?_ ?_
  · intro k v h
    simp only [List.mem_cons, Prod.mk.injEq, List.not_mem_nil, or_false] at h
    rcases h with ⟨rfl, _⟩ | ⟨rfl, _⟩ <;> exact .immId _ (by unfold InRange; decide)
  · intro k v h
    simp only [List.mem_cons, Prod.mk.injEq, List.not_mem_nil, or_false] at h
    rcases h with ⟨_, rfl⟩ | ⟨_, rfl⟩
    · exact .some _ _ (.str _) (Or.inr (by simp))
    · exact .none _

/-- The record with its records comes back. -/
example : Returns demo (.record 1) root root := by
  apply json_round_trip_partial
  refine demo_record "root" 0 (by decide) 0 1 (by unfold InRange; decide) (by unfold InRange; decide) _ ?_ [] ?_ _ (.none _)
  · intro v hv
    simp only [List.mem_cons, List.not_mem_nil, or_false, or_self] at hv
    rw [hv]
    exact demo_leaf
  · exact .map _ _ _ (by decide) (by simp) (by simp)

/-! ## C98: reading any JSON value -/

/-- Reading any JSON value as any type gives a value or throws. -/
def ReadStatement : Prop := ∀ (env : Env) (ty : Ty) (j : Json) (n : Nat), fromN env n ty j ≠ .error .undef

/-- An object without the key is read as a pair: `operator[]` of a constant object without the key. -/
theorem read_false : ¬ ReadStatement := by
  intro h
  exact h demo (.pair .bool .bool) (.obj []) 1 rfl

/-- The types that values of the type are made of. -/
def parts (env : Env) : Ty → List Ty
  | .opt t | .box t | .vec t | .set t | .strMap t | .immSet t => [t]
  | .pair a b | .slice a b | .map a b | .bimap a b | .immMap a b => [a, b]
  | .record r => (env.recd r).fields.map (·.2)
  | .variant l => l
  | _ => []

/-- The types read without looking up a key that may not be there. -/
def Keyless : Ty → Prop
  | .pair _ _ | .slice _ _ | .map _ _ | .bimap _ _ | .immMap _ _ | .immId | .variant _ => False
  | _ => True

theorem mapM_undef {α β : Type} (f : α → Except Err β) (l : List α) (h : ∀ a ∈ l, f a ≠ .error .undef) : l.mapM f ≠ .error .undef := by
  induction l with
  | nil => simp [pure, Except.pure]
  | cons a l ih =>
    rw [List.mapM_cons]
    have h1 := h a (by simp)
    have h2 := ih fun b hb => h b (by simp [hb])
    cases ha : f a with
    | error e =>
      rw [ha] at h1
      simpa [bind, Except.bind] using h1
    | ok x =>
      cases hl : l.mapM f with
      | error e =>
        rw [hl] at h2
        simpa [bind, Except.bind] using h2
      | ok y => simp [bind, Except.bind, pure, Except.pure]

theorem foldlM_undef {α β : Type} (f : β → α → Except Err β) (l : List α) (h : ∀ b, ∀ a ∈ l, f b a ≠ .error .undef) (b : β) :
    l.foldlM f b ≠ .error .undef := by
  induction l generalizing b with
  | nil => simp [pure, Except.pure]
  | cons a l ih =>
    rw [List.foldlM_cons]
    have h1 := h b a (by simp)
    cases ha : f b a with
    | error e =>
      rw [ha] at h1
      simpa [bind, Except.bind] using h1
    | ok x => exact ih (fun b a hm => h b a (by simp [hm])) x

theorem bind_undef {α β : Type} (x : Except Err α) (f : α → β) (h : x ≠ .error .undef) :
    (x.bind fun a => Except.ok (f a)) ≠ (.error .undef : Except Err β) := by
  cases x with
  | error e => simpa [Except.bind] using h
  | ok a => simp [Except.bind]

/-- **C98.** For a type made only of types without keys, reading any JSON value gives a value or throws (or runs out of the
bound of the model, or converts a floating point number). -/
theorem read_any_partial (env : Env) (S : Ty → Prop) (hS : ∀ t, S t → Keyless t ∧ ∀ u ∈ parts env t, S u) (n : Nat) :
    ∀ ty, S ty → ∀ j, fromN env n ty j ≠ .error .undef := by
  induction n with
  | zero => intro ty _ j; simp [fromN]
  | succ n ih =>
    intro ty hty j
    obtain ⟨hk, hp⟩ := hS ty hty
    cases ty with
    | int s b =>
      simp only [fromN]
      apply bind_undef
      cases j <;> simp [getInt]
    | flt => cases j <;> simp [fromN]
    | str => cases j <;> simp [fromN]
    | cstr => simp [fromN]
    | bool => cases j <;> simp [fromN]
    | json => simp [fromN]
    | enum names =>
      simp only [fromN]
      split
      · split <;> simp
      · simp
    | opt t =>
      simp only [fromN]
      split
      · simp
      · exact bind_undef _ _ (ih t (hp t (by simp [parts])) j)
    | box t => exact ih t (hp t (by simp [parts])) j
    | vec t => exact bind_undef _ _ (mapM_undef _ _ fun x _ => ih t (hp t (by simp [parts])) x)
    | set t => exact bind_undef _ _ (mapM_undef _ _ fun x _ => ih t (hp t (by simp [parts])) x)
    | strMap t =>
      refine bind_undef _ _ (mapM_undef _ _ fun x _ => ?_)
      exact bind_undef _ _ (ih t (hp t (by simp [parts])) x.2)
    | immSet t => exact bind_undef _ _ (mapM_undef _ _ fun x _ => ih t (hp t (by simp [parts])) x)
    | record r =>
      refine bind_undef _ _ (foldlM_undef _ _ ?_ _)
      intro acc f hf
      unfold fromField
      split
      · split
        · exact bind_undef _ _ (ih f.2 (hp f.2 (List.mem_map.2 ⟨f, hf, rfl⟩)) _)
        · simp
      · simp
    | pair a b => exact hk.elim
    | slice a b => exact hk.elim
    | map a b => exact hk.elim
    | bimap a b => exact hk.elim
    | immMap a b => exact hk.elim
    | immId => exact hk.elim
    | variant l => exact hk.elim

/-- The record of `demo` with fields left out can be read from anything. -/
example (j : Json) (n : Nat) : fromN demo n (.vec (.record 0)) j ≠ .error .undef := by
  refine read_any_partial demo
    (fun t => t = .vec (.record 0) ∨ t = .record 0 ∨ t = .opt .flt ∨ t = .opt (.int true 32) ∨ t = .flt ∨ t = .int true 32) ?_ n _ (Or.inl rfl) j
  rintro t (rfl | rfl | rfl | rfl | rfl | rfl) <;> refine ⟨trivial, ?_⟩ <;> intro u hu <;> simp [parts, demo] at hu ⊢ <;> (try rcases hu with h | h) <;> simp_all

/-- JSON values that are no arrays are read as vectors with one element, and objects as vectors of their values. -/
theorem scalar_as_vector (env : Env) (b : Bool) (n : Nat) : fromN env (n + 2) (.vec .bool) (.bool b) = .ok (.list [.bool b]) := rfl

end Verif.Serde
