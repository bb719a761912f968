import Verif.Serde.Lemmas

/-! # The round trip, by induction over the typing -/

namespace Verif.Serde

/-- With the bound `n`: the value is written and read back, and is null in JSON only if it is null. -/
def Good (env : Env) (n : Nat) (ty : Ty) (v : Val) : Prop :=
  ∃ j, toN env n ty v = .ok j ∧ fromN env n ty j = .ok v ∧ (v ≠ .null → v ≠ .json .null → j ≠ .null)

theorem nil_cases (t : Ty) (v : Val) (h : isNil t v = true) : v = .null ∨ v = .json .null := by
  unfold isNil at h
  split at h <;> simp_all

theorem enumOf_get (names : List String) (hd : names.Nodup) (k : Nat) (hk : k < names.length) :
    enumOf names (names[k]?.getD "<unnamed>") = some k := by
  unfold enumOf
  rw [List.getElem?_eq_getElem hk, Option.getD_some, List.findIdx?_eq_some_iff_getElem]
  refine ⟨hk, by simp, ?_⟩
  intro j hj
  simp only [decide_eq_true_eq]
  intro e
  have := (List.Nodup.getElem_inj_iff hd).1 e
  omega

theorem entries_round (env : Env) (n : Nat) (a b : Ty) (ka kb : String) (hab : ka ≠ kb) (l : List (Val × Val))
    (hk : ∀ k v, (k, v) ∈ l → Good env n a k) (hv : ∀ k v, (k, v) ∈ l → Good env n b v) :
    ∃ js, toEntries ka kb (toN env n a) (toN env n b) (.map l) = .ok (.arr js) ∧
      js.mapM (fromEntry ka kb (fromN env n a) (fromN env n b)) = .ok l := by
  obtain ⟨js, h1, h2⟩ := mapM_round
    (fun e : Val × Val => do
      let x ← toN env n a e.1
      let y ← toN env n b e.2
      Except.ok (Json.obj [(ka, x), (kb, y)]))
    (fromEntry ka kb (fromN env n a) (fromN env n b)) id l (by
      intro e he
      obtain ⟨x, x1, x2, _⟩ := hk e.1 e.2 he
      obtain ⟨y, y1, y2, _⟩ := hv e.1 e.2 he
      refine ⟨.obj [(ka, x), (kb, y)], by simp only [x1, y1, bind, Except.bind], ?_⟩
      simp only [fromEntry, Json.at, get_cons, if_neg hab, if_true, bind, Except.bind, x2, y2]
      rfl)
  rw [List.map_id] at h2
  refine ⟨js, ?_, h2⟩
  simp only [toEntries]
  rw [h1]
  rfl

theorem round (env : Env) (ty : Ty) (v : Val) (h : Has env false ty v) : ∃ n0, ∀ n, n0 ≤ n → Good env n ty v := by
  induction h with
  | int s b i hr =>
    refine ⟨1, fun n hn => ?_⟩
    obtain ⟨m, rfl⟩ : ∃ m, n = m + 1 := ⟨n - 1, by omega⟩
    refine ⟨.int i, rfl, ?_, by simp⟩
    simp only [fromN, getInt, bind, Except.bind, cast_self s b i hr]
  | flt f =>
    refine ⟨1, fun n hn => ?_⟩
    obtain ⟨m, rfl⟩ : ∃ m, n = m + 1 := ⟨n - 1, by omega⟩
    exact ⟨.flt f, rfl, rfl, by simp⟩
  | str s =>
    refine ⟨1, fun n hn => ?_⟩
    obtain ⟨m, rfl⟩ : ∃ m, n = m + 1 := ⟨n - 1, by omega⟩
    exact ⟨.str s, rfl, rfl, by simp⟩
  | cstr s h => cases h
  | bool b =>
    refine ⟨1, fun n hn => ?_⟩
    obtain ⟨m, rfl⟩ : ∃ m, n = m + 1 := ⟨n - 1, by omega⟩
    exact ⟨.bool b, rfl, rfl, by simp⟩
  | json j =>
    refine ⟨1, fun n hn => ?_⟩
    obtain ⟨m, rfl⟩ : ∃ m, n = m + 1 := ⟨n - 1, by omega⟩
    exact ⟨j, rfl, rfl, by simp⟩
  | enum names k hd hk =>
    refine ⟨1, fun n hn => ?_⟩
    obtain ⟨m, rfl⟩ : ∃ m, n = m + 1 := ⟨n - 1, by omega⟩
    refine ⟨.str (names[k]?.getD "<unnamed>"), rfl, ?_, by simp⟩
    simp only [fromN, enumOf_get names hd k (hk.resolve_left (by simp))]
  | none t =>
    refine ⟨1, fun n hn => ?_⟩
    obtain ⟨m, rfl⟩ : ∃ m, n = m + 1 := ⟨n - 1, by omega⟩
    refine ⟨.null, rfl, ?_, by simp⟩
    simp only [fromN, if_true]
  | some t v _ hnn ih =>
    obtain ⟨n0, h0⟩ := ih
    refine ⟨n0 + 1, fun n hn => ?_⟩
    obtain ⟨m, rfl⟩ : ∃ m, n = m + 1 := ⟨n - 1, by omega⟩
    obtain ⟨j, h1, h2, h3⟩ := h0 m (by omega)
    have hv := hnn.resolve_left (by simp)
    have hj := h3 hv.1 hv.2
    refine ⟨j, h1, ?_, fun _ _ => hj⟩
    simp only [fromN, if_neg hj, h2, bind, Except.bind]
  | box t v _ ih =>
    obtain ⟨n0, h0⟩ := ih
    refine ⟨n0 + 1, fun n hn => ?_⟩
    obtain ⟨m, rfl⟩ : ∃ m, n = m + 1 := ⟨n - 1, by omega⟩
    obtain ⟨j, h1, h2, h3⟩ := h0 m (by omega)
    exact ⟨j, by simp only [toN, h1], h2, h3⟩
  | pair a b x y _ _ ih1 ih2 =>
    obtain ⟨n1, h1⟩ := ih1
    obtain ⟨n2, h2⟩ := ih2
    refine ⟨max n1 n2 + 1, fun n hn => ?_⟩
    obtain ⟨m, rfl⟩ : ∃ m, n = m + 1 := ⟨n - 1, by omega⟩
    obtain ⟨j, j1, j2, _⟩ := h1 m (by omega)
    obtain ⟨k, k1, k2, _⟩ := h2 m (by omega)
    refine ⟨.obj [("first", j), ("second", k)], by simp only [toN, j1, k1, bind, Except.bind], ?_, by simp⟩
    simp only [fromN, Json.at, get_cons, bind, Except.bind, if_true, j2]
    rw [if_neg (by decide)]
    simp only [k2]
  | slice a b x y _ _ ih1 ih2 =>
    obtain ⟨n1, h1⟩ := ih1
    obtain ⟨n2, h2⟩ := ih2
    refine ⟨max n1 n2 + 1, fun n hn => ?_⟩
    obtain ⟨m, rfl⟩ : ∃ m, n = m + 1 := ⟨n - 1, by omega⟩
    obtain ⟨j, j1, j2, _⟩ := h1 m (by omega)
    obtain ⟨k, k1, k2, _⟩ := h2 m (by omega)
    refine ⟨.obj [("first", j), ("last", k)], by simp only [toN, j1, k1, bind, Except.bind], ?_, by simp⟩
    simp only [fromN, Json.at, get_cons, bind, Except.bind, if_true, j2]
    rw [if_neg (by decide)]
    simp only [k2]
  | vec t l _ ih =>
    obtain ⟨N, hN⟩ := finite_max l (fun v n => Good env n t v) ih
    refine ⟨N + 1, fun n hn => ?_⟩
    obtain ⟨m, rfl⟩ : ∃ m, n = m + 1 := ⟨n - 1, by omega⟩
    obtain ⟨js, h1, h2⟩ := mapM_round (toN env m t) (fromN env m t) id l (by
      intro v hv
      obtain ⟨j, j1, j2, _⟩ := hN v hv m (by omega)
      exact ⟨j, j1, j2⟩)
    rw [List.map_id] at h2
    refine ⟨.arr js, by simp only [toN, toList, h1, bind, Except.bind], ?_, by simp⟩
    simp only [fromN, Json.elems, h2, bind, Except.bind]
  | set t l hd _ ih =>
    obtain ⟨N, hN⟩ := finite_max l (fun v n => Good env n t v) ih
    refine ⟨N + 1, fun n hn => ?_⟩
    obtain ⟨m, rfl⟩ : ∃ m, n = m + 1 := ⟨n - 1, by omega⟩
    obtain ⟨js, h1, h2⟩ := mapM_round (toN env m t) (fromN env m t) id l (by
      intro v hv
      obtain ⟨j, j1, j2, _⟩ := hN v hv m (by omega)
      exact ⟨j, j1, j2⟩)
    rw [List.map_id] at h2
    refine ⟨.arr js, by simp only [toN, toList, h1, bind, Except.bind], ?_, by simp⟩
    simp only [fromN, Json.elems, h2, bind, Except.bind]
    rw [foldl_incl l [] (by simpa using hd), List.nil_append]
  | map a b l hd _ _ ih1 ih2 =>
    obtain ⟨N, hN⟩ := finite_max l (fun e n => Good env n a e.1) fun e he => ih1 e.1 e.2 he
    obtain ⟨M, hM⟩ := finite_max l (fun e n => Good env n b e.2) fun e he => ih2 e.1 e.2 he
    refine ⟨max N M + 1, fun n hn => ?_⟩
    obtain ⟨m, rfl⟩ : ∃ m, n = m + 1 := ⟨n - 1, by omega⟩
    obtain ⟨js, h1, h2⟩ := entries_round env m a b "key" "value" (by decide) l
      (fun k v h => hN (k, v) h m (by omega)) (fun k v h => hM (k, v) h m (by omega))
    refine ⟨.arr js, by simp only [toN, h1], ?_, by simp⟩
    simp only [fromN, Json.elems, h2, bind, Except.bind]
    rw [foldl_insert l [] (by simpa using hd), List.nil_append]
  | strMap t l hd _ ih =>
    obtain ⟨N, hN⟩ := finite_max l (fun e n => Good env n t e.2) fun e he => ih e.1 e.2 he
    refine ⟨N + 1, fun n hn => ?_⟩
    obtain ⟨m, rfl⟩ : ∃ m, n = m + 1 := ⟨n - 1, by omega⟩
    obtain ⟨js, h1, h2⟩ := str_entries (toN env m t) (fromN env m t) l (by
      intro k v hm
      obtain ⟨j, j1, j2, _⟩ := hN (k, v) hm m (by omega)
      exact ⟨j, j1, j2⟩) [] (by simpa using hd)
    rw [List.nil_append] at h1
    refine ⟨.obj js, by simp only [toN, h1, bind, Except.bind], ?_, by simp⟩
    simp only [fromN, Json.items]
    rw [h2]
    simp only [bind, Except.bind]
    rw [foldl_insert _ [] _, List.nil_append]
    rw [List.nil_append, List.map_map]
    have : (l.map ((fun x : Val × Val => x.1) ∘ fun e => (Val.str e.1, e.2))) = (l.map (·.1)).map Val.str := by
      simp [List.map_map, Function.comp_def]
    rw [this]
    exact hd.map fun a b h => by
      injection h
  | bimap a b l hd hd' _ _ ih1 ih2 =>
    obtain ⟨N, hN⟩ := finite_max l (fun e n => Good env n a e.1) fun e he => ih1 e.1 e.2 he
    obtain ⟨M, hM⟩ := finite_max l (fun e n => Good env n b e.2) fun e he => ih2 e.1 e.2 he
    refine ⟨max N M + 1, fun n hn => ?_⟩
    obtain ⟨m, rfl⟩ : ∃ m, n = m + 1 := ⟨n - 1, by omega⟩
    obtain ⟨js, h1, h2⟩ := entries_round env m a b "left" "right" (by decide) l
      (fun k v h => hN (k, v) h m (by omega)) (fun k v h => hM (k, v) h m (by omega))
    refine ⟨.arr js, by simp only [toN, h1], ?_, by simp⟩
    simp only [fromN, Json.elems, h2, bind, Except.bind]
    rw [foldlM_unique l [] (by simpa using hd) (by simpa using hd')]
    rfl
  | immSet t l _ he _ _ =>
    have := he.resolve_left (by simp)
    subst this
    refine ⟨1, fun n hn => ?_⟩
    obtain ⟨m, rfl⟩ : ∃ m, n = m + 1 := ⟨n - 1, by omega⟩
    exact ⟨.arr [], rfl, rfl, by simp⟩
  | immMap a b l _ he _ _ _ _ =>
    have := he.resolve_left (by simp)
    subst this
    refine ⟨1, fun n hn => ?_⟩
    obtain ⟨m, rfl⟩ : ∃ m, n = m + 1 := ⟨n - 1, by omega⟩
    exact ⟨.arr [], rfl, rfl, by simp⟩
  | immId i hr =>
    refine ⟨1, fun n hn => ?_⟩
    obtain ⟨m, rfl⟩ : ∃ m, n = m + 1 := ⟨n - 1, by omega⟩
    refine ⟨_, rfl, ?_, by simp⟩
    simp only [fromN, Json.at, get_cons, if_true, getInt, bind, Except.bind, cast_self false 64 i hr]
  | record r fs hd hn hn' _ hex ih =>
    obtain ⟨N, hN⟩ := finite_max (env.recd r).fields (fun f n => ∀ v, (f.1, v) ∈ fs → Good env n f.2 v) (by
      intro f hf
      obtain ⟨N, hN⟩ := finite_max fs (fun e n => e.1 = f.1 → Good env n f.2 e.2) (by
        intro e he
        by_cases hk : e.1 = f.1
        · obtain ⟨n0, h0⟩ := ih f.1 f.2 e.2 hf (by rw [← hk]; exact he)
          exact ⟨n0, fun n hn _ => h0 n hn⟩
        · exact ⟨0, fun n _ e => absurd e hk⟩)
      exact ⟨N, fun n hn v hv => hN (f.1, v) hv n hn rfl⟩)
    refine ⟨N + 1, fun n hn0 => ?_⟩
    obtain ⟨m, rfl⟩ : ∃ m, n = m + 1 := ⟨n - 1, by omega⟩
    have val : ∀ f t, (f, t) ∈ (env.recd r).fields → ∃ v, get fs f = Option.some v ∧ Good env m t v := by
      intro f t hf
      obtain ⟨v, hv⟩ := get_isSome fs f (by rw [hn]; exact List.mem_map.2 ⟨_, hf, rfl⟩)
      exact ⟨v, hv, hN (f, t) hf m (by omega) v (get_mem _ _ _ hv)⟩
    obtain ⟨l, h1, h2, _⟩ := to_fields (toN env m) (env.recd r).ex fs (env.recd r).fields hd (by
      intro f t hf
      obtain ⟨v, hv, j, hj, _⟩ := val f t hf
      exact ⟨v, hv, j, hj⟩) [] (fun _ _ => rfl)
    obtain ⟨acc, h3, h4, h5, _⟩ := from_fields (fromN env m) l fs (env.recd r).fields hd (env.recd r).defaults (by rw [hn', hn]) (by
      intro f t hf
      obtain ⟨v, hv, j, hj, hback, _⟩ := val f t hf
      refine ⟨v, hv, ?_⟩
      rcases h2 f t v hf hv with ⟨e1, e2, e3⟩ | ⟨j', e1, e2⟩
      · refine Or.inl ⟨e3, ?_⟩
        rcases hex with e | e | e
        · cases e
        · rw [e1] at e
          cases e
        · exact get_of_mem _ _ _ (by rw [hn']; exact hd) (e f v (get_mem _ _ _ hv) (nil_cases t v e2))
      · rw [hj] at e1
        injection e1 with e1
        subst e1
        exact Or.inr ⟨j, e2, hback⟩)
    refine ⟨.obj l, by simp only [toN, h1, bind, Except.bind], ?_, by simp⟩
    simp only [fromN, h3, bind, Except.bind]
    congr 2
    apply ext_get _ _ h4
    · rw [h4, hn]
      exact hd
    · intro k hk
      rw [h4, hn] at hk
      exact h5 k hk
  | variant l i t v h => cases h

end Verif.Serde
