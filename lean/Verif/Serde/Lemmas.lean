import Verif.Serde.Spec

/-! # Lemmas on lists of entries, and the round trip by induction over the typing -/

namespace Verif.Serde

section
variable {α : Type}

theorem get_nil (k : String) : get ([] : List (String × α)) k = none := rfl

theorem get_cons (k' : String) (v : α) (l : List (String × α)) (k : String) :
    get ((k', v) :: l) k = if k' = k then some v else get l k := by
  unfold get
  rw [List.find?_cons]
  by_cases h : k' = k <;> simp [h]

theorem get_mem (l : List (String × α)) (k : String) (v : α) (h : get l k = some v) : (k, v) ∈ l := by
  induction l with
  | nil => simp [get_nil] at h
  | cons e l ih =>
    obtain ⟨k', u⟩ := e
    rw [get_cons] at h
    split at h
    · rename_i hk
      subst hk
      injection h with h
      subst h
      exact List.mem_cons_self
    · exact List.mem_cons_of_mem _ (ih h)

theorem get_of_mem (l : List (String × α)) (k : String) (v : α) (hn : (l.map (·.1)).Nodup) (h : (k, v) ∈ l) : get l k = some v := by
  induction l with
  | nil => simp at h
  | cons e l ih =>
    obtain ⟨k', u⟩ := e
    rw [List.map_cons, List.nodup_cons] at hn
    rw [get_cons]
    rcases List.mem_cons.1 h with h | h
    · injection h with h1 h2
      subst h1 h2
      simp
    · have : k' ≠ k := by
        intro hk
        subst hk
        exact hn.1 (List.mem_map.2 ⟨_, h, rfl⟩)
      rw [if_neg this, ih hn.2 h]

theorem get_isSome (l : List (String × α)) (k : String) (h : k ∈ l.map (·.1)) : ∃ v, get l k = some v := by
  induction l with
  | nil => simp at h
  | cons e l ih =>
    obtain ⟨k', u⟩ := e
    rw [get_cons]
    by_cases hk : k' = k
    · exact ⟨u, by simp [hk]⟩
    · rw [if_neg hk]
      rw [List.map_cons, List.mem_cons] at h
      exact ih (h.resolve_left fun h => hk h.symm)

theorem ext_get (a b : List (String × α)) (hn : a.map (·.1) = b.map (·.1)) (hd : (a.map (·.1)).Nodup)
    (h : ∀ k ∈ a.map (·.1), get a k = get b k) : a = b := by
  induction a generalizing b with
  | nil =>
    cases b with
    | nil => rfl
    | cons e b => simp at hn
  | cons e a ih =>
    cases b with
    | nil => simp at hn
    | cons e' b =>
      obtain ⟨k, v⟩ := e
      obtain ⟨k', v'⟩ := e'
      simp only [List.map_cons, List.cons.injEq] at hn
      obtain ⟨h1, h2⟩ := hn
      subst h1
      rw [List.map_cons, List.nodup_cons] at hd
      have h3 := h k (by simp)
      rw [get_cons, get_cons, if_pos rfl, if_pos rfl] at h3
      injection h3 with h3
      subst h3
      congr 1
      apply ih b h2 hd.2
      intro q hq
      have h4 := h q (by simp only [List.map_cons, List.mem_cons]; exact Or.inr hq)
      rw [get_cons, get_cons] at h4
      have : k ≠ q := by
        intro hk
        subst hk
        exact hd.1 hq
      rwa [if_neg this, if_neg this] at h4

theorem get_append (l l' : List (String × α)) (k : String) : get (l ++ l') k = (get l k).or (get l' k) := by
  induction l with
  | nil => simp [get_nil]
  | cons e l ih =>
    obtain ⟨k', v⟩ := e
    rw [List.cons_append, get_cons, get_cons, ih]
    split <;> simp

theorem get_replace (l : List (String × α)) (k : String) (v : α) (g : String) :
    get (l.map fun e => if e.1 = k then (e.1, v) else e) g = if k = g then (get l g).map fun _ => v else get l g := by
  induction l with
  | nil => simp [get_nil]
  | cons e l ih =>
    obtain ⟨k', u⟩ := e
    rw [List.map_cons]
    by_cases hk : k' = k
    · simp only [hk, if_true]
      rw [get_cons, get_cons, ih]
      by_cases hg : k = g <;> simp [hg]
    · simp only [hk, if_false]
      rw [get_cons, get_cons, ih]
      by_cases hg : k' = g
      · subst hg
        simp [Ne.symm hk]
      · simp [hg]

theorem get_none_of_any (l : List (String × α)) (k : String) (h : (l.any fun e => decide (e.1 = k)) = false) : get l k = none := by
  unfold get
  rw [Option.map_eq_none_iff, List.find?_eq_none]
  intro e he
  have := List.any_eq_false.1 h e he
  simpa using this

theorem get_assign (l : List (String × α)) (k : String) (v : α) (g : String) :
    get (assign l k v) g = if k = g then some v else get l g := by
  unfold assign
  split
  · rename_i h
    have hr : (l.map fun e => if e.1 = k then (k, v) else e) = l.map fun e => if e.1 = k then (e.1, v) else e := by
      apply List.map_congr_left
      intro e _
      split
      · rename_i he
        rw [he]
      · rfl
    rw [hr, get_replace]
    by_cases hg : k = g
    · subst hg
      simp only [List.any_eq_true, decide_eq_true_eq] at h
      obtain ⟨e, he, hk⟩ := h
      obtain ⟨u, hu⟩ := get_isSome l k (List.mem_map.2 ⟨e, he, hk⟩)
      simp [hu]
    · simp [hg]
  · rename_i h
    have hn := get_none_of_any l k (Bool.eq_false_iff.2 h)
    rw [get_append, get_cons, get_nil]
    by_cases hg : k = g
    · subst hg
      simp [hn]
    · simp [hg]

end

theorem cast_self (s : Bool) (b : Nat) (i : Int) (h : InRange s b i) : cast s b i = i := by
  unfold InRange at h
  unfold cast
  cases s with
  | false =>
    simp only [Bool.false_eq_true, if_false] at h ⊢
    apply Int.emod_eq_of_lt h.1
    push_cast
    exact h.2
  | true =>
    simp only [if_true] at h ⊢
    obtain ⟨h1, h2, h3⟩ := h
    obtain ⟨c, rfl⟩ : ∃ c, b = c + 1 := ⟨b - 1, by omega⟩
    simp only [Nat.add_sub_cancel] at h1 h2
    have hp : ((2 ^ (c + 1) : Nat) : Int) = 2 ^ c * 2 := by
      push_cast
      exact Int.pow_succ ..
    apply Int.bmod_eq_of_le
    · rw [hp]
      omega
    · rw [hp]
      omega

theorem mapM_round {α β γ : Type} (f : α → Except Err β) (g : β → Except Err γ) (h : α → γ) (l : List α)
    (H : ∀ a ∈ l, ∃ x, f a = .ok x ∧ g x = .ok (h a)) :
    ∃ xs, l.mapM f = .ok xs ∧ xs.mapM g = .ok (l.map h) := by
  induction l with
  | nil => exact ⟨[], rfl, rfl⟩
  | cons a l ih =>
    obtain ⟨x, h1, h2⟩ := H a (by simp)
    obtain ⟨xs, h3, h4⟩ := ih fun b hb => H b (by simp [hb])
    refine ⟨x :: xs, ?_, ?_⟩
    · rw [List.mapM_cons, h1, h3]
      rfl
    · rw [List.mapM_cons, h2, h4]
      rfl

theorem foldl_incl (l acc : List Val) (h : (acc ++ l).Nodup) : l.foldl incl acc = acc ++ l := by
  induction l generalizing acc with
  | nil => simp
  | cons v l ih =>
    have hv : v ∉ acc := fun hm => (List.nodup_append.1 h).2.2 v hm v (by simp) rfl
    rw [List.foldl_cons, incl, if_neg hv, ih]
    · simp
    · simpa using h

theorem insertOrAssign_new (l : List (Val × Val)) (k v : Val) (h : k ∉ l.map (·.1)) : insertOrAssign l k v = l ++ [(k, v)] := by
  unfold insertOrAssign
  rw [if_neg]
  simp only [List.any_eq_true, decide_eq_true_eq, not_exists, not_and]
  intro e he hk
  exact h (List.mem_map.2 ⟨e, he, hk⟩)

theorem foldl_insert (l acc : List (Val × Val)) (hd : ((acc ++ l).map (·.1)).Nodup) :
    l.foldl (fun m e => insertOrAssign m e.1 e.2) acc = acc ++ l := by
  induction l generalizing acc with
  | nil => simp
  | cons e l ih =>
    rw [List.foldl_cons, insertOrAssign_new]
    · rw [ih]
      · simp
      · simpa using hd
    · intro h
      rw [List.map_append, List.map_cons] at hd
      exact (List.nodup_append.1 hd).2.2 _ h e.1 (by simp) rfl

theorem foldlM_unique (l acc : List (Val × Val)) (hd : ((acc ++ l).map (·.1)).Nodup) (hd' : ((acc ++ l).map (·.2)).Nodup) :
    l.foldlM addUnique acc = .ok (acc ++ l) := by
  induction l generalizing acc with
  | nil => simp [pure, Except.pure]
  | cons e l ih =>
    have : addUnique acc e = .ok (acc ++ [e]) := by
      unfold addUnique
      rw [if_neg]
      simp only [List.any_eq_true, Bool.or_eq_true, decide_eq_true_eq, not_exists, not_and]
      intro e' he' hk
      rw [List.map_append, List.map_cons] at hd hd'
      rcases hk with hk | hk
      · exact (List.nodup_append.1 hd).2.2 _ (List.mem_map.2 ⟨e', he', rfl⟩) e.1 (by simp) hk
      · exact (List.nodup_append.1 hd').2.2 _ (List.mem_map.2 ⟨e', he', rfl⟩) e.2 (by simp) hk
    rw [List.foldlM_cons, this]
    show l.foldlM addUnique (acc ++ [e]) = _
    rw [ih]
    · simp
    · simpa using hd
    · simpa using hd'

theorem assign_new {α : Type} (l : List (String × α)) (k : String) (v : α) (h : k ∉ l.map (·.1)) : assign l k v = l ++ [(k, v)] := by
  unfold assign
  rw [if_neg]
  simp only [List.any_eq_true, decide_eq_true_eq, not_exists, not_and]
  intro e he hk
  exact h (List.mem_map.2 ⟨e, he, hk⟩)

theorem str_entries (go : Val → Except Err Json) (back : Json → Except Err Val) (l : List (String × Val))
    (H : ∀ k v, (k, v) ∈ l → ∃ x, go v = .ok x ∧ back x = .ok v) (acc : List (String × Json))
    (hd : (acc.map (·.1) ++ l.map (·.1)).Nodup) :
    ∃ js : List (String × Json), (l.map fun e => (Val.str e.1, e.2)).foldlM (toStrEntry go) acc = .ok (acc ++ js) ∧
      js.mapM (fun e => do
        let v ← back e.2
        Except.ok (Val.str e.1, v)) = .ok (l.map fun e => (Val.str e.1, e.2)) := by
  induction l generalizing acc with
  | nil => exact ⟨[], by simp [pure, Except.pure], rfl⟩
  | cons e l ih =>
    obtain ⟨k, v⟩ := e
    obtain ⟨x, h1, h2⟩ := H k v (by simp)
    have hk : k ∉ acc.map (·.1) := fun hm => (List.nodup_append.1 hd).2.2 k hm k (by simp) rfl
    obtain ⟨js, h3, h4⟩ := ih (fun k v h => H k v (by simp [h])) (acc ++ [(k, x)]) (by simpa using hd)
    refine ⟨(k, x) :: js, ?_, ?_⟩
    · rw [List.map_cons, List.foldlM_cons]
      simp only [toStrEntry, h1, bind, Except.bind]
      rw [assign_new _ _ _ hk]
      rw [h3]
      simp
    · rw [List.mapM_cons]
      simp only [h2, bind, Except.bind, pure, Except.pure] at h4 ⊢
      rw [h4]
      rfl

/-- All fields are written: those left out are not in the object, the others are there with their values. -/
theorem to_fields (go : Ty → Val → Except Err Json) (ex : Bool) (fs : List (String × Val)) (fl : List (String × Ty))
    (hd : (fl.map (·.1)).Nodup) (H : ∀ f t, (f, t) ∈ fl → ∃ v, get fs f = some v ∧ ∃ j, go t v = .ok j)
    (acc : List (String × Json)) (ha : ∀ f ∈ fl.map (·.1), get acc f = none) :
    ∃ l, fl.foldlM (toField go ex fs) acc = .ok l ∧
      (∀ f t v, (f, t) ∈ fl → get fs f = some v →
        (ex = true ∧ isNil t v = true ∧ get l f = none) ∨ ∃ j, go t v = .ok j ∧ get l f = some j) ∧
      ∀ g, g ∉ fl.map (·.1) → get l g = get acc g := by
  induction fl generalizing acc with
  | nil => exact ⟨acc, rfl, by simp, fun _ _ => rfl⟩
  | cons e fl ih =>
    obtain ⟨f, t⟩ := e
    obtain ⟨v, hv, j, hj⟩ := H f t (by simp)
    rw [List.map_cons, List.nodup_cons] at hd
    by_cases hn : (ex && isNil t v) = true
    · have hstep : toField go ex fs acc (f, t) = .ok acc := by simp only [toField, hv, hn, if_true]
      obtain ⟨l, h1, h2, h3⟩ := ih hd.2 (fun f t h => H f t (by simp [h])) acc (fun g hg => ha g (by simp only [List.map_cons, List.mem_cons]; exact Or.inr hg))
      refine ⟨l, ?_, ?_, ?_⟩
      · rw [List.foldlM_cons, hstep]
        exact h1
      · intro f' t' v' hm hv'
        rcases List.mem_cons.1 hm with e | hm
        · injection e with e1 e2
          subst e1 e2
          rw [hv] at hv'
          injection hv' with hv'
          subst hv'
          refine Or.inl ⟨?_, ?_, ?_⟩
          · simp only [Bool.and_eq_true] at hn
            exact hn.1
          · simp only [Bool.and_eq_true] at hn
            exact hn.2
          · rw [h3 _ hd.1]
            exact ha _ (by simp)
        · exact h2 f' t' v' hm hv'
      · intro g hg
        exact h3 g fun h => hg (by simp only [List.map_cons, List.mem_cons]; exact Or.inr h)
    · have hstep : toField go ex fs acc (f, t) = .ok (assign acc f j) := by
        simp only [toField, hv, if_neg hn, hj, bind, Except.bind]
      obtain ⟨l, h1, h2, h3⟩ := ih hd.2 (fun f t h => H f t (by simp [h])) (assign acc f j) (by
        intro g hg
        have : f ≠ g := by
          intro e
          subst e
          exact hd.1 hg
        rw [get_assign, if_neg this]
        exact ha g (by simp only [List.map_cons, List.mem_cons]; exact Or.inr hg))
      refine ⟨l, ?_, ?_, ?_⟩
      · rw [List.foldlM_cons, hstep]
        exact h1
      · intro f' t' v' hm hv'
        rcases List.mem_cons.1 hm with e | hm
        · injection e with e1 e2
          subst e1 e2
          rw [hv] at hv'
          injection hv' with hv'
          subst hv'
          refine Or.inr ⟨j, hj, ?_⟩
          rw [h3 _ hd.1, get_assign, if_pos rfl]
        · exact h2 f' t' v' hm hv'
      · intro g hg
        rw [List.map_cons, List.mem_cons, not_or] at hg
        rw [h3 g hg.2, get_assign, if_neg (Ne.symm hg.1)]

/-- All fields are read. -/
theorem from_fields (go : Ty → Json → Except Err Val) (l : List (String × Json)) (fs : List (String × Val)) (fl : List (String × Ty))
    (hd : (fl.map (·.1)).Nodup) (acc : List (String × Val)) (hnames : acc.map (·.1) = fs.map (·.1))
    (H : ∀ f t, (f, t) ∈ fl → ∃ v, get fs f = some v ∧
      ((get l f = none ∧ get acc f = some v) ∨ ∃ j, get l f = some j ∧ go t j = .ok v)) :
    ∃ acc', fl.foldlM (fromField go (.obj l)) acc = .ok acc' ∧ acc'.map (·.1) = fs.map (·.1) ∧
      (∀ f ∈ fl.map (·.1), get acc' f = get fs f) ∧ ∀ g, g ∉ fl.map (·.1) → get acc' g = get acc g := by
  induction fl generalizing acc with
  | nil => exact ⟨acc, rfl, hnames, by simp, fun _ _ => rfl⟩
  | cons e fl ih =>
    obtain ⟨f, t⟩ := e
    obtain ⟨v, hv, hcase⟩ := H f t (by simp)
    rw [List.map_cons, List.nodup_cons] at hd
    obtain ⟨acc1, hstep, hn1, hf1, ho1⟩ : ∃ acc1, fromField go (.obj l) acc (f, t) = .ok acc1 ∧ acc1.map (·.1) = fs.map (·.1) ∧
        get acc1 f = some v ∧ ∀ g, g ≠ f → get acc1 g = get acc g := by
      rcases hcase with ⟨h1, h2⟩ | ⟨j, h1, h2⟩
      · exact ⟨acc, by simp only [fromField, h1], hnames, h2, fun _ _ => rfl⟩
      · refine ⟨acc.map fun e => if e.1 = f then (e.1, v) else e, by simp only [fromField, h1, h2, bind, Except.bind], ?_, ?_, ?_⟩
        · rw [← hnames, List.map_map]
          apply List.map_congr_left
          intro e _
          simp only [Function.comp_apply]
          split <;> rfl
        · rw [get_replace, if_pos rfl]
          obtain ⟨u, hu⟩ := get_isSome acc f (by
            rw [hnames]
            exact List.mem_map.2 ⟨_, get_mem _ _ _ hv, rfl⟩)
          rw [hu]
          rfl
        · intro g hg
          rw [get_replace, if_neg (Ne.symm hg)]
    obtain ⟨acc', h1, h2, h3, h4⟩ := ih hd.2 acc1 hn1 (by
      intro f' t' hm
      obtain ⟨v', hv', hc⟩ := H f' t' (by simp [hm])
      have : f' ≠ f := by
        intro e
        subst e
        exact hd.1 (List.mem_map.2 ⟨_, hm, rfl⟩)
      refine ⟨v', hv', ?_⟩
      rw [ho1 f' this]
      exact hc)
    refine ⟨acc', ?_, h2, ?_, ?_⟩
    · rw [List.foldlM_cons, hstep]
      exact h1
    · intro g hg
      rw [List.map_cons, List.mem_cons] at hg
      rcases hg with e | hg
      · subst e
        rw [h4 _ hd.1, hf1, hv]
      · exact h3 g hg
    · intro g hg
      rw [List.map_cons, List.mem_cons, not_or] at hg
      rw [h4 g hg.2, ho1 g hg.1]

theorem finite_max {α : Type} (l : List α) (P : α → Nat → Prop) (h : ∀ a ∈ l, ∃ n0, ∀ n, n0 ≤ n → P a n) :
    ∃ N, ∀ a ∈ l, ∀ n, N ≤ n → P a n := by
  induction l with
  | nil => exact ⟨0, by simp⟩
  | cons a l ih =>
    obtain ⟨n0, h0⟩ := h a (by simp)
    obtain ⟨N, hN⟩ := ih fun b hb => h b (by simp [hb])
    refine ⟨max n0 N, ?_⟩
    intro b hb n hn
    rcases List.mem_cons.1 hb with e | hb
    · subst e
      exact h0 n (by omega)
    · exact hN b hb n (by omega)

end Verif.Serde
