import Verif.AstDiff.EagerLemmas

/-!
# The edits rebuild the destination
-/

namespace Verif.AstDiff

/-- the numbers of the nodes of a tree -/
def T.ids (t : T) : List Nat := t.all.map T.id

theorem all_cons (t : T) : t.all = t :: alls t.subs := by
  cases t
  simp [T.all, T.subs]

theorem self_mem (t : T) : t ∈ t.all := by rw [all_cons]; simp

theorem mem_alls {x : T} : ∀ {ts : List T}, x ∈ alls ts ↔ ∃ (i : Nat) (t : T), ts[i]? = some t ∧ x ∈ t.all
  | [] => by simp [alls]
  | t :: ts => by
    rw [alls, List.mem_append, mem_alls]
    constructor
    · rintro (h | ⟨i, u, h1, h2⟩)
      · exact ⟨0, t, rfl, h⟩
      · exact ⟨i + 1, u, by simpa using h1, h2⟩
    · rintro ⟨i, u, h1, h2⟩
      cases i with
      | zero =>
        simp at h1
        subst h1
        exact .inl h2
      | succ i => exact .inr ⟨i, u, by simpa using h1, h2⟩

theorem child_all {t c : T} {i : Nat} (h : t.subs[i]? = some c) : ∀ x ∈ c.all, x ∈ alls t.subs :=
  fun _ hx => mem_alls.2 ⟨i, c, h, hx⟩

theorem alls_nodup : ∀ {ts : List T}, ((alls ts).map T.id).Nodup →
    (∀ (i : Nat) (t : T), ts[i]? = some t → t.ids.Nodup) ∧
    (∀ (i j : Nat) (a b x y : T), ts[i]? = some a → ts[j]? = some b → x ∈ a.all → y ∈ b.all → x.id = y.id → i = j)
  | [], _ => by simp
  | t :: ts, h => by
    rw [alls, List.map_append, List.nodup_append] at h
    obtain ⟨h1, h2, h3⟩ := h
    obtain ⟨r1, r2⟩ := alls_nodup h2
    refine ⟨?_, ?_⟩
    · intro i u hu
      cases i with
      | zero =>
        simp at hu
        subst hu
        exact h1
      | succ i => exact r1 i u (by simpa using hu)
    · intro i j a b x y ha hb hx hy he
      cases i with
      | zero =>
        simp at ha
        subst ha
        cases j with
        | zero => rfl
        | succ j =>
          simp only [List.getElem?_cons_succ] at hb
          exact absurd he (h3 _ (List.mem_map_of_mem (f := T.id) hx) _ (List.mem_map_of_mem (f := T.id) (mem_alls.2 ⟨j, b, hb, hy⟩)))
      | succ i =>
        simp only [List.getElem?_cons_succ] at ha
        cases j with
        | zero =>
          simp at hb
          subst hb
          exact absurd he.symm (h3 _ (List.mem_map_of_mem (f := T.id) hy) _ (List.mem_map_of_mem (f := T.id) (mem_alls.2 ⟨i, a, ha, hx⟩)))
        | succ j =>
          simp only [List.getElem?_cons_succ] at hb
          rw [r2 i j a b x y ha hb hx hy he]

theorem ids_nodup {t : T} (h : t.ids.Nodup) : ((alls t.subs).map T.id).Nodup ∧ ∀ x ∈ alls t.subs, x.id ≠ t.id := by
  rw [T.ids, all_cons, List.map_cons, List.nodup_cons] at h
  refine ⟨h.2, fun x hx e => h.1 (e ▸ List.mem_map_of_mem (f := T.id) hx)⟩

theorem subs_nodup {t : T} (h : t.ids.Nodup) : (t.subs.map T.id).Nodup := by
  rw [List.nodup_iff_injective_get]
  have h2 := (alls_nodup (ids_nodup h).1).2
  rintro ⟨i, hi⟩ ⟨j, hj⟩ e
  simp only [List.length_map] at hi hj
  simp only [List.get_eq_getElem, List.getElem_map] at e
  have := h2 i j _ _ _ _ (List.getElem?_eq_getElem hi) (List.getElem?_eq_getElem hj) (self_mem _) (self_mem _) e
  simp [this]

variable (eq : Nat → Nat → Bool)

/-- The edits found for a pair of nodes of the same kind -/
theorem level (n : Nat) (s d : T) (hk : s.kind = d.kind) (hd : d.ids.Nodup) :
    ∃ p' out ps is, Run eq (diffSub eq n) s.subs 0 d.subs [] p' out ps is ∧
      diffSub eq (n + 1) s d = out ++ deletes p' 0 s.subs := by
  by_cases h : s.subs.isEmpty && d.subs.isEmpty
  · simp only [Bool.and_eq_true, List.isEmpty_iff] at h
    refine ⟨[], [], [], [], ?_, ?_⟩
    · rw [h.2]
      exact Run.nil
    · simp [diffSub, h.1, h.2, deletes]
  · obtain ⟨out, ps, is, h1, h2⟩ := dstLoop_run eq (diffSub eq n) s.subs d.subs d.subs 0 ⟨[], [], []⟩ (subs_nodup hd) (by simp)
    refine ⟨_, out, ps, is, h2, ?_⟩
    rw [diffSub, if_neg h, if_neg (by simp [hk])]
    dsimp only
    rw [h1]
    simp

/-- The edits for a pair of nodes are about nodes below them. -/
theorem mention : ∀ (n : Nat) (s d : T), d.ids.Nodup → ∀ e ∈ diffSub eq n s d,
    (∀ c, e.src? = some c → ∃ x ∈ alls s.subs, x.id = c) ∧ (∀ d' j, e = .insert d' j → ∃ y ∈ alls d.subs, y.id = d')
  | 0, s, d, _, e, he => by simp [diffSub] at he
  | n + 1, s, d, hd, e, he => by
    by_cases hk : s.kind = d.kind
    · obtain ⟨p', out, ps, is, hr, hout⟩ := level eq n s d hk hd
      rw [hout, List.mem_append, hr.edits, mem_deletes] at he
      rcases he with (⟨q, hq, x, hx, rfl⟩ | ⟨q, hq, a, b, ha, hb, h | h⟩) | ⟨k, x, hx, _, rfl⟩
      · refine ⟨by simp [Edit.src?], ?_⟩
        intro d' j hj
        injection hj with e1 e2
        exact ⟨x, child_all hx x (self_mem x), e1⟩
      · have hb' := (alls_nodup (ids_nodup hd).1).1 _ _ hb
        obtain ⟨r1, r2⟩ := mention n a b hb' e h
        refine ⟨?_, ?_⟩
        · intro c hc
          obtain ⟨x, hx, e1⟩ := r1 c hc
          exact ⟨x, child_all ha x (by rw [all_cons]; simp [hx]), e1⟩
        · intro d' j hj
          obtain ⟨y, hy, e1⟩ := r2 d' j hj
          exact ⟨y, child_all hb y (by rw [all_cons]; simp [hy]), e1⟩
      · have : e.src? = some a.id ∧ ∀ d' j, e ≠ .insert d' j := by
          unfold pairEdit at h
          split at h
          · split at h
            · simp at h
              subst h
              simp [Edit.src?]
            · simp at h
          · simp at h
            subst h
            simp [Edit.src?]
        refine ⟨?_, fun d' j hj => absurd hj (this.2 d' j)⟩
        intro c hc
        rw [this.1] at hc
        exact ⟨a, child_all ha a (self_mem a), Option.some.inj hc⟩
      · refine ⟨?_, by simp⟩
        intro c hc
        exact ⟨x, child_all hx x (self_mem x), by simpa [Edit.src?] using hc⟩
    · rw [diffSub] at he
      split at he
      · simp at he
      · rw [if_pos (by simpa using hk)] at he
        simp at he

theorem pairEdit_src {s d : T} {i j : Nat} {e : Edit} (h : e ∈ pairEdit eq s d i j) :
    e.src? = some s.id ∧ (∀ d' j, e ≠ .insert d' j) ∧ pairEdit eq s d i j = [e] := by
  unfold pairEdit at h ⊢
  split at h
  · rename_i h1
    rw [if_pos h1]
    split at h
    · rename_i h2
      rw [if_pos h2]
      simp at h
      subst h
      simp [Edit.src?]
    · simp at h
  · rename_i h1
    rw [if_neg h1]
    simp at h
    subst h
    simp [Edit.src?]

/-! ## Reading the edits -/

theorem fate_none {E : List Edit} {c : Nat} (h : ∀ e ∈ E, e.src? ≠ some c) : fate E c = none := by
  rw [fate, List.find?_eq_none]
  intro e he
  simpa using h e he

theorem fate_some {E : List Edit} {c : Nat} {e : Edit} (he : e ∈ E) (hc : e.src? = some c)
    (h : ∀ e' ∈ E, e'.src? = some c → e' = e) : fate E c = some e := by
  cases hf : fate E c with
  | none =>
    rw [fate, List.find?_eq_none] at hf
    exact absurd hc (by simpa using hf e he)
  | some e' =>
    rw [h e' (List.mem_of_find?_eq_some hf) (by simpa using List.find?_some hf)]

theorem inserted_none {E : List Edit} {d : Nat} (h : ∀ j, .insert d j ∉ E) : inserted E d = none := by
  rw [inserted, List.findSome?_eq_none_iff]
  intro e he
  cases e with
  | insert d' j =>
    have : d' ≠ d := fun h' => h j (h' ▸ he)
    simp [this]
  | _ => rfl

theorem inserted_some {E : List Edit} {d j : Nat} (he : .insert d j ∈ E) (h : ∀ j', .insert d j' ∈ E → j' = j) :
    inserted E d = some j := by
  cases hf : inserted E d with
  | none =>
    rw [inserted, List.findSome?_eq_none_iff] at hf
    simpa using hf _ he
  | some j' =>
    obtain ⟨e, h1, h2⟩ := List.exists_of_findSome?_eq_some hf
    cases e with
    | insert d' k =>
      simp only at h2
      split at h2
      · rename_i e1
        subst e1
        obtain rfl := Option.some.inj h2
        rw [h _ h1]
      · simp at h2
    | _ => simp at h2

theorem lookup_some {α : Type} {l : List (Nat × α)} {j : Nat} {x : α} (h : ∀ y, (j, y) ∈ l → y = x) (hx : (j, x) ∈ l) :
    l.lookup j = some x := by
  induction l with
  | nil => simp at hx
  | cons a l ih =>
    obtain ⟨k, y⟩ := a
    rw [List.lookup_cons]
    by_cases e : j = k
    · subst e
      simp [h y (by simp)]
    · have : (j == k) = false := by simpa using e
      rw [this]
      rcases List.mem_cons.1 hx with h1 | h1
      · injection h1 with e1
        exact absurd e1 e
      · exact ih (fun y hy => h y (by simp [hy])) h1

theorem mapM_range {α : Type} (r : List α) (f : Nat → Option α) (h : ∀ j (hj : j < r.length), f j = some r[j]) :
    (List.range r.length).mapM f = some r := by
  have : ∀ (l : List Nat) (t : List α), l.length = t.length → (∀ k (h1 : k < l.length) (h2 : k < t.length), f l[k] = some t[k]) →
      l.mapM f = some t := by
    intro l
    induction l with
    | nil =>
      intro t ht _
      cases t with
      | nil => rfl
      | cons => simp at ht
    | cons a l ih =>
      intro t ht hf
      cases t with
      | nil => simp at ht
      | cons b t =>
        have h0 : f a = some b := hf 0 (by simp) (by simp)
        have h1 := ih t (by simpa using ht) (fun k h1 h2 => by
          have := hf (k + 1) (by simpa using h1) (by simpa using h2)
          simpa using this)
        rw [List.mapM_cons, h0, h1]
        rfl
  exact this _ r (by simp) (fun k h1 h2 => by simpa using h k h2)

theorem place_some {α : Type} {l : List (Nat × α)} {r : List α} (hn : (l.map Prod.fst).Nodup)
    (h1 : ∀ j x, (j, x) ∈ l → r[j]? = some x) (h2 : ∀ j, j < r.length → ∃ x, (j, x) ∈ l) : place l = some r := by
  have hlen : l.length = r.length := by
    have hp : (l.map Prod.fst).Perm (List.range r.length) := by
      rw [List.perm_ext_iff_of_nodup hn List.nodup_range]
      intro j
      rw [List.mem_map, List.mem_range]
      constructor
      · rintro ⟨⟨k, x⟩, hk, rfl⟩
        exact (List.getElem?_eq_some_iff.1 (h1 k x hk)).1
      · intro hj
        obtain ⟨x, hx⟩ := h2 j hj
        exact ⟨_, hx, rfl⟩
    simpa using hp.length_eq
  rw [place, hlen]
  refine mapM_range r _ fun j hj => ?_
  obtain ⟨x, hx⟩ := h2 j hj
  have hr := List.getElem?_eq_getElem hj
  refine lookup_some (fun y hy => ?_) ?_
  · have := h1 j y hy
    rw [hr] at this
    exact (Option.some.inj this).symm
  · have := h1 j x hx
    rw [hr] at this
    rw [Option.some.inj this]
    exact hx

theorem shapes_get : ∀ (ts : List T) (j : Nat), (shapes ts)[j]? = ts[j]?.map T.shape
  | [], j => by simp [shapes]
  | t :: ts, j => by
    cases j with
    | zero => simp [shapes]
    | succ j => simpa [shapes] using shapes_get ts j

theorem shapes_length (ts : List T) : (shapes ts).length = ts.length := by
  induction ts with
  | nil => rfl
  | cons t ts ih => simp [shapes, ih]

/-- The edits found for the pair are the edits about the nodes below it. -/
structure Local (E : List Edit) (n : Nat) (s d : T) : Prop where
  sub : ∀ e ∈ diffSub eq n s d, e ∈ E
  src : ∀ e ∈ E, ∀ c ∈ alls s.subs, e.src? = some c.id → e ∈ diffSub eq n s d
  ins : ∀ d' ∈ alls d.subs, ∀ j, .insert d'.id j ∈ E → .insert d'.id j ∈ diffSub eq n s d

/-- the inserted subnodes with their indices -/
theorem new_ok (E : List Edit) (is : List Nat) : ∀ (ds : List T) (k : Nat),
    (∀ m d, ds[m]? = some d → inserted E d.id = if (k + m) ∈ is then some (k + m) else none) →
    let new := ds.filterMap (fun d => (inserted E d.id).map (fun j => (j, d.shape)))
    (new.map Prod.fst).Nodup ∧ (∀ j x, (j, x) ∈ new ↔ k ≤ j ∧ j ∈ is ∧ ∃ d, ds[j - k]? = some d ∧ x = d.shape)
  | [], k, _ => by simp
  | d :: ds, k, h => by
    intro new
    obtain ⟨r1, r2⟩ := new_ok E is ds (k + 1) (fun m d hm => by
      have := h (m + 1) d (by simpa using hm)
      rw [show k + 1 + m = k + (m + 1) by omega]
      exact this)
    have h0 := h 0 d rfl
    simp only [Nat.add_zero] at h0
    have hget : ∀ j, k + 1 ≤ j → (d :: ds)[j - k]? = ds[j - (k + 1)]? := by
      intro j hj
      rw [show j - k = (j - (k + 1)) + 1 by omega]
      simp
    by_cases hm : k ∈ is
    · rw [if_pos hm] at h0
      have e : new = (k, d.shape) :: ds.filterMap (fun d => (inserted E d.id).map (fun j => (j, d.shape))) := by
        simp only [new, List.filterMap_cons, h0, Option.map_some]
      rw [e]
      refine ⟨?_, ?_⟩
      · rw [List.map_cons, List.nodup_cons]
        refine ⟨?_, r1⟩
        rw [List.mem_map]
        rintro ⟨⟨j, x⟩, hj, e1⟩
        have := ((r2 j x).1 hj).1
        simp only at e1
        omega
      · intro j x
        rw [List.mem_cons, r2]
        constructor
        · rintro (h1 | ⟨h1, h2, d', h3, h4⟩)
          · injection h1 with e1 e2
            subst e1
            exact ⟨Nat.le_refl _, hm, d, by simp, e2⟩
          · exact ⟨by omega, h2, d', by rw [hget j h1]; exact h3, h4⟩
        · rintro ⟨h1, h2, d', h3, h4⟩
          by_cases ej : j = k
          · subst ej
            simp at h3
            subst h3
            exact .inl (by rw [h4])
          · rw [hget j (by omega)] at h3
            exact .inr ⟨by omega, h2, d', h3, h4⟩
    · rw [if_neg hm] at h0
      have e : new = ds.filterMap (fun d => (inserted E d.id).map (fun j => (j, d.shape))) := by
        simp only [new, List.filterMap_cons, h0, Option.map_none]
      rw [e]
      refine ⟨r1, ?_⟩
      intro j x
      rw [r2]
      constructor
      · rintro ⟨h1, h2, d', h3, h4⟩
        exact ⟨by omega, h2, d', by rw [hget j h1]; exact h3, h4⟩
      · rintro ⟨h1, h2, d', h3, h4⟩
        have : j ≠ k := fun e => hm (e ▸ h2)
        rw [hget j (by omega)] at h3
        exact ⟨by omega, h2, d', h3, h4⟩

/-- the subnodes that stay, with their indices -/
theorem kept_ok (E : List Edit) (p : T) (ps : List (Nat × Nat)) (hinj : ∀ i i' q, (i, q) ∈ ps → (i', q) ∈ ps → i = i')
    (hfun : ∀ i q q', (i, q) ∈ ps → (i, q') ∈ ps → q = q') : ∀ (cs : List T) (i : Nat),
    (∀ m c, cs[m]? = some c →
      ((∀ q, (i + m, q) ∉ ps) ∧ ∃ a b, fate E c.id = some (.delete a b)) ∨
      (∃ q d, (i + m, q) ∈ ps ∧ p.subs[q]? = some d ∧ rebuild E c d = some d.shape ∧
        ((fate E c.id = none ∧ q = i + m) ∨ ((∃ a b, fate E c.id = some (.move a d.id b q)) ∧ p.subs.find? (fun x => x.id == d.id) = some d) ∨
         ((∃ a b, fate E c.id = some (.update a d.id b q)) ∧ p.subs.find? (fun x => x.id == d.id) = some d)))) →
    ∃ kept, rebuildSubs E cs i p = some kept ∧ (kept.map Prod.fst).Nodup ∧
      (∀ j x, (j, x) ∈ kept ↔ ∃ i', i ≤ i' ∧ i' < i + cs.length ∧ (i', j) ∈ ps ∧ ∃ d, p.subs[j]? = some d ∧ x = d.shape)
  | [], i, _ => ⟨[], by simp [rebuildSubs], by simp, by intro j x; simp; intro i' h1 h2; omega⟩
  | c :: cs, i, h => by
    obtain ⟨kept, h1, h2, h3⟩ := kept_ok E p ps hinj hfun cs (i + 1) (fun m c hm => by
      have := h (m + 1) c (by simpa using hm)
      rw [show i + 1 + m = i + (m + 1) by omega]
      exact this)
    have h0 := h 0 c rfl
    simp only [Nat.add_zero] at h0
    rcases h0 with ⟨hno, a, b, hf⟩ | ⟨q, d, hq, hd, hr, hcase⟩
    · refine ⟨kept, ?_, h2, ?_⟩
      · rw [rebuildSubs, h1]
        simp [hf]
      · intro j x
        rw [h3]
        constructor
        · rintro ⟨i', a1, a2, a3⟩
          exact ⟨i', by omega, by simp only [List.length_cons]; omega, a3⟩
        · rintro ⟨i', a1, a2, a3, a4⟩
          have : i' ≠ i := fun e => hno j (e ▸ a3)
          simp only [List.length_cons] at a2
          exact ⟨i', by omega, by omega, a3, a4⟩
    · refine ⟨(q, d.shape) :: kept, ?_, ?_, ?_⟩
      · rw [rebuildSubs, h1]
        rcases hcase with ⟨hf, e⟩ | ⟨⟨a, b, hf⟩, e⟩ | ⟨⟨a, b, hf⟩, e⟩
        · subst e
          simp [hf, hd, hr]
        · simp [hf, e, hr]
        · simp [hf, e, hr]
      · rw [List.map_cons, List.nodup_cons]
        refine ⟨?_, h2⟩
        rw [List.mem_map]
        rintro ⟨⟨j, x⟩, hj, e1⟩
        obtain ⟨i', a1, a2, a3, _⟩ := (h3 j x).1 hj
        simp only at e1
        subst e1
        have := hinj _ _ _ a3 hq
        omega
      · intro j x
        rw [List.mem_cons, h3]
        constructor
        · rintro (e | ⟨i', a1, a2, a3⟩)
          · injection e with e1 e2
            subst e1 e2
            exact ⟨i, Nat.le_refl _, by simp, hq, d, hd, rfl⟩
          · exact ⟨i', by omega, by simp only [List.length_cons]; omega, a3⟩
        · rintro ⟨i', a1, a2, a3, d', a4, a5⟩
          simp only [List.length_cons] at a2
          by_cases e : i' = i
          · subst e
            have := hfun _ _ _ a3 hq
            subst this
            rw [hd] at a4
            obtain rfl := Option.some.inj a4
            exact .inl (by rw [a5])
          · exact .inr ⟨i', by omega, by omega, a3, d', a4, a5⟩

theorem heights_le {ts : List T} {i : Nat} {t : T} (h : ts[i]? = some t) : t.height ≤ heights ts := by
  induction ts generalizing i with
  | nil => simp at h
  | cons a ts ih =>
    rw [heights]
    cases i with
    | zero =>
      simp at h
      subst h
      omega
    | succ i =>
      have := ih (by simpa using h)
      omega

theorem height_eq (t : T) : t.height = heights t.subs + 1 := by
  cases t
  simp [T.height, T.subs]

theorem rebuild_eq (E : List Edit) (s p : T) : rebuild E s p = (do
    let kept ← rebuildSubs E s.subs 0 p
    let new := p.subs.filterMap (fun d => (inserted E d.id).map (fun j => (j, d.shape)))
    let r ← place (kept ++ new)
    some (if isUpdated E s.id then .node p.kind p.val r else .node s.kind s.val r)) := by
  cases s
  rw [rebuild]
  rfl

theorem shape_eq (t : T) : t.shape = .node t.kind t.val (shapes t.subs) := by
  cases t
  simp [T.shape, T.kind, T.val, T.subs]

theorem rebuild_ok (E : List Edit) : ∀ (n : Nat) (s d : T), s.height ≤ n → s.kind = d.kind → s.ids.Nodup → d.ids.Nodup →
    (∀ x ∈ s.all, ∀ y ∈ d.all, eq x.id y.id = true → x.val = y.val) → Local eq E n s d →
    (isUpdated E s.id = true ∨ s.val = d.val) → rebuild E s d = some d.shape
  | 0, s, d, h, _, _, _, _, _, _ => by rw [height_eq] at h; omega
  | n + 1, s, d, hh, hk, hs, hd, hv, hl, hu => by
    obtain ⟨p', out, ps, is, hr, hout⟩ := level eq n s d hk hd
    obtain ⟨i1, i2, i3, i4, i5⟩ := hr.indices
    obtain ⟨_, s2, s3, s4⟩ := hr.sources
    simp only [Nat.sub_zero, Nat.zero_add, Nat.zero_le, true_and, forall_const] at i1 i2 i3 s2
    have hsA := alls_nodup (ids_nodup hs).1
    have hdA := alls_nodup (ids_nodup hd).1
    have mem_diff : ∀ e, e ∈ diffSub eq (n + 1) s d ↔
        (∃ q ∈ is, ∃ x, d.subs[q]? = some x ∧ e = .insert x.id q) ∨
        (∃ q ∈ ps, ∃ a b, s.subs[q.1]? = some a ∧ d.subs[q.2]? = some b ∧ (e ∈ diffSub eq n a b ∨ e ∈ pairEdit eq a b q.1 q.2)) ∨
        (∃ k x, s.subs[k]? = some x ∧ x.id ∉ p' ∧ e = .delete x.id k) := by
      intro e
      rw [hout, List.mem_append, hr.edits, mem_deletes]
      simp only [Nat.sub_zero, Nat.zero_add, or_assoc]
    -- the edits about a direct subnode
    have atChild : ∀ (i : Nat) (c : T), s.subs[i]? = some c → ∀ e, (e ∈ E ∧ e.src? = some c.id) ↔
        (∃ j b, (i, j) ∈ ps ∧ d.subs[j]? = some b ∧ e ∈ pairEdit eq c b i j) ∨ (c.id ∉ p' ∧ e = .delete c.id i) := by
      intro i c hc e
      constructor
      · rintro ⟨he, hec⟩
        have := hl.src e he c (child_all hc c (self_mem c)) hec
        rcases (mem_diff e).1 this with ⟨q, hq, x, hx, rfl⟩ | ⟨q, hq, a, b, ha, hb, h | h⟩ | ⟨k, x, hx, hp, rfl⟩
        · simp [Edit.src?] at hec
        · obtain ⟨x, hx, e1⟩ := (mention eq n a b (hdA.1 _ _ hb) e h).1 _ hec
          have e2 := hsA.2 _ _ _ _ _ _ ha hc (by rw [all_cons]; simp [hx]) (self_mem c) e1
          rw [e2, hc] at ha
          obtain rfl := Option.some.inj ha
          exact absurd e1 ((ids_nodup (hsA.1 _ _ hc)).2 x hx)
        · rw [(pairEdit_src eq h).1] at hec
          have e2 := hsA.2 _ _ _ _ _ _ ha hc (self_mem a) (self_mem c) (Option.some.inj hec)
          rw [e2, hc] at ha
          obtain rfl := Option.some.inj ha
          refine .inl ⟨q.2, b, ?_, hb, e2 ▸ h⟩
          rw [← e2]
          exact hq
        · simp only [Edit.src?, Option.some.injEq] at hec
          have e2 := hsA.2 _ _ _ _ _ _ hx hc (self_mem x) (self_mem c) hec
          rw [e2, hc] at hx
          obtain rfl := Option.some.inj hx
          exact .inr ⟨hp, by rw [e2]⟩
      · rintro (⟨j, b, hq, hb, h⟩ | ⟨hp, rfl⟩)
        · exact ⟨hl.sub e ((mem_diff e).2 (.inr (.inl ⟨(i, j), hq, c, b, hc, hb, .inr h⟩))), (pairEdit_src eq h).1⟩
        · exact ⟨hl.sub _ ((mem_diff _).2 (.inr (.inr ⟨i, c, hc, hp, rfl⟩))), rfl⟩
    -- the insertions of a direct subnode
    have atDst : ∀ (j : Nat) (b : T), d.subs[j]? = some b → ∀ j', .insert b.id j' ∈ E ↔ j' = j ∧ j ∈ is := by
      intro j b hb j'
      constructor
      · intro he
        have := hl.ins b (child_all hb b (self_mem b)) j' he
        rcases (mem_diff _).1 this with ⟨q, hq, x, hx, e1⟩ | ⟨q, hq, a, b', ha, hb', h | h⟩ | ⟨k, x, hx, hp, e1⟩
        · injection e1 with e1 e2
          have e3 := hdA.2 _ _ _ _ _ _ hb hx (self_mem b) (self_mem x) e1
          subst e3 e2
          exact ⟨rfl, hq⟩
        · obtain ⟨y, hy, e1⟩ := (mention eq n a b' (hdA.1 _ _ hb') _ h).2 _ _ rfl
          have e2 := hdA.2 _ _ _ _ _ _ hb' hb (by rw [all_cons]; simp [hy]) (self_mem b) e1
          rw [e2, hb] at hb'
          obtain rfl := Option.some.inj hb'
          exact absurd e1 ((ids_nodup (hdA.1 _ _ hb)).2 y hy)
        · exact absurd rfl ((pairEdit_src eq h).2.1 _ _)
        · simp at e1
      · rintro ⟨rfl, hj⟩
        exact hl.sub _ ((mem_diff _).2 (.inl ⟨_, hj, b, hb, rfl⟩))
    -- the edits below a matched pair
    have localChild : ∀ (i j : Nat) (a b : T), (i, j) ∈ ps → s.subs[i]? = some a → d.subs[j]? = some b → Local eq E n a b := by
      intro i j a b hq ha hb
      refine ⟨?_, ?_, ?_⟩
      · intro e he
        exact hl.sub e ((mem_diff e).2 (.inr (.inl ⟨(i, j), hq, a, b, ha, hb, .inl he⟩)))
      · intro e he c hc hec
        have hca : c ∈ a.all := by rw [all_cons]; simp [hc]
        have := hl.src e he c (child_all ha c hca) hec
        rcases (mem_diff e).1 this with ⟨q, hq', x, hx, rfl⟩ | ⟨q, hq', a', b', ha', hb', h | h⟩ | ⟨k, x, hx, hp, rfl⟩
        · simp [Edit.src?] at hec
        · obtain ⟨x, hx, e1⟩ := (mention eq n a' b' (hdA.1 _ _ hb') e h).1 _ hec
          have e2 := hsA.2 _ _ _ _ _ _ ha' ha (by rw [all_cons]; simp [hx]) hca e1
          have e3 : q.2 = j := s4 i q.2 j (by rw [← e2]; exact hq') hq
          rw [e2, ha] at ha'
          obtain rfl := Option.some.inj ha'
          rw [e3, hb] at hb'
          obtain rfl := Option.some.inj hb'
          exact h
        · rw [(pairEdit_src eq h).1] at hec
          have e2 := hsA.2 _ _ _ _ _ _ ha' ha (self_mem a') hca (Option.some.inj hec)
          rw [e2, ha] at ha'
          obtain rfl := Option.some.inj ha'
          exact absurd (Option.some.inj hec).symm ((ids_nodup (hsA.1 _ _ ha)).2 c hc)
        · simp only [Edit.src?, Option.some.injEq] at hec
          have e2 := hsA.2 _ _ _ _ _ _ hx ha (self_mem x) hca hec
          rw [e2, ha] at hx
          obtain rfl := Option.some.inj hx
          exact absurd hec.symm ((ids_nodup (hsA.1 _ _ ha)).2 c hc)
      · intro d' hd' j' he
        have hdb : d' ∈ b.all := by rw [all_cons]; simp [hd']
        have := hl.ins d' (child_all hb d' hdb) j' he
        rcases (mem_diff _).1 this with ⟨q, hq', x, hx, e1⟩ | ⟨q, hq', a', b', ha', hb', h | h⟩ | ⟨k, x, hx, hp, e1⟩
        · injection e1 with e1 e2
          have e3 := hdA.2 _ _ _ _ _ _ hb hx hdb (self_mem x) e1
          rw [← e3, hb] at hx
          obtain rfl := Option.some.inj hx
          exact absurd e1 ((ids_nodup (hdA.1 _ _ hb)).2 d' hd')
        · obtain ⟨y, hy, e1⟩ := (mention eq n a' b' (hdA.1 _ _ hb') _ h).2 _ _ rfl
          have e2 := hdA.2 _ _ _ _ _ _ hb' hb (by rw [all_cons]; simp [hy]) hdb e1
          have e3 : q.1 = i := i5 q.1 i j (by rw [← e2]; exact hq') hq
          rw [e2, hb] at hb'
          obtain rfl := Option.some.inj hb'
          rw [e3, ha] at ha'
          obtain rfl := Option.some.inj ha'
          exact h
        · exact absurd rfl ((pairEdit_src eq h).2.1 _ _)
        · simp at e1
    have hfind : ∀ (j : Nat) (b : T), d.subs[j]? = some b → d.subs.find? (fun x => x.id == b.id) = some b := by
      intro j b hb
      cases hf : d.subs.find? (fun x => x.id == b.id) with
      | none =>
        rw [List.find?_eq_none] at hf
        simpa using hf b (List.mem_of_getElem? hb)
      | some y =>
        obtain ⟨j', hj'⟩ := List.mem_iff_getElem?.1 (List.mem_of_find?_eq_some hf)
        have e1 : y.id = b.id := by simpa using List.find?_some hf
        have e2 := hdA.2 _ _ _ _ _ _ hj' hb (self_mem y) (self_mem b) e1
        rw [e2, hb] at hj'
        exact hj'.symm
    -- the subnodes
    obtain ⟨kept, k1, k2, k3⟩ := kept_ok E d ps i5 s4 s.subs 0 (by
      intro m c hc
      simp only [Nat.zero_add]
      have hA := atChild m c hc
      by_cases hm : ∃ j, (m, j) ∈ ps
      · right
        obtain ⟨j, hq⟩ := hm
        obtain ⟨c', hc', _, hcp, b, hb, hkb⟩ := s2 _ hq
        simp only at hc' hb
        rw [hc] at hc'
        obtain rfl := Option.some.inj hc'
        have only : ∀ e, (e ∈ E ∧ e.src? = some c.id) ↔ e ∈ pairEdit eq c b m j := by
          intro e
          rw [hA]
          constructor
          · rintro (⟨j', b', h1, h2, h3⟩ | ⟨h1, _⟩)
            · have := s4 _ _ _ h1 hq
              subst this
              rw [hb] at h2
              obtain rfl := Option.some.inj h2
              exact h3
            · exact absurd hcp h1
          · intro h
            exact .inl ⟨j, b, hq, hb, h⟩
        have hb' : b ∈ d.all := by rw [all_cons]; simp [child_all hb b (self_mem b)]
        have hc' : c ∈ s.all := by rw [all_cons]; simp [child_all hc c (self_mem c)]
        have hfate : ∀ e, pairEdit eq c b m j = [e] → fate E c.id = some e := by
          intro e he
          have := (only e).2 (by simp [he])
          refine fate_some this.1 this.2 (fun e' h1 h2 => ?_)
          have := (only e').1 ⟨h1, h2⟩
          rw [he] at this
          simpa using this
        have hupd : isUpdated E c.id = true ∨ c.val = b.val := by
          by_cases he : eq c.id b.id
          · exact .inr (hv c hc' b hb' he)
          · left
            have : pairEdit eq c b m j = [.update c.id b.id m j] := by simp [pairEdit, he]
            rw [isUpdated, hfate _ this]
        have hreb := rebuild_ok E n c b (by have := heights_le hc; rw [height_eq] at hh; omega) hkb (hsA.1 _ _ hc) (hdA.1 _ _ hb)
          (fun x hx y hy => hv x (by rw [all_cons]; simp [child_all hc x hx]) y (by rw [all_cons]; simp [child_all hb y hy]))
          (localChild m j c b hq hc hb) hupd
        refine ⟨j, b, hq, hb, hreb, ?_⟩
        by_cases he : eq c.id b.id
        · by_cases hmj : m = j
          · refine .inl ⟨fate_none ?_, hmj.symm⟩
            intro e h1 h2
            have := (only e).1 ⟨h1, h2⟩
            simp [pairEdit, he, hmj] at this
          · exact .inr (.inl ⟨⟨c.id, m, hfate _ (by simp [pairEdit, he, hmj])⟩, hfind j b hb⟩)
        · exact .inr (.inr ⟨⟨c.id, m, hfate _ (by simp [pairEdit, he])⟩, hfind j b hb⟩)
      · left
        refine ⟨fun q hq => hm ⟨q, hq⟩, c.id, m, ?_⟩
        have hp : c.id ∉ p' := by
          intro hp
          rcases s3 _ hp with h | ⟨q, hq, s', h1, h2⟩
          · simp at h
          · have := hsA.2 _ _ _ _ _ _ h1 hc (self_mem s') (self_mem c) h2
            exact hm ⟨q.2, by rw [← this]; exact hq⟩
        have := (hA _).2 (.inr ⟨hp, rfl⟩)
        refine fate_some this.1 this.2 (fun e' h1 h2 => ?_)
        rcases (hA e').1 ⟨h1, h2⟩ with ⟨j, b, h3, _⟩ | ⟨_, h3⟩
        · exact absurd ⟨j, h3⟩ hm
        · exact h3)
    obtain ⟨n1, n2⟩ := new_ok E is d.subs 0 (by
      intro m b hb
      simp only [Nat.zero_add]
      have := atDst m b hb
      split
      · rename_i hm
        exact inserted_some ((this m).2 ⟨rfl, hm⟩) (fun j' hj' => ((this j').1 hj').1)
      · rename_i hm
        exact inserted_none (fun j hj => hm ((this j).1 hj).2))
    have hplace : place (kept ++ d.subs.filterMap (fun d => (inserted E d.id).map (fun j => (j, d.shape)))) = some (shapes d.subs) := by
      refine place_some ?_ ?_ ?_
      · rw [List.map_append, List.nodup_append]
        refine ⟨k2, n1, ?_⟩
        intro a ha b hb e
        subst e
        obtain ⟨⟨j, x⟩, h1, rfl⟩ := List.mem_map.1 ha
        obtain ⟨⟨j', x'⟩, h2, e⟩ := List.mem_map.1 hb
        simp only at e
        subst e
        obtain ⟨i', _, _, h3, _⟩ := (k3 _ _).1 h1
        exact i4 _ _ h3 ((n2 _ _).1 h2).2.1
      · intro j x hx
        rw [shapes_get]
        rcases List.mem_append.1 hx with hx | hx
        · obtain ⟨_, _, _, _, b, hb, rfl⟩ := (k3 _ _).1 hx
          rw [hb]
          rfl
        · obtain ⟨_, _, b, hb, rfl⟩ := (n2 _ _).1 hx
          rw [Nat.sub_zero] at hb
          rw [hb]
          rfl
      · intro j hj
        rw [shapes_length] at hj
        have hb := List.getElem?_eq_getElem hj
        rcases i3 j hj with h | ⟨i, h⟩
        · exact ⟨_, List.mem_append.2 (.inr ((n2 _ _).2 ⟨Nat.zero_le _, h, _, by rw [Nat.sub_zero]; exact hb, rfl⟩))⟩
        · obtain ⟨c', hc', _⟩ := s2 _ h
          simp only at hc'
          have := (List.getElem?_eq_some_iff.1 hc').1
          exact ⟨_, List.mem_append.2 (.inl ((k3 _ _).2 ⟨i, Nat.zero_le _, by omega, h, _, hb, rfl⟩))⟩
    rw [rebuild_eq, k1]
    simp only [Option.bind_eq_bind, Option.bind_some]
    rw [hplace, shape_eq d]
    simp only [Option.bind_some]
    rcases hu with hu | hu
    · rw [if_pos hu]
    · rw [hk, hu]
      simp

end Verif.AstDiff
