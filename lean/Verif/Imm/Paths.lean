import Verif.Imm.Tracking

/-! # The reported paths of a node -/

namespace Verif.Imm

variable {D : Type} [DecidableEq D]

/-- No stored value uses a place twice. -/
def Distinct (s : Store D) : Prop := ∀ (i : Nat) (v : Val D), s[i]? = some v → (v.kids.map (·.1)).Nodup

theorem distinct_kids {s : Store D} (h : Distinct s) (i : Id) : ((s.kids i).map (·.1)).Nodup := by
  unfold Store.kids
  split
  · rename_i v hv
    exact h i v hv
  · simp

theorem atStep_iff {s : Store D} (h : Distinct s) {i j : Id} {st : Step} : s.atStep i st = some j ↔ (st, j) ∈ s.kids i := by
  unfold Store.atStep
  constructor
  · intro hx
    rw [Option.map_eq_some_iff] at hx
    obtain ⟨k, hk, rfl⟩ := hx
    have h1 := List.mem_of_find?_eq_some hk
    have h2 := List.find?_some hk
    simp only [decide_eq_true_eq] at h2
    rw [← h2]
    exact h1
  · intro hx
    have := find_self (distinct_kids h i) (st, j) hx
    simp only at this
    rw [this]
    rfl

theorem at_snoc {s : Store D} (h : Distinct s) {r i : Id} {p : List Step} {st : Step} :
    s.at r (p ++ [st]) = some i ↔ ∃ j, s.at r p = some j ∧ (st, i) ∈ s.kids j := by
  rw [at_append, Option.bind_eq_some_iff]
  constructor
  · rintro ⟨j, h1, h2⟩
    refine ⟨j, h1, ?_⟩
    simp only [Store.at] at h2
    split at h2
    · rename_i x hx
      injection h2 with h2
      rw [← h2]
      exact (atStep_iff h).1 hx
    · simp at h2
  · rintro ⟨j, h1, h2⟩
    refine ⟨j, h1, ?_⟩
    simp only [Store.at]
    rw [(atStep_iff h).2 h2]

theorem mapM_some {α β : Type} {f : α → Option β} {g : α → β} : ∀ {l : List α}, (∀ a ∈ l, f a = some (g a)) →
    l.mapM f = some (l.map g) := by
  intro l
  induction l with
  | nil => intro _; rfl
  | cons a l ih =>
    intro h
    rw [List.mapM_cons, h a (by simp), ih (fun x hx => h x (by simp [hx]))]
    rfl

theorem mem_relative {s : Store D} {p q : Id} {st : Step} : st ∈ s.relative p q ↔ (st, q) ∈ s.kids p := by
  unfold Store.relative
  simp only [List.mem_map, List.mem_filter, decide_eq_true_eq]
  constructor
  · rintro ⟨k, ⟨h1, h2⟩, rfl⟩
    rw [← h2]
    exact h1
  · intro h
    exact ⟨(st, q), ⟨h, rfl⟩, rfl⟩

theorem relative_nodup {s : Store D} (h : Distinct s) (p q : Id) : (s.relative p q).Nodup := by
  unfold Store.relative
  exact List.Nodup.sublist (List.Sublist.map _ List.filter_sublist) (distinct_kids h p)

theorem mem_parentsFor {c : Ctx D} {id : Id} {r : Id × List Step} : r ∈ c.parentsFor id ↔
    Lists c.parents r.1 id ∧ r.2 = c.store.relative r.1 id ∧ r.2 ≠ [] := by
  unfold Ctx.parentsFor
  simp only [List.mem_filter, List.mem_map, Bool.not_eq_eq_eq_not, Bool.not_true, List.isEmpty_eq_false_iff]
  constructor
  · rintro ⟨⟨p, hp, rfl⟩, h⟩
    refine ⟨?_, rfl, h⟩
    cases hl : c.parents id with
    | none => rw [hl] at hp; simp at hp
    | some l =>
      rw [hl] at hp
      exact ⟨l, hl, hp⟩
  · rintro ⟨⟨l, hl, hp⟩, h1, h2⟩
    refine ⟨⟨r.1, ?_, by rw [← h1]⟩, h2⟩
    rw [hl]
    exact hp

theorem parentsFor_nodup {c : Ctx D} (h : Once c.parents) (id : Id) : ((c.parentsFor id).map (·.1)).Nodup := by
  unfold Ctx.parentsFor
  refine List.Nodup.sublist (List.Sublist.map _ List.filter_sublist) ?_
  rw [List.map_map]
  have : ((fun x : Id × List Step => x.1) ∘ fun p => (p, c.store.relative p id)) = (fun p => p) := rfl
  rw [this, List.map_id']
  cases hl : c.parents id with
  | none => simp
  | some l => exact h id l hl

/-- The paths through one parent. -/
def through (up : List (Id × List Step)) (r : Id × List Step) : List (Id × List Step) :=
  if up.isEmpty then r.2.map (fun st => (r.1, [st]))
  else up.flatMap (fun q => r.2.map (fun st => (q.1, q.2 ++ [st])))

theorem pathsFor_succ (c : Ctx D) (fuel : Nat) (id : Id) :
    c.pathsFor (fuel + 1) id = ((c.parentsFor id).mapM (fun r => (c.pathsFor fuel r.1).map (fun up => through up r))).map
      List.flatten := by
  rw [Ctx.pathsFor]
  rfl

/-- Paths are found with fuel for the remaining ids. -/
theorem pathsFor_some {c : Ctx D} (hb : Below c.store) (hs : Sound c) : ∀ (fuel : Nat) (id : Id),
    c.store.length - id < fuel → ∃ l, c.pathsFor fuel id = some l := by
  intro fuel
  induction fuel with
  | zero => intro id h; exact absurd h (Nat.not_lt_zero _)
  | succ fuel ih =>
    intro id h
    rw [pathsFor_succ]
    have : (c.parentsFor id).mapM (fun r => (c.pathsFor fuel r.1).map (fun up => through up r))
        = some ((c.parentsFor id).map (fun r => through ((c.pathsFor fuel r.1).getD []) r)) := by
      apply mapM_some
      intro r hr
      obtain ⟨h1, _, _⟩ := mem_parentsFor.1 hr
      obtain ⟨h3, _, st, h4⟩ := hs.sound _ _ h1
      have h5 := kids_lt hb h4
      have h6 : id < r.1 := h5.1
      have h7 : r.1 < c.store.length := h5.2
      obtain ⟨l, hl⟩ := ih r.1 (by
        have h6' : (show Nat from id) < (show Nat from r.1) := h6
        have h7' : (show Nat from r.1) < c.store.length := h7
        show c.store.length - (show Nat from r.1) < fuel
        have h' : c.store.length - (show Nat from id) < fuel + 1 := h
        omega)
      rw [hl]
      rfl
    rw [this]
    exact ⟨_, rfl⟩

theorem pathsFor_eq {c : Ctx D} (hb : Below c.store) (hs : Sound c) {fuel : Nat} {id : Id} (h : c.store.length - id < fuel + 1) :
    c.pathsFor (fuel + 1) id = some ((c.parentsFor id).flatMap (fun r => through ((c.pathsFor fuel r.1).getD []) r)) ∧
    ∀ r ∈ c.parentsFor id, c.store.length - r.1 < fuel := by
  have hlt : ∀ r ∈ c.parentsFor id, c.store.length - r.1 < fuel := by
    intro r hr
    obtain ⟨h1, _, _⟩ := mem_parentsFor.1 hr
    obtain ⟨h3, _, st, h4⟩ := hs.sound _ _ h1
    have h5 := kids_lt hb h4
    have h6' : (show Nat from id) < (show Nat from r.1) := h5.1
    have h7' : (show Nat from r.1) < c.store.length := h5.2
    show c.store.length - (show Nat from r.1) < fuel
    have h' : c.store.length - (show Nat from id) < fuel + 1 := h
    omega
  refine ⟨?_, hlt⟩
  rw [pathsFor_succ, mapM_some (g := fun r => through ((c.pathsFor fuel r.1).getD []) r)]
  · simp only [Option.map_some, List.flatMap]
  · intro r hr
    obtain ⟨l, hl⟩ := pathsFor_some hb hs fuel r.1 (hlt r hr)
    rw [hl]
    rfl

theorem through_ne {up : List (Id × List Step)} {r : Id × List Step} (h : r.2 ≠ []) : through up r ≠ [] := by
  unfold through
  split
  · simpa using h
  · rename_i hu
    intro hx
    cases up with
    | nil => simp at hu
    | cons q up =>
      rw [List.flatMap_cons, List.append_eq_nil_iff] at hx
      simp [h] at hx

theorem mem_through {up : List (Id × List Step)} {r : Id × List Step} {x : Id × List Step} : x ∈ through up r ↔
    ∃ q st, x.2 = q ++ [st] ∧ st ∈ r.2 ∧ ((up = [] ∧ x.1 = r.1 ∧ q = []) ∨ (x.1, q) ∈ up) := by
  unfold through
  split
  · rename_i hu
    simp only [List.isEmpty_iff] at hu
    subst hu
    simp only [List.mem_map]
    constructor
    · rintro ⟨st, h1, rfl⟩
      exact ⟨[], st, rfl, h1, .inl ⟨by simp, rfl, rfl⟩⟩
    · rintro ⟨q, st, h1, h2, h3 | h3⟩
      · refine ⟨st, h2, ?_⟩
        rw [h3.2.2] at h1
        exact Prod.ext h3.2.1.symm h1.symm
      · simp at h3
  · rename_i hu
    have hne : up ≠ [] := by intro he; rw [he] at hu; simp at hu
    simp only [List.mem_flatMap, List.mem_map]
    constructor
    · rintro ⟨q, hq, st, h1, rfl⟩
      exact ⟨q.2, st, rfl, h1, .inr hq⟩
    · rintro ⟨q, st, h1, h2, h3 | h3⟩
      · exact absurd h3.1 hne
      · exact ⟨(x.1, q), h3, st, h2, Prod.ext rfl h1.symm⟩

theorem through_nodup {up : List (Id × List Step)} (hu : up.Nodup) {r : Id × List Step} (hr : r.2.Nodup) :
    (through up r).Nodup := by
  unfold through
  split
  · exact hr.map (fun a b h => by simpa using h)
  · rw [List.nodup_flatMap]
    refine ⟨?_, ?_⟩
    · intro q _
      exact hr.map (fun a b h => by simpa using h)
    · refine List.Pairwise.imp ?_ hu
      intro a b hab x hxa hxb
      simp only [List.mem_map] at hxa hxb
      obtain ⟨s1, _, rfl⟩ := hxa
      obtain ⟨s2, _, h2⟩ := hxb
      injection h2 with e1 e2
      have := List.append_inj_left' e2 rfl
      exact hab (Prod.ext e1.symm this.symm)

/-- Every path found leads to the node. -/
theorem pathsFor_sound {c : Ctx D} (hb : Below c.store) (hd : Distinct c.store) (hs : Sound c) : ∀ (fuel : Nat) (id : Id)
    (l : List (Id × List Step)), c.store.length - id < fuel → c.pathsFor fuel id = some l →
    ∀ x ∈ l, x.2 ≠ [] ∧ c.store.at x.1 x.2 = some id := by
  intro fuel
  induction fuel with
  | zero => intro id l h; exact absurd h (Nat.not_lt_zero _)
  | succ fuel ih =>
    intro id l h hl x hx
    obtain ⟨h1, h2⟩ := pathsFor_eq hb hs h
    rw [hl] at h1
    injection h1 with h1
    rw [h1, List.mem_flatMap] at hx
    obtain ⟨r, hr, hx⟩ := hx
    obtain ⟨hp, hst, _⟩ := mem_parentsFor.1 hr
    obtain ⟨l', hl'⟩ := pathsFor_some hb hs fuel r.1 (h2 r hr)
    rw [hl', Option.getD_some, mem_through] at hx
    obtain ⟨q, st, e1, e2, e3⟩ := hx
    rw [e1]
    refine ⟨by simp, ?_⟩
    rw [hst, mem_relative] at e2
    rw [at_snoc hd]
    refine ⟨r.1, ?_, e2⟩
    rcases e3 with ⟨_, e4, e5⟩ | e3
    · rw [e4, e5]
      rfl
    · exact (ih r.1 l' (h2 r hr) hl' _ e3).2

/-- The paths found are the occurrences, each once. -/
theorem pathsFor_exact {c : Ctx D} (hd : Distinct c.store) (he : Exact c) : ∀ (fuel : Nat) (id : Id),
    c.store.length - id < fuel → ∃ l, c.pathsFor fuel id = some l ∧ l.Nodup ∧
      (l = [] ↔ ∀ x, ¬ ChildOf c.store x id) ∧ ∀ x, x ∈ l ↔ Occurs c.store x.1 x.2 id := by
  have hb := he.good.below
  have hs : Sound c := ⟨he.once, fun p q h => (he.exact p q).1 h⟩
  intro fuel
  induction fuel with
  | zero => intro id h; exact absurd h (Nat.not_lt_zero _)
  | succ fuel ih =>
    intro id h
    obtain ⟨h1, h2⟩ := pathsFor_eq hb hs h
    have hpar : ∀ r, r ∈ c.parentsFor id ↔ ChildOf c.store r.1 id ∧ r.2 = c.store.relative r.1 id := by
      intro r
      rw [mem_parentsFor, he.exact]
      constructor
      · rintro ⟨a, b, _⟩; exact ⟨a, b⟩
      · rintro ⟨a, b⟩
        refine ⟨a, b, ?_⟩
        obtain ⟨_, _, st, hst⟩ := a
        intro hx
        rw [b] at hx
        have := mem_relative.2 hst
        rw [hx] at this
        simp at this
    refine ⟨_, h1, ?_, ?_, ?_⟩
    · rw [List.nodup_flatMap]
      refine ⟨?_, ?_⟩
      · intro r hr
        obtain ⟨l', hl', hn, _⟩ := ih r.1 (h2 r hr)
        rw [hl', Option.getD_some]
        refine through_nodup hn ?_
        rw [((hpar r).1 hr).2]
        exact relative_nodup hd _ _
      · have hpw : (c.parentsFor id).Pairwise (fun a b => a.1 ≠ b.1) := by
          have := parentsFor_nodup he.once id
          unfold List.Nodup at this
          rw [List.pairwise_map] at this
          exact this
        refine List.Pairwise.imp_of_mem ?_ hpw
        intro a b ha hb' hab x hxa hxb
        -- the last but one node of the path tells the parent
        have key : ∀ r, r ∈ c.parentsFor id → x ∈ through ((c.pathsFor fuel r.1).getD []) r →
            ∃ q st, x.2 = q ++ [st] ∧ c.store.at x.1 q = some r.1 := by
          intro r hr hx
          obtain ⟨l', hl'⟩ := pathsFor_some hb hs fuel r.1 (h2 r hr)
          rw [hl', Option.getD_some, mem_through] at hx
          obtain ⟨q, st, e1, _, e3⟩ := hx
          refine ⟨q, st, e1, ?_⟩
          rcases e3 with ⟨_, e4, e5⟩ | e3
          · rw [e4, e5]; rfl
          · exact (pathsFor_sound hb hd hs fuel r.1 l' (h2 r hr) hl' _ e3).2
        obtain ⟨q1, s1, e1, f1⟩ := key a ha hxa
        obtain ⟨q2, s2, e2, f2⟩ := key b hb' hxb
        rw [e1] at e2
        have := List.append_inj_left' e2 rfl
        rw [this, f2] at f1
        injection f1 with f1
        exact hab f1.symm
    · constructor
      · intro hx x hc
        rw [List.flatMap_eq_nil_iff] at hx
        have hr : (x, c.store.relative x id) ∈ c.parentsFor id := (hpar _).2 ⟨hc, rfl⟩
        exact through_ne (mem_parentsFor.1 hr).2.2 (hx _ hr)
      · intro hx
        rw [List.flatMap_eq_nil_iff]
        intro r hr
        exact absurd ((hpar r).1 hr).1 (hx r.1)
    · intro x
      rw [List.mem_flatMap]
      constructor
      · rintro ⟨r, hr, hx⟩
        obtain ⟨hc, hrel⟩ := (hpar r).1 hr
        obtain ⟨l', hl', _, hnil, hocc⟩ := ih r.1 (h2 r hr)
        rw [hl', Option.getD_some, mem_through] at hx
        obtain ⟨q, st, e1, e2, e3⟩ := hx
        rw [hrel, mem_relative] at e2
        have hq : c.store.at x.1 q = some r.1 ∧ (∀ q', q' <+: q → ∃ j, c.store.at x.1 q' = some j ∧ c.store.tracked j = true) ∧
            ∀ y, ¬ ChildOf c.store y x.1 := by
          rcases e3 with ⟨e0, e4, e5⟩ | e3
          · rw [e4, e5]
            refine ⟨rfl, ?_, hnil.1 e0⟩
            intro q' hq'
            rw [List.prefix_nil] at hq'
            rw [hq']
            exact ⟨r.1, rfl, hc.1⟩
          · exact ((hocc _).1 e3).2
        refine ⟨by rw [e1]; simp, by rw [e1, at_snoc hd]; exact ⟨r.1, hq.1, e2⟩, ?_, hq.2.2⟩
        intro q' hq'
        rw [e1] at hq'
        rcases prefix_snoc hq' with hx | hx
        · exact hq.2.1 q' hx
        · rw [hx]
          exact ⟨id, (at_snoc hd).2 ⟨r.1, hq.1, e2⟩, hc.2.1⟩
      · rintro ⟨hne, hat, htr, htop⟩
        obtain ⟨q, st, hq⟩ : ∃ q st, x.2 = q ++ [st] := ⟨x.2.dropLast, x.2.getLast hne, (List.dropLast_append_getLast hne).symm⟩
        rw [hq, at_snoc hd] at hat
        obtain ⟨j, hj, hk⟩ := hat
        have hjt : c.store.tracked j = true := by
          obtain ⟨j', h3, h4⟩ := htr q (by rw [hq]; exact List.prefix_append _ _)
          rw [hj] at h3
          injection h3 with h3
          rw [h3]
          exact h4
        have hidt : c.store.tracked id = true := by
          obtain ⟨j', h3, h4⟩ := htr x.2 (List.prefix_refl _)
          rw [hq, (at_snoc hd).2 ⟨j, hj, hk⟩] at h3
          injection h3 with h3
          rw [h3]
          exact h4
        have hc : ChildOf c.store j id := ⟨hjt, hidt, st, hk⟩
        have hr : (j, c.store.relative j id) ∈ c.parentsFor id := (hpar _).2 ⟨hc, rfl⟩
        refine ⟨_, hr, ?_⟩
        obtain ⟨l', hl', _, hnil, hocc⟩ := ih j (h2 _ hr)
        rw [hl', Option.getD_some, mem_through]
        refine ⟨q, st, hq, mem_relative.2 hk, ?_⟩
        by_cases hq0 : q = []
        · left
          rw [hq0] at hj
          simp only [Store.at] at hj
          injection hj with hj
          refine ⟨hnil.2 ?_, hj, hq0⟩
          rw [← hj]
          exact htop
        · right
          rw [hocc]
          exact ⟨hq0, hj, fun q' hq' => htr q' (by rw [hq]; exact hq'.trans (List.prefix_append _ _)), htop⟩

end Verif.Imm
