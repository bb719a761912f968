import Verif.Imm.Reads
import Mathlib.Data.List.Infix
import Mathlib.Data.List.Nodup
import Mathlib.Data.List.Range
import Mathlib.Data.List.Sort
import Mathlib.Data.List.Forall2
import Mathlib.Tactic.SplitIfs

/-! # Writing new children to the fields of a value -/

namespace Verif.Imm

variable {D : Type} [DecidableEq D]

theorem assignField_mem {old group kids : List (Step × Id)} (h : assignField old group = .ok kids) :
    ∀ k ∈ kids, ∃ k' ∈ group ++ old, k'.2 = k.2 := by
  unfold assignField at h
  split at h
  · injection h with h
    subst h
    simp
  · rename_i st i gs
    split at h
    · injection h with h
      subst h
      intro k hk
      obtain ⟨i, hi, rfl⟩ := List.mem_mapIdx.1 hk
      exact ⟨_, List.mem_append_left _ (List.getElem_mem hi), rfl⟩
    · split at h
      · rename_i k0 hk0
        injection h with h
        subst h
        intro k hk
        rw [hk0]
        exact ⟨k, List.mem_append_left _ hk, rfl⟩
      · simp at h
    · injection h with h
      subst h
      intro k hk
      rw [List.mem_map] at hk
      obtain ⟨k0, hk0, rfl⟩ := hk
      cases hf : List.find? (fun g => decide (g.1 = k0.1)) ((st, i) :: gs) with
      | none => exact ⟨k0, List.mem_append_right _ (List.mem_of_mem_filter hk0), by simp⟩
      | some g => exact ⟨g, List.mem_append_left _ (List.mem_of_find?_eq_some hf), by simp⟩

theorem groupFields_flatten : ∀ l : List (Step × Id), (groupFields l).flatten = l := by
  intro l
  induction l with
  | nil => rfl
  | cons k ks ih =>
    unfold groupFields
    split
    · rename_i k' g gs he
      rw [he] at ih
      split
      · simp only [List.flatten_cons, List.cons_append] at ih ⊢
        rw [ih]
      · simp only [List.flatten_cons, List.cons_append, List.nil_append] at ih ⊢
        rw [ih]
    · simp only [List.flatten_cons, List.cons_append, List.nil_append]
      rw [ih]

theorem mapM_mem {α β : Type} {f : α → Except Err β} : ∀ {l : List α} {r : List β}, l.mapM f = .ok r →
    ∀ b ∈ r, ∃ a ∈ l, f a = .ok b := by
  intro l
  induction l with
  | nil =>
    intro r h
    simp only [List.mapM_nil, pure, Except.pure] at h
    injection h with h
    subst h
    simp
  | cons a l ih =>
    intro r h
    simp only [List.mapM_cons, bind, Except.bind, pure, Except.pure] at h
    split at h
    · simp at h
    · rename_i b hb
      split at h
      · simp at h
      · rename_i bs hbs
        injection h with h
        subst h
        intro x hx
        rcases List.mem_cons.1 hx with hx | hx
        · exact ⟨a, by simp, by rw [hx]; exact hb⟩
        · obtain ⟨a', h1, h2⟩ := ih hbs x hx
          exact ⟨a', by simp [h1], h2⟩

theorem newKids_mem {srt : List (Step × Id) → List (Step × Id)} (hsrt : ∀ l, (srt l).Perm l)
    {old up kids : List (Step × Id)} (h : newKids srt old up = .ok kids) : ∀ k ∈ kids, ∃ k' ∈ up ++ old, k'.2 = k.2 := by
  unfold newKids at h
  cases hm : List.mapM (fun g => assignField old g) (groupFields (srt up)) with
  | error e => rw [hm] at h; simp [Except.map] at h
  | ok r =>
    rw [hm] at h
    simp only [Except.map] at h
    injection h with h
    subst h
    intro k hk
    obtain ⟨l, hl, hk⟩ := List.mem_flatten.1 hk
    obtain ⟨g, hg, ha⟩ := mapM_mem hm l hl
    obtain ⟨k', hk', he⟩ := assignField_mem ha k hk
    refine ⟨k', ?_, he⟩
    rcases List.mem_append.1 hk' with h' | h'
    · refine List.mem_append_left _ ((hsrt up).subset ?_)
      rw [← groupFields_flatten (srt up)]
      exact List.mem_flatten.2 ⟨g, hg, h'⟩
    · exact List.mem_append_right _ h'

theorem isField_nodup {f : Nat} {l : List Step} (h : IsField f l) : l.Nodup := by
  rcases h with h | h | h
  · rw [h]
    refine List.Nodup.map ?_ List.nodup_range
    intro a b hab
    simpa using hab
  · rw [h]; simp
  · exact h.1

theorem shaped_nodup {l : List Step} (h : Shaped l) : l.Nodup := by
  rw [List.nodup_iff_count_le_one]
  intro a
  have h1 := List.nodup_iff_count_le_one.1 (isField_nodup (h.fields a.field)) a
  rwa [List.count_filter (by simp)] at h1

theorem groupFields_filter : ∀ {l : List (Step × Id)}, l.Pairwise (fun a b => a.1.field ≤ b.1.field) →
    ∀ g ∈ groupFields l, g ≠ [] ∧ ∃ f, g = l.filter (fun k => decide (k.1.field = f)) := by
  have key : ∀ {l : List (Step × Id)}, l.Pairwise (fun a b => a.1.field ≤ b.1.field) →
      (∀ g ∈ groupFields l, g ≠ [] ∧ ∃ f, g = l.filter (fun k => decide (k.1.field = f))) ∧
      (∀ g gs, groupFields l = g :: gs → ∃ k ks, l = k :: ks ∧ g = l.filter (fun x => decide (x.1.field = k.1.field)) ∧
        ∀ g' ∈ gs, ∃ f, k.1.field < f ∧ g' = l.filter (fun k => decide (k.1.field = f))) := by
    intro l
    induction l with
    | nil => intro _; simp [groupFields]
    | cons k ks ih =>
      intro hp
      obtain ⟨h1, h2⟩ := List.pairwise_cons.1 hp
      obtain ⟨ih1, ih2⟩ := ih h2
      rw [groupFields]
      split
      · rename_i k' g gs he
        obtain ⟨k0, ks0, e0, eg, egs⟩ := ih2 _ _ he
        have hk0 : k' = k0 := by
          subst e0
          simp only [decide_true, List.filter_cons_of_pos] at eg
          injection eg
        subst hk0
        have hle : k.1.field ≤ k'.1.field := h1 k' (by rw [e0]; simp)
        split
        · rename_i hf
          refine ⟨?_, ?_⟩
          · intro x hx
            rcases List.mem_cons.1 hx with hx | hx
            · refine ⟨by rw [hx]; simp, k.1.field, ?_⟩
              rw [hx, eg, hf]
              simp [hf]
            · obtain ⟨f, hf1, hf2⟩ := egs x hx
              refine ⟨(ih1 x (by rw [he]; simp [hx])).1, f, ?_⟩
              rw [List.filter_cons_of_neg (by simp; omega)]
              exact hf2
          · intro x xs hxs
            injection hxs with e1 e2
            refine ⟨k, ks, rfl, ?_, ?_⟩
            · rw [← e1, eg, hf]
              simp [hf]
            · intro y hy
              rw [← e2] at hy
              obtain ⟨f, hf1, hf2⟩ := egs y hy
              refine ⟨f, by omega, ?_⟩
              rw [List.filter_cons_of_neg (by simp; omega)]
              exact hf2
        · rename_i hf
          have hnone : ks.filter (fun x => decide (x.1.field = k.1.field)) = [] := by
            rw [List.filter_eq_nil_iff]
            intro x hx
            simp only [decide_eq_true_eq]
            rw [e0] at hx
            rcases List.mem_cons.1 hx with hx | hx
            · rw [hx]; omega
            · rw [e0] at h2
              have := (List.pairwise_cons.1 h2).1 x hx
              omega
          have hall : ∀ y ∈ (k' :: g) :: gs, ∃ f, k.1.field < f ∧ y = (k :: ks).filter (fun k => decide (k.1.field = f)) := by
            intro y hy
            rcases List.mem_cons.1 hy with hy | hy
            · refine ⟨k'.1.field, by omega, ?_⟩
              rw [List.filter_cons_of_neg (by simp; omega), hy, eg]
            · obtain ⟨f, hf1, hf2⟩ := egs y hy
              refine ⟨f, by omega, ?_⟩
              rw [List.filter_cons_of_neg (by simp; omega)]
              exact hf2
          refine ⟨?_, ?_⟩
          · intro x hx
            rcases List.mem_cons.1 hx with hx | hx
            · refine ⟨by rw [hx]; simp, k.1.field, ?_⟩
              rw [hx]
              simp [hnone]
            · refine ⟨(ih1 x (by rw [he]; exact hx)).1, ?_⟩
              obtain ⟨f, _, hf2⟩ := hall x hx
              exact ⟨f, hf2⟩
          · intro x xs hxs
            injection hxs with e1 e2
            refine ⟨k, ks, rfl, ?_, ?_⟩
            · rw [← e1]
              simp [hnone]
            · rw [← e2]
              exact hall
      · rename_i gs hgs
        have hnil : ks = [] := by
          cases hks : groupFields ks with
          | nil =>
            have := groupFields_flatten ks
            rw [hks] at this
            exact this.symm
          | cons g gs' =>
            cases g with
            | nil => exact absurd rfl (ih1 [] (by rw [hks]; simp)).1
            | cons a g => exact absurd hks (hgs a g gs')
        subst hnil
        refine ⟨?_, ?_⟩
        · intro x hx
          simp only [groupFields, List.mem_singleton] at hx
          exact ⟨by rw [hx]; simp, k.1.field, by rw [hx]; simp⟩
        · intro x xs hxs
          simp only [groupFields] at hxs
          injection hxs with e1 e2
          refine ⟨k, [], rfl, by rw [← e1]; simp, by rw [← e2]; simp⟩
  intro l h
  exact (key h).1

theorem mapM_self {α : Type} {f : α → Except Err α} : ∀ {l : List α}, (∀ a ∈ l, f a = .ok a) → l.mapM f = .ok l := by
  intro l
  induction l with
  | nil => intro _; rfl
  | cons a l ih =>
    intro h
    simp only [List.mapM_cons, bind, Except.bind, pure, Except.pure, h a (by simp), ih (fun x hx => h x (by simp [hx]))]

theorem find_self : ∀ {g : List (Step × Id)}, (g.map (·.1)).Nodup → ∀ k ∈ g,
    g.find? (fun x => decide (x.1 = k.1)) = some k := by
  intro g
  induction g with
  | nil => simp
  | cons a g ih =>
    intro hn k hk
    simp only [List.map_cons, List.nodup_cons, List.mem_map, not_exists, not_and] at hn
    rcases List.mem_cons.1 hk with h | h
    · rw [h]; simp
    · rw [List.find?_cons_of_neg]
      · exact ih hn.2 k h
      · simp only [decide_eq_true_eq]
        intro he
        exact hn.1 k h he.symm

theorem update_self : ∀ {g old : List (Step × Id)} (G : List (Step × Id)), (G.map (·.1)).Nodup → (∀ k ∈ g, k ∈ G) →
    old.map (·.1) = g.map (·.1) →
    old.map (fun k => (k.1, ((G.find? (fun x => decide (x.1 = k.1))).map (·.2)).getD k.2)) = g := by
  intro g
  induction g with
  | nil =>
    intro old G _ _ h
    simp only [List.map_nil, List.map_eq_nil_iff] at h
    simp [h]
  | cons a g ih =>
    intro old G hn hG h
    cases old with
    | nil => simp at h
    | cons o old =>
      simp only [List.map_cons, List.cons.injEq] at h
      simp only [List.map_cons, List.cons.injEq]
      refine ⟨?_, ih G hn (fun k hk => hG k (by simp [hk])) h.2⟩
      rw [h.1, find_self hn a (hG a (by simp))]
      rfl

theorem assignField_self {old g : List (Step × Id)} {f : Nat} (hg : ∀ k ∈ g, k.1.field = f)
    (hf : IsField f (g.map (·.1))) (ho : (old.filter (fun k => decide (k.1.field = f))).map (·.1) = g.map (·.1)) :
    assignField old g = .ok g := by
  unfold assignField
  cases g with
  | nil => rfl
  | cons a g =>
    obtain ⟨st, i⟩ := a
    simp only
    have hst := hg (st, i) (by simp)
    simp only at hst
    have hnd := isField_nodup hf
    rcases hf with hf | hf | hf
    · have hk : ∀ j (hj : j < ((st, i) :: g).length), ((st, i) :: g)[j].1 = ⟨f, .idx j⟩ := by
        intro j hj
        have := congrArg (fun l => l[j]?) hf
        simp only [List.getElem?_map, List.length_map] at this
        rw [List.getElem?_range hj, List.getElem?_eq_getElem hj] at this
        simpa using this
      have h0 := hk 0 (by simp)
      simp only [List.getElem_cons_zero] at h0
      rw [h0]
      simp only
      congr 1
      refine List.ext_getElem (by simp) ?_
      intro j h1 h2
      rw [List.getElem_mapIdx]
      have hj := hk j (by simpa using h2)
      rw [h0] at hj
      exact Prod.ext hj.symm rfl
    · simp only [List.map_cons, List.cons.injEq, List.map_eq_nil_iff] at hf
      rw [hf.1]
      simp only
      rw [hf.2]
    · obtain ⟨s, hs⟩ := hf.2 st (by simp)
      have : st.key = .name s := by rw [hs]
      rw [this]
      simp only
      rw [hst, update_self ((st, i) :: g) hnd (fun _ h => h) ho]

theorem newKids_self {srt : List (Step × Id) → List (Step × Id)}
    (hsrt : ∀ l, l.Pairwise (fun a b => a.1.field ≤ b.1.field) → srt l = l) {old l : List (Step × Id)}
    (hl : Shaped (l.map (·.1))) (ho : old.map (·.1) = l.map (·.1)) : newKids srt old l = .ok l := by
  have hp : l.Pairwise (fun a b => a.1.field ≤ b.1.field) := by
    have := hl.order
    rw [List.pairwise_map] at this
    exact this
  unfold newKids
  rw [hsrt l hp, mapM_self (l := groupFields l)]
  · simp only [Except.map]
    rw [groupFields_flatten]
  · intro g hg
    obtain ⟨_, f, hf⟩ := groupFields_filter hp g hg
    have hmap : ∀ l : List (Step × Id), (l.filter (fun k => decide (k.1.field = f))).map (·.1)
        = (l.map (·.1)).filter (fun st => decide (st.field = f)) := by
      intro l
      rw [List.filter_map]
      rfl
    refine assignField_self (f := f) ?_ ?_ ?_
    · intro k hk
      rw [hf] at hk
      simpa using (List.mem_filter.1 hk).2
    · rw [hf, hmap]
      exact hl.fields f
    · rw [hf, hmap, hmap, ho]


/-! ## The places of the result -/

/-- The field of a group. -/
def headField (g : List (Step × Id)) : Nat := (g.head?.map (fun k => k.1.field)).getD 0

theorem groupFields_increasing : ∀ {l : List (Step × Id)}, l.Pairwise (fun a b => a.1.field ≤ b.1.field) →
    ((groupFields l).map headField).Pairwise (· < ·) ∧ (∀ k ks, l = k :: ks → ((groupFields l).map headField).head? = some k.1.field) ∧
    ∀ f, f ∈ (groupFields l).map headField ↔ ∃ k ∈ l, k.1.field = f := by
  intro l
  induction l with
  | nil => intro _; simp [groupFields]
  | cons k ks ih =>
    intro hp
    obtain ⟨h1, h2⟩ := List.pairwise_cons.1 hp
    obtain ⟨ih1, ih2, ih3⟩ := ih h2
    rw [groupFields]
    split
    · rename_i k' g gs he
      rw [he] at ih1 ih2 ih3
      have hle : k.1.field ≤ k'.1.field := by
        have : k' ∈ ks := by
          rw [← groupFields_flatten ks, he]
          simp
        exact h1 k' this
      split
      · rename_i hf
        have e : List.map headField ((k :: k' :: g) :: gs) = List.map headField ((k' :: g) :: gs) := by
          simp [headField, hf]
        rw [e]
        refine ⟨ih1, ?_, ?_⟩
        · intro x xs hx
          injection hx with hx _
          rw [← hx]
          simp [headField, hf]
        · intro f
          rw [ih3]
          simp only [List.mem_cons, exists_eq_or_imp]
          constructor
          · exact .inr
          · rintro (h | h)
            · have : k' ∈ ks := by
                rw [← groupFields_flatten ks, he]
                simp
              exact ⟨k', this, by rw [← hf]; exact h⟩
            · exact h
      · rename_i hf
        have hh : ∀ f ∈ List.map headField ((k' :: g) :: gs), k.1.field < f := by
          intro f hfm
          rw [List.map_cons, List.mem_cons] at hfm
          rw [List.map_cons, List.pairwise_cons] at ih1
          have h0 : headField (k' :: g) = k'.1.field := rfl
          rcases hfm with hfm | hfm
          · rw [hfm, h0]; omega
          · have := ih1.1 f hfm
            rw [h0] at this
            omega
        refine ⟨?_, ?_, ?_⟩
        · rw [List.map_cons, List.pairwise_cons]
          exact ⟨hh, ih1⟩
        · intro x xs hx
          injection hx with hx _
          rw [← hx]
          simp [headField]
        · intro f
          rw [List.map_cons, List.mem_cons, ih3]
          simp only [List.mem_cons, exists_eq_or_imp]
          have h0 : headField [k] = k.1.field := rfl
          rw [h0]
          constructor
          · rintro (h | h)
            · exact .inl h.symm
            · exact .inr h
          · rintro (h | h)
            · exact .inl h.symm
            · exact .inr h
    · rename_i gs hgs
      have hnil : ks = [] := by
        cases hks : groupFields ks with
        | nil =>
          have := groupFields_flatten ks
          rw [hks] at this
          exact this.symm
        | cons g gs' =>
          cases g with
          | nil => exact absurd rfl (groupFields_filter h2 [] (by rw [hks]; simp)).1
          | cons a g => exact absurd hks (hgs a g gs')
      subst hnil
      refine ⟨by simp [groupFields], ?_, ?_⟩
      · intro x xs hx
        injection hx with hx _
        rw [← hx]
        simp [groupFields, headField]
      · intro f
        simp [groupFields, headField, eq_comm]

theorem filter_map_fst (l : List (Step × Id)) (f : Nat) : (l.filter (fun k => decide (k.1.field = f))).map (·.1)
    = (l.map (·.1)).filter (fun st => decide (st.field = f)) := by
  rw [List.filter_map]
  rfl

theorem assignField_steps {old g out : List (Step × Id)} {f : Nat} {S : List Step} (hg : ∀ k ∈ g, k.1.field = f)
    (hne : g ≠ []) (hS : IsField f S) (hp : (g.map (·.1)).Perm S)
    (ho : (old.filter (fun k => decide (k.1.field = f))).map (·.1) = S) (h : assignField old g = .ok out) :
    out.map (·.1) = S := by
  cases g with
  | nil => exact absurd rfl hne
  | cons a g =>
    obtain ⟨st, i⟩ := a
    have hst := hg (st, i) (by simp)
    simp only at hst
    have hmem : st ∈ S := hp.subset (by simp)
    have hlen := hp.length_eq
    unfold assignField at h
    simp only at h
    rcases hS with hS | hS | hS
    · have hk : ∃ j, st.key = .idx j := by
        rw [hS, List.mem_map] at hmem
        obtain ⟨j, _, rfl⟩ := hmem
        exact ⟨j, rfl⟩
      obtain ⟨j, hj⟩ := hk
      rw [hj] at h
      simp only at h
      injection h with h
      rw [← h, hS, ← hlen]
      refine List.ext_getElem (by simp) ?_
      intro n h1 h2
      rw [List.getElem_map, List.getElem_mapIdx, List.getElem_map, List.getElem_range]
      simp only
      rw [← hst]
    · rw [hS] at hmem
      simp only [List.mem_singleton] at hmem
      have hj : st.key = .deref := by rw [hmem]
      rw [hj] at h
      simp only at h
      rw [hS] at hlen
      simp only [List.length_map, List.length_cons, List.length_nil, Nat.reduceAdd, Nat.add_eq_right,
        List.length_eq_zero_iff] at hlen
      rw [hlen] at h
      simp only at h
      injection h with h
      rw [← h, hS]
      simp [hmem]
    · obtain ⟨s, hs⟩ := hS.2 st hmem
      have hj : st.key = .name s := by rw [hs]
      rw [hj] at h
      simp only at h
      injection h with h
      rw [← h, hst, List.map_map]
      exact ho

theorem mapM_forall2 {α β : Type} {f : α → Except Err β} : ∀ {l : List α} {r : List β}, l.mapM f = .ok r →
    List.Forall₂ (fun a b => f a = .ok b) l r := by
  intro l
  induction l with
  | nil =>
    intro r h
    simp only [List.mapM_nil, pure, Except.pure] at h
    injection h with h
    rw [← h]
    exact .nil
  | cons a l ih =>
    intro r h
    simp only [List.mapM_cons, bind, Except.bind, pure, Except.pure] at h
    split at h
    · simp at h
    · rename_i b hb
      split at h
      · simp at h
      · rename_i bs hbs
        injection h with h
        rw [← h]
        exact .cons hb (ih hbs)

/-- Whatever the order within a field: the result has the places of the value. -/
theorem newKids_steps {srt : List (Step × Id) → List (Step × Id)} (hsrt : Sorts srt) {old l kids : List (Step × Id)}
    (hl : Shaped (l.map (·.1))) (ho : old.map (·.1) = l.map (·.1)) (h : newKids srt old l = .ok kids) :
    kids.map (·.1) = l.map (·.1) := by
  have hp : l.Pairwise (fun a b => a.1.field ≤ b.1.field) := by
    have := hl.order
    rw [List.pairwise_map] at this
    exact this
  obtain ⟨hperm, hsort⟩ := hsrt l
  -- the steps of a field
  let S : Nat → List Step := fun f => (l.map (·.1)).filter (fun st => decide (st.field = f))
  have hfields : (groupFields (srt l)).map headField = (groupFields l).map headField := by
    obtain ⟨a1, _, a3⟩ := groupFields_increasing hsort
    obtain ⟨b1, _, b3⟩ := groupFields_increasing hp
    have hpm : ((groupFields (srt l)).map headField).Perm ((groupFields l).map headField) := by
      refine (List.perm_ext_iff_of_nodup (a1.imp (fun h => Nat.ne_of_lt h)) (b1.imp (fun h => Nat.ne_of_lt h))).2 ?_
      intro f
      rw [a3, b3]
      constructor
      · rintro ⟨k, hk, he⟩; exact ⟨k, hperm.subset hk, he⟩
      · rintro ⟨k, hk, he⟩; exact ⟨k, hperm.symm.subset hk, he⟩
    exact hpm.eq_of_pairwise (fun a b _ _ h1 h2 => absurd h1 (Nat.lt_asymm h2)) a1 b1
  have hgroup : ∀ {L : List (Step × Id)}, L.Pairwise (fun a b => a.1.field ≤ b.1.field) → ∀ g ∈ groupFields L,
      g ≠ [] ∧ g = L.filter (fun k => decide (k.1.field = headField g)) := by
    intro L hL g hg
    obtain ⟨h1, f, h2⟩ := groupFields_filter hL g hg
    refine ⟨h1, ?_⟩
    cases g with
    | nil => exact absurd rfl h1
    | cons a g =>
      have : a ∈ L.filter (fun k => decide (k.1.field = f)) := by rw [← h2]; simp
      have : a.1.field = f := by simpa using (List.mem_filter.1 this).2
      have e : headField (a :: g) = f := this
      rw [e]
      exact h2
  unfold newKids at h
  cases hm : List.mapM (fun g => assignField old g) (groupFields (srt l)) with
  | error e => rw [hm] at h; simp [Except.map] at h
  | ok outs =>
    rw [hm] at h
    simp only [Except.map] at h
    injection h with h
    subst h
    have hall := mapM_forall2 hm
    have hout : ∀ (gs outs : List (List (Step × Id))), (∀ g ∈ gs, g ∈ groupFields (srt l)) →
        List.Forall₂ (fun g o => assignField old g = .ok o) gs outs →
        (outs.flatten).map (·.1) = (gs.map (fun g => S (headField g))).flatten := by
      intro gs outs hmem hall
      induction hall with
      | nil => rfl
      | @cons g o gs outs hgo _ ih =>
        have hg := hgroup hsort g (hmem g (by simp))
        rw [List.flatten_cons, List.map_append, ih (fun x hx => hmem x (by simp [hx])), List.map_cons, List.flatten_cons]
        congr 1
        have hgm : (g.map (·.1)).Perm (S (headField g)) := by
          show (g.map (·.1)).Perm ((l.map (·.1)).filter (fun st => decide (st.field = headField g)))
          rw [← filter_map_fst]
          have : (g.map (·.1)) = ((srt l).filter (fun k => decide (k.1.field = headField g))).map (·.1) := by
            rw [← hg.2]
          rw [this]
          exact (hperm.filter _).map _
        refine assignField_steps (f := headField g) ?_ hg.1 (hl.fields _) hgm ?_ hgo
        · intro k hk
          rw [hg.2] at hk
          simpa using (List.mem_filter.1 hk).2
        · rw [filter_map_fst, ho]
    rw [hout _ _ (fun _ h => h) hall]
    have hback : ∀ gs : List (List (Step × Id)), (∀ g ∈ gs, g ∈ groupFields l) →
        (gs.map (fun g => S (headField g))).flatten = gs.flatten.map (·.1) := by
      intro gs hmem
      induction gs with
      | nil => rfl
      | cons g gs ih =>
        have hg := hgroup hp g (hmem g (by simp))
        rw [List.map_cons, List.flatten_cons, List.flatten_cons, List.map_append, ih (fun x hx => hmem x (by simp [hx]))]
        congr 1
        show (l.map (·.1)).filter (fun st => decide (st.field = headField g)) = _
        rw [← filter_map_fst, ← hg.2]
    have e1 : (groupFields (srt l)).map (fun g => S (headField g)) = ((groupFields (srt l)).map headField).map S := by
      rw [List.map_map]; rfl
    have e2 : (groupFields l).map (fun g => S (headField g)) = ((groupFields l).map headField).map S := by
      rw [List.map_map]; rfl
    rw [e1, hfields, ← e2, hback _ (fun _ h => h), groupFields_flatten]

end Verif.Imm
