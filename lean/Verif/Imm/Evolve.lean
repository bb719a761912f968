import Verif.Imm.Kids
import Mathlib.Logic.Relation

/-! # What all operations have in common: one value after the other is stored -/

namespace Verif.Imm

variable {D : Type} [DecidableEq D]

/-- All ids in the list are stored. -/
def Valid (s : Store D) (kids : List (Step × Id)) : Prop := ∀ k ∈ kids, k.2 < s.length

/-- Stored children at proper places. -/
def Proper (s : Store D) (kids : List (Step × Id)) : Prop := Valid s kids ∧ Shaped (kids.map (·.1))

/-- One value is stored, replacing a target (which may be the value itself). -/
def SetStep (c c' : Ctx D) : Prop := ∃ target v, Proper c.store v.kids ∧ c' = (setNode c target v).2

/-- Any number of values. -/
def Evolves : Ctx D → Ctx D → Prop := Relation.ReflTransGen SetStep

theorem stored_lt {s : Store D} {i : Nat} {v : Val D} (h : s[i]? = some v) : i < s.length :=
  (List.getElem?_eq_some_iff.1 h).1

theorem setNode_store (c : Ctx D) (target : Uniq) (v : Val D) : (setNode c target v).2.store = (c.store.add v).2 := by
  unfold setNode
  simp only
  split <;> simp only [insert_store, remove_store]

theorem setNode_ctx (c : Ctx D) (target : Uniq) (v : Val D) :
    (setNode c target v).2 = (({ c with store := (c.store.add v).2 } : Ctx D).removeAllSubnodesOf target.id).insertAllSubnodesOf
      (c.store.add v).1 := by
  unfold setNode
  simp only
  split <;> rfl

theorem setNode_prefix (c : Ctx D) (target : Uniq) (v : Val D) : c.store <+: (setNode c target v).2.store := by
  rw [setNode_store]; exact add_prefix _ _

theorem add_lt (s : Store D) (v : Val D) : (s.add v).1 < (s.add v).2.length := by
  obtain ⟨w, h, _⟩ := add_val s v
  exact stored_lt h

theorem evolves_prefix {c c' : Ctx D} (h : Evolves c c') : c.store <+: c'.store := by
  induction h with
  | refl => exact List.prefix_refl _
  | tail _ h ih =>
    obtain ⟨t, v, _, rfl⟩ := h
    exact ih.trans (setNode_prefix _ _ _)

theorem length_le_of_prefix {s s' : Store D} (h : s <+: s') : s.length ≤ s'.length := h.length_le

theorem valid_mono {s s' : Store D} (h : s <+: s') {kids : List (Step × Id)} (hv : Valid s kids) : Valid s' kids :=
  fun k hk => Nat.lt_of_lt_of_le (hv k hk) h.length_le

/-- The children of a stored value are stored before it. -/
def Below (s : Store D) : Prop := ∀ (i : Nat) (v : Val D), s[i]? = some v → ∀ k ∈ v.kids, k.2 < i

theorem getElem?_prefix {s s' : Store D} (h : s <+: s') {i : Nat} {v : Val D} (hv : s[i]? = some v) : s'[i]? = some v := by
  obtain ⟨r, rfl⟩ := h
  have : i < s.length := stored_lt hv
  rw [List.getElem?_append_left this, hv]

theorem add_below {s : Store D} (hs : Below s) {v : Val D} (hv : Valid s v.kids) : Below (s.add v).2 := by
  unfold Store.add
  split
  · exact hs
  · intro i w hw
    simp only at hw
    rcases Nat.lt_trichotomy i s.length with h | h | h
    · rw [List.getElem?_append_left h] at hw
      exact hs i w hw
    · subst h
      simp only [List.getElem?_concat_length, Option.some.injEq] at hw
      subst hw
      exact hv
    · rw [List.getElem?_eq_none (by simp; omega)] at hw
      simp at hw

theorem same_symm {v w : Val D} (h : v.same w = true) : w.same v = true := by
  rw [same_iff] at *
  exact ⟨h.1.symm, h.2.1.symm, h.2.2.symm⟩

theorem same_trans {u v w : Val D} (h : u.same v = true) (h' : v.same w = true) : u.same w = true := by
  rw [same_iff] at *
  exact ⟨h.1.trans h'.1, h.2.1.trans h'.2.1, h.2.2.trans h'.2.2⟩

theorem add_interned {s : Store D} (hs : Interned s) (v : Val D) : Interned (s.add v).2 := by
  unfold Store.add
  split
  · exact hs
  · rename_i hn
    rw [List.findIdx?_eq_none_iff] at hn
    have key : ∀ (i : Nat) (w : Val D), (s ++ [v])[i]? = some w → v.same w = true → i = s.length := by
      intro i w hw hsame
      rcases Nat.lt_trichotomy i s.length with h | h | h
      · rw [List.getElem?_append_left h] at hw
        rw [hn w (List.mem_of_getElem? hw)] at hsame
        exact absurd hsame (by simp)
      · exact h
      · rw [List.getElem?_eq_none (by simp; omega)] at hw
        simp at hw
    intro i j x y hx hy hxy
    simp only at hx hy
    rcases Nat.lt_trichotomy i s.length with h | h | h
    · rcases Nat.lt_trichotomy j s.length with h' | h' | h'
      · rw [List.getElem?_append_left h] at hx
        rw [List.getElem?_append_left h'] at hy
        exact hs i j x y hx hy hxy
      · subst h'
        simp only [List.getElem?_concat_length, Option.some.injEq] at hy
        subst hy
        exact key i x hx (same_symm hxy)
      · rw [List.getElem?_eq_none (by simp; omega)] at hy
        simp at hy
    · subst h
      simp only [List.getElem?_concat_length, Option.some.injEq] at hx
      subst hx
      exact (key j y hy hxy).symm
    · rw [List.getElem?_eq_none (by simp; omega)] at hx
      simp at hx

/-- All stored values have proper places. -/
def AllShaped (s : Store D) : Prop := ∀ (i : Nat) (v : Val D), s[i]? = some v → Shaped (v.kids.map (·.1))

theorem add_shaped {s : Store D} (hs : AllShaped s) {v : Val D} (hv : Shaped (v.kids.map (·.1))) : AllShaped (s.add v).2 := by
  unfold Store.add
  split
  · exact hs
  · intro i w hw
    simp only at hw
    rcases Nat.lt_trichotomy i s.length with h | h | h
    · rw [List.getElem?_append_left h] at hw
      exact hs i w hw
    · subst h
      simp only [List.getElem?_concat_length, Option.some.injEq] at hw
      subst hw
      exact hv
    · rw [List.getElem?_eq_none (by simp; omega)] at hw
      simp at hw

/-- The store of a history of operations. -/
structure Good (s : Store D) : Prop where
  interned : Interned s
  below : Below s
  shaped : AllShaped s

theorem setNode_good {c : Ctx D} (hg : Good c.store) (t : Uniq) {v : Val D} (hv : Proper c.store v.kids) :
    Good (setNode c t v).2.store := by
  rw [setNode_store]
  exact ⟨add_interned hg.interned v, add_below hg.below hv.1, add_shaped hg.shaped hv.2⟩

theorem evolves_good {c c' : Ctx D} (h : Evolves c c') (hg : Good c.store) : Good c'.store := by
  induction h with
  | refl => exact hg
  | tail _ h ih =>
    obtain ⟨t, v, hv, rfl⟩ := h
    exact setNode_good ih t hv

/-! ## Adding documents -/

theorem addValue_step (c : Ctx D) (v : Val D) (hv : Proper c.store v.kids) :
    SetStep c ((({ c with store := (c.store.add v).2 } : Ctx D).removeAllSubnodesOf (c.store.add v).1).insertAllSubnodesOf
      (c.store.add v).1) :=
  ⟨⟨(c.store.add v).1, 0, []⟩, v, hv, (setNode_ctx c ⟨(c.store.add v).1, 0, []⟩ v).symm⟩

/-- The id or ids are stored. -/
def ValidA (s : Store D) : {b : Bool} → Added b → Prop
  | true, id => (show Nat from id) < s.length
  | false, kids => Valid s kids

theorem steps_eq {s : Store D} : ∀ {kids : List (Step × Id)} {ks : Tree D false}, Reads s (b := false) kids ks →
    kids.map (·.1) = steps ks := by
  intro kids
  induction kids with
  | nil =>
    intro ks h
    cases ks with
    | nil => simp [steps]
    | cons st t rest => obtain ⟨_, _, h, _⟩ := h; simp at h
  | cons k kids ih =>
    intro ks h
    cases ks with
    | nil => simp [Reads] at h
    | cons st t rest =>
      obtain ⟨id, tl, he, _, h2⟩ := h
      injection he with e1 e2
      subst e1 e2
      simp [steps, ih h2]

theorem addTree_evolves {b : Bool} (t : Tree D b) : ShapedTree t → ∀ c : Ctx D,
    Evolves c (addTree c t).2 ∧ ValidA (addTree c t).2.store (addTree c t).1 := by
  induction t with
  | node k d l ks ih =>
    intro hsh c
    obtain ⟨h1, h2⟩ := ih hsh.2 c
    have h3 := addValue_step (addTree c ks).2 ⟨k, d, l, (addTree c ks).1⟩
      ⟨h2, by rw [steps_eq (addTree_reads ks c)]; exact hsh.1⟩
    refine ⟨?_, ?_⟩
    · simp only [addTree]
      exact h1.tail h3
    · simp only [addTree, ValidA, insert_store, remove_store]
      exact add_lt _ _
  | nil =>
    intro _ c
    exact ⟨.refl, fun k hk => absurd hk (by simp [addTree])⟩
  | cons st t rest ih1 ih2 =>
    intro hsh c
    obtain ⟨h1, h2⟩ := ih1 hsh.1 c
    obtain ⟨h3, h4⟩ := ih2 hsh.2 (addTree c t).2
    refine ⟨?_, ?_⟩
    · simp only [addTree]
      exact Relation.ReflTransGen.trans h1 h3
    · simp only [addTree, ValidA]
      intro k hk
      rcases List.mem_cons.1 hk with h | h
      · rw [h]
        exact Nat.lt_of_lt_of_le h2 (evolves_prefix h3).length_le
      · exact h4 k h

/-! ## Edits of subnodes -/

theorem number_valid {s : Store D} {ids : List Id} (h : ∀ i ∈ ids, i < s.length) : Valid s (number ids) := by
  intro k hk
  simp only [number] at hk
  obtain ⟨i, hi, rfl⟩ := List.mem_mapIdx.1 hk
  exact h _ (List.getElem_mem _)

theorem setSubs_valid {s : Store D} (hs : Below s) {i : Nat} {v : Val D} (hv : s[i]? = some v) {ids : List Id}
    (h : ∀ i ∈ ids, i < s.length) : Valid s (v.setSubs ids).kids := by
  intro k hk
  simp only [Val.setSubs] at hk
  rcases List.mem_append.1 hk with h' | h'
  · exact number_valid h k h'
  · have := hs i v hv k (List.mem_of_mem_filter h')
    exact Nat.lt_trans this (stored_lt hv)

theorem number_steps (ids : List Id) : (number ids).map (·.1) = (List.range ids.length).map subStep := by
  refine List.ext_getElem (by simp [number]) ?_
  intro n h1 h2
  simp [number]

theorem setSubs_shaped {v : Val D} (hv : Shaped (v.kids.map (·.1))) (ids : List Id) :
    Shaped ((v.setSubs ids).kids.map (·.1)) := by
  have e : (v.setSubs ids).kids.map (·.1)
      = (List.range ids.length).map subStep ++ (v.kids.map (·.1)).filter (fun st => decide (st.field ≠ 0)) := by
    simp only [Val.setSubs, List.map_append, number_steps]
    congr 1
    rw [List.filter_map]
    rfl
  rw [e]
  refine ⟨?_, ?_, ?_⟩
  · rw [List.pairwise_append]
    refine ⟨?_, hv.order.sublist List.filter_sublist, ?_⟩
    · rw [List.pairwise_map]
      exact List.pairwise_of_forall (fun a b => Nat.le_refl 0)
    · intro a ha b _
      rw [List.mem_map] at ha
      obtain ⟨i, _, rfl⟩ := ha
      exact Nat.zero_le _
  · intro f
    rw [List.filter_append, List.filter_filter]
    by_cases hf : f = 0
    · subst hf
      have h1 : ((List.range ids.length).map subStep).filter (fun st => decide (st.field = 0)) = (List.range ids.length).map subStep := by
        rw [List.filter_eq_self]
        intro a ha
        rw [List.mem_map] at ha
        obtain ⟨i, _, rfl⟩ := ha
        rfl
      have h2 : (v.kids.map (·.1)).filter (fun a => decide (a.field = 0) && decide (a.field ≠ 0)) = [] := by
        rw [List.filter_eq_nil_iff]
        intro a _
        simp
      rw [h1, h2, List.append_nil]
      left
      simp [subStep]
    · have h1 : ((List.range ids.length).map subStep).filter (fun st => decide (st.field = f)) = [] := by
        rw [List.filter_eq_nil_iff]
        intro a ha
        rw [List.mem_map] at ha
        obtain ⟨i, _, rfl⟩ := ha
        simp [subStep, Ne.symm hf]
      have h2 : (v.kids.map (·.1)).filter (fun a => decide (a.field = f) && decide (a.field ≠ 0))
          = (v.kids.map (·.1)).filter (fun a => decide (a.field = f)) := by
        refine List.filter_congr ?_
        intro a _
        by_cases ha : a.field = f
        · simp [ha, hf]
        · simp [ha]
      rw [h1, h2, List.nil_append]
      exact hv.fields f
  · intro st hst h0
    rcases List.mem_append.1 hst with h | h
    · rw [List.mem_map] at h
      obtain ⟨i, _, rfl⟩ := h
      exact ⟨i, rfl⟩
    · simp only [List.mem_filter, decide_eq_true_eq] at h
      exact absurd h0 h.2

theorem setSubnodes_step {c c' : Ctx D} (hg : Good c.store) {target : Uniq} {ids : List Id} {r : Replace}
    (hids : ∀ i ∈ ids, i < c.store.length) (h : setSubnodes c target ids = .ok (r, c')) : SetStep c c' := by
  unfold setSubnodes at h
  split at h
  · simp at h
  · rename_i v hv
    have hc : Proper c.store (v.setSubs ids).kids := ⟨setSubs_valid hg.below hv hids, setSubs_shaped (hg.shaped _ _ hv) ids⟩
    split at h
    · rename_i r' c'' he
      injection h with h
      injection h with h1 h2
      subst h2
      exact ⟨target, v.setSubs ids, hc, by rw [he]⟩
    · simp at h

theorem subs_mem {s : Store D} {id i : Id} (h : i ∈ s.subs id) : ∃ st, (st, i) ∈ s.kids id := by
  unfold Store.subs at h
  unfold Store.kids
  split at h
  · rename_i v hv
    simp only [Val.subs, List.mem_map, List.mem_filter] at h
    obtain ⟨k, ⟨hk, _⟩, rfl⟩ := h
    exact ⟨k.1, hk⟩
  · simp at h

theorem kids_lt {s : Store D} (hs : Below s) {id : Id} {k : Step × Id} (h : k ∈ s.kids id) : k.2 < id ∧ id < s.length := by
  unfold Store.kids at h
  split at h
  · rename_i v hv
    exact ⟨hs id v hv k h, stored_lt hv⟩
  · simp at h

theorem subs_lt {s : Store D} (hs : Below s) {id : Id} : ∀ i ∈ s.subs id, i < s.length := by
  intro i hi
  obtain ⟨st, h⟩ := subs_mem hi
  have := kids_lt hs h
  exact Nat.lt_trans this.1 this.2

/-! ## Cascades -/

theorem edit?_mem {rs : List Replace} {u e : Uniq} (h : edit? rs u = some e) : ∃ r ∈ rs, r.original = u ∧ r.replaced = e := by
  unfold edit? at h
  rw [Option.map_eq_some_iff] at h
  obtain ⟨r, h1, h2⟩ := h
  refine ⟨r, List.mem_of_find?_eq_some h1, ?_, h2⟩
  have := List.find?_some h1
  simpa using this

section
variable {srt : List (Step × Id) → List (Step × Id)} (hsrt : Sorts srt) {rs : List Replace} {ps : List Uniq}

/-- A run of `recurse` stores values one after the other. -/
def RunsWell (c c' : Ctx D) (ids : List Id) : Prop := Evolves c c' ∧ ∀ i ∈ ids, i < c'.store.length

theorem recurseList_runs {fuel : Nat}
    (ih : ∀ u (c : Ctx D) id c', Good c.store → (∀ r ∈ rs, r.replaced.id < c.store.length) → u.id < c.store.length →
      recurse srt rs ps fuel u c = .ok (id, c') → RunsWell c c' [id]) :
    ∀ (us : List Uniq) (c : Ctx D) ids c', Good c.store → (∀ r ∈ rs, r.replaced.id < c.store.length) →
      (∀ u ∈ us, u.id < c.store.length) →
      recurseList srt rs ps (fuel + 1) us c = .ok (ids, c') → RunsWell c c' ids ∧ ids.length = us.length := by
  intro us
  induction us with
  | nil =>
    intro c ids c' _ _ _ h
    simp only [recurseList] at h
    injection h with h
    injection h with h1 h2
    subst h1 h2
    exact ⟨⟨.refl, by simp⟩, rfl⟩
  | cons u us ihu =>
    intro c ids c' hb hr hu h
    rw [recurseList] at h
    split at h
    · simp at h
    · rename_i id c1 h1
      have w1 := ih u c id c1 hb hr (hu u (by simp)) h1
      have hp := evolves_prefix w1.1
      have hb1 : Good c1.store := evolves_good w1.1 hb
      split at h
      · simp at h
      · rename_i ids' c2 h2
        injection h with h
        injection h with e1 e2
        subst e1 e2
        obtain ⟨w2, hl⟩ := ihu c1 ids' c2 hb1 (fun r hr' => Nat.lt_of_lt_of_le (hr r hr') hp.length_le)
          (fun x hx => Nat.lt_of_lt_of_le (hu x (by simp [hx])) hp.length_le) h2
        refine ⟨⟨Relation.ReflTransGen.trans w1.1 w2.1, ?_⟩, by simp [hl]⟩
        intro i hi
        rcases List.mem_cons.1 hi with hi | hi
        · rw [hi]
          exact Nat.lt_of_lt_of_le (w1.2 id (by simp)) (evolves_prefix w2.1).length_le
        · exact w2.2 i hi

include hsrt in
theorem recurse_runs : ∀ (fuel : Nat) (u : Uniq) (c : Ctx D) id c', Good c.store →
    (∀ r ∈ rs, r.replaced.id < c.store.length) → u.id < c.store.length →
    recurse srt rs ps fuel u c = .ok (id, c') → RunsWell c c' [id] := by
  intro fuel
  induction fuel using Nat.strongRecOn with
  | _ fuel ih =>
    intro u c id c' hb hr hu h
    match fuel, ih, h with
    | 0, _, h => simp [recurse] at h
    | fuel + 1, ih, h =>
      rw [recurse] at h
      split at h
      · simp only at h
        have htgt : ((edit? rs u).getD u).id < c.store.length := by
          cases he : edit? rs u with
          | none => exact hu
          | some e =>
            obtain ⟨r, h1, _, h3⟩ := edit?_mem he
            simp only [Option.getD_some]
            rw [← h3]
            exact hr r h1
        split at h
        · simp at h
        · rename_i ids c1 hl
          have w : RunsWell c c1 ids ∧ ids.length = (c.store.subnodes ((edit? rs u).getD u)).length := by
            match fuel, ih, hl with
            | 0, _, hl =>
              cases hs : c.store.subnodes ((edit? rs u).getD u) with
              | nil =>
                rw [hs] at hl
                simp only [recurseList] at hl
                injection hl with hl
                injection hl with e1 e2
                subst e1 e2
                exact ⟨⟨.refl, by simp⟩, rfl⟩
              | cons x xs => rw [hs] at hl; simp [recurseList] at hl
            | f + 1, ih, hl =>
              refine recurseList_runs (fun u c id c' => ih f (by omega) u c id c') _ c ids c1 hb hr ?_ hl
              intro x hx
              simp only [Store.subnodes, List.mem_map] at hx
              obtain ⟨k, hk, rfl⟩ := hx
              have := kids_lt hb.below hk
              exact Nat.lt_trans this.1 this.2
          obtain ⟨w, hlen⟩ := w
          have hp := evolves_prefix w.1
          split at h
          · split at h
            · injection h with h
              injection h with e1 e2
              subst e1 e2
              exact ⟨w.1, by simpa using Nat.lt_of_lt_of_le htgt hp.length_le⟩
            · simp at h
          · split at h
            · simp at h
            · rename_i v hv
              split at h
              · simp at h
              · rename_i kids hk
                have hv0 : v.kids = c.store.kids ((edit? rs u).getD u).id := by
                  have h1 : c.store[((edit? rs u).getD u).id]? = some c.store[((edit? rs u).getD u).id] :=
                    List.getElem?_eq_getElem htgt
                  have h2 := getElem?_prefix hp h1
                  rw [hv] at h2
                  injection h2 with h2
                  unfold Store.kids
                  rw [h1, h2]
                have hlen' : ids.length = v.kids.length := by
                  rw [hlen, hv0]
                  simp [Store.subnodes]
                have hzip : (List.zip (v.kids.map (·.1)) ids).map (·.1) = v.kids.map (·.1) := by
                  rw [List.map_fst_zip]
                  rw [hlen', List.length_map]
                have hshape : Shaped (kids.map (·.1)) := by
                  rw [newKids_steps hsrt (by rw [hzip]; exact (evolves_good w.1 hb).shaped _ v hv) hzip.symm hk, hzip]
                  exact (evolves_good w.1 hb).shaped _ v hv
                have hval : Valid c1.store kids := by
                  intro k hk'
                  obtain ⟨k', h1, h2⟩ := newKids_mem (fun l => (hsrt l).1) hk k hk'
                  rw [← h2]
                  rcases List.mem_append.1 h1 with h1 | h1
                  · exact w.2 _ (List.of_mem_zip h1).2
                  · have h3 := (evolves_good w.1 hb).below _ v hv k' h1
                    have h4 := Nat.lt_of_lt_of_le htgt hp.length_le
                    exact Nat.lt_trans h3 h4
                have hstep : SetStep c1 (setNode c1 ((edit? rs u).getD u) { v with kids := kids }).2 :=
                  ⟨_, { v with kids := kids }, ⟨hval, hshape⟩, rfl⟩
                split at h
                · rename_i r c2 hset
                  split at h
                  · injection h with h
                    injection h with e1 e2
                    subst e1 e2
                    rw [hset] at hstep
                    refine ⟨w.1.tail hstep, ?_⟩
                    have hr' : r.replaced.id = (c1.store.add { v with kids := kids }).1 := by
                      unfold setNode at hset
                      simp only at hset
                      split at hset
                      · simp at hset
                      · injection hset with e1 e2
                        injection e1 with e1
                        rw [← e1]
                    intro i hi
                    simp only [List.mem_singleton] at hi
                    rw [hi, hr']
                    have : c2.store = (c1.store.add { v with kids := kids }).2 := by
                      have := setNode_store c1 ((edit? rs u).getD u) { v with kids := kids }
                      rw [hset] at this
                      exact this
                    rw [this]
                    exact add_lt _ _
                  · simp at h
                · simp at h
      · split at h
        · rename_i e he
          split at h
          · injection h with h
            injection h with e1 e2
            subst e1 e2
            obtain ⟨r, h1, _, h3⟩ := edit?_mem he
            refine ⟨.refl, ?_⟩
            intro i hi
            simp only [List.mem_singleton] at hi
            rw [hi, ← h3]
            exact hr r h1
          · simp at h
        · injection h with h
          injection h with e1 e2
          subst e1 e2
          exact ⟨.refl, by simpa using hu⟩

end

theorem inclAll_eq {s : Store D} : ∀ {rs acc out : List Replace}, inclAll s acc rs = .ok out → out = acc ++ rs := by
  intro rs
  induction rs with
  | nil =>
    intro acc out h
    simp only [inclAll] at h
    injection h with h
    simp [h]
  | cons r rs ih =>
    intro acc out h
    simp only [inclAll] at h
    split at h
    · simp at h
    · split at h
      · rw [ih h]
        simp
      · simp at h

theorem cascade_runs {srt : List (Step × Id) → List (Step × Id)} (hsrt : Sorts srt) {fuel : Nat} {c : Ctx D}
    {root : Id} {rs : List Replace} {id : Id} {c' : Ctx D} (hb : Good c.store) (hroot : root < c.store.length)
    (hr : ∀ r ∈ rs, r.replaced.id < c.store.length) (h : cascade srt fuel c root rs = .ok (id, c')) :
    Evolves c c' ∧ id < c'.store.length := by
  unfold cascade at h
  split at h
  · simp at h
  · rename_i rs' hrs
    have := inclAll_eq hrs
    simp only [List.nil_append] at this
    subst this
    split at h
    · simp at h
    · rename_i ps hps
      have := recurse_runs hsrt fuel ⟨root, root, []⟩ c id c' hb hr hroot h
      exact ⟨this.1, this.2 id (by simp)⟩

end Verif.Imm
