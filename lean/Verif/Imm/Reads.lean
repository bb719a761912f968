import Verif.Imm.Spec

/-! # Reading documents from the store -/

namespace Verif.Imm

variable {D : Type}

/-- The id (or the list of ids with their places) stands for the document, up to locations. -/
def Reads (s : Store D) : {b : Bool} → Added b → Tree D b → Prop
  | true, id, .node k d _ ks => ∃ v, s[id]? = some v ∧ v.kind = k ∧ v.data = d ∧ Reads s (b := false) v.kids ks
  | false, kids, .nil => kids = ([] : List (Step × Id))
  | false, kids, .cons st t rest =>
    ∃ id tl, kids = ((st, id) :: tl : List (Step × Id)) ∧ Reads s (b := true) id t ∧ Reads s (b := false) tl rest

theorem reads_mono {s s' : Store D} (h : s <+: s') {b : Bool} {a : Added b} {t : Tree D b}
    (hr : Reads s a t) : Reads s' a t := by
  induction t with
  | node k d l ks ih =>
    obtain ⟨v, h1, h2, h3, h4⟩ := hr
    refine ⟨v, ?_, h2, h3, ih h4⟩
    obtain ⟨r, rfl⟩ := h
    have : (a : Nat) < s.length := by
      by_contra hc
      rw [List.getElem?_eq_none (Nat.le_of_not_lt hc)] at h1
      exact absurd h1 (by simp)
    rw [List.getElem?_append_left this, h1]
  | nil => exact hr
  | cons st t rest ih1 ih2 =>
    obtain ⟨id, tl, h1, h2, h3⟩ := hr
    exact ⟨id, tl, h1, ih1 h2, ih2 h3⟩

theorem reads_strip {s : Store D} {b : Bool} {a : Added b} {t t' : Tree D b}
    (h : Reads s a t) (h' : Reads s a t') : strip t = strip t' := by
  induction t with
  | node k d l ks ih =>
    cases t' with
    | node k' d' l' ks' =>
      obtain ⟨v, h1, h2, h3, h4⟩ := h
      obtain ⟨v', h1', h2', h3', h4'⟩ := h'
      rw [h1] at h1'
      injection h1' with he
      subst he
      simp only [strip]
      rw [ih h4 h4', ← h2, ← h2', ← h3, ← h3']
  | nil =>
    cases t' with
    | nil => rfl
    | cons st t rest =>
      obtain ⟨id, tl, h1, _⟩ := h'
      have h : a = ([] : List (Step × Id)) := h
      rw [h] at h1
      exact absurd h1 (by simp)
  | cons st t rest ih1 ih2 =>
    obtain ⟨id, tl, h1, h2, h3⟩ := h
    cases t' with
    | nil =>
      have h' : a = ([] : List (Step × Id)) := h'
      rw [h'] at h1
      exact absurd h1 (by simp)
    | cons st' t' rest' =>
      obtain ⟨id', tl', h1', h2', h3'⟩ := h'
      rw [h1] at h1'
      injection h1' with e1 e2
      injection e1 with e3 e4
      subst e2 e3 e4
      simp only [strip]
      rw [ih1 h2 h2', ih2 h3 h3']

theorem strip_strip {b : Bool} (t : Tree D b) : strip (strip t) = strip t := by
  induction t with
  | node k d l ks ih => simp only [strip, ih]
  | nil => rfl
  | cons st t rest ih1 ih2 => simp only [strip, ih1, ih2]

theorem reads_of_strip {s : Store D} {b : Bool} {a : Added b} {t t' : Tree D b}
    (h : Reads s a t) (he : strip t = strip t') : Reads s a t' := by
  induction t with
  | node k d l ks ih =>
    cases t' with
    | node k' d' l' ks' =>
      simp only [strip] at he
      injection he with e1 e2 e3 e4
      obtain ⟨v, h1, h2, h3, h4⟩ := h
      exact ⟨v, h1, h2.trans e1, h3.trans e2, ih h4 e4⟩
  | nil =>
    cases t' with
    | nil => exact h
    | cons st t rest => simp [strip] at he
  | cons st t rest ih1 ih2 =>
    cases t' with
    | nil => simp [strip] at he
    | cons st' t' rest' =>
      simp only [strip] at he
      injection he with e1 e2 e3
      obtain ⟨id, tl, h1, h2, h3⟩ := h
      exact ⟨id, tl, by rw [h1, e1], ih1 h2 e2, ih2 h3 e3⟩

variable [DecidableEq D]

/-- No value is stored twice. -/
def Interned (s : Store D) : Prop :=
  ∀ (i j : Nat) (v w : Val D), s[i]? = some v → s[j]? = some w → v.same w = true → i = j

theorem same_iff {v w : Val D} : v.same w = true ↔ v.kind = w.kind ∧ v.data = w.data ∧ v.kids = w.kids := by
  simp [Val.same]

theorem reads_inj {s : Store D} (hs : Interned s) {b : Bool} {a a' : Added b} {t t' : Tree D b}
    (h : Reads s a t) (h' : Reads s a' t') (he : strip t = strip t') : a = a' := by
  induction t with
  | node k d l ks ih =>
    cases t' with
    | node k' d' l' ks' =>
      simp only [strip] at he
      injection he with e1 e2 e3 e4
      obtain ⟨v, h1, h2, h3, h4⟩ := h
      obtain ⟨v', h1', h2', h3', h4'⟩ := h'
      have hk : v.kids = v'.kids := ih h4 h4' e4
      exact hs _ _ _ _ h1 h1' (same_iff.2 ⟨by rw [h2, h2', e1], by rw [h3, h3', e2], hk⟩)
  | nil =>
    cases t' with
    | nil =>
      have h : a = ([] : List (Step × Id)) := h
      have h' : a' = ([] : List (Step × Id)) := h'
      rw [h, h']
    | cons st t rest => simp [strip] at he
  | cons st t rest ih1 ih2 =>
    cases t' with
    | nil => simp [strip] at he
    | cons st' t' rest' =>
      simp only [strip] at he
      injection he with e1 e2 e3
      obtain ⟨id, tl, h1, h2, h3⟩ := h
      obtain ⟨id', tl', h1', h2', h3'⟩ := h'
      have e4 := ih1 h2 h2' e2
      have e5 := ih2 h3 h3' e3
      have e4 : id = id' := e4
      have e5 : tl = tl' := e5
      rw [h1, h1', e1, e4, e5]

/-! ## `get` -/

/-- The children read by `get`. -/
def getKids (s : Store D) (fuel : Nat) (kids : List (Step × Id)) : Option (Tree D false) :=
  kids.foldr (fun k acc =>
    match s.get fuel k.2, acc with
    | some t, some ts => some (.cons k.1 t ts)
    | _, _ => none) (some .nil)

theorem getKids_cons (s : Store D) (fuel : Nat) (k : Step × Id) (ks : List (Step × Id)) :
    getKids s fuel (k :: ks) = match s.get fuel k.2, getKids s fuel ks with
      | some t, some ts => some (.cons k.1 t ts)
      | _, _ => none := rfl

theorem get_succ (s : Store D) (fuel : Nat) (id : Id) :
    s.get (fuel + 1) id = match s[id]? with
      | none => none
      | some v => (getKids s fuel v.kids).map (.node v.kind v.data v.loc) := by
  rw [Store.get]; rfl

theorem getKids_reads {s : Store D} {fuel : Nat} (ih : ∀ id t, s.get fuel id = some t → Reads s (b := true) id t) :
    ∀ kids ts, getKids s fuel kids = some ts → Reads s (b := false) kids ts := by
  intro kids
  induction kids with
  | nil =>
    intro ts h
    injection h with h
    subst h
    rfl
  | cons k ks ihk =>
    intro ts h
    rw [getKids_cons] at h
    split at h
    · rename_i t ts' h1 h2
      injection h with h
      subst h
      exact ⟨k.2, ks, rfl, ih _ _ h1, ihk _ h2⟩
    · exact absurd h (by simp)

theorem get_reads {s : Store D} : ∀ {fuel : Nat} {id : Id} {t : Tree D true},
    s.get fuel id = some t → Reads s (b := true) id t := by
  intro fuel
  induction fuel with
  | zero => intro id t h; simp [Store.get] at h
  | succ fuel ih =>
    intro id t h
    rw [get_succ] at h
    split at h
    · simp at h
    · rename_i v hv
      rw [Option.map_eq_some_iff] at h
      obtain ⟨ts, h1, h2⟩ := h
      subst h2
      exact ⟨v, hv, rfl, rfl, getKids_reads (fun id t => ih) _ _ h1⟩

/-- What `get` has to give for a document (or a list of children). -/
def Gets (s : Store D) (fuel : Nat) : {b : Bool} → Added b → Tree D b → Prop
  | true, id, t => ∃ t' : Tree D true, s.get fuel id = some t' ∧ strip t' = strip t
  | false, kids, ts => ∃ ts' : Tree D false, getKids s fuel kids = some ts' ∧ strip ts' = strip ts

theorem reads_get {s : Store D} {b : Bool} {a : Added b} {t : Tree D b} (h : Reads s a t) :
    ∀ fuel, depth t ≤ fuel → Gets s fuel a t := by
  induction t with
  | node k d l ks ih =>
    intro fuel hf
    obtain ⟨v, h1, h2, h3, h4⟩ := h
    simp only [depth] at hf
    obtain ⟨f, rfl⟩ : ∃ f, fuel = f + 1 := ⟨fuel - 1, by omega⟩
    obtain ⟨ts, h5, h6⟩ := ih h4 f (by omega)
    refine ⟨.node v.kind v.data v.loc ts, ?_, ?_⟩
    · rw [get_succ, h1]
      simp only [h5, Option.map_some]
    · simp only [strip, h6, h2, h3]
  | nil =>
    intro fuel _
    have h : a = ([] : List (Step × Id)) := h
    exact ⟨.nil, by rw [h]; rfl, rfl⟩
  | cons st t rest ih1 ih2 =>
    intro fuel hf
    simp only [depth] at hf
    obtain ⟨id, tl, h1, h2, h3⟩ := h
    obtain ⟨t', h4, h5⟩ := ih1 h2 fuel (by omega)
    obtain ⟨ts', h6, h7⟩ := ih2 h3 fuel (by omega)
    refine ⟨.cons st t' ts', ?_, by simp only [strip, h5, h7]⟩
    rw [h1, getKids_cons, h4, h6]

/-! ## Adding -/

theorem add_prefix (s : Store D) (v : Val D) : s <+: (s.add v).2 := by
  unfold Store.add
  split
  · exact List.prefix_refl _
  · exact List.prefix_append _ _

theorem add_val (s : Store D) (v : Val D) : ∃ w, (s.add v).2[(s.add v).1]? = some w ∧ v.same w = true := by
  unfold Store.add
  split
  · rename_i i hi
    rw [List.findIdx?_eq_some_iff_getElem] at hi
    obtain ⟨h, h1, _⟩ := hi
    exact ⟨s[i], by simp [List.getElem?_eq_getElem h], h1⟩
  · refine ⟨v, by simp, by simp [Val.same]⟩

theorem remove_store (c : Ctx D) (p : Id) : (c.removeAllSubnodesOf p).store = c.store := by
  unfold Ctx.removeAllSubnodesOf
  split <;> rfl

theorem insert_store (c : Ctx D) (p : Id) : (c.insertAllSubnodesOf p).store = c.store := by
  unfold Ctx.insertAllSubnodesOf
  split <;> rfl

theorem addTree_prefix {b : Bool} (t : Tree D b) : ∀ c : Ctx D, c.store <+: (addTree c t).2.store := by
  induction t with
  | node k d l ks ih =>
    intro c
    simp only [addTree, insert_store, remove_store]
    exact (ih c).trans (add_prefix _ _)
  | nil => intro c; exact List.prefix_refl _
  | cons st t rest ih1 ih2 =>
    intro c
    simp only [addTree]
    exact (ih1 c).trans (ih2 _)

theorem addTree_reads {b : Bool} (t : Tree D b) : ∀ c : Ctx D, Reads (addTree c t).2.store (addTree c t).1 t := by
  induction t with
  | node k d l ks ih =>
    intro c
    simp only [addTree, insert_store, remove_store]
    obtain ⟨w, h1, h2⟩ := add_val (addTree c ks).2.store ⟨k, d, l, (addTree c ks).1⟩
    obtain ⟨e1, e2, e3⟩ := same_iff.1 h2
    refine ⟨w, h1, e1.symm, e2.symm, ?_⟩
    rw [← e3]
    exact reads_mono (add_prefix _ _) (ih c)
  | nil => intro c; rfl
  | cons st t rest ih1 ih2 =>
    intro c
    simp only [addTree]
    exact ⟨_, _, rfl, reads_mono (addTree_prefix _ _) (ih1 c), ih2 _⟩

end Verif.Imm
