import Verif.Imm.CascadeOk
import Verif.Imm.Paths
import Verif.Imm.Edit

/-! # Histories of edits -/

namespace Verif.Imm

variable {D : Type} [DecidableEq D]

/-! ## The document of an id -/

theorem getKids_mono {s s' : Store D} {fuel fuel' : Nat}
    (ih : ∀ id t, s.get fuel id = some t → s'.get fuel' id = some t) :
    ∀ kids ts, getKids s fuel kids = some ts → getKids s' fuel' kids = some ts := by
  intro kids
  induction kids with
  | nil => intro ts h; simpa [getKids] using h
  | cons k ks hk =>
    intro ts h
    rw [getKids_cons] at h ⊢
    split at h
    · rename_i t ts' h1 h2
      rw [ih _ _ h1, hk _ h2]
      exact h
    · simp at h

theorem get_mono {s s' : Store D} (hs : s <+: s') : ∀ {fuel fuel' : Nat} {id : Id} {t : Tree D true}, fuel ≤ fuel' →
    s.get fuel id = some t → s'.get fuel' id = some t := by
  intro fuel
  induction fuel with
  | zero => intro fuel' id t _ h; simp [Store.get] at h
  | succ fuel ih =>
    intro fuel' id t hf h
    obtain ⟨f, rfl⟩ : ∃ f, fuel' = f + 1 := ⟨fuel' - 1, by omega⟩
    rw [get_succ] at h ⊢
    split at h
    · simp at h
    · rename_i v hv
      rw [getElem?_prefix hs hv]
      simp only
      rw [Option.map_eq_some_iff] at h ⊢
      obtain ⟨ts, h1, h2⟩ := h
      exact ⟨ts, getKids_mono (fun id t h => ih (by omega) h) _ _ h1, h2⟩

theorem denotes_mono {s s' : Store D} (hs : s <+: s') {id : Id} {t : Tree D true} (h : Denotes s id t) : Denotes s' id t := by
  obtain ⟨f, h⟩ := h
  exact ⟨f, get_mono hs (Nat.le_refl _) h⟩

theorem denotes_unique {s : Store D} {id : Id} {t t' : Tree D true} (h : Denotes s id t) (h' : Denotes s id t') : t = t' := by
  obtain ⟨f, h⟩ := h
  obtain ⟨f', h'⟩ := h'
  have h1 := get_mono (List.prefix_refl s) (Nat.le_max_left f f') h
  have h2 := get_mono (List.prefix_refl s) (Nat.le_max_right f f') h'
  rw [h1] at h2
  injection h2

theorem denotes_reads {s : Store D} {id : Id} {t : Tree D true} (h : Denotes s id t) : Reads s (b := true) id t := by
  obtain ⟨f, h⟩ := h
  exact get_reads h

theorem reads_denotes {s : Store D} {id : Id} {t : Tree D true} (h : Reads s (b := true) id t) :
    ∃ t', Denotes s id t' ∧ strip t' = strip t := by
  obtain ⟨t', h1, h2⟩ := reads_get h (depth t) (Nat.le_refl _)
  exact ⟨t', ⟨_, h1⟩, h2⟩

theorem denotes_lt {s : Store D} {id : Id} {t : Tree D true} (h : Denotes s id t) : id < s.length := by
  have h := denotes_reads h
  cases t with
  | node k d l ks =>
    obtain ⟨v, hv, _⟩ := h
    exact stored_lt hv

theorem below_denotes {s : Store D} (hs : Below s) {id : Id} (h : id < s.length) : ∃ t, s.get s.length id = some t := by
  have := below_get hs s.length id h h
  exact Option.isSome_iff_exists.1 this

theorem reads_shaped {s : Store D} (hs : AllShaped s) {b : Bool} {a : Added b} {t : Tree D b} (h : Reads s a t) : ShapedTree t := by
  induction t with
  | node k d l ks ih =>
    obtain ⟨v, h1, _, _, h4⟩ := h
    refine ⟨?_, ih h4⟩
    rw [← steps_eq h4]
    exact hs _ _ h1
  | nil => trivial
  | cons st t rest ih1 ih2 =>
    obtain ⟨id, tl, _, h1, h2⟩ := h
    exact ⟨ih1 h1, ih2 h2⟩

/-! ## Every history is a sequence of stored values -/

theorem start_good : Good (start D).store :=
  ⟨fun i j v w h => by simp [start] at h, fun i v h => by simp [start] at h, fun i v h => by simp [start] at h⟩

theorem start_sound : Sound (start D) :=
  ⟨fun q l h => by simp [start] at h, by rintro p q ⟨l, h, _⟩; simp [start] at h⟩

theorem op_evolves {srt : List (Step × Id) → List (Step × Id)} (hsrt : Sorts srt) {c c' : Ctx D} (h : Op srt c c')
    (hg : Good c.store) : Evolves c c' := by
  cases h with
  | add t ht => exact (addTree_evolves t ht c).1
  | set target v h1 h2 => exact .single ⟨target, v, ⟨h1, h2⟩, rfl⟩
  | cascade fuel root rs id _ h1 h2 h3 => exact (cascade_runs hsrt hg h1 h2 h3).1

theorem later_evolves {srt : List (Step × Id) → List (Step × Id)} (hsrt : Sorts srt) {c c' : Ctx D} (h : Later srt c c')
    (hg : Good c.store) : Evolves c c' := by
  induction h with
  | refl => exact .refl
  | tail _ h ih => exact ih.trans (op_evolves hsrt h (evolves_good ih hg))

theorem reach_evolves {srt : List (Step × Id) → List (Step × Id)} (hsrt : Sorts srt) {c : Ctx D} (h : Reach srt c) :
    Evolves (start D) c := later_evolves hsrt h start_good

theorem reach_good {srt : List (Step × Id) → List (Step × Id)} (hsrt : Sorts srt) {c : Ctx D} (h : Reach srt c) : Good c.store :=
  evolves_good (reach_evolves hsrt h) start_good

theorem reach_sound {srt : List (Step × Id) → List (Step × Id)} (hsrt : Sorts srt) {c : Ctx D} (h : Reach srt c) : Sound c :=
  evolves_sound (reach_evolves hsrt h) start_sound

theorem good_distinct {s : Store D} (h : Good s) : Distinct s := fun i v hv => shaped_nodup (h.shaped i v hv)

theorem trail_exactBut {c : Ctx D} {R : List Id} (h : Trail c R) : ExactBut R c := by
  induction h with
  | start => exact ⟨start_good, start_sound.once, start_sound.sound, by rintro p q _ ⟨h, _⟩; simp [start, Store.tracked] at h⟩
  | add c R t _ ht ih => exact addTree_exactBut t ht c ih
  | set c R target v _ h1 h2 ih =>
    refine setNode_exactBut (R := target.id :: R) ⟨ih.good, ih.once, ih.sound, ?_⟩ ⟨h1, h2⟩ target (.inr (by simp))
    intro p q hp hc
    exact ih.exact p q (fun hx => hp (by simp [hx])) hc

theorem adds_exact {c : Ctx D} (h : Adds c) : Exact c := by
  refine exactBut_nil ?_
  induction h with
  | start => exact trail_exactBut .start
  | add c t _ ht ih => exact addTree_exactBut t ht c ih

/-- All subnode edits are updates of a node. -/
theorem edit_op {srt : List (Step × Id) → List (Step × Id)} {c c' : Ctx D} (hg : Good c.store) {node : Uniq} {op : EditOp}
    {ids : List Id} (hres : op.result (c.store.subs node.id) = some ids) (hids : ∀ i ∈ ids, i < c.store.length)
    {r : Replace} (h : op.run c node = .ok (some r, c')) : Op srt c c' := by
  have := run_eq (c := c) (node := node) op
  rw [hres] at this
  simp only at this
  rcases this with h' | ⟨_, h'⟩
  · rw [h] at h'
    cases hs : setSubnodes c node ids with
    | error e => rw [hs] at h'; simp [Except.map] at h'
    | ok x =>
      obtain ⟨r', c''⟩ := x
      rw [hs] at h'
      simp only [Except.map, Except.ok.injEq, Prod.mk.injEq] at h'
      obtain ⟨target, v, hv, he⟩ := setSubnodes_step hg hids hs
      rw [h'.2, he]
      exact .set c target v hv.1 hv.2
  · rw [h] at h'
    simp at h'

/-! ## Substitution -/

theorem subtree?_substitute {new : List Step → Option (Tree D true)} {b : Bool} (t : Tree D b) : ∀ (p0 p : List Step),
    (∀ q, q <+: p → q ≠ p → new (p0 ++ q) = none) →
    subtree? (substitute new p0 t) p = (subtree? t p).map (substitute new (p0 ++ p)) := by
  induction t with
  | node k d l ks ih =>
    intro p0 p h
    cases p with
    | nil => simp [subtree?]
    | cons st p =>
      have h0 := h [] (by simp) (by simp)
      rw [List.append_nil] at h0
      simp only [substitute, h0, subtree?]
      exact ih p0 (st :: p) h
  | nil => intro p0 p _; simp [substitute, subtree?]
  | cons st t rest ih1 ih2 =>
    intro p0 p h
    cases p with
    | nil => simp [substitute, subtree?]
    | cons st' p =>
      simp only [substitute, subtree?]
      split
      · rename_i he
        subst he
        rw [ih1 (p0 ++ [st]) p]
        · simp
        · intro q hq hne
          have := h (st :: q) (by simpa using hq) (by simpa using hne)
          simpa using this
      · exact ih2 p0 (st' :: p) h

theorem substitute_none {new : List Step → Option (Tree D true)} {b : Bool} (t : Tree D b) : ∀ (p0 : List Step),
    (∀ q, new (p0 ++ q) = none) → substitute new p0 t = t := by
  induction t with
  | node k d l ks ih =>
    intro p0 h
    have h0 := h []
    rw [List.append_nil] at h0
    simp only [substitute, h0, ih p0 h]
  | nil => intro p0 _; rfl
  | cons st t rest ih1 ih2 =>
    intro p0 h
    simp only [substitute]
    rw [ih1 _ (fun q => by have := h (st :: q); simpa using this), ih2 p0 h]

theorem newTrees_eq {s : Store D} (hb : Below s) {rs : List Replace} {new : List Step → Option (Tree D true)} (h : NewAt s rs new) :
    newTrees s s.length rs = new := by
  funext p
  unfold newTrees
  cases hf : rs.find? (fun r => decide (r.original.path = p)) with
  | none =>
    rw [List.find?_eq_none] at hf
    simp only [decide_eq_true_eq] at hf
    rw [h.2 p hf]
    rfl
  | some r =>
    have h1 := List.mem_of_find?_eq_some hf
    have h2 := List.find?_some hf
    simp only [decide_eq_true_eq] at h2
    obtain ⟨t, h3, h4⟩ := h.1 r h1
    obtain ⟨t', h5⟩ := below_denotes hb (denotes_lt h4)
    rw [Option.bind_some, h5, ← h2, h3, denotes_unique h4 ⟨_, h5⟩]

theorem at_mono {s s' : Store D} (hs : s <+: s') : ∀ {p : List Step} {r i : Id}, s.at r p = some i → s'.at r p = some i := by
  intro p
  induction p with
  | nil => intro r i h; exact h
  | cons st p ih =>
    intro r i h
    rw [Store.at] at h ⊢
    split at h
    · rename_i j hj
      have : s'.atStep r st = some j := by
        have hr : r < s.length := by
          by_contra hc
          have hn : s[r]? = none := List.getElem?_eq_none (Nat.le_of_not_lt hc)
          simp [Store.atStep, Store.kids, hn] at hj
        unfold Store.atStep
        rw [kids_prefix hs hr]
        exact hj
      rw [this]
      exact ih h
    · simp at h

end Verif.Imm
