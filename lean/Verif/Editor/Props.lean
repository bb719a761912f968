import Verif.Editor.Model
import Mathlib.Tactic.SplitIfs

/-!
# The history of edited documents

* **C209** `never_throws`, `added_root`, `old_stays`, `migrate_follows`, `migrate_latest` – ids of documents, and what becomes of them.
* **C210** `migrate_max_partial`, `migrate_max_false`, `latest_partial`, `latest_false`, `reset_false` – the greatest version, the latest id, starting again.
-/

namespace Verif.Editor

/-! ## Specification -/

/-- What a user does: open a document, or edit documents, which replaces some trees by others. -/
inductive Op where
  | add (root : Nat)
  | edit (replaced : List (Nat × Nat))

/-- What a step makes of a tree. -/
def after (op : Op) (tree : Nat) : Nat :=
  match op with
  | .add _ => tree
  | .edit replaced => (replaced.lookup tree).getD tree

/-- What many steps make of a tree, one after the other. -/
def follow (ops : List Op) (tree : Nat) : Nat := ops.foldl (fun t op => after op t) tree

/-- One step of the program. -/
def step (h : List Version) (op : Op) : Option (List Version) :=
  match op with
  | .add root => (addRoot h root).map Prod.fst
  | .edit replaced => (extend h replaced).map Prod.fst

/-- Many steps of the program. -/
def run (h : List Version) (ops : List Op) : Option (List Version) :=
  match ops with
  | [] => some h
  | op :: ops => (step h op).bind fun h => run h ops

/-! ## Lemmas -/

theorem assignAll_lt (f : Nat → Option Nat) (n i : Nat) (h : i < n) : assignAll f n i = some i := by
  induction n with
  | zero => omega
  | succ n ih =>
    rw [assignAll, assign]
    split_ifs with hi
    · rw [hi]
    · exact ih (by omega)

theorem withNew_get (v : Version) (replaced : List (Nat × Nat)) (i x : Nat) (h : v.roots[i]? = some x) :
    (v.withNew replaced).roots[i]? = some (after (.edit replaced) x) := by
  unfold Version.withNew after
  rw [List.getElem?_map, h]
  cases hl : replaced.lookup x <;> simp [hl]

theorem withNew_length (v : Version) (replaced : List (Nat × Nat)) : (v.withNew replaced).roots.length = v.roots.length := by
  simp [Version.withNew]

theorem addRoot_get (v : Version) (root i x : Nat) (h : v.roots[i]? = some x) : (v.addRoot root).1.roots[i]? = some x := by
  unfold Version.addRoot
  dsimp only
  have h1 := withNew_get v [] i x h
  rw [List.getElem?_append_left (List.getElem?_eq_some_iff.mp h1).1, h1]
  rfl

/-- What is between a version and the next one. -/
def Link (v w : Version) : Prop := ∀ i, i < v.roots.length → w.transition i = some i ∧ i < w.roots.length

theorem link_withNew (v : Version) (replaced : List (Nat × Nat)) : Link v (v.withNew replaced) := by
  intro i hi
  refine ⟨?_, by rw [withNew_length]; exact hi⟩
  unfold Version.withNew
  exact assignAll_lt _ _ _ hi

theorem link_addRoot (v : Version) (root : Nat) : Link v (v.addRoot root).1 := by
  intro i hi
  unfold Version.addRoot
  dsimp only
  refine ⟨assignAll_lt _ _ _ ?_, ?_⟩ <;> rw [List.length_append, withNew_length] <;> omega

/-- All versions are linked to the next ones, and there is one. -/
def Linked (h : List Version) : Prop := h ≠ [] ∧ ∀ k v w, h[k]? = some v → h[k + 1]? = some w → Link v w

theorem linked_append (h : List Version) (hl : Linked h) (v w : Version) (hv : h.getLast? = some v) (hw : Link v w) : Linked (h ++ [w]) := by
  refine ⟨by simp, ?_⟩
  intro k a b ha hb
  have hlt := (List.getElem?_eq_some_iff.mp hb).1
  rw [List.length_append, List.length_singleton] at hlt
  rw [List.getElem?_append_left (by omega)] at ha
  by_cases hk : k + 1 < h.length
  · rw [List.getElem?_append_left hk] at hb
    exact hl.2 k a b ha hb
  · have e : k + 1 = h.length := by omega
    rw [e, List.getElem?_append_right (Nat.le_refl _), Nat.sub_self] at hb
    simp only [List.getElem?_cons_zero, Option.some.injEq] at hb
    subst hb
    rw [List.getLast?_eq_getElem?, show h.length - 1 = k by omega, ha] at hv
    injection hv with hv
    subst hv
    exact hw

theorem last_some (h : List Version) (hn : h ≠ []) : ∃ v, h.getLast? = some v := ⟨h.getLast hn, List.getLast?_eq_some_getLast hn⟩

/-- One step: no exception; nothing that was there changes, and the trees of the last version become what the step makes of them. -/
theorem step_spec (h : List Version) (hl : Linked h) (op : Op) : ∃ h', step h op = some h' ∧ Linked h' ∧ (∃ t, h' = h ++ t) ∧
    ∀ v, h.getLast? = some v → ∃ v', h'.getLast? = some v' ∧ ∀ i x : Nat, v.roots[i]? = some x → v'.roots[i]? = some (after op x) := by
  obtain ⟨v, hv⟩ := last_some h hl.1
  cases op with
  | add root =>
    refine ⟨h ++ [(v.addRoot root).1], by simp [step, addRoot, hv], linked_append h hl v _ hv (link_addRoot v root), ⟨_, rfl⟩, ?_⟩
    intro w hw
    rw [hv] at hw
    injection hw with hw
    subst hw
    exact ⟨(v.addRoot root).1, by simp, fun i x hx => addRoot_get _ _ _ _ hx⟩
  | edit replaced =>
    cases replaced with
    | nil =>
      refine ⟨h, by simp [step, extend], hl, ⟨[], by simp⟩, ?_⟩
      intro w hw
      exact ⟨w, hw, fun i x hx => by simpa [after] using hx⟩
    | cons p ps =>
      refine ⟨h ++ [v.withNew (p :: ps)], by simp [step, extend, hv], linked_append h hl v _ hv (link_withNew v _), ⟨_, rfl⟩, ?_⟩
      intro w hw
      rw [hv] at hw
      injection hw with hw
      subst hw
      exact ⟨_, by simp, fun i x hx => withNew_get _ _ _ _ hx⟩

theorem run_spec (ops : List Op) (h : List Version) (hl : Linked h) : ∃ h', run h ops = some h' ∧ Linked h' ∧ (∃ t, h' = h ++ t) ∧
    ∀ v, h.getLast? = some v → ∃ v', h'.getLast? = some v' ∧ ∀ i x : Nat, v.roots[i]? = some x → v'.roots[i]? = some (follow ops x) := by
  induction ops generalizing h with
  | nil => exact ⟨h, rfl, hl, ⟨[], by simp⟩, fun v hv => ⟨v, hv, fun i x hx => hx⟩⟩
  | cons op ops ih =>
    obtain ⟨h1, e1, l1, ⟨t1, p1⟩, f1⟩ := step_spec h hl op
    obtain ⟨h2, e2, l2, ⟨t2, p2⟩, f2⟩ := ih h1 l1
    refine ⟨h2, by rw [run, e1]; exact e2, l2, ⟨t1 ++ t2, by rw [p2, p1, List.append_assoc]⟩, ?_⟩
    intro v hv
    obtain ⟨v1, hv1, g1⟩ := f1 v hv
    obtain ⟨v2, hv2, g2⟩ := f2 v1 hv1
    exact ⟨v2, hv2, fun i x hx => g2 i _ (g1 i x hx)⟩

theorem linked_start : Linked start := by
  refine ⟨by simp [start], ?_⟩
  intro k v w _ hw
  have := (List.getElem?_eq_some_iff.mp hw).1
  simp [start] at this

/-- The version where migration ends. -/
def target (h : List Version) (maxVersion : Option Nat) (k : Nat) : Nat :=
  match maxVersion with
  | none => h.length - 1
  | some m => max k (min (h.length - 1) (m + 1))

theorem loop_spec (h : List Version) (hl : Linked h) (mx : Option Nat) (steps k : Nat) (ids : List Nat) (v : Version) (hv : h[k]? = some v)
    (hi : ∀ i ∈ ids, i < v.roots.length) (hs : target h mx k ≤ k + steps) :
    migrateLoop h mx steps ⟨k, ids.map (RootId.mk k)⟩ = some ⟨target h mx k, ids.map (RootId.mk (target h mx k))⟩ ∧
    ∃ w, h[target h mx k]? = some w ∧ ∀ i ∈ ids, i < w.roots.length := by
  have hk := (List.getElem?_eq_some_iff.mp hv).1
  have htk : k ≤ target h mx k := by cases mx <;> simp only [target] <;> omega
  induction steps generalizing k v with
  | zero =>
    have e : target h mx k = k := by omega
    rw [e]
    exact ⟨rfl, v, hv, hi⟩
  | succ steps ih =>
    rw [migrateLoop]
    by_cases hc : k + 1 < h.length ∧ allowed mx k = true
    · rw [if_pos hc]
      dsimp only
      have hw := List.getElem?_eq_getElem hc.1
      have hlink := hl.2 k v _ hv hw
      have e : target h mx (k + 1) = target h mx k := by
        cases mx with
        | none => rfl
        | some m =>
          have := hc.2
          simp only [allowed, decide_eq_true_eq] at this
          simp only [target]
          omega
      have hf : (ids.map (RootId.mk k)).filterMap (fun item => (h[k + 1].transition item.index).map fun i => (⟨k + 1, i⟩ : RootId)) = ids.map (RootId.mk (k + 1)) := by
        have hall : ∀ i ∈ ids, h[k + 1].transition i = some i := fun i hii => (hlink i (hi i hii)).1
        clear hi hs htk ih
        induction ids with
        | nil => rfl
        | cons i ids ih' =>
          rw [List.map_cons, List.filterMap_cons, hall i (by simp), List.map_cons, ih' (fun j hj => hall j (List.mem_cons_of_mem _ hj))]
          rfl
      rw [hw]
      dsimp only
      rw [hf]
      have hmake : Group.make (k + 1) (ids.map (RootId.mk (k + 1))) = some ⟨k + 1, ids.map (RootId.mk (k + 1))⟩ := by
        unfold Group.make
        rw [if_pos (by simp)]
      rw [hmake]
      dsimp only
      rw [← e]
      refine ih (k + 1) h[k + 1] hw (fun i hii => (hlink i (hi i hii)).2) (by omega) hc.1 ?_
      cases mx <;> simp only [target] <;> omega
    · rw [if_neg hc]
      have e : target h mx k = k := by
        cases mx with
        | none =>
          simp only [allowed, and_true] at hc
          simp only [target]
          omega
        | some m =>
          simp only [allowed, decide_eq_true_eq] at hc
          simp only [target]
          omega
      rw [e]
      exact ⟨rfl, v, hv, hi⟩

/-! ## C209 -/

/-- **C209** Opening and editing documents is never an exception. -/
theorem never_throws (ops : List Op) : ∃ h, run start ops = some h := by
  obtain ⟨h, e, _⟩ := run_spec ops start linked_start
  exact ⟨h, e⟩

/-- **C209** The id of a new document gives the document. -/
theorem added_root (ops : List Op) (h : List Version) (hr : run start ops = some h) (root : Nat) :
    ∃ h' id, addRoot h root = some (h', id) ∧ id.version + 1 = h'.length ∧ getRoot h' id = some root := by
  obtain ⟨h1, e, hl, _⟩ := run_spec ops start linked_start
  rw [hr] at e
  injection e with e
  subst e
  obtain ⟨v, hv⟩ := last_some h hl.1
  refine ⟨h ++ [(v.addRoot root).1], ⟨h.length, (v.addRoot root).2⟩, by simp only [addRoot, hv], by simp, ?_⟩
  simp [getRoot, Version.addRoot]

/-- **C209** Ids of older versions give the same trees, whatever is done later. -/
theorem old_stays (ops more : List Op) (h h' : List Version) (hr : run start ops = some h) (hm : run h more = some h') (id : RootId) (x : Nat)
    (hx : getRoot h id = some x) : getRoot h' id = some x := by
  obtain ⟨h1, e, hl, _⟩ := run_spec ops start linked_start
  rw [hr] at e
  injection e with e
  subst e
  obtain ⟨h2, e2, _, ⟨t, ht⟩, _⟩ := run_spec more h hl
  rw [hm] at e2
  injection e2 with e2
  subst e2
  unfold getRoot at hx ⊢
  simp only [Option.bind_eq_bind, Option.bind_eq_some_iff] at hx ⊢
  obtain ⟨v, hv, hx⟩ := hx
  exact ⟨v, by rw [ht, List.getElem?_append_left (List.getElem?_eq_some_iff.mp hv).1]; exact hv, hx⟩

/-- **C209** Documents migrated to the latest version keep their indices, and are what all steps since then have made of them. -/
theorem migrate_follows (ops more : List Op) (h h' : List Version) (hr : run start ops = some h) (hm : run h more = some h') (hlen : h.length < h'.length)
    (ids : List Nat) (hi : ∀ i ∈ ids, ∃ x, getRoot h ⟨h.length - 1, i⟩ = some x) :
    migrate h' ⟨h.length - 1, ids.map (RootId.mk (h.length - 1))⟩ none = some (some ⟨h'.length - 1, ids.map (RootId.mk (h'.length - 1))⟩) ∧
    ∀ i ∈ ids, getRoot h' ⟨h'.length - 1, i⟩ = (getRoot h ⟨h.length - 1, i⟩).map (follow more) := by
  obtain ⟨h1, e, hl, _⟩ := run_spec ops start linked_start
  rw [hr] at e
  injection e with e
  subst e
  obtain ⟨h2, e2, hl2, ⟨t, ht⟩, hf⟩ := run_spec more h hl
  rw [hm] at e2
  injection e2 with e2
  subst e2
  obtain ⟨v, hv⟩ := last_some h hl.1
  have hpos : 0 < h.length := List.length_pos_iff.mpr hl.1
  have hv1 : h[h.length - 1]? = some v := by rw [← List.getLast?_eq_getElem?]; exact hv
  have hv2 : h'[h.length - 1]? = some v := by rw [ht, List.getElem?_append_left (by omega)]; exact hv1
  have hlt : ∀ i ∈ ids, i < v.roots.length := by
    intro i hii
    obtain ⟨x, hx⟩ := hi i hii
    simp only [getRoot, hv1, Option.bind_eq_bind, Option.bind_some] at hx
    exact (List.getElem?_eq_some_iff.mp hx).1
  constructor
  · unfold migrate
    rw [if_neg (by dsimp only; omega), (loop_spec h' hl2 none h'.length (h.length - 1) ids v hv2 hlt (by simp only [target]; omega)).1]
    rfl
  · intro i hii
    obtain ⟨w, hw, hg⟩ := hf v hv
    have hw1 : h'[h'.length - 1]? = some w := by rw [← List.getLast?_eq_getElem?]; exact hw
    have hx := List.getElem?_eq_getElem (hlt i hii)
    simp only [getRoot, hv1, hw1, Option.bind_eq_bind, Option.bind_some]
    rw [hx, hg i _ hx]
    rfl

/-- **C209** Documents of the latest version are not migrated. -/
theorem migrate_latest (h : List Version) (g : Group) (mx : Option Nat) (hg : g.version + 1 = h.length) : migrate h g mx = some none := by
  unfold migrate
  rw [if_pos hg]

/-- Two documents, the second one edited, then the first one. -/
def sample : List Op := [.add 10, .add 20, .edit [(20, 21)], .edit [(10, 11), (21, 22)]]

example : ∃ h h', run start (sample.take 2) = some h ∧ run h (sample.drop 2) = some h' ∧ h.length < h'.length ∧
    getRoot h ⟨2, 1⟩ = some 20 ∧ getRoot h' ⟨4, 1⟩ = some 22 ∧ migrate h' ⟨2, [⟨2, 1⟩]⟩ none = some (some ⟨4, [⟨4, 1⟩]⟩) :=
  ⟨_, _, rfl, rfl, by decide, by decide, by decide, by decide⟩

/-! ## C210 -/

/-- **C210** With a greatest version, migration ends at the version after it, if there is one.  Missing: it should end at the greatest version. -/
theorem migrate_max_partial (ops : List Op) (h : List Version) (hr : run start ops = some h) (k m : Nat) (hk : k + 1 < h.length) (hm : k ≤ m)
    (ids : List Nat) (hi : ∀ i ∈ ids, ∃ x, getRoot h ⟨k, i⟩ = some x) :
    migrate h ⟨k, ids.map (RootId.mk k)⟩ (some m) = some (some ⟨min (h.length - 1) (m + 1), ids.map (RootId.mk (min (h.length - 1) (m + 1)))⟩) := by
  obtain ⟨h1, e, hl, _⟩ := run_spec ops start linked_start
  rw [hr] at e
  injection e with e
  subst e
  have hv := List.getElem?_eq_getElem (show k < h.length by omega)
  have hlt : ∀ i ∈ ids, i < h[k].roots.length := by
    intro i hii
    obtain ⟨x, hx⟩ := hi i hii
    simp only [getRoot, hv, Option.bind_eq_bind, Option.bind_some] at hx
    exact (List.getElem?_eq_some_iff.mp hx).1
  have ht : target h (some m) k = min (h.length - 1) (m + 1) := by simp only [target]; omega
  unfold migrate
  rw [if_neg (by dsimp only; omega), (loop_spec h hl (some m) h.length k ids _ hv hlt (by rw [ht]; omega)).1, ht]
  rfl

/-- Migration does not go past the greatest version. -/
def MaxStatement : Prop := ∀ (ops : List Op) (h : List Version) (g g' : Group) (m : Nat), run start ops = some h → g.version ≤ m →
  migrate h g (some m) = some (some g') → g'.version ≤ m

/-- **C210** False: it goes one version too far. -/
theorem migrate_max_false : ¬ MaxStatement := by
  intro h
  have := h [.add 10, .edit [(10, 11)], .edit [(11, 12)]] _ ⟨1, [⟨1, 0⟩]⟩ ⟨2, [⟨2, 0⟩]⟩ 1 rfl (by decide) (by decide)
  revert this
  decide

/-- **C210** The latest id has the latest version; its index is right for ids whose version is their index.  Missing: others. -/
theorem latest_partial (h : List Version) (id : RootId) :
    (getLatest h id).version = h.length - 1 ∧ (id.version = id.index → (getLatest h id).index = id.index) := ⟨rfl, fun e => e⟩

/-- The latest id of a document has its index. -/
def LatestStatement : Prop := ∀ (ops : List Op) (h : List Version) (id : RootId) (x : Nat), run start ops = some h → getRoot h id = some x →
  ∃ y, getRoot h (getLatest h id) = some y

/-- **C210** False: the version is taken for the index. -/
theorem latest_false : ¬ LatestStatement := by
  intro h
  obtain ⟨y, hy⟩ := h [.add 10] _ ⟨1, 0⟩ 10 rfl (by decide)
  revert hy
  simp [getRoot, getLatest, start, Version.addRoot, Version.withNew, Version.empty]

/-- Starting again with a document gives its id. -/
def ResetStatement : Prop := ∀ (ops : List Op) (h : List Version) (root : Nat), run start ops = some h →
  ∃ h' id, resetWith h root = some (h', id) ∧ getRoot h' id = some root

/-- **C210** False: it is always an exception, since there is no last version to start from. -/
theorem reset_false : ¬ ResetStatement := by
  intro h
  obtain ⟨h', id, e, _⟩ := h [] _ 1 rfl
  simp [resetWith, addRoot] at e

end Verif.Editor
