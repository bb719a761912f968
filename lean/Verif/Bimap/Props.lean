import Verif.Bimap.Model
import Mathlib.Data.List.Nodup
import Mathlib.Tactic.SplitIfs

/-!
# Maps in both directions

**C181**  After any sequence of operations, both directions of a map agree, and each operation changes what it should:
`get_right` is the map, `get_left` its inverse; `add_unique` adds a pair or throws and changes nothing; `erase_left` and
`erase_right` remove the pairs with a key; `reassign` changes the value of a key.

**C182**  The stable map gives its left keys in the order in which they were added.
-/

namespace Verif.Bimap

variable {L R : Type} [DecidableEq L] [DecidableEq R]

/-- The operations. -/
inductive Op (L R : Type) where
  | add (l : L) (r : R)
  | eraseLeft (l : L)
  | eraseRight (r : R)
  | reassign (l : L) (r : R)

/-- An operation on a map; there is no `reassign` for the first kind.  After an exception the map is as before. -/
def apply (k : Kind) (s : List (L × R)) : Op L R → List (L × R)
  | .add l r => (addUnique k s l r).getD s
  | .eraseLeft l => eraseLeft k s l
  | .eraseRight r => eraseRight s r
  | .reassign l r => if k = .one then s else (reassign s l r).1

/-- A map after a sequence of operations. -/
inductive Reachable (k : Kind) : List (L × R) → Prop
  | empty : Reachable k []
  | step {s} (op : Op L R) : Reachable k s → Reachable k (apply k s op)

/-! ## Each left key once -/

theorem find_none {s : List (L × R)} {l : L} : s.find? (fun p => p.1 = l) = none ↔ l ∉ leftKeys s := by
  rw [List.find?_eq_none]
  simp only [leftKeys, List.mem_map, not_exists, not_and, decide_eq_true_eq]

theorem contains_left {s : List (L × R)} {l : L} : containsLeft s l = true ↔ l ∈ leftKeys s := by
  simp [containsLeft, leftKeys]

theorem contains_right {s : List (L × R)} {r : R} : containsRight s r = true ↔ r ∈ rightKeys s := by
  simp [containsRight, rightKeys]

theorem eraseFirst_eq {s : List (L × R)} (h : (leftKeys s).Nodup) (l : L) : eraseFirst s l = s.filter fun p => p.1 ≠ l := by
  induction s with
  | nil => rfl
  | cons p s ih =>
    have h' := List.nodup_cons.mp h
    rw [eraseFirst]
    by_cases hp : p.1 = l
    · rw [if_pos hp, List.filter_cons_of_neg (by simp [hp])]
      symm
      rw [List.filter_eq_self]
      intro q hq
      simp only [ne_eq, decide_not, Bool.not_eq_true', decide_eq_false_iff_not]
      intro e
      exact h'.1 (List.mem_map.mpr ⟨q, hq, by rw [e, hp]⟩)
    · rw [if_neg hp, List.filter_cons_of_pos (by simp [hp]), ih h'.2]

theorem eraseLeft_eq {s : List (L × R)} (h : (leftKeys s).Nodup) (k : Kind) (l : L) : eraseLeft k s l = s.filter fun p => p.1 ≠ l := by
  cases k
  · rfl
  · rfl
  · exact eraseFirst_eq h l

theorem filter_keys {s : List (L × R)} (p : L × R → Bool) (h : (leftKeys s).Nodup) : (leftKeys (s.filter p)).Nodup :=
  List.Nodup.sublist (List.Sublist.map _ List.filter_sublist) h

theorem modify_keys (s : List (L × R)) (l : L) (r : R) : leftKeys (modifyFirst s l r) = leftKeys s := by
  induction s with
  | nil => rfl
  | cons p s ih =>
    rw [modifyFirst]
    split_ifs with h
    · rfl
    · simp only [leftKeys, List.map_cons] at ih ⊢
      rw [ih]

theorem reassign_keys (s : List (L × R)) (l : L) (r : R) : leftKeys (reassign s l r).1 = leftKeys s := by
  unfold reassign
  split
  · rfl
  · exact modify_keys s l r

theorem add_eq {k : Kind} {s t : List (L × R)} {l : L} {r : R} (h : addUnique k s l r = some t) : l ∉ leftKeys s ∧ (k = .one → r ∉ rightKeys s) ∧ t = s ++ [(l, r)] := by
  cases k with
  | one =>
    simp only [addUnique] at h
    split_ifs at h with hc
    rw [Bool.or_eq_true, contains_left, contains_right, not_or] at hc
    injection h with h
    refine ⟨hc.1, fun _ => hc.2, ?_⟩
    rw [← h]
    unfold insert
    rw [if_neg (by rw [contains_left, contains_right]; simp [hc.1, hc.2])]
  | many =>
    by_cases hc : containsLeft s l = true
    · simp [addUnique, insert, hc] at h
    · have e : s ++ [(l, r)] = t := by simpa [addUnique, insert, hc] using h
      rw [contains_left] at hc
      exact ⟨hc, by simp, e.symm⟩
  | stable =>
    simp only [addUnique] at h
    split at h
    · simp at h
    · rename_i hf
      injection h with h
      refine ⟨find_none.mp hf, by simp, ?_⟩
      rw [← h]
      unfold insert
      rw [if_neg (by simp)]

theorem add_none {k : Kind} {s : List (L × R)} {l : L} {r : R} (h : addUnique k s l r = none) : l ∈ leftKeys s ∨ (k = .one ∧ r ∈ rightKeys s) := by
  cases k with
  | one =>
    simp only [addUnique] at h
    split_ifs at h with hc
    rw [Bool.or_eq_true, contains_left, contains_right] at hc
    exact hc.imp id fun h => ⟨rfl, h⟩
  | many =>
    by_cases hc : containsLeft s l = true
    · rw [contains_left] at hc
      exact .inl hc
    · simp [addUnique, insert, hc] at h
  | stable =>
    simp only [addUnique] at h
    split at h
    · rename_i p hf
      refine .inl ?_
      have := List.find?_some hf
      simp only [decide_eq_true_eq] at this
      exact List.mem_map.mpr ⟨p, List.mem_of_find?_eq_some hf, this⟩
    · simp at h

theorem reachable_left {k : Kind} {s : List (L × R)} (h : Reachable k s) : (leftKeys s).Nodup := by
  induction h with
  | empty => exact List.nodup_nil
  | @step s op _ ih =>
    cases op with
    | add l r =>
      rw [apply]
      cases h : addUnique k s l r with
      | none => exact ih
      | some t =>
        obtain ⟨h1, _, rfl⟩ := add_eq h
        simp only [Option.getD_some, leftKeys, List.map_append, List.map_cons, List.map_nil]
        rw [List.nodup_append]
        exact ⟨ih, List.nodup_singleton _, by rintro a ha b hb rfl; rw [List.mem_singleton] at hb; subst hb; exact h1 ha⟩
    | eraseLeft l => rw [apply, eraseLeft_eq ih]; exact filter_keys _ ih
    | eraseRight r => exact filter_keys _ ih
    | reassign l r =>
      rw [apply]
      split_ifs
      · exact ih
      · rw [reassign_keys]; exact ih

theorem reachable_right {s : List (L × R)} (h : Reachable .one s) : (rightKeys s).Nodup := by
  induction h with
  | empty => exact List.nodup_nil
  | @step s op hr ih =>
    cases op with
    | add l r =>
      rw [apply]
      cases h : addUnique .one s l r with
      | none => exact ih
      | some t =>
        obtain ⟨_, h1, rfl⟩ := add_eq h
        simp only [Option.getD_some, rightKeys, List.map_append, List.map_cons, List.map_nil]
        rw [List.nodup_append]
        exact ⟨ih, List.nodup_singleton _, by rintro a ha b hb rfl; rw [List.mem_singleton] at hb; subst hb; exact h1 rfl ha⟩
    | eraseLeft l => exact List.Nodup.sublist (List.Sublist.map _ List.filter_sublist) ih
    | eraseRight r => exact List.Nodup.sublist (List.Sublist.map _ List.filter_sublist) ih
    | reassign l r => exact ih

/-! ## The map -/

theorem get_iff {s : List (L × R)} (h : (leftKeys s).Nodup) (l : L) (r : R) : getRight s l = some r ↔ (l, r) ∈ s := by
  induction s with
  | nil => simp [getRight]
  | cons p s ih =>
    have h' := List.nodup_cons.mp h
    obtain ⟨a, b⟩ := p
    unfold getRight at ih ⊢
    rw [List.find?_cons]
    by_cases hp : a = l
    · subst hp
      simp only [decide_true, Option.map_some, Option.some.injEq, List.mem_cons, Prod.mk.injEq, true_and]
      refine ⟨fun e => .inl e.symm, ?_⟩
      rintro (e | e)
      · exact e.symm
      · exact absurd (List.mem_map.mpr ⟨(a, r), e, rfl⟩) h'.1
    · simp only [hp, decide_false, List.mem_cons, Prod.mk.injEq]
      rw [ih h'.2]
      refine ⟨.inr, ?_⟩
      rintro (⟨e, _⟩ | e)
      · exact absurd e.symm hp
      · exact e

theorem get_none {s : List (L × R)} (l : L) : getRight s l = none ↔ l ∉ leftKeys s := by
  unfold getRight
  rw [Option.map_eq_none_iff, find_none]

theorem getLeft_iff {s : List (L × R)} (h : (rightKeys s).Nodup) (l : L) (r : R) : getLeft s r = some l ↔ (l, r) ∈ s := by
  induction s with
  | nil => simp [getLeft]
  | cons p s ih =>
    have h' := List.nodup_cons.mp h
    obtain ⟨a, b⟩ := p
    unfold getLeft at ih ⊢
    rw [List.find?_cons]
    by_cases hp : b = r
    · subst hp
      simp only [decide_true, Option.map_some, Option.some.injEq, List.mem_cons, Prod.mk.injEq, and_true]
      refine ⟨fun e => .inl e.symm, ?_⟩
      rintro (e | e)
      · exact e.symm
      · exact absurd (List.mem_map.mpr ⟨(l, b), e, rfl⟩) h'.1
    · simp only [hp, decide_false, List.mem_cons, Prod.mk.injEq]
      rw [ih h'.2]
      refine ⟨.inr, ?_⟩
      rintro (⟨_, e⟩ | e)
      · exact absurd e.symm hp
      · exact e

/-- **C181** The map with one key on each side: both directions agree. -/
theorem one_inverse {s : List (L × R)} (h : Reachable .one s) (l : L) (r : R) : getLeft s r = some l ↔ getRight s l = some r := by
  rw [getLeft_iff (reachable_right h), get_iff (reachable_left h)]

/-- **C181** The other maps: the keys of a value, each once. -/
theorem many_inverse {k : Kind} {s : List (L × R)} (h : Reachable k s) (r : R) : (∀ l, l ∈ getLefts s r ↔ getRight s l = some r) ∧ (getLefts s r).Nodup := by
  refine ⟨?_, filter_keys _ (reachable_left h)⟩
  intro l
  rw [get_iff (reachable_left h)]
  unfold getLefts
  rw [List.mem_map]
  constructor
  · rintro ⟨⟨a, b⟩, h1, rfl⟩
    rw [List.mem_filter] at h1
    simp only [decide_eq_true_eq] at h1
    obtain ⟨h1, rfl⟩ := h1
    exact h1
  · intro h1
    exact ⟨(l, r), List.mem_filter.mpr ⟨h1, by simp⟩, rfl⟩

/-- **C181** The keys, and whether they are there. -/
theorem keys_map {k : Kind} {s : List (L × R)} (h : Reachable k s) :
    (leftKeys s).Nodup ∧ (∀ l, l ∈ leftKeys s ↔ ∃ r, getRight s l = some r) ∧ (∀ r, r ∈ rightKeys s ↔ ∃ l, getRight s l = some r) ∧
    (∀ l, containsLeft s l = true ↔ ∃ r, getRight s l = some r) ∧ (∀ r, containsRight s r = true ↔ ∃ l, getRight s l = some r) := by
  have h1 := reachable_left h
  have a : ∀ l, l ∈ leftKeys s ↔ ∃ r, getRight s l = some r := by
    intro l
    simp only [get_iff h1, leftKeys, List.mem_map, Prod.exists, exists_and_right, exists_eq_right]
  have b : ∀ r, r ∈ rightKeys s ↔ ∃ l, getRight s l = some r := by
    intro r
    simp only [get_iff h1, rightKeys, List.mem_map, Prod.exists, exists_eq_right]
  exact ⟨h1, a, b, fun l => by rw [contains_left, a], fun r => by rw [contains_right, b]⟩

/-! ## The operations -/

/-- **C181** `add_unique` throws exactly if the key, or in the first kind the value, is there; otherwise it adds the pair. -/
theorem add_map {k : Kind} {s : List (L × R)} (h : Reachable k s) (l : L) (r : R) :
    (addUnique k s l r = none ↔ getRight s l ≠ none ∨ (k = .one ∧ ∃ l', getRight s l' = some r)) ∧
    ∀ t, addUnique k s l r = some t → ∀ x, getRight t x = if x = l then some r else getRight s x := by
  obtain ⟨_, _, k3, _⟩ := keys_map h
  refine ⟨⟨?_, ?_⟩, ?_⟩
  · intro hn
    rcases add_none hn with h1 | ⟨h1, h2⟩
    · exact .inl fun e => (get_none l).mp e h1
    · exact .inr ⟨h1, (k3 r).mp h2⟩
  · intro hn
    cases ha : addUnique k s l r with
    | none => rfl
    | some t =>
      obtain ⟨h1, h2, _⟩ := add_eq ha
      rcases hn with hn | ⟨e, hn⟩
      · exact absurd ((get_none l).mpr h1) hn
      · exact absurd ((k3 r).mpr hn) (h2 e)
  · intro t ht x
    obtain ⟨h1, _, rfl⟩ := add_eq ht
    unfold getRight
    rw [List.find?_append]
    by_cases hx : x = l
    · subst hx
      rw [if_pos rfl, find_none.mpr h1]
      simp
    · rw [if_neg hx]
      have : ([(l, r)] : List (L × R)).find? (fun p => decide (p.1 = x)) = none := by simp [Ne.symm hx]
      rw [this, Option.or_none]

theorem get_filter {s : List (L × R)} (h : (leftKeys s).Nodup) (p : L × R → Bool) (x : L) (r : R) :
    getRight (s.filter p) x = some r ↔ getRight s x = some r ∧ p (x, r) = true := by
  rw [get_iff (filter_keys p h), get_iff h, List.mem_filter]

/-- **C181** `erase_left` removes a key. -/
theorem eraseLeft_map {k : Kind} {s : List (L × R)} (h : Reachable k s) (l x : L) : getRight (eraseLeft k s l) x = if x = l then none else getRight s x := by
  have h1 := reachable_left h
  rw [eraseLeft_eq h1]
  apply Option.ext
  intro r
  rw [get_filter h1]
  split_ifs with hx <;> simp [hx]

/-- **C181** `erase_right` removes the keys of a value. -/
theorem eraseRight_map {k : Kind} {s : List (L × R)} (h : Reachable k s) (r : R) (x : L) :
    getRight (eraseRight s r) x = if getRight s x = some r then none else getRight s x := by
  have h1 := reachable_left h
  apply Option.ext
  intro r'
  unfold eraseRight
  rw [get_filter h1]
  split_ifs with hx
  · rw [hx]; simp only [Option.some.injEq, iff_false, not_and]
    rintro rfl; simp
  · constructor
    · exact fun h => h.1
    · intro h
      refine ⟨h, ?_⟩
      simp only [decide_eq_true_eq]
      rintro rfl
      exact hx h

theorem modify_get (s : List (L × R)) (l : L) (r : R) (x : L) : getRight (modifyFirst s l r) x = if x = l ∧ l ∈ leftKeys s then some r else getRight s x := by
  induction s with
  | nil => simp [modifyFirst, leftKeys]
  | cons p s ih =>
    rw [modifyFirst]
    by_cases hp : p.1 = l
    · rw [if_pos hp]
      by_cases hx : x = l
      · subst hx
        rw [if_pos ⟨rfl, by simp [leftKeys, hp]⟩]
        simp [getRight, List.find?_cons, hp]
      · rw [if_neg (by simp [hx])]
        have : p.1 ≠ x := by rw [hp]; exact Ne.symm hx
        simp [getRight, List.find?_cons, this]
    · rw [if_neg hp]
      have hm : l ∈ leftKeys (p :: s) ↔ l ∈ leftKeys s := by simp [leftKeys, Ne.symm hp]
      simp only [hm]
      by_cases hx : p.1 = x
      · have : x ≠ l := by rw [← hx]; exact hp
        rw [if_neg (by simp [this])]
        simp [getRight, List.find?_cons, hx]
      · have e : ∀ (t : List (L × R)), getRight (p :: t) x = getRight t x := by intro t; simp [getRight, List.find?_cons, hx]
        rw [e, e, ih]

/-- **C181** `reassign` changes the value of a key that is there, and says whether it is. -/
theorem reassign_map {k : Kind} {s : List (L × R)} (_ : Reachable k s) (l : L) (r : R) (x : L) :
    ((reassign s l r).2 = true ↔ getRight s l ≠ none) ∧
    getRight (reassign s l r).1 x = if x = l ∧ getRight s l ≠ none then some r else getRight s x := by
  unfold reassign
  cases hf : s.find? (fun p => decide (p.1 = l)) with
  | none =>
    have : getRight s l = none := by unfold getRight; rw [hf]; rfl
    simp [this]
  | some p =>
    have : getRight s l ≠ none := by unfold getRight; rw [hf]; simp
    have hm : l ∈ leftKeys s := by
      apply Decidable.byContradiction
      intro h
      exact this ((get_none l).mpr h)
    dsimp only
    rw [modify_get]
    simp [this, hm]

/-! ## C182 -/

/-- What the operations do to the order of the keys: a new one comes last. -/
def order : List L → List (L × R) → Op L R → List L
  | keys, _, .add l _ => if l ∈ keys then keys else keys ++ [l]
  | keys, _, .eraseLeft l => keys.filter (· ≠ l)
  | keys, s, .eraseRight r => keys.filter fun l => getRight s l ≠ some r
  | keys, _, .reassign _ _ => keys

/-- **C182** The keys stay in the order in which they were added. -/
theorem stable_order {s : List (L × R)} (h : Reachable .stable s) (op : Op L R) : leftKeys (apply .stable s op) = order (leftKeys s) s op := by
  have h1 := reachable_left h
  cases op with
  | add l r =>
    rw [apply, order]
    cases ha : addUnique .stable s l r with
    | none =>
      rcases add_none ha with h2 | ⟨h2, _⟩
      · rw [if_pos h2]; rfl
      · cases h2
    | some t =>
      obtain ⟨h2, _, rfl⟩ := add_eq ha
      rw [if_neg h2]
      simp [leftKeys]
  | eraseLeft l =>
    rw [apply, order, eraseLeft_eq h1]
    simp only [leftKeys, List.filter_map]
    rfl
  | eraseRight r =>
    rw [apply, order]
    simp only [leftKeys, List.filter_map, eraseRight]
    congr 1
    apply List.filter_congr
    rintro ⟨a, b⟩ hp
    have := (get_iff h1 a b).mpr hp
    simp [this]
  | reassign l r =>
    rw [apply, order, if_neg (by simp), reassign_keys]

example : ∃ s : List (Nat × Char), Reachable .stable s ∧ s = [(2, 'a'), (1, 'b'), (3, 'a')] ∧ getLefts s 'a' = [2, 3] := by
  refine ⟨_, .step (.reassign 1 'b') (.step (.add 3 'a') (.step (.add 1 'a') (.step (.add 2 'a') (.step (.eraseLeft 1) (.step (.add 1 'c') .empty))))), ?_, ?_⟩ <;> decide

end Verif.Bimap
