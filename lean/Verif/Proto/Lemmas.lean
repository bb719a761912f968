import Verif.Proto.Check
import Mathlib.Data.List.Nodup

/-! # Lemmas: association lists, one message -/

namespace Verif.Proto

section
variable {κ α : Type} [DecidableEq κ]

theorem get_nil (k : κ) : get ([] : List (κ × α)) k = none := rfl

theorem get_cons (k' : κ) (v : α) (l : List (κ × α)) (k : κ) :
    get ((k', v) :: l) k = if k' = k then some v else get l k := by
  unfold get
  rw [List.find?_cons]
  by_cases h : k' = k <;> simp [h]

theorem get_append (l l' : List (κ × α)) (k : κ) : get (l ++ l') k = (get l k).or (get l' k) := by
  induction l with
  | nil => simp [get_nil]
  | cons e l ih =>
    obtain ⟨k', v⟩ := e
    rw [List.cons_append, get_cons, get_cons, ih]
    split <;> simp

theorem get_none_of_not_mem (l : List (κ × α)) (k : κ) (h : k ∉ l.map (·.1)) : get l k = none := by
  induction l with
  | nil => rfl
  | cons e l ih =>
    obtain ⟨k', v⟩ := e
    simp only [List.map_cons, List.mem_cons, not_or] at h
    rw [get_cons, if_neg (Ne.symm h.1), ih h.2]

theorem get_mem (l : List (κ × α)) (k : κ) (v : α) (h : get l k = some v) : (k, v) ∈ l := by
  induction l with
  | nil => simp [get_nil] at h
  | cons e l ih =>
    obtain ⟨k', u⟩ := e
    rw [get_cons] at h
    split at h
    · rename_i hk
      subst hk
      injection h with h
      subst h
      exact List.mem_cons_self
    · exact List.mem_cons_of_mem _ (ih h)

theorem get_of_mem (l : List (κ × α)) (k : κ) (v : α) (hn : (l.map (·.1)).Nodup) (h : (k, v) ∈ l) : get l k = some v := by
  induction l with
  | nil => simp at h
  | cons e l ih =>
    obtain ⟨k', u⟩ := e
    rw [List.map_cons, List.nodup_cons] at hn
    rw [get_cons]
    rcases List.mem_cons.1 h with h | h
    · injection h with h1 h2
      subst h1 h2
      simp
    · have : k' ≠ k := by
        intro hk
        subst hk
        exact hn.1 (List.mem_map.2 ⟨_, h, rfl⟩)
      rw [if_neg this, ih hn.2 h]

theorem get_isSome (l : List (κ × α)) (k : κ) (h : k ∈ l.map (·.1)) : ∃ v, get l k = some v := by
  induction l with
  | nil => simp at h
  | cons e l ih =>
    obtain ⟨k', u⟩ := e
    rw [get_cons]
    by_cases hk : k' = k
    · exact ⟨u, by simp [hk]⟩
    · rw [if_neg hk]
      rw [List.map_cons, List.mem_cons] at h
      exact ih (h.resolve_left fun h => hk h.symm)

/-- Two lists with the same different names and the same values are equal. -/
theorem ext_get (a b : List (κ × α)) (hn : a.map (·.1) = b.map (·.1)) (hd : (a.map (·.1)).Nodup)
    (h : ∀ k ∈ a.map (·.1), get a k = get b k) : a = b := by
  induction a generalizing b with
  | nil =>
    cases b with
    | nil => rfl
    | cons e b => simp at hn
  | cons e a ih =>
    cases b with
    | nil => simp at hn
    | cons e' b =>
      obtain ⟨k, v⟩ := e
      obtain ⟨k', v'⟩ := e'
      simp only [List.map_cons, List.cons.injEq] at hn
      obtain ⟨h1, h2⟩ := hn
      subst h1
      rw [List.map_cons, List.nodup_cons] at hd
      have h3 := h k (by simp)
      rw [get_cons, get_cons, if_pos rfl, if_pos rfl] at h3
      injection h3 with h3
      subst h3
      congr 1
      apply ih b h2 hd.2
      intro q hq
      have h4 := h q (by simp only [List.map_cons, List.mem_cons]; exact Or.inr hq)
      rw [get_cons, get_cons] at h4
      have : k ≠ q := by
        intro hk
        subst hk
        exact hd.1 hq
      rwa [if_neg this, if_neg this] at h4

end

theorem put_names (acc : List (Fld × Val)) (f : Fld) (v : Val) : (put acc f v).map (·.1) = acc.map (·.1) := by
  unfold put
  rw [List.map_map]
  apply List.map_congr_left
  intro e _
  simp only [Function.comp_apply]
  split <;> rfl

theorem get_put (acc : List (Fld × Val)) (f g : Fld) (v : Val) :
    get (put acc f v) g = if f = g then (get acc g).map fun _ => v else get acc g := by
  induction acc with
  | nil =>
    rw [show put [] f v = [] from rfl, get_nil]
    simp
  | cons e acc ih =>
    obtain ⟨k, u⟩ := e
    rw [show put ((k, u) :: acc) f v = (if k = f then (k, v) else (k, u)) :: put acc f v from rfl]
    by_cases hk : k = f
    · rw [if_pos hk, get_cons, get_cons, ih]
      subst hk
      by_cases hg : k = g <;> simp [hg]
    · rw [if_neg hk, get_cons, get_cons, ih]
      by_cases hg : k = g
      · subst hg
        simp [Ne.symm hk]
      · simp [hg]

theorem put_self (acc : List (Fld × Val)) (f : Fld) (v : Val) (hd : (acc.map (·.1)).Nodup) (h : get acc f = some v) :
    put acc f v = acc := by
  apply ext_get
  · exact put_names acc f v
  · rw [put_names]
    exact hd
  · intro k _
    rw [get_put]
    by_cases hk : f = k
    · subst hk
      simp [h]
    · rw [if_neg hk]

/-- A value that survives being written and read, as a value of a declared type. -/
def Good (W : Codec → Val → Except Err Pb) (R : Codec → Option Pb → Except Err Val) : FTy → Val → Prop
  | .one c, v => ∃ x, W c v = .ok x ∧ R c (some x) = .ok (unlocated v)
  | .opt c, v => v = .none ∨ ∃ u, v = .some u ∧ ∃ x, W c u = .ok x ∧ R c (some x) = .ok (unlocated u)
  | .rep c, v => ∃ l, v = .vec l ∧ ∀ u ∈ l, ∃ x, W c u = .ok x ∧ R c (some x) = .ok (unlocated u)
  | .map c, v => ∃ l, v = .map l ∧ (l.map (·.1)).Nodup ∧ ∀ k u, (k, u) ∈ l → ∃ x, W c u = .ok x ∧ R c (some x) = .ok (unlocated u)
  | .alts l, v => ∃ i u c, v = .alt i u ∧ l[i]? = some c ∧ ∃ x, W c u = .ok x ∧ R c (some x) = .ok (unlocated u)
  | .ref c, v => v ≠ .nil ∧ ∃ x, W c v = .ok x ∧ R c (some x) = .ok (unlocated v)

theorem mapM_good {α β γ : Type} (f : α → Except Err β) (g : β → Except Err γ) (h : α → γ) (l : List α)
    (H : ∀ a ∈ l, ∃ x, f a = .ok x ∧ g x = .ok (h a)) :
    ∃ xs, l.mapM f = .ok xs ∧ xs.mapM g = .ok (l.map h) := by
  induction l with
  | nil => exact ⟨[], rfl, rfl⟩
  | cons a l ih =>
    obtain ⟨x, h1, h2⟩ := H a (by simp)
    obtain ⟨xs, h3, h4⟩ := ih fun b hb => H b (by simp [hb])
    refine ⟨x :: xs, ?_, ?_⟩
    · rw [List.mapM_cons, h1, h3]
      rfl
    · rw [List.mapM_cons, h2, h4]
      rfl

theorem unlocatedL_eq (l : List Val) : unlocatedL l = l.map unlocated := by
  induction l with
  | nil => rfl
  | cons v l ih => simp [unlocatedL, ih]

theorem unlocatedM_eq (l : List (String × Val)) : unlocatedM l = l.map fun e => (e.1, unlocated e.2) := by
  induction l with
  | nil => rfl
  | cons v l ih =>
    obtain ⟨k, v⟩ := v
    simp [unlocatedM, ih]

theorem unlocatedF_eq (l : List (Fld × Val)) : unlocatedF l = l.map fun e => (e.1, unlocated e.2) := by
  induction l with
  | nil => rfl
  | cons v l ih =>
    obtain ⟨k, v⟩ := v
    simp [unlocatedF, ih]

theorem unlocatedN_eq (l : List (Fld × Val)) :
    unlocatedN l = l.map fun e => (e.1, if e.1 = .loc then .none else unlocated e.2) := by
  induction l with
  | nil => rfl
  | cons v l ih =>
    obtain ⟨k, v⟩ := v
    simp [unlocatedN, ih]

theorem assignKey_new (l : List (String × Val)) (k : String) (v : Val) (h : k ∉ l.map (·.1)) :
    assignKey l k v = l ++ [(k, v)] := by
  unfold assignKey
  rw [if_neg]
  simp only [List.any_eq_true, decide_eq_true_eq, not_exists, not_and]
  intro e he hk
  exact h (List.mem_map.2 ⟨e, he, hk⟩)

theorem foldl_assignKey (l acc : List (String × Val)) (hd : ((acc ++ l).map (·.1)).Nodup) :
    l.foldl (fun m e => assignKey m e.1 e.2) acc = acc ++ l := by
  induction l generalizing acc with
  | nil => simp
  | cons e l ih =>
    rw [List.foldl_cons, assignKey_new]
    · rw [ih]
      · simp
      · simpa using hd
    · intro h
      rw [List.map_append, List.map_cons] at hd
      have := (List.nodup_append.1 hd).2.2 _ h e.1 (by simp)
      exact this rfl

theorem altOf_get (l : List (PF × Codec)) (hd : (l.map (·.1)).Nodup) (i j : Nat) (q : PF) (c : Codec) (h : l[i]? = some (q, c)) :
    altOf q j l = some (j + i, c) := by
  induction l generalizing i j with
  | nil => simp at h
  | cons e l ih =>
    obtain ⟨q', c'⟩ := e
    rw [List.map_cons, List.nodup_cons] at hd
    unfold altOf
    cases i with
    | zero =>
      simp only [List.getElem?_cons_zero, Option.some.injEq, Prod.mk.injEq] at h
      rw [if_pos h.1, h.2]
      rfl
    | succ i =>
      simp only [List.getElem?_cons_succ] at h
      have : q' ≠ q := by
        intro hq
        subst hq
        exact hd.1 (List.mem_map.2 ⟨_, List.mem_of_getElem? h, rfl⟩)
      rw [if_neg this, ih hd.2 i (j + 1) h]
      congr 2
      omega

/-- What a statement sets in the message is under its own field. -/
theorem wStmt_keys (W : Codec → Val → Except Err Pb) (t : Ty) (fs : List (Fld × Val)) (w : Stmt) (l : List (PF × Pb))
    (h : wStmt W t fs w = .ok l) : ∀ e ∈ l, w.pf = some e.1 := by
  intro e he
  cases w <;> simp only [wStmt, bind, Except.bind] at h <;> (repeat' split at h) <;>
    first
    | (injection h with h; subst h; simp at he; subst he; rfl)
    | (injection h with h; subst h; simp at he)
    | cases h

/-- Writing and then reading one member. -/
theorem stmt_good (W : Codec → Val → Except Err Pb) (R : Codec → Option Pb → Except Err Val) (t : Ty)
    (fs : List (Fld × Val)) (m : Fld × FTy) (w r : Stmt) (h : agree m w r = true) (v : Val) (hv : get fs m.1 = some v)
    (hg : Good W R m.2 v) :
    ∃ l p, wStmt W t fs w = .ok l ∧ w.pf = some p ∧ w.fld = some m.1 ∧ r.fld = some m.1 ∧
      ∀ (msg : List (PF × Pb)) (acc : List (Fld × Val)), get msg p = get l p → (acc.map (·.1)).Nodup →
        get acc m.1 = some (initial m.2) → rStmt R msg acc r = .ok (put acc m.1 (unlocated v)) := by
  obtain ⟨f, ty⟩ := m
  unfold agree at h
  simp only at h hv hg ⊢
  split at h
  · rename_i c f1 p c1 f2 p2 c2
    simp only [Bool.and_eq_true, decide_eq_true_eq] at h
    obtain ⟨⟨⟨⟨e1, e2⟩, e3⟩, e4⟩, e5⟩ := h
    subst e1 e2
    subst p2 c1 c2
    obtain ⟨x, h1, h2⟩ := hg
    refine ⟨[(p, x)], p, ?_, rfl, rfl, rfl, ?_⟩
    · simp only [wStmt, hv, h1]
      rfl
    · intro msg acc hm _ _
      rw [get_cons, if_pos rfl] at hm
      simp only [rStmt, hm, h2]
      rfl
  · rename_i c f1 p c1 f2 p2 c2
    simp only [Bool.and_eq_true, decide_eq_true_eq] at h
    obtain ⟨⟨⟨⟨e1, e2⟩, e3⟩, e4⟩, e5⟩ := h
    subst e1 e2
    subst p2 c1 c2
    obtain ⟨x, h1, h2⟩ := hg
    refine ⟨[(p, x)], p, ?_, rfl, rfl, rfl, ?_⟩
    · simp only [wStmt, hv, h1]
      rfl
    · intro msg acc hm _ _
      rw [get_cons, if_pos rfl] at hm
      simp only [rStmt, hm, h2]
      rfl
  · rename_i c f1 p c1 f2 p2 c2
    simp only [Bool.and_eq_true, decide_eq_true_eq] at h
    obtain ⟨⟨⟨⟨e1, e2⟩, e3⟩, e4⟩, e5⟩ := h
    subst e1 e2
    subst p2 c1 c2
    rcases hg with rfl | ⟨u, rfl, x, h1, h2⟩
    · refine ⟨[], p, ?_, rfl, rfl, rfl, ?_⟩
      · simp only [wStmt, hv]
      · intro msg acc hm hd ha
        rw [get_nil] at hm
        simp only [rStmt, hm]
        rw [put_self _ _ _ hd]
        rw [ha]
        rfl
    · refine ⟨[(p, x)], p, ?_, rfl, rfl, rfl, ?_⟩
      · simp only [wStmt, hv, h1]
        rfl
      · intro msg acc hm _ _
        rw [get_cons, if_pos rfl] at hm
        simp only [rStmt, hm, h2]
        rfl
  · rename_i c f1 p c1 f2 p2 c2
    simp only [Bool.and_eq_true, decide_eq_true_eq] at h
    obtain ⟨⟨⟨⟨e1, e2⟩, e3⟩, e4⟩, e5⟩ := h
    subst e1 e2
    subst p2 c1 c2
    obtain ⟨l, rfl, hl⟩ := hg
    obtain ⟨xs, h1, h2⟩ := mapM_good (W c) (fun x => R c (some x)) unlocated l hl
    refine ⟨[(p, .rep xs)], p, ?_, rfl, rfl, rfl, ?_⟩
    · simp only [wStmt, hv, h1]
      rfl
    · intro msg acc hm _ ha
      rw [get_cons, if_pos rfl] at hm
      simp only [rStmt, hm, ha, initial, h2]
      rw [unlocated, unlocatedL_eq]
      rfl
  · rename_i c f1 p c1 f2 p2 c2
    simp only [Bool.and_eq_true, decide_eq_true_eq] at h
    obtain ⟨⟨⟨⟨e1, e2⟩, e3⟩, e4⟩, e5⟩ := h
    subst e1 e2
    subst p2 c1 c2
    obtain ⟨l, rfl, hd, hl⟩ := hg
    obtain ⟨xs, h1, h2⟩ := mapM_good
      (fun e : String × Val => do
        let x ← W c e.2
        Except.ok (e.1, x))
      (fun e : String × Pb => do
        let v ← R c (some e.2)
        Except.ok (e.1, v)) (fun e => (e.1, unlocated e.2)) l (by
        intro e he
        obtain ⟨x, h1, h2⟩ := hl e.1 e.2 he
        refine ⟨(e.1, x), ?_, ?_⟩
        · simp only [h1]
          rfl
        · simp only [h2]
          rfl)
    refine ⟨[(p, .map xs)], p, ?_, rfl, rfl, rfl, ?_⟩
    · simp only [wStmt, hv, h1]
      rfl
    · intro msg acc hm _ ha
      rw [get_cons, if_pos rfl] at hm
      simp only [rStmt, hm, ha, initial, h2]
      rw [unlocated, unlocatedM_eq]
      have : (l.map fun e => (e.1, unlocated e.2)).foldl (fun m e => assignKey m e.1 e.2) [] =
          l.map fun e => (e.1, unlocated e.2) := by
        rw [foldl_assignKey]
        · simp
        · simpa [List.map_map, Function.comp_def] using hd
      show Except.ok (put acc _ (.map _)) = _
      rw [this]
  · rename_i c f1 p c1 f2 p2 c2
    simp only [Bool.and_eq_true, decide_eq_true_eq] at h
    obtain ⟨⟨⟨⟨e1, e2⟩, e3⟩, e4⟩, e5⟩ := h
    subst e1 e2
    subst p2 c1 c2
    obtain ⟨hn, x, h1, h2⟩ := hg
    refine ⟨[(p, x)], p, ?_, rfl, rfl, rfl, ?_⟩
    · simp only [wStmt, hv]
      cases v <;> first | exact absurd rfl hn | (simp only [h1]; rfl)
    · intro msg acc hm _ _
      rw [get_cons, if_pos rfl] at hm
      simp only [rStmt, hm, h2]
      rfl
  · rename_i l f1 p l1 f2 p2 l2
    simp only [Bool.and_eq_true, decide_eq_true_eq] at h
    obtain ⟨⟨⟨⟨⟨e1, e2⟩, e3⟩, e4⟩, e5⟩, hd⟩ := h
    subst e1 e2
    subst p2 l2 l
    obtain ⟨i, u, c, rfl, hc, x, h1, h2⟩ := hg
    rw [List.getElem?_map, Option.map_eq_some_iff] at hc
    obtain ⟨⟨q, c'⟩, hq, rfl⟩ := hc
    refine ⟨[(p, .msg [(q, x)])], p, ?_, rfl, rfl, rfl, ?_⟩
    · simp only [wStmt, hv, hq, h1]
      rfl
    · intro msg acc hm _ _
      rw [get_cons, if_pos rfl] at hm
      simp only [rStmt, hm, oneof, altOf_get _ hd i 0 q c' hq, h2]
      rw [Nat.zero_add]
      rfl
  · cases h

end Verif.Proto
