import Verif.NodeGroup.Spec

namespace Verif.NodeGroup
open Spec

variable {K M : Type}

@[simp] theorem flat_length (f : Forest K M) : f.flat.length = f.count := by
  induction f with
  | nil => rfl
  | leaf k v r ih => cases v <;> simp [Forest.flat, Forest.count, ih] <;> omega
  | tree k c r ihc ihr => simp [Forest.flat, Forest.count, ihc, ihr]; omega

@[simp] theorem flat_append (f g : Forest K M) : (f.append g).flat = f.flat ++ g.flat := by
  induction f with
  | nil => rfl
  | leaf k v r ih => cases v <;> simp [Forest.flat, Forest.append, ih]
  | tree k c r ihc ihr => simp [Forest.flat, Forest.append, ihr]

theorem run_append (g : Group K M) (a b : List (Op K M)) :
    g.run (a ++ b) = (g.run a >>= fun g' => g'.run b) := by
  induction a generalizing g with
  | nil => rfl
  | cons op ops ih =>
    simp only [List.cons_append, Group.run, bind, Except.bind]
    cases g.step op with
    | error e => rfl
    | ok g' => exact ih g'

theorem at_append (pre post : List (Node K M)) (n : Node K M) (pend : List Nat) :
    (Group.at ⟨pre ++ n :: post, pend⟩ (pre.length + 1)) = .ok n := by
  simp [Group.at, getIndex, bind, Except.bind]

theorem endTree_close (pre post : List (Node K M)) (k : K) (pend : List Nat) :
    (Group.endTree ⟨pre ++ ⟨k, .ext 0⟩ :: post, (pre.length + 1) :: pend⟩)
      = .ok (⟨pre ++ ⟨k, .ext post.length⟩ :: post, pend⟩, pre.length + 1) := by
  have h : (pre.length + (post.length + 1) - (pre.length + 1)) = post.length := by omega
  simp [Group.endTree, at_append, bind, Except.bind, Node.extend, Node.isNonTerminal, h]

theorem failTree_close (pre post : List (Node K M)) (n n' : Node K M) (pend : List Nat) :
    (Group.failTree ⟨pre ++ n :: post, (pre.length + 1) :: pend⟩ n')
      = .ok (⟨pre ++ n' :: post, pend⟩, pre.length + 1) := by
  simp [Group.failTree, at_append, bind, Except.bind]

theorem run_builds {ops : List (Op K M)} {f : Forest K M} (h : Builds ops f) :
    ∀ g : Group K M, g.run ops = .ok ⟨g.nodes ++ f.flat, g.pending⟩ := by
  induction h with
  | nil => intro g; simp [Group.run, Forest.flat]
  | token k t _ ih =>
    intro g
    simp [Group.run, Group.step, Group.token, bind, Except.bind, ih, Forest.flat]
  | mono k m _ ih =>
    intro g
    simp [Group.run, Group.step, Group.token, bind, Except.bind, ih, Forest.flat]
  | tree k _ _ ihc ihf =>
    intro g
    simp only [Group.run, Group.step, Group.startTree, bind, Except.bind, run_append, ihc,
      List.append_assoc, List.cons_append, List.nil_append, endTree_close, ihf, Forest.flat]
    simp
  | fail k k' m _ _ ihc ihf =>
    intro g
    simp only [Group.run, Group.step, Group.startTree, bind, Except.bind, run_append, ihc,
      List.append_assoc, List.cons_append, List.nil_append, failTree_close, ihf, Forest.flat,
      flat_append]

/-- Closing calls. -/
def IsCloser : Op K M → Prop
  | .finish => True
  | .fail _ _ => True
  | _ => False

theorem builds_of_balanced_aux : ∀ (n d : Nat) (ops : List (Op K M)), ops.length ≤ n →
    balanced d ops = true →
    (d = 0 → ∃ f, Builds ops f) ∧
    (0 < d → ∃ inner closer rest c, ops = inner ++ closer :: rest ∧ IsCloser closer ∧
      Builds inner c ∧ balanced (d - 1) rest = true) := by
  intro n
  induction n with
  | zero =>
    intro d ops hl hb
    cases ops with
    | cons _ _ => simp at hl
    | nil =>
      simp [balanced] at hb
      exact ⟨fun _ => ⟨.nil, .nil⟩, fun h => by omega⟩
  | succ n ih =>
    intro d ops hl hb
    cases ops with
    | nil =>
      simp [balanced] at hb
      exact ⟨fun _ => ⟨.nil, .nil⟩, fun h => by omega⟩
    | cons op ops =>
      have hl' : ops.length ≤ n := by simpa using hl
      cases op with
      | token k t =>
        obtain ⟨h0, h1⟩ := ih d ops hl' (by simpa [balanced] using hb)
        constructor
        · intro hd; obtain ⟨f, hf⟩ := h0 hd; exact ⟨_, .token k t hf⟩
        · intro hd
          obtain ⟨i, c, r, f, e, hc, hf, hr⟩ := h1 hd
          exact ⟨_ :: i, c, r, _, by rw [e]; rfl, hc, .token k t hf, hr⟩
      | mono k t =>
        obtain ⟨h0, h1⟩ := ih d ops hl' (by simpa [balanced] using hb)
        constructor
        · intro hd; obtain ⟨f, hf⟩ := h0 hd; exact ⟨_, .mono k t hf⟩
        · intro hd
          obtain ⟨i, c, r, f, e, hc, hf, hr⟩ := h1 hd
          exact ⟨_ :: i, c, r, _, by rw [e]; rfl, hc, .mono k t hf, hr⟩
      | finish =>
        simp [balanced] at hb
        exact ⟨fun h => by omega,
          fun _ => ⟨[], .finish, ops, .nil, rfl, trivial, .nil, hb.2⟩⟩
      | fail k m =>
        simp [balanced] at hb
        exact ⟨fun h => by omega,
          fun _ => ⟨[], .fail k m, ops, .nil, rfl, trivial, .nil, hb.2⟩⟩
      | start k =>
        obtain ⟨_, h1⟩ := ih (d + 1) ops hl' (by simpa [balanced] using hb)
        obtain ⟨i, c, r, f, e, hc, hf, hr⟩ := h1 (by omega)
        simp only [Nat.add_sub_cancel] at hr
        have hrl : r.length ≤ n := by rw [e] at hl'; simp at hl'; omega
        obtain ⟨g0, g1⟩ := ih d r hrl hr
        have wrap : ∀ {x fx}, Builds x fx → ∃ fy, Builds (.start k :: (i ++ c :: x)) fy := by
          intro x fx hx
          cases c with
          | finish => exact ⟨_, .tree k hf hx⟩
          | fail k' m => exact ⟨_, .fail k k' m hf hx⟩
          | token => exact hc.elim
          | mono => exact hc.elim
          | start => exact hc.elim
        constructor
        · intro hd
          obtain ⟨fr, hfr⟩ := g0 hd
          rw [e]; exact wrap hfr
        · intro hd
          obtain ⟨i2, c2, r2, f2, e2, hc2, hf2, hr2⟩ := g1 hd
          obtain ⟨fy, hy⟩ := wrap hf2
          refine ⟨.start k :: (i ++ c :: i2), c2, r2, fy, ?_, hc2, hy, hr2⟩
          rw [e, e2]; simp

theorem builds_of_balanced {ops : List (Op K M)} (h : balanced 0 ops = true) :
    ∃ f, Builds ops f :=
  (builds_of_balanced_aux ops.length 0 ops (Nat.le_refl _) h).1 rfl

theorem balanced_of_run {ops : List (Op K M)} {g g' : Group K M} (h : g.run ops = .ok g')
    (hp : g'.pending = []) : balanced g.pending.length ops = true := by
  induction ops generalizing g with
  | nil => simp only [Group.run, Except.ok.injEq] at h; subst h; simp [balanced, hp]
  | cons op ops ih =>
    simp only [Group.run, bind, Except.bind] at h
    cases hs : g.step op with
    | error e => rw [hs] at h; cases h
    | ok g1 =>
      rw [hs] at h
      have := ih h
      cases op with
      | token k t => simp [Group.step, Group.token] at hs; subst hs; simpa [balanced] using this
      | mono k t => simp [Group.step, Group.token] at hs; subst hs; simpa [balanced] using this
      | start k =>
        simp [Group.step, Group.startTree] at hs; subst hs; simpa [balanced] using this
      | finish =>
        simp only [Group.step, Group.endTree] at hs
        split at hs
        · simp [bind, Except.bind] at hs
        · rename_i start rest hpend
          simp only [bind, Except.bind] at hs
          split at hs
          · cases hs
          · rename_i v hv
            split at hv
            · cases hv
            · split at hv
              · cases hv
              · cases hv; cases hs; simpa [balanced, hpend] using this
      | fail k m =>
        simp only [Group.step, Group.failTree] at hs
        split at hs
        · simp [bind, Except.bind] at hs
        · rename_i start rest hpend
          simp only [bind, Except.bind] at hs
          split at hs
          · cases hs
          · rename_i v hv
            split at hv
            · cases hv
            · cases hv; cases hs; simpa [balanced, hpend] using this

/-! ### Extents -/

/-- Extent of the node at a preorder position. -/
def extAt (l : List (Node K M)) (i : Nat) : Nat := ((l[i]?.map Node.getExtent).getD 0).toNat

theorem extAt_append_left {l₁ : List (Node K M)} (l₂ : List (Node K M)) {i : Nat}
    (h : i < l₁.length) : extAt (l₁ ++ l₂) i = extAt l₁ i := by
  simp [extAt, List.getElem?_append_left h]

theorem extAt_append_right (l₁ l₂ : List (Node K M)) (i : Nat) :
    extAt (l₁ ++ l₂) (l₁.length + i) = extAt l₂ i := by
  simp [extAt, List.getElem?_append_right]

@[simp] theorem extAt_cons_succ (n : Node K M) (l : List (Node K M)) (i : Nat) :
    extAt (n :: l) (i + 1) = extAt l i := by simp [extAt]

@[simp] theorem extAt_cons_zero (n : Node K M) (l : List (Node K M)) :
    extAt (n :: l) 0 = n.getExtent.toNat := by simp [extAt]

/-- Every node's descendants end inside the forest, and ranges are nested. -/
theorem flat_nested (f : Forest K M) : ∀ i, i < f.count →
    i + extAt f.flat i < f.count ∧
    ∀ j, i < j → j ≤ i + extAt f.flat i → j + extAt f.flat j ≤ i + extAt f.flat i := by
  induction f with
  | nil => intro i h; simp [Forest.count] at h
  | leaf k v r ih =>
    intro i hi
    have e : ∀ n, extAt ((Forest.leaf k v r).flat) (n + 1) = extAt r.flat n := by
      intro n; cases v <;> simp [Forest.flat]
    have e0 : extAt ((Forest.leaf k v r).flat) 0 = 0 := by
      cases v <;> simp [Forest.flat, Node.getExtent]
    simp only [Forest.count] at hi ⊢
    cases i with
    | zero => rw [e0]; exact ⟨by omega, fun j h1 h2 => by omega⟩
    | succ i =>
      rw [e]
      obtain ⟨h1, h2⟩ := ih i (by omega)
      refine ⟨by omega, fun j hj1 hj2 => ?_⟩
      cases j with
      | zero => omega
      | succ j => rw [e]; have := h2 j (by omega) (by omega); omega
  | tree k c r ihc ihr =>
    intro i hi
    have e0 : extAt ((Forest.tree k c r).flat) 0 = c.count := by
      simp [Forest.flat, Node.getExtent]
    have ec : ∀ n, n < c.count → extAt ((Forest.tree k c r).flat) (n + 1) = extAt c.flat n := by
      intro n hn
      simp only [Forest.flat, List.cons_append, extAt_cons_succ]
      exact extAt_append_left _ (by simpa using hn)
    have er : ∀ n, extAt ((Forest.tree k c r).flat) (c.count + n + 1) = extAt r.flat n := by
      intro n
      simp only [Forest.flat, List.cons_append, extAt_cons_succ]
      have := extAt_append_right c.flat r.flat n
      simpa using this
    simp only [Forest.count] at hi ⊢
    have key : ∀ j, 0 < j → j ≤ c.count → j + extAt ((Forest.tree k c r).flat) j ≤ c.count := by
      intro j h0 h1
      obtain ⟨j, rfl⟩ : ∃ j', j = j' + 1 := ⟨j - 1, by omega⟩
      rw [ec j (by omega)]
      have := (ihc j (by omega)).1
      omega
    by_cases h0 : i = 0
    · subst h0
      rw [e0]
      exact ⟨by omega, fun j h1 h2 => by have := key j h1 (by omega); omega⟩
    · obtain ⟨i, rfl⟩ : ∃ i', i = i' + 1 := ⟨i - 1, by omega⟩
      by_cases hc : i < c.count
      · rw [ec i hc]
        obtain ⟨h1, h2⟩ := ihc i hc
        refine ⟨by omega, fun j hj1 hj2 => ?_⟩
        obtain ⟨j, rfl⟩ : ∃ j', j = j' + 1 := ⟨j - 1, by omega⟩
        rw [ec j (by omega)]
        have := h2 j (by omega) (by omega)
        omega
      · obtain ⟨i, rfl⟩ : ∃ i', i = c.count + i' := ⟨i - c.count, by omega⟩
        rw [er i]
        obtain ⟨h1, h2⟩ := ihr i (by omega)
        refine ⟨by omega, fun j hj1 hj2 => ?_⟩
        obtain ⟨j, rfl⟩ : ∃ j', j = c.count + j' + 1 := ⟨j - (c.count + 1), by omega⟩
        rw [er j]
        have := h2 j (by omega) (by omega)
        omega

/-! ### Enumeration of children -/

theorem next_at (pre post : List (Node K M)) (n : Node K M) (pend : List Nat) :
    Group.next ⟨pre ++ n :: post, pend⟩ (pre.length + 1)
      = .ok (pre.length + 1 + n.getExtent.toNat + 1) := by
  simp [Group.next, at_append]

theorem sizeLoop_roots (c : Forest K M) : ∀ (pre post : List (Node K M)) (pend : List Nat)
    (fuel r : Nat), c.count < fuel →
    Group.sizeLoop ⟨pre ++ c.flat ++ post, pend⟩ (pre.length + c.count + 1) fuel
      (pre.length + 1) r = .ok (r + (c.roots pre.length).length) := by
  induction c with
  | nil =>
    intro pre post pend fuel r hf
    obtain ⟨fuel, rfl⟩ : ∃ n, fuel = n + 1 := ⟨fuel - 1, by simp [Forest.count] at hf; omega⟩
    simp [Group.sizeLoop, Forest.count, Forest.roots]
  | leaf k v rest ih =>
    intro pre post pend fuel r hf
    simp only [Forest.count] at hf
    obtain ⟨fuel, rfl⟩ : ∃ n, fuel = n + 1 := ⟨fuel - 1, by omega⟩
    obtain ⟨n, hn, he⟩ : ∃ n : Node K M, (Forest.leaf k v rest).flat = n :: rest.flat ∧
        n.getExtent = 0 := by
      cases v <;> exact ⟨_, rfl, rfl⟩
    rw [Group.sizeLoop, if_pos (by simp only [Forest.count]; omega)]
    have h1 := next_at pre (rest.flat ++ post) n pend
    rw [hn, List.append_assoc, List.cons_append, h1, he]
    have h2 := ih (pre ++ [n]) post pend fuel (r + 1) (by omega)
    simp only [List.length_append, List.length_singleton, List.append_assoc,
      List.singleton_append, List.cons_append, List.nil_append] at h2
    simp only [bind, Except.bind, Forest.count, Forest.roots, List.length_cons, Int.toNat_zero]
    have e1 : pre.length + (1 + rest.count) + 1 = pre.length + 1 + rest.count + 1 := by omega
    rw [e1, Nat.add_zero, h2]
    congr 1; omega
  | tree k ch rest ihc ihr =>
    intro pre post pend fuel r hf
    simp only [Forest.count] at hf
    obtain ⟨fuel, rfl⟩ : ∃ n, fuel = n + 1 := ⟨fuel - 1, by omega⟩
    rw [Group.sizeLoop, if_pos (by simp only [Forest.count]; omega)]
    have h1 := next_at pre (ch.flat ++ rest.flat ++ post) ⟨k, .ext ch.count⟩ pend
    have hfl : pre ++ (Forest.tree k ch rest).flat ++ post
        = pre ++ ⟨k, .ext ch.count⟩ :: (ch.flat ++ rest.flat ++ post) := by
      simp [Forest.flat]
    rw [hfl, h1]
    have h2 := ihr (pre ++ ⟨k, .ext ch.count⟩ :: ch.flat) post pend fuel (r + 1) (by omega)
    simp only [List.length_append, List.length_cons, flat_length, List.append_assoc,
      List.cons_append] at h2
    simp only [bind, Except.bind, Forest.count, Forest.roots, List.length_cons,
      Node.getExtent, Int.toNat_natCast, List.append_assoc]
    have e1 : pre.length + (1 + ch.count + rest.count) + 1
        = pre.length + (ch.count + 1) + rest.count + 1 := by omega
    have e2 : pre.length + 1 + ch.count + 1 = pre.length + (ch.count + 1) + 1 := by omega
    have e3 : pre.length + 1 + ch.count = pre.length + (ch.count + 1) := by omega
    rw [e1, e2, h2, e3]
    congr 1; omega

theorem subnodeLoop_roots (c : Forest K M) : ∀ (pre post : List (Node K M)) (pend : List Nat)
    (fuel i : Nat) (index : Int), c.count < fuel → i ≤ index →
    Group.subnodeLoop ⟨pre ++ c.flat ++ post, pend⟩ (pre.length + c.count + 1) index fuel
      (pre.length + 1) i
      = match (c.roots pre.length)[(index - i).toNat]? with
        | some p => .ok (p + 1)
        | none => .error .range := by
  induction c with
  | nil =>
    intro pre post pend fuel i index hf hi
    obtain ⟨fuel, rfl⟩ : ∃ n, fuel = n + 1 := ⟨fuel - 1, by simp [Forest.count] at hf; omega⟩
    simp [Group.subnodeLoop, Forest.count, Forest.roots]
  | leaf k v rest ih =>
    intro pre post pend fuel i index hf hi
    simp only [Forest.count] at hf
    obtain ⟨fuel, rfl⟩ : ∃ n, fuel = n + 1 := ⟨fuel - 1, by omega⟩
    obtain ⟨n, hn, he⟩ : ∃ n : Node K M, (Forest.leaf k v rest).flat = n :: rest.flat ∧
        n.getExtent = 0 := by
      cases v <;> exact ⟨_, rfl, rfl⟩
    rw [Group.subnodeLoop, if_pos (by simp only [Forest.count]; omega)]
    have h1 := next_at pre (rest.flat ++ post) n pend
    have h0 := at_append pre (rest.flat ++ post) n pend
    rw [hn, List.append_assoc, List.cons_append, h1, he, h0]
    by_cases hix : (i : Int) = index
    · subst hix; simp [Forest.roots]
    · rw [if_neg hix]
      have h2 := ih (pre ++ [n]) post pend fuel (i + 1) index (by omega) (by omega)
      simp only [List.length_append, List.length_singleton, List.append_assoc,
        List.singleton_append, List.cons_append, List.nil_append] at h2
      simp only [bind, Except.bind, Forest.count, Forest.roots, Int.toNat_zero]
      have e1 : pre.length + (1 + rest.count) + 1 = pre.length + 1 + rest.count + 1 := by omega
      have e2 : (index - i).toNat = (index - (i + 1 : Nat)).toNat + 1 := by omega
      rw [e1, Nat.add_zero, h2, e2, List.getElem?_cons_succ]
  | tree k ch rest ihc ihr =>
    intro pre post pend fuel i index hf hi
    simp only [Forest.count] at hf
    obtain ⟨fuel, rfl⟩ : ∃ n, fuel = n + 1 := ⟨fuel - 1, by omega⟩
    rw [Group.subnodeLoop, if_pos (by simp only [Forest.count]; omega)]
    have h1 := next_at pre (ch.flat ++ rest.flat ++ post) ⟨k, .ext ch.count⟩ pend
    have h0 := at_append pre (ch.flat ++ rest.flat ++ post) ⟨k, .ext ch.count⟩ pend
    have hfl : pre ++ (Forest.tree k ch rest).flat ++ post
        = pre ++ ⟨k, .ext ch.count⟩ :: (ch.flat ++ rest.flat ++ post) := by
      simp [Forest.flat]
    rw [hfl, h1, h0]
    by_cases hix : (i : Int) = index
    · subst hix; simp [Forest.roots]
    · rw [if_neg hix]
      have h2 := ihr (pre ++ ⟨k, .ext ch.count⟩ :: ch.flat) post pend fuel (i + 1) index
        (by omega) (by omega)
      simp only [List.length_append, List.length_cons, flat_length, List.append_assoc,
        List.cons_append] at h2
      simp only [bind, Except.bind, Forest.count, Forest.roots,
        Node.getExtent, Int.toNat_natCast, List.append_assoc]
      have e1 : pre.length + (1 + ch.count + rest.count) + 1
          = pre.length + (ch.count + 1) + rest.count + 1 := by omega
      have e2 : pre.length + 1 + ch.count + 1 = pre.length + (ch.count + 1) + 1 := by omega
      have e3 : pre.length + 1 + ch.count = pre.length + (ch.count + 1) := by omega
      have e4 : (index - i).toNat = (index - (i + 1 : Nat)).toNat + 1 := by omega
      rw [e1, e2, h2, e3, e4, List.getElem?_cons_succ]

theorem subnodeLoop_neg (c : Forest K M) : ∀ (pre post : List (Node K M)) (pend : List Nat)
    (fuel i : Nat) (index : Int), c.count < fuel → index < i →
    Group.subnodeLoop ⟨pre ++ c.flat ++ post, pend⟩ (pre.length + c.count + 1) index fuel
      (pre.length + 1) i = .error .range := by
  induction c with
  | nil =>
    intro pre post pend fuel i index hf hi
    obtain ⟨fuel, rfl⟩ : ∃ n, fuel = n + 1 := ⟨fuel - 1, by simp [Forest.count] at hf; omega⟩
    simp [Group.subnodeLoop, Forest.count]
  | leaf k v rest ih =>
    intro pre post pend fuel i index hf hi
    simp only [Forest.count] at hf
    obtain ⟨fuel, rfl⟩ : ∃ n, fuel = n + 1 := ⟨fuel - 1, by omega⟩
    obtain ⟨n, hn, he⟩ : ∃ n : Node K M, (Forest.leaf k v rest).flat = n :: rest.flat ∧
        n.getExtent = 0 := by
      cases v <;> exact ⟨_, rfl, rfl⟩
    rw [Group.subnodeLoop, if_pos (by simp only [Forest.count]; omega)]
    have h1 := next_at pre (rest.flat ++ post) n pend
    rw [hn, List.append_assoc, List.cons_append, h1, he, if_neg (by omega)]
    have h2 := ih (pre ++ [n]) post pend fuel (i + 1) index (by omega) (by omega)
    simp only [List.length_append, List.length_singleton, List.append_assoc,
      List.singleton_append, List.cons_append, List.nil_append] at h2
    simp only [bind, Except.bind, Forest.count, Int.toNat_zero]
    have e1 : pre.length + (1 + rest.count) + 1 = pre.length + 1 + rest.count + 1 := by omega
    rw [e1, Nat.add_zero, h2]
  | tree k ch rest ihc ihr =>
    intro pre post pend fuel i index hf hi
    simp only [Forest.count] at hf
    obtain ⟨fuel, rfl⟩ : ∃ n, fuel = n + 1 := ⟨fuel - 1, by omega⟩
    rw [Group.subnodeLoop, if_pos (by simp only [Forest.count]; omega)]
    have h1 := next_at pre (ch.flat ++ rest.flat ++ post) ⟨k, .ext ch.count⟩ pend
    have hfl : pre ++ (Forest.tree k ch rest).flat ++ post
        = pre ++ ⟨k, .ext ch.count⟩ :: (ch.flat ++ rest.flat ++ post) := by
      simp [Forest.flat]
    rw [hfl, h1, if_neg (by omega)]
    have h2 := ihr (pre ++ ⟨k, .ext ch.count⟩ :: ch.flat) post pend fuel (i + 1) index
      (by omega) (by omega)
    simp only [List.length_append, List.length_cons, flat_length, List.append_assoc,
      List.cons_append] at h2
    simp only [bind, Except.bind, Forest.count,
      Node.getExtent, Int.toNat_natCast, List.append_assoc]
    have e1 : pre.length + (1 + ch.count + rest.count) + 1
        = pre.length + (ch.count + 1) + rest.count + 1 := by omega
    have e2 : pre.length + 1 + ch.count + 1 = pre.length + (ch.count + 1) + 1 := by omega
    rw [e1, e2, h2]

/-- Each position holds either a leaf without children or an inner node followed
by its children. -/
theorem locate (f : Forest K M) : ∀ (b p : Nat), b ≤ p → p < b + f.count →
    (∃ pre post n, f.flat = pre ++ n :: post ∧ b + pre.length = p ∧ n.getExtent = 0 ∧
      n.isNonTerminal = false ∧ f.childrenOf b p = []) ∨
    (∃ pre post k, ∃ c : Forest K M, f.flat = pre ++ ⟨k, .ext c.count⟩ :: (c.flat ++ post) ∧
      b + pre.length = p ∧ f.childrenOf b p = c.roots (p + 1)) := by
  induction f with
  | nil => intro b p h1 h2; simp [Forest.count] at h2; omega
  | leaf k v r ih =>
    intro b p h1 h2
    simp only [Forest.count] at h2
    obtain ⟨n, hn, he, ht⟩ : ∃ n : Node K M, (Forest.leaf k v r).flat = n :: r.flat ∧
        n.getExtent = 0 ∧ n.isNonTerminal = false := by
      cases v <;> exact ⟨_, rfl, rfl, rfl⟩
    by_cases hp : p = b
    · subst hp
      refine .inl ⟨[], r.flat, n, hn, rfl, he, ht, ?_⟩
      have : ∀ (r : Forest K M) (b p : Nat), p < b → r.childrenOf b p = [] := by
        intro r
        induction r with
        | nil => intros; rfl
        | leaf _ _ r ih => intro b p h; exact ih _ _ (by omega)
        | tree _ c r ihc ihr =>
          intro b p h
          simp only [Forest.childrenOf]
          rw [if_neg (by omega), if_pos (by omega)]
          exact ihc _ _ (by omega)
      exact this r (p + 1) p (by omega)
    · rcases ih (b + 1) p (by omega) (by omega) with
        ⟨pre, post, m, h3, h4, h5, h6, h7⟩ | ⟨pre, post, k', c, h3, h4, h5⟩
      · exact .inl ⟨n :: pre, post, m, by rw [hn, h3]; rfl, by simp; omega, h5, h6, h7⟩
      · exact .inr ⟨n :: pre, post, k', c, by rw [hn, h3]; rfl, by simp; omega, h5⟩
  | tree k c r ihc ihr =>
    intro b p h1 h2
    simp only [Forest.count] at h2
    by_cases hp : p = b
    · subst hp
      exact .inr ⟨[], r.flat, k, c, by simp [Forest.flat], rfl, by simp [Forest.childrenOf]⟩
    · by_cases hc : p < b + 1 + c.count
      · rcases ihc (b + 1) p (by omega) (by omega) with
          ⟨pre, post, m, h3, h4, h5, h6, h7⟩ | ⟨pre, post, k', c', h3, h4, h5⟩
        · refine .inl ⟨⟨k, .ext c.count⟩ :: pre, post ++ r.flat, m, ?_, by simp; omega, h5, h6, ?_⟩
          · simp [Forest.flat, h3]
          · simp [Forest.childrenOf, hp, hc, h7]
        · refine .inr ⟨⟨k, .ext c.count⟩ :: pre, post ++ r.flat, k', c', ?_, by simp; omega, ?_⟩
          · simp [Forest.flat, h3]
          · simp [Forest.childrenOf, hp, hc, h5]
      · rcases ihr (b + 1 + c.count) p (by omega) (by omega) with
          ⟨pre, post, m, h3, h4, h5, h6, h7⟩ | ⟨pre, post, k', c', h3, h4, h5⟩
        · refine .inl ⟨⟨k, .ext c.count⟩ :: c.flat ++ pre, post, m, ?_, by simp; omega, h5, h6, ?_⟩
          · simp [Forest.flat, h3]
          · simp [Forest.childrenOf, hp, hc, h7]
        · refine .inr ⟨⟨k, .ext c.count⟩ :: c.flat ++ pre, post, k', c', ?_, by simp; omega, ?_⟩
          · simp [Forest.flat, h3]
          · simp [Forest.childrenOf, hp, hc, h5]

theorem subnodesOf_inner (pre post : List (Node K M)) (k : K) (c : Forest K M)
    (pend : List Nat) :
    Group.subnodesOf ⟨pre ++ ⟨k, .ext c.count⟩ :: (c.flat ++ post), pend⟩ (pre.length + 1)
      = .ok (some (pre.length + 2, pre.length + 1 + c.count + 1)) := by
  simp only [Group.subnodesOf, at_append, bind, Except.bind, Node.isTerminal, Group.beginAt,
    getIndex, Node.getExtent, Int.toNat_natCast]
  by_cases h : 0 < c.count + post.length
  · simp [h]
  · have : c.count + post.length = 0 := by omega
    simp [this]

/-! ### Parents -/

theorem mem_roots (f : Forest K M) : ∀ (b n : Nat), b ≤ n → n < b + f.count →
    (n ∈ f.roots b ↔ ∀ q, b ≤ q → q < n → ¬ n ≤ q + extAt f.flat (q - b)) := by
  induction f with
  | nil => intro b n h1 h2; simp [Forest.count] at h2; omega
  | leaf k v r ih =>
    intro b n h1 h2
    simp only [Forest.count] at h2
    have e : ∀ n, extAt ((Forest.leaf k v r).flat) (n + 1) = extAt r.flat n := by
      intro n; cases v <;> simp [Forest.flat]
    have e0 : extAt ((Forest.leaf k v r).flat) 0 = 0 := by
      cases v <;> simp [Forest.flat, Node.getExtent]
    simp only [Forest.roots, List.mem_cons]
    by_cases hn : n = b
    · subst hn; simp; intro q h3 h4; omega
    · rw [ih (b + 1) n (by omega) (by omega)]
      constructor
      · rintro (h | h)
        · omega
        · intro q hq1 hq2
          by_cases hb : q = b
          · subst hb; rw [Nat.sub_self, e0]; omega
          · have := h q (by omega) hq2
            have e2 : q - b = (q - (b + 1)) + 1 := by omega
            rw [e2, e]; exact this
      · intro h
        refine .inr fun q hq1 hq2 => ?_
        have := h q (by omega) hq2
        have e2 : q - b = (q - (b + 1)) + 1 := by omega
        rw [e2, e] at this; exact this
  | tree k c r ihc ihr =>
    intro b n h1 h2
    simp only [Forest.count] at h2
    have e0 : extAt ((Forest.tree k c r).flat) 0 = c.count := by
      simp [Forest.flat, Node.getExtent]
    have ec : ∀ n, n < c.count → extAt ((Forest.tree k c r).flat) (n + 1) = extAt c.flat n := by
      intro n hn
      simp only [Forest.flat, List.cons_append, extAt_cons_succ]
      exact extAt_append_left _ (by simpa using hn)
    have er : ∀ n, extAt ((Forest.tree k c r).flat) (c.count + n + 1) = extAt r.flat n := by
      intro n
      simp only [Forest.flat, List.cons_append, extAt_cons_succ]
      have := extAt_append_right c.flat r.flat n
      simpa using this
    simp only [Forest.roots, List.mem_cons]
    by_cases hn : n = b
    · subst hn; simp; intro q h3 h4; omega
    · by_cases hc : n < b + 1 + c.count
      · constructor
        · rintro (h | h)
          · omega
          · have : ∀ (r : Forest K M) (b n : Nat), n ∈ r.roots b → b ≤ n := by
              intro r
              induction r with
              | nil => intro b n h; simp [Forest.roots] at h
              | leaf _ _ r ih =>
                intro b n h
                simp [Forest.roots] at h
                rcases h with h | h
                · omega
                · have := ih _ _ h; omega
              | tree _ c r _ ih =>
                intro b n h
                simp [Forest.roots] at h
                rcases h with h | h
                · omega
                · have := ih _ _ h; omega
            have := this _ _ _ h
            omega
        · intro h
          have := h b (Nat.le_refl _) (by omega)
          rw [Nat.sub_self, e0] at this
          omega
      · rw [ihr (b + 1 + c.count) n (by omega) (by omega)]
        constructor
        · rintro (h | h)
          · omega
          · intro q hq1 hq2
            by_cases hb : q = b
            · subst hb; rw [Nat.sub_self, e0]; omega
            · by_cases hqc : q < b + 1 + c.count
              · obtain ⟨j, hj⟩ : ∃ j, q - b = j + 1 := ⟨q - b - 1, by omega⟩
                rw [hj, ec j (by omega)]
                have := (flat_nested c j (by omega)).1
                omega
              · have := h q (by omega) hq2
                have e2 : q - b = c.count + (q - (b + 1 + c.count)) + 1 := by omega
                rw [e2, er]; exact this
        · intro h
          refine .inr fun q hq1 hq2 => ?_
          have := h q (by omega) hq2
          have e2 : q - b = c.count + (q - (b + 1 + c.count)) + 1 := by omega
          rw [e2, er] at this; exact this

/-- A node is a direct child of `p` iff `p` is the closest position to the left
whose range covers it. -/
theorem mem_childrenOf (f : Forest K M) (p n : Nat) (hn : n < f.count) (hp : p < f.count) :
    n ∈ f.childrenOf 0 p ↔ p < n ∧ n ≤ p + extAt f.flat p ∧
      ∀ q, p < q → q < n → ¬ n ≤ q + extAt f.flat q := by
  rcases locate f 0 p (Nat.zero_le _) (by omega) with
    ⟨pre, post, m, h3, h4, h5, h6, h7⟩ | ⟨pre, post, k, c, h3, h4, h5⟩
  · rw [h7, h3]
    have : extAt (pre ++ m :: post) p = 0 := by
      have := extAt_append_right pre (m :: post) 0
      simp only [Nat.zero_add] at h4
      subst h4
      simpa [h5] using this
    rw [this]
    simp
    omega
  · simp only [Nat.zero_add] at h4
    subst h4
    have e0 : extAt f.flat pre.length = c.count := by
      have := extAt_append_right pre (⟨k, .ext c.count⟩ :: (c.flat ++ post)) 0
      rw [h3]
      simpa [Node.getExtent] using this
    have e1 : ∀ j, j < c.count → extAt f.flat (pre.length + 1 + j) = extAt c.flat j := by
      intro j hj
      have := extAt_append_right (pre ++ [⟨k, .ext c.count⟩]) (c.flat ++ post) j
      rw [h3]
      simp only [List.append_assoc, List.singleton_append, List.length_append,
        List.length_singleton] at this
      rw [this]
      exact extAt_append_left _ (by simpa using hj)
    rw [h5, e0]
    have rl : ∀ (r : Forest K M) (b n : Nat), n ∈ r.roots b → b ≤ n ∧ n < b + r.count := by
      intro r
      induction r with
      | nil => intro b n h; simp [Forest.roots] at h
      | leaf _ _ r ih =>
        intro b n h
        simp [Forest.roots, Forest.count] at h ⊢
        rcases h with h | h
        · omega
        · have := ih _ _ h; omega
      | tree _ c r _ ih =>
        intro b n h
        simp [Forest.roots, Forest.count] at h ⊢
        rcases h with h | h
        · omega
        · have := ih _ _ h; omega
    constructor
    · intro h
      obtain ⟨h1, h2⟩ := rl _ _ _ h
      refine ⟨by omega, by omega, fun q hq1 hq2 => ?_⟩
      have := (mem_roots c _ n h1 h2).1 h q (by omega) hq2
      obtain ⟨j, rfl⟩ : ∃ j, q = pre.length + 1 + j := ⟨q - (pre.length + 1), by omega⟩
      rw [e1 j (by omega)]
      simpa using this
    · rintro ⟨h1, h2, h⟩
      rw [mem_roots c _ n (by omega) (by omega)]
      intro q hq1 hq2
      have := h q (by omega) hq2
      obtain ⟨j, rfl⟩ : ∃ j, q = pre.length + 1 + j := ⟨q - (pre.length + 1), by omega⟩
      rw [e1 j (by omega)] at this
      simpa using this

theorem allSubnodesOf_eq (l : List (Node K M)) (pend : List Nat) (p : Nat) (hp : p < l.length) :
    Group.allSubnodesOf ⟨l, pend⟩ (p + 1)
      = .ok (if 0 < extAt l p then some (p + 1 + 1, p + 1 + extAt l p) else none) := by
  simp only [Group.allSubnodesOf, Group.at, getIndex, bind, Except.bind, extAt,
    List.getElem?_eq_getElem hp, Option.map_some, Option.getD_some]
  by_cases h : 0 < (l[p]).getExtent
  · rw [if_pos h, if_pos (by omega)]
  · rw [if_neg h, if_neg (by omega)]

/-- What `parent` computes: it walks left over inner nodes that do not cover the
node and stops at the first one that does; it never returns once it meets a node
without subnodes. -/
theorem parentLoop_spec (l : List (Node K M)) (pend : List Nat) (n : Nat) :
    ∀ (p fuel : Nat) (r : Nat), p ≤ l.length → p ≤ n →
    (Group.parentLoop ⟨l, pend⟩ (n + 1) fuel p = .ok r →
      (r = 0 ∧ ∀ q, q < p → 0 < extAt l q ∧ ¬ n ≤ q + extAt l q) ∨
      (∃ s, r = s + 1 ∧ s < p ∧ 0 < extAt l s ∧ n ≤ s + extAt l s ∧
        ∀ q, s < q → q < p → 0 < extAt l q ∧ ¬ n ≤ q + extAt l q)) := by
  intro p
  induction p with
  | zero =>
    intro fuel r h1 h2 h
    cases fuel with
    | zero => simp [Group.parentLoop] at h
    | succ fuel => simp [Group.parentLoop] at h; exact .inl ⟨h.symm, fun q hq => by omega⟩
  | succ p ih =>
    intro fuel r h1 h2 h
    by_cases he : 0 < extAt l p
    · cases fuel with
      | zero => simp [Group.parentLoop] at h
      | succ fuel =>
        simp only [Group.parentLoop, allSubnodesOf_eq l pend p (by omega), bind, Except.bind,
          if_pos he] at h
        split at h
        · rename_i hc
          injection h with h
          exact .inr ⟨p, h.symm, by omega, he, by omega, fun q hq1 hq2 => by omega⟩
        · rename_i hc
          have hnc : ¬ n ≤ p + extAt l p := by omega
          rcases ih fuel r (by omega) (by omega) h with ⟨h3, h4⟩ | ⟨s, h3, h4, h5, h6, h7⟩
          · refine .inl ⟨h3, fun q hq => ?_⟩
            by_cases hqp : q = p
            · subst hqp; exact ⟨he, hnc⟩
            · exact h4 q (by omega)
          · refine .inr ⟨s, h3, by omega, h5, h6, fun q hq1 hq2 => ?_⟩
            by_cases hqp : q = p
            · subst hqp; exact ⟨he, hnc⟩
            · exact h7 q hq1 (by omega)
    · exfalso
      have : ∀ fuel, Group.parentLoop ⟨l, pend⟩ (n + 1) fuel (p + 1) = .error .diverges := by
        intro fuel
        induction fuel with
        | zero => rfl
        | succ fuel ihf =>
          simp only [Group.parentLoop, allSubnodesOf_eq l pend p (by omega), bind, Except.bind,
            if_neg he]
          exact ihf
      rw [this] at h
      cases h

theorem parentLoop_finds (l : List (Node K M)) (pend : List Nat) (n s : Nat)
    (hc : n ≤ s + extAt l s) : ∀ (d : Nat), s + 1 + d ≤ l.length → s + 1 + d ≤ n →
    (∀ q, s < q → q < s + 1 + d → 0 < extAt l q ∧ ¬ n ≤ q + extAt l q) →
    ∀ fuel, d < fuel → Group.parentLoop ⟨l, pend⟩ (n + 1) fuel (s + 1 + d) = .ok (s + 1) := by
  intro d
  induction d with
  | zero =>
    intro h1 h2 _ fuel hf
    obtain ⟨fuel, rfl⟩ : ∃ k, fuel = k + 1 := ⟨fuel - 1, by omega⟩
    simp only [Nat.add_zero, Group.parentLoop, allSubnodesOf_eq l pend s (by omega), bind,
      Except.bind]
    rw [if_pos (by omega)]
    simp only []
    rw [if_pos (by omega)]
  | succ d ih =>
    intro h1 h2 hq fuel hf
    obtain ⟨fuel, rfl⟩ : ∃ k, fuel = k + 1 := ⟨fuel - 1, by omega⟩
    obtain ⟨g1, g2⟩ := hq (s + 1 + d) (by omega) (by omega)
    rw [show s + 1 + (d + 1) = (s + 1 + d) + 1 from by omega]
    simp only [Group.parentLoop, allSubnodesOf_eq l pend (s + 1 + d) (by omega), bind,
      Except.bind, if_pos g1]
    rw [if_neg (by omega)]
    exact ih (by omega) (by omega) (fun q a b => hq q a (by omega)) fuel (by omega)

theorem parentLoop_diverges (l : List (Node K M)) (pend : List Nat) (n s : Nat)
    (he : ¬ 0 < extAt l s) : ∀ (d : Nat), s + 1 + d ≤ l.length → s + 1 + d ≤ n →
    (∀ q, s < q → q < s + 1 + d → ¬ n ≤ q + extAt l q) →
    ∀ fuel, Group.parentLoop ⟨l, pend⟩ (n + 1) fuel (s + 1 + d) = .error .diverges := by
  intro d
  induction d with
  | zero =>
    intro h1 h2 _ fuel
    induction fuel with
    | zero => rfl
    | succ fuel ih =>
      simp only [Nat.add_zero, Group.parentLoop, allSubnodesOf_eq l pend s (by omega), bind,
        Except.bind, if_neg he]
      exact ih
  | succ d ih =>
    intro h1 h2 hq fuel
    have g2 := hq (s + 1 + d) (by omega) (by omega)
    rw [show s + 1 + (d + 1) = (s + 1 + d) + 1 from by omega]
    induction fuel with
    | zero => rfl
    | succ fuel ihf =>
      simp only [Group.parentLoop, allSubnodesOf_eq l pend (s + 1 + d) (by omega), bind,
        Except.bind]
      by_cases g1 : 0 < extAt l (s + 1 + d)
      · rw [if_pos g1]
        simp only []
        rw [if_neg (by omega)]
        exact ih (by omega) (by omega) (fun q a b => hq q a (by omega)) fuel
      · rw [if_neg g1]; exact ihf

end Verif.NodeGroup
