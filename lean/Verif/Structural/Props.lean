import Verif.Structural.Spec

/-!
# C171: moving a statement among its siblings
-/

namespace Verif.Structural
open Verif.Imm

section
variable {D : Type} [DecidableEq D]

theorem parent_sub {s : Store D} {u p : Uniq} {i : Nat} (h : IsSubnode s u p i) : parent s u = .ok (some p) := by
  obtain ⟨h1, h2, h3, _⟩ := h
  unfold parent
  have e : u.path.dropLast = p.path := by rw [h2, List.dropLast_concat]
  rw [if_neg (by rw [h2]; simp), e, h1, h3]

theorem index_sub {s : Store D} {u p : Uniq} {i : Nat} (h : IsSubnode s u p i) (hu : ∀ k, (s.subs p.id)[k]? = some u.id → k = i) :
    selfIndex s u = .ok (i : Int) := by
  unfold selfIndex
  rw [parent_sub h]
  dsimp only
  unfold indexOf
  have hm : u.id ∈ s.subs p.id := List.mem_of_getElem? h.2.2.2
  rw [if_pos hm]
  have hl := List.idxOf_lt_length_of_mem hm
  rw [hu ((s.subs p.id).idxOf u.id) (by rw [List.getElem?_eq_getElem hl, List.getElem_idxOf hl])]

theorem adjacent_eq {s : Store D} {u p : Uniq} {i : Int} (h : parent s u = .ok (some p)) (hi : selfIndex s u = .ok i) (t : Int) :
    adjacentNode s u t = .ok (if 0 ≤ i + t then ((s.subs p.id)[(i + t).toNat]?).map (fun x => ⟨x, p.root, p.path ++ [subStep (i + t).toNat]⟩) else none) := by
  unfold adjacentNode
  rw [h]
  dsimp only
  rw [hi]
  dsimp only
  by_cases h0 : 0 ≤ i + t
  · by_cases h1 : i + t < (s.subs p.id).length
    · rw [if_pos ⟨h0, h1⟩, if_pos h0, List.getElem?_eq_getElem (by omega)]
      rfl
    · rw [if_neg (fun h => h1 h.2), if_pos h0, List.getElem?_eq_none (by omega)]
      rfl
  · rw [if_neg (fun h => h0 h.1), if_neg h0]

theorem isSpace_eq (s : Store D) (id : Id) : isSpace s id = SpaceId s id := by
  unfold isSpace SpaceId
  cases s[id]? <;> simp

/-- What is at a place, if it is one. -/
def place (l : List Id) (z : Int) : Option Id := if 0 ≤ z then l[z.toNat]? else none

theorem place_nat (l : List Id) (n : Nat) : place l n = l[n]? := by simp [place]

theorem place_some {l : List Id} {z : Int} {x : Id} (h : place l z = some x) : 0 ≤ z ∧ z < l.length ∧ l[z.toNat]? = some x := by
  unfold place at h
  split_ifs at h with h0
  have := (List.getElem?_eq_some_iff.mp h).1
  exact ⟨h0, by omega, h⟩

theorem adjacent_place {s : Store D} {u p : Uniq} {i : Int} (h : parent s u = .ok (some p)) (hi : selfIndex s u = .ok i) (t : Int) :
    adjacentNode s u t = .ok ((place (s.subs p.id) (i + t)).map (fun x => ⟨x, p.root, p.path ++ [subStep (i + t).toNat]⟩)) := by
  rw [adjacent_eq h hi]
  unfold place
  split_ifs <;> rfl

theorem skip_total {s : Store D} {u p : Uniq} {i : Int} (h : parent s u = .ok (some p)) (hi : selfIndex s u = .ok i) {dir : Int}
    (hd : dir = 1 ∨ dir = -1) (n : Nat) (t : Int)
    (hn : (dir = 1 → (s.subs p.id).length - (i + t) < n) ∧ (dir = -1 → i + t + 1 < n) ∧ 0 < n) :
    ∃ k : Nat, skipSpaces s u dir n t = .ok (t + dir * k) ∧ (∀ x, place (s.subs p.id) (i + t + dir * k) = some x → SpaceId s x = false) ∧
      ∀ m : Nat, m < k → ∃ x, place (s.subs p.id) (i + t + dir * m) = some x ∧ SpaceId s x = true := by
  induction n generalizing t with
  | zero => exact absurd hn.2.2 (by omega)
  | succ n ih =>
    rw [skipSpaces, adjacent_place h hi]
    cases hp : place (s.subs p.id) (i + t) with
    | none =>
      refine ⟨0, by simp, ?_, by simp⟩
      intro x hx
      rw [Int.natCast_zero, Int.mul_zero, Int.add_zero] at hx
      rw [hp] at hx
      cases hx
    | some x =>
      simp only [Option.map_some]
      rw [isSpace_eq]
      cases hs : SpaceId s x with
      | false =>
        refine ⟨0, by simp, ?_, by simp⟩
        intro y hy
        rw [Int.natCast_zero, Int.mul_zero, Int.add_zero] at hy
        rw [hp] at hy
        cases hy
        exact hs
      | true =>
        rw [if_pos rfl]
        obtain ⟨q0, q1, _⟩ := place_some hp
        obtain ⟨k, k1, k2, k3⟩ := ih (t + dir) (by
          obtain ⟨n1, n2, _⟩ := hn
          rcases hd with rfl | rfl
          · have := n1 rfl
            exact ⟨fun _ => by omega, fun e => by omega, by omega⟩
          · have := n2 rfl
            exact ⟨fun e => by omega, fun _ => by omega, by omega⟩)
        have e : ∀ k : Nat, t + dir + dir * k = t + dir * ((k + 1 : Nat) : Int) := fun k => by rw [Int.natCast_add, Int.mul_add, Int.natCast_one, Int.mul_one]; omega
        have e2 : ∀ k : Nat, i + (t + dir) + dir * k = i + t + dir * ((k + 1 : Nat) : Int) := fun k => by rw [Int.natCast_add, Int.mul_add, Int.natCast_one, Int.mul_one]; omega
        refine ⟨k + 1, by rw [k1, e], ?_, ?_⟩
        · intro y hy
          rw [← e2] at hy
          exact k2 y hy
        · intro m hm
          cases m with
          | zero => exact ⟨x, by simpa using hp, hs⟩
          | succ m =>
            rw [← e2]
            exact k3 m (by omega)

/-- `moveSubnodeStructural` after the loop. -/
theorem move_eq {isStmt : Kind → Bool} {c : Ctx D} {u p : Uniq} {i : Int} {v : Val D} (hv : c.store[u.id]? = some v) (hs : isStmt v.kind = true)
    (h : parent c.store u = .ok (some p)) (hi : selfIndex c.store u = .ok i) (fuel : Nat) (q off t : Int)
    (ht : skipSpaces c.store u (if 0 < off then 1 else -1) fuel off = .ok t) :
    moveStructural isStmt fuel c u q off =
      if (place (c.store.subs p.id) (i + t)).isSome then (swapSubnode c p i (i + t)).map (fun r => (some r.1, r.2)) else .ok (none, c) := by
  unfold moveStructural
  rw [hv]
  dsimp only
  rw [if_pos hs, ht]
  dsimp only
  rw [adjacent_place h hi]
  cases place (c.store.subs p.id) (i + t) with
  | none => rfl
  | some x =>
    simp only [Option.map_some, Option.isSome_some, if_true]
    rw [h]
    dsimp only
    rw [hi]
    dsimp only
    cases swapSubnode c p i (i + t) <;> rfl

theorem lands_place {l : List Id} {sp : Id → Bool} {i : Nat} {off : Int} {j : Nat} (h : Lands l sp i off j) :
    ∃ k : Nat, (j : Int) = i + off + (if 0 < off then 1 else -1) * k ∧
      (∃ x, place l (i + off + (if 0 < off then 1 else -1) * k) = some x ∧ sp x = false) ∧
      ∀ m : Nat, m < k → ∃ x, place l (i + off + (if 0 < off then 1 else -1) * m) = some x ∧ sp x = true := by
  obtain ⟨k, h1, ⟨x, h2, h3⟩, h4⟩ := h
  refine ⟨k, h1, ⟨x, by rw [← h1, place_nat, h2], h3⟩, fun m hm => ?_⟩
  obtain ⟨n, g1, y, g2, g3⟩ := h4 m hm
  exact ⟨y, by rw [← g1, place_nat, g2], g3⟩

/-- Moving a statement with an offset that is not zero, and which is only once among its siblings. -/
theorem move_cases {isStmt : Kind → Bool} {c : Ctx D} {u p : Uniq} {i : Nat} {v : Val D} (hv : c.store[u.id]? = some v) (hs : isStmt v.kind = true)
    (hsub : IsSubnode c.store u p i) (hu : ∀ k, (c.store.subs p.id)[k]? = some u.id → k = i) (q off : Int) (fuel : Nat)
    (hf : (c.store.subs p.id).length + off.natAbs + 1 < fuel) :
    (∃ j, Lands (c.store.subs p.id) (SpaceId c.store) i off j ∧ (∀ j', Lands (c.store.subs p.id) (SpaceId c.store) i off j' → j' = j) ∧
      moveStructural isStmt fuel c u q off = (swapSubnode c p i j).map (fun r => (some r.1, r.2))) ∨
    ((∀ j, ¬ Lands (c.store.subs p.id) (SpaceId c.store) i off j) ∧ moveStructural isStmt fuel c u q off = .ok (none, c)) := by
  have hp := parent_sub hsub
  have hi := index_sub hsub hu
  have hil := (List.getElem?_eq_some_iff.mp hsub.2.2.2).1
  generalize hdir : (if 0 < off then (1 : Int) else -1) = dir
  have hd : dir = 1 ∨ dir = -1 := by
    rw [← hdir]
    split_ifs
    · exact .inl rfl
    · exact .inr rfl
  obtain ⟨k, k1, k2, k3⟩ := skip_total hp hi hd fuel off ⟨fun _ => by omega, fun _ => by omega, by omega⟩
  have e := move_eq hv hs hp hi fuel q off (off + dir * k) (by rw [hdir]; exact k1)
  have ea : (i : Int) + (off + dir * k) = i + off + dir * k := by omega
  rw [ea] at e
  have uniq : ∀ j, Lands (c.store.subs p.id) (SpaceId c.store) i off j → (∃ x, place (c.store.subs p.id) (i + off + dir * k) = some x) ∧ (j : Int) = i + off + dir * k := by
    intro j hj
    obtain ⟨k', g1, ⟨x, g2, g3⟩, g4⟩ := lands_place hj
    rw [hdir] at g1 g2
    rcases Nat.lt_trichotomy k k' with hlt | rfl | hlt
    · obtain ⟨y, y1, y2⟩ := g4 k hlt
      rw [hdir] at y1
      rw [k2 y y1] at y2
      cases y2
    · exact ⟨⟨x, g2⟩, g1⟩
    · obtain ⟨y, y1, y2⟩ := k3 k' hlt
      rw [g2] at y1
      cases y1
      rw [g3] at y2
      cases y2
  cases hpl : place (c.store.subs p.id) (i + off + dir * k) with
  | none =>
    right
    refine ⟨fun j hj => ?_, by rw [e, hpl]; rfl⟩
    obtain ⟨x, hx⟩ := (uniq j hj).1
    rw [hpl] at hx
    cases hx
  | some x =>
    left
    obtain ⟨q0, q1, q2⟩ := place_some hpl
    have hj : (((i : Int) + off + dir * k).toNat : Int) = i + off + dir * k := Int.toNat_of_nonneg q0
    refine ⟨(i + off + dir * k : Int).toNat, ⟨k, by rw [hdir]; exact hj, ⟨x, q2, k2 x hpl⟩, fun m hm => ?_⟩, fun j' hj' => ?_, ?_⟩
    · obtain ⟨y, y1, y2⟩ := k3 m hm
      obtain ⟨r0, _, r2⟩ := place_some y1
      exact ⟨(i + off + dir * m : Int).toNat, by rw [hdir]; exact Int.toNat_of_nonneg r0, y, r2, y2⟩
    · have := (uniq j' hj').2
      omega
    · rw [e, hpl, hj]
      rfl

/-- **C171**, full statement: a statement that is moved changes places with the one at the offset, after all spaces; if
there is none, nothing happens. -/
def StructuralStatement (D : Type) [DecidableEq D] : Prop :=
  ∀ (isStmt : Kind → Bool) (srt : List (Step × Id) → List (Step × Id)), Sorts srt → ∀ (c : Ctx D), Reach srt c →
    ∀ (u p : Uniq) (i : Nat) (v : Val D), c.store[u.id]? = some v → isStmt v.kind = true → IsSubnode c.store u p i →
    ∀ (q off : Int) (fuel : Nat), (c.store.subs p.id).length + off.natAbs + 1 < fuel →
    (∀ j, Lands (c.store.subs p.id) (SpaceId c.store) i off j → j ≠ i → ∃ r c', moveStructural isStmt fuel c u q off = .ok (some r, c') ∧
      Edited c c' p (exchanged (c.store.subs p.id) i j) r) ∧
    ((∀ j, ¬ (Lands (c.store.subs p.id) (SpaceId c.store) i off j ∧ j ≠ i)) → moveStructural isStmt fuel c u q off = .ok (none, c))

theorem swap_result {l : List Id} {i j : Nat} (hi : i < l.length) (hj : j < l.length) (h : i ≠ j) : (EditOp.swap i j).result l = some (exchanged l i j) := by
  unfold EditOp.result
  dsimp only
  rw [if_pos ⟨by omega, by omega, by omega, by omega, by omega⟩]
  simp only [Option.some.injEq, exchanged, Int.toNat_natCast, Int.natCast_inj]

/-- **C171**, the part that holds: there is no other sibling with the same content, and the offset is not zero. -/
theorem structural_partial (isStmt : Kind → Bool) {srt : List (Step × Id) → List (Step × Id)} (hsrt : Sorts srt) {c : Ctx D} (hc : Reach srt c)
    {u p : Uniq} {i : Nat} {v : Val D} (hv : c.store[u.id]? = some v) (hs : isStmt v.kind = true) (hsub : IsSubnode c.store u p i)
    (hu : ∀ k, (c.store.subs p.id)[k]? = some u.id → k = i) (q : Int) {off : Int} (h0 : off ≠ 0) {fuel : Nat}
    (hf : (c.store.subs p.id).length + off.natAbs + 1 < fuel) :
    (∀ j, Lands (c.store.subs p.id) (SpaceId c.store) i off j → ∃ r c', moveStructural isStmt fuel c u q off = .ok (some r, c') ∧
      Edited c c' p (exchanged (c.store.subs p.id) i j) r) ∧
    ((∀ j, ¬ Lands (c.store.subs p.id) (SpaceId c.store) i off j) → moveStructural isStmt fuel c u q off = .ok (none, c)) := by
  have hil := (List.getElem?_eq_some_iff.mp hsub.2.2.2).1
  have hpl : p.id < c.store.length := by
    by_contra h
    have : c.store.subs p.id = [] := by
      unfold Store.subs
      rw [List.getElem?_eq_none (Nat.le_of_not_lt h)]
    rw [this] at hil
    exact absurd hil (by simp)
  rcases move_cases hv hs hsub hu q off fuel hf with ⟨j, h1, h2, h3⟩ | ⟨h1, h2⟩
  · refine ⟨fun j' hj' => ?_, fun h => absurd h1 (h j)⟩
    obtain rfl := h2 j' hj'
    obtain ⟨k, g1, ⟨x, g2, _⟩, _⟩ := h1
    have hjl := (List.getElem?_eq_some_iff.mp g2).1
    have hne : i ≠ j' := by
      intro e
      subst e
      by_cases hpos : 0 < off
      · rw [if_pos hpos] at g1
        omega
      · rw [if_neg hpos] at g1
        omega
    have hr := swap_result (l := c.store.subs p.id) hil hjl hne
    have hp := edits_partial hsrt hc hpl (.swap i j')
    rw [hr] at hp
    obtain ⟨r, c', hr1, hr2⟩ := hp.1 (by
      intro e
      have e1 := congrArg (fun l => l[i]?) e
      simp only [exchanged, List.getElem?_mapIdx] at e1
      rw [List.getElem?_eq_getElem hil] at e1
      simp only [Option.map_some, if_true, Option.some.injEq] at e1
      rw [List.getD_eq_getElem?_getD, List.getElem?_eq_getElem hjl, Option.getD_some] at e1
      have e2 := List.getElem?_eq_getElem hil
      rw [hsub.2.2.2] at e2
      injection e2 with e2
      have := hu j' (by rw [List.getElem?_eq_getElem hjl, e1, e2])
      exact hne this.symm)
    refine ⟨r, c', ?_, hr2⟩
    rw [h3]
    exact hr1
  · exact ⟨fun j hj => absurd hj (h1 j), fun _ => h2⟩

/-- Nodes that are no statements are not moved. -/
theorem structural_other {isStmt : Kind → Bool} {c : Ctx D} {u : Uniq} {v : Val D} (hv : c.store[u.id]? = some v) (hs : isStmt v.kind = false) (fuel : Nat) (q off : Int) :
    moveStructural isStmt fuel c u q off = .ok (none, c) := by
  unfold moveStructural
  rw [hv]
  simp [hs]

/-- **C171** does not hold for statements that are not among the subnodes of their parent, as the title of a headline:
moving them by one writes to position -1 without a check, if the first subnode is no space. -/
theorem structural_field {isStmt : Kind → Bool} {c : Ctx D} {u p : Uniq} {v : Val D} {x : Id} {r : List Id} (hv : c.store[u.id]? = some v) (hs : isStmt v.kind = true)
    (hp : parent c.store u = .ok (some p)) (hm : u.id ∉ c.store.subs p.id) (hx : c.store.subs p.id = x :: r) (hsp : SpaceId c.store x = false)
    (fuel : Nat) (q : Int) : moveStructural isStmt (fuel + 1) c u q 1 = .error .unchecked := by
  have hi : selfIndex c.store u = .ok (-1) := by
    unfold selfIndex
    rw [hp]
    dsimp only
    unfold indexOf
    rw [if_neg hm]
  have hpl : place (c.store.subs p.id) (-1 + 1) = some x := by rw [hx]; rfl
  rw [move_eq hv hs hp hi (fuel + 1) q 1 1 (by
    rw [if_pos (by decide), skipSpaces, adjacent_place hp hi, hpl]
    simp only [Option.map_some]
    rw [isSpace_eq, hsp]
    rfl), hpl]
  simp only [Option.isSome_some, if_true]
  unfold swapSubnode
  rw [if_neg (by decide), if_pos (by decide), hx]
  rfl

/-- **C171** does not hold for the offset zero: an exception. -/
theorem structural_zero {isStmt : Kind → Bool} {c : Ctx D} {u p : Uniq} {i : Nat} {v : Val D} (hv : c.store[u.id]? = some v) (hs : isStmt v.kind = true)
    (hsub : IsSubnode c.store u p i) (hk : v.kind ≠ .Space) (fuel : Nat) (q : Int) :
    moveStructural isStmt (fuel + 1) c u q 0 = .error .throws := by
  have hp := parent_sub hsub
  have hm : u.id ∈ c.store.subs p.id := List.mem_of_getElem? hsub.2.2.2
  have hl := List.idxOf_lt_length_of_mem hm
  have hi : selfIndex c.store u = .ok ((c.store.subs p.id).idxOf u.id : Int) := by
    unfold selfIndex
    rw [hp]
    dsimp only
    unfold indexOf
    rw [if_pos hm]
  have hpl : place (c.store.subs p.id) (((c.store.subs p.id).idxOf u.id : Int) + 0) = some u.id := by
    rw [Int.add_zero, place_nat, List.getElem?_eq_getElem hl, List.getElem_idxOf hl]
  rw [move_eq hv hs hp hi (fuel + 1) q 0 0 (by
    rw [skipSpaces, adjacent_place hp hi, hpl]
    simp only [Option.map_some]
    rw [isSpace_eq]
    have : SpaceId c.store u.id = false := by
      unfold SpaceId
      rw [hv]
      simpa using hk
    rw [this]
    rfl), hpl]
  simp only [Option.isSome_some, if_true]
  unfold swapSubnode
  rw [if_pos (by omega)]
  rfl

end

/-! ## A document -/

/-- An empty paragraph, a space, a paragraph with a word, and an empty paragraph. -/
def four : Tree Unit true :=
  let empty : Tree Unit true := .node .Paragraph () none .nil
  let other : Tree Unit true := .node .Paragraph () none (.cons (subStep 0) (.node .Word () none .nil) .nil)
  .node .Document () none (.cons (subStep 0) empty (.cons (subStep 1) (.node .Space () none .nil) (.cons (subStep 2) other (.cons (subStep 3) empty .nil))))

theorem shaped4 : Shaped [subStep 0, subStep 1, subStep 2, subStep 3] := by
  have h := shaped_subSteps 4
  rwa [show (List.range 4).map subStep = [subStep 0, subStep 1, subStep 2, subStep 3] by decide] at h

theorem four_shaped : ShapedTree four := by
  simp only [four, ShapedTree, steps]
  exact ⟨shaped4, ⟨shaped0, trivial⟩, ⟨shaped0, trivial⟩, ⟨shaped1, ⟨shaped0, trivial⟩, trivial⟩, ⟨shaped0, trivial⟩, trivial⟩

/-- The context with that document. -/
def c4 : Ctx Unit := (addRoot (start Unit) four).2

theorem c4_reach (srt : List (Step × Id) → List (Step × Id)) : Reach srt c4 := .single (.add _ _ four_shaped)

/-- The document is node 4; its subnodes are 0, 1, 3 and 0 again. -/
theorem c4_subs : c4.store.subs 4 = [0, 1, 3, 0] := by decide +kernel

/-- Paragraphs are statements. -/
def paragraphs : Kind → Bool := fun k => decide (k = .Paragraph)

/-- The second empty paragraph: the first one is found. -/
theorem equal_stays : (moveStructural paragraphs 9 c4 ⟨0, 4, [subStep 3]⟩ 3 (-1)).map (·.1) = .ok none := by decide +kernel

/-- **C171** does not hold when there are equal siblings: the last paragraph is not moved up. -/
theorem structural_false : ¬ StructuralStatement Unit := by
  intro h
  obtain ⟨h1, _⟩ := h paragraphs stable stable_sorts c4 (c4_reach _) ⟨0, 4, [subStep 3]⟩ ⟨4, 4, []⟩ 3 ⟨.Paragraph, (), none, []⟩ (by decide +kernel) rfl
    ⟨rfl, rfl, by decide +kernel, by decide +kernel⟩ 3 (-1) 9 (by rw [c4_subs]; decide)
  obtain ⟨r, c', hr, _⟩ := h1 2 ⟨0, by decide, ⟨3, by rw [c4_subs]; rfl, by decide +kernel⟩, by simp⟩ (by decide)
  have e := equal_stays
  rw [hr] at e
  injection e with e
  cases e

/-- The other paragraph is alone, and goes over the space. -/
example : ∃ r c', moveStructural paragraphs 9 c4 ⟨3, 4, [subStep 2]⟩ 2 (-1) = .ok (some r, c') ∧ Edited c4 c' ⟨4, 4, []⟩ [3, 1, 0, 0] r := by
  obtain ⟨h, _⟩ := structural_partial paragraphs stable_sorts (c4_reach _) (u := ⟨3, 4, [subStep 2]⟩) (p := ⟨4, 4, []⟩) (i := 2)
    (v := ⟨.Paragraph, (), none, [(subStep 0, 2)]⟩) (by decide +kernel) rfl
    ⟨rfl, rfl, by decide +kernel, by decide +kernel⟩ (by
      intro k hk
      rw [c4_subs] at hk
      match k with
      | 0 => simp at hk
      | 1 => simp at hk
      | 2 => rfl
      | 3 => simp at hk
      | k + 4 => simp at hk) 2 (off := -1) (by decide) (fuel := 9) (by rw [c4_subs]; decide)
  have := h 0 ⟨1, by decide, ⟨0, by rw [c4_subs]; rfl, by decide +kernel⟩, by
    intro m hm
    obtain rfl : m = 0 := by omega
    exact ⟨1, by decide, 1, by rw [c4_subs]; rfl, by decide +kernel⟩⟩
  rw [c4_subs] at this
  exact this

/-- A headline with an empty title and a paragraph. -/
def headline : Tree Unit true :=
  .node .Subtree () none (.cons (subStep 0) (.node .Paragraph () none (.cons (subStep 0) (.node .Word () none .nil) .nil))
    (.cons ⟨1, .deref⟩ (.node .Paragraph () none .nil) .nil))

/-- The title is moved: the result is undefined. -/
example : (moveStructural paragraphs 9 (addRoot (start Unit) headline).2 ⟨2, 3, [⟨1, .deref⟩]⟩ 0 1).map (·.1) = .error .unchecked := by
  decide +kernel

end Verif.Structural
