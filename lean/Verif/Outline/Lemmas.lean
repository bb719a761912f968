import Verif.Outline.Spec
import Verif.NodeGroup.Lemmas

namespace Verif.Outline
open Verif.NodeGroup Verif.NodeGroup.Spec Verif.Outline.Spec

variable {M : Type}

@[simp] theorem count_append (f g : Forest Kind M) : (f.append g).count = f.count + g.count := by
  rw [← flat_length, flat_append, List.length_append, flat_length, flat_length]

theorem roots_append (f g : Forest Kind M) : ∀ b,
    (f.append g).roots b = f.roots b ++ g.roots (b + f.count) := by
  induction f with
  | nil => intro b; simp [Forest.append, Forest.roots, Forest.count]
  | leaf k v r ih =>
    intro b; simp [Forest.append, Forest.roots, Forest.count, ih, Nat.add_assoc]
  | tree k c r _ ih =>
    intro b; simp [Forest.append, Forest.roots, Forest.count, ih, Nat.add_assoc]

theorem roots_length (f : Forest Kind M) : ∀ b b', (f.roots b).length = (f.roots b').length := by
  induction f with
  | nil => intro b b'; rfl
  | leaf k v r ih => intro b b'; simp [Forest.roots, ih (b + 1) (b' + 1)]
  | tree k c r _ ih =>
    intro b b'; simp [Forest.roots, ih (b + 1 + c.count) (b' + 1 + c.count)]

/-! ### `assertValidStructure` accepts listings of forests -/

theorem contains_mem (pre post : List (Node Kind M)) (n : Node Kind M) (pend : List Nat) :
    contains ⟨pre ++ n :: post, pend⟩ (pre.length + 1) = true := by
  simp [contains]

theorem contains_iff (l : List (Node Kind M)) (pend : List Nat) (id : Nat) :
    contains ⟨l, pend⟩ id = true ↔ 0 < id ∧ id ≤ l.length := by
  simp [contains]

theorem at_append' (pre post : List (Node Kind M)) (n : Node Kind M) (pend : List Nat) (i : Nat)
    (h : i = pre.length + 1) :
    (Group.at ⟨pre ++ n :: post, pend⟩ i) = .ok n := by
  subst h; exact at_append pre post n pend

theorem allSubs_inner (pre post : List (Node Kind M)) (k : Kind) (c : Nat) (pend : List Nat) :
    Group.allSubnodesOf ⟨pre ++ ⟨k, .ext c⟩ :: post, pend⟩ (pre.length + 1)
      = .ok (if 0 < c then some (pre.length + 2, pre.length + 1 + c) else none) := by
  simp only [Group.allSubnodesOf, at_append, bind, Except.bind, Node.getExtent, Int.toNat_natCast]
  by_cases h : 0 < c
  · simp [h]
  · simp [h]

theorem valid_ok (c : Forest Kind M) : ∀ (pre post : List (Node Kind M)) (pend : List Nat)
    (fuel first : Nat), NoInner .empty c → 2 * c.count < fuel → first ≤ pre.length + 1 →
    validLoop ⟨pre ++ c.flat ++ post, pend⟩ fuel first (pre.length + c.count) (pre.length + 1)
      = .ok () := by
  induction c with
  | nil =>
    intro pre post pend fuel first _ hf h1
    obtain ⟨fuel, rfl⟩ : ∃ k, fuel = k + 1 := ⟨fuel - 1, by omega⟩
    rw [validLoop, if_neg (by simp [Forest.count]), if_pos (by simp [Forest.count])]
  | leaf k v r ih =>
    intro pre post pend fuel first hk hf h1
    simp only [Forest.count] at hf
    obtain ⟨fuel, rfl⟩ : ∃ k, fuel = k + 1 := ⟨fuel - 1, by omega⟩
    obtain ⟨n, hn, he, ht⟩ : ∃ n : Node Kind M, (Forest.leaf k v r).flat = n :: r.flat ∧
        n.getExtent = 0 ∧ n.isNonTerminal = false := by
      cases v <;> exact ⟨_, rfl, rfl, rfl⟩
    obtain ⟨fuel, rfl⟩ : ∃ k, fuel = k + 1 := ⟨fuel - 1, by omega⟩
    have hc := contains_mem pre (r.flat ++ post) n pend
    have ha := at_append pre (r.flat ++ post) n pend
    have hr := ih (pre ++ [n]) post pend (fuel + 1) first hk (by omega) (by simp; omega)
    simp only [List.length_append, List.length_singleton, List.append_assoc,
      List.singleton_append, List.cons_append, List.nil_append] at hr
    rw [validLoop, if_pos (by simp only [Forest.count]; omega), hn]
    simp only [List.append_assoc, List.cons_append]
    rw [if_pos hc, validAux]
    simp only [hc, ha, ht, he, bind, Except.bind, if_true, Int.toNat_zero, Nat.add_zero]
    simp only [Forest.count]
    rw [show pre.length + (1 + r.count) = pre.length + 1 + r.count from by omega]
    simpa using hr
  | tree k c r ihc ihr =>
    intro pre post pend fuel first hk hf h1
    simp only [Forest.count] at hf
    obtain ⟨hk1, hk2, hk3⟩ := hk
    obtain ⟨fuel, rfl⟩ : ∃ k, fuel = k + 1 := ⟨fuel - 1, by omega⟩
    obtain ⟨fuel, rfl⟩ : ∃ k, fuel = k + 1 := ⟨fuel - 1, by omega⟩
    have hfl : pre ++ (Forest.tree k c r).flat ++ post
        = pre ++ ⟨k, .ext c.count⟩ :: (c.flat ++ r.flat ++ post) := by simp [Forest.flat]
    have hc := contains_mem pre (c.flat ++ r.flat ++ post) ⟨k, .ext c.count⟩ pend
    have ha := at_append pre (c.flat ++ r.flat ++ post) ⟨k, .ext c.count⟩ pend
    have hr := ihr (pre ++ ⟨k, .ext c.count⟩ :: c.flat) post pend (fuel + 1) first hk3 (by omega)
      (by simp; omega)
    have hcc := ihc (pre ++ [⟨k, .ext c.count⟩]) (r.flat ++ post) pend fuel
      (pre.length + 2) hk2 (by omega) (by simp)
    simp only [List.length_append, List.length_cons, List.length_nil, flat_length,
      List.append_assoc, List.cons_append, List.nil_append] at hr hcc
    rw [validLoop, if_pos (by simp only [Forest.count]; omega), hfl]
    rw [if_pos hc]
    simp only [List.append_assoc] at hc ha ⊢
    have hlen : (pre ++ ⟨k, .ext c.count⟩ :: (c.flat ++ (r.flat ++ post))).length
        = pre.length + 1 + c.count + r.count + post.length := by simp; omega
    have hv : validAux ⟨pre ++ ⟨k, .ext c.count⟩ :: (c.flat ++ (r.flat ++ post)), pend⟩
        (fuel + 1) (pre.length + 1) = .ok () := by
      rw [validAux]
      simp only [hc, ha, bind, Except.bind, if_true, Node.isNonTerminal, allSubs_inner,
        ne_eq, hk1, not_false_eq_true]
      by_cases h0 : 0 < c.count
      · rw [if_pos h0]
        simp only []
        rw [if_pos (by
          simp only [Bool.and_eq_true, contains_iff, hlen]
          omega)]
        rw [show pre.length + 1 + c.count = pre.length + (0 + 1) + c.count from by omega]
        exact hcc
      · rw [if_neg h0]
    have hcl : contains ⟨pre ++ ⟨k, .ext c.count⟩ :: (c.flat ++ (r.flat ++ post)), pend⟩
        (pre.length + 1 + c.count) = true := by rw [contains_iff, hlen]; omega
    simp only [hv, ha, bind, Except.bind, Node.getExtent, Int.toNat_natCast, hcl, if_true]
    simp only [Forest.count]
    rw [show pre.length + (1 + c.count + r.count) = pre.length + (c.count + 1) + r.count
      from by omega, show pre.length + 1 + c.count + 1 = pre.length + (c.count + 1) + 1
      from by omega]
    exact hr

theorem validAux_tree (pre post : List (Node Kind M)) (pend : List Nat) (k : Kind)
    (c : Forest Kind M) (hk : k ≠ .empty) (hc : NoInner .empty c) (fuel : Nat)
    (hf : 2 * c.count + 1 < fuel) :
    validAux ⟨pre ++ ⟨k, .ext c.count⟩ :: (c.flat ++ post), pend⟩ fuel (pre.length + 1)
      = .ok () := by
  obtain ⟨fuel, rfl⟩ : ∃ k, fuel = k + 1 := ⟨fuel - 1, by omega⟩
  have h1 := contains_mem pre (c.flat ++ post) ⟨k, .ext c.count⟩ pend
  have ha := at_append pre (c.flat ++ post) ⟨k, .ext c.count⟩ pend
  have hcc := valid_ok c (pre ++ [⟨k, .ext c.count⟩]) post pend fuel
      (pre.length + 2) hc (by omega) (by simp)
  simp only [List.length_append, List.length_cons, List.length_nil,
      List.append_assoc, List.cons_append, List.nil_append] at hcc
  rw [validAux]
  simp only [h1, ha, bind, Except.bind, if_true, Node.isNonTerminal, allSubs_inner,
        ne_eq, hk, not_false_eq_true]
  by_cases h0 : 0 < c.count
  · rw [if_pos h0]
    simp only []
    rw [if_pos (by
      simp only [Bool.and_eq_true, contains_iff, List.length_append, List.length_cons,
        flat_length]
      omega)]
    rw [show pre.length + 1 + c.count = pre.length + (0 + 1) + c.count from by omega]
    exact hcc
  · rw [if_neg h0]

/-! ### Stepping -/

theorem extendImpl_skip (textLen : Nat → Nat) (L : Nat) (pend : List Nat)
    (post : List (Node Kind M)) : ∀ (ns pre : List (Node Kind M)) (fuel : Nat),
    (∀ n ∈ ns, n.kind ≠ .subtree) →
    extendImpl textLen (fuel + ns.length) ⟨pre ++ ns ++ post, pend⟩ (pre.length + 1) L
      = extendImpl textLen fuel ⟨pre ++ ns ++ post, pend⟩ (pre.length + ns.length + 1) L := by
  intro ns
  induction ns with
  | nil => intro pre fuel _; simp
  | cons n ns ih =>
    intro pre fuel hk
    have ha := at_append pre (ns ++ post) n pend
    have h1 : n.kind ≠ .subtree := hk n (by simp)
    have ih' := ih (pre ++ [n]) fuel (fun m hm => hk m (by simp [hm]))
    simp only [List.length_append, List.length_cons, List.length_nil, List.append_assoc,
      List.cons_append, List.nil_append, Nat.zero_add] at ih' ⊢
    rw [show fuel + (ns.length + 1) = (fuel + ns.length) + 1 from by omega, extendImpl,
      if_pos (by simp)]
    simp only [ha, bind, Except.bind, if_neg h1, ih']
    rw [show pre.length + 1 + ns.length + 1 = pre.length + (ns.length + 1) + 1 from by omega]

theorem kinds_without (f : Forest Kind M) (h : Without .subtree f) :
    ∀ n ∈ f.flat, n.kind ≠ .subtree := by
  induction f with
  | nil => intro n hn; simp [Forest.flat] at hn
  | leaf k v r ih =>
    intro n hn
    cases v <;>
    · simp only [Forest.flat, List.mem_cons] at hn
      rcases hn with rfl | hn
      · exact h.1
      · exact ih h.2 n hn
  | tree k c r ihc ihr =>
    intro n hn
    simp only [Forest.flat, List.cons_append, List.mem_cons, List.mem_append] at hn
    rcases hn with rfl | hn | hn
    · exact h.1
    · exact ihc h.2.1 n hn
    · exact ihr h.2.2 n hn

theorem subnode_inner (pre post : List (Node Kind M)) (pend : List Nat) (k : Kind)
    (c : Forest Kind M) (fuel i p : Nat) (hf : c.count < fuel)
    (hp : (c.roots (pre.length + 1))[i]? = some p) :
    Group.subnode ⟨pre ++ ⟨k, .ext c.count⟩ :: (c.flat ++ post), pend⟩ fuel (pre.length + 1) i
      = .ok (p + 1) := by
  rw [Group.subnode, subnodesOf_inner]
  simp only [bind, Except.bind]
  have := subnodeLoop_roots c (pre ++ [⟨k, .ext c.count⟩]) post pend fuel 0 i hf (by omega)
  simp only [List.length_append, List.length_cons, List.length_nil, List.append_assoc,
    List.cons_append, List.nil_append, Nat.zero_add] at this
  rw [show ((i : Int) - ((0 : Nat) : Int)).toNat = i from by omega, hp] at this
  exact this

/-! ### Facts about the specification -/

@[simp] theorem headTree_count (k : Kind) (s : Nat) (fields c r : Forest Kind M) :
    (headTree k s fields c r).count = 3 + fields.count + c.count + r.count := by
  simp [headTree, Forest.count]; omega

theorem takeWhile_takeWhile_sub {α : Type} {p q : α → Bool} (h : ∀ a, p a = true → q a = true)
    (l : List α) : (l.takeWhile q).takeWhile p = l.takeWhile p := by
  induction l with
  | nil => rfl
  | cons a l ih =>
    by_cases hq : q a = true
    · by_cases hp : p a = true
      · simp [hq, hp, ih]
      · simp [hq, hp]
    · have hp : ¬ p a = true := fun hp => hq (h a hp)
      simp [hq, hp]

theorem dropWhile_takeWhile_sub {α : Type} {p q : α → Bool} (h : ∀ a, p a = true → q a = true)
    (l : List α) : (l.takeWhile q).dropWhile p = (l.dropWhile p).takeWhile q := by
  induction l with
  | nil => rfl
  | cons a l ih =>
    by_cases hq : q a = true
    · by_cases hp : p a = true
      · simp [hq, hp, ih]
      · simp [hq, hp]
    · have hp : ¬ p a = true := fun hp => hq (h a hp)
      simp [hq, hp]

theorem dropWhile_dropWhile_sub {α : Type} {p q : α → Bool} (h : ∀ a, p a = true → q a = true)
    (l : List α) : (l.dropWhile p).dropWhile q = l.dropWhile q := by
  induction l with
  | nil => rfl
  | cons a l ih =>
    by_cases hp : p a = true
    · simp [hp, h a hp, ih]
    · simp [hp]

theorem flatDoc_append (a b : List (Item M)) :
    flatDoc (a ++ b) = (flatDoc a).append (flatDoc b) := by
  have assoc : ∀ f g h : Forest Kind M, (f.append g).append h = f.append (g.append h) := by
    intro f g h
    induction f with
    | nil => rfl
    | leaf k v r ih => simp [Forest.append, ih]
    | tree k c r _ ih => simp [Forest.append, ih]
  induction a with
  | nil => rfl
  | cons i a ih =>
    cases i with
    | body f => simp [flatDoc, ih, assoc]
    | head k s fields => simp [flatDoc, ih, headTree, Forest.append]

theorem flatDoc_count_split (p : Item M → Bool) (l : List (Item M)) :
    (flatDoc (l.takeWhile p)).count + (flatDoc (l.dropWhile p)).count = (flatDoc l).count := by
  have := congrArg Forest.count (flatDoc_append (l.takeWhile p) (l.dropWhile p))
  rw [List.takeWhile_append_dropWhile] at this
  rw [this, count_append]

theorem outline_count (textLen : Nat → Nat) : ∀ (n : Nat) (items : List (Item M)),
    items.length ≤ n → (outline textLen items).count = (flatDoc items).count := by
  intro n
  induction n with
  | zero =>
    intro items h
    cases items with
    | nil => simp [outline, flatDoc]
    | cons _ _ => simp at h
  | succ n ih =>
    intro items h
    cases items with
    | nil => simp [outline, flatDoc]
    | cons i r =>
      have hr : r.length ≤ n := by simpa using h
      cases i with
      | body f => simp [outline, flatDoc, ih r hr]
      | head k s fields =>
        rw [outline, flatDoc]
        simp only [headTree_count]
        rw [ih _ (Nat.le_trans (takeWhile_length_le _ r) hr),
          ih _ (Nat.le_trans (dropWhile_length_le _ r) hr)]
        have := flatDoc_count_split (inSection textLen (textLen s)) r
        simp only [Forest.count]
        omega

theorem noInner_append {k : Kind} {f g : Forest Kind M} (hf : NoInner k f) (hg : NoInner k g) :
    NoInner k (f.append g) := by
  induction f with
  | nil => exact hg
  | leaf _ _ r ih => exact ih hf
  | tree _ c r _ ih => exact ⟨hf.1, hf.2.1, ih hf.2.2⟩

theorem headTree_noInner {k : Kind} {s : Nat} {fields c r : Forest Kind M}
    (h1 : NoInner .empty fields) (h2 : NoInner .empty c) (h3 : NoInner .empty r) :
    NoInner .empty (headTree k s fields c r) :=
  ⟨by decide, noInner_append h1 ⟨by decide, h2, trivial⟩, h3⟩

theorem outline_noInner (textLen : Nat → Nat) : ∀ (n : Nat) (items : List (Item M)),
    items.length ≤ n → (∀ i ∈ items, i.Ok textLen) →
    NoInner .empty (outline textLen items) := by
  intro n
  induction n with
  | zero =>
    intro items h _
    cases items with
    | nil => simp [outline, NoInner]
    | cons _ _ => simp at h
  | succ n ih =>
    intro items h hok
    cases items with
    | nil => simp [outline, NoInner]
    | cons i r =>
      have hr : r.length ≤ n := by simpa using h
      have hi := hok i (by simp)
      have hokr : ∀ j ∈ r, j.Ok textLen := fun j hj => hok j (by simp [hj])
      cases i with
      | body f =>
        rw [outline]
        exact noInner_append hi.2 (ih r hr hokr)
      | head k s fields =>
        rw [outline]
        exact headTree_noInner hi.2.2.2.2
          (ih _ (Nat.le_trans (takeWhile_length_le _ r) hr)
            (fun j hj => hokr j ((List.takeWhile_sublist _).subset hj)))
          (ih _ (Nat.le_trans (dropWhile_length_le _ r) hr)
            (fun j hj => hokr j ((List.dropWhile_sublist _).subset hj)))

/-! ### The pass computes the outline -/

theorem extendImpl_spec (textLen : Nat → Nat) (pend : List Nat) : ∀ (n : Nat)
    (items : List (Item M)), items.length ≤ n → (∀ i ∈ items, i.Ok textLen) →
    ∀ (pre : List (Node Kind M)) (L fuel : Nat), (flatDoc items).count < fuel →
    extendImpl textLen fuel ⟨pre ++ (flatDoc items).flat, pend⟩ (pre.length + 1) L
      = .ok (⟨pre ++ (outline textLen (items.takeWhile (inSection textLen L))).flat
                ++ (flatDoc (items.dropWhile (inSection textLen L))).flat, pend⟩,
             pre.length + (outline textLen (items.takeWhile (inSection textLen L))).count + 1) := by
  intro n
  induction n with
  | zero =>
    intro items h _ pre L fuel hf
    cases items with
    | cons _ _ => simp at h
    | nil =>
      obtain ⟨fuel, rfl⟩ : ∃ k, fuel = k + 1 := ⟨fuel - 1, by omega⟩
      rw [extendImpl, if_neg (by simp [flatDoc, Forest.flat])]
      simp [outline, flatDoc, Forest.flat, Forest.count]
  | succ n ih =>
    intro items h hok pre L fuel hf
    cases items with
    | nil =>
      obtain ⟨fuel, rfl⟩ : ∃ k, fuel = k + 1 := ⟨fuel - 1, by omega⟩
      rw [extendImpl, if_neg (by simp [flatDoc, Forest.flat])]
      simp [outline, flatDoc, Forest.flat, Forest.count]
    | cons i r =>
      have hr : r.length ≤ n := by simpa using h
      have hi := hok i (by simp)
      have hokr : ∀ j ∈ r, j.Ok textLen := fun j hj => hok j (by simp [hj])
      cases i with
      | body f =>
        simp only [flatDoc, count_append, flat_append] at hf ⊢
        obtain ⟨fuel, rfl⟩ : ∃ k, fuel = k + f.flat.length := ⟨fuel - f.count, by simp; omega⟩
        have h1 := extendImpl_skip textLen L pend (flatDoc r).flat f.flat pre fuel
          (kinds_without f hi.1)
        rw [List.append_assoc] at h1
        rw [h1]
        have h2 := ih r hr hokr (pre ++ f.flat) L fuel (by rw [flat_length] at hf; omega)
        simp only [List.length_append, flat_length, List.append_assoc] at h2 ⊢
        rw [h2]
        have hb : inSection textLen L (Item.body f) = true := rfl
        rw [List.takeWhile_cons_of_pos hb, List.dropWhile_cons_of_pos hb, outline]
        simp [Nat.add_assoc]
      | head k s fields =>
        obtain ⟨ok1, ok2, ok3, ok4, ok5⟩ := hi
        simp only [flatDoc, headTree_count, Forest.count] at hf
        obtain ⟨fuel, rfl⟩ : ∃ k, fuel = k + 1 := ⟨fuel - 1, by omega⟩
        -- the header forest before the pass
        let c0 : Forest Kind M := .leaf k (.tok s) (fields.append (.tree .stmtList .nil .nil))
        have hc0 : c0.count = fields.count + 2 := by
          simp only [c0, Forest.count, count_append]; omega
        have hc0f : c0.flat = ⟨k, .tok s⟩ :: (fields.flat ++ [⟨.stmtList, .ext 0⟩]) := by
          simp [c0, Forest.flat, Forest.count]
        have hflat : pre ++ (flatDoc (.head k s fields :: r)).flat
            = pre ++ ⟨.subtree, .ext c0.count⟩ :: (c0.flat ++ (flatDoc r).flat) := by
          simp [flatDoc, headTree, Forest.flat, c0]
        have hroots : c0.roots (pre.length + 1)
            = (pre.length + 1) :: (fields.roots (pre.length + 2)
                ++ [pre.length + 2 + fields.count]) := by
          simp [c0, Forest.roots, roots_append]
        have hr0 : (c0.roots (pre.length + 1))[0]? = some (pre.length + 1) := by
          rw [hroots]; rfl
        have hl7 : (fields.roots (pre.length + 2)).length = 7 := by
          rw [roots_length fields _ 0]; exact ok3
        have hr8 : (c0.roots (pre.length + 1))[8]? = some (pre.length + 2 + fields.count) := by
          rw [hroots, List.getElem?_cons_succ, List.getElem?_append_right (by omega), hl7]; rfl
        rw [hflat]
        generalize hbud : loopBudget (⟨pre ++ ⟨.subtree, .ext c0.count⟩ ::
          (c0.flat ++ (flatDoc r).flat), pend⟩ : Group Kind M) = bud
        have hbud' : c0.count < bud := by
          rw [← hbud]; simp [loopBudget]; omega
        have ha := at_append pre (c0.flat ++ (flatDoc r).flat) ⟨.subtree, .ext c0.count⟩ pend
        have hs0 := subnode_inner pre (flatDoc r).flat pend .subtree c0 bud 0 _ hbud' hr0
        have hs8 := subnode_inner pre (flatDoc r).flat pend .subtree c0 bud 8 _ hbud' hr8
        have hstar : Group.at ⟨pre ++ ⟨.subtree, .ext c0.count⟩ :: (c0.flat ++ (flatDoc r).flat),
            pend⟩ (pre.length + 1 + 1) = .ok ⟨k, .tok s⟩ := by
          have := at_append' (pre ++ [⟨.subtree, .ext c0.count⟩])
            (fields.flat ++ [⟨.stmtList, .ext 0⟩] ++ (flatDoc r).flat)
            ⟨k, .tok s⟩ pend (pre.length + 1 + 1) (by simp)
          rw [hc0f]
          simpa using this
        have hstmt : Group.at ⟨pre ++ ⟨.subtree, .ext c0.count⟩ :: (c0.flat ++ (flatDoc r).flat),
            pend⟩ (pre.length + 2 + fields.count + 1) = .ok ⟨.stmtList, .ext 0⟩ := by
          have := at_append' (pre ++ ⟨.subtree, .ext c0.count⟩ :: ⟨k, .tok s⟩ :: fields.flat)
            (flatDoc r).flat ⟨.stmtList, .ext 0⟩ pend (pre.length + 2 + fields.count + 1)
            (by simp; omega)
          rw [hc0f]
          simpa using this
        rw [extendImpl, if_pos (by simp)]
        simp only [ha, hbud, bind, Except.bind, if_true, valTextSize]
        simp only [Int.natCast_zero] at hs0
        rw [hs0]
        simp only [hstar]
        by_cases hlev : L < textLen s
        · have hin : inSection textLen L (Item.head k s fields : Item M) = true := by
            simp [inSection, hlev]
          rw [if_pos hlev]
          rw [show ((8 : Nat) : Int) = (8 : Int) from rfl] at hs8
          rw [hs8]
          simp only [hstmt, true_or, if_true]
          -- recursive call
          have hrec := ih r hr hokr (pre ++ ⟨.subtree, .ext c0.count⟩ :: c0.flat) (textLen s) fuel
            (by omega)
          have hlen : (pre ++ ⟨.subtree, .ext c0.count⟩ :: c0.flat).length
              = pre.length + 2 + fields.count + 1 := by simp [hc0]; omega
          rw [hlen] at hrec
          simp only [List.append_assoc, List.cons_append] at hrec
          simp only [hrec]
          generalize hO : outline textLen (r.takeWhile (inSection textLen (textLen s))) = O
          generalize hD : r.dropWhile (inSection textLen (textLen s)) = D
          rw [if_pos (by omega)]
          -- statement list
          have hat1 : Group.at ⟨pre ++ ⟨.subtree, .ext c0.count⟩ ::
              (c0.flat ++ (O.flat ++ (flatDoc D).flat)), pend⟩
              (pre.length + 2 + fields.count + 1) = .ok ⟨.stmtList, .ext 0⟩ := by
            have := at_append' (pre ++ ⟨.subtree, .ext c0.count⟩ :: ⟨k, .tok s⟩ :: fields.flat)
              (O.flat ++ (flatDoc D).flat) ⟨.stmtList, .ext 0⟩ pend
              (pre.length + 2 + fields.count + 1) (by simp; omega)
            rw [hc0f]
            simpa using this
          simp only [hat1]
          have hx1 : ((pre.length + 2 + fields.count + 1 + O.count + 1
              - (pre.length + 2 + fields.count + 1) : Nat) : Int) - 1 = O.count := by omega
          rw [hx1]
          simp only [Node.extend, Node.isNonTerminal, if_true]
          rw [if_pos (by omega)]
          simp only []
          -- after the first update
          have hset1 : (pre ++ ⟨.subtree, .ext c0.count⟩ ::
              (c0.flat ++ (O.flat ++ (flatDoc D).flat))).set
                (pre.length + 2 + fields.count + 1 - 1) ⟨.stmtList, .ext O.count⟩
              = pre ++ ⟨.subtree, .ext c0.count⟩ :: ⟨k, .tok s⟩ :: (fields.flat ++
                  ⟨.stmtList, .ext O.count⟩ :: (O.flat ++ (flatDoc D).flat)) := by
            rw [hc0f]
            rw [show pre ++ (⟨.subtree, .ext c0.count⟩ : Node Kind M) ::
                (⟨k, .tok s⟩ :: (fields.flat ++ [⟨.stmtList, .ext 0⟩])
                  ++ (O.flat ++ (flatDoc D).flat))
              = (pre ++ ⟨.subtree, .ext c0.count⟩ :: ⟨k, .tok s⟩ :: fields.flat) ++
                ⟨.stmtList, .ext 0⟩ :: (O.flat ++ (flatDoc D).flat) from by simp]
            rw [List.set_append_right _ _ (by simp; omega)]
            rw [show pre.length + 2 + fields.count + 1 - 1 - (pre ++ (⟨.subtree, .ext c0.count⟩ :
              Node Kind M) :: ⟨k, .tok s⟩ :: fields.flat).length = 0 from by simp; omega]
            simp
          rw [hset1]
          -- the tree node
          have hat2 := at_append pre (⟨k, .tok s⟩ :: (fields.flat ++
                  ⟨.stmtList, .ext O.count⟩ :: (O.flat ++ (flatDoc D).flat)))
                  ⟨.subtree, .ext c0.count⟩ pend
          simp only [hat2]
          have hx2 : ((pre.length + 2 + fields.count + 1 + O.count + 1
              - (pre.length + 1) : Nat) : Int) - 1 = ((fields.count + 2 + O.count : Nat) : Int) := by
            omega
          rw [show pre.length + 1 - 1 = pre.length from rfl] at *
          simp only [hx2, Node.extend, Node.isNonTerminal, if_true]
          rw [if_pos (by omega)]
          simp only []
          -- the new header forest
          let c1 : Forest Kind M := .leaf k (.tok s) (fields.append (.tree .stmtList O .nil))
          have hc1 : c1.count = fields.count + 2 + O.count := by
            simp only [c1, Forest.count, count_append]; omega
          have hc1f : c1.flat = ⟨k, .tok s⟩ :: (fields.flat ++ ⟨.stmtList, .ext O.count⟩ ::
              O.flat) := by
            simp [c1, Forest.flat]
          have hO' : NoInner .empty O := by
            rw [← hO]
            exact outline_noInner textLen _ _ (Nat.le_refl _)
              (fun j hj => hokr j ((List.takeWhile_sublist _).subset hj))
          have hc1n : NoInner .empty c1 := noInner_append ok5 ⟨by decide, hO', trivial⟩
          have hset2 : (pre ++ ⟨.subtree, .ext c0.count⟩ :: ⟨k, .tok s⟩ :: (fields.flat ++
                  ⟨.stmtList, .ext O.count⟩ :: (O.flat ++ (flatDoc D).flat))).set pre.length
                  ⟨.subtree, .ext ((fields.count + 2 + O.count : Nat) : Int)⟩
              = pre ++ ⟨.subtree, .ext c1.count⟩ :: (c1.flat ++ (flatDoc D).flat) := by
            rw [List.set_append_right _ _ (Nat.le_refl _), Nat.sub_self, hc1f, hc1]; simp
          rw [hset2]
          simp only [allSubs_inner]
          rw [if_pos (by omega)]
          simp only []
          have hval := validAux_tree pre (flatDoc D).flat pend .subtree c1 (by decide) hc1n
            (2 * (pre ++ ⟨.subtree, .ext c1.count⟩ :: (c1.flat ++ (flatDoc D).flat)).length + 2)
            (by simp; omega)
          simp only [hval]
          rw [if_pos (by simp; omega)]
          -- continue with the remaining items
          have hDlen : D.length ≤ n := by
            rw [← hD]; exact Nat.le_trans (dropWhile_length_le _ r) hr
          have hDok : ∀ j ∈ D, j.Ok textLen := by
            intro j hj; rw [← hD] at hj
            exact hokr j ((List.dropWhile_sublist _).subset hj)
          have hDcount : (flatDoc D).count ≤ (flatDoc r).count := by
            have := flatDoc_count_split (inSection textLen (textLen s)) r
            rw [hD] at this; omega
          have hcont := ih D hDlen hDok (pre ++ ⟨.subtree, .ext c1.count⟩ :: c1.flat) L fuel
            (by omega)
          have hlen2 : (pre ++ ⟨.subtree, .ext c1.count⟩ :: c1.flat).length
              = pre.length + 2 + fields.count + 1 + O.count := by simp [hc1]; omega
          rw [hlen2] at hcont
          simp only [List.append_assoc, List.cons_append] at hcont
          rw [hcont]
          -- compare with the outline
          have hsub : ∀ a : Item M, inSection textLen (textLen s) a = true →
              inSection textLen L a = true := by
            intro a ha
            cases a with
            | body f => rfl
            | head k' s' f' => simp only [inSection, decide_eq_true_eq] at ha ⊢; omega
          rw [List.takeWhile_cons_of_pos hin, List.dropWhile_cons_of_pos hin, outline,
            takeWhile_takeWhile_sub hsub, dropWhile_takeWhile_sub hsub, hO, hD]
          rw [show r.dropWhile (inSection textLen L) = D.dropWhile (inSection textLen L) from by
            rw [← hD, dropWhile_dropWhile_sub hsub]]
          simp only [headTree_count]
          have hh : (headTree k s fields O (outline textLen (D.takeWhile (inSection textLen L)))).flat
              = ⟨.subtree, .ext c1.count⟩ :: (c1.flat ++
                (outline textLen (D.takeWhile (inSection textLen L))).flat) := by
            simp [headTree, Forest.flat, c1]
          rw [hh]
          simp only [List.append_assoc, List.cons_append, Except.ok.injEq, Prod.mk.injEq, true_and]
          omega
        · have hin : ¬ inSection textLen L (Item.head k s fields : Item M) = true := by
            simp [inSection, hlev]
          rw [if_neg hlev, List.takeWhile_cons_of_neg hin, List.dropWhile_cons_of_neg hin]
          simp [outline, Forest.flat, Forest.count, flatDoc, headTree, c0]

end Verif.Outline
