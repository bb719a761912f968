import Verif.Comments.Spec
import Mathlib.Data.List.Forall2
import Mathlib.Tactic.Common

/-! # Lemmas about comments -/

namespace Verif.Comments

theorem find_some {p : List Char} : ∀ {l : List Char} {i : Nat}, find p l = some i → At p l i ∧ ∀ j < i, ¬ At p l j
  | [], i, h => by
    rw [find] at h
    split at h
    · rename_i hp
      cases h
      subst hp
      exact ⟨⟨Nat.le_refl _, List.nil_prefix⟩, by simp⟩
    · cases h
  | c :: s, i, h => by
    rw [find] at h
    split at h
    · rename_i hp
      cases h
      exact ⟨⟨Nat.zero_le _, List.isPrefixOf_iff_prefix.1 hp⟩, by simp⟩
    · rename_i hp
      obtain ⟨j, hj, rfl⟩ := Option.map_eq_some_iff.1 h
      obtain ⟨h1, h2⟩ := find_some hj
      refine ⟨⟨by simpa using h1.1, by simpa using h1.2⟩, ?_⟩
      intro k hk hat
      cases k with
      | zero => exact hp (List.isPrefixOf_iff_prefix.2 (by simpa using hat.2))
      | succ k => exact h2 k (by omega) ⟨by simpa using hat.1, by simpa using hat.2⟩

theorem find_none {p : List Char} : ∀ {l : List Char}, find p l = none → ∀ j, ¬ At p l j
  | [], h, j, hat => by
    rw [find] at h
    split at h
    · cases h
    · rename_i hp
      have := hat.2
      rw [List.drop_nil, List.prefix_nil] at this
      exact hp this
  | c :: s, h, j, hat => by
    rw [find] at h
    split at h
    · cases h
    · rename_i hp
      rw [Option.map_eq_none_iff] at h
      cases j with
      | zero => exact hp (List.isPrefixOf_iff_prefix.2 (by simpa using hat.2))
      | succ k => exact find_none h k ⟨by simpa using hat.1, by simpa using hat.2⟩

/-- What the best prefix so far is. -/
def Best (done : List (List Char)) (line : List Char) : Option (Nat × List Char) → Prop
  | none => ∀ q ∈ done, ∀ i, ¬ At q line i
  | some (i, p) => Mark done line i p

theorem search_best {line : List Char} : ∀ (ps done : List (List Char)) (b : Option (Nat × List Char)), Best done line b →
    Best (done ++ ps) line (search line b ps)
  | [], done, b, h => by simpa [search] using h
  | p :: ps, done, b, h => by
    have hsplit : done ++ p :: ps = (done ++ [p]) ++ ps := by simp
    rw [search, hsplit]
    cases hf : find p line with
    | none =>
      dsimp only
      refine search_best ps _ b ?_
      have hn := find_none hf
      cases b with
      | none =>
        intro q hq i
        rcases List.mem_append.1 hq with hq | hq
        · exact h q hq i
        · rw [List.mem_singleton.1 hq]
          exact hn i
      | some x =>
        obtain ⟨i, m⟩ := x
        obtain ⟨h1, l, r, h2, h3, h4⟩ := h
        refine ⟨?_, l, r ++ [p], by simp [h2], h3, h4⟩
        intro q hq j hj
        rcases List.mem_append.1 hq with hq | hq
        · exact h1 q hq j hj
        · rw [List.mem_singleton.1 hq]
          exact hn j
    | some pos =>
      obtain ⟨hs1, hs2⟩ := find_some hf
      cases b with
      | none =>
        dsimp only
        refine search_best ps _ _ ⟨?_, done, [], by simp, hs1, fun q hq => h q hq pos⟩
        intro q hq j hj
        rcases List.mem_append.1 hq with hq | hq
        · exact h q hq j
        · rw [List.mem_singleton.1 hq]
          exact hs2 j hj
      | some x =>
        obtain ⟨i, m⟩ := x
        obtain ⟨h1, l, r, h2, h3, h4⟩ := h
        dsimp only
        split
        · rename_i hlt
          refine search_best ps _ _ ⟨?_, done, [], by simp, hs1, fun q hq => h1 q hq pos hlt⟩
          intro q hq j hj
          rcases List.mem_append.1 hq with hq | hq
          · exact h1 q hq j (by omega)
          · rw [List.mem_singleton.1 hq]
            exact hs2 j hj
        · rename_i hge
          refine search_best ps _ _ ⟨?_, l, r ++ [p], by simp [h2], h3, h4⟩
          intro q hq j hj
          rcases List.mem_append.1 hq with hq | hq
          · exact h1 q hq j hj
          · rw [List.mem_singleton.1 hq]
            exact hs2 j (by omega)

theorem search_none {ps : List (List Char)} {l : List Char} (h : search l none ps = none) : ¬ Commented ps l := by
  have := search_best ps [] none (line := l) (by intro q hq; cases hq)
  rw [h, List.nil_append] at this
  rintro ⟨q, hq, i, hat⟩
  exact this q hq i hat

theorem search_some {ps : List (List Char)} {l : List Char} {i : Nat} {p : List Char} (h : search l none ps = some (i, p)) : Mark ps l i p := by
  have := search_best ps [] none (line := l) (by intro q hq; cases hq)
  rw [h, List.nil_append] at this
  exact this

theorem mark_commented {ps : List (List Char)} {l : List Char} {i : Nat} {p : List Char} (h : Mark ps l i p) : Commented ps l := by
  obtain ⟨_, a, b, rfl, h2, _⟩ := h
  exact ⟨p, by simp, i, h2⟩

/-- A line has one mark. -/
theorem mark_unique {ps : List (List Char)} {l : List Char} {i j : Nat} {p q : List Char} (h : Mark ps l i p) (h' : Mark ps l j q) : i = j ∧ p = q := by
  obtain ⟨h1, a, b, h2, h3, h4⟩ := h
  obtain ⟨k1, c, d, k2, k3, k4⟩ := h'
  have hij : i = j := by
    rcases Nat.lt_trichotomy i j with hlt | he | hgt
    · exact absurd h3 (k1 p (by rw [h2]; simp) i hlt)
    · exact he
    · exact absurd k3 (h1 q (by rw [k2]; simp) j hgt)
  subst hij
  refine ⟨rfl, ?_⟩
  rw [h2] at k2
  rcases List.append_eq_append_iff.1 k2 with ⟨e, rfl, he⟩ | ⟨e, rfl, he⟩
  · cases e with
    | nil => exact (List.cons.inj (by simpa using he)).1
    | cons x xs =>
      rw [List.cons_append] at he
      have := (List.cons.inj he).1
      subst this
      exact absurd h3 (k4 p (by simp))
  · cases e with
    | nil => exact ((List.cons.inj (by simpa using he)).1).symm
    | cons x xs =>
      rw [List.cons_append] at he
      have := (List.cons.inj he).1
      subst this
      exact absurd k3 (h4 q (by simp))

/-! ## Lines -/

theorem getLines_nil : getLines [] = [] := by rw [getLines]

theorem getLines_end (l s : List Char) (h : '\n' ∉ l) : getLines (l ++ '\n' :: s) = l :: getLines s := by
  have h1 : ∀ x ∈ l, (decide (x ≠ '\n')) = true := by
    intro x hx
    rw [decide_eq_true_iff]
    rintro rfl
    exact h hx
  have h2 : (l ++ '\n' :: s).takeWhile (fun x => decide (x ≠ '\n')) = l := by
    rw [List.takeWhile_append_of_pos h1]
    simp
  have h3 : (l ++ '\n' :: s).dropWhile (fun x => decide (x ≠ '\n')) = '\n' :: s := by
    rw [List.dropWhile_append_of_pos h1]
    simp
  rw [getLines.eq_def]
  split
  · rename_i he
    cases l <;> cases he
  · rename_i he
    rw [← he, h2, h3]
    rfl

theorem take_all {α : Type} {f : α → Bool} : ∀ {l : List α}, (∀ x ∈ l, f x = true) → l.takeWhile f = l
  | [], _ => rfl
  | x :: l, h => by
    rw [List.takeWhile_cons_of_pos (h x (by simp)), take_all (fun y hy => h y (List.mem_cons_of_mem _ hy))]

theorem drop_all {α : Type} {f : α → Bool} : ∀ {l : List α}, (∀ x ∈ l, f x = true) → l.dropWhile f = []
  | [], _ => rfl
  | x :: l, h => by
    rw [List.dropWhile_cons_of_pos (h x (by simp)), drop_all (fun y hy => h y (List.mem_cons_of_mem _ hy))]

theorem getLines_last (l : List Char) (h : '\n' ∉ l) (hne : l ≠ []) : getLines l = [l] := by
  have h1 : ∀ x ∈ l, (decide (x ≠ '\n')) = true := by
    intro x hx
    rw [decide_eq_true_iff]
    rintro rfl
    exact h hx
  rw [getLines.eq_def]
  split
  · exact absurd rfl hne
  · rw [take_all h1, drop_all h1, List.drop_nil, getLines_nil]

theorem first_end : ∀ {s : List Char}, '\n' ∈ s → ∃ l r, s = l ++ '\n' :: r ∧ '\n' ∉ l
  | [], h => by cases h
  | c :: s, h => by
    by_cases hc : c = '\n'
    · subst hc
      exact ⟨[], s, rfl, by simp⟩
    · obtain ⟨l, r, rfl, hl⟩ := first_end ((List.mem_cons.1 h).resolve_left (Ne.symm hc))
      refine ⟨c :: l, r, rfl, ?_⟩
      simp only [List.mem_cons, not_or]
      exact ⟨Ne.symm hc, hl⟩

theorem getLines_spec (s : List Char) : IsLines s (getLines s) := by
  induction hn : s.length using Nat.strongRecOn generalizing s with
  | ind n ih =>
    subst hn
    by_cases hnl : '\n' ∈ s
    · obtain ⟨l, r, rfl, hl⟩ := first_end hnl
      rw [getLines_end l r hl]
      obtain ⟨h1, h2⟩ := ih r.length (by simp; omega) r rfl
      refine ⟨by simpa using ⟨hl, h1⟩, ?_⟩
      rcases h2 with h2 | ⟨init, e, h2, h3, h4⟩
      · left
        conv_lhs => rw [h2]
        simp
      · right
        refine ⟨l :: init, e, by rw [h2]; rfl, h3, ?_⟩
        conv_lhs => rw [h4]
        simp
    · by_cases he : s = []
      · subst he
        rw [getLines_nil]
        exact ⟨by simp, .inl rfl⟩
      · rw [getLines_last s hnl he]
        exact ⟨by simpa using hnl, .inr ⟨[], s, rfl, he, rfl⟩⟩

/-! ## Blocks -/

/-- A fragment before its text is cleaned, for the lines from `x.1` up to `x.2`. -/
def FragRaw (ps ls : List (List Char)) (x : Nat × Nat) (f : Frag) : Prop :=
  f.baseLine = x.1 ∧ (∃ l p, ls[x.1]? = some l ∧ Mark ps l f.baseCol p) ∧
    ∃ rs, List.Forall₂ (Raw ps) (part ls x.1 x.2) rs ∧ f.text = glue rs

/-- The state of the loop before line `i`. -/
structure Inv (ps ls : List (List Char)) (i : Nat) (ends : List (Nat × Nat)) (cur : Option Frag) : Prop where
  sorted : ends.Pairwise (fun x y => x.2 < y.1)
  mem : ∀ a b, (a, b) ∈ ends ↔ Block ps ls a b ∧ b < i
  none : cur = none → ∀ k, k + 1 = i → ∃ l, ls[k]? = some l ∧ ¬ Commented ps l
  some : ∀ f, cur = some f → ∃ a, a < i ∧ (∀ k, a ≤ k → k < i → ∃ l, ls[k]? = some l ∧ Commented ps l) ∧
    (∀ k, k + 1 = a → ∃ l, ls[k]? = some l ∧ ¬ Commented ps l) ∧ (∀ x ∈ ends, x.2 < a) ∧ FragRaw ps ls (a, i) f

theorem glue_snoc : ∀ (rs : List (List Char)) (r : List Char), rs ≠ [] → glue (rs ++ [r]) = glue rs ++ '\n' :: r
  | [], _, h => absurd rfl h
  | [a], r, _ => rfl
  | a :: b :: rs, r, _ => by
    have := glue_snoc (b :: rs) r (by simp)
    show a ++ '\n' :: glue ((b :: rs) ++ [r]) = _
    rw [this]
    simp [glue]

theorem part_snoc {ls : List (List Char)} {a i : Nat} {l : List Char} (hai : a ≤ i) (hl : ls[i]? = some l) : part ls a (i + 1) = part ls a i ++ [l] := by
  obtain ⟨hi, rfl⟩ := List.getElem?_eq_some_iff.1 hl
  rw [part, part, List.take_succ_eq_append_getElem hi, List.drop_append_of_le_length (by rw [List.length_take]; omega)]

theorem part_self (ls : List (List Char)) (a : Nat) : part ls a a = [] := by
  rw [part, List.drop_eq_nil_iff, List.length_take]
  omega

theorem part_length {ls : List (List Char)} {a b : Nat} (hb : b ≤ ls.length) : (part ls a b).length = b - a := by
  rw [part, List.length_drop, List.length_take, Nat.min_eq_left hb]

theorem forall_snoc {α β : Type} {R : α → β → Prop} : ∀ {l : List α} {m : List β} {x : α} {y : β}, List.Forall₂ R l m → R x y → List.Forall₂ R (l ++ [x]) (m ++ [y])
  | _, _, _, _, .nil, h => .cons h .nil
  | _, _, _, _, .cons h1 h2, h => .cons h1 (forall_snoc h2 h)

theorem block_start {ps ls : List (List Char)} {a i a' : Nat} (hai : a < i) (hall : ∀ k, a ≤ k → k < i → ∃ l, ls[k]? = some l ∧ Commented ps l)
    (hb : ∀ k, k + 1 = a → ∃ l, ls[k]? = some l ∧ ¬ Commented ps l) (h : Block ps ls a' i) : a' = a := by
  rcases Nat.lt_trichotomy a' a with hlt | he | hgt
  · obtain ⟨l, h1, h2⟩ := hb (a - 1) (by omega)
    obtain ⟨l', h3, h4⟩ := h.all (a - 1) (by omega) (by omega)
    rw [h1] at h3
    cases h3
    exact absurd h4 h2
  · exact he
  · have := h.lt
    obtain ⟨l, h1, h2⟩ := h.before (a' - 1) (by omega)
    obtain ⟨l', h3, h4⟩ := hall (a' - 1) (by omega) (by omega)
    rw [h1] at h3
    cases h3
    exact absurd h4 h2

theorem close_mem {ps ls : List (List Char)} {a i : Nat} {ends : List (Nat × Nat)} (hmem : ∀ a b, (a, b) ∈ ends ↔ Block ps ls a b ∧ b < i)
    (hai : a < i) (hall : ∀ k, a ≤ k → k < i → ∃ l, ls[k]? = some l ∧ Commented ps l)
    (hb : ∀ k, k + 1 = a → ∃ l, ls[k]? = some l ∧ ¬ Commented ps l) (hle : i ≤ ls.length)
    (ha : i < ls.length → ∃ l, ls[i]? = some l ∧ ¬ Commented ps l) :
    ∀ a' b', (a', b') ∈ ends ++ [(a, i)] ↔ Block ps ls a' b' ∧ b' < i + 1 := by
  intro a' b'
  rw [List.mem_append, hmem, List.mem_singleton, Prod.mk.injEq]
  constructor
  · rintro (⟨h1, h2⟩ | ⟨rfl, rfl⟩)
    · exact ⟨h1, by omega⟩
    · exact ⟨⟨hai, hle, hall, hb, ha⟩, by omega⟩
  · rintro ⟨h1, h2⟩
    by_cases hbi : b' < i
    · exact .inl ⟨h1, hbi⟩
    · have : b' = i := by omega
      subst this
      exact .inr ⟨block_start hai hall hb h1, rfl⟩

theorem close_sorted {ends : List (Nat × Nat)} {a i : Nat} (hs : ends.Pairwise (fun x y => x.2 < y.1)) (h : ∀ x ∈ ends, x.2 < a) :
    (ends ++ [(a, i)]).Pairwise (fun x y => x.2 < y.1) := by
  rw [List.pairwise_append]
  refine ⟨hs, by simp, ?_⟩
  intro x hx y hy
  rw [List.mem_singleton.1 hy]
  exact h x hx

theorem collect_ok {ps all : List (List Char)} : ∀ (ls : List (List Char)) (i : Nat) (fs : List Frag) (cur : Option Frag) (ends : List (Nat × Nat)),
    i ≤ all.length → all.drop i = ls → Inv ps all i ends cur → List.Forall₂ (FragRaw ps all) ends fs →
    ∃ ends', ends'.Pairwise (fun x y => x.2 < y.1) ∧ (∀ a b, (a, b) ∈ ends' ↔ Block ps all a b) ∧ List.Forall₂ (FragRaw ps all) ends' (collect ps i fs cur ls)
  | [], i, fs, cur, ends, hle, hd, hi, hf => by
    have hlen : i = all.length := by
      have := congrArg List.length hd
      simp only [List.length_drop, List.length_nil] at this
      omega
    cases cur with
    | none =>
      rw [collect]
      refine ⟨ends, hi.sorted, ?_, hf⟩
      intro a b
      rw [hi.mem]
      constructor
      · exact fun h => h.1
      · intro h
        refine ⟨h, ?_⟩
        rcases Nat.lt_or_eq_of_le h.le with hlt | he
        · omega
        · have := h.lt
          obtain ⟨l, h1, h2⟩ := hi.none rfl (i - 1) (by omega)
          obtain ⟨l', h3, h4⟩ := h.all (i - 1) (by omega) (by omega)
          rw [h1] at h3
          cases h3
          exact absurd h4 h2
    | some f =>
      rw [collect]
      obtain ⟨a, h1, h2, h3, h4, h5⟩ := hi.some f rfl
      refine ⟨ends ++ [(a, i)], close_sorted hi.sorted h4, ?_, forall_snoc hf h5⟩
      intro a' b'
      rw [close_mem hi.mem h1 h2 h3 hle (by omega)]
      constructor
      · exact fun h => h.1
      · intro h
        have := h.le
        exact ⟨h, by omega⟩
  | l :: ls, i, fs, cur, ends, hle, hd, hi, hf => by
    have hl : all[i]? = some l := by
      have := congrArg (fun x => x[0]?) hd
      simpa using this
    have hlt : i < all.length := by
      obtain ⟨h, _⟩ := List.getElem?_eq_some_iff.1 hl
      exact h
    have hd' : all.drop (i + 1) = ls := by
      rw [← List.drop_drop, hd]
      rfl
    rw [collect.eq_def]
    dsimp only
    cases hs : search l none ps with
    | some x =>
      obtain ⟨pos, p⟩ := x
      have hm := search_some hs
      have hc := mark_commented hm
      have hmem : ∀ a b, (a, b) ∈ ends ↔ Block ps all a b ∧ b < i + 1 := by
        intro a b
        rw [hi.mem]
        constructor
        · exact fun h => ⟨h.1, by omega⟩
        · rintro ⟨h1, h2⟩
          refine ⟨h1, ?_⟩
          by_contra hge
          have : b = i := by omega
          subst this
          obtain ⟨l', h3, h4⟩ := h1.after hlt
          rw [hl] at h3
          cases h3
          exact h4 hc
      cases cur with
      | none =>
        dsimp only
        refine collect_ok ls (i + 1) fs (some ⟨i, pos, l.drop (pos + p.length)⟩) ends hlt hd' ⟨hi.sorted, hmem, by simp, ?_⟩ hf
        intro f hfe
        cases hfe
        refine ⟨i, by omega, ?_, ?_, ?_, rfl, ⟨l, p, hl, hm⟩, [l.drop (pos + p.length)], ?_, rfl⟩
        · intro k h1 h2
          have : k = i := by omega
          subst this
          exact ⟨l, hl, hc⟩
        · exact hi.none rfl
        · rintro ⟨a, b⟩ hx
          exact ((hi.mem a b).1 hx).2
        · show List.Forall₂ (Raw ps) (part all i (i + 1)) _
          rw [part_snoc (Nat.le_refl _) hl, part_self]
          exact .cons ⟨pos, p, hm, rfl⟩ .nil
      | some f =>
        dsimp only
        obtain ⟨a, h1, h2, h3, h4, h5, h6, rs, h7, h8⟩ := hi.some f rfl
        refine collect_ok ls (i + 1) fs (some { f with text := f.text ++ '\n' :: l.drop (pos + p.length) }) ends hlt hd' ⟨hi.sorted, hmem, by simp, ?_⟩ hf
        intro f' hfe
        cases hfe
        refine ⟨a, by omega, ?_, h3, h4, h5, h6, rs ++ [l.drop (pos + p.length)], ?_, ?_⟩
        · intro k k1 k2
          by_cases hk : k < i
          · exact h2 k k1 hk
          · have : k = i := by omega
            subst this
            exact ⟨l, hl, hc⟩
        · show List.Forall₂ (Raw ps) (part all a (i + 1)) _
          rw [part_snoc (Nat.le_of_lt h1) hl]
          exact forall_snoc h7 ⟨pos, p, hm, rfl⟩
        · rw [glue_snoc _ _ ?_]
          · rw [h8]
          · rintro rfl
            have h9 := h7.length_eq
            simp only [List.length_nil] at h9
            rw [part_length hle] at h9
            omega
    | none =>
      have hc := search_none hs
      cases cur with
      | none =>
        dsimp only
        refine collect_ok ls (i + 1) fs none ends hlt hd' ⟨hi.sorted, ?_, ?_, by simp⟩ hf
        · intro a b
          rw [hi.mem]
          constructor
          · exact fun h => ⟨h.1, by omega⟩
          · rintro ⟨h1, h2⟩
            refine ⟨h1, ?_⟩
            by_contra hge
            have : b = i := by omega
            subst this
            have := h1.lt
            obtain ⟨l1, h3, h4⟩ := hi.none rfl (b - 1) (by omega)
            obtain ⟨l2, h5, h6⟩ := h1.all (b - 1) (by omega) (by omega)
            rw [h3] at h5
            cases h5
            exact h4 h6
        · intro _ k hk
          have : k = i := by omega
          subst this
          exact ⟨l, hl, hc⟩
      | some f =>
        dsimp only
        obtain ⟨a, h1, h2, h3, h4, h5⟩ := hi.some f rfl
        refine collect_ok ls (i + 1) (fs ++ [f]) none (ends ++ [(a, i)]) hlt hd' ⟨close_sorted hi.sorted h4,
          close_mem hi.mem h1 h2 h3 hle (fun _ => ⟨l, hl, hc⟩), ?_, by simp⟩ (forall_snoc hf h5)
        intro _ k hk
        have : k = i := by omega
        subst this
        exact ⟨l, hl, hc⟩

theorem collect_blocks (ps ls : List (List Char)) : ∃ ends, ends.Pairwise (fun x y => x.2 < y.1) ∧ (∀ a b, (a, b) ∈ ends ↔ Block ps ls a b) ∧
    List.Forall₂ (FragRaw ps ls) ends (collect ps 0 [] none ls) :=
  collect_ok ls 0 [] none [] (Nat.zero_le _) rfl ⟨.nil, by simp, by omega, by simp⟩ .nil

/-! ## Texts -/

theorem lines_glue : ∀ {rs : List (List Char)}, (∀ r ∈ rs, '\n' ∉ r) → rs.getLast? ≠ some [] → getLines (glue rs) = rs
  | [], _, _ => getLines_nil
  | [a], h, hl => getLines_last a (h a (by simp)) (by
      rintro rfl
      simp at hl)
  | a :: b :: rs, h, hl => by
    show getLines (a ++ '\n' :: glue (b :: rs)) = _
    rw [getLines_end a _ (h a (by simp)), lines_glue (fun r hr => h r (List.mem_cons_of_mem _ hr)) (by simpa using hl)]

/-- An empty line at the end is lost. -/
theorem lines_glue_empty : ∀ {rs : List (List Char)}, (∀ r ∈ rs, '\n' ∉ r) → getLines (glue (rs ++ [[]])) = rs
  | [], _ => getLines_nil
  | [a], h => by
    show getLines (a ++ '\n' :: []) = _
    rw [getLines_end a _ (h a (by simp)), getLines_nil]
  | a :: b :: rs, h => by
    show getLines (a ++ '\n' :: glue ((b :: rs) ++ [[]])) = _
    rw [getLines_end a _ (h a (by simp)), lines_glue_empty (fun r hr => h r (List.mem_cons_of_mem _ hr))]

theorem firstText_some : ∀ {l : List Char} {i : Nat}, firstText l = some i → ∀ c ∈ l.take i, c = ' ' ∨ c = '\t'
  | [], _, h => by cases h
  | c :: s, i, h => by
    rw [firstText] at h
    split at h
    · rename_i hc
      obtain ⟨j, hj, rfl⟩ := Option.map_eq_some_iff.1 h
      intro x hx
      rw [List.take_succ_cons, List.mem_cons] at hx
      rcases hx with rfl | hx
      · exact hc
      · exact firstText_some hj x hx
    · cases h
      simp

theorem unprefix_same {line : List Char} : ∀ {ps : List (List Char)}, ¬ Starts ps line → unprefix line ps = line
  | [], _ => rfl
  | p :: ps, h => by
    have ih : unprefix line ps = line := unprefix_same (fun ⟨q, hq, x⟩ => h ⟨q, List.mem_cons_of_mem _ hq, x⟩)
    rw [unprefix]
    split
    · rename_i pos hf
      split
      · rename_i hp
        obtain ⟨⟨_, r, hr⟩, _⟩ := find_some hf
        refine absurd ⟨p, by simp, line.take pos, r, ?_, firstText_some hp.symm⟩ h
        rw [List.append_assoc, hr, List.take_append_drop]
      · exact ih
    · exact ih

theorem unspace_iff {r t : List Char} : LessSpace r t ↔ unspace r = t := by
  constructor
  · rintro (rfl | ⟨rfl, h⟩)
    · rfl
    · unfold unspace
      split
      · exact absurd rfl (h _)
      · rfl
  · intro h
    unfold unspace at h
    split at h
    · subst h
      exact .inl rfl
    · rename_i hn
      subst h
      exact .inr ⟨rfl, fun u hu => hn u hu⟩

theorem clean_later {ps : List (List Char)} : ∀ {rs : List (List Char)}, (∀ r ∈ rs, ¬ Starts ps r) → cleanLines ps false rs = (rs.map fun r => '\n' :: unspace r).flatten
  | [], _ => rfl
  | r :: rs, h => by
    rw [cleanLines, unprefix_same (h r (by simp)), clean_later (fun x hx => h x (List.mem_cons_of_mem _ hx))]
    simp

theorem glue_map : ∀ {rs : List (List Char)} {r : List Char}, glue ((r :: rs).map unspace) = unspace r ++ (rs.map fun r => '\n' :: unspace r).flatten
  | [], r => by simp [glue]
  | a :: rs, r => by
    have := glue_map (rs := rs) (r := a)
    show unspace r ++ '\n' :: glue ((a :: rs).map unspace) = _
    rw [this]
    simp

theorem clean_first {ps : List (List Char)} {r : List Char} {rs : List (List Char)} (h : ∀ x ∈ rs, ¬ Starts ps x) :
    cleanLines ps true (r :: rs) = glue ((r :: rs).map unspace) := by
  rw [cleanLines, clean_later h, glue_map]

theorem raw_line {ps : List (List Char)} {l r : List Char} (h : Raw ps l r) (hl : '\n' ∉ l) : '\n' ∉ r := by
  obtain ⟨i, p, _, rfl⟩ := h
  exact fun hm => hl (List.mem_of_mem_drop hm)

end Verif.Comments
