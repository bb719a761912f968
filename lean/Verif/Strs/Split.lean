import Verif.Strs.Model
import Mathlib.Data.List.Infix
import Mathlib.Data.List.Basic

/-!
# Proofs about splitting and replacing (C13, C39)
-/

namespace Verif.Strs

theorem mem_takeWhile {α : Type} {p : α → Bool} {l : List α} {x : α} (h : x ∈ l.takeWhile p) : p x = true := by
  induction l with
  | nil => simp at h
  | cons a l ih =>
    rw [List.takeWhile_cons] at h
    split at h
    · rcases List.mem_cons.1 h with rfl | h
      · assumption
      · exact ih h
    · simp at h

/-- The pieces of a string between occurrences of `pat`, going from left to right: cut at
the first occurrence, continue after it. -/
inductive Pieces (pat : Bytes) : Bytes → List Bytes → Prop where
  | last {s : Bytes} (h : ¬ pat <:+: s) : Pieces pat s [s]
  | cut {p rest : Bytes} {ps : List Bytes} (first : ∀ q < p.length, ¬ pat <+: (p ++ pat ++ rest).drop q)
      (h : Pieces pat rest ps) : Pieces pat (p ++ pat ++ rest) (p :: ps)

theorem findFirst_none {pat s : Bytes} (h : findFirst pat s = none) : ¬ pat <:+: s := by
  induction s with
  | nil =>
    unfold findFirst at h
    split at h
    · cases h
    · rename_i hp
      intro hi
      apply hp
      rw [List.isPrefixOf_iff_prefix]
      rw [List.infix_nil.1 hi]
  | cons c s ih =>
    unfold findFirst at h
    split at h
    · cases h
    · rename_i hp
      intro hi
      rcases List.infix_cons_iff.1 hi with h' | h'
      · exact hp (List.isPrefixOf_iff_prefix.2 h')
      · cases hf : findFirst pat s with
        | none => exact ih hf h'
        | some k => rw [hf] at h; simp at h

theorem findFirst_some {pat s : Bytes} {p : Nat} (h : findFirst pat s = some p) :
    ∃ a rest, s = a ++ pat ++ rest ∧ a.length = p ∧ ∀ q < p, ¬ pat <+: s.drop q := by
  induction s generalizing p with
  | nil =>
    unfold findFirst at h
    split at h
    · rename_i hp
      injection h with h
      subst h
      have := List.isPrefixOf_iff_prefix.1 hp
      obtain ⟨t, ht⟩ := this
      exact ⟨[], t, by simpa using ht.symm, rfl, by omega⟩
    · cases h
  | cons c s ih =>
    unfold findFirst at h
    split at h
    · rename_i hp
      injection h with h
      subst h
      have := List.isPrefixOf_iff_prefix.1 hp
      obtain ⟨t, ht⟩ := this
      exact ⟨[], t, by simpa using ht.symm, rfl, by omega⟩
    · rename_i hp
      cases hf : findFirst pat s with
      | none => rw [hf] at h; simp at h
      | some k =>
        rw [hf] at h
        simp only [Option.map_some, Option.some.injEq] at h
        subst h
        obtain ⟨a, rest, h1, h2, h3⟩ := ih hf
        refine ⟨c :: a, rest, by rw [h1]; simp, by simp [h2], ?_⟩
        intro q hq
        cases q with
        | zero =>
          rw [List.drop_zero]
          intro hpp
          exact hp (List.isPrefixOf_iff_prefix.2 hpp)
        | succ q =>
          rw [List.drop_succ_cons]
          exact h3 q (by omega)

theorem Pieces.join {pat s : Bytes} {ps : List Bytes} (h : Pieces pat s ps) : join pat ps = s := by
  induction h with
  | last h => rfl
  | cut first h ih =>
    cases h with
    | last h => rfl
    | cut f h => rw [Verif.Strs.join, ih]

theorem Pieces.ne_nil {pat s : Bytes} {ps : List Bytes} (h : Pieces pat s ps) : ps ≠ [] := by
  cases h <;> simp

theorem Pieces.not_infix {pat s : Bytes} {ps : List Bytes} (hp : pat ≠ []) (h : Pieces pat s ps) :
    ∀ p ∈ ps, ¬ pat <:+: p := by
  induction h with
  | last h => intro p hp; simp only [List.mem_singleton] at hp; subst hp; exact h
  | @cut p rest ps first h ih =>
    intro p' hp'
    rcases List.mem_cons.1 hp' with rfl | h'
    · rintro ⟨a, b, hab⟩
      apply first a.length
      · rw [← hab]
        have : 0 < pat.length := List.length_pos_iff.2 hp
        simp only [List.length_append]
        omega
      · refine ⟨b ++ pat ++ rest, ?_⟩
        rw [← hab]
        simp [List.append_assoc]
    · exact ih p' h'

/-- There is one way to cut. -/
theorem Pieces.unique {pat s : Bytes} {ps qs : List Bytes} (h : Pieces pat s ps) (h' : Pieces pat s qs) : ps = qs := by
  induction h generalizing qs with
  | last h =>
    cases h' with
    | last _ => rfl
    | @cut p rest ps first h'' => exact absurd ⟨p, rest, rfl⟩ h
  | @cut p rest ps first h ih =>
    generalize hs : p ++ pat ++ rest = s at h'
    cases h' with
    | last hn => exact absurd ⟨p, rest, hs⟩ hn
    | @cut p' rest' qs first' h'' =>
      have hlen : p.length = p'.length := by
        rcases Nat.lt_trichotomy p.length p'.length with hl | hl | hl
        · exfalso
          apply first' p.length hl
          rw [← hs, List.append_assoc, List.drop_left]
          exact ⟨rest, rfl⟩
        · exact hl
        · exfalso
          apply first p'.length hl
          rw [hs, List.append_assoc, List.drop_left]
          exact ⟨rest', rfl⟩
      rw [List.append_assoc, List.append_assoc] at hs
      obtain ⟨h1, h2⟩ := List.append_inj hs hlen
      have h3 := List.append_cancel_left h2
      subst h1 h3
      rw [ih h'']

theorem find_drop {s pat : Bytes} {start : Nat} (h : start ≤ s.length) :
    find s pat start = (findFirst pat (s.drop start)).map (· + start) := by
  unfold find; rw [if_pos h]

theorem splitStrLoop_spec (value delim : Bytes) (hd : delim ≠ []) :
    ∀ (k start : Nat), start ≤ value.length → value.length - start < k →
      ∃ ps, Pieces delim (value.drop start) ps ∧ ∀ fuel acc, k ≤ fuel →
        splitStrLoop value delim fuel start (find value delim start) acc = .ok (acc ++ ps) := by
  intro k
  induction k with
  | zero => intro start h1 h2; omega
  | succ k ih =>
    intro start h1 h2
    rw [find_drop h1]
    cases hf : findFirst delim (value.drop start) with
    | none =>
      refine ⟨[value.drop start], .last (findFirst_none hf), ?_⟩
      intro fuel acc hfuel
      have e : (value.drop start).take value.length = value.drop start := by
        apply List.take_of_length_le; simp
      simp only [Option.map_none]
      unfold splitStrLoop
      simp only [substr, if_pos h1, e, bind, Except.bind]
    | some p =>
      obtain ⟨a, rest, h3, h4, h5⟩ := findFirst_some hf
      have hdl : 0 < delim.length := List.length_pos_iff.2 hd
      have hlen : (value.drop start).length = value.length - start := by simp
      rw [h3] at hlen
      simp only [List.length_append] at hlen
      obtain ⟨ps, h6, h7⟩ := ih (p + start + delim.length) (by omega) (by omega)
      have hrest : value.drop (p + start + delim.length) = rest := by
        have : value.drop (p + start + delim.length) = (value.drop start).drop (p + delim.length) := by
          rw [List.drop_drop]; congr 1; omega
        rw [this, h3, ← h4, ← List.length_append, List.drop_left]
      rw [hrest] at h6
      refine ⟨a :: ps, ?_, ?_⟩
      · rw [h3]
        exact .cut (by rw [h4, ← h3]; exact h5) h6
      · intro fuel acc hfuel
        obtain ⟨f, rfl⟩ : ∃ f, fuel = f + 1 := ⟨fuel - 1, by omega⟩
        have e : (value.drop start).take (p + start - start) = a := by
          rw [h3, Nat.add_sub_cancel, ← h4, List.append_assoc, List.take_left]
        simp only [Option.map_some]
        unfold splitStrLoop
        simp only [substr, if_pos h1, e, bind, Except.bind]
        rw [h7 f _ (by omega)]
        simp

theorem replaceLoop_spec (pat rep : Bytes) (hp : pat ≠ []) :
    ∀ (k : Nat) (done rest : Bytes), rest.length < k →
      ∃ ps, Pieces pat rest ps ∧ ∀ fuel, k ≤ fuel →
        replaceLoop pat rep fuel done.length (done ++ rest) = .ok (done ++ join rep ps) := by
  intro k
  induction k with
  | zero => intro done rest h; omega
  | succ k ih =>
    intro done rest hk
    have hfind : find (done ++ rest) pat done.length = (findFirst pat rest).map (· + done.length) := by
      rw [find_drop (by simp), List.drop_left]
    cases hf : findFirst pat rest with
    | none =>
      refine ⟨[rest], .last (findFirst_none hf), ?_⟩
      intro fuel _
      unfold replaceLoop
      rw [hfind, hf]
      rfl
    | some p =>
      obtain ⟨a, r, h3, h4, h5⟩ := findFirst_some hf
      have hdl : 0 < pat.length := List.length_pos_iff.2 hp
      have hrl : r.length < k := by
        rw [h3] at hk
        simp only [List.length_append] at hk
        omega
      obtain ⟨ps, h6, h7⟩ := ih (done ++ a ++ rep) r hrl
      refine ⟨a :: ps, ?_, ?_⟩
      · rw [h3]
        exact .cut (by rw [h4, ← h3]; exact h5) h6
      · intro fuel hfuel
        obtain ⟨f, rfl⟩ : ∃ f, fuel = f + 1 := ⟨fuel - 1, by omega⟩
        unfold replaceLoop
        rw [hfind, hf]
        simp only [Option.map_some]
        have e1 : (done ++ rest).take (p + done.length) = done ++ a := by
          rw [h3, ← h4, Nat.add_comm, ← List.length_append, ← List.append_assoc, ← List.append_assoc,
            List.append_assoc (done ++ a), List.take_left]
        have e2 : (done ++ rest).drop (p + done.length + pat.length) = r := by
          have : p + done.length + pat.length = (done ++ a ++ pat).length := by simp [h4]; omega
          rw [this, h3, ← List.append_assoc, ← List.append_assoc, List.drop_left]
        rw [e1, e2]
        have e3 : p + done.length + rep.length = (done ++ a ++ rep).length := by simp [h4]; omega
        rw [e3, h7 f (by omega)]
        obtain ⟨q, qs, rfl⟩ := List.exists_cons_of_ne_nil h6.ne_nil
        simp [join]

theorem findFirst_empty (s : Bytes) : findFirst [] s = some 0 := by
  cases s <;> simp [findFirst]

/-- With an empty delimiter the loop never ends. -/
theorem splitStrLoop_diverges (value : Bytes) : ∀ (fuel start : Nat) (acc : List Bytes), start ≤ value.length →
    splitStrLoop value [] fuel start (find value [] start) acc = .error .diverges := by
  intro fuel
  induction fuel with
  | zero =>
    intro start acc h
    rw [find_drop h, findFirst_empty]
    rfl
  | succ fuel ih =>
    intro start acc h
    have h' : (find value [] start) = some start := by rw [find_drop h, findFirst_empty]; simp
    rw [h']
    unfold splitStrLoop
    simp only [substr, if_pos h, bind, Except.bind, List.length_nil, Nat.add_zero]
    exact ih start _ h

/-- With an empty pattern the loop never ends. -/
theorem replaceLoop_diverges (rep : Bytes) : ∀ (fuel pos : Nat) (s : Bytes), pos ≤ s.length →
    replaceLoop [] rep fuel pos s = .error .diverges := by
  intro fuel
  induction fuel with
  | zero =>
    intro pos s h
    unfold replaceLoop
    rw [find_drop h, findFirst_empty]
    rfl
  | succ fuel ih =>
    intro pos s h
    unfold replaceLoop
    rw [find_drop h, findFirst_empty]
    simp only [Option.map_some, Nat.zero_add, List.length_nil, Nat.add_zero]
    apply ih
    simp only [List.length_append, List.length_take, List.length_drop]
    omega

/-! ## Splitting at a character -/

theorem splitChar_ne_nil {ch : UInt8} {s : Bytes} (h : s ≠ []) : splitChar ch s ≠ [] := by
  obtain ⟨c, s, rfl⟩ := List.exists_cons_of_ne_nil h
  rw [splitChar]
  simp

theorem splitChar_eq_nil {ch : UInt8} {s : Bytes} : splitChar ch s = [] ↔ s = [] := by
  constructor
  · intro h
    by_contra hs
    exact splitChar_ne_nil hs h
  · rintro rfl; rw [splitChar]

theorem getline_eq (ch : UInt8) (s : Bytes) :
    (s = (getline ch s).1 ∧ (getline ch s).2 = [] ∧ ch ∉ s) ∨
    s = (getline ch s).1 ++ [ch] ++ (getline ch s).2 := by
  unfold getline
  cases h : s.dropWhile (fun x => decide (x ≠ ch)) with
  | nil =>
    left
    have h1 := List.takeWhile_append_dropWhile (p := fun x => decide (x ≠ ch)) (l := s)
    rw [h, List.append_nil] at h1
    refine ⟨h1.symm, rfl, ?_⟩
    intro hc
    rw [← h1] at hc
    have := mem_takeWhile hc
    simp at this
  | cons c r =>
    right
    have h1 := List.takeWhile_append_dropWhile (p := fun x => decide (x ≠ ch)) (l := s)
    rw [h] at h1
    have h2 : c = ch := by
      have := List.head_dropWhile_not (fun x => decide (x ≠ ch)) (l := s) (by rw [h]; simp)
      simp only [h, List.head_cons] at this
      simpa using this
    subst h2
    dsimp only
    rw [List.drop_one, List.tail_cons, List.append_assoc]
    exact h1.symm

theorem splitChar_spec (ch : UInt8) (s : Bytes) :
    (∀ p ∈ splitChar ch s, ch ∉ p) ∧
    s = join [ch] (splitChar ch s) ++ (if s.getLast? = some ch then [ch] else []) := by
  fun_induction splitChar ch s
  case case1 => simp [join]
  case case2 c s ih =>
    generalize hs : c :: s = t at *
    have hno : ch ∉ (getline ch t).1 := by
      intro h
      have := mem_takeWhile h
      simp at this
    refine ⟨?_, ?_⟩
    · intro p hp
      rcases List.mem_cons.1 hp with rfl | h
      · exact hno
      · exact ih.1 p h
    · rcases getline_eq ch t with ⟨h1, h2, h3⟩ | h1
      · rw [h2, splitChar]
        have : t.getLast? ≠ some ch := by
          intro h
          exact h3 (List.mem_of_getLast? h)
        rw [if_neg this, join, List.append_nil]
        exact h1
      · cases hr : (getline ch t).2 with
        | nil =>
          rw [splitChar, join]
          rw [hr, List.append_nil] at h1
          have : t.getLast? = some ch := by rw [h1]; simp
          rw [if_pos this]
          exact h1
        | cons d r =>
          have ih2 := ih.2
          rw [hr] at h1 ih2
          obtain ⟨q, qs, hq⟩ := List.exists_cons_of_ne_nil (splitChar_ne_nil (ch := ch) (s := d :: r) (by simp))
          have hl : t.getLast? = (d :: r).getLast? := by
            rw [h1, List.getLast?_append_of_ne_nil _ (by simp)]
          rw [hl]
          conv_lhs => rw [h1, ih2]
          rw [hq, join]
          simp only [List.append_assoc]

/-! ## Keeping separators -/

/-- A piece of `split_keep_separator`: a run of one separator, or text without separators. -/
def KeptPiece (sep : UInt8 → Bool) (p : Bytes) : Prop :=
  p ≠ [] ∧ ((∃ c, sep c = true ∧ ∀ x ∈ p, x = c) ∨ ∀ x ∈ p, sep x = false)

/-- Neighbouring pieces cannot be merged: one of them is a run of separators, and they
have no character in common. -/
def Apart (sep : UInt8 → Bool) (p q : Bytes) : Prop :=
  ∀ c ∈ p, ∀ d ∈ q, c ≠ d ∧ (sep c = true ∨ sep d = true)

theorem splitKeep_flatten (sep : UInt8 → Bool) (cur s : Bytes) : (splitKeep sep cur s).flatten = cur ++ s := by
  fun_induction splitKeep sep cur s
  case case1 cur => unfold pushPiece; split <;> simp_all
  case case2 cur c s h ih =>
    have h1 := List.takeWhile_append_dropWhile (p := fun x => decide (x = c)) (l := s)
    unfold pushPiece
    split
    · rename_i hc
      subst hc
      rw [List.flatten_cons, ih]
      simp [h1]
    · rw [List.flatten_cons, List.flatten_cons, ih]
      simp [h1]
  case case3 cur c s h ih => rw [ih]; simp

theorem splitKeep_pieces (sep : UInt8 → Bool) (cur s : Bytes) (hcur : ∀ x ∈ cur, sep x = false) :
    ∀ p ∈ splitKeep sep cur s, KeptPiece sep p := by
  fun_induction splitKeep sep cur s
  case case1 cur =>
    intro p hp
    unfold pushPiece at hp
    split at hp
    · simp at hp
    · simp only [List.mem_singleton] at hp
      subst hp
      exact ⟨by assumption, Or.inr hcur⟩
  case case2 cur c s h ih =>
    intro p hp
    have key : ∀ p ∈ (c :: s.takeWhile (· = c)) :: splitKeep sep [] (s.dropWhile (· = c)), KeptPiece sep p := by
      intro p hp
      rcases List.mem_cons.1 hp with rfl | h'
      · refine ⟨by simp, Or.inl ⟨c, h, ?_⟩⟩
        intro x hx
        rcases List.mem_cons.1 hx with rfl | hx
        · rfl
        · simpa using mem_takeWhile hx
      · exact ih (by simp) p h'
    unfold pushPiece at hp
    split at hp
    · exact key p hp
    · rcases List.mem_cons.1 hp with rfl | h'
      · exact ⟨by assumption, Or.inr hcur⟩
      · exact key p h'
  case case3 cur c s h ih =>
    apply ih
    intro x hx
    rcases List.mem_append.1 hx with h' | h'
    · exact hcur x h'
    · simp only [List.mem_singleton] at h'
      subst h'
      simpa using h

theorem splitKeep_head {sep : UInt8 → Bool} {cur s q : Bytes} {qs : List Bytes} (hcur : ∀ x ∈ cur, sep x = false)
    (h : splitKeep sep cur s = q :: qs) : ∃ d r t, cur ++ s = d :: r ∧ q = d :: t := by
  have h1 := splitKeep_flatten sep cur s
  have h2 := (splitKeep_pieces sep cur s hcur q (by rw [h]; simp)).1
  obtain ⟨d, t, rfl⟩ := List.exists_cons_of_ne_nil h2
  rw [h, List.flatten_cons, List.cons_append] at h1
  exact ⟨d, _, t, h1.symm, rfl⟩

theorem splitKeep_chain (sep : UInt8 → Bool) (cur s : Bytes) (hcur : ∀ x ∈ cur, sep x = false) :
    (splitKeep sep cur s).IsChain (Apart sep) := by
  fun_induction splitKeep sep cur s
  case case1 cur => unfold pushPiece; split <;> simp
  case case2 cur c s h ih =>
    have key : ((c :: s.takeWhile (· = c)) :: splitKeep sep [] (s.dropWhile (· = c))).IsChain (Apart sep) := by
      have ih := ih (by simp)
      cases hq : splitKeep sep [] (s.dropWhile (· = c)) with
      | nil => simp
      | cons q qs =>
        rw [hq] at ih
        refine List.isChain_cons_cons.2 ⟨?_, ih⟩
        obtain ⟨d, r, t, h1, h2⟩ := splitKeep_head (by simp) hq
        rw [List.nil_append] at h1
        have hdc : d ≠ c := by
          have := List.head_dropWhile_not (fun x => decide (x = c)) (l := s) (by rw [h1]; simp)
          simp only [h1, List.head_cons] at this
          simpa using this
        have hrun : ∀ x ∈ c :: s.takeWhile (· = c), x = c := by
          intro x hx
          rcases List.mem_cons.1 hx with rfl | hx
          · rfl
          · simpa using mem_takeWhile hx
        intro x hx y hy
        rw [hrun x hx]
        refine ⟨?_, Or.inl h⟩
        rcases (splitKeep_pieces sep [] (s.dropWhile (· = c)) (by simp) q (by rw [hq]; simp)).2 with ⟨e, he, h3⟩ | h3
        · rw [h3 y hy, ← h3 d (by rw [h2]; simp)]
          exact hdc.symm
        · intro e
          have := h3 y hy
          rw [← e, h] at this
          cases this
    unfold pushPiece
    split
    · exact key
    · refine List.isChain_cons_cons.2 ⟨?_, key⟩
      intro x hx y hy
      have hy' : y = c := by
        rcases List.mem_cons.1 hy with rfl | hx
        · rfl
        · simpa using mem_takeWhile hx
      rw [hy']
      refine ⟨?_, Or.inr h⟩
      intro e
      have := hcur x hx
      rw [e, h] at this
      cases this
  case case3 cur c s h ih =>
    apply ih
    intro x hx
    rcases List.mem_append.1 hx with h' | h'
    · exact hcur x h'
    · simp only [List.mem_singleton] at h'
      subst h'
      simpa using h

end Verif.Strs
