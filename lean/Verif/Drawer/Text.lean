import Verif.Drawer.Spec
import Mathlib.Tactic.Conv

/-!
# Splitting, stripping and numbers
-/

namespace Verif.Drawer

open Verif.BaseLexer

/-! ## `strip` -/

theorem dropWhile_head {p : Char → Bool} {s : Text} (h : ∀ c, s.head? = some c → p c = false) : s.dropWhile p = s := by
  cases s with
  | nil => rfl
  | cons a s => rw [List.dropWhile_cons, h a rfl]; rfl

theorem head_dropWhile {p : Char → Bool} {s : Text} {c : Char} (h : (s.dropWhile p).head? = some c) : p c = false := by
  induction s with
  | nil => cases h
  | cons a s ih =>
    rw [List.dropWhile_cons] at h
    split at h
    · exact ih h
    · rename_i ha
      cases h
      simpa using ha

theorem strip_same {s : Text} {l t : Char → Bool} (hl : ∀ c, s.head? = some c → l c = false)
    (ht : ∀ c, s.getLast? = some c → t c = false) : strip s l t = s := by
  unfold strip
  rw [dropWhile_head hl, dropWhile_head, List.reverse_reverse]
  intro c hc
  rw [List.head?_reverse] at hc
  exact ht c hc

theorem strip_cons {s : Text} {c : Char} {l t : Char → Bool} (h : l c = true) : strip (c :: s) l t = strip s l t := by
  unfold strip
  rw [List.dropWhile_cons, h]
  rfl

theorem strip_last {s : Text} {l t : Char → Bool} {c : Char} (h : (strip s l t).getLast? = some c) : t c = false := by
  unfold strip at h
  rw [List.getLast?_reverse] at h
  exact head_dropWhile h

theorem strip_sub {s : Text} {l t : Char → Bool} {c : Char} (h : c ∈ strip s l t) : c ∈ s := by
  unfold strip at h
  rw [List.mem_reverse] at h
  have := (List.dropWhile_sublist _).mem h
  rw [List.mem_reverse] at this
  exact (List.dropWhile_sublist _).mem this

theorem rev_dropWhile_prefix (s : Text) (t : Char → Bool) : (s.reverse.dropWhile t).reverse <+: s := by
  have := List.dropWhile_suffix t (l := s.reverse)
  have h2 := List.reverse_prefix.mpr this
  rwa [List.reverse_reverse] at h2

theorem strip_head {s : Text} {l t : Char → Bool} {c : Char} (h : (strip s l t).head? = some c) : l c = false := by
  obtain ⟨r, hr⟩ := rev_dropWhile_prefix (s.dropWhile l) t
  apply head_dropWhile (s := s)
  unfold strip at h
  rw [← hr]
  cases hq : (List.dropWhile t (List.dropWhile l s).reverse).reverse with
  | nil => rw [hq] at h; cases h
  | cons a q => rw [hq] at h; exact h

theorem Trimmed.stripSpace {v : Text} (h : Trimmed v) : stripSpace v = v := by
  apply strip_same
  · intro c hc
    by_cases he : c = ' '
    · exact absurd (he ▸ hc) h.2.1
    · simpa using he
  · intro c hc
    by_cases he : c = ' '
    · exact absurd (he ▸ hc) h.2.2
    · simpa using he

theorem stripSpace_cons (v : Text) : stripSpace (' ' :: v) = stripSpace v := strip_cons (by simp)

theorem stripSpace_trimmed {v : Text} (h : '\n' ∉ v) : Trimmed (stripSpace v) := by
  refine ⟨fun hm => h (strip_sub hm), fun hh => ?_, fun hh => ?_⟩
  · simpa using strip_head hh
  · simpa using strip_last hh

theorem stripSpace_nil : stripSpace [] = [] := rfl

/-! ## Splitting at a character -/

theorem consHead_ne (c : Char) (l : List Text) : consHead c l ≠ [] := by cases l <;> simp [consHead]

theorem splitChar_append {ch : Char} {a s : Text} (ha : ch ∉ a) : splitChar ch (a ++ ch :: s) = a :: splitChar ch s := by
  induction a with
  | nil => simp [splitChar]
  | cons c a ih =>
    have hc : c ≠ ch := fun h => ha (by rw [h]; exact List.mem_cons_self)
    rw [List.cons_append, splitChar, if_neg hc, ih (fun h => ha (List.mem_cons_of_mem _ h))]
    rfl

theorem splitChar_one {ch : Char} {a : Text} (ha : ch ∉ a) (hne : a ≠ []) : splitChar ch a = [a] := by
  induction a with
  | nil => exact absurd rfl hne
  | cons c a ih =>
    have hc : c ≠ ch := fun h => ha (by rw [h]; exact List.mem_cons_self)
    rw [splitChar, if_neg hc]
    cases a with
    | nil => rfl
    | cons b a => rw [ih (fun h => ha (List.mem_cons_of_mem _ h)) (by simp)]; rfl

theorem splitChar_join {ch : Char} {l : List Text} (h : ∀ w ∈ l, ch ∉ w) (hl : l.getLast? ≠ some []) :
    splitChar ch (join [ch] l) = l := by
  induction l with
  | nil => rfl
  | cons a l ih =>
    cases l with
    | nil => exact splitChar_one (h a List.mem_cons_self) (fun he => hl (by rw [join] at he; simp [he]))
    | cons b l =>
      rw [join, show a ++ [ch] ++ join [ch] (b :: l) = a ++ ch :: join [ch] (b :: l) by simp,
        splitChar_append (h a List.mem_cons_self), ih (fun w hw => h w (List.mem_cons_of_mem _ hw)) (by simpa using hl)]

theorem splitChar_mem {ch : Char} {s : Text} : ∀ w ∈ splitChar ch s, ch ∉ w ∧ ∀ c ∈ w, c ∈ s := by
  induction s with
  | nil => intro w hw; cases hw
  | cons a s ih =>
    intro w hw
    rw [splitChar] at hw
    split at hw
    · rcases List.mem_cons.mp hw with rfl | hw
      · simp
      · exact ⟨(ih w hw).1, fun c hc => List.mem_cons_of_mem _ ((ih w hw).2 c hc)⟩
    · rename_i ha
      cases hq : splitChar ch s with
      | nil =>
        rw [hq] at hw
        simp only [consHead, List.mem_singleton] at hw
        subst hw
        exact ⟨by simpa using Ne.symm ha, by simp⟩
      | cons b l =>
        rw [hq] at hw ih
        simp only [consHead] at hw
        rcases List.mem_cons.mp hw with rfl | hw
        · have := ih b List.mem_cons_self
          refine ⟨?_, ?_⟩
          · simp only [List.mem_cons, not_or]
            exact ⟨Ne.symm ha, this.1⟩
          · intro c hc
            rcases List.mem_cons.mp hc with rfl | hc
            · exact List.mem_cons_self
            · exact List.mem_cons_of_mem _ (this.2 c hc)
        · have := ih w (List.mem_cons_of_mem _ hw)
          exact ⟨this.1, fun c hc => List.mem_cons_of_mem _ (this.2 c hc)⟩

theorem splitChar_nil {ch : Char} {s : Text} : splitChar ch s = [] ↔ s = [] := by
  constructor
  · intro h
    cases s with
    | nil => rfl
    | cons a s =>
      rw [splitChar] at h
      split at h
      · cases h
      · exact absurd h (consHead_ne _ _)
  · rintro rfl; rfl

theorem splitChar_head {ch : Char} {s : Text} (h : s.head? ≠ some ch) : (splitChar ch s).head? ≠ some [] := by
  cases s with
  | nil => simp [splitChar]
  | cons a s =>
    rw [splitChar, if_neg (fun he => h (by simp [he]))]
    cases splitChar ch s <;> simp [consHead]

theorem splitChar_last {ch : Char} {s : Text} (h : s.getLast? ≠ some ch) : (splitChar ch s).getLast? ≠ some [] := by
  induction s with
  | nil => simp [splitChar]
  | cons a s ih =>
    rw [splitChar]
    cases s with
    | nil =>
      split
      · rename_i ha; exact absurd (by simp [ha]) h
      · simp [splitChar, consHead]
    | cons b s =>
      have hs : (b :: s).getLast? ≠ some ch := by simpa using h
      have := ih hs
      have hne : splitChar ch (b :: s) ≠ [] := fun h => by rw [splitChar_nil] at h; cases h
      split
      · cases hq : splitChar ch (b :: s) with
        | nil => exact absurd hq hne
        | cons x l => rw [hq] at this; simpa using this
      · cases hq : splitChar ch (b :: s) with
        | nil => exact absurd hq hne
        | cons x l =>
          rw [hq] at this
          cases l with
          | nil => simp [consHead]
          | cons y l => simpa [consHead] using this

theorem join_splitChar {ch : Char} {s : Text} (h : s.getLast? ≠ some ch) : join [ch] (splitChar ch s) = s := by
  induction s with
  | nil => rfl
  | cons a s ih =>
    rw [splitChar]
    cases s with
    | nil =>
      rw [if_neg (fun ha => h (by simp [ha]))]
      rfl
    | cons b s =>
      have hs : (b :: s).getLast? ≠ some ch := by simpa using h
      have ih := ih hs
      have hne : splitChar ch (b :: s) ≠ [] := fun h => by rw [splitChar_nil] at h; cases h
      cases hq : splitChar ch (b :: s) with
      | nil => exact absurd hq hne
      | cons x l =>
        rw [hq] at ih
        split
        · rename_i ha
          rw [join, ih, ha]; rfl
        · cases l with
          | nil => rw [consHead, join, ← ih, join]
          | cons y l => rw [consHead, join, ← ih, join]; rfl

/-! ## Splitting at a text -/

theorem splitStr_append {d : Text} {a s : Text} (hd : d ≠ []) (ha : ∀ x y, a = x ++ y → y ≠ [] → ¬ d <+: y ++ d ++ s) :
    splitStr d (a ++ d ++ s) = a :: splitStr d s := by
  unfold splitStr
  have hpass : ∀ (k : Nat) (q : Text), q.length = k → splitStrFrom d k (q ++ s) = splitStrFrom d 0 s := by
    intro k
    induction k with
    | zero => intro q hq; rw [List.length_eq_zero_iff.mp hq]; rfl
    | succ k ih =>
      intro q hq
      cases q with
      | nil => simp at hq
      | cons c q =>
        rw [List.cons_append, splitStrFrom, ih q (by simpa using hq)]
  induction a with
  | nil =>
    cases d with
    | nil => exact absurd rfl hd
    | cons c d =>
      rw [List.nil_append, List.cons_append, splitStrFrom, if_pos]
      · rw [show (c :: d).length - 1 = d.length by simp, hpass d.length d rfl]
      · rw [List.isPrefixOf_iff_prefix]; exact ⟨s, rfl⟩
  | cons c a ih =>
    have hn := ha [] (c :: a) rfl (by simp)
    rw [List.cons_append, List.cons_append, splitStrFrom, if_neg]
    · rw [ih (fun x y he hy => ha (c :: x) y (by rw [he]; rfl) hy)]
      rfl
    · rw [List.isPrefixOf_iff_prefix]
      exact hn

theorem splitStr_one {d a : Text} (ha : ¬ d <:+: a) : splitStr d a = [a] := by
  unfold splitStr
  induction a with
  | nil => rw [splitStrFrom]
  | cons c a ih =>
    rw [splitStrFrom, if_neg, ih (fun h => ha (List.infix_cons h))]
    · rfl
    · rw [List.isPrefixOf_iff_prefix]
      exact fun h => ha h.isInfix

theorem splitStr_char {ch : Char} {a s : Text} (ha : ch ∉ a) : splitStr [ch] (a ++ ch :: s) = a :: splitStr [ch] s := by
  have := splitStr_append (d := [ch]) (a := a) (s := s) (by simp) (by
    intro x y he hy hp
    cases y with
    | nil => exact hy rfl
    | cons b y =>
      simp only [List.cons_append, List.cons_prefix_cons] at hp
      exact ha (by rw [he, hp.1]; simp))
  simpa using this

theorem infix_char {ch : Char} {a : Text} : [ch] <:+: a ↔ ch ∈ a := by
  constructor
  · rintro ⟨x, y, rfl⟩; simp
  · intro h
    obtain ⟨x, y, rfl⟩ := List.append_of_mem h
    exact ⟨x, y, by simp⟩

theorem splitStr_join {ch : Char} {l : List Text} (hne : l ≠ []) (h : ∀ w ∈ l, ch ∉ w) : splitStr [ch] (join [ch] l) = l := by
  induction l with
  | nil => exact absurd rfl hne
  | cons a l ih =>
    cases l with
    | nil => exact splitStr_one (fun hi => h a List.mem_cons_self (infix_char.mp hi))
    | cons b l =>
      rw [join, show a ++ [ch] ++ join [ch] (b :: l) = a ++ ch :: join [ch] (b :: l) by simp,
        splitStr_char (h a List.mem_cons_self), ih (by simp) (fun w hw => h w (List.mem_cons_of_mem _ hw))]

theorem splitStr_ne (d s : Text) : splitStr d s ≠ [] := by
  unfold splitStr
  cases s with
  | nil => simp [splitStrFrom]
  | cons a s => rw [splitStrFrom]; split <;> simp [consHead_ne]

/-- Splitting at a character, without the separator at the end being special. -/
theorem splitStr_cons (ch a : Char) (s : Text) : splitStr [ch] (a :: s) =
    if a = ch then [] :: splitStr [ch] s else consHead a (splitStr [ch] s) := by
  unfold splitStr
  rw [splitStrFrom]
  by_cases h : a = ch
  · subst h
    simp [List.isPrefixOf]
  · rw [if_neg, if_neg h]
    simp [List.isPrefixOf, Ne.symm h]

theorem splitStr_mem {ch : Char} {s : Text} : ∀ w ∈ splitStr [ch] s, ch ∉ w ∧ ∀ c ∈ w, c ∈ s := by
  induction s with
  | nil => intro w hw; simp [splitStr, splitStrFrom] at hw; simp [hw]
  | cons a s ih =>
    intro w hw
    rw [splitStr_cons] at hw
    split at hw
    · rcases List.mem_cons.mp hw with rfl | hw
      · simp
      · exact ⟨(ih w hw).1, fun c hc => List.mem_cons_of_mem _ ((ih w hw).2 c hc)⟩
    · rename_i ha
      cases hq : splitStr [ch] s with
      | nil => exact absurd hq (splitStr_ne _ _)
      | cons b l =>
        rw [hq] at hw ih
        simp only [consHead] at hw
        rcases List.mem_cons.mp hw with rfl | hw
        · have := ih b List.mem_cons_self
          refine ⟨?_, ?_⟩
          · simp only [List.mem_cons, not_or]
            exact ⟨Ne.symm ha, this.1⟩
          · intro c hc
            rcases List.mem_cons.mp hc with rfl | hc
            · exact List.mem_cons_self
            · exact List.mem_cons_of_mem _ (this.2 c hc)
        · have := ih w (List.mem_cons_of_mem _ hw)
          exact ⟨this.1, fun c hc => List.mem_cons_of_mem _ (this.2 c hc)⟩

theorem join_splitStr (ch : Char) (s : Text) : join [ch] (splitStr [ch] s) = s := by
  induction s with
  | nil => rfl
  | cons a s ih =>
    rw [splitStr_cons]
    cases hq : splitStr [ch] s with
    | nil => exact absurd hq (splitStr_ne _ _)
    | cons x l =>
      rw [hq] at ih
      split
      · rename_i ha
        rw [join, ih, ha]; rfl
      · cases l with
        | nil => rw [consHead, join, ← ih, join]
        | cons y l => rw [consHead, join, ← ih, join]; rfl

/-- The first piece starts as the text does. -/
theorem splitStr_head {ch : Char} {s w : Text} {ws : List Text} {c : Char} (h : splitStr [ch] s = w :: ws) (hc : w.head? = some c) :
    s.head? = some c := by
  cases s with
  | nil => simp [splitStr, splitStrFrom] at h; rw [h.1] at hc; cases hc
  | cons a s =>
    rw [splitStr_cons] at h
    split at h
    · cases h; cases hc
    · cases hq : splitStr [ch] s with
      | nil => exact absurd hq (splitStr_ne _ _)
      | cons x l => rw [hq] at h; cases h; exact hc

/-! ## Splitting at two colons -/

theorem colons_infix {a : Text} : "::".toList <:+: a ↔ ∃ x y, a = x ++ ':' :: ':' :: y := by
  constructor
  · rintro ⟨x, y, rfl⟩; exact ⟨x, y, by simp⟩
  · rintro ⟨x, y, rfl⟩; exact ⟨x, y, by simp⟩

theorem splitStr_colons {a s : Text} (h : ¬ "::".toList <:+: a) (hl : a.getLast? ≠ some ':') :
    splitStr "::".toList (a ++ "::".toList ++ s) = a :: splitStr "::".toList s := by
  apply splitStr_append (by simp)
  intro x y he hy hp
  cases y with
  | nil => exact hy rfl
  | cons b y =>
    cases y with
    | nil =>
      have hb : b = ':' := by
        have : "::".toList = [':', ':'] := rfl
        rw [this] at hp
        simp only [List.cons_append, List.cons_prefix_cons] at hp
        exact hp.1.symm
      apply hl
      rw [he, hb]; simp
    | cons c y =>
      have : "::".toList = [':', ':'] := rfl
      rw [this] at hp
      simp only [List.cons_append, List.cons_prefix_cons] at hp
      apply h
      rw [colons_infix]
      exact ⟨x, y, by rw [he, ← hp.1, ← hp.2.1]⟩

/-- The first piece at two colons. -/
theorem splitStr_colons_inv {s p : Text} {rest : List Text} (h : splitStr "::".toList s = p :: rest) :
    ¬ "::".toList <:+: p ∧ ((rest = [] ∧ s = p) ∨
      ∃ t, s = p ++ "::".toList ++ t ∧ rest = splitStr "::".toList t ∧ p.getLast? ≠ some ':') := by
  have hdd : "::".toList = [':', ':'] := rfl
  induction s generalizing p rest with
  | nil =>
    simp only [splitStr, splitStrFrom] at h
    cases h
    exact ⟨by rw [colons_infix]; rintro ⟨x, y, h⟩; simp at h, .inl ⟨rfl, rfl⟩⟩
  | cons a s ih =>
    unfold splitStr at h
    rw [splitStrFrom] at h
    split at h
    · rename_i hp
      rw [List.isPrefixOf_iff_prefix] at hp
      obtain ⟨t, ht⟩ := hp
      cases h
      refine ⟨by rw [colons_infix]; rintro ⟨x, y, h⟩; simp at h, .inr ⟨t, ?_, ?_, by simp⟩⟩
      · rw [← ht]; rfl
      · rw [hdd] at ht
        simp only [List.cons_append, List.nil_append, List.cons.injEq] at ht
        rw [← ht.2]
        rfl
    · rename_i hp
      rw [List.isPrefixOf_iff_prefix, hdd] at hp
      cases hq : splitStr "::".toList s with
      | nil => exact absurd hq (splitStr_ne _ _)
      | cons p' rest' =>
        have hq' := hq
        unfold splitStr at hq'
        rw [hq'] at h
        cases h
        obtain ⟨h1, h2⟩ := ih hq
        have hpre : ∀ y, p' = ':' :: y → a ≠ ':' := by
          rintro y rfl rfl
          apply hp
          rcases h2 with ⟨-, rfl⟩ | ⟨t, rfl, -⟩
          · exact ⟨y, rfl⟩
          · exact ⟨y ++ "::".toList ++ t, by simp⟩
        refine ⟨?_, ?_⟩
        · rw [colons_infix]
          rintro ⟨x, y, he⟩
          cases x with
          | nil =>
            simp only [List.nil_append, List.cons.injEq] at he
            exact hpre y he.2 he.1
          | cons b x =>
            simp only [List.cons_append, List.cons.injEq] at he
            exact h1 (colons_infix.mpr ⟨x, y, he.2⟩)
        · rcases h2 with ⟨hr, rfl⟩ | ⟨t, rfl, hr, hl⟩
          · exact .inl ⟨hr, rfl⟩
          · refine .inr ⟨t, rfl, hr, ?_⟩
            cases p' with
            | nil =>
              rintro hc
              simp only [List.getLast?_singleton, Option.some.injEq] at hc
              subst hc
              apply hp
              exact ⟨':' :: t, by simp⟩
            | cons b p' => simpa using hl

/-! ## Numbers -/

theorem isDigit_eq (c : Char) : isDigit c = c.isDigit := by
  unfold isDigit Char.isDigit
  rfl

theorem showNat_ne (n : Nat) : showNat n ≠ [] := Nat.toDigits_ne_nil

theorem showNat_digit {n : Nat} {c : Char} (h : c ∈ showNat n) : isDigit c = true := by
  rw [isDigit_eq]
  exact Nat.isDigit_of_mem_toDigits (by omega) (by omega) h

theorem digitsValue_append (a : Text) (c : Char) : digitsValue (a ++ [c]) = digitsValue a * 10 + (c.toNat - 48) := by
  simp [digitsValue]

theorem digitsValue_show (n : Nat) : digitsValue (showNat n) = n := by
  induction n using Nat.strongRecOn with
  | ind n ih =>
    unfold showNat
    by_cases h : n < 10
    · rw [Nat.toDigits_of_lt_base h]
      simp [digitsValue, Nat.toNat_digitChar_sub_48_of_lt_ten h]
    · rw [Nat.toDigits_of_base_le (by omega) (by omega), digitsValue_append,
        Nat.toNat_digitChar_sub_48_of_lt_ten (Nat.mod_lt _ (by omega))]
      have := ih (n / 10) (by omega)
      unfold showNat at this
      rw [this]
      omega

theorem takeWhile_all {p : Char → Bool} {s : Text} (h : ∀ c ∈ s, p c = true) : s.takeWhile p = s := by
  induction s with
  | nil => rfl
  | cons a s ih => rw [List.takeWhile_cons, if_pos (h a List.mem_cons_self), ih (fun c hc => h c (List.mem_cons_of_mem _ hc))]

theorem digit_plain {c : Char} (h : isDigit c = true) : isSpace c = false ∧ c ≠ '-' ∧ c ≠ '+' ∧ c ≠ ':' ∧ c ≠ ' ' ∧ c ≠ '\n' := by
  have h48 : 48 ≤ c.toNat ∧ c.toNat ≤ 57 := by
    unfold isDigit at h
    simp only [Bool.and_eq_true, decide_eq_true_eq] at h
    exact ⟨h.1, h.2⟩
  have key : ∀ d : Char, c.toNat ≠ d.toNat → c ≠ d := fun d hd he => hd (by rw [he])
  have hs : c ≠ ' ' := key ' ' (by have : (' ' : Char).toNat = 32 := by decide
                                   omega)
  refine ⟨?_, key _ ?_, key _ ?_, key _ ?_, hs, key _ ?_⟩
  · unfold isSpace
    simp only [Bool.or_eq_false_iff, Bool.and_eq_false_iff, decide_eq_false_iff_not]
    exact ⟨hs, .inr (by omega)⟩
  · have : ('-' : Char).toNat = 45 := by decide
    omega
  · have : ('+' : Char).toNat = 43 := by decide
    omega
  · have : (':' : Char).toNat = 58 := by decide
    omega
  · have : ('\n' : Char).toNat = 10 := by decide
    omega

theorem stoi_show {n : Int} (h : IsInt n) : stoi (showInt n) = .ok n := by
  have hd : ∀ k, ∀ c, (showNat k).head? = some c → isDigit c = true := by
    intro k c hc
    exact showNat_digit (List.mem_of_mem_head? (by simpa using hc))
  have htw : ∀ k, (showNat k).takeWhile isDigit = showNat k := fun k => takeWhile_all (fun c hc => showNat_digit hc)
  cases n with
  | ofNat k =>
    have h1 : (showNat k).dropWhile isSpace = showNat k := dropWhile_head (fun c hc => (digit_plain (hd k c hc)).1)
    have h2 : (showNat k).head? ≠ some '-' := fun hc => (digit_plain (hd k _ hc)).2.1 rfl
    have h3 : (showNat k).head? ≠ some '+' := fun hc => (digit_plain (hd k _ hc)).2.2.1 rfl
    unfold stoi
    simp only [showInt, h1, h2, h3, or_self, if_false, htw, showNat_ne, digitsValue_show, decide_false, Bool.false_eq_true]
    rw [if_pos]
    · rfl
    · exact h
  | negSucc k =>
    unfold stoi
    have h1 : ('-' :: showNat (k + 1)).dropWhile isSpace = '-' :: showNat (k + 1) := by
      rw [List.dropWhile_cons, show isSpace '-' = false by decide]; rfl
    simp only [showInt, h1, List.head?_cons, true_or, if_true, List.drop_one, List.tail_cons, htw, showNat_ne, if_false, digitsValue_show,
      decide_true]
    have : (-((k + 1 : Nat) : Int)) = Int.negSucc k := by omega
    rw [this, if_pos (by exact h)]

theorem stoi_int {s : Text} {n : Int} (h : stoi s = .ok n) : IsInt n := by
  unfold stoi at h
  simp only at h
  generalize (if (List.dropWhile isSpace s).head? = some '-' ∨ (List.dropWhile isSpace s).head? = some '+' then
    List.drop 1 (List.dropWhile isSpace s) else List.dropWhile isSpace s) = q at h
  by_cases h1 : List.takeWhile isDigit q = []
  · rw [if_pos h1] at h
    cases h
  · rw [if_neg h1] at h
    generalize (if (List.dropWhile isSpace s).head? = some '-' then -(digitsValue (List.takeWhile isDigit q) : Int)
      else (digitsValue (List.takeWhile isDigit q) : Int)) = v at h
    by_cases h2 : -2147483648 ≤ v ∧ v ≤ 2147483647
    · rw [if_pos h2] at h
      cases h
      exact h2
    · rw [if_neg h2] at h
      cases h

theorem showInt_plain {n : Int} {c : Char} (h : c ∈ showInt n) : c ≠ ':' ∧ c ≠ ' ' ∧ c ≠ '\n' := by
  cases n with
  | ofNat k => exact (digit_plain (showNat_digit h)).2.2.2
  | negSucc k =>
    rcases List.mem_cons.mp h with rfl | h
    · decide
    · exact (digit_plain (showNat_digit h)).2.2.2

end Verif.Drawer
