import Verif.Drawer.Spec
import Mathlib.Tactic.Conv

/-!
# Where the name of a property line ends
-/

namespace Verif.Drawer

open Verif.BaseLexer

theorem prefix_colon {l w r : Text} (hl : ':' ∉ l) (hw : ':' ∉ w) :
    (l ++ [':']) <+: (w ++ ':' :: r) ↔ w = l := by
  constructor
  · intro h
    induction l generalizing w with
    | nil =>
      cases w with
      | nil => rfl
      | cons a w =>
        simp only [List.nil_append, List.cons_append, List.cons_prefix_cons] at h
        exact absurd (h.1 ▸ List.mem_cons_self) hw
    | cons a l ih =>
      cases w with
      | nil =>
        simp only [List.nil_append, List.cons_append, List.cons_prefix_cons] at h
        exact absurd (h.1 ▸ List.mem_cons_self) hl
      | cons b w =>
        simp only [List.cons_append, List.cons_prefix_cons] at h
        obtain ⟨rfl, h⟩ := h
        rw [ih (fun m => hl (List.mem_cons_of_mem _ m)) (fun m => hw (List.mem_cons_of_mem _ m)) h]
  · rintro rfl
    exact ⟨r, by simp⟩

theorem toLower_colon {c : Char} (h : toLower c = ':') : c = ':' := by
  unfold toLower at h
  split at h
  · rename_i hu
    exfalso
    unfold isUpper at hu
    simp only [Bool.and_eq_true, decide_eq_true_eq] at hu
    obtain ⟨h1, h2⟩ := hu
    have h1' : 65 ≤ c.toNat := h1
    have h2' : c.toNat ≤ 90 := h2
    have h3 : (Char.ofNat (c.toNat + 32)).toNat = c.toNat + 32 := by
      rw [Char.ofNat, dif_pos (by left; omega)]
      rfl
    rw [h] at h3
    have : (':' : Char).toNat = 58 := by decide
    omega
  · exact h

theorem colon_lower {w : Text} (h : ':' ∉ w) : ':' ∉ w.map toLower := by
  intro hm
  obtain ⟨c, hc, he⟩ := List.mem_map.mp hm
  exact h (toLower_colon he ▸ hc)

theorem oident_iff {c : Char} : oident c = true ↔ (isAlnum c ∨ c = '_' ∨ c = '-') := by
  unfold oident
  simp [or_assoc]

theorem oident_not_colon {c : Char} (h : oident c = true) : c ≠ ':' := by
  rintro rfl
  revert h; decide

theorem Ident.oident {w : Text} (h : Ident w) : ∀ c ∈ w, oident c = true :=
  fun c hc => oident_iff.mpr (h.2 c hc)

theorem Ident.colon {w : Text} (h : Ident w) : ':' ∉ w :=
  fun hc => oident_not_colon (h.oident _ hc) rfl

theorem Ident.newline {w : Text} (h : Ident w) : '\n' ∉ w :=
  fun hc => by have := h.oident _ hc; revert this; decide

theorem Ident.space {w : Text} (h : Ident w) : ' ' ∉ w :=
  fun hc => by have := h.oident _ hc; revert this; decide

theorem takeWhile_ident {w r : Text} (h : ∀ c ∈ w, oident c = true) :
    (w ++ ':' :: r).takeWhile oident = w := by
  induction w with
  | nil => rfl
  | cons a w ih =>
    rw [List.cons_append, List.takeWhile_cons, if_pos (h a List.mem_cons_self),
      ih (fun c hc => h c (List.mem_cons_of_mem _ hc))]

/-! ## Reading an identifier and a colon -/

theorem run_ident {w r : Text} (h : Ident w) : (Rx.seq orgIdent (.ch ':')).run (w ++ ':' :: r) = some (w.length + 1) := by
  obtain ⟨hne, ho⟩ := h
  have ho : ∀ c ∈ w, oident c = true := fun c hc => oident_iff.mpr (ho c hc)
  cases w with
  | nil => exact absurd rfl hne
  | cons a w =>
    have ha := ho a List.mem_cons_self
    have ht := takeWhile_ident (w := w) (r := r) (fun c hc => ho c (List.mem_cons_of_mem _ hc))
    simp only [Rx.run, orgIdent, Rx.many1, Rx.ch, List.cons_append, ha, if_true, List.drop_one, List.tail_cons, ht,
      Option.map_some]
    rw [Nat.add_comm 1 w.length, List.drop_succ_cons, List.drop_left]
    simp

theorem run_ident_inv {s : Text} {n : Nat} (h : (Rx.seq orgIdent (.ch ':')).run s = some n) :
    ∃ w r, s = w ++ ':' :: r ∧ Ident w ∧ n = w.length + 1 := by
  cases s with
  | nil => simp [Rx.run, orgIdent, Rx.many1] at h
  | cons a s =>
    by_cases ha : oident a = true
    · simp only [Rx.run, orgIdent, Rx.many1, Rx.ch, ha, if_true, List.drop_one, List.tail_cons, Option.map_some] at h
      rw [Nat.add_comm 1, List.drop_succ_cons] at h
      have hd : s.drop (s.takeWhile oident).length = s.dropWhile oident := by
        conv_lhs => rw [← List.takeWhile_append_dropWhile (p := oident) (l := s)]
        rw [List.takeWhile_append_dropWhile, ← List.drop_left (l₁ := s.takeWhile oident) (l₂ := s.dropWhile oident),
          List.takeWhile_append_dropWhile]
      rw [hd] at h
      split at h
      · rename_i hp
        rw [List.isPrefixOf_iff_prefix] at hp
        obtain ⟨r, hr⟩ := hp
        refine ⟨a :: s.takeWhile oident, r, ?_, ⟨by simp, ?_⟩, ?_⟩
        · rw [List.cons_append]
          congr 1
          conv_lhs => rw [← List.takeWhile_append_dropWhile (p := oident) (l := s), ← hr]
          rfl
        · intro c hc
          rcases List.mem_cons.mp hc with rfl | hc
          · exact oident_iff.mp ha
          · exact oident_iff.mp (mem_takeWhile_p hc)
        · simp at h
          simp; omega
      · simp at h
    · simp [Rx.run, orgIdent, Rx.many1, ha] at h

theorem run_literal (s : Text) : stdLex .literalProperty (':' :: s) = ((Rx.seq orgIdent (.ch ':')).run s).map (1 + ·) := by
  simp only [stdLex, Pat.rx, seqs, Rx.ch]
  rw [Rx.run]
  simp only [Rx.run, List.isPrefixOf, beq_self_eq_true, Bool.true_and, if_true, List.length_cons, List.length_nil, Nat.zero_add,
    List.drop_one, List.tail_cons]

theorem run_literal_inv {s : Text} {n : Nat} (h : stdLex .literalProperty s = some n) : ∃ t, s = ':' :: t := by
  simp only [stdLex, Pat.rx, seqs, Rx.ch] at h
  rw [Rx.run] at h
  simp only [Rx.run] at h
  split at h
  · rename_i m hm
    split at hm
    · rename_i hp
      rw [List.isPrefixOf_iff_prefix] at hp
      obtain ⟨t, ht⟩ := hp
      exact ⟨t, ht.symm⟩
    · cases hm
  · cases h

theorem run_sub (s : Text) : stdLex .propSubname s = (Rx.seq orgIdent (.ch ':')).run s := rfl

/-! ## The names that are not literal -/

theorem run_folded {l w r : Text} (hl : ':' ∉ l.map toLower) (hw : ':' ∉ w) :
    (∃ n, (Rx.ilit (':' :: l ++ [':'])).run (':' :: w ++ ':' :: r) = some n) ↔ w.map toLower = l.map toLower := by
  have hc : toLower ':' = ':' := by decide
  have h := prefix_colon (r := r.map toLower) hl (colon_lower hw)
  simp only [Rx.run]
  rw [← h, ← List.isPrefixOf_iff_prefix]
  have he : List.isPrefixOf ((':' :: l ++ [':']).map toLower) ((':' :: w ++ ':' :: r).map toLower) =
      List.isPrefixOf (l.map toLower ++ [':']) (w.map toLower ++ ':' :: r.map toLower) := by
    simp [hc, List.isPrefixOf]
  rw [he]
  split
  · rename_i h; simp [h]
  · rename_i h; simp [h]

/-- An alternative of literals followed by a colon. -/
theorem run_lits {ls : List String} {w r : Text} (hne : ls ≠ []) (hl : ∀ l ∈ ls, l.toList.map toLower = l.toList ∧ ':' ∉ l.toList) (hw : ':' ∉ w)
    {n : Nat} (h : (Rx.seq (lits ls) (.ch ':')).run (w ++ ':' :: r) = some n) : ∃ l ∈ ls, w.map toLower = l.toList := by
  have key : ∀ ls : List String, ls ≠ [] → ∀ m, (lits ls).run (w ++ ':' :: r) = some m →
      ∃ l ∈ ls, m = l.toList.length ∧ (l.toList.map toLower).isPrefixOf ((w ++ ':' :: r).map toLower) = true := by
    intro ls
    induction ls with
    | nil => intro h; exact absurd rfl h
    | cons a ls ih =>
      intro _ m hm
      cases ls with
      | nil =>
        simp only [lits, Rx.run] at hm
        split at hm
        · cases hm; exact ⟨a, List.mem_cons_self, rfl, by assumption⟩
        · cases hm
      | cons b ls =>
        simp only [lits] at hm
        rw [Rx.run] at hm
        split at hm
        · rename_i k hk
          cases hm
          rw [Rx.run] at hk
          split at hk
          · cases hk; exact ⟨a, List.mem_cons_self, rfl, by assumption⟩
          · cases hk
        · obtain ⟨l, hl, h⟩ := ih (by simp) m hm
          exact ⟨l, List.mem_cons_of_mem _ hl, h⟩
  rw [Rx.run] at h
  split at h
  · rename_i m hm
    obtain ⟨l, hmem, rfl, hp⟩ := key ls hne m hm
    obtain ⟨hlow, hcol⟩ := hl l hmem
    refine ⟨l, hmem, ?_⟩
    rw [hlow, List.isPrefixOf_iff_prefix] at hp
    simp only [Rx.run, Rx.ch] at h
    split at h
    · rename_i hp2
      rw [List.isPrefixOf_iff_prefix] at hp2
      obtain ⟨t, ht⟩ := hp2
      obtain ⟨q, hq⟩ := hp
      have hlen : l.toList.length ≤ (w ++ ':' :: r).length := by
        have := congrArg List.length hq
        simp only [List.length_append, List.length_map] at this ⊢
        omega
      have hc : toLower ':' = ':' := by decide
      have h1 : (w ++ ':' :: r).map toLower = l.toList ++ ':' :: t.map toLower := by
        conv_lhs => rw [← List.take_append_drop l.toList.length (w ++ ':' :: r), ← ht]
        rw [List.map_append]
        congr 1
        · rw [List.map_take, ← hq, List.take_left]
      rw [List.map_append, List.map_cons, hc] at h1
      exact (prefix_colon hcol (colon_lower hw)).mp ⟨t.map toLower, by rw [h1]; simp⟩
    · simp at h
  · cases h

theorem run_colonLits (ls : List String) (s : Text) : (seqs [.ch ':', lits ls, .ch ':']).run (':' :: s) =
    ((Rx.seq (lits ls) (.ch ':')).run s).map (1 + ·) := by
  simp only [seqs]
  rw [Rx.run]
  simp only [Rx.ch]
  rw [show (Rx.lit [':']).run (':' :: s) = some 1 by simp [Rx.run]]
  rfl

theorem lineStart_colon {s : Text} (hs : ∀ c, s.head? = some c → c ≠ ' ' ∧ c ≠ '\n') :
    lineStart stdLex (':' :: s) 0 =
      match stdLex .colonEnd (':' :: s) with
      | some span => .adv .ColonEnd (span + 0)
      | none =>
      match stdLex .colonProperties (':' :: s) with
      | some span => .adv .ColonProperties (span + 0)
      | none =>
      match stdLex .colonLogbook (':' :: s) with
      | some span => .adv .ColonLogbook (span + 0)
      | none =>
      match stdLex .argProperty (':' :: s) with
      | some span => .argProp (propertySubname stdLex (':' :: s) (span + 0))
      | none =>
      match stdLex .textProperty (':' :: s) with
      | some span => .textProp (propertySubname stdLex (':' :: s) (span + 0))
      | none =>
      match stdLex .literalProperty (':' :: s) with
      | some span => .litProp (propertySubname stdLex (':' :: s) (span + 0))
      | none => .other := by
  have h1 : ∀ ch, ch ≠ ':' → checkLeading (':' :: s) ch 0 = false := by
    intro ch h
    simp [checkLeading, isAt, Ne.symm h]
  have h4 : checkLeading (':' :: s) ':' 0 = false := by
    cases s with
    | nil => simp [checkLeading, isAtAny]
    | cons a s => simp [checkLeading, isAtAny, hs a rfl]
  have h2 : tableSep (':' :: s) 0 = none := by
    simp [tableSep, isAt, tableSepGo]
  have h3 : stdLex .clock (':' :: s) = none := by
    simp [stdLex, Pat.rx, Rx.run, show toLower ':' = ':' by decide, show toLower 'c' = 'c' by decide]
  have h5 : stdLex .leadingNumber (':' :: s) = none := by
    simp [stdLex, Pat.rx, Rx.run, seqs, digits, Rx.many1, show isDigit ':' = false by decide]
  have h6 : isAtStr (':' :: s) "#+".toList 0 = false := by
    rfl
  unfold lineStart
  rw [h1 '-' (by decide), h1 '+' (by decide), h1 '|' (by decide), h2]
  simp only [Bool.false_eq_true, if_false, List.drop_zero, h3, h5, h4, h6, Nat.lt_irrefl]
  rfl

theorem special_lines {w r : Text} (hw : Ident w) (hs : ¬ Special w) :
    stdLex .colonEnd (':' :: w ++ ':' :: r) = none ∧ stdLex .colonProperties (':' :: w ++ ':' :: r) = none ∧
    stdLex .colonLogbook (':' :: w ++ ':' :: r) = none ∧ stdLex .argProperty (':' :: w ++ ':' :: r) = none ∧
    stdLex .textProperty (':' :: w ++ ':' :: r) = none := by
  have fold : ∀ l : Text, ':' ∉ l.map toLower → l.map toLower ∈ specialNames →
      (Rx.ilit (':' :: l ++ [':'])).run (':' :: w ++ ':' :: r) = none := by
    intro l hl hm
    cases h : (Rx.ilit (':' :: l ++ [':'])).run (':' :: w ++ ':' :: r) with
    | none => rfl
    | some n =>
      have := (run_folded hl hw.colon).mp ⟨n, h⟩
      exact absurd (this ▸ hm : w.map toLower ∈ specialNames) hs
  have alts : ∀ ls : List String, ls ≠ [] → (∀ l ∈ ls, l.toList.map toLower = l.toList ∧ ':' ∉ l.toList) →
      (∀ l ∈ ls, l.toList ∈ specialNames) → (seqs [.ch ':', lits ls, .ch ':']).run (':' :: w ++ ':' :: r) = none := by
    intro ls hne hl hm
    rw [List.cons_append, run_colonLits]
    cases h : (Rx.seq (lits ls) (.ch ':')).run (w ++ ':' :: r) with
    | none => rfl
    | some n =>
      obtain ⟨l, hl, he⟩ := run_lits hne hl hw.colon h
      exact absurd (he ▸ hm l hl : w.map toLower ∈ specialNames) hs
  refine ⟨fold "end".toList (by decide) (by decide), fold "properties".toList (by decide) (by decide),
    fold "logbook".toList (by decide) (by decide), ?_, ?_⟩
  · exact alts _ (by simp) (by decide) (by decide)
  · exact alts _ (by simp) (by decide) (by decide)

theorem ident_head {w r : Text} (hw : Ident w) : ∀ c, (w ++ r).head? = some c → c ≠ ' ' ∧ c ≠ '\n' := by
  intro c hc
  obtain ⟨hne, -⟩ := id hw
  cases w with
  | nil => exact absurd rfl hne
  | cons a w =>
    cases hc
    exact ⟨fun h => hw.space (h ▸ List.mem_cons_self), fun h => hw.newline (h ▸ List.mem_cons_self)⟩

/-- A name of one word. -/
theorem lineStart_one {w r : Text} (hw : Ident w) (hs : ¬ Special w) (hr : stdLex .propSubname r = none) :
    lineStart stdLex (':' :: w ++ ':' :: r) 0 = .litProp (w.length + 2) := by
  obtain ⟨h1, h2, h3, h4, h5⟩ := special_lines (r := r) hw hs
  simp only [List.cons_append] at h1 h2 h3 h4 h5 ⊢
  rw [lineStart_colon (ident_head hw), h1, h2, h3, h4, h5, run_literal, run_ident hw]
  simp only [Option.map_some]
  have hd : (':' :: (w ++ ':' :: r)).drop (1 + (w.length + 1) + 0) = r := by
    rw [show 1 + (w.length + 1) + 0 = (w.length + 1) + 1 by omega, List.drop_succ_cons]
    rw [show w ++ ':' :: r = (w ++ [':']) ++ r by simp, show w.length + 1 = (w ++ [':']).length by simp, List.drop_left]
  rw [propertySubname, hd, hr]
  simp; omega

/-- A name of two words. -/
theorem lineStart_two {w s r : Text} (hw : Ident w) (hs : ¬ Special w) (hsub : Ident s) :
    lineStart stdLex (':' :: w ++ ':' :: (s ++ ':' :: r)) 0 = .litProp (w.length + 2 + (s.length + 1)) := by
  obtain ⟨h1, h2, h3, h4, h5⟩ := special_lines (r := s ++ ':' :: r) hw hs
  simp only [List.cons_append] at h1 h2 h3 h4 h5 ⊢
  rw [lineStart_colon (ident_head hw), h1, h2, h3, h4, h5, run_literal, run_ident hw]
  simp only [Option.map_some]
  have hd : (':' :: (w ++ ':' :: (s ++ ':' :: r))).drop (1 + (w.length + 1) + 0) = s ++ ':' :: r := by
    rw [show 1 + (w.length + 1) + 0 = (w.length + 1) + 1 by omega, List.drop_succ_cons]
    rw [show w ++ ':' :: (s ++ ':' :: r) = (w ++ [':']) ++ (s ++ ':' :: r) by simp, show w.length + 1 = (w ++ [':']).length by simp, List.drop_left]
  rw [propertySubname, hd, run_sub, run_ident hsub]
  simp; omega

theorem sub_space (v : Text) : stdLex .propSubname (' ' :: v) = none := by
  simp [run_sub, Rx.run, orgIdent, Rx.many1, show oident ' ' = false by decide]

theorem sub_nil : stdLex .propSubname [] = none := by
  simp [run_sub, Rx.run, orgIdent, Rx.many1]

/-! ## What a literal line looks like -/

theorem lits_run {ls : List String} (hne : ls ≠ []) (s : Text) : (lits ls).run s =
    (ls.find? fun a => (a.toList.map toLower).isPrefixOf (s.map toLower)).map fun a => a.toList.length := by
  induction ls with
  | nil => exact absurd rfl hne
  | cons a ls ih =>
    cases ls with
    | nil =>
      simp only [lits, Rx.run, List.find?_cons, List.find?_nil]
      split <;> rename_i h <;> simp [h]
    | cons b ls =>
      simp only [lits]
      rw [Rx.run, ih (by simp), List.find?_cons]
      simp only [Rx.run]
      split
      · rename_i h
        split at h
        · rename_i h2; cases h; simp [h2]
        · cases h
      · rename_i h
        split at h
        · cases h
        · rename_i h2; rw [Bool.not_eq_true] at h2; simp [List.find?_cons, h2]

theorem special_matches {w r : Text} (h : Special w) :
    (∃ n, stdLex .colonEnd (':' :: w ++ ':' :: r) = some n) ∨ (∃ n, stdLex .colonProperties (':' :: w ++ ':' :: r) = some n) ∨
    (∃ n, stdLex .colonLogbook (':' :: w ++ ':' :: r) = some n) ∨ (∃ n, stdLex .argProperty (':' :: w ++ ':' :: r) = some n) ∨
    (∃ n, stdLex .textProperty (':' :: w ++ ':' :: r) = some n) := by
  have hc : toLower ':' = ':' := by decide
  simp only [Special, specialNames, List.map_cons, List.map_nil, List.mem_cons, List.not_mem_nil, or_false] at h
  have alts : ∀ (ls : List String) (l : String), ls ≠ [] → w.map toLower = l.toList →
      (∀ q, (ls.find? fun a => (a.toList.map toLower).isPrefixOf (l.toList ++ ':' :: q)) = some l) →
      (∃ n, (seqs [.ch ':', lits ls, .ch ':']).run (':' :: w ++ ':' :: r) = some n) := by
    intro ls l hne he hf
    rw [List.cons_append, run_colonLits]
    have hl : w.length = l.toList.length := by rw [← he]; simp
    have h1 : (lits ls).run (w ++ ':' :: r) = some w.length := by
      rw [lits_run hne, List.map_append, List.map_cons, hc, he, hf, hl]
      rfl
    rw [Rx.run, h1]
    simp [Rx.run, Rx.ch]
  have fold : ∀ l : Text, ':' ∉ l.map toLower → w.map toLower = l.map toLower → ':' ∉ w →
      ∃ n, (Rx.ilit (':' :: l ++ [':'])).run (':' :: w ++ ':' :: r) = some n :=
    fun l hl he hw => (run_folded hl hw).mpr he
  have hcol : ':' ∉ w.map toLower → ':' ∉ w := fun h hm => h (List.mem_map.mpr ⟨':', hm, hc⟩)
  rcases h with h | h | h | h | h | h | h | h | h | h | h | h
  · exact .inl (fold "end".toList (by decide) h (hcol (h ▸ by decide)))
  · exact .inr (.inl (fold "properties".toList (by decide) h (hcol (h ▸ by decide))))
  · exact .inr (.inr (.inl (fold "logbook".toList (by decide) h (hcol (h ▸ by decide)))))
  · exact .inr (.inr (.inr (.inl (alts _ _ (by simp) h (fun q => rfl)))))
  · exact .inr (.inr (.inr (.inl (alts _ _ (by simp) h (fun q => rfl)))))
  · exact .inr (.inr (.inr (.inl (alts _ _ (by simp) h (fun q => rfl)))))
  · exact .inr (.inr (.inr (.inl (alts _ _ (by simp) h (fun q => rfl)))))
  · exact .inr (.inr (.inr (.inr (alts _ _ (by simp) h (fun q => rfl)))))
  · exact .inr (.inr (.inr (.inr (alts _ _ (by simp) h (fun q => rfl)))))
  · exact .inr (.inr (.inr (.inr (alts _ _ (by simp) h (fun q => rfl)))))
  · exact .inr (.inr (.inr (.inr (alts _ _ (by simp) h (fun q => rfl)))))
  · exact .inr (.inr (.inr (.inr (alts _ _ (by simp) h (fun q => rfl)))))

/-- A line taken literally has a name and a value. -/
theorem lineStart_inv {line : Text} {n : Nat} (h : lineStart stdLex line 0 = .litProp n) :
    ∃ name v, line = ':' :: name ++ ':' :: v ∧ IsName name ∧ n = name.length + 2 := by
  have hlit : ∃ k, stdLex .literalProperty line = some k := by
    unfold lineStart at h
    simp only [List.drop_zero] at h
    repeat' split at h
    all_goals first | exact ⟨_, ‹stdLex .literalProperty line = some _›⟩ | cases h
  obtain ⟨k, hk⟩ := hlit
  obtain ⟨t, rfl⟩ := run_literal_inv hk
  rw [run_literal] at hk
  cases hi : (Rx.seq orgIdent (.ch ':')).run t with
  | none => rw [hi] at hk; cases hk
  | some j =>
    obtain ⟨w, r, rfl, hw, -⟩ := run_ident_inv hi
    by_cases hs : Special w
    · exfalso
      rw [lineStart_colon (ident_head hw)] at h
      have hm := special_matches (r := r) hs
      simp only [List.cons_append] at hm
      rcases hm with ⟨m, hm⟩ | ⟨m, hm⟩ | ⟨m, hm⟩ | ⟨m, hm⟩ | ⟨m, hm⟩ <;> rw [hm] at h <;>
        (repeat' split at h) <;> first | (cases h; done) | (simp_all; done)
    · cases hsub : stdLex .propSubname r with
      | none =>
        have := lineStart_one hw hs hsub
        rw [List.cons_append] at this
        rw [this] at h
        cases h
        exact ⟨w, r, by simp, .one hw hs, rfl⟩
      | some m =>
        rw [run_sub] at hsub
        obtain ⟨s, v, rfl, hss, -⟩ := run_ident_inv hsub
        have := lineStart_two (r := v) hw hs hss
        rw [List.cons_append] at this
        rw [this] at h
        cases h
        refine ⟨w ++ ':' :: s, v, by simp, .two hw hs hss, ?_⟩
        simp; omega

/-- The line of a name and a value after a space, or without value. -/
theorem lineStart_name {name v : Text} (hn : IsName name) (hv : v = [] ∨ ∃ u, v = ' ' :: u) :
    lineStart stdLex (':' :: name ++ ':' :: v) 0 = .litProp (name.length + 2) := by
  have hsub : stdLex .propSubname v = none := by
    rcases hv with rfl | ⟨u, rfl⟩
    · exact sub_nil
    · exact sub_space u
  cases hn with
  | one hw hs => exact lineStart_one hw hs hsub
  | @two w s hw hs hss =>
    have := lineStart_two (r := v) hw hs hss
    rw [show ':' :: (w ++ ':' :: s) ++ ':' :: v = ':' :: w ++ ':' :: (s ++ ':' :: v) by simp, this]
    simp; omega

end Verif.Drawer
