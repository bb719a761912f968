import Verif.BaseLexer.Spec

/-!
# A concrete matcher for the lexy patterns

The theorems about the lexer hold for every `Sane` matcher.  This file gives one
matcher with the patterns as they are written in the source (greedy, no
backtracking into a repetition), and proves it `Sane`.  Details of lexy that do not
matter here are simplified: `dsl::literal_set` is an ordered choice, a repetition
stops at the first item that does not match.
-/

namespace Verif.BaseLexer

/-- Pattern expressions. -/
inductive Rx where
  /-- `LEXY_LIT`, `dsl::lit_c` -/
  | lit (s : List Char)
  /-- `dsl::ascii::case_folding(LEXY_LIT(…))` -/
  | ilit (s : List Char)
  /-- one character of a class -/
  | cls (p : Char → Bool)
  /-- `dsl::while_(class)` -/
  | many (p : Char → Bool)
  | seq (a b : Rx)
  | alt (a b : Rx)
  /-- `dsl::opt` -/
  | opt (a : Rx)
  /-- `dsl::while_` -/
  | star (a : Rx)
  /-- `dsl::until` -/
  | upto (ls : List (List Char))
  /-- `dsl::not_followed_by(a, 'c')` -/
  | notBefore (a : Rx) (c : Char)

/-- `dsl::until`: up to and including the first of the literals. -/
def untilRun (ls : List (List Char)) : List Char → Option Nat
  | [] => none
  | c :: r =>
    match ls.find? (fun l => l.isPrefixOf (c :: r)) with
    | some l => some l.length
    | none => (untilRun ls r).map (· + 1)

/-- Repetition with at most `n` rounds, each of which must read something. -/
def starRun (f : List Char → Option Nat) : Nat → List Char → Nat
  | 0, _ => 0
  | n + 1, s =>
    match f s with
    | some (k + 1) => (k + 1) + starRun f n (s.drop (k + 1))
    | _ => 0

/-- Number of characters matched. -/
def Rx.run : Rx → List Char → Option Nat
  | .lit l, s => if l.isPrefixOf s then some l.length else none
  | .ilit l, s =>
    if (l.map toLower).isPrefixOf (s.map toLower) then some l.length else none
  | .cls p, s =>
    match s with
    | c :: _ => if p c then some 1 else none
    | [] => none
  | .many p, s => some (s.takeWhile p).length
  | .seq a b, s =>
    match a.run s with
    | some n => (b.run (s.drop n)).map (n + ·)
    | none => none
  | .alt a b, s =>
    match a.run s with
    | some n => some n
    | none => b.run s
  | .opt a, s => some ((a.run s).getD 0)
  | .star a, s => some (starRun a.run s.length s)
  | .upto ls, s => untilRun ls s
  | .notBefore a c, s =>
    match a.run s with
    | some n => if s[n]? = some c then none else some n
    | none => none

/-- Least number of characters a match has. -/
def Rx.least : Rx → Nat
  | .lit l | .ilit l => l.length
  | .cls _ => 1
  | .many _ | .opt _ | .star _ => 0
  | .seq a b => a.least + b.least
  | .alt a b => Nat.min a.least b.least
  | .upto ls => (ls.map List.length).min?.getD 0
  | .notBefore a _ => a.least

/-- No match contains a newline. -/
def Rx.noNl : Rx → Bool
  | .lit l => !l.contains '\n'
  | .cls p | .many p => !p '\n'
  | .seq a b | .alt a b => a.noNl && b.noNl
  | .notBefore a _ | .opt a => a.noNl
  | .ilit _ | .star _ | .upto _ => false

def Rx.ch (c : Char) : Rx := .lit [c]
def Rx.many1 (p : Char → Bool) : Rx := .seq (.cls p) (.many p)
def digits : Rx := .many1 isDigit
def digit : Rx := .cls isDigit

/-- `oident` – base_token_tokenize.cpp:652-658. -/
def oident (c : Char) : Bool := isAlnum c || c = '_' || c = '-'
/-- `dsl::p<org_ident>`. -/
def orgIdent : Rx := .many1 oident
/-- `dsl::ascii::alpha_digit_underscore`, `dsl::ascii::word`. -/
def wordCls (c : Char) : Bool := isAlnum c || c = '_'
/-- `link_continuation` – 1226-1235. -/
def linkCls (c : Char) : Bool := oident c || c = '*' || c = '#' || c = '.' || c = '/'
/-- `link_end` – 1237-1238. -/
def linkEnd : Rx := .upto ["]]".toList, "][".toList]

def lits : List String → Rx
  | [] => .alt (.ilit ['x']) (.ilit ['x'])
  | [a] => .ilit a.toList
  | a :: b => .alt (.ilit a.toList) (lits b)

/-- `a + b + …`. -/
def seqs : List Rx → Rx
  | [] => .opt (.lit [])
  | [a] => a
  | a :: b => .seq a (seqs b)

/-- The patterns as written at the lines cited in `Pat`. -/
def Pat.rx : Pat → Rx
  | .propertyKind => .seq (.many fun c => c = ' ' || c = '\t' || c = '\n') orgIdent
  | .inlineSrc => seqs [.ilit "src".toList, .opt (.ch '_'), .many1 wordCls]
  | .timeRepeater => seqs [.alt (.lit ".+".toList) (.alt (.lit "++".toList) (.ch '+')),
      digits, .cls isAlpha, .star (.seq digits (.cls isAlpha))]
  | .propSubname => .seq orgIdent (.ch ':')
  | .clock => .ilit "clock:".toList
  | .colonEnd => .ilit ":end:".toList
  | .colonProperties => .ilit ":properties:".toList
  | .leadingNumber => seqs [digits, .alt (.ch '.') (.ch ')'), .ch ' ']
  | .colonLogbook => .ilit ":logbook:".toList
  | .argProperty => seqs [.ch ':', lits ["header-args", "header_args", "prop_args", "prop-args"],
      .ch ':']
  | .textProperty => seqs [.ch ':',
      lits ["description", "created", "hashtag_def", "hashtag-def", "hashtag"], .ch ':']
  | .literalProperty => seqs [.ch ':', orgIdent, .ch ':']
  | .stars => .seq (.many1 (· = '*')) (.ch ' ')
  | .completionPercent => seqs [.ch '[', digits, .ch '%', .ch ']']
  | .completionRatio => seqs [.ch '[', digits, .ch '/', digits, .ch ']']
  | .priority => seqs [.ch '[', .ch '#', .cls fun c => isAlpha c || c = '_', .ch ']']
  | .checkbox => seqs [.ch '[', .cls fun c => c = 'x' || c = 'X' || c = ' ' || c = '-', .ch ']']
  | .footnoteLinked => seqs [.notBefore (.ilit "[fn:".toList) ':', orgIdent, .ch ']']
  | .footnoteInline => .ilit "[fn::".toList
  | .linkProtocol => seqs [.lit "[[".toList, orgIdent, .ch ':']
  | .untilLinkEnd => linkEnd
  | .linkContinued => seqs [.lit "[[".toList, .cls linkCls, linkEnd]
  | .angleDate => seqs [.ch '<', digit, digit, digit, digit, .ch '-', digit, digit, .ch '-', digit,
      digit]
  | .placeholder => seqs [.ch '<', orgIdent, .ch '>']
  | .inlineExport => seqs [.lit "@@".toList, .many1 wordCls, .ch ':', .upto ["@@".toList]]
  | .warnPeriod => seqs [.ch '-', digits, .many1 isAlpha]
  | .timeSec => seqs [digit, digit, .ch ':', digit, digit, .ch ':', digit, digit]
  | .time => seqs [digits, .ch ':', digit, digit]
  | .date => seqs [digit, digit, digit, digit, .ch '-', digit, digit, .ch '-', digit, digit]
  | .wordNumAlpha => seqs [digits, .opt (.ch '_'), .many1 isAlpha]
  | .wordNumUnder => seqs [digits, .ch '_', digits, .star (.seq (.ch '_') digits)]

/-- The concrete matcher. -/
def stdLex : Lexy := fun p s => p.rx.run s

/-! ## The concrete matcher is sane -/

theorem takeWhile_length_le {p : Char → Bool} (s : List Char) : (s.takeWhile p).length ≤ s.length :=
  (List.takeWhile_sublist _).length_le

theorem mem_takeWhile_p {p : Char → Bool} {x : Char} {s : List Char} (h : x ∈ s.takeWhile p) :
    p x = true := by
  induction s with
  | nil => simp at h
  | cons y s ih =>
    rw [List.takeWhile_cons] at h
    split at h
    · rcases List.mem_cons.mp h with rfl | h
      · assumption
      · exact ih h
    · simp at h

theorem untilRun_spec {ls : List (List Char)} {s : List Char} {n : Nat} (h : untilRun ls s = some n) :
    ∃ body l, l ∈ ls ∧ s.take n = body ++ l ∧ n ≤ s.length ∧ l.length ≤ n := by
  induction s generalizing n with
  | nil => cases h
  | cons c r ih =>
    rw [untilRun] at h
    split at h
    · rename_i l hl
      cases h
      have hp := List.find?_some hl
      have hm := List.mem_of_find?_eq_some hl
      rw [List.isPrefixOf_iff_prefix] at hp
      refine ⟨[], l, hm, ?_, hp.length_le, Nat.le_refl _⟩
      rw [List.nil_append]
      exact (List.prefix_iff_eq_take.mp hp).symm
    · cases hu : untilRun ls r with
      | none => rw [hu] at h; cases h
      | some m =>
        rw [hu] at h
        cases h
        obtain ⟨body, l, h1, h2, h3, h4⟩ := ih hu
        exact ⟨c :: body, l, h1, by simp [h2], by simp; omega, by dsimp only; omega⟩

theorem starRun_le (f : List Char → Option Nat) (hf : ∀ s n, f s = some n → n ≤ s.length) (n : Nat)
    (s : List Char) : starRun f n s ≤ s.length := by
  induction n generalizing s with
  | zero => simp [starRun]
  | succ n ih =>
    rw [starRun]
    split
    · rename_i k hk
      have := hf s _ hk
      have := ih (s.drop (k + 1))
      rw [List.length_drop] at this
      omega
    · omega

theorem Rx.run_le (x : Rx) (s : List Char) (n : Nat) (h : x.run s = some n) : n ≤ s.length := by
  induction x generalizing s n with
  | lit l =>
    simp only [run] at h
    split at h
    · cases h
      rename_i hp
      exact (List.isPrefixOf_iff_prefix.mp hp).length_le
    · cases h
  | ilit l =>
    simp only [run] at h
    split at h
    · cases h
      rename_i hp
      simpa using (List.isPrefixOf_iff_prefix.mp hp).length_le
    · cases h
  | cls p =>
    simp only [run] at h
    split at h
    · split at h <;> cases h
      simp
    · cases h
  | many p => simp only [run] at h; cases h; exact takeWhile_length_le s
  | seq a b iha ihb =>
    simp only [run] at h
    split at h
    · rename_i k hk
      cases hb : b.run (s.drop k) with
      | none => rw [hb] at h; cases h
      | some m =>
        rw [hb] at h; cases h
        have h1 := iha _ _ hk
        have h2 := ihb _ _ hb
        rw [List.length_drop] at h2
        dsimp only
        omega
    · cases h
  | alt a b iha ihb =>
    simp only [run] at h
    split at h
    · cases h; exact iha _ _ ‹_›
    · exact ihb _ _ h
  | opt a iha =>
    simp only [run] at h
    cases h
    cases ha : a.run s with
    | none => simp
    | some m => simpa using iha _ _ ha
  | star a iha => simp only [run] at h; cases h; exact starRun_le _ iha _ _
  | upto ls =>
    simp only [run] at h
    obtain ⟨_, _, _, _, h, _⟩ := untilRun_spec h
    exact h
  | notBefore a c iha =>
    simp only [run] at h
    split at h
    · split at h
      · cases h
      · cases h; exact iha _ _ ‹_›
    · cases h

theorem Rx.run_least (x : Rx) (s : List Char) (n : Nat) (h : x.run s = some n) : x.least ≤ n := by
  induction x generalizing s n with
  | lit l =>
    simp only [run] at h
    split at h <;> cases h
    exact Nat.le_refl _
  | ilit l =>
    simp only [run] at h
    split at h <;> cases h
    exact Nat.le_refl _
  | cls p =>
    simp only [run] at h
    split at h
    · split at h <;> cases h
      exact Nat.le_refl _
    · cases h
  | many p => exact Nat.zero_le _
  | seq a b iha ihb =>
    simp only [run] at h
    split at h
    · rename_i k hk
      cases hb : b.run (s.drop k) with
      | none => rw [hb] at h; cases h
      | some m =>
        rw [hb] at h; cases h
        have h1 := iha _ _ hk
        have h2 := ihb _ _ hb
        simp only [least]
        omega
    · cases h
  | alt a b iha ihb =>
    simp only [run] at h
    split at h
    · cases h; exact Nat.le_trans (Nat.min_le_left _ _) (iha _ _ ‹_›)
    · exact Nat.le_trans (Nat.min_le_right _ _) (ihb _ _ h)
  | opt a iha => exact Nat.zero_le _
  | star a iha => exact Nat.zero_le _
  | upto ls =>
    simp only [run] at h
    obtain ⟨_, l, hl, _, _, h2⟩ := untilRun_spec h
    simp only [least]
    refine Nat.le_trans ?_ h2
    cases hm : (ls.map List.length).min? with
    | none => simp
    | some m =>
      simp only [Option.getD_some]
      exact (List.min?_eq_some_iff.mp hm).2 _ (List.mem_map_of_mem hl)
  | notBefore a c iha =>
    simp only [run] at h
    split at h
    · split at h
      · cases h
      · cases h; exact iha _ _ ‹_›
    · cases h

theorem Rx.run_noNl (x : Rx) (hx : x.noNl = true) (s : List Char) (n : Nat) (h : x.run s = some n) :
    '\n' ∉ s.take n := by
  induction x generalizing s n with
  | lit l =>
    simp only [run] at h
    split at h <;> cases h
    rename_i hp
    rw [← List.prefix_iff_eq_take.mp (List.isPrefixOf_iff_prefix.mp hp)]
    simpa [noNl] using hx
  | ilit l => cases hx
  | cls p =>
    simp only [run] at h
    split at h
    · split at h <;> cases h
      rename_i hp
      simp only [noNl, Bool.not_eq_true'] at hx
      simp
      rintro rfl
      rw [hx] at hp; cases hp
    · cases h
  | many p =>
    simp only [run] at h
    cases h
    simp only [noNl, Bool.not_eq_true'] at hx
    rw [← List.prefix_iff_eq_take.mp (List.takeWhile_prefix p)]
    intro hm
    have := mem_takeWhile_p hm
    rw [hx] at this; cases this
  | seq a b iha ihb =>
    simp only [run] at h
    simp only [noNl, Bool.and_eq_true] at hx
    split at h
    · rename_i k hk
      cases hb : b.run (s.drop k) with
      | none => rw [hb] at h; cases h
      | some m =>
        rw [hb] at h; cases h
        rw [List.take_add, List.mem_append]
        rintro (h' | h')
        · exact iha hx.1 _ _ hk h'
        · exact ihb hx.2 _ _ hb h'
    · cases h
  | alt a b iha ihb =>
    simp only [noNl, Bool.and_eq_true] at hx
    simp only [run] at h
    split at h
    · cases h; exact iha hx.1 _ _ ‹_›
    · exact ihb hx.2 _ _ h
  | opt a iha =>
    simp only [run] at h
    cases h
    cases ha : a.run s with
    | none => simp
    | some m => simpa using iha hx _ _ ha
  | star a iha => cases hx
  | upto ls => cases hx
  | notBefore a c iha =>
    simp only [run] at h
    split at h
    · split at h
      · cases h
      · cases h; exact iha hx _ _ ‹_›
    · cases h

theorem lit_prefix {l : List Char} {y : Rx} {s : List Char} {n : Nat}
    (h : (Rx.seq (.lit l) y).run s = some n) :
    ∃ t m, s = l ++ t ∧ y.run t = some m ∧ n = l.length + m := by
  simp only [Rx.run] at h
  split at h
  · rename_i k hk
    split at hk <;> cases hk
    rename_i hp
    obtain ⟨t, rfl⟩ := List.isPrefixOf_iff_prefix.mp hp
    rw [List.drop_left] at h
    cases hy : y.run t with
    | none => rw [hy] at h; cases h
    | some m => rw [hy] at h; cases h; exact ⟨t, m, rfl, hy, rfl⟩
  · cases h

theorem many1_seq {p : Char → Bool} {y : Rx} {s : List Char} {n : Nat}
    (h : (Rx.seq (.many1 p) y).run s = some n) :
    ∃ w t m, s = w ++ t ∧ (∀ c ∈ w, p c = true) ∧ y.run t = some m ∧ n = w.length + m := by
  simp only [Rx.many1, Rx.run] at h
  cases s with
  | nil => simp at h
  | cons c s =>
    by_cases hc : p c = true
    · simp only [hc, if_true, List.drop_succ_cons, List.drop_zero, Option.map_some] at h
      cases hy : y.run (List.drop (1 + (List.takeWhile p s).length) (c :: s)) with
      | none => rw [hy] at h; cases h
      | some m =>
        rw [hy] at h
        cases h
        have hd : List.drop (1 + (List.takeWhile p s).length) (c :: s) = s.dropWhile p := by
          rw [Nat.add_comm, List.drop_succ_cons]
          conv => lhs; arg 2; rw [← List.takeWhile_append_dropWhile (p := p) (l := s)]
          rw [List.drop_left]
        rw [hd] at hy
        refine ⟨c :: s.takeWhile p, s.dropWhile p, m, by simp, ?_, hy, by simp; omega⟩
        intro x hx
        rcases List.mem_cons.mp hx with rfl | hx
        · exact hc
        · exact mem_takeWhile_p hx
    · simp [hc] at h

theorem stdLex_sane : Sane stdLex where
  bound p r n h := by
    refine ⟨Nat.le_trans ?_ (Rx.run_least _ _ _ h), Rx.run_le _ _ _ h⟩
    cases p <;> decide
  link p r n hp h := by
    rcases hp with rfl | rfl
    · obtain ⟨t, m, h1, _⟩ := lit_prefix h; exact ⟨t, h1.symm⟩
    · obtain ⟨t, m, h1, _⟩ := lit_prefix h; exact ⟨t, h1.symm⟩
  time p r n hp h := by
    rcases hp with rfl | rfl
    · exact Rx.run_noNl _ (by decide) _ _ h
    · exact Rx.run_noNl _ (by decide) _ _ h
  exports r n h := by
    obtain ⟨t, m, h1, h2, _⟩ := lit_prefix h
    obtain ⟨w, t', m', h3, h4, h5, _⟩ := many1_seq h2
    obtain ⟨t'', m'', h6, h7, _⟩ := lit_prefix h5
    obtain ⟨body, l, hl, h8, _, _⟩ := untilRun_spec h7
    simp at hl
    subst hl
    refine ⟨w, body, t''.drop m'', ?_, fun c hc => by simpa [wordCls] using h4 c hc⟩
    have h9 : t'' = body ++ "@@".toList ++ t''.drop m'' := by
      conv => lhs; rw [← List.take_append_drop m'' t'', h8]
      rfl
    rw [h1, h3, h6]
    conv => lhs; rw [h9]
    simp

end Verif.BaseLexer
