import Verif.Pipeline.ProseLex

/-!
# One piece of prose is one token
-/

namespace Verif.Pipeline
open Verif.Token Verif.BaseLexer

/-- Lexing a piece: one token with the text of the piece, and the cursor behind it. -/
def Lexes (p : Piece) (v : List Char) (col : Nat) (f : St → Except Err St) : Prop :=
  ∀ pos prev out, ∃ col' prev', f ⟨⟨p.text ++ v, pos, col, prev⟩, out⟩ =
    .ok ⟨⟨v, pos + p.text.length, col', prev'⟩, out ++ [⟨p.kind, p.text, some pos⟩]⟩ ∧ (col' = 0 ↔ p.isBrk = true)

theorem lexes_token {p : Piece} {v : List Char} {col : Nat} {f : Cur → Cur} (hne : p.text ≠ [])
    (hl : ∀ x ∈ p.text.getLast?, x = '\n' ↔ p.isBrk = true)
    (h : ∀ pos prev, f ⟨p.text ++ v, pos, col, prev⟩ = Cur.adv p.text.length ⟨p.text ++ v, pos, col, prev⟩) :
    Lexes p v col (token p.kind f) := by
  intro pos prev out
  obtain ⟨col', prev', h1, h2⟩ := token_eq (k := p.kind) (out := out) (h pos prev)
  refine ⟨col', prev', h1, ?_⟩
  cases hx : p.text.getLast? with
  | none => exact absurd (List.getLast?_eq_none_iff.mp hx) hne
  | some x => rw [h2 x hx, hl x hx]

theorem lexes_adv {p : Piece} {v : List Char} {col : Nat} (hne : p.text ≠ [])
    (hl : ∀ x ∈ p.text.getLast?, x = '\n' ↔ p.isBrk = true) : Lexes p v col (tokenAdv p.kind p.text.length) :=
  lexes_token hne hl (fun _ _ => rfl)

/-! ## Which case of the switch -/

theorem charSwitch_alpha {c : Char} {r : List Char} {pos col : Nat} {prev : Option Char} {out : List Tok} (h : isAlpha c = true) :
    charSwitch stdLex ⟨⟨c :: r, pos, col, prev⟩, out⟩ = switchWord stdLex ⟨⟨c :: r, pos, col, prev⟩, out⟩ := by
  have hc : ∀ x, isAlpha x = false → c ≠ x := fun x hx he => by rw [he, hx] at h; cases h
  have hs : simpleKind c = none := by
    unfold simpleKind
    iterate 15 rw [if_neg (hc _ (by decide))]
  unfold charSwitch
  simp only [hs]
  iterate 18 rw [if_neg (hc _ (by decide))]
  rw [if_pos h]

theorem charSwitch_digit {c : Char} {r : List Char} {pos col : Nat} {prev : Option Char} {out : List Tok} (h : isDigit c = true) :
    charSwitch stdLex ⟨⟨c :: r, pos, col, prev⟩, out⟩ = caseDigit stdLex ⟨⟨c :: r, pos, col, prev⟩, out⟩ := by
  have hc : ∀ x, isDigit x = false → c ≠ x := fun x hx he => by rw [he, hx] at h; cases h
  have hs : simpleKind c = none := by
    unfold simpleKind
    iterate 15 rw [if_neg (hc _ (by decide))]
  have ha : isAlpha c = false := by
    simp only [isDigit, Bool.and_eq_true, decide_eq_true_eq] at h
    have h2 : c.toNat ≤ 57 := h.2
    simp only [isAlpha, isLower, isUpper, Bool.or_eq_false_iff, Bool.and_eq_false_iff, decide_eq_false_iff_not]
    refine ⟨.inl fun h3 => ?_, .inl fun h3 => ?_⟩
    · have h3' : 97 ≤ c.toNat := h3
      omega
    · have h3' : 65 ≤ c.toNat := h3
      omega
  unfold charSwitch
  simp only [hs]
  iterate 18 rw [if_neg (hc _ (by decide))]
  rw [if_neg (by simp [ha]), if_pos h]

theorem charSwitch_multi {c : Char} {r : List Char} {pos col : Nat} {prev : Option Char} {out : List Tok} (h : 0x80 ≤ c.toNat)
    (h2 : c.toNat < 0xF0) :
    charSwitch stdLex ⟨⟨c :: r, pos, col, prev⟩, out⟩ = token .AnyPunct Cur.nextUnicode ⟨⟨c :: r, pos, col, prev⟩, out⟩ := by
  have hc : ∀ x : Char, x.toNat < 0x80 → c ≠ x := fun x hx he => by rw [he] at h; omega
  have hs : simpleKind c = none := by
    unfold simpleKind
    iterate 15 rw [if_neg (hc _ (by decide))]
  have ha : isAlpha c = false := by
    simp only [isAlpha, isLower, isUpper, Bool.or_eq_false_iff, Bool.and_eq_false_iff, decide_eq_false_iff_not]
    refine ⟨.inr fun h3 => ?_, .inr fun h3 => ?_⟩
    · have h3' : c.toNat ≤ 122 := h3
      omega
    · have h3' : c.toNat ≤ 90 := h3
      omega
  have hd : isDigit c = false := by
    simp only [isDigit, Bool.and_eq_false_iff, decide_eq_false_iff_not]
    refine .inr fun h3 => ?_
    have h3' : c.toNat ≤ 57 := h3
    omega
  have hu : isUni c = false := by
    simp only [isUni, decide_eq_false_iff_not]
    omega
  unfold charSwitch
  simp only [hs]
  iterate 18 rw [if_neg (hc _ (by decide))]
  simp [ha, hd, hu]

/-! ## Words -/

theorem stem_colon {s : List Char} (h : Stem s) : ':' ∉ s := by
  intro hm
  obtain ⟨a, b, hab⟩ := List.append_of_mem hm
  have h1 := stem_wordChar h [] a (':' :: b) hab (by simp)
  cases b with
  | nil => exact absurd h1 (by decide)
  | cons x b => simp [wordChar, show isAlnum ':' = false from by decide] at h1

theorem word_colon {w : List Char} (h : IsWord w) : ':' ∉ w := by
  obtain ⟨_, ⟨stem, rest, rfl, h1, h2⟩, _⟩ := h
  intro hm
  rcases List.mem_append.mp hm with hm | hm
  · exact stem_colon h1 hm
  · rcases h2 with rfl | ⟨r, rfl, h2⟩
    · cases hm
    · rcases List.mem_cons.mp hm with hm | hm
      · exact absurd hm (by decide)
      · have := h2 _ hm
        exact absurd this (by decide)

theorem endsWord_weak {v : List Char} (h : EndsWord v) : ∀ c ∈ v.head?, isAlnum c = false := fun c hc => (h c hc).1

theorem not_tree_time {w v : List Char} (hw : IsWord w) (hv : EndsWord v) (name : List Char) (hn : ∀ c ∈ name, isAlnum c = true)
    (h : v.head? = some ':' → w ≠ name) : isAtStr (w ++ v) (name ++ [':']) = false := by
  cases he : isAtStr (w ++ v) (name ++ [':']) with
  | false => rfl
  | true =>
    simp only [isAtStr, List.drop_zero, List.isPrefixOf_iff_prefix] at he
    obtain ⟨h1, h2⟩ := prefix_colon (t := name) (w := w) (v := v) id (fun _ _ => rfl) (fun _ h => h) hn (word_colon hw) (endsWord_weak hv) (by simpa using he)
    exact absurd (by simpa using h1) (h h2)

theorem lexes_word {w v : List Char} {col : Nat} (hw : IsWord w) (hv : EndsWord v) (hne : v ≠ [])
    (hc : v.head? = some ':' → w ∉ ["SCHEDULED".toList, "DEADLINE".toList, "CLOSED".toList]) :
    Lexes (.word w) v col (charSwitch stdLex) := by
  obtain ⟨⟨c, hc1, hc2⟩, ⟨stem, rest, hsr, h1, h2⟩, h3, h4⟩ := id hw
  have hwne : w ≠ [] := by rintro rfl; cases hc1
  have hlast : ∀ x ∈ w.getLast?, x ≠ '\n' := by
    intro x hx hx'
    subst hx'
    have hm := List.mem_of_getLast? hx
    rw [hsr] at hm
    rcases List.mem_append.mp hm with hm | hm
    · obtain ⟨a, b, hab⟩ := List.append_of_mem hm
      have h5 := stem_wordChar h1 [] a ('\n' :: b) hab (by simp)
      cases b with
      | nil => exact absurd h5 (by decide)
      | cons x b => simp [wordChar, show isAlnum '\n' = false from by decide] at h5
    · rcases h2 with rfl | ⟨r, rfl, h2⟩
      · cases hm
      · rcases List.mem_cons.mp hm with hm | hm
        · exact absurd hm (by decide)
        · exact absurd (h2 _ hm) (by decide)
  have hplain : Lexes (.word w) v col plainWord := by
    refine lexes_token (p := .word w) hwne (fun x hx => ?_) (fun pos prev => ?_)
    · simp [Piece.isBrk, hlast x hx]
    · show advWord _ = _
      simp only [Piece.text]
      have := advWord_eq h1 h2 hv ⟨w ++ v, pos, col, prev⟩ (by rw [hsr])
      rw [this, hsr]
  intro pos prev out
  obtain ⟨col', prev', h5, h6⟩ := hplain pos prev out
  refine ⟨col', prev', ?_, h6⟩
  rw [← h5]
  obtain ⟨x, w', rfl⟩ : ∃ x w', w = x :: w' := by
    cases w with
    | nil => exact absurd rfl hwne
    | cons x w' => exact ⟨x, w', rfl⟩
  simp only [List.head?_cons, Option.mem_def, Option.some.injEq] at hc1
  subst hc1
  simp only [Piece.text, List.cons_append]
  rw [charSwitch_alpha hc2]
  have htimes : ∀ name ∈ ["SCHEDULED".toList, "DEADLINE".toList, "CLOSED".toList],
      isAtStr (x :: (w' ++ v)) (name ++ [':']) = false := by
    intro name hn
    refine not_tree_time (w := x :: w') hw hv name ?_ (fun hh he => hc hh (he ▸ hn))
    simp only [List.mem_cons, List.not_mem_nil, or_false] at hn
    rcases hn with rfl | rfl | rfl <;> decide
  have hn1 : isAtStr (x :: (w' ++ v)) "SCHEDULED:".toList = false := htimes "SCHEDULED".toList (by simp)
  have hn2 : isAtStr (x :: (w' ++ v)) "DEADLINE:".toList = false := htimes "DEADLINE".toList (by simp)
  have hn3 : isAtStr (x :: (w' ++ v)) "CLOSED:".toList = false := htimes "CLOSED".toList (by simp)
  have hhttp : isIat (x :: (w' ++ v)) "http".toList = .ok false :=
    isIat_false (w := x :: w') (by decide) (endsWord_weak hv) hne h3
  have hsrc : stdLex .inlineSrc (x :: (w' ++ v)) = none := by
    have : (Rx.ilit "src".toList).run (x :: (w' ++ v)) = none := by
      simp only [Rx.run]
      rw [if_neg]
      rw [List.isPrefixOf_iff_prefix]
      intro hp
      exact h4 (prefix_word (w := x :: w') (by decide) (endsWord_weak hv) hp)
    simp only [stdLex, Pat.rx, seqs]
    rw [Rx.run, this]
  unfold switchWord
  simp only [wordH, wordS, hhttp, hn1, hn2, hn3, hsrc, bind, Except.bind, Bool.false_eq_true, if_false, and_false, ite_self]

/-! ## Numbers -/

theorem digits_run {ds v : List Char} (hne : ds ≠ []) (hd : ∀ c ∈ ds, isDigit c = true) (hv : ∀ c ∈ v.head?, isDigit c = false) :
    digits.run (ds ++ v) = some ds.length := by
  cases ds with
  | nil => exact absurd rfl hne
  | cons a ds =>
    have h1 := hd a List.mem_cons_self
    have h2 : (ds ++ v).takeWhile isDigit = ds := by
      rw [List.takeWhile_append_of_pos (fun c hc => hd c (List.mem_cons_of_mem _ hc))]
      cases v with
      | nil => simp
      | cons c v => simp [hv c rfl]
    simp [digits, Rx.many1, Rx.run, h1, h2]
    omega

theorem ch_run {c : Char} {v : List Char} (h : v.head? ≠ some c) : (Rx.ch c).run v = none := by
  simp only [Rx.ch, Rx.run]
  rw [if_neg]
  cases v with
  | nil => simp
  | cons x v =>
    simp only [List.head?_cons, ne_eq, Option.some.injEq] at h
    simp [List.isPrefixOf, Ne.symm h]

theorem alnum_digit {c : Char} (h : isAlnum c = false) : isDigit c = false := by
  simp only [isAlnum, Bool.or_eq_false_iff] at h; exact h.2

theorem alnum_alpha {c : Char} (h : isAlnum c = false) : isAlpha c = false := by
  simp only [isAlnum, Bool.or_eq_false_iff] at h; exact h.1

theorem digit_ne {c x : Char} (h : isDigit c = true) (hx : isDigit x = false) : c ≠ x := by
  rintro rfl; rw [h] at hx; cases hx

theorem seq_left {a b : Rx} {s : List Char} (h : a.run s = none) : (Rx.seq a b).run s = none := by
  simp only [Rx.run, h]

theorem seq_digit {b : Rx} {s : List Char} (h : ∀ c t, s = c :: t → isDigit c = true → b.run t = none) : (Rx.seq digit b).run s = none := by
  cases s with
  | nil => rfl
  | cons c t =>
    by_cases hc : isDigit c = true
    · simp [Rx.run, digit, hc, h c t rfl hc]
    · simp [Rx.run, digit, hc]

theorem seq_digits {b : Rx} {ds v : List Char} (hne : ds ≠ []) (hd : ∀ c ∈ ds, isDigit c = true) (hv : ∀ c ∈ v.head?, isDigit c = false)
    (h : b.run v = none) : (Rx.seq digits b).run (ds ++ v) = none := by
  simp only [Rx.run, digits_run hne hd hv, List.drop_left, h]
  rfl

/-- After some digits of a number comes a digit or the end of the number. -/
theorem after_digits {ds v a t : List Char} {x : Char} (hv : ∀ c ∈ v.head?, isDigit c = false) (hd : ∀ c ∈ ds, isDigit c = true)
    (hx : isDigit x = false) (hvx : v.head? ≠ some x) (ha : ∀ c ∈ a, isDigit c = true) (h : ds ++ v = a ++ t) : t.head? ≠ some x := by
  induction a generalizing ds with
  | nil =>
    simp only [List.nil_append] at h
    subst h
    cases ds with
    | nil => exact hvx
    | cons d ds => simp [digit_ne (hd d (by simp)) hx]
  | cons b a ih =>
    cases ds with
    | nil =>
      simp only [List.nil_append] at h
      subst h
      have := hv b rfl
      rw [ha b List.mem_cons_self] at this
      cases this
    | cons d ds =>
      simp only [List.cons_append, List.cons.injEq] at h
      exact ih (fun c hc => hd c (List.mem_cons_of_mem _ hc)) (fun c hc => ha c (List.mem_cons_of_mem _ hc)) h.2

theorem lexes_number {ds v : List Char} {col : Nat} (hne : ds ≠ []) (hd : ∀ c ∈ ds, isDigit c = true) (hv : EndsWord v)
    (hcol : v.head? ≠ some ':') : Lexes (.number ds) v col (charSwitch stdLex) := by
  have hvd : ∀ c ∈ v.head?, isDigit c = false := fun c hc => alnum_digit (hv c hc).1
  have hminus : v.head? ≠ some '-' := fun hh => (hv _ hh).2.1 rfl
  have hunder : v.head? ≠ some '_' := fun hh => (hv _ hh).2.2.1 rfl
  have hnum : Lexes (.number ds) v col (token .Number (fun c => c.advWhile fun r => isAtAny r isDigit)) := by
    refine lexes_token (p := .number ds) hne (fun x hx => ?_) (fun pos prev => ?_)
    · have := hd x (List.mem_of_getLast? hx)
      simp [Piece.isBrk, digit_ne this (show isDigit '\n' = false from by decide)]
    · refine advWhile_eq ds _ v rfl (fun a b hab hb => ?_) ?_
      · cases b with
        | nil => exact absurd rfl hb
        | cons x b => simp [isAtAny, hd x (by rw [hab]; simp)]
      · cases v with
        | nil => exact .inl rfl
        | cons x v => exact .inr (by simp [isAtAny, hvd x rfl])
  have halpha : (Rx.cls isAlpha).run v = none := by
    cases v with
    | nil => rfl
    | cons x v => simp [Rx.run, alnum_alpha (hv x rfl).1]
  have e1 : stdLex .timeSec (ds ++ v) = none := by
    simp only [stdLex, Pat.rx, seqs]
    refine seq_digit (fun a t h1 ha => seq_digit (fun b t' h2 hb => seq_left (ch_run ?_)))
    refine after_digits (a := [a, b]) hvd hd (by decide) hcol ?_ (by rw [h1, h2]; rfl)
    simp [ha, hb]
  have e2 : stdLex .time (ds ++ v) = none := by
    simp only [stdLex, Pat.rx, seqs]
    exact seq_digits hne hd hvd (seq_left (ch_run hcol))
  have e3 : stdLex .date (ds ++ v) = none := by
    simp only [stdLex, Pat.rx, seqs]
    refine seq_digit (fun a t h1 ha => seq_digit (fun b t' h2 hb => seq_digit (fun c t'' h3 hc => seq_digit (fun d t4 h4 hd' =>
      seq_left (ch_run ?_)))))
    refine after_digits (a := [a, b, c, d]) hvd hd (by decide) hminus ?_ (by rw [h1, h2, h3, h4]; rfl)
    simp [ha, hb, hc, hd']
  have e4 : stdLex .wordNumAlpha (ds ++ v) = none := by
    simp only [stdLex, Pat.rx, seqs]
    refine seq_digits hne hd hvd ?_
    have : (Rx.ch '_').run v = none := ch_run hunder
    simp only [Rx.run, this, Option.getD_none, List.drop_zero]
    simp only [Rx.many1, seq_left halpha]
    rfl
  have e5 : stdLex .wordNumUnder (ds ++ v) = none := by
    simp only [stdLex, Pat.rx, seqs]
    exact seq_digits hne hd hvd (seq_left (ch_run hunder))
  intro pos prev out
  obtain ⟨col', prev', h5, h6⟩ := hnum pos prev out
  refine ⟨col', prev', ?_, h6⟩
  rw [← h5]
  obtain ⟨x, w', rfl⟩ : ∃ x w', ds = x :: w' := by
    cases ds with
    | nil => exact absurd rfl hne
    | cons x w' => exact ⟨x, w', rfl⟩
  simp only [Piece.text]
  rw [List.cons_append, charSwitch_digit (hd x (by simp))]
  simp only [List.cons_append] at e1 e2 e3 e4 e5
  simp only [caseDigit, e1, e2, e3, e4, e5]

/-! ## The other pieces -/

theorem lexes_gap {n : Nat} {v : List Char} {col : Nat} (hv : v.head? ≠ some ' ') : Lexes (.gap n) v col (charSwitch stdLex) := by
  have h : Lexes (.gap n) v col (token .Whitespace (advChar1 ' ')) := by
    refine lexes_token (p := .gap n) (by simp [Piece.text]) (fun x hx => ?_) (fun pos prev => ?_)
    · simp only [Piece.text, List.getLast?_replicate] at hx
      simp at hx
      subst hx
      simp [Piece.isBrk]
    · refine advWhile_eq _ _ v rfl (fun a b hab hb => ?_) ?_
      · cases b with
        | nil => exact absurd rfl hb
        | cons x b =>
          have : x ∈ (Piece.gap n).text := by rw [hab]; simp
          simp only [Piece.text, List.mem_replicate] at this
          simp [isAt, this.2]
      · cases v with
        | nil => exact .inl rfl
        | cons x v =>
          refine .inr ?_
          simp only [List.head?_cons, ne_eq, Option.some.injEq] at hv
          simp [isAt, hv]
  exact h

theorem lexes_colon {v : List Char} {col : Nat} (hv : v.head? ≠ some ':') : Lexes .colon v col (charSwitch stdLex) := by
  have h : Lexes .colon v col (tokenAdv .Colon 1) := lexes_adv (p := .colon) (by simp [Piece.text]) (by simp [Piece.text, Piece.isBrk])
  intro pos prev out
  obtain ⟨col', prev', h1, h2⟩ := h pos prev out
  refine ⟨col', prev', ?_, h2⟩
  rw [← h1]
  simp only [Piece.text, List.cons_append, List.nil_append]
  show caseColon _ = _
  unfold caseColon
  rw [if_neg]
  simp only [isAt, List.getElem?_cons_succ, decide_eq_true_eq]
  rwa [List.head?_eq_getElem?] at hv

theorem lexes_slash {v : List Char} {col : Nat} : Lexes .slash v col (charSwitch stdLex) :=
  lexes_adv (p := .slash) (by simp [Piece.text]) (by simp [Piece.text, Piece.isBrk])

theorem lexes_star {v : List Char} {col : Nat} (hv : col = 0 → v.head? ≠ some '*' ∧ v.head? ≠ some ' ') :
    Lexes .star v col (charSwitch stdLex) := by
  have h : Lexes .star v col (tokenAdv .Asterisk 1) := lexes_adv (p := .star) (by simp [Piece.text]) (by simp [Piece.text, Piece.isBrk])
  intro pos prev out
  obtain ⟨col', prev', h1, h2⟩ := h pos prev out
  refine ⟨col', prev', ?_, h2⟩
  rw [← h1]
  simp only [Piece.text, List.cons_append, List.nil_append]
  show caseStar stdLex _ = _
  unfold caseStar
  rw [if_neg]
  rintro ⟨hc, hs⟩
  obtain ⟨h3, h4⟩ := hv hc
  have : stdLex .stars ('*' :: v) = none := by
    have hw : v.takeWhile (fun c => decide (c = '*')) = [] := by
      cases v with
      | nil => rfl
      | cons x v =>
        simp only [List.head?_cons, ne_eq, Option.some.injEq] at h3
        simp [h3]
    simp only [stdLex, Pat.rx, Rx.many1, Rx.run]
    simp only [decide_true, if_true, List.drop_succ_cons, List.drop_zero, hw, List.length_nil, Option.map_some]
    rw [ch_run h4]
    rfl
  rw [this] at hs
  cases hs

theorem newlineRun_brk (n : Nat) (v : List Char) (hv : v.head? ≠ some '\n') (hs : v.head? ≠ some ' ') :
    newlineRun (List.replicate (n + 1) '\n' ++ v) 0 = (n + 1, n + 1) := by
  induction n with
  | zero =>
    show newlineRun ('\n' :: v) 0 = _
    simp only [newlineRun]
    have h1 : spaces v = 0 := by
      cases v with
      | nil => rfl
      | cons x v =>
        simp only [List.head?_cons, ne_eq, Option.some.injEq] at hs
        simp [spaces, hs]
    rw [h1, if_neg]
    simp only [isAt, decide_eq_true_eq]
    rwa [List.head?_eq_getElem?] at hv
  | succ n ih =>
    rw [List.replicate_succ, List.cons_append]
    simp only [newlineRun]
    have h1 : spaces (List.replicate (n + 1) '\n' ++ v) = 0 := by simp [spaces, List.replicate_succ]
    rw [h1, if_pos (by simp [isAt, List.replicate_succ]), ih]

theorem lexes_brk {n : Nat} {v : List Char} {col : Nat} (hv : v.head? ≠ some '\n') (hs : v.head? ≠ some ' ') :
    Lexes (.brk n) v col (charSwitch stdLex) := by
  have h : Lexes (.brk n) v col (tokenAdv (Piece.brk n).kind (Piece.brk n).text.length) :=
    lexes_adv (p := .brk n) (by simp [Piece.text]) (fun x hx => by
      simp only [Piece.text, List.getLast?_replicate] at hx
      simp at hx
      simp [← hx, Piece.isBrk])
  intro pos prev out
  obtain ⟨col', prev', h1, h2⟩ := h pos prev out
  refine ⟨col', prev', ?_, h2⟩
  rw [← h1]
  have hsw : charSwitch stdLex ⟨⟨(Piece.brk n).text ++ v, pos, col, prev⟩, out⟩ = caseNewline ⟨⟨(Piece.brk n).text ++ v, pos, col, prev⟩, out⟩ := by
    simp only [Piece.text, List.replicate_succ, List.cons_append]
    rfl
  rw [hsw]
  unfold caseNewline
  have hrun := newlineRun_brk n v hv hs
  simp only [Piece.text, hrun, List.length_replicate]
  match n with
  | 0 => rfl
  | 1 => rfl
  | n + 2 => simp [Piece.kind]

theorem lexes_unicode {c : Char} {r v : List Char} {col : Nat} (hn : c ≠ '\n') (hu : uniSize c = (c :: r).length)
    (hk : glyphKind (c :: r) = .AnyPunct) : Lexes (.glyph (c :: r)) v col (token .AnyPunct Cur.nextUnicode) := by
  intro pos prev out
  have hmin : min (uniSize c) (c :: (r ++ v)).length = (c :: r).length := by
    rw [hu]
    simp
  refine ⟨col + 1, (c :: r).getLast?, ?_, by simp [Piece.isBrk]⟩
  simp only [token, tokenCb, bind, Except.bind, pure, Except.pure, Piece.text, List.cons_append, Cur.nextUnicode, if_neg hn, hmin,
    Piece.kind, hk]
  rw [hu, Nat.add_sub_cancel_left]
  have h1 : (c :: (r ++ v)).drop (c :: r).length = v := List.drop_left (l₁ := c :: r)
  have h2 : (c :: (r ++ v)).take (c :: r).length = c :: r := List.take_left (l₁ := c :: r)
  rw [h1, h2]

theorem no_repeater {v : List Char} (hp : v.head? ≠ some '+') : stdLex .timeRepeater ('.' :: v) = none := by
  simp only [stdLex, Pat.rx, seqs]
  refine seq_left ?_
  cases v with
  | nil => rfl
  | cons x v =>
    simp only [List.head?_cons, ne_eq, Option.some.injEq] at hp
    have : ('+' == x) = false := by simp [Ne.symm hp]
    have h1 : ('.' == '+') = false := by decide
    have h2 : ("++".toList.isPrefixOf ('.' :: x :: v)) = false := rfl
    have h3 : (".+".toList.isPrefixOf ('.' :: x :: v)) = false := by
      show (('.' == '.') && (('+' == x) && true)) = false
      rw [this]
      rfl
    have h4 : (Rx.ch '+').run ('.' :: x :: v) = none := ch_run (by simp)
    simp only [Rx.run] at h4 ⊢
    simp only [h2, h3, h4, Bool.false_eq_true, if_false]

theorem lexes_glyph {u v : List Char} {col : Nat} (hu : IsGlyph u) (hp : v.head? ≠ some '+') : Lexes (.glyph u) v col (charSwitch stdLex) := by
  rcases hu with ⟨c, rfl, hc⟩ | ⟨a, b, rfl, h1, h2, h3⟩ | ⟨a, b, c, rfl, h1, h2, h3, h4⟩
  · simp only [marksTable, List.map_cons, List.map_nil, List.mem_cons, List.not_mem_nil, or_false] at hc
    have hadv : ∀ {k : TK}, glyphKind [c] = k → c ≠ '\n' → Lexes (.glyph [c]) v col (tokenAdv k 1) := by
      intro k hk hn
      subst hk
      exact lexes_adv (p := .glyph [c]) (by simp [Piece.text]) (fun x hx => by
        simp only [Piece.text, List.getLast?_singleton, Option.mem_def, Option.some.injEq] at hx
        simp [← hx, Piece.isBrk, hn])
    rcases hc with rfl | rfl | rfl | rfl | rfl | rfl | rfl | rfl | rfl
    · exact hadv (by decide) (by decide)
    · exact hadv (by decide) (by decide)
    · exact hadv (by decide) (by decide)
    · exact hadv (by decide) (by decide)
    · exact hadv (by decide) (by decide)
    · exact hadv (by decide) (by decide)
    · exact hadv (by decide) (by decide)
    · have h : Lexes (.glyph ['.']) v col (tokenAdv .Punctuation 1) := hadv (by decide) (by decide)
      intro pos prev out
      obtain ⟨col', prev', h1, h2⟩ := h pos prev out
      refine ⟨col', prev', ?_, h2⟩
      rw [← h1]
      show caseDot stdLex _ = _
      unfold caseDot
      simp only [Piece.text, List.cons_append, List.nil_append, no_repeater hp]
      rfl
    · exact lexes_unicode (r := []) (by decide) (by decide) (by decide)
  · have hn : a ≠ '\n' := fun hh => by
      rw [hh] at h1
      exact absurd h1 (by decide)
    have h := lexes_unicode (c := a) (r := [b]) (v := v) (col := col) hn (by
      simp only [uniSize, List.length_cons, List.length_nil]
      rw [if_neg (by omega), if_neg (by omega), if_pos h1]) rfl
    intro pos prev out
    obtain ⟨col', prev', h5, h6⟩ := h pos prev out
    refine ⟨col', prev', ?_, h6⟩
    rw [← h5]
    exact charSwitch_multi (by omega) (by omega)
  · have hn : a ≠ '\n' := fun hh => by
      rw [hh] at h1
      exact absurd h1 (by decide)
    have h := lexes_unicode (c := a) (r := [b, c]) (v := v) (col := col) hn (by
      simp only [uniSize, List.length_cons, List.length_nil]
      rw [if_neg (by omega), if_pos h1]) rfl
    intro pos prev out
    obtain ⟨col', prev', h5, h6⟩ := h pos prev out
    refine ⟨col', prev', ?_, h6⟩
    rw [← h5]
    exact charSwitch_multi (by omega) (by omega)

/-! ## What comes next -/

/-- The first character of a piece. -/
theorem piece_head {p : Piece} (hv : p.Valid) : ∃ c r, p.text = c :: r := by
  cases p with
  | word w =>
    obtain ⟨⟨c, hc, -⟩, -⟩ := hv
    cases w with
    | nil => cases hc
    | cons c r => exact ⟨c, r, rfl⟩
  | number ds =>
    cases ds with
    | nil => exact absurd rfl hv.1
    | cons c r => exact ⟨c, r, rfl⟩
  | gap n => exact ⟨' ', List.replicate n ' ', rfl⟩
  | brk n => exact ⟨'\n', List.replicate n '\n', rfl⟩
  | colon => exact ⟨':', [], rfl⟩
  | star => exact ⟨'*', [], rfl⟩
  | slash => exact ⟨'/', [], rfl⟩
  | glyph u =>
    rcases hv with ⟨c, rfl, -⟩ | ⟨a, b, rfl, -⟩ | ⟨a, b, c, rfl, -⟩
    · exact ⟨c, [], rfl⟩
    · exact ⟨a, [b], rfl⟩
    · exact ⟨a, [b, c], rfl⟩

end Verif.Pipeline
