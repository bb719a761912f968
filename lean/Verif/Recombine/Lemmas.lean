import Verif.Recombine.Spec
import Mathlib.Tactic.SplitIfs

/-!
# Lemmas about the conversion of tokens
-/

namespace Verif.Recombine
open Verif.Token Verif.Tokenizer

/-- `used` becomes `os`, whatever comes after it. -/
def KeptPre (used os : List Tok) : Prop := ∀ ts os', Kept ts os' → Kept (used ++ ts) (os ++ os')

theorem KeptPre.nil : KeptPre [] [] := fun _ _ h => h

theorem KeptPre.append {a b x y : List Tok} (h : KeptPre a x) (h' : KeptPre b y) : KeptPre (a ++ b) (x ++ y) := by
  intro ts os k
  rw [List.append_assoc, List.append_assoc]
  exact h _ _ (h' _ _ k)

theorem Turns.refl (t : Tok) : Turns t t := ⟨rfl, by simp [newKinds], .inl rfl⟩

theorem KeptPre.one {t t' : Tok} (h : Turns t t') : KeptPre [t] [t'] := fun _ _ k => .turn h k

theorem KeptPre.same (l : List Tok) : KeptPre l l := by
  induction l with
  | nil => exact .nil
  | cons t l ih => exact KeptPre.append (.one (.refl t)) ih

theorem KeptPre.cons {t t' : Tok} {a x : List Tok} (h : Turns t t') (h' : KeptPre a x) : KeptPre (t :: a) (t' :: x) :=
  KeptPre.append (.one h) h'

theorem substr_cases (s : List Char) (n : Nat) : substr s n = .ok (s.drop n) ∨ substr s n = .error .range := by
  unfold substr; split <;> simp

theorem substr_ok {s : List Char} {n : Nat} (h : n ≤ s.length) : substr s n = .ok (s.drop n) := by
  unfold substr; rw [if_pos h]

theorem substr_short {s : List Char} {n : Nat} (h : s.length < n) : substr s n = .error .range := by
  unfold substr; rw [if_neg (by omega)]

theorem isEmpty_iff (t : Option Tok) : isEmpty t = true ↔ Blank t := by
  cases t with
  | none => simp [isEmpty, Blank]
  | some x =>
    obtain ⟨k, _, _⟩ := x
    simp only [isEmpty, Blank, Option.mem_def, Option.some.injEq, forall_eq', decide_eq_true_eq]
    cases k <;> decide

theorem wordKind_eq (s : List Char) :
    wordKind s = if ∀ c ∈ s, ('A' ≤ c ∧ c ≤ 'Z') ∨ c = '_' then TK.BigIdent else .Word := by
  unfold wordKind
  have : (s.all (fun c => BaseLexer.isUpper c || c = '_')) = true ↔ ∀ c ∈ s, ('A' ≤ c ∧ c ≤ 'Z') ∨ c = '_' := by
    simp [BaseLexer.isUpper]
  by_cases h : ∀ c ∈ s, ('A' ≤ c ∧ c ≤ 'Z') ∨ c = '_'
  · rw [if_pos h, if_pos (this.mpr h)]
  · rw [if_neg h, if_neg (fun h' => h (this.mp h'))]

theorem marks_eq (k : TK) : markupKinds k = marks k := by cases k <;> rfl

theorem markupKind_eq (p : Option Tok) (t : Tok) (n : Option Tok) (ks : TK × TK × TK) (h : marks t.kind = some ks) :
    markupKind t.kind ks (isEmpty p) (isEmpty n) = kindBetween p t n := by
  have hw : t.kind ≠ .Word := by intro hw; rw [hw] at h; cases h
  obtain ⟨a, b, c⟩ := ks
  unfold kindBetween markupKind
  rw [if_neg hw, h]
  dsimp only
  by_cases hp : Blank p <;> by_cases hn : Blank n
  · have h1 := (isEmpty_iff p).mpr hp; have h2 := (isEmpty_iff n).mpr hn
    by_cases he : t.kind = .Equals <;> by_cases hti : t.kind = .Tilda <;> simp [h1, h2, hp, hn, he, hti]
  · have h1 := (isEmpty_iff p).mpr hp; have h2 : isEmpty n = false := by simpa using mt (isEmpty_iff n).mp hn
    simp [h1, h2, hp, hn]
  · have h1 := (isEmpty_iff n).mpr hn; have h2 : isEmpty p = false := by simpa using mt (isEmpty_iff p).mp hp
    simp [h1, h2, hp, hn]
  · have h1 : isEmpty n = false := by simpa using mt (isEmpty_iff n).mp hn
    have h2 : isEmpty p = false := by simpa using mt (isEmpty_iff p).mp hp
    simp [h1, h2, hp, hn]

theorem kindBetween_plain (p : Option Tok) (t : Tok) (n : Option Tok) (h : t.kind ≠ .Word) (h' : marks t.kind = none) :
    kindBetween p t n = t.kind := by
  unfold kindBetween; rw [if_neg h, h']

/-- The outcome of looking at one token. -/
theorem mapOne_cases (p : Option Tok) (t : Tok) (n : Option Tok) :
    mapOne p t n = .ok (becomes p t n) ∨ (mapOne p t n = .error .range ∧ t.text.length < leastLength t.kind) := by
  by_cases hm : marks t.kind = none
  · obtain ⟨k, s, l⟩ := t
    cases k <;> first
      | exact .inl rfl
      | (cases hm; done)
      | skip
    case At =>
      rcases Nat.lt_or_ge s.length 1 with h | h
      · right; exact ⟨by simp [mapOne, substr_short h, bind, Except.bind], h⟩
      · left; simp [mapOne, substr_ok h, bind, Except.bind, becomes, shown, kindBetween, marks]
    case Escaped =>
      rcases Nat.lt_or_ge s.length 1 with h | h
      · right; exact ⟨by simp [mapOne, substr_short h, bind, Except.bind], h⟩
      · left; simp [mapOne, substr_ok h, bind, Except.bind, becomes, shown, kindBetween, marks]
    case Placeholder =>
      rcases Nat.lt_or_ge s.length 1 with h | h
      · right; exact ⟨by simp [mapOne, substr_short h, bind, Except.bind], h⟩
      · left
        simp [mapOne, substr_ok h, bind, Except.bind, becomes, shown, kindBetween, marks, List.dropLast_eq_take]
        omega
    case TextSrcBegin =>
      rcases Nat.lt_or_ge s.length 4 with h | h
      · right; exact ⟨by simp [mapOne, substr_short h, bind, Except.bind], h⟩
      · left; simp [mapOne, substr_ok h, bind, Except.bind, becomes, shown, kindBetween, marks]
    case Word =>
      left
      simp [mapOne, becomes, shown, kindBetween, wordKind_eq]
    case ColonExampleLine =>
      left
      simp only [mapOne, becomes, shown, kindBetween, marks]
      by_cases h : 1 < s.length
      · simp [h]
      · simp only [h, if_false]
        rw [List.drop_eq_nil_of_le (by omega)]
        rfl
  · obtain ⟨ks, hks⟩ := Option.ne_none_iff_exists'.mp hm
    left
    have he := markupKind_eq p t n ks hks
    have hk : mapOne p t n = .ok [{ t with kind := markupKind t.kind ks (isEmpty p) (isEmpty n) }] := by
      obtain ⟨k, s, l⟩ := t
      rw [← marks_eq] at hks
      cases k <;> first
        | (cases hks; done)
        | (cases hks; rfl)
    have hb : becomes p t n = [⟨kindBetween p t n, t.text, t.loc⟩] := by
      obtain ⟨k, s, l⟩ := t
      cases k <;> first
        | (cases hks; done)
        | rfl
    rw [hk, hb, he]

theorem kindBetween_mem (p : Option Tok) (t : Tok) (n : Option Tok) : kindBetween p t n ∈ newKinds t.kind := by
  unfold kindBetween
  by_cases hw : t.kind = .Word
  · rw [if_pos hw, hw]
    split <;> simp [newKinds]
  · rw [if_neg hw]
    obtain ⟨k, s, l⟩ := t
    cases hm : marks k with
    | none => simp [newKinds]
    | some ks =>
      cases k <;> first
        | (cases hm; done)
        | (cases hm; dsimp only; split_ifs <;> simp_all [newKinds])

theorem becomes_kept (p : Option Tok) (t : Tok) (n : Option Tok) : KeptPre [t] (becomes p t n) := by
  unfold becomes
  split
  · intro ts os h; exact .eof ‹_› h
  · split
    · intro ts os h; exact .close ‹_› h
    · exact .one ⟨rfl, kindBetween_mem p t n, .inr (.inl rfl)⟩

/-! ## Quoted arguments -/

theorem quotedRun_spec (ts : List Tok) :
    match quotedRun ts with
    | .error e => e = .range ∧ ∀ t ∈ ts, t.kind = .CmdRawArg ∨ t.kind = .Whitespace
    | .ok (b, r) => ts = b ++ r ∧ ∀ t ∈ b, t.kind = .CmdRawArg ∨ t.kind = .Whitespace := by
  induction ts with
  | nil => simp [quotedRun]
  | cons t ts ih =>
    unfold quotedRun
    by_cases hk : t.kind = .Whitespace ∨ t.kind = .CmdRawArg
    · rw [if_pos hk]
      by_cases he : endsQuote t.text = true
      · rw [if_pos he]
        exact ⟨rfl, by simpa using hk.symm⟩
      · rw [if_neg he]
        cases hq : quotedRun ts with
        | error e =>
          rw [hq] at ih
          refine ⟨ih.1, ?_⟩
          intro x hx
          rcases List.mem_cons.mp hx with rfl | hx
          · exact hk.symm
          · exact ih.2 x hx
        | ok br =>
          obtain ⟨b, r⟩ := br
          rw [hq] at ih
          obtain ⟨h1, h2⟩ := ih
          refine ⟨by rw [h1]; rfl, ?_⟩
          intro x hx
          rcases List.mem_cons.mp hx with rfl | hx
          · exact hk.symm
          · exact h2 x hx
    · rw [if_neg hk]
      exact ⟨rfl, by simp⟩

theorem flatten_getLast (l : List (List Char)) (a : List Char) (c : Char) (h : a.getLast? = some c) :
    (l ++ [a]).flatten.getLast? = some c := by
  rw [List.flatten_append]
  simp [List.getLast?_append, h]

theorem mergeQuoted_kept (t : Tok) (buf : List Tok) (hk : t.kind = .CmdRawArg) (hs : startsQuote t.text = true)
    (hb : ∀ b ∈ buf, b.kind = .CmdRawArg ∨ b.kind = .Whitespace) : KeptPre (t :: buf) (mergeQuoted t buf) := by
  unfold mergeQuoted
  split
  · rename_i he
    intro ts os h
    have hl : ((t :: buf).map (·.text)).flatten.getLast? = some '"' := by
      have e := List.dropLast_concat_getLast (l := t :: buf) (by simp)
      rw [← e, List.map_append]
      refine flatten_getLast _ _ _ ?_
      simpa [endsQuote] using he
    have := Kept.quoted (t := t) (buf := buf) (ts := ts) (os := os) (by
      intro b hb'
      rcases List.mem_cons.mp hb' with rfl | hb'
      · exact .inl hk
      · exact hb b hb') hk (by simpa [startsQuote] using hs) hl h
    rw [← hk] at this
    exact this
  · exact .same _

/-- What a step of the conversion does: the tokens `used` become `os`. -/
def Step (c : Cur) (os : List Tok) (c' : Cur) : Prop :=
  ∃ used, used ≠ [] ∧ c.rest = used ++ c'.rest ∧ KeptPre used os

/-- A result is `out_of_range`, and then `E` holds, or a value with `P`. -/
def Out {α : Type} (E : Prop) (P : α → Prop) : Except Err α → Prop
  | .error e => e = .range ∧ E
  | .ok a => P a

theorem Out.error {α : Type} {E : Prop} {P : α → Prop} {r : Except Err α} {e : Err} (h : Out E P r) (hr : r = .error e) :
    e = .range ∧ E := by rw [hr] at h; exact h

theorem Out.ok {α : Type} {E : Prop} {P : α → Prop} {r : Except Err α} {a : α} (h : Out E P r) (hr : r = .ok a) :
    P a := by rw [hr] at h; exact h

theorem rawArg_spec (p : Option Tok) (t : Tok) (ts : List Tok) (hk : t.kind = .CmdRawArg) :
    Out (∀ t ∈ ts, t.kind = .CmdRawArg ∨ t.kind = .Whitespace) (fun r => Step ⟨p, t :: ts⟩ r.1 r.2) (rawArg t ts) := by
  unfold rawArg
  split
  · rename_i hq
    simp only [Bool.and_eq_true, Bool.not_eq_true'] at hq
    have h := quotedRun_spec ts
    split
    · rename_i e he; rw [he] at h; exact h
    · rename_i b r he
      rw [he] at h
      exact ⟨t :: b, by simp, by rw [h.1]; rfl, mergeQuoted_kept t b hk hq.1 h.2⟩
  · exact ⟨[t], by simp, rfl, .same _⟩

/-! ## Commands -/

theorem textLoop_spec (body : Cur → Except Err (List Tok × Cur)) (m : Nat)
    (hb : ∀ c, c.rest.length < m → Out True (fun r => Step c r.1 r.2) (body c)) :
    ∀ (n : Nat) (c : Cur), c.rest.length < n → c.rest.length < m →
      Out True (fun r => ∃ used, c.rest = used ++ r.2.rest ∧ KeptPre used r.1) (textLoop body n c) := by
  intro n
  induction n with
  | zero => intro c h; omega
  | succ n ih =>
    intro c hn hm
    unfold textLoop
    by_cases hs : atLineEnd c = true
    · rw [if_pos hs]; exact ⟨[], rfl, .nil⟩
    · rw [if_neg hs]
      have h := hb c hm
      cases hbc : body c with
      | error e => exact h.error hbc
      | ok r =>
        obtain ⟨o, c'⟩ := r
        obtain ⟨used, hne, hr, hk⟩ := h.ok hbc
        dsimp only at hr hk ⊢
        have hpos := List.length_pos_iff.mpr hne
        have hl : c'.rest.length + used.length = c.rest.length := by rw [hr]; simp; omega
        have h2 := ih c' (by omega) (by omega)
        cases htl : textLoop body n c' with
        | error e => exact h2.error htl
        | ok r =>
          obtain ⟨os, c''⟩ := r
          obtain ⟨u2, hr2, hk2⟩ := h2.ok htl
          exact ⟨used ++ u2, by rw [hr, hr2, List.append_assoc], hk.append hk2⟩

theorem takeWhile_all {α : Type} (p : α → Bool) (l : List α) : ∀ x ∈ l.takeWhile p, p x = true := by
  induction l with
  | nil => simp
  | cons a l ih =>
    intro x hx
    rw [List.takeWhile_cons] at hx
    split at hx
    · rcases List.mem_cons.mp hx with rfl | hx
      · assumption
      · exact ih x hx
    · simp at hx

theorem stripAttr_spec (s : List Char) : ∃ u z, s = u ++ stripAttr s ++ z ∧ (∀ c ∈ u, c = '_') ∧
    (∀ c ∈ z, c = ' ' ∨ c = ':') ∧ (∀ c ∈ (stripAttr s ++ z).head?, c ≠ '_') ∧
    ∀ c ∈ (stripAttr s).getLast?, c ≠ ' ' ∧ c ≠ ':' := by
  let p : Char → Bool := fun c => decide (c = '_')
  let q : Char → Bool := fun c => c = ' ' || c = ':'
  have h1 : s = s.takeWhile p ++ s.dropWhile p := by rw [List.takeWhile_append_dropWhile]
  have h2 : s.dropWhile p = stripAttr s ++ (((s.dropWhile p).reverse).takeWhile q).reverse := by
    have := List.takeWhile_append_dropWhile (p := q) (l := (s.dropWhile p).reverse)
    have := congrArg List.reverse this
    rw [List.reverse_append, List.reverse_reverse] at this
    exact this.symm
  refine ⟨s.takeWhile p, (((s.dropWhile p).reverse).takeWhile q).reverse, ?_, ?_, ?_, ?_, ?_⟩
  · rw [List.append_assoc, ← h2, ← h1]
  · intro c hc
    have := takeWhile_all p s c hc
    simpa [p] using this
  · intro c hc
    have := takeWhile_all q _ c (List.mem_reverse.mp hc)
    simpa [q] using this
  · rw [← h2]
    intro c hc he
    have := List.head?_dropWhile_not p s
    rw [Option.mem_def.mp hc] at this
    simp [p, he] at this
  · intro c hc
    unfold stripAttr at hc
    rw [List.getLast?_reverse] at hc
    have := List.head?_dropWhile_not q ((s.dropWhile p).reverse)
    rw [Option.mem_def.mp hc] at this
    simpa [q] using this

theorem commandName_spec (t : Tok) :
    (commandName t = .error .range ∧ t.text.length < leastLength t.kind) ∨
    ∃ t', commandName t = .ok t' ∧ Turns t t' ∧ (t.kind ≠ .CmdAttr → t' = t) := by
  by_cases hk : t.kind = .CmdAttr
  · rcases Nat.lt_or_ge t.text.length 4 with h | h
    · left
      exact ⟨by unfold commandName; rw [hk]; simp [substr_short h, bind, Except.bind], by rw [hk]; exact h⟩
    · right
      refine ⟨{ t with text := stripAttr (t.text.drop 4) }, ?_, ⟨rfl, by simp [newKinds], .inr (.inr ⟨hk, ?_⟩)⟩,
        fun h => absurd hk h⟩
      · unfold commandName; rw [hk]; simp [substr_ok h, bind, Except.bind]
      · obtain ⟨u, z, h1, h2, h3, h4, h5⟩ := stripAttr_spec (t.text.drop 4)
        refine ⟨t.text.take 4, u, z, ?_, by simp; omega, h2, h3, h4, h5⟩
        rw [List.append_assoc, List.append_assoc, ← List.append_assoc u, ← h1, List.take_append_drop]
  · right
    refine ⟨t, ?_, .refl t, fun _ => rfl⟩
    unfold commandName
    split
    · exact absurd ‹_› hk
    · rfl

theorem skipLineEnd_spec (c : Cur) : ∃ nl, c.rest = nl ++ (skipLineEnd c).rest ∧ nl.length ≤ 1 ∧ ∀ e ∈ nl, e.kind ∈ lineEnd := by
  unfold skipLineEnd
  split
  · exact ⟨[], by simp, by simp, by simp⟩
  · rename_i t ts h
    split
    · exact ⟨[t], by simp [h], by simp, by simpa⟩
    · exact ⟨[], by simp, by simp, by simp⟩

theorem prefix_turns {t : Tok} (h : t.kind = .LineCommand) : Turns t { t with kind := .CmdPrefix } :=
  ⟨rfl, by rw [h]; simp [newKinds], .inl rfl⟩

theorem commandRest_spec (body : Cur → Except Err (List Tok × Cur)) (n : Nat) (p : Option Tok) (t nm nm' : Tok)
    (ts : List Tok) (hk : t.kind = .LineCommand) (hturn : Turns nm nm') (hsame : nm.kind ≠ .CmdAttr → nm' = nm)
    (hn : ts.length < n)
    (hb : ∀ c, c.rest.length < n → Out True (fun r => Step c r.1 r.2) (body c)) :
    Out True (fun r => Step ⟨p, t :: nm :: ts⟩ ({ t with kind := .CmdPrefix } :: nm' :: r.1) r.2)
      (commandRest body n nm.kind ⟨some nm, ts⟩) := by
  have ht := prefix_turns hk
  -- a command that keeps the tokens `used` as they are
  have hkeep : ∀ (used : List Tok) (c' : Cur), ts = used ++ c'.rest →
      Step ⟨p, t :: nm :: ts⟩ ({ t with kind := .CmdPrefix } :: nm' :: used) c' := by
    intro used c' hu
    exact ⟨t :: nm :: used, by simp, by rw [hu]; rfl, .cons ht (.cons hturn (.same _))⟩
  unfold commandRest
  split <;> rename_i hnk
  · exact hkeep _ _ (by simp [commandArgs])
  · exact hkeep _ _ (by simp [commandArgs])
  · exact hkeep _ _ (by simp [commandArgs])
  · rw [hsame (by rw [hnk]; decide)]
    have hc : ts = (commandArgs ⟨some nm, ts⟩).1 ++ (commandArgs ⟨some nm, ts⟩).2.rest := by simp [commandArgs]
    have ha : ∀ a ∈ (commandArgs ⟨some nm, ts⟩).1, a.kind ∉ lineEnd := by
      intro a ha
      have := takeWhile_all _ _ a ha
      simpa using this
    rcases hca : commandArgs ⟨some nm, ts⟩ with ⟨args, c1⟩
    rw [hca] at hc ha
    dsimp only at hc ha ⊢
    obtain ⟨nl, h1, h2, h3⟩ := skipLineEnd_spec c1
    refine ⟨t :: nm :: (args ++ nl), by simp, ?_, ?_⟩
    · dsimp only
      rw [List.cons_append, List.cons_append, List.append_assoc, ← h1, ← hc]
    · intro ts' os' hkept
      have := Kept.source (t := t) (nm := nm) (args := args) hk ht hnk ha h2 h3 hkept
      simpa using this
  · rw [hsame (by rw [hnk]; decide)]
    refine ⟨t :: nm :: ts.takeWhile (fun t => decide (t.kind = .Whitespace)), by simp, by simp [skipSpace], ?_⟩
    intro ts' os' hkept
    have := Kept.title (t := t) (nm := nm) (sp := ts.takeWhile (fun t => decide (t.kind = .Whitespace))) hk ht hnk
      (by
        intro a ha
        have := takeWhile_all _ _ a ha
        simpa using this) hkept
    simpa using this
  · rw [hsame (by rw [hnk]; decide)]
    cases ts with
    | nil => exact ⟨rfl, trivial⟩
    | cons a ts =>
      unfold propertyText
      dsimp only
      have h := textLoop_spec body n hb n ⟨some a, ts⟩ (by simp at hn ⊢; omega) (by simp at hn ⊢; omega)
      cases htl : textLoop body n ⟨some a, ts⟩ with
      | error e => exact h.error htl
      | ok r =>
        obtain ⟨os, c'⟩ := r
        obtain ⟨used, hr, hku⟩ := h.ok htl
        dsimp only at hr hku ⊢
        refine ⟨t :: nm :: a :: used, by simp, by simp [hr], ?_⟩
        intro ts' os' hkept
        exact Kept.property hk ht hnk (hku _ _ hkept)
  · exact hkeep [] _ rfl

theorem lineCommand_spec (body : Cur → Except Err (List Tok × Cur)) (n : Nat) (p : Option Tok) (t : Tok) (ts : List Tok)
    (hk : t.kind = .LineCommand) (hn : ts.length ≤ n)
    (hb : ∀ c, c.rest.length < n → Out True (fun r => Step c r.1 r.2) (body c)) :
    Out True (fun r => Step ⟨p, t :: ts⟩ r.1 r.2) (lineCommand body n t ts) := by
  cases ts with
  | nil => exact ⟨rfl, trivial⟩
  | cons nm ts =>
    unfold lineCommand
    simp only [bind, Except.bind]
    rcases commandName_spec nm with ⟨h, _⟩ | ⟨nm', h, hturn, hsame⟩
    · rw [h]; exact ⟨rfl, trivial⟩
    · rw [h]
      dsimp only
      have h2 := commandRest_spec body n p t nm nm' ts hk hturn hsame (by simp at hn; omega) hb
      cases hcr : commandRest body n nm.kind ⟨some nm, ts⟩ with
      | error e => exact h2.error hcr
      | ok r => exact h2.ok hcr

/-- A step of the conversion uses up tokens and turns them into what is expected; the only
exception is `out_of_range`. -/
theorem mapTok_spec : ∀ (n : Nat) (c : Cur), c.rest.length < n →
    Out True (fun r => Step c r.1 r.2) (mapTok n c) := by
  intro n
  induction n with
  | zero => intro c h; omega
  | succ n ih =>
    intro c hn
    obtain ⟨p, rest⟩ := c
    unfold mapTok
    cases rest with
    | nil => exact ⟨rfl, trivial⟩
    | cons t ts =>
      dsimp only at hn ⊢
      by_cases hl : t.kind = .LineCommand
      · rw [if_pos hl]
        exact lineCommand_spec _ n p t ts hl (by simp at hn; omega) ih
      · rw [if_neg hl]
        by_cases hr : t.kind = .CmdRawArg
        · rw [if_pos hr]
          have := rawArg_spec p t ts hr
          cases h : rawArg t ts with
          | error e => exact ⟨(this.error h).1, trivial⟩
          | ok r => exact this.ok h
        · rw [if_neg hr]
          rcases mapOne_cases p t ts.head? with h | ⟨h, _⟩
          · rw [h]
            exact ⟨[t], by simp, rfl, becomes_kept p t _⟩
          · rw [h]; exact ⟨rfl, trivial⟩

theorem loop_spec : ∀ (n : Nat) (c : Cur), c.rest.length < n →
    Out True (fun os => Kept c.rest os) (loop n c) := by
  intro n
  induction n with
  | zero => intro c h; omega
  | succ n ih =>
    intro c hn
    unfold loop
    by_cases he : c.rest.isEmpty = true
    · rw [if_pos he]
      show Kept c.rest []
      rw [List.isEmpty_iff.mp he]
      exact .nil
    · rw [if_neg he]
      have h := mapTok_spec (c.rest.length + 1) c (by omega)
      cases hm : mapTok (c.rest.length + 1) c with
      | error e => exact h.error hm
      | ok r =>
        obtain ⟨o, c'⟩ := r
        obtain ⟨used, hne, hr, hk⟩ := h.ok hm
        dsimp only at hr hk ⊢
        have hpos := List.length_pos_iff.mpr hne
        have hl : c'.rest.length + used.length = c.rest.length := by rw [hr]; simp; omega
        rw [if_neg (by omega)]
        have h2 := ih c' (by omega)
        cases hlp : loop n c' with
        | error e => exact h2.error hlp
        | ok os =>
          show Kept c.rest (o ++ os)
          rw [hr]
          exact hk _ _ (h2.ok hlp)

/-! ## Streams for which the conversion returns -/

theorem suffix_drop {l used rest toks : List Tok} (h : l <:+ toks) (hr : l = used ++ rest) : rest <:+ toks :=
  (List.suffix_append used rest).trans (hr ▸ h)

/-- A token that is not the start of a command. -/
theorem mapTok_plain {toks : List Tok} (hreg : Regular toks) (n : Nat) (p : Option Tok) (t : Tok) (ts : List Tok)
    (hs : t :: ts <:+ toks) (hl : t.kind ≠ .LineCommand) :
    ∃ r used, mapTok (n + 1) ⟨p, t :: ts⟩ = .ok r ∧ t :: ts = t :: (used ++ r.2.rest) ∧
      ∀ u ∈ used, u.kind = .CmdRawArg ∨ u.kind = .Whitespace := by
  unfold mapTok
  dsimp only
  rw [if_neg hl]
  by_cases hr : t.kind = .CmdRawArg
  · rw [if_pos hr]
    unfold rawArg
    by_cases hq : (startsQuote t.text && !endsQuote t.text) = true
    · rw [if_pos hq]
      have h := quotedRun_spec ts
      cases hqr : quotedRun ts with
      | error e =>
        rw [hqr] at h
        obtain ⟨e, he, h1, h2⟩ := hreg.argument t ts hs hr
        rcases h.2 e he with h | h
        · exact absurd h h1
        · exact absurd h h2
      | ok r =>
        obtain ⟨b, r⟩ := r
        rw [hqr] at h
        exact ⟨_, b, rfl, by rw [h.1], h.2⟩
    · rw [if_neg hq]
      exact ⟨_, [], rfl, rfl, by simp⟩
  · rw [if_neg hr]
    rcases mapOne_cases p t ts.head? with h | ⟨h, hlt⟩
    · rw [h]
      exact ⟨_, [], rfl, rfl, by simp⟩
    · exact absurd (hreg.long t (hs.subset (by simp))) (by omega)

theorem textLoop_returns {toks : List Tok} (hreg : Regular toks) (m : Nat) (e : Tok) (he : e.kind ∈ lineEnd)
    (post : List Tok) : ∀ (n : Nat) (p : Option Tok) (args : List Tok),
      args ++ e :: post <:+ toks → args.length < n → (∀ b ∈ args, b.kind ∉ lineEnd ∧ b.kind ≠ .LineCommand) →
      ∃ r, textLoop (mapTok (m + 1)) n ⟨p, args ++ e :: post⟩ = .ok r := by
  intro n
  induction n with
  | zero => intro _ _ _ h; omega
  | succ n ih =>
    intro p args hs hn hargs
    unfold textLoop
    cases args with
    | nil =>
      rw [if_pos (by simp [atLineEnd, he])]
      exact ⟨_, rfl⟩
    | cons b args =>
      rw [if_neg (by simpa [atLineEnd] using (hargs b (by simp)).1)]
      obtain ⟨r, used, hr, hu, hk⟩ := mapTok_plain hreg m p b (args ++ e :: post) hs (hargs b (by simp)).2
      rw [List.cons_append, hr]
      obtain ⟨o, p', rest⟩ := r
      simp only [List.cons.injEq, true_and] at hu
      -- the line end is not among the tokens used
      have : ∃ args', args = used ++ args' ∧ rest = args' ++ e :: post := by
        rcases List.append_eq_append_iff.mp hu with ⟨a, h1, h2⟩ | ⟨a, h1, h2⟩
        · cases a with
          | nil => exact ⟨[], by simpa using h1.symm, by simpa using h2.symm⟩
          | cons x a =>
            simp only [List.cons_append, List.cons.injEq] at h2
            have := hk x (by rw [h1]; simp)
            rw [← h2.1] at this
            rcases this with h | h <;> rw [h] at he <;> exact absurd he (by decide)
        · exact ⟨a, h1, h2⟩
      obtain ⟨args', h1, h2⟩ := this
      subst h1 h2
      obtain ⟨r2, hr2⟩ := ih p' args' (suffix_drop (used := b :: used) hs (by simp))
        (by simp at hn; omega) (fun b hb => hargs b (by simp [hb]))
      dsimp only
      rw [hr2]
      exact ⟨_, rfl⟩

theorem mapTok_returns {toks : List Tok} (hreg : Regular toks) (n : Nat) (c : Cur) (hs : c.rest <:+ toks)
    (hne : c.rest ≠ []) (hn : c.rest.length < n) : ∃ r, mapTok n c = .ok r := by
  obtain ⟨p, rest⟩ := c
  dsimp only at hs hne hn
  cases n with
  | zero => omega
  | succ n =>
  cases rest with
  | nil => exact absurd rfl hne
  | cons t ts =>
    by_cases hl : t.kind = .LineCommand
    · unfold mapTok
      dsimp only
      rw [if_pos hl]
      cases ts with
      | nil => exact absurd rfl (hreg.command t [] hs hl)
      | cons nm ts =>
        unfold lineCommand
        simp only [bind, Except.bind]
        have hs2 : nm :: ts <:+ toks := suffix_drop (used := [t]) hs rfl
        rcases commandName_spec nm with ⟨_, h⟩ | ⟨nm', h, _, _⟩
        · exact absurd (hreg.long nm (hs.subset (by simp))) (by omega)
        · rw [h]
          dsimp only
          suffices ∃ r, commandRest (mapTok n) n nm.kind ⟨some nm, ts⟩ = .ok r by
            obtain ⟨r, hr⟩ := this
            rw [hr]
            exact ⟨_, rfl⟩
          unfold commandRest
          split <;> try exact ⟨_, rfl⟩
          rename_i hp
          obtain ⟨a, args, e, post, hpost, he, hargs⟩ := hreg.property nm ts hs2 hp
          subst hpost
          unfold propertyText
          dsimp only
          cases n with
          | zero => simp at hn
          | succ n =>
            obtain ⟨r, hr⟩ := textLoop_returns hreg n e he post (n + 1) (some a) args
              (suffix_drop (used := [t, nm, a]) hs rfl) (by simp at hn; omega) hargs
            rw [hr]
            exact ⟨_, rfl⟩
    · obtain ⟨r, _, hr, _⟩ := mapTok_plain hreg n p t ts hs hl
      exact ⟨r, hr⟩

theorem loop_returns {toks : List Tok} (hreg : Regular toks) : ∀ (n : Nat) (c : Cur), c.rest <:+ toks →
    c.rest.length < n → ∃ os, loop n c = .ok os := by
  intro n
  induction n with
  | zero => intro c _ h; omega
  | succ n ih =>
    intro c hs hn
    unfold loop
    by_cases he : c.rest.isEmpty = true
    · rw [if_pos he]; exact ⟨_, rfl⟩
    · rw [if_neg he]
      obtain ⟨⟨o, c'⟩, hm⟩ := mapTok_returns hreg (c.rest.length + 1) c hs (by simpa using he) (by omega)
      obtain ⟨used, hne, hr, _⟩ := (mapTok_spec (c.rest.length + 1) c (by omega)).ok hm
      dsimp only at hr
      rw [hm]
      dsimp only
      have hpos := List.length_pos_iff.mpr hne
      have hl : c'.rest.length + used.length = c.rest.length := by rw [hr]; simp; omega
      rw [if_neg (by omega)]
      obtain ⟨os, hos⟩ := ih c' (suffix_drop hs hr) (by omega)
      rw [hos]
      exact ⟨_, rfl⟩

/-! ## Streams without commands -/

theorem loop_local : ∀ (n : Nat) (p : Option Tok) (toks : List Tok), toks.length < n →
    (∀ t ∈ toks, t.kind ≠ .LineCommand ∧ t.kind ≠ .CmdRawArg) → (∀ t ∈ toks, leastLength t.kind ≤ t.text.length) →
    loop n ⟨p, toks⟩ = .ok (byNeighbours p toks) := by
  intro n
  induction n with
  | zero => intro _ _ h; omega
  | succ n ih =>
    intro p toks hn hk hlong
    cases toks with
    | nil => rfl
    | cons t ts =>
      unfold loop
      have hm : mapTok ((t :: ts).length + 1) ⟨p, t :: ts⟩ = .ok (becomes p t ts.head?, ⟨some t, ts⟩) := by
        unfold mapTok
        dsimp only
        rw [if_neg (hk t (by simp)).1, if_neg (hk t (by simp)).2]
        rcases mapOne_cases p t ts.head? with h | ⟨_, h⟩
        · rw [h]
        · exact absurd (hlong t (by simp)) (by omega)
      dsimp only
      rw [if_neg (by simp), hm]
      dsimp only
      rw [if_neg (by simp), ih (some t) ts (by simp at hn; omega) (fun x hx => hk x (by simp [hx]))
        (fun x hx => hlong x (by simp [hx]))]
      rfl

end Verif.Recombine
