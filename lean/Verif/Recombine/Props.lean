import Verif.Recombine.Lemmas
import Verif.BaseLexer.Props

/-!
# Properties of the conversion of tokens for the parser (C70, C71, C72)
-/

namespace Verif.Recombine
open Verif.Token Verif.Tokenizer

/-- Outcomes can be compared (used for the concrete witnesses only). -/
instance : DecidableEq (Except Err (List Tok))
  | .ok a, .ok b => if h : a = b then isTrue (h ▸ rfl) else isFalse (fun h' => h (by cases h'; rfl))
  | .error a, .error b =>
    if h : a = b then isTrue (h ▸ rfl) else isFalse (fun h' => h (by cases h'; rfl))
  | .ok _, .error _ => isFalse (fun h => by cases h)
  | .error _, .ok _ => isFalse (fun h => by cases h)

/-- A token for the examples. -/
def tk (k : TK) (s : String) (l : Nat) : Tok := ⟨k, s.toList, some l⟩

/-! ## C70 – no token is lost, made up or moved -/

/-- **C70.** Whenever the conversion returns, its result is the list of tokens it was given,
one by one, in the same order, apart from the changes listed in `Kept`. -/
theorem recombine_keeps (toks out : List Tok) (h : recombine toks = .ok out) : Kept toks out :=
  (loop_spec _ ⟨none, toks⟩ (by simp)).ok h

/-- The result for a stream with a title, a source block and a quoted argument. -/
def mixed : List Tok :=
  [tk .LineCommand "#+" 0, tk .CmdTitle "title:" 2, tk .Whitespace " " 8, tk .Word "ABC" 9, tk .Newline "\n" 12,
   tk .LineCommand "#+" 13, tk .CmdSrcBegin "begin_src" 15, tk .Whitespace " " 24, tk .CmdRawArg "x" 25, tk .Newline "\n" 26,
   tk .CmdRawArg "\"a" 27, tk .Whitespace " " 29, tk .CmdRawArg "b\"" 30, tk .Newline "\n" 32, tk .CmdSrcEnd "end_src" 33]

example : recombine mixed = .ok
    [tk .CmdPrefix "#+" 0, tk .CmdTitle "title:" 2, tk .BigIdent "ABC" 9, tk .Newline "\n" 12,
     tk .CmdPrefix "#+" 13, tk .CmdSrcBegin "begin_src" 15, tk .Whitespace " " 24, tk .CmdRawArg "x" 25,
     .fake .CmdContentBegin,
     tk .CmdRawArg "\"a b\"" 27, tk .Newline "\n" 32, tk .CmdPrefix "" 33, tk .CmdSrcEnd "end_src" 33] := by decide +kernel

/-- The places of the tokens of the source that are in a list. -/
def places (toks : List Tok) : List Nat := toks.filterMap (·.loc)

theorem places_append (A B : List Tok) : places (A ++ B) = places A ++ places B := by simp [places]

theorem places_step {A B ts os : List Tok} (hs : (places (A ++ ts)).Pairwise (· ≤ ·)) (hB : (places B).Pairwise (· ≤ ·))
    (hsub : ∀ l ∈ places B, l ∈ places A)
    (ih : (places ts).Pairwise (· ≤ ·) → (places os).Pairwise (· ≤ ·) ∧ ∀ l ∈ places os, l ∈ places ts) :
    (places (B ++ os)).Pairwise (· ≤ ·) ∧ ∀ l ∈ places (B ++ os), l ∈ places (A ++ ts) := by
  rw [places_append] at hs ⊢
  obtain ⟨_, h2, h3⟩ := List.pairwise_append.mp hs
  obtain ⟨i1, i2⟩ := ih h2
  refine ⟨List.pairwise_append.mpr ⟨hB, i1, fun a ha b hb => h3 a (hsub a ha) b (i2 b hb)⟩, ?_⟩
  intro l hl
  rw [places_append]
  rcases List.mem_append.mp hl with h | h
  · exact List.mem_append_left _ (hsub l h)
  · exact List.mem_append_right _ (i2 l h)

theorem places_sub {A B ts os : List Tok} (hs : (places (A ++ ts)).Pairwise (· ≤ ·)) (hB : (places B).Sublist (places A))
    (ih : (places ts).Pairwise (· ≤ ·) → (places os).Pairwise (· ≤ ·) ∧ ∀ l ∈ places os, l ∈ places ts) :
    (places (B ++ os)).Pairwise (· ≤ ·) ∧ ∀ l ∈ places (B ++ os), l ∈ places (A ++ ts) := by
  refine places_step hs ?_ (fun l hl => hB.subset hl) ih
  have : (places A).Pairwise (· ≤ ·) := by
    rw [places_append] at hs
    exact (List.pairwise_append.mp hs).1
  exact this.sublist hB

/-- The tokens of the result come from the same places and in the same order: no place is
made up. -/
theorem kept_places {toks out : List Tok} (h : Kept toks out) (hs : (places toks).Pairwise (· ≤ ·)) :
    (places out).Pairwise (· ≤ ·) ∧ ∀ l ∈ places out, l ∈ places toks := by
  induction h with
  | nil => simp [places]
  | @turn t t' ts os ht _ ih =>
    exact places_sub (A := [t]) (B := [t']) hs (by cases h : t.loc <;> simp [places, ht.loc, h]) ih
  | @eof t ts os _ _ ih =>
    exact places_sub (A := [t]) (B := []) hs (by simp [places]) ih
  | @close t ts os _ _ ih =>
    refine places_step (A := [t]) (B := [⟨.CmdPrefix, [], t.loc⟩, t]) hs ?_ ?_ ih
    · cases h : t.loc <;> simp [places, h]
    · cases h : t.loc <;> simp [places, h]
  | @quoted t buf ts os _ _ _ _ _ ih =>
    refine places_sub (A := t :: buf) (B := [⟨.CmdRawArg, _, t.loc⟩]) hs ?_ ih
    cases h : t.loc <;> simp [places, h]
  | @title t t' nm sp ts os _ ht _ _ _ ih =>
    refine places_sub (A := t :: nm :: sp) (B := [t', nm]) (by simpa using hs) ?_ ih
    cases h : t.loc <;> cases h' : nm.loc <;> simp [places, ht.loc, h, h']
  | @source t t' nm args nl ts os _ ht _ _ _ _ _ ih =>
    have := places_sub (A := t :: nm :: (args ++ nl)) (B := t' :: nm :: (args ++ [.fake .CmdContentBegin])) (ts := ts) (os := os)
      (by simpa using hs) ?_ ih
    · simpa using this
    · cases h : t.loc <;> cases h' : nm.loc <;> simp [places, ht.loc, h, h', Tok.fake]
  | @property t t' nm a ts os _ ht _ _ ih =>
    refine places_sub (A := [t, nm, a]) (B := [t', nm, { a with kind := .CmdRawArg }]) hs ?_ ih
    cases h : t.loc <;> cases h' : nm.loc <;> cases h'' : a.loc <;> simp [places, ht.loc, h, h', h'']

/-! ## C71 – markup is decided by the neighbours -/

/-- **C71.** Without commands and arguments the kind of every token depends on the token
before it and on the token after it and on nothing else. -/
theorem recombine_local (toks : List Tok) (h : ∀ t ∈ toks, t.kind ≠ .LineCommand ∧ t.kind ≠ .CmdRawArg)
    (hlong : ∀ t ∈ toks, leastLength t.kind ≤ t.text.length) : recombine toks = .ok (byNeighbours none toks) :=
  loop_local _ none toks (by simp) h hlong

/-- `a *b* /c/` -/
def marked : List Tok :=
  [tk .Word "a" 0, tk .Whitespace " " 1, tk .Asterisk "*" 2, tk .Word "b" 3, tk .Asterisk "*" 4, tk .Whitespace " " 5,
   tk .ForwardSlash "/" 6, tk .Word "c" 7, tk .ForwardSlash "/" 8]

example : (∀ t ∈ marked, t.kind ≠ .LineCommand ∧ t.kind ≠ .CmdRawArg) ∧ (∀ t ∈ marked, leastLength t.kind ≤ t.text.length) ∧
    byNeighbours none marked =
      [tk .Word "a" 0, tk .Whitespace " " 1, tk .BoldBegin "*" 2, tk .Word "b" 3, tk .BoldEnd "*" 4, tk .Whitespace " " 5,
       tk .ItalicBegin "/" 6, tk .Word "c" 7, tk .ItalicEnd "/" 8] := by decide +kernel

/-- What one expects of a markup character with a space on both sides: it opens nothing. -/
def MarkupStatement : Prop :=
  ∀ (toks out : List Tok), (∀ t ∈ toks, t.kind ≠ .LineCommand ∧ t.kind ≠ .CmdRawArg) → recombine toks = .ok out →
    (∀ pre a m b post, toks = pre ++ a :: m :: b :: post → a.kind = .Whitespace → b.kind = .Whitespace → m.kind = .Equals →
      ∀ o ∈ out, o.loc = m.loc → o.kind ≠ .VerbatimBegin)

/-- **C71 is false** as one expects it: `a = b` opens verbatim text, and in `*/a/*` the first
star is not an opening one, since the slash after it counts as a blank
(the parser takes an undecided star for an opening or a closing one). -/
theorem markup_false : ¬ MarkupStatement ∧
    (recombine [tk .Asterisk "*" 0, tk .ForwardSlash "/" 1, tk .Word "a" 2, tk .ForwardSlash "/" 3, tk .Asterisk "*" 4]) = .ok
      [tk .BoldUnknown "*" 0, tk .ItalicBegin "/" 1, tk .Word "a" 2, tk .ItalicEnd "/" 3, tk .BoldUnknown "*" 4] := by
  refine ⟨fun h => ?_, by decide +kernel⟩
  refine h [tk .Word "a" 0, tk .Whitespace " " 1, tk .Equals "=" 2, tk .Whitespace " " 3, tk .Word "b" 4]
    [tk .Word "a" 0, tk .Whitespace " " 1, tk .VerbatimBegin "=" 2, tk .Whitespace " " 3, tk .Word "b" 4]
    (by decide) (by decide +kernel) [tk .Word "a" 0] _ _ _ _ rfl rfl rfl rfl (tk .VerbatimBegin "=" 2) (by simp) rfl rfl

/-! ## C72 – when the conversion returns -/

/-- The conversion never hangs and never fails its own check for progress: it returns or throws
`out_of_range`. -/
theorem recombine_only_range (toks : List Tok) (e : Err) (h : recombine toks = .error e) : e = .range :=
  ((loop_spec _ ⟨none, toks⟩ (by simp)).error h).1

/-- Full statement of C72: the conversion returns on every stream of tokens. -/
def ReturnsStatement : Prop := ∀ toks, ∃ out, recombine toks = .ok out

/-- **C72 is false**: a property with text without a line after it, an argument with a quote
that is not closed at the end of the document, a command without a name. -/
theorem recombine_returns_false : ¬ ReturnsStatement ∧
    recombine [tk .LineCommand "#+" 0, tk .CmdPropertyText "property:" 2, tk .Whitespace " " 11, tk .Word "a" 12] = .error .range ∧
    recombine [tk .CmdRawArg "\"a" 0, tk .Whitespace " " 2, tk .CmdRawArg "b" 3] = .error .range ∧
    recombine [tk .LineCommand "#+" 0] = .error .range := by
  have h3 : recombine [tk .LineCommand "#+" 0] = .error .range := by decide +kernel
  refine ⟨fun h => ?_, by decide +kernel, by decide +kernel, h3⟩
  obtain ⟨out, ho⟩ := h [tk .LineCommand "#+" 0]
  rw [h3] at ho
  cases ho

/-- **C72, partial.** The conversion returns on regular streams.  Missing: streams with
commands without names, quotes that are not closed, properties with text without an end of
line; on them it may throw, see `recombine_returns_false`. -/
theorem recombine_returns_partial (toks : List Tok) (h : Regular toks) : ∃ out, recombine toks = .ok out :=
  loop_returns h _ ⟨none, toks⟩ (List.suffix_refl _) (by simp)

/-- A stream with a property and a quoted argument. -/
def regularToks : List Tok :=
  [tk .LineCommand "#+" 0, tk .CmdPropertyText "property:" 2, tk .Whitespace " " 11, tk .Word "a" 12, tk .Newline "\n" 13,
   tk .LineCommand "#+" 14, tk .CmdAttr "attr_html:" 16, tk .Whitespace " " 26, tk .CmdRawArg "\"x" 27, tk .CmdRawArg "y\"" 30,
   tk .Newline "\n" 32]

/-- The parts of the stream from some place on. -/
theorem regularToks_all : ∀ i < 12, ∀ t ∈ (regularToks.drop i).head?,
    (t.kind = .LineCommand → (regularToks.drop i).tail ≠ []) ∧
      (t.kind = .CmdRawArg → ∃ e ∈ (regularToks.drop i).tail, e.kind ≠ .CmdRawArg ∧ e.kind ≠ .Whitespace) ∧
      (t.kind = .CmdPropertyText → (regularToks.drop i).tail = regularToks.drop 2) := by decide +kernel

theorem regularToks_suffix {t : Tok} {post : List Tok} (h : t :: post <:+ regularToks) :
    (t.kind = .LineCommand → post ≠ []) ∧
      (t.kind = .CmdRawArg → ∃ e ∈ post, e.kind ≠ .CmdRawArg ∧ e.kind ≠ .Whitespace) ∧
      (t.kind = .CmdPropertyText → post = regularToks.drop 2) := by
  have := regularToks_all (regularToks.length - (t :: post).length) (Nat.lt_of_le_of_lt (Nat.sub_le _ _) (by decide)) t
  rw [← List.suffix_iff_eq_drop.mp h] at this
  exact this rfl

example : Regular regularToks ∧ recombine regularToks = .ok
    [tk .CmdPrefix "#+" 0, tk .CmdPropertyText "property:" 2, tk .CmdRawArg " " 11, tk .Word "a" 12, tk .Newline "\n" 13,
     tk .CmdPrefix "#+" 14, tk .CmdAttr "html" 16, tk .Whitespace " " 26, tk .CmdRawArg "\"xy\"" 27, tk .Newline "\n" 32] := by
  refine ⟨⟨by decide +kernel, ?_, ?_, ?_⟩, by decide +kernel⟩
  · intro t post h; exact (regularToks_suffix h).1
  · intro t post h; exact (regularToks_suffix h).2.1
  · intro t post h hk
    rw [(regularToks_suffix h).2.2 hk]
    exact ⟨tk .Whitespace " " 11, [tk .Word "a" 12], tk .Newline "\n" 13, _, rfl, by decide, by decide⟩

end Verif.Recombine
