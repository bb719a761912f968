import Verif.BaseLexer.CharLemmas
import Verif.BaseLexer.Std
import Mathlib.Tactic.Tauto

/-!
# Properties of the base lexer (C42, C43)
-/

namespace Verif.BaseLexer
open Verif.Token

/-- Outcomes can be compared (used for the concrete witnesses only). -/
instance : DecidableEq (Except Err (List Tok))
  | .ok a, .ok b => if h : a = b then isTrue (h ▸ rfl) else isFalse (fun h' => h (by cases h'; rfl))
  | .error a, .error b =>
    if h : a = b then isTrue (h ▸ rfl) else isFalse (fun h' => h (by cases h'; rfl))
  | .ok _, .error _ => isFalse (fun h => by cases h)
  | .error _, .ok _ => isFalse (fun h => by cases h)

/-- **C42.** Whenever the lexer returns, the texts of the tokens put together are
the document, byte for byte, and each token's location is its offset in the
document. -/
theorem lexer_lossless (lex : Lexy) (hlex : Sane lex) (text : List Char) (toks : List Tok)
    (h : tokenize lex text = .ok toks) : Lossless text toks ∧ Located toks := by
  unfold tokenize at h
  split at h
  · rename_i s hs
    cases h
    obtain ⟨hp, hend⟩ := post_tokenizeSt hlex text
    obtain ⟨new, k, h1, h2, h3, h4⟩ := hp.1 s hs
    have hrest := hend s hs
    have hk : text.take k = text := by
      rw [h2.1] at hrest
      rw [List.take_of_length_le]
      simpa [List.drop_eq_nil_iff] using hrest
    simp only [List.nil_append] at h1
    dsimp only at h4
    rw [hk] at h4
    rw [h1]
    refine ⟨h4.text, fun i t ht => ?_⟩
    simpa using h4.loc i t ht
  · cases h

/-- The lexer makes none of the kinds of tokens that the tokenizer makes later, and every token
of the lexer has a location. -/
theorem lexer_kinds (lex : Lexy) (hlex : Sane lex) (text : List Char) (toks : List Tok)
    (h : tokenize lex text = .ok toks) : ∀ t ∈ toks, t.kind ∉ laterKinds ∧ t.loc ≠ none := by
  intro t ht
  obtain ⟨i, hi⟩ := List.getElem?_of_mem ht
  have hl := (lexer_lossless lex hlex text toks h).2 i t hi
  refine ⟨?_, by rw [hl]; simp⟩
  unfold tokenize at h
  split at h
  · rename_i s hs
    cases h
    obtain ⟨new, k, h1, h2, h3, h4⟩ := (post_tokenizeSt hlex text).1.1 s hs
    simp only [List.nil_append] at h1
    rw [h1] at ht
    exact h4.kinds t ht
  · cases h

/-- The concrete matcher meets the hypotheses and the lexer returns on a document
with a heading, a command, a list item, markup and a link. -/
example : Sane stdLex ∧
    (tokenize stdLex "* a *b*\n#+title: [[x]] <d>\n - it 12:30\n".toList).isOk = true :=
  ⟨stdLex_sane, by decide +kernel⟩

/-- Tokens of a small document. -/
example : tokenize stdLex "* a\n\n- b_c".toList = .ok
    [⟨.SubtreeStars, "*".toList, some 0⟩, ⟨.Whitespace, " ".toList, some 1⟩,
     ⟨.Word, "a".toList, some 2⟩, ⟨.MediumNewline, "\n\n".toList, some 3⟩,
     ⟨.LeadingMinus, "-".toList, some 5⟩, ⟨.Whitespace, " ".toList, some 6⟩,
     ⟨.Word, "b_c".toList, some 7⟩] := by decide +kernel

/-- Full statement of C43: the lexer returns normally on every document. -/
def LexerTotalStatement : Prop :=
  ∀ (lex : Lexy), Sane lex → ∀ (text : List Char), ∃ toks, tokenize lex text = .ok toks

/-- **C43 is false**: documents on which the lexer loops forever, fails an assertion,
terminates the process or has undefined behaviour. -/
theorem lexer_total_false :
    ¬ LexerTotalStatement ∧
    -- `:` at the end of the text in the arguments of a command
    tokenize stdLex "#+name: :".toList = .error .diverges ∧
    -- a word starting with `h` cut short by the end of the text
    tokenize stdLex "oh".toList = .ok [⟨.Word, "oh".toList, some 0⟩] ∧
    tokenize stdLex "h".toList = .error .assertion ∧
    -- a time at the end of the text
    tokenize stdLex "at 10:00".toList = .error .assertion ∧
    -- a four-byte character at the end of the text
    tokenize stdLex [Char.ofNat 0xF0, Char.ofNat 0x9F, Char.ofNat 0x98, Char.ofNat 0x80] =
      .error .assertion ∧
    -- a source block that is not closed
    tokenize stdLex "#+begin_src\nx\n".toList = .error .abort ∧
    -- a file link that is not closed
    tokenize stdLex "[[file:a\n".toList = .error .undef := by
  refine ⟨fun h => ?_, by decide +kernel, by decide +kernel, by decide +kernel, by decide +kernel, by decide +kernel, by decide +kernel, by decide +kernel⟩
  obtain ⟨toks, ht⟩ := h stdLex stdLex_sane "h".toList
  have : tokenize stdLex "h".toList = .error .assertion := by decide +kernel
  rw [this] at ht
  cases ht

/-- **C43, partial.** Documents that end with a newline, have no `[[`, no line command
whose name starts with `b`, `B` or `_` and no four-byte sequence cut by a newline are
always lexed normally.  Missing: links, blocks, and documents without a final
newline, for which the statement is false. -/
theorem lexer_total_partial (lex : Lexy) (hlex : Sane lex) (text : List Char) (h : Plain text) :
    ∃ toks, tokenize lex text = .ok toks := by
  unfold tokenize
  cases hs : tokenizeSt lex text with
  | ok s => exact ⟨s.out, rfl⟩
  | error e => exact absurd h ((post_tokenizeSt hlex text).1.2 e hs).2.2

/-- Non-vacuity: a plain document with a heading, a command, a list and markup. -/
example : Plain "* a *b* h\n#+title: x 10:00\n - it ~c~\n".toList where
  nl := Or.inr (by decide +kernel)
  noLink := by decide +kernel
  noBlock := by rintro c (rfl | rfl | rfl) <;> decide +kernel
  utf := by
    intro k c hk hu
    have hall : ∀ c ∈ "* a *b* h\n#+title: x 10:00\n - it ~c~\n".toList, isUni c = false := by
      decide +kernel
    rw [hall c (List.mem_of_getElem? hk)] at hu
    cases hu

/-- **C43, partial (termination).** On a document that ends with a newline the lexer
never loops forever, whatever else is in it. -/
theorem lexer_terminates_partial (lex : Lexy) (hlex : Sane lex) (text : List Char)
    (h : EndsWithNewline text) : tokenize lex text ≠ .error .diverges := by
  unfold tokenize
  cases hs : tokenizeSt lex text with
  | ok s => simp
  | error e =>
    have := ((post_tokenizeSt hlex text).1.2 e hs).2.1 h
    simpa using this

/-- The recursion fuel of the model never runs out, so every outcome of the model is an
outcome of the code. -/
theorem lexer_fuel_suffices (lex : Lexy) (hlex : Sane lex) (text : List Char) :
    tokenize lex text ≠ .error .fuel := by
  unfold tokenize
  cases hs : tokenizeSt lex text with
  | ok s => simp
  | error e =>
    have := ((post_tokenizeSt hlex text).1.2 e hs).1
    simpa using this

example : EndsWithNewline "#+begin_src\n[[file:a\n".toList := Or.inr (by decide +kernel)

/-- Full statement of C44: what is inside a table rule is only the rule (and its
indentation). -/
def TableRuleStatement : Prop :=
  ∀ (lex : Lexy), Sane lex → ∀ (text : List Char) (toks : List Tok),
    tokenize lex text = .ok toks → ∀ t ∈ toks, t.kind = .TableSeparator →
      ∀ c ∈ t.text, c = ' ' ∨ c = '|' ∨ c = '-' ∨ c = '+'

/-- **C44 is false**: the rule of an indented table swallows as many of the following
characters as there are spaces before it. -/
theorem tableRule_false : ¬ TableRuleStatement := by
  intro h
  have ht : tokenize stdLex "  |--|\nab\n".toList = .ok
      [⟨.TableSeparator, "  |--|\na".toList, some 0⟩, ⟨.Word, "b".toList, some 8⟩,
       ⟨.Newline, "\n".toList, some 9⟩] := by decide +kernel
  have := h stdLex stdLex_sane _ _ ht ⟨.TableSeparator, "  |--|\na".toList, some 0⟩ (by simp) rfl
    'a' (by decide +kernel)
  revert this; decide +kernel

theorem isAt_iff {r : List Char} {ch : Char} {off : Nat} :
    isAt r ch off = true ↔ r[off]? = some ch := by simp [isAt]

theorem takeWhile_get {p : Char → Bool} {r : List Char} {j : Nat} {c : Char}
    (hj : j < (r.takeWhile p).length) (hc : r[j]? = some c) : p c = true := by
  have hpre := List.takeWhile_prefix (l := r) p
  have : (r.takeWhile p)[j]? = some c := by
    rw [List.prefix_iff_eq_take.mp hpre, List.getElem?_take_of_lt hj]
    exact hc
  exact mem_takeWhile_p (List.mem_of_getElem? this)

theorem tableSepGo_chars (n : Nat) (r : List Char) (pos cols : Nat)
    (h : ∀ j c, j < pos → r[j]? = some c → c = '|' ∨ c = '-' ∨ c = '+') :
    ∀ j c, j < (tableSepGo n r pos cols).1 → r[j]? = some c → c = '|' ∨ c = '-' ∨ c = '+' := by
  induction n generalizing pos cols with
  | zero => simpa [tableSepGo] using h
  | succ n ih =>
    rw [tableSepGo]
    split
    · exact h
    · dsimp only
      have hstep : ∀ j c, j < pos + ((r.drop pos).takeWhile (· = '-')).length → r[j]? = some c →
          c = '|' ∨ c = '-' ∨ c = '+' := by
        intro j c hj hc
        by_cases hlt : j < pos
        · exact h j c hlt hc
        · have := takeWhile_get (p := fun x => decide (x = '-')) (r := r.drop pos) (j := j - pos)
            (c := c) (by omega) (by rw [List.getElem?_drop]; rwa [Nat.add_sub_cancel' (by omega)])
          right; left; simpa using this
      split
      · rename_i hsep
        refine ih _ _ ?_
        intro j c hj hc
        by_cases hlt : j < pos + ((r.drop pos).takeWhile (· = '-')).length
        · exact hstep j c hlt hc
        · have : j = pos + ((r.drop pos).takeWhile (· = '-')).length := by omega
          subst this
          simp only [Bool.or_eq_true, isAt_iff] at hsep
          rw [hc] at hsep
          simp at hsep
          tauto
      · exact hstep

/-- **C44, partial.** A table rule that is not indented takes only the characters of the
rule.  Missing: indented rules, for which the statement is false. -/
theorem tableRule_partial (s s' : St) (n : Nat)
    (hrule : tableSep s.cur.rest 0 = some n)
    (htok : tokenAdv .TableSeparator (n + 0) s = .ok s') :
    ∃ t, s'.out = s.out ++ [t] ∧ t.kind = .TableSeparator ∧
      ∀ c ∈ t.text, c = '|' ∨ c = '-' ∨ c = '+' := by
  simp only [tokenAdv, token, tokenCb, bind, Except.bind, pure, Except.pure] at htok
  cases htok
  refine ⟨_, rfl, rfl, ?_⟩
  intro c hc
  have ha := adv_count (n + 0) s.cur
  have hpos : (Cur.adv (n + 0) s.cur).pos - s.cur.pos = min n s.cur.rest.length := by
    rw [ha.2.1]; simp
  rw [hpos] at hc
  obtain ⟨j, hj, hget⟩ := List.mem_iff_getElem.mp hc
  have hj' : j < n := by
    rw [List.length_take] at hj; omega
  have hg : s.cur.rest[j]? = some c := by
    rw [List.getElem_take] at hget
    rw [← hget]
    exact List.getElem?_eq_getElem _
  unfold tableSep at hrule
  dsimp only at hrule
  have key := tableSepGo_chars s.cur.rest.length s.cur.rest
    (if isAt s.cur.rest '|' 0 = true then 0 + 1 else 0) 0 (by
      intro j c hj hc
      split at hj
      · rename_i h
        rw [isAt_iff] at h
        have : j = 0 := by omega
        subst this
        rw [hc] at h
        left; simpa using h
      · omega)
  generalize (if isAt s.cur.rest '|' 0 = true then 0 + 1 else 0) = p at hrule key
  split at hrule
  · cases hrule
    exact key j c hj' hg
  · cases hrule

/-- Non-vacuity. -/
example : tableSep "|--+---|\n".toList 0 = some 8 := by decide +kernel

end Verif.BaseLexer
