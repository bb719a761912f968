import Verif.BaseLexer.Model

/-!
# Vocabulary for the base lexer properties
-/

namespace Verif.BaseLexer
open Verif.Token

/-- The texts of the tokens, one after another, are the document. -/
def Lossless (text : List Char) (toks : List Tok) : Prop :=
  (toks.map (·.text)).flatten = text

/-- Every token's recorded location is the number of bytes before it. -/
def Located (toks : List Tok) : Prop :=
  ∀ (i : Nat) (t : Tok), toks[i]? = some t →
    t.loc = some ((toks.take i).map (·.text)).flatten.length

/-- Kinds of tokens that are made later, by the tokenizer. -/
def laterKinds : List TK := [.Indent, .Dedent, .SameIndent, .ListItemEnd, .CmdPrefix, .CmdContentBegin, .EndOfFile]

/-- The fewest bytes a pattern can match. -/
def Pat.min : Pat → Nat
  | .leadingNumber => 3
  | .untilLinkEnd => 2
  | _ => 1

/-- Facts about the patterns that hold for lexy's matcher: a match stays inside the
text and has the least length of the pattern; the link patterns begin with `[[`;
a time contains no newline; an inline export is `@@name:…@@`. -/
structure Sane (lex : Lexy) : Prop where
  bound : ∀ p r n, lex p r = some n → p.min ≤ n ∧ n ≤ r.length
  link : ∀ p r n, (p = .linkProtocol ∨ p = .linkContinued) → lex p r = some n →
    "[[".toList <+: r
  time : ∀ p r n, (p = .time ∨ p = .timeSec) → lex p r = some n → '\n' ∉ r.take n
  exports : ∀ r n, lex .inlineExport r = some n →
    ∃ w body tail, r = "@@".toList ++ w ++ ':' :: body ++ "@@".toList ++ tail ∧
      ∀ c ∈ w, (isAlnum c || c = '_') = true

/-- The document is empty or ends with a newline. -/
def EndsWithNewline (r : List Char) : Prop := r = [] ∨ r.getLast? = some '\n'

/-- Documents the lexer is shown to accept: they end with a newline, have no `[[`,
no line command whose name starts with `b`, `B` or `_`, and no four-byte sequence cut
short by a newline. -/
structure Plain (r : List Char) : Prop where
  nl : EndsWithNewline r
  noLink : ¬ "[[".toList <:+: r
  noBlock : ∀ c, c = 'b' ∨ c = 'B' ∨ c = '_' → ¬ ['#', '+', c] <:+: r
  utf : ∀ (k : Nat) (c : Char), r[k]? = some c → isUni c = true →
    ∀ j, 1 ≤ j → j ≤ 3 → r[k + j]? ≠ some '\n'

end Verif.BaseLexer
