import Verif.Parser.Kinds
import Verif.NodeGroup.Spec

/-!
# The grammar of markup

Bold, italic, underlined and struck through text: an opening token and the closing token of the
same kind enclose a text in which all markup is closed.
-/

namespace Verif.Parser
open Verif.NodeGroup Verif.NodeGroup.Spec

/-- What a token does in a text. -/
inductive Role where
  /-- stands for itself, as a leaf of this kind -/
  | plain (k : NK)
  /-- opens markup (`*` before a word) -/
  | opens (k : NK)
  /-- closes markup (`*` after a word) -/
  | closes (k : NK)
  /-- closes the markup if it is the innermost open one, and opens it otherwise -/
  | either (k : NK)
  /-- starts some other element -/
  | element

/-- The roles of the tokens. -/
def role : TK → Role
  | .Word | .Number | .MiscUnicode | .Date | .Time | .SubtreePriority => .plain .Word
  | .BigIdent => .plain .BigIdent
  | .RawText => .plain .RawText
  | .Escaped => .plain .Escaped
  | .Whitespace => .plain .Space
  | .Newline => .plain .Newline
  | .Colon => .plain .Colon
  | .Punctuation | .AngleEnd | .Comma | .Semicolon | .Exclamation | .SingleQuote | .DoubleQuote | .Percent
  | .Ampersand | .ForwardSlash | .Circumflex | .Backtick | .Dollar | .ParBegin | .ParEnd | .BraceEnd | .CurlyEnd
  | .AnyPunct | .Asterisk | .Equals | .Minus | .Plus | .Pipe | .Tilda | .Underline | .DoubleDash | .DoubleColon => .plain .Punctuation
  | .BoldBegin => .opens .Bold
  | .BoldEnd => .closes .Bold
  | .BoldUnknown => .either .Bold
  | .ItalicBegin => .opens .Italic
  | .ItalicEnd => .closes .Italic
  | .ItalicUnknown => .either .Italic
  | .UnderlineBegin => .opens .Underline
  | .UnderlineEnd => .closes .Underline
  | .UnderlineUnknown => .either .Underline
  | .StrikeBegin => .opens .Strike
  | .StrikeEnd => .closes .Strike
  | .StrikeUnknown => .either .Strike
  | _ => .element

/-- The token closes markup of this kind. -/
def IsClose (nk : NK) (k : TK) : Prop := role k = .closes nk ∨ role k = .either nk

/-- The token opens markup of this kind inside of `e`. -/
def IsOpen (e : Option NK) (nk : NK) (k : TK) : Prop := role k = .opens nk ∨ (role k = .either nk ∧ e ≠ some nk)

/-- A text directly inside of markup `e` (`none`: of the paragraph) in which all markup is
closed and which does not close `e`. -/
inductive Closed : Option NK → List (Nat × TK) → Forest NK Unit → Prop
  /-- the empty text -/
  | nil {e} : Closed e [] .nil
  /-- a plain token -/
  | plain {e i k nk r f} : role k = .plain nk → Closed e r f → Closed e ((i, k) :: r) (.leaf nk (.tok i) f)
  /-- a closing token with nothing to close is punctuation -/
  | stray {e i k nk r f} : role k = .closes nk → e ≠ some nk → Closed e r f →
      Closed e ((i, k) :: r) (.leaf .Punctuation (.tok i) f)
  /-- markup: opening token, closed text, closing token -/
  | pair {e i k nk u c j k' r f} : IsOpen e nk k → Closed (some nk) u c → IsClose nk k' → Closed e r f →
      Closed e ((i, k) :: (u ++ (j, k') :: r)) (.tree nk c f)

/-- The rest of a paragraph inside of markup `e` which is never closed. -/
inductive Open : Option NK → List (Nat × TK) → Forest NK Unit → Prop
  /-- all markup in the rest is closed -/
  | closed {e r f} : Closed e r f → Open e r f
  /-- an opening token which is never closed is punctuation -/
  | unclosed {e u f i k nk r g} : Closed e u f → IsOpen e nk k → Open (some nk) r g →
      Open e (u ++ (i, k) :: r) (f.append (.leaf .Punctuation (.tok i) g))

/-- The kinds of line breaks; the last two separate paragraphs. -/
def lineBreaks : List TK := [.Newline, .MediumNewline, .LongNewline]

/-- A document of paragraphs. -/
inductive Doc : List (Nat × TK) → Forest NK Unit → Prop
  /-- the empty document -/
  | nil : Doc [] .nil
  /-- a line break between paragraphs -/
  | line {i k r f} : k ∈ lineBreaks → Doc r f → Doc ((i, k) :: r) (.leaf .Newline (.tok i) f)
  /-- white space between paragraphs -/
  | space {i r f} : Doc r f → Doc ((i, .Whitespace) :: r) (.leaf .Space (.tok i) f)
  /-- a paragraph goes to the next break -/
  | par {i k u r f g} : k ∉ Token.TK.Whitespace :: lineBreaks → Open none ((i, k) :: u) g →
      (∀ p ∈ r.head?, p.2 ∈ [Token.TK.MediumNewline, .LongNewline]) → Doc r f →
      Doc ((i, k) :: (u ++ r)) (.tree .Paragraph g f)

/-- The tokens of such documents. -/
def IsText (k : TK) : Prop := role k ≠ .element ∨ k ∈ lineBreaks

end Verif.Parser
