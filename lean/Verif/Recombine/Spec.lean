import Verif.Recombine.Model

/-!
# What is expected of the conversion of tokens
-/

namespace Verif.Recombine
open Verif.Token Verif.Tokenizer

/-- The text of a token without the characters that belong to the notation: `@name`, `\c`,
`<name>`, `src_lang`, `: text`, `[fn:name]`. -/
def shown (t : Tok) : List Char :=
  match t.kind with
  | .At => t.text.tail
  | .Escaped => t.text.tail
  | .Placeholder => t.text.tail.dropLast
  | .TextSrcBegin => t.text.drop 4
  | .ColonExampleLine => t.text.drop 2
  | .FootnoteLinked => dropSuffix "]".toList (dropPrefix "[fn:".toList t.text)
  | _ => t.text

/-- The name of an attribute: `attr`, underscores after it and spaces and colons at the end
are taken off. -/
def IsAttrName (full name : List Char) : Prop :=
  ∃ a u z, full = a ++ u ++ name ++ z ∧ a.length = 4 ∧ (∀ c ∈ u, c = '_') ∧ (∀ c ∈ z, c = ' ' ∨ c = ':') ∧
    (∀ c ∈ (name ++ z).head?, c ≠ '_') ∧ ∀ c ∈ name.getLast?, c ≠ ' ' ∧ c ≠ ':'

/-- The kinds a token of a kind may get. -/
def newKinds (k : TK) : List TK :=
  k :: match k with
  | .Word => [.BigIdent]
  | .LineCommand => [.CmdPrefix]
  | .Asterisk => [.BoldBegin, .BoldEnd, .BoldUnknown, .Punctuation]
  | .ForwardSlash => [.ItalicBegin, .ItalicEnd, .ItalicUnknown, .Punctuation]
  | .Underline => [.UnderlineBegin, .UnderlineEnd, .UnderlineUnknown, .Punctuation]
  | .Equals => [.VerbatimBegin, .VerbatimEnd, .VerbatimUnknown]
  | .Plus => [.StrikeBegin, .StrikeEnd, .StrikeUnknown, .Punctuation]
  | .Tilda => [.MonospaceBegin, .MonospaceEnd, .MonospaceUnknown, .Punctuation]
  | _ => []

/-- A token becomes another one: same location, a kind that fits, the same text or what is
shown of it. -/
structure Turns (t t' : Tok) : Prop where
  loc : t'.loc = t.loc
  kind : t'.kind ∈ newKinds t.kind
  text : t'.text = t.text ∨ t'.text = shown t ∨ (t.kind = .CmdAttr ∧ IsAttrName t.text t'.text)

/-- The second list is the first one, token by token, apart from what the constructors say. -/
inductive Kept : List Tok → List Tok → Prop
  | nil : Kept [] []
  /-- a token becomes a token -/
  | turn {t t' ts os} : Turns t t' → Kept ts os → Kept (t :: ts) (t' :: os)
  /-- the end of the file is left out -/
  | eof {t ts os} : t.kind = .EndOfFile → Kept ts os → Kept (t :: ts) os
  /-- a command marker is added before the end of a verbatim block -/
  | close {t ts os} : t.kind ∈ [TK.CmdExampleEnd, .CmdExportEnd, .CmdSrcEnd] → Kept ts os →
      Kept (t :: ts) (⟨.CmdPrefix, [], t.loc⟩ :: t :: os)
  /-- the pieces of a quoted argument are put together -/
  | quoted {t buf ts os} : (∀ b ∈ t :: buf, b.kind = .CmdRawArg ∨ b.kind = .Whitespace) → t.kind = .CmdRawArg →
      t.text.head? = some '"' → ((t :: buf).map (·.text)).flatten.getLast? = some '"' → Kept ts os →
      Kept (t :: (buf ++ ts)) (⟨.CmdRawArg, ((t :: buf).map (·.text)).flatten, t.loc⟩ :: os)
  /-- spaces between `#+title:` and the title are left out -/
  | title {t t' nm sp ts os} : t.kind = .LineCommand → Turns t t' → nm.kind = .CmdTitle →
      (∀ s ∈ sp, s.kind = .Whitespace) → Kept ts os →
      Kept (t :: nm :: (sp ++ ts)) (t' :: nm :: os)
  /-- the line break after the first line of a source block is left out, a token for the
  begin of the content is added -/
  | source {t t' nm args nl ts os} : t.kind = .LineCommand → Turns t t' → nm.kind = .CmdSrcBegin →
      (∀ a ∈ args, a.kind ∉ lineEnd) → nl.length ≤ 1 → (∀ e ∈ nl, e.kind ∈ lineEnd) → Kept ts os →
      Kept (t :: nm :: (args ++ (nl ++ ts))) (t' :: nm :: (args ++ .fake .CmdContentBegin :: os))
  /-- the token after the name of a property with text is its name -/
  | property {t t' nm a ts os} : t.kind = .LineCommand → Turns t t' → nm.kind = .CmdPropertyText →
      Kept ts os → Kept (t :: nm :: a :: ts) (t' :: nm :: { a with kind := .CmdRawArg } :: os)

/-- The tokens that count as a blank next to a markup character. -/
def blankKinds : List TK :=
  [.Whitespace, .LeadingSpace, .Newline, .MediumNewline, .LongNewline, .EndOfFile, .StmtListBegin,
   .Colon, .Semicolon, .Comma, .ParBegin, .ParEnd, .Punctuation, .AnyPunct,
   .ForwardSlash, .Asterisk, .Underline]

/-- The start of the document, the end, or a blank. -/
def Blank (t : Option Tok) : Prop := ∀ x ∈ t, x.kind ∈ blankKinds

instance (t : Option Tok) : Decidable (Blank t) := by unfold Blank; infer_instance

/-- The kinds of an opening, a closing and an undecided markup character. -/
def marks : TK → Option (TK × TK × TK)
  | .Asterisk => some (.BoldBegin, .BoldEnd, .BoldUnknown)
  | .ForwardSlash => some (.ItalicBegin, .ItalicEnd, .ItalicUnknown)
  | .Underline => some (.UnderlineBegin, .UnderlineEnd, .UnderlineUnknown)
  | .Plus => some (.StrikeBegin, .StrikeEnd, .StrikeUnknown)
  | .Equals => some (.VerbatimBegin, .VerbatimEnd, .VerbatimUnknown)
  | .Tilda => some (.MonospaceBegin, .MonospaceEnd, .MonospaceUnknown)
  | _ => none

/-- The kind of a token between two others. -/
def kindBetween (before : Option Tok) (t : Tok) (after : Option Tok) : TK :=
  if t.kind = .Word then
    (if ∀ c ∈ t.text, ('A' ≤ c ∧ c ≤ 'Z') ∨ c = '_' then .BigIdent else .Word)
  else
    match marks t.kind with
    | none => t.kind
    | some (opening, closing, undecided) =>
      if Blank before ∧ ¬ Blank after then opening
      else if ¬ Blank before ∧ Blank after then closing
      else if Blank before ∧ Blank after then
        (if t.kind = .Equals ∨ t.kind = .Tilda then opening else undecided)
      else if t.kind = .Equals then .Equals else .Punctuation

/-- What a token between two others becomes. -/
def becomes (before : Option Tok) (t : Tok) (after : Option Tok) : List Tok :=
  if t.kind = .EndOfFile then []
  else if t.kind ∈ [TK.CmdExampleEnd, .CmdExportEnd, .CmdSrcEnd] then [⟨.CmdPrefix, [], t.loc⟩, t]
  else [⟨kindBetween before t after, shown t, t.loc⟩]

/-- Every token with its neighbours. -/
def byNeighbours : Option Tok → List Tok → List Tok
  | _, [] => []
  | before, t :: ts => becomes before t ts.head? ++ byNeighbours (some t) ts

/-- The least length of the texts of some tokens: `@`, `\`, `<`, `src_`, `attr`. -/
def leastLength : TK → Nat
  | .At | .Escaped | .Placeholder => 1
  | .TextSrcBegin | .CmdAttr => 4
  | _ => 0

/-- Streams as the lexer makes them for well-formed documents: commands have names, an
argument is followed by something, a property with text has a name and is closed by the end
of its line. -/
structure Regular (toks : List Tok) : Prop where
  long : ∀ t ∈ toks, leastLength t.kind ≤ t.text.length
  command : ∀ t post, t :: post <:+ toks → t.kind = .LineCommand → post ≠ []
  argument : ∀ t post, t :: post <:+ toks → t.kind = .CmdRawArg → ∃ e ∈ post, e.kind ≠ .CmdRawArg ∧ e.kind ≠ .Whitespace
  property : ∀ t post, t :: post <:+ toks → t.kind = .CmdPropertyText → ∃ a args e post', post = a :: (args ++ e :: post') ∧
    e.kind ∈ lineEnd ∧ ∀ b ∈ args, b.kind ∉ lineEnd ∧ b.kind ≠ .LineCommand

end Verif.Recombine
