import Verif.Tokenizer.Model
import Verif.BaseLexer.Model

/-!
# Model of the conversion of tokens

`RecombineState` – src/haxorg/parse/OrgTokenizer.cpp:106-566, the last step of the
tokenizer: the regrouped tokens (`Verif.Tokenizer.regroup`) are turned into the tokens
the parser reads.

The cursor over the tokens (`OrgLexer`) is the token before it and the list of the tokens
from it on.  `lex.tok()` at the end throws (`range`).  Tracing is not modelled, nor are the
members that are never used (`tree_tags`, `HashTagTokens`).
-/

namespace Verif.Recombine
open Verif.Token Verif.Tokenizer

/-- The cursor: `prev_token()` (145-151), and the tokens from the current one on. -/
structure Cur where
  prev : Option Tok
  rest : List Tok
deriving DecidableEq, Repr

/-- `EmptyToken` – OrgTokenizer.cpp:247-266. -/
def emptyToken : List TK :=
  [.Whitespace, .EndOfFile, .Newline, .MediumNewline, .LongNewline, .AnyPunct, .LeadingSpace, .Colon,
   .Semicolon, .Comma, .StmtListBegin, .ParBegin, .ParEnd, .AnyPunct, .ForwardSlash, .Asterisk,
   .Underline, .Punctuation]

/-- The table of `recombine_markup` – OrgTokenizer.cpp:273-286: opening, closing and unknown
kind. -/
def markupKinds : TK → Option (TK × TK × TK)
  | .Asterisk => some (.BoldBegin, .BoldEnd, .BoldUnknown)
  | .ForwardSlash => some (.ItalicBegin, .ItalicEnd, .ItalicUnknown)
  | .Underline => some (.UnderlineBegin, .UnderlineEnd, .UnderlineUnknown)
  | .Equals => some (.VerbatimBegin, .VerbatimEnd, .VerbatimUnknown)
  | .Plus => some (.StrikeBegin, .StrikeEnd, .StrikeUnknown)
  | .Tilda => some (.MonospaceBegin, .MonospaceEnd, .MonospaceUnknown)
  | _ => none

/-- `!prev || EmptyToken.contains(prev->kind)` – OrgTokenizer.cpp:289-290. -/
def isEmpty (t : Option Tok) : Bool :=
  match t with
  | none => true
  | some t => decide (t.kind ∈ emptyToken)

/-- The decision of `recombine_markup` – OrgTokenizer.cpp:302-326. -/
def markupKind (kind : TK) (kinds : TK × TK × TK) (prevEmpty nextEmpty : Bool) : TK :=
  if prevEmpty && !nextEmpty then kinds.1
  else if !prevEmpty && nextEmpty then kinds.2.1
  else if prevEmpty && (kind = .Tilda || kind = .Equals) then kinds.1
  else if nextEmpty && (kind = .Tilda || kind = .Equals) then kinds.2.1
  else if nextEmpty && prevEmpty then kinds.2.2
  else if kind = .Equals then .Equals
  else .Punctuation

/-- `text.substr(n)` throws when `n` exceeds the length. -/
def substr (s : List Char) (n : Nat) : Except Err (List Char) :=
  if n ≤ s.length then .ok (s.drop n) else .error .range

/-- `lstrip(text, CharSet{'_'})`, `rstrip(text, CharSet{' ', ':'})` – OrgTokenizer.cpp:349-350,
src/hstd/stdlib/strutils.cpp:91-109, 320-326. -/
def stripAttr (s : List Char) : List Char :=
  (((s.dropWhile (· = '_')).reverse).dropWhile (fun c => c = ' ' || c = ':')).reverse

/-- `Str::dropPrefix` – src/hstd/stdlib/Str.cpp:25-31. -/
def dropPrefix (p s : List Char) : List Char := if p.isPrefixOf s then s.drop p.length else s

/-- `Str::dropSuffix` – src/hstd/stdlib/Str.cpp:33-39. -/
def dropSuffix (p s : List Char) : List Char := if p.isSuffixOf s then s.take (s.length - p.length) else s

/-- `text.starts_with('"')`. -/
def startsQuote (s : List Char) : Bool := decide (s.head? = some '"')
/-- `text.ends_with('"')`. -/
def endsQuote (s : List Char) : Bool := decide (s.getLast? = some '"')

/-- The loop over the tokens of a quoted argument – OrgTokenizer.cpp:426-431: the tokens
added to `buf` and the tokens left. -/
def quotedRun : List Tok → Except Err (List Tok × List Tok)
  | [] => .error .range
  | t :: ts =>
    if t.kind = .Whitespace ∨ t.kind = .CmdRawArg then
      if endsQuote t.text then .ok ([t], ts)
      else
        match quotedRun ts with
        | .error e => .error e
        | .ok (b, r) => .ok (t :: b, r)
    else .ok ([], t :: ts)

/-- `buf` after the loop – OrgTokenizer.cpp:433-441: one token, or the tokens as they are. -/
def mergeQuoted (first : Tok) (buf : List Tok) : List Tok :=
  if endsQuote ((first :: buf).getLast (by simp)).text then
    [{ first with text := ((first :: buf).map (·.text)).flatten }]
  else first :: buf

/-- A raw argument – OrgTokenizer.cpp:420-446. -/
def rawArg (t : Tok) (ts : List Tok) : Except Err (List Tok × Cur) :=
  if startsQuote t.text && !endsQuote t.text then
    match quotedRun ts with
    | .error e => .error e
    | .ok (buf, rest) => .ok (mergeQuoted t buf, ⟨(t :: buf).getLast?, rest⟩)
  else .ok ([t], ⟨some t, ts⟩)

/-- The words written with capital letters only – OrgTokenizer.cpp:507-513. -/
def wordKind (s : List Char) : TK :=
  if s.all (fun c => BaseLexer.isUpper c || c = '_') then .BigIdent else .Word

/-- `map_interpreted_token` for the kinds that look at one token – OrgTokenizer.cpp:412-543
without 413 and 420-446: the new tokens. -/
def mapOne (prev : Option Tok) (t : Tok) (next : Option Tok) : Except Err (List Tok) :=
  match t.kind with
  | .CmdExampleEnd | .CmdExportEnd | .CmdSrcEnd => .ok [⟨.CmdPrefix, [], t.loc⟩, t]
  | .At => do let s ← substr t.text 1; .ok [{ t with text := s }]
  | .EndOfFile => .ok []
  | .Escaped => do let s ← substr t.text 1; .ok [{ t with text := s }]
  | .Placeholder => do let s ← substr t.text 1; .ok [{ t with text := s.take (t.text.length - 2) }]
  | .TextSrcBegin => do let s ← substr t.text 4; .ok [{ t with text := s }]
  | .Word => .ok [{ t with kind := wordKind t.text }]
  | .ColonExampleLine => .ok [{ t with text := if 1 < t.text.length then t.text.drop 2 else [] }]
  | .FootnoteLinked => .ok [{ t with text := dropSuffix "]".toList (dropPrefix "[fn:".toList t.text) }]
  | k =>
    match markupKinds k with
    | some kinds => .ok [{ t with kind := markupKind k kinds (isEmpty prev) (isEmpty next) }]
    | none => .ok [t]

/-- `map_command_args` – OrgTokenizer.cpp:401-403: the tokens up to the end of the line. -/
def commandArgs (c : Cur) : List Tok × Cur :=
  let args := c.rest.takeWhile (fun t => !decide (t.kind ∈ lineEnd))
  (args, ⟨(args.getLast?).or c.prev, c.rest.dropWhile (fun t => !decide (t.kind ∈ lineEnd))⟩)

/-- `while (lex.at(otk::Whitespace)) { lex.next(); }` – OrgTokenizer.cpp:376. -/
def skipSpace (c : Cur) : Cur :=
  let sp := c.rest.takeWhile (fun t => decide (t.kind = .Whitespace))
  ⟨(sp.getLast?).or c.prev, c.rest.dropWhile (fun t => decide (t.kind = .Whitespace))⟩

/-- `lex.at(line_end)` – src/haxorg/lexbase/Lexer.hpp:222-224: false at the end. -/
def atLineEnd (c : Cur) : Bool :=
  match c.rest with
  | [] => false
  | t :: _ => decide (t.kind ∈ lineEnd)

/-- `while (!lex.at(line_end)) { map_interpreted_token(); }` – OrgTokenizer.cpp:380.  At the
end `lex.at` is false and `map_interpreted_token` throws. -/
def textLoop (body : Cur → Except Err (List Tok × Cur)) : Nat → Cur → Except Err (List Tok × Cur)
  | 0, _ => .error .diverges
  | n + 1, c =>
    if atLineEnd c then .ok ([], c)
    else
      match body c with
      | .error e => .error e
      | .ok (o, c') =>
        match textLoop body n c' with
        | .error e => .error e
        | .ok (os, c'') => .ok (o ++ os, c'')

/-- The first line of a property with text – OrgTokenizer.cpp:378-381. -/
def propertyText (body : Cur → Except Err (List Tok × Cur)) (n : Nat) (c : Cur) :
    Except Err (List Tok × Cur) :=
  match c.rest with
  | [] => .error .range
  | t :: ts =>
    match textLoop body n ⟨some t, ts⟩ with
    | .error e => .error e
    | .ok (os, c') => .ok ({ t with kind := .CmdRawArg } :: os, c')

/-- The name of a command – OrgTokenizer.cpp:336-358. -/
def commandName (t : Tok) : Except Err Tok :=
  match t.kind with
  | .CmdAttr => do let s ← substr t.text 4; .ok { t with text := stripAttr s }
  | _ => .ok t

/-- `if (lex.at(line_end)) { lex.next(); }` – OrgTokenizer.cpp:388. -/
def skipLineEnd (c : Cur) : Cur :=
  match c.rest with
  | [] => c
  | t :: ts => if t.kind ∈ lineEnd then ⟨some t, ts⟩ else c

/-- The arguments of a command – OrgTokenizer.cpp:360-391. -/
def commandRest (body : Cur → Except Err (List Tok × Cur)) (n : Nat) (k : TK) (c : Cur) :
    Except Err (List Tok × Cur) :=
  match k with
  | .CmdExampleBegin | .CmdExportBegin | .CmdPropertyArgs => .ok (commandArgs c)
  | .CmdSrcBegin =>
    let (args, c) := commandArgs c
    .ok (args ++ [.fake .CmdContentBegin], skipLineEnd c)
  | .CmdTitle => .ok ([], skipSpace c)
  | .CmdPropertyText => propertyText body n c
  | _ => .ok ([], c)

/-- `map_line_command` – OrgTokenizer.cpp:333-392, at the token `t` with the tokens `ts`
after it. -/
def lineCommand (body : Cur → Except Err (List Tok × Cur)) (n : Nat) (t : Tok) (ts : List Tok) :
    Except Err (List Tok × Cur) :=
  match ts with
  | [] => .error .range
  | nm :: ts => do
    let nm' ← commandName nm
    let (os, c) ← commandRest body n nm.kind ⟨some nm, ts⟩
    .ok ({ t with kind := .CmdPrefix } :: nm' :: os, c)

/-- `map_interpreted_token` – OrgTokenizer.cpp:405-544.  The fuel bounds the nesting of its
calls and the iterations of the loop in `propertyText`. -/
def mapTok : Nat → Cur → Except Err (List Tok × Cur)
  | 0, _ => .error .diverges
  | n + 1, c =>
    match c.rest with
    | [] => .error .range
    | t :: ts =>
      if t.kind = .LineCommand then lineCommand (mapTok n) n t ts
      else if t.kind = .CmdRawArg then rawArg t ts
      else
        match mapOne c.prev t ts.head? with
        | .error e => .error e
        | .ok os => .ok (os, ⟨some t, ts⟩)

/-- `recombine_impl` – OrgTokenizer.cpp:546-566. -/
def loop : Nat → Cur → Except Err (List Tok)
  | 0, _ => .error .diverges
  | n + 1, c =>
    if c.rest.isEmpty then .ok []
    else
      match mapTok (c.rest.length + 1) c with
      | .error e => .error e
      | .ok (o, c') =>
        if c'.rest.length = c.rest.length then .error .assertion
        else
          match loop n c' with
          | .error e => .error e
          | .ok os => .ok (o ++ os)

/-- `recombine_state.recombine_impl()` as called from `recombine` – OrgTokenizer.cpp:1341-1346. -/
def recombine (toks : List Tok) : Except Err (List Tok) := loop (toks.length + 1) ⟨none, toks⟩

/-- `OrgTokenizer::convert` – OrgTokenizer.cpp:1325-1359: from the base tokens to the tokens of
the parser. -/
def convert (toks : List Tok) : Except Err (List Tok) := do
  let g ← regroup toks
  recombine g

end Verif.Recombine
