import Verif.Parser.Kinds
import Verif.Lexer.Model
import Verif.NodeGroup.Model

/-!
# The parser machine – src/haxorg/parse/OrgParserUtils.cpp, OrgParser.hpp

A parse function changes a token cursor and the flat tree under construction; it returns
normally, returns `ParseFail`, or throws.

Simplifications: token texts are not part of the model; what the parser asks about them is
given by `Texts`.  Tracing is not modelled.  The location of an error at the end of the
stream (`lastToken`, OrgParserUtils.cpp:196-197) is not looked up.
-/

namespace Verif.Parser
open Verif.Lexer Verif.NodeGroup

/-- Abnormal ends: `range` (nil or invalid id, `Vec::at`), `lexer` (`UnexpectedEndError`,
`UnexpectedCharError`), `fatal` (`fatalError` for an unhandled token or command),
`macro` (the assertions of `parseMacro`, OrgParser.cpp:215, 219), `location` (`loc.value()`
of a token without location), `diverges` (no result within the fuel); `tree` (a failed
assertion of the tree builder or about the number of open trees) and `unbalanced`
(OrgParser.cpp:635). -/
inductive PErr where
  | range | lexer | fatal | macro | location | diverges | tree | unbalanced
deriving DecidableEq, Repr

/-- What the parser asks about token texts and locations: is the text empty, is there no
location, do two tokens name the same dynamic block (OrgParser.cpp:1470-1474). -/
structure Texts where
  blank : Nat → Bool
  noLoc : Nat → Bool
  sameBlock : Nat → Nat → Bool

/-- The state: the cursor handed to the function and `OrgParser::group`. -/
structure St where
  lex : Lex TK
  g : Group NK Unit

/-- A parse function; `none` is `ParseFail`. -/
def P (α : Type) : Type := St → Except PErr (Option α × St)

/-- Sequencing; `BOOST_OUTCOME_TRY` leaves the function on `ParseFail`. -/
def P.bind {α β : Type} (p : P α) (f : α → P β) : P β := fun s =>
  match p s with
  | .error e => .error e
  | .ok (none, s') => .ok (none, s')
  | .ok (some a, s') => f a s'

/-- Nothing to do. -/
def P.ret {α : Type} (a : α) : P α := fun s => .ok (some a, s)

instance : Monad P where
  pure := P.ret
  bind := P.bind

variable {α : Type}

/-- An exception. -/
def throwP (e : PErr) : P α := fun _ => .error e

/-- `if (c) { a } else { b }` -/
def ifP (c : P Bool) (a b : P α) : P α := P.bind c (fun t => match t with | true => a | false => b)

/-- `std::ignore = f()` -/
def ignoreP (p : P α) : P Unit := fun s =>
  match p s with
  | .error e => .error e
  | .ok (_, s') => .ok (some (), s')

/-- `while (c) { body }`; the fuel bounds the number of iterations. -/
def whileP (c : P Bool) (body : P Unit) : Nat → P Unit
  | 0 => ifP c (throwP .diverges) (P.ret ())
  | n + 1 => ifP c (P.bind body (fun _ => whileP c body n)) (P.ret ())

/-- Conjunction of two tests, the second one not evaluated if the first one fails. -/
def andP (a b : P Bool) : P Bool := P.bind a (fun t => match t with | true => b | false => P.ret false)

/-- Disjunction of two tests. -/
def orP (a b : P Bool) : P Bool := P.bind a (fun t => match t with | true => P.ret true | false => b)

/-- Negation. -/
def notP (a : P Bool) : P Bool := P.bind a (fun t => P.ret (!t))

/-! ## The cursor -/

/-- Exceptions of the cursor. -/
def PErr.ofLex : Lexer.Err → PErr
  | .range => .range
  | .unexpectedEnd => .lexer
  | .unexpectedChar => .lexer
  | .fuel => .diverges

/-- A question to the cursor. -/
def ask (f : Lex TK → Except Lexer.Err α) : P α := fun s =>
  match f s.lex with
  | .error e => .error (.ofLex e)
  | .ok a => .ok (some a, s)

/-- `lex.at(kinds, offset)` -/
def atP (kinds : List TK) (off : Int := 0) : P Bool := ask (fun l => l.at kinds off)

/-- `lex.at(Vec{...})` -/
def atSeqP (kinds : List TK) : P Bool := ask (fun l => l.atSeq kinds)

/-- `lex.kind(offset)` -/
def kindP (off : Int := 0) : P TK := ask (fun l => l.kind off)

/-- `lex.finished()` -/
def finishedP : P Bool := ask (fun l => .ok l.finished)

/-- `lex.can_search(kinds)` – Lexer.hpp:219-220 -/
def canSearch (kinds : List TK) : P Bool := andP (notP finishedP) (notP (atP kinds))

/-- `lex.can_search(Vec{...})` – Lexer.hpp:221 -/
def canSearchSeq (kinds : List TK) : P Bool := andP (notP finishedP) (notP (atSeqP kinds))

/-- `lex.next()`; `skip(lex)` without expectation – OrgParserUtils.cpp:290-303 -/
def nextP : P Unit := fun s => .ok (some (), { s with lex := s.lex.next })

/-- `lex.pop()`; `pop(lex)` without expectation – OrgParserUtils.cpp:279-287 -/
def popP : P Nat := fun s => .ok (some s.lex.pos, { s with lex := s.lex.next })

/-! ## The tree -/

/-- `token(kind, tok)` – OrgParserUtils.cpp:168-177 -/
def tokenP (k : NK) (t : Nat) : P Unit := fun s =>
  .ok (some (), { s with g := (s.g.token ⟨k, .tok t⟩).1 })

/-- `token(Node::Mono(kind))` – OrgParserUtils.cpp:151-166 -/
def monoP (k : NK) : P Unit := fun s =>
  .ok (some (), { s with g := (s.g.token ⟨k, .mono ()⟩).1 })

/-- `empty()` – OrgParser.hpp:138-144 -/
def emptyP : P Unit := monoP .Empty

/-- `error_token` after `error_value` – OrgParserUtils.cpp:179-217: the location of the
current token must be there. -/
def errorToken (t : Texts) : P Unit := fun s =>
  if !s.lex.finished && t.noLoc s.lex.pos then .error .location else monoP .ErrorInfoToken s

/-- `error_end` – OrgParserUtils.cpp:116-122, OrgParser.hpp:208-214 -/
def failP (t : Texts) : P α := P.bind (errorToken t) (fun _ => fun s => .ok (none, s))

/-- `expect` – OrgParserUtils.cpp:243-277 -/
def expectP (t : Texts) (kinds : List TK) : P Unit := ifP (atP kinds) (P.ret ()) (failP t)

/-- `TRY_SKIP(lex, kinds)` – OrgParserUtils.cpp:290-303 -/
def skipP (t : Texts) (kinds : List TK) : P Unit := P.bind (expectP t kinds) (fun _ => nextP)

/-- `token(k, TRY_POPX(lex, kinds))` – OrgParserUtils.cpp:279-287 -/
def popAs (t : Texts) (k : NK) (kinds : List TK) : P Unit :=
  P.bind (expectP t kinds) (fun _ => P.bind popP (fun id => tokenP k id))

/-- `token(k, pop(lex))` -/
def popAny (k : NK) : P Unit := P.bind popP (fun id => tokenP k id)

/-- `NodeGuard::end` – OrgParser.cpp:2763-2780 -/
def guardEnd (depth : Nat) (g : Group NK Unit) : Except PErr (Group NK Unit) :=
  match g.endTree with
  | .error _ => .error .tree
  | .ok (g', _) => if g'.pending.length = depth then .ok g' else .error .tree

/-- `auto guard = start(kind); ...; guard->end()` – OrgParserUtils.cpp:78-92.  The
destructor ends the tree when the function is left early (OrgParser.hpp:175-177); the
destructor running for an exception is not modelled. -/
def node (k : NK) (body : P α) : P α := fun s =>
  match body { s with g := (s.g.startTree ⟨k, .ext 0⟩).1 } with
  | .error e => .error e
  | .ok (r, s') =>
    match guardEnd s.g.pending.length s'.g with
    | .error e => .error e
    | .ok g => .ok (r, { s' with g := g })

/-- `SUB_PARSE` – OrgParser.cpp:109-119, `maybe_recursive_error_end` –
OrgParserUtils.cpp:219-230: a failure leaves another error node. -/
def subP (t : Texts) (p : P α) : P α := fun s =>
  match p s with
  | .error e => .error e
  | .ok (some a, s') => .ok (some a, s')
  | .ok (none, s') => failP t s'

/-- Run a function on another cursor over the same tokens; the own cursor stays. -/
def withLex (l : Lex TK) (p : P α) : P α := fun s =>
  match p { s with lex := l } with
  | .error e => .error e
  | .ok (r, s') => .ok (r, { s' with lex := s.lex })

/-- `SubLexer(lex.in, ids)` – Lexer.hpp:396-398 -/
def withIds (ids : List Nat) (p : P α) : P α := fun s => withLex (Lex.ofIds s.lex.toks ids) p s

/-- `sub.start(); SUB_PARSE(Paragraph, sub)`; `start` throws if nothing was added
(`tokens.at(0)`, Lexer.hpp:370). -/
def startIds (t : Texts) (ids : List Nat) (p : P Unit) : P Unit :=
  match ids with
  | [] => throwP .range
  | _ :: _ => subP t (withIds ids p)

/-- `if (sub.empty()) { empty(); } else { sub.start(); SUB_PARSE(Paragraph, sub); }` -/
def idsOrEmpty (t : Texts) (ids : List Nat) (p : P Unit) : P Unit :=
  match ids with
  | [] => emptyP
  | _ :: _ => subP t (withIds ids p)

/-- `while (c) { sub.add(lex.pop()); }` -/
def collect (c : P Bool) : Nat → P (List Nat)
  | 0 => ifP c (throwP .diverges) (P.ret [])
  | n + 1 => ifP c (P.bind popP (fun id => P.bind (collect c n) (fun ids => P.ret (id :: ids)))) (P.ret [])

/-- `space(lex)` – OrgParser.cpp:135-139 -/
def spaceP (n : Nat) : P Unit := whileP (atP [.Whitespace, .LeadingSpace]) nextP n

/-- The set `Newline` – OrgParser.cpp:71-75 -/
def newlineKinds : List TK := [.Newline, .LongNewline, .MediumNewline]

/-- `newline(lex)` – OrgParser.cpp:141-145 -/
def newlineP (n : Nat) : P Unit := whileP (atP newlineKinds) nextP n

/-- `ParagraphTerminator` – OrgParser.cpp:77-95 -/
def paragraphTerminator : List TK :=
  [.MediumNewline, .LongNewline, .SubtreeStars, .ListBegin, .ListItemBegin, .CmdSrcBegin, .CmdSrcEnd,
   .CmdQuoteEnd, .CmdQuoteBegin, .StmtListEnd, .CmdPrefix, .LeadingPipe, .ListItemEnd, .Indent, .Dedent, .SameIndent]

/-- `ListStarts` – OrgParser.cpp:97-102 -/
def listStarts : List TK := [.LeadingMinus, .LeadingNumber, .LeadingPlus, .TreeClock]

end Verif.Parser
