import Verif.Token.Kind

/-!
# Model of the base lexer

`src/haxorg/base_lexer/base_token_tokenize.cpp`: characters of the document to
base tokens.  The text is a list of bytes (a byte is the character with that
code).  The cursor holds the text still to be read instead of a position into the
whole text; `pos` is carried along.  Tracing, the line number of locations and
the file id are not modelled.  Functions of `<cctype>` answer `false` for bytes
above 127 (C++: undefined for negative `char`, `false` in the C locale in practice).

The grammar fragments given to the lexy library (`try_lexy_patt<…>`) are abstract:
the model takes a function `Lexy` answering how many bytes a pattern matches.
`Verif.BaseLexer.Std` has a concrete one.
-/

namespace Verif.BaseLexer
open Verif.Token

/-- Abnormal outcomes: failed assertion (exception), process termination by an
exception thrown in a destructor (`advance_guard`), undefined behaviour, a loop
that makes no progress, exhausted recursion fuel of the model. -/
inductive Err where
  | assertion
  | abort
  | undef
  | diverges
  | fuel
deriving DecidableEq, Repr

/-- The patterns given to `try_lexy_patt`, in order of appearance. -/
inductive Pat where
  | propertyKind      -- 847-848
  | inlineSrc         -- 965-968
  | timeRepeater      -- 1028-1030, used at 1173, 1378
  | propSubname       -- 1082
  | clock             -- 1100
  | colonEnd          -- 1104
  | colonProperties   -- 1107
  | leadingNumber     -- 1111-1113
  | colonLogbook      -- 1116
  | argProperty       -- 1120-1122
  | textProperty      -- 1127-1129
  | literalProperty   -- 1134-1135
  | stars             -- 1162
  | completionPercent -- 1240-1242
  | completionRatio   -- 1246-1248
  | priority          -- 1253-1255
  | checkbox          -- 1258-1265
  | footnoteLinked    -- 1268-1270
  | footnoteInline    -- 1272
  | linkProtocol      -- 1275-1276
  | untilLinkEnd      -- 1283, 1287, 1291, 1317, …
  | linkContinued     -- 1312-1313
  | angleDate         -- 1395-1398
  | placeholder       -- 1401-1402
  | inlineExport      -- 1433-1436
  | warnPeriod        -- 1516-1518
  | timeSec           -- 1580-1583
  | time              -- 1588-1590
  | date              -- 1595-1598
  | wordNumAlpha      -- 1601-1603
  | wordNumUnder      -- 1606-1608
deriving DecidableEq, Repr

/-- `try_lexy_patt<Pattern>(offset)` – 254-309: given the text from the offset on,
the number of bytes matched. -/
abbrev Lexy := Pat → List Char → Option Nat

/-! ## Characters -/

/-- `std::isdigit`. -/
def isDigit (c : Char) : Bool := decide ('0' ≤ c) && decide (c ≤ '9')
/-- `std::islower`. -/
def isLower (c : Char) : Bool := decide ('a' ≤ c) && decide (c ≤ 'z')
/-- `std::isupper`. -/
def isUpper (c : Char) : Bool := decide ('A' ≤ c) && decide (c ≤ 'Z')
/-- `std::isalpha`. -/
def isAlpha (c : Char) : Bool := isLower c || isUpper c
/-- `std::isalnum`. -/
def isAlnum (c : Char) : Bool := isAlpha c || isDigit c
/-- `std::tolower`. -/
def toLower (c : Char) : Char := if isUpper c then Char.ofNat (c.toNat + 32) else c

/-- `normalize` – src/hstd/stdlib/strutils.cpp:210-222. -/
def normalize (s : List Char) : List Char :=
  s.filterMap fun c =>
    if c = '_' ∨ c = '-' then none
    else if isLower c || isDigit c then some c
    else if isUpper c then some (toLower c)
    else none

/-! ## Cursor – 31-485 -/

/-- `Cursor`: remaining text, position, column, the character before the cursor. -/
structure Cur where
  rest : List Char
  pos : Nat
  col : Nat
  prev : Option Char
deriving DecidableEq, Repr

/-- The cursor and the tokens produced so far (`group`). -/
structure St where
  cur : Cur
  out : List Tok
deriving DecidableEq, Repr

/-- `next` – 186-203. -/
def Cur.next (c : Cur) : Cur :=
  match c.rest with
  | [] => c
  | ch :: r =>
    { rest := r, pos := c.pos + 1, col := if ch = '\n' then 0 else c.col + 1, prev := some ch }

/-- `advance_count` – 489-491. -/
def Cur.adv : Nat → Cur → Cur
  | 0, c => c
  | n + 1, c => Cur.adv n c.next

/-- `while (c.has_text() && p) c.next();` where `p` looks at the remaining text. -/
def Cur.advWhileGo (p : List Char → Bool) : List Char → Cur → Cur
  | [], c => c
  | ch :: r, c => if p (ch :: r) then Cur.advWhileGo p r c.next else c

def Cur.advWhile (p : List Char → Bool) (c : Cur) : Cur := Cur.advWhileGo p c.rest c

/-- `while (!p) c.next();` with no check for the end of the text: `next` does not
move at the end, so the loop runs forever there. -/
def Cur.advUntilGo (p : List Char → Bool) : List Char → Cur → Except Err Cur
  | [], _ => .error .diverges
  | ch :: r, c => if p (ch :: r) then .ok c else Cur.advUntilGo p r c.next

def Cur.advUntil (p : List Char → Bool) (c : Cur) : Except Err Cur := Cur.advUntilGo p c.rest c

/-- `is_at(ch, offset)` – 141-143. -/
def isAt (r : List Char) (ch : Char) (off : Nat := 0) : Bool := decide (r[off]? = some ch)

/-- `is_at(text, offset)` – 145-151, and `is_at_all_of(offset, 'x', 'y', …)` – 124-138. -/
def isAtStr (r : List Char) (s : List Char) (off : Nat := 0) : Bool := s.isPrefixOf (r.drop off)

/-- `is_at_any_of(offset, …)` – 69-91. -/
def isAtAny (r : List Char) (p : Char → Bool) (off : Nat := 0) : Bool :=
  match r[off]? with
  | some c => p c
  | none => false

/-- `is_iat(text, 0)` – 153-162; reading past the end fails the assertion in `get`. -/
def isIat : List Char → List Char → Except Err Bool
  | _, [] => .ok true
  | [], _ :: _ => .error .assertion
  | c :: cs, t :: ts => if toLower c ≠ toLower t then .ok false else isIat cs ts

/-- `skip(ch)` – 48-61. -/
def Cur.skip (ch : Char) (c : Cur) : Except Err Cur :=
  match c.rest with
  | [] => .error .assertion
  | x :: _ => if x = ch then .ok c.next else .error .assertion

/-- First byte of a four-byte sequence: `0xF0 <= byte` – 205-207. -/
def isUni (c : Char) : Bool := decide (0xF0 ≤ c.toNat)

/-- Step of `nextUnicode` – 220-227. -/
def uniSize (c : Char) : Nat :=
  if 0xF0 ≤ c.toNat then 4 else if 0xE0 ≤ c.toNat then 3 else if 0xC0 ≤ c.toNat then 2 else 1

/-- `nextUnicode` – 209-235 (`min` with the end of the text; the column grows by one). -/
def Cur.nextUnicode (c : Cur) : Cur :=
  match c.rest with
  | [] => c
  | ch :: _ =>
    let n := if ch = '\n' then 1 else uniSize ch
    { rest := c.rest.drop n, pos := c.pos + min n c.rest.length,
      col := if ch = '\n' then 1 else c.col + 1,
      prev := (c.rest.take n).getLast? }

/-- `token_cb` – 397-425: the token's text is what the callback moved over. -/
def tokenCb (k : TK) (f : Cur → Except Err Cur) (s : St) : Except Err St := do
  let c' ← f s.cur
  pure ⟨c', s.out ++ [⟨k, s.cur.rest.take (c'.pos - s.cur.pos), some s.cur.pos⟩]⟩

/-- `token0` / `token1` with a callback that cannot fail. -/
def token (k : TK) (f : Cur → Cur) (s : St) : Except Err St := tokenCb k (fun c => .ok (f c)) s

/-- `token_adv`, `token1(kind, &advance_count, n)`, `token0(kind, &advance1)` – 446-454. -/
def tokenAdv (k : TK) (n : Nat) (s : St) : Except Err St := token k (Cur.adv n) s

/-! ## Advance helpers – 489-523 -/

/-- Character of a word: alphanumeric, or `-`/`_` before an alphanumeric one – 496-501. -/
def wordChar (r : List Char) : Bool :=
  match r with
  | a :: b :: _ => isAlnum a || ((a = '-' || a = '_') && isAlnum b)
  | [a] => isAlnum a
  | [] => false

/-- The apostrophe of a word – 504. -/
def optApostrophe (c : Cur) : Cur := if isAt c.rest '\'' then c.next else c

/-- `advance_word` – 495-507.  The two nested loops over `-`/`_` followed by an
alphanumeric character and the alphanumeric runs between them are one loop here. -/
def advWord (c : Cur) : Cur :=
  (optApostrophe (c.advWhile wordChar)).advWhile fun r => isAtAny r isAlnum

/-- `advance_number` – 508-511. -/
def advNumber (c : Cur) : Cur :=
  let c := if isAt c.rest '-' then c.next else c
  c.advWhile fun r => isAtAny r fun a => isDigit a || a = '_'

/-- `advance_ident` – 513-515. -/
def advIdent (c : Cur) : Cur := c.advWhile fun r => isAtAny r fun a => isAlnum a || a = '_'

/-- `advance_char1` – 517-519. -/
def advChar1 (ch : Char) (c : Cur) : Cur := c.advWhile fun r => isAt r ch

/-- `while (c.can_search('\n')) { c.next(); }` – e.g. 677. -/
def advLine (c : Cur) : Cur := c.advWhile fun r => !isAt r '\n'

/-! ## Command arguments – 531-588 -/

/-- Delimiters of command arguments – 572, 583. -/
def argDelim (c : Char) : Bool :=
  c = '(' || c = ')' || c = ']' || c = '[' || c = '=' || c = ',' || c = ' ' || c = '\n'

/-- Body of the quoted argument callback – 542-554: up to the closing quote, the
end of the line or of the text; `\"` is skipped over. -/
def advQuotedGo : Nat → Cur → Cur
  | 0, c => c
  | n + 1, c =>
    match c.rest with
    | [] => c
    | ch :: r =>
      if ch = '"' then c
      else if ch = '\n' then c
      else if ch = '\\' && isAt r '"' then advQuotedGo n (c.adv 2)
      else advQuotedGo n c.next

/-- The callback of the quoted argument – 541-557.  The loop moves in every step,
so the length of the text bounds its steps. -/
def advQuoted (c : Cur) : Cur :=
  let c := c.next
  let c := advQuotedGo c.rest.length c
  if isAt c.rest '"' then c.next else c

/-- Single-character arguments – 533-540. -/
def argSimple (ch : Char) : Option TK :=
  if ch = '(' then some .ParBegin
  else if ch = ')' then some .ParEnd
  else if ch = ']' then some .BraceEnd
  else if ch = '=' then some .Equals
  else if ch = ',' then some .Comma
  else if ch = '[' then some .BraceBegin
  else none

/-- `switch_cmd_argument` – 531-588. -/
def cmdArgument (s : St) : Except Err St :=
  match s.cur.rest with
  | [] => .error .assertion
  | ch :: r =>
    match argSimple ch with
    | some k => tokenAdv k 1 s
    | none =>
      if ch = ' ' then token .Whitespace (advChar1 ' ') s
      else if ch = '\n' then .error .assertion
      else if ch = '"' then token .CmdRawArg advQuoted s
      else if ch = ':' then
        if isAtAny r isAlnum then
          token .CmdColonIdent
            (fun c => c.next.advWhile fun r => isAtAny r fun a => isAlnum a || a = '_' || a = '-') s
        else tokenCb .CmdRawArg (fun c => c.next.advUntil fun r => isAtAny r argDelim) s
      else token .CmdRawArg (fun c => c.advWhile fun r => !isAtAny r argDelim) s

/-! ## Loops over sub-lexers -/

/-- `while (cond) { body }`.  With `stuck = .abort` the body runs under
`advance_guard` (458-484): a step without movement terminates the process.  With
`stuck = .diverges` there is no guard: a step without movement repeats forever.
The counter bounds the steps, each of which moves. -/
def loop (cond : List Char → Bool) (stuck : Err) (body : St → Except Err St) :
    Nat → St → Except Err St
  | 0, _ => .error .fuel
  | n + 1, s =>
    if cond s.cur.rest then
      match body s with
      | .error e => .error e
      | .ok s' => if s'.cur.pos = s.cur.pos then .error stuck else loop cond stuck body n s'
    else .ok s

/-- `c.has_text() && !c.is_at('\n')` (also `can_search('\n')`). -/
def inLine (r : List Char) : Bool := !r.isEmpty && !isAt r '\n'

/-- `while (c.has_text() && !c.is_at('\n')) …` over the rest of the line. -/
def lineLoop (stuck : Err) (body : St → Except Err St) (s : St) : Except Err St :=
  loop inLine stuck body (s.cur.rest.length + 1) s

/-! ## Commands – 590-872 -/

/-- `CommandType` – 592-597. -/
inductive CmdType where
  | raw | text | args
deriving DecidableEq, Repr

/-- `CmdSpec` – 604-649.  (Keys with an underscore are never found: the key looked
up is normalized.) -/
def cmdTable : List (String × TK × CmdType) :=
  [("columns", .CmdColumns, .raw), ("tblfm", .CmdTblfm, .raw), ("options", .CmdOptions, .raw),
   ("tags", .CmdTagsRaw, .raw), ("drawers", .CmdDrawersRaw, .raw),
   ("category", .CmdCategoryRaw, .raw), ("priorities", .CmdPrioritiesRaw, .raw),
   ("htmlhead", .CmdHtmlHeadRaw, .raw), ("latexheaderextra", .CmdLatexHeaderExtraRaw, .raw),
   ("title", .CmdTitle, .text), ("author", .CmdAuthor, .text), ("filetags", .CmdFiletags, .text),
   ("caption", .CmdCaption, .text), ("date", .CmdDateRaw, .text), ("link", .CmdLinkRaw, .text),
   ("description", .CmdDescription, .text), ("language", .CmdLanguage, .text),
   ("creator", .CmdCreator, .text), ("name", .CmdName, .args), ("email", .CmdEmailRaw, .raw),
   ("macro", .CmdMacroRaw, .raw), ("bind", .CmdBindRaw, .raw),
   ("excludetags", .CmdExcludeTagsRaw, .raw), ("selecttags", .CmdSelectTagsRaw, .raw),
   ("keywords", .CmdKeywordsRaw, .raw), ("setupfile", .CmdSetupfileRaw, .raw),
   ("startup", .CmdStartup, .raw), ("seqtodo", .CmdSeqTodoRaw, .raw),
   ("constants", .CmdConstants, .args), ("results", .CmdResults, .args),
   ("include", .CmdInclude, .args), ("header", .CmdHeader, .args), ("call", .CmdCall, .args),
   ("row", .CmdRow, .args), ("cell", .CmdCell, .args), ("latex_class", .CmdLatexClass, .args),
   ("latex_compiler", .CmdLatexCompiler, .args), ("latex_header", .CmdLatexHeader, .args),
   ("latex_class_options", .CmdLatexClassOptions, .args)]

/-- `CmdSpec.get`. -/
def cmdSpec (h : List Char) : Option (TK × CmdType) :=
  (cmdTable.find? fun e => e.1.toList = h).map (·.2)

/-- `head_raw` – 671-681, after `c.token(head)`. -/
def headRaw (s : St) : Except Err St := token .RawText advLine s

/-- `head_args` – 683-690, after `c.token(head)`. -/
def headArgs (s : St) : Except Err St := lineLoop .abort cmdArgument s

/-- `head_text` – 692-699, after `c.token(head)`. -/
def headText (self : St → Except Err St) (s : St) : Except Err St := lineLoop .abort self s

/-- Number of leading spaces: `while (c.is_at(' ', pos)) { ++pos; }`. -/
def spaces (r : List Char) : Nat := (r.takeWhile (· = ' ')).length

/-- `get_end_block_offset` – 702-731. -/
def endBlockOffset (name : List Char) (r : List Char) : Except Err (Option Nat) := do
  let p := spaces r
  if !isAt r '#' p then pure none
  else if !isAt r '+' (p + 1) then pure none
  else do
    let b ← isIat (r.drop (p + 2)) "end".toList
    if !b then pure none
    else do
      let q := if isAt r '_' (p + 5) then p + 6 else p + 5
      let b ← isIat (r.drop q) name
      if b then pure (some (q + name.length)) else pure none

/-- The `while ((offset = get_end_block_offset(name)) == -1) { guard; body }` loops
followed by the closing token – 772-779, 785-792, 798-816. -/
def blockLoop (name : List Char) (close : TK) (body : St → Except Err St) :
    Nat → St → Except Err St
  | 0, _ => .error .fuel
  | n + 1, s =>
    match endBlockOffset name s.cur.rest with
    | .error e => .error e
    | .ok (some off) => tokenAdv close off s
    | .ok none =>
      match body s with
      | .error e => .error e
      | .ok s' => if s'.cur.pos = s.cur.pos then .error .abort else blockLoop name close body n s'

/-- `if (c.is_at('\n')) { c.token0(otk::Newline, &advance1); }` – 777 etc. -/
def optNewline (s : St) : Except Err St :=
  if isAt s.cur.rest '\n' then tokenAdv .Newline 1 s else .ok s

/-- Body of the export and example loops – 773-778, 786-791. -/
def rawBlockBody (k : TK) (s : St) : Except Err St := do
  let s ← token k advLine s
  optNewline s

/-- Source line content – 803-812. -/
def advSrc (c : Cur) : Cur :=
  c.advWhile fun r => !(isAt r '\n' || isAtStr r ">>".toList || isAtStr r "<<".toList)

/-- First token of a source block step – 800-812. -/
def srcPiece (s : St) : Except Err St :=
  if isAtStr s.cur.rest "<<".toList then tokenAdv .DoubleAngleBegin 2 s
  else if isAtStr s.cur.rest ">>".toList then tokenAdv .DoubleAngleEnd 2 s
  else token .SrcContent advSrc s

/-- Body of the source loop – 798-814. -/
def srcBlockBody (s : St) : Except Err St := do
  let s ← srcPiece s
  optNewline s

/-- Verbatim blocks: arguments of the opening line, its newline, the lines, the
closing command – 767-816. -/
def verbatimBlock (name : List Char) (close : TK) (body : St → Except Err St) (s : St) :
    Except Err St := do
  let s ← headArgs s
  let s ← tokenAdv .Newline 1 s
  blockLoop name close body (s.cur.rest.length + 1) s

/-- Kinds of blocks opened with `#+begin_…` whose first line is all they take –
746-766, 817-820. -/
def beginKind (b : List Char) : TK :=
  if b = "quote".toList then .CmdQuoteBegin
  else if b = "cell".toList then .CmdCellBegin
  else if b = "center".toList then .CmdCenterBegin
  else if b = "verse".toList then .CmdVerseBegin
  else if b = "comment".toList then .CmdCommentBegin
  else if b = "row".toList then .CmdRowBegin
  else if b = "table".toList then .CmdTableBegin
  else .CmdDynamicBlockBegin

/-- `#+end_…` – 821-840. -/
def endKind (b : List Char) : TK :=
  if b = "quote".toList then .CmdQuoteEnd
  else if b = "cell".toList then .CmdCellEnd
  else if b = "center".toList then .CmdCenterEnd
  else if b = "comment".toList then .CmdCommentEnd
  else if b = "verse".toList then .CmdVerseEnd
  else if b = "row".toList then .CmdRowEnd
  else if b = "table".toList then .CmdTableEnd
  else .CmdDynamicBlockEnd

/-- `c.token(head)` – 386-395. -/
def push (t : Tok) (k : TK) (s : St) : St := ⟨s.cur, s.out ++ [{ t with kind := k }]⟩

/-- Opened block – 744-820. -/
def openBlock (head : Tok) (b : List Char) (s : St) : Except Err St :=
  if b = "export".toList then
    verbatimBlock "export".toList .CmdExportEnd (rawBlockBody .CmdExportLine)
      (push head .CmdExportBegin s)
  else if b = "example".toList then
    verbatimBlock "example".toList .CmdExampleEnd (rawBlockBody .CmdExampleLine)
      (push head .CmdExampleBegin s)
  else if b = "src".toList then
    verbatimBlock "src".toList .CmdSrcEnd srcBlockBody (push head .CmdSrcBegin s)
  else headArgs (push head (beginKind b) s)

/-- `#+property:` – 846-866. -/
def propertyCmd (lex : Lexy) (self : St → Except Err St) (head : Tok) (s : St) : Except Err St :=
  match lex .propertyKind s.cur.rest with
  | some span =>
    let kind := normalize (s.cur.rest.take span)
    if kind = "description".toList ∨ kind = "created".toList ∨ kind = "hashtag".toList
        ∨ kind = "hashtagdef".toList then
      headText self (push head .CmdPropertyText s)
    else if kind = "headerargs".toList ∨ kind = "propargs".toList then
      headArgs (push head .CmdPropertyArgs s)
    else headRaw (push head .CmdCustomRaw s)
  | none => headRaw (push head .CmdCustomRaw s)

/-- Dispatch on the normalized name – 734-871.  `s` is the state after
`pop_token`.  In the branch for the name `end` (844) the popped token is not put
back; the branch cannot be reached because `starts_with("end")` comes first. -/
def dispatchCommand (lex : Lexy) (self : St → Except Err St) (head : Tok) (s : St) :
    Except Err St :=
  let norm := normalize head.text
  match cmdSpec norm with
  | some (k, .args) => headArgs (push head k s)
  | some (k, .raw) => headRaw (push head k s)
  | some (k, .text) => headText self (push head k s)
  | none =>
    if "attr".toList.isPrefixOf norm then headArgs (push head .CmdAttr s)
    else if "begin".toList.isPrefixOf norm then openBlock head (norm.drop 5) s
    else if "end".toList.isPrefixOf norm then headArgs (push head (endKind (norm.drop 3)) s)
    else if norm = "begin".toList then headArgs (push head .CmdDynamicBegin s)
    else if norm = "end".toList then .ok s
    else if "property".toList.isPrefixOf norm then propertyCmd lex self head s
    else headRaw (push head .CmdCustomRaw s)

/-- The command name – 664-667. -/
def advCmdName (c : Cur) : Cur :=
  let c := advIdent c
  if isAt c.rest ':' then c.next else c

/-- `switch_command` – 660-872. -/
def switchCommand (lex : Lexy) (self : St → Except Err St) (s : St) : Except Err St := do
  let s ← tokenAdv .LineCommand 2 s
  let s ← token .Word advCmdName s
  match s.out.getLast? with
  | none => .error .assertion
  | some head => dispatchCommand lex self head ⟨s.cur, s.out.dropLast⟩

/-! ## Words – 898-998 -/

/-- Callback of the inline source body – 903-935: up to the brace closing the
opening one. -/
def advCurlyGo : Nat → Nat → Cur → Cur
  | 0, _, c => c
  | n + 1, open_, c =>
    match c.rest with
    | [] => c
    | ch :: r =>
      if ch = '{' then advCurlyGo n (open_ + 1) c.next
      else if ch = '}' then
        if open_ - 1 = 0 then c else advCurlyGo n (open_ - 1) c.next
      else if ch = '\\' then
        if isAtAny r (fun a => a = '{' || a = '}') then advCurlyGo n open_ (c.adv 2)
        else advCurlyGo n open_ c.next
      else advCurlyGo n open_ c.next

/-- `lex_inline_src` – 901-939. -/
def lexInlineSrc (s : St) : Except Err St := do
  let s ← tokenAdv .CurlyBegin 1 s
  let s ← token .RawText (fun c => advCurlyGo c.rest.length 1 c) s
  tokenAdv .CurlyEnd 1 s

/-- Protocol and target of a web link – 945-954. -/
def httpLink (s : St) : Except Err St := do
  let s ← token .LinkProtocolHttp
    (fun c => let c := c.adv 4; if isAtAny c.rest (fun a => a = 's' || a = 'S') then c.next else c) s
  token .LinkTarget
    (fun c => c.advWhile fun r => !isAtAny r fun a => a = ' ' || a = ']' || a = '\n') s

/-- Plain word – 997. -/
def plainWord (s : St) : Except Err St := token .Word advWord s

/-- Words starting with `s` – 959-975. -/
def wordS (lex : Lexy) (s : St) : Except Err St :=
  if isAtStr s.cur.rest "SCHEDULED:".toList then tokenAdv .TreeTime 10 s
  else
    match lex .inlineSrc s.cur.rest with
    | some span => do
      let s ← tokenAdv .TextSrcBegin span s
      lexInlineSrc s
    | none => plainWord s

/-- Words starting with `h` – 941-957. -/
def wordH (s : St) : Except Err St := do
  let b ← isIat s.cur.rest "http".toList
  if b then httpLink s else plainWord s

/-- `switch_word` – 898-998. -/
def switchWord (lex : Lexy) (s : St) : Except Err St :=
  match s.cur.rest with
  | [] => .error .assertion
  | ch :: _ =>
    if ch = 'h' ∨ ch = 'H' then wordH s
    else if ch = 's' ∨ ch = 'S' then wordS lex s
    else if ch = 'D' ∧ isAtStr s.cur.rest "DEADLINE:".toList then tokenAdv .TreeTime 9 s
    else if ch = 'C' ∧ isAtStr s.cur.rest "CLOSED:".toList then tokenAdv .TreeTime 7 s
    else plainWord s

/-! ## Start of a line – 1000-1156 -/

/-- `check_leading` – 1000-1006. -/
def checkLeading (r : List Char) (ch : Char) (skip : Nat) : Bool :=
  isAt r ch skip && isAtAny r (fun a => a = ' ' || a = '\n') (skip + 1)

/-- Loop of `is_at_table_separator` – 1052-1061, on the text from `pos` on:
position after the loop and number of columns. -/
def tableSepGo : Nat → List Char → Nat → Nat → Nat × Nat
  | 0, _, pos, cols => (pos, cols)
  | n + 1, r, pos, cols =>
    if !isAt r '-' pos then (pos, cols)
    else
      let pos := pos + ((r.drop pos).takeWhile (· = '-')).length
      if isAt r '+' pos || isAt r '|' pos then tableSepGo n r (pos + 1) (cols + 1)
      else (pos, cols)

/-- `is_at_table_separator` – 1046-1068.  Every step of the loop passes at least two
characters, so the length of the text bounds its steps. -/
def tableSep (r : List Char) (skip : Nat) : Option Nat :=
  let pos := if isAt r '|' skip then skip + 1 else skip
  let (p, cols) := tableSepGo r.length r pos 0
  if 0 < cols then some p else none

/-- `property_subname` – 1081-1086. -/
def propertySubname (lex : Lexy) (r : List Char) (pos : Nat) : Nat :=
  match lex .propSubname (r.drop pos) with
  | some sub => pos + sub
  | none => pos

/-- `leading_space` – 1074-1077. -/
def leadingSpace (skip : Nat) (s : St) : Except Err St :=
  if 0 < skip then tokenAdv .LeadingSpace skip s else .ok s

/-- `:` example line – 1142-1147; `pos` starts at 1 and is not shifted by `skip`
because the leading space was already passed. -/
def exampleLine (skip : Nat) (s : St) : Except Err St := do
  let s ← leadingSpace skip s
  tokenAdv .ColonExampleLine (1 + ((s.cur.rest.drop 1).takeWhile (· ≠ '\n')).length) s

/-- `clock:` line – 1100-1103: no guard around the inner loop. -/
def clockLine (self : St → Except Err St) (n : Nat) (s : St) : Except Err St := do
  let s ← tokenAdv .TreeClock n s
  lineLoop .diverges self s

/-- `:header-args:` – 1124-1125. -/
def argPropertyLine (n : Nat) (s : St) : Except Err St := do
  let s ← tokenAdv .ColonArgumentsProperty n s
  lineLoop .diverges cmdArgument s

/-- `:description:` – 1131-1132. -/
def textPropertyLine (self : St → Except Err St) (n : Nat) (s : St) : Except Err St := do
  let s ← tokenAdv .ColonPropertyText n s
  lineLoop .diverges self s

/-- Any other property – 1136-1141. -/
def literalPropertyLine (n : Nat) (s : St) : Except Err St := do
  let s ← tokenAdv .ColonLiteralProperty n s
  token .RawText advLine s

/-- `#+` – 1148-1151. -/
def commandLine (lex : Lexy) (self : St → Except Err St) (skip : Nat) (s : St) :
    Except Err St := do
  let s ← leadingSpace skip s
  switchCommand lex self s

/-- What the cursor is at in the first column – the conditions of 1088-1155 in
order; `none` means the common part below is reached. -/
inductive LineStart where
  | adv (k : TK) (n : Nat)
  | clock (n : Nat)
  | argProp (n : Nat)
  | textProp (n : Nat)
  | litProp (n : Nat)
  | example
  | command
  | space
  | other
deriving DecidableEq, Repr

/-- 1088-1155.  The count of the table separator adds `skip` to a position that
already includes it (1098). -/
def lineStart (lex : Lexy) (r : List Char) (skip : Nat) : LineStart :=
  if checkLeading r '-' skip then .adv .LeadingMinus (1 + skip)
  else if checkLeading r '+' skip then .adv .LeadingPlus (1 + skip)
  else if checkLeading r '|' skip then .adv .LeadingPipe (1 + skip)
  else match tableSep r skip with
  | some span => .adv .TableSeparator (span + skip)
  | none =>
  match lex .clock (r.drop skip) with
  | some span => .clock (span + skip)
  | none =>
  match lex .colonEnd (r.drop skip) with
  | some span => .adv .ColonEnd (span + skip)
  | none =>
  match lex .colonProperties (r.drop skip) with
  | some span => .adv .ColonProperties (span + skip)
  | none =>
  match lex .leadingNumber (r.drop skip) with
  | some span => .adv .LeadingNumber (span - 1 + skip)
  | none =>
  match lex .colonLogbook (r.drop skip) with
  | some span => .adv .ColonLogbook (span + skip)
  | none =>
  match lex .argProperty (r.drop skip) with
  | some span => .argProp (propertySubname lex r (span + skip))
  | none =>
  match lex .textProperty (r.drop skip) with
  | some span => .textProp (propertySubname lex r (span + skip))
  | none =>
  match lex .literalProperty (r.drop skip) with
  | some span => .litProp (propertySubname lex r (span + skip))
  | none =>
  if checkLeading r ':' skip then .example
  else if isAtStr r "#+".toList skip then .command
  else if 0 < skip then .space
  else .other

/-! ## Characters inside a line – 1159-1625 -/

/-- `switch_time_repeater` – 1032-1044.  The loop over number/identifier pairs
moves in every step. -/
def advDurationGo : Nat → Cur → Cur
  | 0, c => c
  | n + 1, c => if isAtAny c.rest isDigit then advDurationGo n (advIdent (advNumber c)) else c

def timeRepeater (s : St) : Except Err St := do
  let s ← token .TimeRepeaterSpec
    (fun c => let c := if isAt c.rest '.' then c.next else c; advChar1 '+' c) s
  token .TimeRepeaterDuration (fun c => advDurationGo c.rest.length c) s

/-- Characters that are a token by themselves – 1180-1188, 1197-1201, 1525-1528. -/
def simpleKind (ch : Char) : Option TK :=
  if ch = '(' then some .ParBegin
  else if ch = ')' then some .ParEnd
  else if ch = '%' then some .Percent
  else if ch = '\'' then some .SingleQuote
  else if ch = '"' then some .DoubleQuote
  else if ch = '_' then some .Underline
  else if ch = ';' then some .Semicolon
  else if ch = ',' then some .Comma
  else if ch = '^' then some .Circumflex
  else if ch = '`' then some .Backtick
  else if ch = '$' then some .Dollar
  else if ch = '!' then some .Exclamation
  else if ch = '&' then some .Ampersand
  else if ch = '/' then some .ForwardSlash
  else if ch = '}' then some .CurlyEnd
  else none

/-- `*` – 1160-1168. -/
def caseStar (lex : Lexy) (s : St) : Except Err St :=
  if s.cur.col = 0 ∧ (lex .stars s.cur.rest).isSome then token .SubtreeStars (advChar1 '*') s
  else tokenAdv .Asterisk 1 s

/-- `+` – 1170-1179. -/
def casePlus (lex : Lexy) (s : St) : Except Err St :=
  if isAtStr s.cur.rest "+}".toList 1 then tokenAdv .CriticAddEnd 3 s
  else if (lex .timeRepeater s.cur.rest).isSome then timeRepeater s
  else tokenAdv .Plus 1 s

/-- `|` – 1189-1196. -/
def casePipe (s : St) : Except Err St :=
  if s.cur.rest[1]? = none ∨ isAt s.cur.rest '\n' 1 then tokenAdv .TrailingPipe 1 s
  else tokenAdv .Pipe 1 s

/-- `]` – 1202-1211. -/
def caseBraceEnd (s : St) : Except Err St :=
  if isAtStr s.cur.rest "]]".toList then tokenAdv .LinkEnd 2 s
  else if isAtStr s.cur.rest "][".toList then tokenAdv .LinkSplit 2 s
  else tokenAdv .BraceEnd 1 s

/-- `\` – 1212-1224. -/
def caseBackslash (s : St) : Except Err St :=
  if isAtAny s.cur.rest isAlpha 1 then tokenCb .Symbol (fun c => do pure (advWord (← c.skip '\\'))) s
  else if isAt s.cur.rest '\\' 1 then tokenAdv .DoubleSlash 2 s
  else tokenAdv .Escaped 2 s

/-- `token_adv(kind, *span - 2)` with `span = try_lexy_patt<until(link_end)>()`:
reading an empty optional is undefined – 1283-1284 etc. -/
def untilLinkEnd (lex : Lexy) (k : TK) (s : St) : Except Err St :=
  match lex .untilLinkEnd s.cur.rest with
  | some span => tokenAdv k (span - 2) s
  | none => .error .undef

/-- Named or internal protocol – 1298-1307, 1339-1350. -/
def protocolOrInternal (s : St) : Except Err St :=
  let off := (s.cur.rest.takeWhile fun a => !(a = ']' || a = ':' || a = '\n')).length
  if isAt s.cur.rest ':' off then tokenAdv .LinkProtocol (off + 1) s
  else tokenAdv .LinkProtocolInternal off s

/-- A protocol word and the rest of the target – 1281-1292 (a second test for `id` at 1293 is never reached). -/
def protocolTarget (lex : Lexy) (k : TK) (f : Cur → Cur) (s : St) : Except Err St := do
  let s ← token k f s
  untilLinkEnd lex .LinkTarget s

/-- After `[[ident:` – 1279-1308. -/
def linkProtocolBody (lex : Lexy) (s : St) : Except Err St := do
  let r := s.cur.rest
  if ← isIat r "http".toList then switchWord lex s
  else if ← isIat r "file".toList then protocolTarget lex .LinkProtocolFile (Cur.adv 4) s
  else if ← isIat r "attachment".toList then
    protocolTarget lex .LinkProtocolAttachment advIdent s
  else if ← isIat r "id".toList then protocolTarget lex .LinkProtocolId advIdent s
  else protocolOrInternal s

/-- After `[[` and a character of `link_continuation` – 1315-1353. -/
def linkContinuedBody (lex : Lexy) (s : St) : Except Err St :=
  match s.cur.rest with
  | [] => .error .assertion
  | ch :: _ =>
    if ch = '*' then untilLinkEnd lex .LinkProtocolTitle s
    else if ch = '#' then protocolTarget lex .LinkProtocolCustomId (Cur.adv 1) s
    else if ch = '/' then untilLinkEnd lex .LinkTargetFile s
    else if ch = '.' then untilLinkEnd lex .LinkTargetFile s
    else protocolOrInternal s

/-- `[[…` – 1277, 1314. -/
def linkOpen (body : St → Except Err St) (s : St) : Except Err St := do
  let s ← tokenAdv .LinkBegin 2 s
  body s

/-- `[` – 1225-1358. -/
def caseBraceBegin (lex : Lexy) (s : St) : Except Err St :=
  let r := s.cur.rest
  match lex .completionPercent r with
  | some span => tokenAdv .SubtreeCompletion span s
  | none =>
  match lex .completionRatio r with
  | some span => tokenAdv .SubtreeCompletion span s
  | none =>
  if isAtStr r "[%%".toList then tokenAdv .InactiveDynamicTimeContent 3 s
  else match lex .priority r with
  | some span => tokenAdv .SubtreePriority span s
  | none =>
  match lex .checkbox r with
  | some span => tokenAdv .Checkbox span s
  | none =>
  match lex .footnoteLinked r with
  | some span => tokenAdv .FootnoteLinked span s
  | none =>
  match lex .footnoteInline r with
  | some span => tokenAdv .FootnoteInlineBegin span s
  | none =>
  match lex .linkProtocol r with
  | some _ => linkOpen (linkProtocolBody lex) s
  | none =>
  match lex .linkContinued r with
  | some _ => linkOpen (linkContinuedBody lex) s
  | none => tokenAdv .BraceBegin 1 s

/-- `:` – 1359-1366. -/
def caseColon (s : St) : Except Err St :=
  if isAt s.cur.rest ':' 1 then tokenAdv .DoubleColon 2 s else tokenAdv .Colon 1 s

/-- `>` – 1367-1376. -/
def caseGt (s : St) : Except Err St :=
  if isAtStr s.cur.rest ">>>".toList then tokenAdv .TripleAngleEnd 3 s
  else if isAtStr s.cur.rest ">>".toList then tokenAdv .DoubleAngleEnd 2 s
  else tokenAdv .AngleEnd 1 s

/-- `.` – 1377-1384. -/
def caseDot (lex : Lexy) (s : St) : Except Err St :=
  if (lex .timeRepeater s.cur.rest).isSome then timeRepeater s else tokenAdv .Punctuation 1 s

/-- `<` – 1385-1408. -/
def caseLt (lex : Lexy) (s : St) : Except Err St :=
  let r := s.cur.rest
  if isAtStr r "<<<".toList then tokenAdv .TripleAngleBegin 3 s
  else if isAtStr r "<<}".toList then tokenAdv .CriticCommentEnd 3 s
  else if isAtStr r "<<".toList then tokenAdv .DoubleAngleBegin 2 s
  else if isAtStr r "<%%".toList then tokenAdv .ActiveDynamicTimeContent 3 s
  else match lex .angleDate r with
  | some _ => tokenAdv .AngleBegin 1 s
  | none =>
  match lex .placeholder r with
  | some span => tokenAdv .Placeholder span s
  | none => tokenAdv .AngleBegin 1 s

/-- `#` – 1409-1425. -/
def caseHash (s : St) : Except Err St :=
  if isAt s.cur.rest '#' 1 then tokenAdv .DoubleHash 2 s
  else if isAt s.cur.rest ' ' 1 then token .Comment advLine s
  else if isAtAny s.cur.rest isAlpha 1 then
    tokenCb .HashIdent (fun c => do pure (advWord (← c.skip '#'))) s
  else tokenAdv .Punctuation 1 s

/-- Callback of the backend name – 1437-1441. -/
def advBackend (c : Cur) : Except Err Cur := do
  let c ← c.skip '@'
  let c ← c.skip '@'
  pure (advIdent c)

/-- Callback of the exported text – 1443-1448. -/
def advExported (c : Cur) : Except Err Cur := do
  let c ← c.skip ':'
  let c ← c.advUntil fun r => isAtStr r "@@".toList
  let c ← c.skip '@'
  c.skip '@'

/-- `@@backend:text@@` – 1437-1448. -/
def inlineExport (s : St) : Except Err St := do
  let s ← tokenCb .InlineExportBackend advBackend s
  tokenCb .InlineExportContent advExported s

/-- `@` – 1426-1453. -/
def caseAt (lex : Lexy) (s : St) : Except Err St :=
  if isAtAny s.cur.rest isAlpha 1 then token .At (fun c => advWord c.next) s
  else match lex .inlineExport s.cur.rest with
  | some _ => inlineExport s
  | none => tokenAdv .Punctuation 1 s

/-- `=` – 1454-1463. -/
def caseEq (s : St) : Except Err St :=
  if isAtStr s.cur.rest "=}".toList 1 then tokenAdv .CriticHighlightEnd 3 s
  else if isAt s.cur.rest '>' 1 then tokenAdv .TimeArrow 2 s
  else tokenAdv .Equals 1 s

/-- Newlines with nothing but spaces between them – 1480-1486, 1549-1560: the number of
bytes up to and including the last newline of the run and the number of
newlines.  `n` characters are passed before the first newline. -/
def newlineRun : List Char → Nat → Nat × Nat
  | [], _ => (0, 0)
  | _ :: r, n + 1 => let run := newlineRun r n; (run.1 + 1, run.2)
  | _ :: r, 0 =>
    if isAt r '\n' (spaces r) then let run := newlineRun r (spaces r); (run.1 + 1, run.2 + 1)
    else (1, 1)

/-- Search for the closing `~` – 1473-1496, on the text after the opening one:
offset of the place where the loop stops. -/
def tildaGo : Nat → List Char → Nat → Nat
  | 0, _, off => off
  | n + 1, r, off =>
    if r[off + 1]? = none then off
    else if isAt r '~' off && !isAtAny r isAlnum (off + 1) then off
    else if isAt r '\n' off then
      let run := newlineRun (r.drop off) 0
      if run.2 = 1 then tildaGo n r (off + 1 + spaces (r.drop (off + 1))) else off
    else tildaGo n r (off + 1)

/-- `~` after a space – 1470-1501. -/
def tildaOpen (s : St) : Except Err St := do
  let s ← tokenAdv .Tilda 1 s
  let off := tildaGo s.cur.rest.length s.cur.rest 0
  if isAt s.cur.rest '~' off then do
    let s ← tokenAdv .RawText off s
    tokenAdv .Tilda 1 s
  else pure s

/-- `~` – 1464-1507. -/
def caseTilda (s : St) : Except Err St :=
  if isAtStr s.cur.rest "~~}".toList then tokenAdv .CriticReplaceEnd 3 s
  else if isAtStr s.cur.rest "~>".toList then tokenAdv .CriticReplaceMiddle 2 s
  else if s.cur.prev = some ' ' then tildaOpen s
  else tokenAdv .Tilda 1 s

/-- `-` – 1508-1524. -/
def caseMinus (lex : Lexy) (s : St) : Except Err St :=
  let r := s.cur.rest
  if isAtStr r "-----".toList then token .TextSeparator (advChar1 '-') s
  else if isAtStr r "--}".toList then tokenAdv .CriticDeleteEnd 3 s
  else if isAtStr r "--".toList then tokenAdv .DoubleDash 2 s
  else match lex .warnPeriod r with
  | some span => tokenAdv .TimeWarnPeriod span s
  | none => tokenAdv .Minus 1 s

/-- `{` – 1529-1544. -/
def caseCurly (s : St) : Except Err St :=
  let r := s.cur.rest
  if isAtStr r "++".toList 1 then tokenAdv .CriticAddBegin 3 s
  else if isAtStr r "--".toList 1 then tokenAdv .CriticDeleteBegin 3 s
  else if isAtStr r "==".toList 1 then tokenAdv .CriticHighlightBegin 3 s
  else if isAtStr r "~~".toList 1 then tokenAdv .CriticReplaceBegin 3 s
  else if isAtStr r ">>".toList 1 then tokenAdv .CriticCommentBegin 3 s
  else tokenAdv .CurlyBegin 1 s

/-- Newline – 1545-1571: newlines with nothing but spaces between them are one
token; spaces after the last newline are given back (`setRecall`). -/
def caseNewline (s : St) : Except Err St :=
  let run := newlineRun s.cur.rest 0
  let k : TK := if run.2 = 1 then .Newline else if run.2 = 2 then .MediumNewline else .LongNewline
  tokenAdv k run.1 s

/-- `is_iat("am", pos) || is_iat("pm", pos)` – 1585, 1592. -/
def timeToken (span : Nat) (s : St) : Except Err St := do
  let r := s.cur.rest.drop span
  if ← isIat r "am".toList then tokenAdv .Time (span + 2) s
  else if ← isIat r "pm".toList then tokenAdv .Time (span + 2) s
  else tokenAdv .Time span s

/-- Digits – 1579-1614. -/
def caseDigit (lex : Lexy) (s : St) : Except Err St :=
  let r := s.cur.rest
  match lex .timeSec r with
  | some span => timeToken span s
  | none =>
  match lex .time r with
  | some span => timeToken span s
  | none =>
  match lex .date r with
  | some span => tokenAdv .Date span s
  | none =>
  match lex .wordNumAlpha r with
  | some span => tokenAdv .Word span s
  | none =>
  match lex .wordNumUnder r with
  | some span => tokenAdv .Word span s
  | none => token .Number (fun c => c.advWhile fun r => isAtAny r isDigit) s

/-- `while (c.is_at_unicode()) { c.nextUnicode(); }` – 1618: `get` fails at the end
of the text. -/
def advUniGo : Nat → Cur → Except Err Cur
  | 0, _ => .error .fuel
  | n + 1, c =>
    match c.rest with
    | [] => .error .assertion
    | ch :: _ => if isUni ch then advUniGo n c.nextUnicode else .ok c

/-- The `switch` over the current character – 1159-1625. -/
def charSwitch (lex : Lexy) (s : St) : Except Err St :=
  match s.cur.rest with
  | [] => .error .assertion
  | ch :: _ =>
    match simpleKind ch with
    | some k => tokenAdv k 1 s
    | none =>
      if ch = '*' then caseStar lex s
      else if ch = '+' then casePlus lex s
      else if ch = '|' then casePipe s
      else if ch = ']' then caseBraceEnd s
      else if ch = '\\' then caseBackslash s
      else if ch = '[' then caseBraceBegin lex s
      else if ch = ':' then caseColon s
      else if ch = '>' then caseGt s
      else if ch = '.' then caseDot lex s
      else if ch = '<' then caseLt lex s
      else if ch = '#' then caseHash s
      else if ch = '@' then caseAt lex s
      else if ch = '=' then caseEq s
      else if ch = '~' then caseTilda s
      else if ch = '-' then caseMinus lex s
      else if ch = '{' then caseCurly s
      else if ch = '\n' then caseNewline s
      else if ch = ' ' then token .Whitespace (advChar1 ' ') s
      else if isAlpha ch then switchWord lex s
      else if isDigit ch then caseDigit lex s
      else if isUni ch then tokenCb .Word (fun c => advUniGo (c.rest.length + 1) c) s
      else token .AnyPunct Cur.nextUnicode s

/-- `switch_regular_char` – 1070-1626, with its recursive calls as a parameter. -/
def regularBody (lex : Lexy) (self : St → Except Err St) (s : St) : Except Err St :=
  if s.cur.col = 0 then
    let skip := spaces s.cur.rest
    match lineStart lex s.cur.rest skip with
    | .adv k n => tokenAdv k n s
    | .clock n => clockLine self n s
    | .argProp n => argPropertyLine n s
    | .textProp n => textPropertyLine self n s
    | .litProp n => literalPropertyLine n s
    | .example => exampleLine skip s
    | .command => commandLine lex self skip s
    | .space => tokenAdv .LeadingSpace skip s
    | .other => charSwitch lex s
  else charSwitch lex s

/-- `switch_regular_char` – 1070-1626; the fuel bounds the nesting of its calls. -/
def switchRegular (lex : Lexy) : Nat → St → Except Err St
  | 0, _ => .error .fuel
  | n + 1, s => regularBody lex (switchRegular lex n) s

/-- Tokens and the final cursor of `tokenize` – 1629-1652. -/
def tokenizeSt (lex : Lexy) (text : List Char) : Except Err St :=
  loop (fun r => !r.isEmpty) .abort (switchRegular lex (text.length + 1)) (text.length + 1)
    ⟨⟨text, 0, 0, none⟩, []⟩

/-- `org::parse::tokenize` – 1629-1652, for a file id that is not nil. -/
def tokenize (lex : Lexy) (text : List Char) : Except Err (List Tok) :=
  match tokenizeSt lex text with
  | .ok s => .ok s.out
  | .error e => .error e

end Verif.BaseLexer
