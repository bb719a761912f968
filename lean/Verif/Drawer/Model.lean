import Verif.BaseLexer.Std

/-!
# Property drawers: reading one line, writing one line

A headline carries properties.  The formatter writes them as lines between `:PROPERTIES:` and `:END:`
(src/haxorg/sem/SemOrgFormat.cpp:1204-1398), the converter reads every line back
(src/haxorg/sem/SemConvert.cpp:662-905).  Which kind of line it is, and where its name ends, is decided
by the lexer (`lineStart` of `Verif/BaseLexer/Model.lean`).

Modelled are the lines the lexer takes literally (`ColonLiteralProperty`).  Left out are lines whose
value is parsed as arguments (`:header-args:`, `:prop_args:`) or as a paragraph (`:created:`,
`:description:`, `:hashtag_def:`), and reading the date of `:archive_time:` and JSON, which are
parameters.
-/

namespace Verif.Drawer

open Verif.BaseLexer (normalize isDigit stdLex lineStart)

abbrev Text := List Char

/-! ## Text helpers -/

/-- `strip(string, leading, trailing)` – src/hstd/stdlib/strutils.cpp:91-109 (C47). -/
def strip (s : Text) (leading trailing : Char → Bool) : Text :=
  (((s.dropWhile leading).reverse.dropWhile trailing).reverse)

/-- `strip_space` – SemConvert.cpp:149. -/
def stripSpace (s : Text) : Text := strip s (· = ' ') (· = ' ')

/-- `lstrip` – strutils.cpp:320-322. -/
def lstrip (s : Text) (chars : Char → Bool) : Text := strip s chars (fun _ => false)

/-- Put a character in front of the first piece. -/
def consHead (c : Char) : List Text → List Text
  | [] => [[c]]
  | w :: ws => (c :: w) :: ws

/-- `split(Str, char)` – strutils.cpp:111-119: `std::getline` makes no piece after a last separator
(C48). -/
def splitChar (ch : Char) : Text → List Text
  | [] => []
  | c :: s => if c = ch then [] :: splitChar ch s else consHead c (splitChar ch s)

/-- `split(Str, Str)` – strutils.cpp:692-706; the number counts the characters of a separator still to
be passed. -/
def splitStrFrom (d : Text) : Nat → Text → List Text
  | _, [] => [[]]
  | k + 1, _ :: s => splitStrFrom d k s
  | 0, c :: s =>
    if d.isPrefixOf (c :: s) then [] :: splitStrFrom d (d.length - 1) s
    else consHead c (splitStrFrom d 0 s)

def splitStr (d s : Text) : List Text := splitStrFrom d 0 s

/-- `join(sep, list)`. -/
def join (sep : Text) : List Text → Text
  | [] => []
  | [a] => a
  | a :: b :: r => a ++ sep ++ join sep (b :: r)

/-- `isspace`. -/
def isSpace (c : Char) : Bool := c = ' ' || (9 ≤ c.toNat && c.toNat ≤ 13)

/-- A decimal number, most significant digit first. -/
def digitsValue (s : Text) : Nat := s.foldl (fun n c => n * 10 + (c.toNat - 48)) 0

/-- Ways in which a conversion does not give a subtree. -/
inductive Fail where
  /-- an exception leaves the conversion -/
  | exception
  /-- not modelled -/
  | outside
deriving DecidableEq, Repr

/-- `Str::toInt` – src/hstd/stdlib/Str.cpp:75, `std::stoi`: leading white space and a sign, digits, and
anything after them; a number that is no `int` is an exception. -/
def stoi (s : Text) : Except Fail Int :=
  let s := s.dropWhile isSpace
  let neg := s.head? = some '-'
  let s := if s.head? = some '-' ∨ s.head? = some '+' then s.drop 1 else s
  let ds := s.takeWhile isDigit
  if ds = [] then .error .exception
  else
    let v : Int := if neg then - (digitsValue ds : Int) else digitsValue ds
    if -2147483648 ≤ v ∧ v ≤ 2147483647 then .ok v else .error .exception

/-- Digits of a number. -/
def showNat (n : Nat) : Text := (Nat.toDigits 10 n)

/-- `fmt("{}", int)`. -/
def showInt : Int → Text
  | .ofNat n => showNat n
  | .negSucc n => '-' :: showNat (n + 1)

/-! ## Properties -/

/-- `NamedProperty::Visibility::Level` – src/haxorg/sem/SemOrgSharedTypes.hpp:1171. -/
inductive Level where
  | Folded | Children | Content | All
deriving DecidableEq, Repr

/-- Name of the enumerator. -/
def Level.name : Level → Text
  | .Folded => "Folded".toList
  | .Children => "Children".toList
  | .Content => "Content".toList
  | .All => "All".toList

/-- `parseOrgEnum` – SemConvert.cpp:252-269. -/
def parseLevel (t : Text) : Option Level :=
  [Level.Folded, .Children, .Content, .All].find? fun l => decide (normalize l.name = normalize t)

/-- `SubtreeTodoSource` – src/haxorg/sem/SemOrgEnums.hpp:1986-1993. -/
inductive Source where
  | Checkbox | Todo | Both
deriving DecidableEq, Repr

/-- Name of the enumerator. -/
def Source.name : Source → Text
  | .Checkbox => "Checkbox".toList
  | .Todo => "Todo".toList
  | .Both => "Both".toList

/-- JSON values; a scalar and a key are given by their text. -/
inductive Json where
  | atom (t : Text)
  | arr (l : List Json)
  | obj (l : List (Text × Json))

mutual
/-- `json::dump(0)`: with an indentation of zero every element is on its own line, only empty arrays and
objects are not. -/
def Json.dump : Json → Text
  | .atom t => t
  | .arr [] => "[]".toList
  | .arr (j :: l) => "[\n".toList ++ j.dump ++ dumpElems l ++ "\n]".toList
  | .obj [] => "{}".toList
  | .obj ((k, j) :: l) => "{\n".toList ++ k ++ ": ".toList ++ j.dump ++ dumpFields l ++ "\n}".toList

def dumpElems : List Json → Text
  | [] => []
  | j :: l => ",\n".toList ++ j.dump ++ dumpElems l

def dumpFields : List (Text × Json) → Text
  | [] => []
  | (k, j) :: l => ",\n".toList ++ k ++ ": ".toList ++ j.dump ++ dumpFields l
end

/-- `NamedProperty` – SemOrgSharedTypes.hpp:1066-1290.  Left out: `HashtagDef`, `Created`, `CustomArgs`,
`CustomSubtreeFlags`.  The flag of cookie data may have never been set. -/
inductive NamedProp (T : Type) where
  | nonblocking (isBlocking : Bool)
  | archiveTime (time : T)
  | archiveFile (file : Text)
  | archiveOlpath (path : List Text)
  | archiveTarget (pattern : Text) (path : List Text)
  | archiveCategory (category : Text)
  | archiveTodo (todo : Text)
  | trigger
  | latexClass (name : Text)
  | cookieData (isRecursive : Option Bool) (source : Option Source)
  | latexClassOptions (options : List Text)
  | latexHeader (header : Text)
  | latexCompiler (compiler : Text)
  | ordered (isOrdered : Bool)
  | effort (hours minutes : Int)
  | visibility (level : Level)
  | exportOptions (backend : Text) (values : List (Text × Text))
  | blocker (blockers : List Text)
  | unnumbered
  | radioId (words : List Text)
  | customRaw (name value : Text)
  | customId (value : Text)
  | customJson (name : Text) (value : Json)

/-- The functions that are parameters. -/
structure Lib (T : Type) where
  /-- `archive_time` – SemConvert.cpp:807-833; `none` for the exception -/
  readTime : Text → Option T
  /-- `UserTime::format` -/
  showTime : T → Text
  /-- `json::parse`; `none` for the exception -/
  readJson : Text → Option Json
  /-- `fmt("{}", Vec<Str>)` -/
  showList : List Text → Text

/-- What a line sets. -/
inductive Read (T : Type) where
  /-- `tree->treeId` -/
  | treeId (v : Text)
  /-- an element of `tree->properties` -/
  | prop (p : NamedProp T)
  /-- a `SemError` among the diagnostics -/
  | diagnostic

/-! ## Reading – SemConvert.cpp:662-905 -/

/-- The loop over the words of cookie data – 767-788. -/
def cookieGo : List Text → Option Bool → Option Source → Option (Option Bool × Option Source)
  | [], r, s => some (r, s)
  | w :: ws, r, s =>
    let n := normalize w
    if n = "todo".toList then cookieGo ws r (some .Todo)
    else if n = "recursive".toList then cookieGo ws (some true) s
    else if n = "both".toList then cookieGo ws r (some .Both)
    else if n = "checkbox".toList then cookieGo ws r (some .Checkbox)
    else none

/-- `:effort:` – 792-805. -/
def readEffort {T : Type} (v : Text) : Except Fail (NamedProp T) :=
  match splitStr [':'] v with
  | [m] => do return .effort 0 (← stoi m)
  | [h, m] => do
    let m ← stoi m
    return .effort (← stoi h) m
  | _ => .ok (.effort 0 0)

/-- `:archive:` – 844-850; `dsl.at(1)` throws when there is no `::`. -/
def readTarget {T : Type} (v : Text) : Except Fail (NamedProp T) :=
  match splitStr "::".toList v with
  | pattern :: path :: _ =>
    .ok (.archiveTarget pattern (splitStr ['/'] (lstrip path (fun c => c = '*' || c = ' '))))
  | _ => .error .exception

/-- `convertSubtreePath` – 151-158. -/
def readPath (v : Text) : List Text :=
  (splitStr ['/'] (strip v (fun c => c = '*' || c = ' ') (· = ' '))).map stripSpace

/-- `:prop_json:` – 856-862. -/
def readJsonProp {T : Type} (lib : Lib T) (basename value : Text) : Except Fail (NamedProp T) :=
  match lib.readJson (stripSpace value) with
  | some j =>
    let parts := splitChar ':' (strip basename (· = ':') (· = ':'))
    .ok (.customJson (match parts[1]? with | some n => normalize n | none => []) j)
  | none => .error .exception

/-- `convertPropertyList` – 662-905 for a name and a raw value.  `one(a, N::Subname)` (692) is no field of
the node, which is an exception.  A paragraph (720, 741) or arguments (863) made of raw text are left
out. -/
def readRaw {T : Type} (lib : Lib T) (nameText valueText : Text) : Except Fail (Read T) :=
  let basename := strip nameText (fun c => c = ' ' || c = ':') (· = ':')
  let name := normalize basename
  let value := stripSpace valueText
  if name = "exportoptions".toList then .error .exception
  else if name = "id".toList then .ok (.treeId value)
  else if name = "customid".toList then .ok (.prop (.customId value))
  else if name = "radioid".toList then .ok (.prop (.radioId (splitChar ' ' value)))
  else if name = "hashtagdef".toList then .error .outside
  else if name = "created".toList then .error .outside
  else if name = "visibility".toList then
    match parseLevel valueText with
    | some l => .ok (.prop (.visibility l))
    | none => .error .exception
  else if name = "cookiedata".toList then
    match cookieGo (splitStr [' '] value) none none with
    | some (r, s) => .ok (.prop (.cookieData r s))
    | none => .ok .diagnostic
  else if name = "effort".toList then (readEffort value).map .prop
  else if name = "archivefile".toList then .ok (.prop (.archiveFile value))
  else if name = "archivetime".toList then
    match lib.readTime value with
    | some t => .ok (.prop (.archiveTime t))
    | none => .error .exception
  else if name = "archivecategory".toList then .ok (.prop (.archiveCategory value))
  else if name = "archivetodo".toList then .ok (.prop (.archiveTodo value))
  else if name = "archive".toList then (readTarget value).map .prop
  else if name = "archiveolpath".toList then .ok (.prop (.archiveOlpath (readPath value)))
  else if "propjson".toList.isPrefixOf name then (readJsonProp lib basename valueText).map .prop
  else if "propargs".toList.isPrefixOf name then .error .outside
  else .ok (.prop (.customRaw basename value))

/-- A line of a drawer.  The lexer decides what it is and where the name ends
(src/haxorg/base_lexer/base_token_tokenize.cpp:1088-1155); the value is the rest of the line. -/
def readLine {T : Type} (lib : Lib T) (line : Text) : Except Fail (Read T) :=
  match lineStart stdLex line 0 with
  | .litProp n => readRaw lib (line.take n) (line.drop n)
  | _ => .error .outside

/-- What a drawer sets in a subtree. -/
structure Tree (T : Type) where
  treeId : Option Text := none
  properties : List (NamedProp T) := []
  diagnostics : Nat := 0

/-- One line – 703, 903-905 and `convertSubtreeDrawer` – 631-637. -/
def Tree.take {T : Type} (t : Tree T) : Read T → Tree T
  | .treeId v => { t with treeId := some v }
  | .prop p => { t with properties := t.properties ++ [p] }
  | .diagnostic => { t with diagnostics := t.diagnostics + 1 }

/-- The lines in order – 631-637. -/
def readLines {T : Type} (lib : Lib T) : Tree T → List Text → Except Fail (Tree T)
  | t, [] => .ok t
  | t, l :: ls =>
    match readLine lib l with
    | .ok r => readLines lib (t.take r) ls
    | .error e => .error e

/-- The lines of a text. -/
def linesOf : Text → List Text
  | [] => [[]]
  | c :: s => if c = '\n' then [] :: linesOf s else consHead c (linesOf s)

/-- Everything between the line `:PROPERTIES:` and the line `:END:`. -/
def readBody {T : Type} (lib : Lib T) (body : Text) : Except Fail (Tree T) :=
  readLines lib {} (linesOf body)

/-! ## Writing – SemOrgFormat.cpp:1204-1398 -/

/-- `fmt("{}:{}", key, value)` separated by spaces – 1236-1242. -/
def showPairs (l : List (Text × Text)) : Text :=
  join [' '] (l.map fun p => p.1 ++ ':' :: p.2)

def showBool (b : Bool) : Text := if b then ['t'] else "nil".toList

/-- One property – 1209-1396. -/
def NamedProp.write {T : Type} (lib : Lib T) : NamedProp T → Text
  | .customJson name value => ":prop_json:".toList ++ name ++ ": ".toList ++ value.dump
  | .latexCompiler c => ":latex_compiler: ".toList ++ c
  | .exportOptions backend values =>
    ":export_options:".toList ++ backend ++ ": ".toList ++ showPairs values
  | .latexClassOptions o => ":latex_class_options: ".toList ++ lib.showList o
  | .cookieData r s =>
    ":cookie: ".toList ++ (s.getD .Checkbox).name ++ (if r = some true then " recursive".toList else [])
  | .latexHeader h => ":latex_header: ".toList ++ h
  | .customId v => ":custom_id: ".toList ++ v
  | .latexClass c => ":latex_class: ".toList ++ c
  | .trigger => ":trigger:".toList
  | .archiveTodo t => ":archive_todo: ".toList ++ t
  | .archiveTarget pattern path => ":archive: ".toList ++ pattern ++ "::* ".toList ++ join ['/'] path
  | .archiveOlpath path => ":archive_olpath: ".toList ++ join ['/'] path
  | .archiveTime t => ":archive_time: [".toList ++ lib.showTime t ++ [']']
  | .ordered b => ":ordered: ".toList ++ showBool b
  | .nonblocking b => ":nonblocking: ".toList ++ showBool b
  | .radioId words => ":radio_id: ".toList ++ join [' '] words
  | .unnumbered => ":unnumbered:".toList
  | .blocker l => ":blocker: ".toList ++ lib.showList l
  | .archiveCategory c => ":archive_category: ".toList ++ c
  | .customRaw name value => ':' :: name ++ ": ".toList ++ value
  | .effort h m => ":EFFORT: ".toList ++ (showInt h ++ ':' :: showInt m)
  | .visibility l => ":visibility: ".toList ++ l.name
  | .archiveFile f => ":archive_file: ".toList ++ f

/-- The line of the id – 1206. -/
def idLines : Option Text → List Text
  | some v => [":ID: ".toList ++ v]
  | none => []

/-- The lines between `:PROPERTIES:` and `:END:` – 1204-1208. -/
def writeLines {T : Type} (lib : Lib T) (treeId : Option Text) (ps : List (NamedProp T)) : List Text :=
  idLines treeId ++ ps.map (·.write lib)

/-- The text between the two lines. -/
def writeBody {T : Type} (lib : Lib T) (treeId : Option Text) (ps : List (NamedProp T)) : Text :=
  join ['\n'] (writeLines lib treeId ps)

end Verif.Drawer
