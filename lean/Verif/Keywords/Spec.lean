import Verif.Keywords.Model
import Verif.Code.Spec

/-!
# Keyword lines in a text, and what is expected of them
-/

namespace Verif.Keywords
open Verif.Drawer (Text)
open Verif.BaseLexer (normalize isAlnum)
open Verif.Code (blanks)
open Verif.Stamp (Out)

/-- A line `#+name:rest` and the line breaks after it. -/
structure Line where
  name : Text
  rest : Text
  after : Nat
deriving DecidableEq

def Line.text (l : Line) : Text := "#+".toList ++ l.name ++ ":".toList ++ l.rest ++ List.replicate l.after '\n'

def render (d : List Line) : Text := (d.map Line.text).flatten

/-- What a line is about. -/
inductive Role where
  | startup | options | keywords | email
  /-- a command of the user, or one of those which are kept as they are -/
  | custom
deriving DecidableEq

/-- Names with another meaning: they are not considered here. -/
def reserved : List Text :=
  ["columns", "tblfm", "htmlhead", "title", "author", "filetags", "caption", "date", "link", "description", "language", "creator",
   "name", "constants", "results", "include", "header", "call", "row", "cell"].map String.toList

/-- Names which start with one of these have another meaning too. -/
def reservedStarts : List Text := ["attr", "begin", "end", "property"].map String.toList

/-- What a line is about, by the letters and digits of its name, in lower case. -/
def roleOf (n : Text) : Option Role :=
  if n = "startup".toList then some .startup
  else if n = "options".toList then some .options
  else if n = "keywords".toList then some .keywords
  else if n = "email".toList then some .email
  else if n ∈ reserved ∨ ∃ s ∈ reservedStarts, s <+: n then none
  else some .custom

def Line.role (l : Line) : Option Role := roleOf (normalize l.name)

/-- The line is as described. -/
structure Line.Valid (l : Line) : Prop where
  /-- the name is letters, digits and underscores -/
  name : ∀ c ∈ l.name, isAlnum c = true ∨ c = '_'
  rest : '\n' ∉ l.rest
  role : l.role ≠ none

/-- Each line but the last is followed by a line break. -/
def DocValid : List Line → Prop
  | [] => True
  | l :: r => l.Valid ∧ (r ≠ [] → 1 ≤ l.after) ∧ DocValid r

/-! ## `#+startup` -/

/-- `#+startup:` and words, with spaces before the first word, between the words and after the last. -/
structure Startup where
  gap : Nat
  word : Text
  /-- the words after it, with the number of spaces before each of them, minus one -/
  more : List (Nat × Text)
  tail : Nat

def Startup.text (s : Startup) : Text :=
  blanks s.gap ++ (s.word ++ (s.more.map fun w => blanks (w.1 + 1) ++ w.2).flatten) ++ blanks s.tail

/-- The words for the visibility, and what they mean. -/
def startupWords : List (Text × Visibility) :=
  [("overview".toList, .overview), ("content".toList, .content), ("showall".toList, .showAll), ("show2levels".toList, .show2),
   ("show3levels".toList, .show3), ("show4levels".toList, .show4), ("show5levels".toList, .show5),
   ("showeverything".toList, .showEverything)]

/-- What a word means: case, `-` and `_` are not distinguished. -/
def Startup.meaning (s : Startup) : Option Visibility := (startupWords.find? fun w => w.1 = normalize s.word).map Prod.snd

/-- Is `indent` one of the words after the first one? -/
def Startup.indent (s : Startup) : Bool := s.more.any fun w => normalize w.2 = "indent".toList

/-- A word: not empty, no spaces, no line breaks. -/
def Word (t : Text) : Prop := t ≠ [] ∧ ' ' ∉ t ∧ '\n' ∉ t

structure Startup.Valid (s : Startup) : Prop where
  word : Word s.word
  more : ∀ w ∈ s.more, Word w.2
  known : s.meaning ≠ none

/-! ## `#+options` -/

/-- `key:value`, with a number of spaces before it. -/
structure Item where
  gap : Nat
  key : Text
  value : Text

def Item.text (i : Item) : Text := blanks i.gap ++ (i.key ++ ":".toList ++ i.value)

/-- The text of the items, and the spaces after them. -/
def itemsText (is : List Item) (tail : Nat) : Text := (is.map Item.text).flatten ++ blanks tail

/-- The key of a switch. -/
def Switch.key : Switch → Text
  | .inlinetasks => "inline".toList
  | .footnotes => "f".toList
  | .clock => "c".toList
  | .author => "author".toList
  | .todoText => "todo".toList
  | .emphasis => "*".toList
  | .specialStrings => "-".toList
  | .smartQuotes => "'".toList
  | .fixedWidth => ":".toList
  | .timestamps => "<".toList
  | .preserveBreaks => "\\n".toList
  | .subSuperscripts => "^".toList
  | .expandLinks => "expand-links".toList
  | .creator => "creator".toList
  | .drawers => "d".toList
  | .date => "date".toList
  | .entities => "e".toList
  | .email => "email".toList
  | .sectionNumbers => "num".toList
  | .planning => "p".toList
  | .priority => "pri".toList
  | .propertyDrawers => "prop".toList
  | .statisticsCookies => "stat".toList
  | .latex => "tex".toList
  | .timestamp => "timestamp".toList
  | .title => "title".toList
  | .tables => "|".toList

/-- A value of a switch: `t` is on, `nil` is off. -/
def flagOf (t : Text) : Option Bool := if t = "t".toList then some true else if t = "nil".toList then some false else none

def brokenOf (t : Text) : Option Broken := if t = "mark".toList then some .mark else if t = "t".toList then some .ignore else none

def tagsOf (t : Text) : Option Tags :=
  if t = "not-in-toc".toList then some .notInToc else if t = "t".toList then some .all else if t = "nil".toList then some .none else none

def tasksOf (t : Text) : Option Tasks :=
  if t = "t".toList then some .all else if t = "nil".toList then some .none else if t = "done".toList then some .done else none

def archOf (t : Text) : Option Arch :=
  if t = "headline".toList then some .headline else if t = "t".toList then some .all else if t = "nil".toList then some .skip else none

/-- A decimal number which is an `int`. -/
def numberOf (t : Text) : Option Int :=
  if t ≠ [] ∧ (∀ c ∈ t, BaseLexer.isDigit c = true) ∧ Drawer.digitsValue t ≤ 2147483647 then some (Drawer.digitsValue t) else none

def tocOf (t : Text) : Option Toc :=
  if t = "t".toList then some (.whole true) else if t = "nil".toList then some (.whole false) else (numberOf t).map .levels

/-- The key and the value are known. -/
def Item.Known (i : Item) : Prop :=
  (∃ s : Switch, i.key = s.key ∧ flagOf i.value ≠ none) ∨ (i.key = "broken-links".toList ∧ brokenOf i.value ≠ none) ∨
  (i.key = "tags".toList ∧ tagsOf i.value ≠ none) ∨ (i.key = "tasks".toList ∧ tasksOf i.value ≠ none) ∨
  (i.key = "arch".toList ∧ archOf i.value ≠ none) ∨ (i.key = "H".toList ∧ numberOf i.value ≠ none) ∨ (i.key = "toc".toList ∧ tocOf i.value ≠ none)

/-- The items are known, and there are spaces between them. -/
def ItemsValid : List Item → Prop
  | [] => True
  | i :: r => i.Known ∧ (∀ j ∈ r, 1 ≤ j.gap) ∧ ItemsValid r

/-- The last value for a key. -/
def last {α : Type} (key : Text) (f : Text → Option α) (is : List Item) : Option α :=
  (is.filterMap fun i => if i.key = key then f i.value else none).getLast?

/-! ## Documents -/

/-- What is in a line. -/
inductive Said where
  | startup (s : Startup)
  | options (is : List Item) (tail : Nat)
  | keywords (t : Text)
  | email (t : Text)
  | custom (t : Text)

/-- A line, with its name and the line breaks after it. -/
structure Entry where
  name : Text
  said : Said
  after : Nat

def Said.text : Said → Text
  | .startup s => s.text
  | .options is tail => itemsText is tail
  | .keywords t => t
  | .email t => t
  | .custom t => t

def Said.role : Said → Role
  | .startup _ => .startup
  | .options _ _ => .options
  | .keywords _ => .keywords
  | .email _ => .email
  | .custom _ => .custom

def Said.Valid : Said → Prop
  | .startup s => s.Valid
  | .options is _ => ItemsValid is
  | .keywords t => '\n' ∉ t
  | .email t => '\n' ∉ t
  | .custom t => '\n' ∉ t

def Entry.line (e : Entry) : Line := ⟨e.name, e.said.text, e.after⟩

/-- The name is letters, digits and underscores, and it is a name for what is in the line. -/
structure Entry.Valid (e : Entry) : Prop where
  name : ∀ c ∈ e.name, isAlnum c = true ∨ c = '_'
  role : roleOf (normalize e.name) = some e.said.role
  said : e.said.Valid

/-- The text of a document. -/
def docText (d : List Entry) : Text := render (d.map Entry.line)

/-- The lines are valid, and each but the last is followed by a line break. -/
def EntriesValid : List Entry → Prop
  | [] => True
  | e :: r => e.Valid ∧ (r ≠ [] → 1 ≤ e.after) ∧ EntriesValid r

/-- The `#+startup` lines. -/
def startups (d : List Entry) : List Startup := d.filterMap fun e => match e.said with | .startup s => some s | _ => none

/-- The items of all the `#+options` lines. -/
def itemsOf (d : List Entry) : List Item := (d.map fun e => match e.said with | .options is _ => is | _ => []).flatten

/-- The nodes: e-mail addresses without the spaces around them; commands with their names as they are written, and
the text after the colon. -/
def nodesOf (d : List Entry) : List Node := d.filterMap fun e =>
  match e.said with
  | .email t => some (.email (Drawer.stripSpace t))
  | .custom t => some (.custom e.name t)
  | _ => none

/-- The visibility: that of the last `#+startup`. -/
def visibilityIn (d : List Entry) : Visibility := ((startups d).getLast?.bind Startup.meaning).getD .showEverything

/-- Is `indent` in one of the `#+startup` lines? -/
def indentedIn (d : List Entry) : Option Bool := if (startups d).any Startup.indent then some true else none

/-- The options are those which are said. -/
structure Shown (is : List Item) (o : Opts) : Prop where
  switch : ∀ s : Switch, o.switch s = last s.key flagOf is
  broken : o.broken = (last "broken-links".toList brokenOf is).getD .none
  tags : o.tags = (last "tags".toList tagsOf is).getD .notInToc
  tasks : o.tasks = (last "tasks".toList tasksOf is).getD .all
  arch : o.arch = (last "arch".toList archOf is).getD .headline
  levels : o.levels = last "H".toList numberOf is
  toc : o.toc = (last "toc".toList tocOf is).getD .unset
  errors : o.errors = []

end Verif.Keywords
