import Verif.Code.Model

/-!
# Source blocks in a text, and what is expected of them

How a block is written, and what is expected to be read from it.
-/

namespace Verif.Code
open Verif.BaseLexer (isAlnum toLower)
open Verif.Drawer (Text)

/-- A piece of a line of code. -/
inductive Seg where
  | code (t : Text)
  /-- `<<name>>` -/
  | ref (name : Text)
  /-- `<<` which is not closed on its line -/
  | left
  /-- `>>` -/
  | right
deriving DecidableEq

def Seg.text : Seg → Text
  | .code t => t
  | .ref name => "<<".toList ++ name ++ ">>".toList
  | .left => "<<".toList
  | .right => ">>".toList

def segsText (l : List Seg) : Text := (l.map Seg.text).flatten

/-- The texts are equal, apart from capitals. -/
def sameText (a b : Text) : Prop := a.map toLower = b.map toLower

/-- The line ends a source block: spaces, `#+end_src` or `#+endsrc` in any case, and anything. -/
def Ends (t : Text) : Prop :=
  ∃ n u v, t = List.replicate n ' ' ++ u ++ v ∧ (sameText u "#+end_src".toList ∨ sameText u "#+endsrc".toList)

/-- Text of one line without `<<` and `>>`, which does not end the block. -/
structure Plain (t : Text) : Prop where
  line : '\n' ∉ t
  left : ¬ "<<".toList <:+: t
  right : ¬ ">>".toList <:+: t
  stays : ¬ Ends t

/-- A piece of code without references and angles. -/
def Seg.isCode : Seg → Bool
  | .code _ => true
  | _ => false

/-- A piece which starts with `<<`. -/
def Seg.opens : Seg → Bool
  | .ref _ | .left => true
  | _ => false

/-- A piece with `>>` in it. -/
def Seg.closes : Seg → Bool
  | .ref _ | .right => true
  | _ => false

/-- The pieces are those which are read: one after the other. -/
def SegsValid : List Seg → Prop
  | [] => True
  | .code t :: r => Plain t ∧ t ≠ [] ∧ (∀ s ∈ r.head?, s.isCode = false ∧ (s.opens = true → t.getLast? ≠ some '<') ∧
      (s.opens = false → t.getLast? ≠ some '>')) ∧ SegsValid r
  | .ref name :: r => Plain name ∧ name ≠ [] ∧ name.getLast? ≠ some '>' ∧ SegsValid r
  | .left :: r => (∀ s ∈ r, s.closes = false) ∧ SegsValid r
  | .right :: r => SegsValid r

/-- The parts of a line. -/
def Seg.part : Seg → Part
  | .code t => .raw t
  | .ref name => .tangle name
  | .left => .raw "<<".toList
  | .right => .raw ">>".toList

/-- The parts of a line; an empty line has one part. -/
def lineParts (l : List Seg) : List Part := if l.isEmpty then [.raw []] else l.map Seg.part

/-- An argument of a block. -/
inductive Arg where
  /-- `:name value` -/
  | pair (name : Text) (gap : Nat) (value : Text)
  /-- `:name` -/
  | key (name : Text)
  /-- `value` -/
  | word (value : Text)
deriving DecidableEq

def blanks (n : Nat) : Text := List.replicate n ' '

def Arg.text : Arg → Text
  | .pair n g v => ':' :: n ++ blanks (g + 1) ++ v
  | .key n => ':' :: n
  | .word v => v

def argChar (c : Char) : Bool :=
  !(c = '(' || c = ')' || c = '[' || c = ']' || c = '=' || c = ',' || c = ' ' || c = '\n' || c = ':' || c = '"')

/-- A value: no spaces, brackets, quotes, colons, commas and equal signs. -/
def ArgText (t : Text) : Prop := t ≠ [] ∧ ∀ c ∈ t, argChar c = true

/-- A name: a letter or digit, and then letters, digits, `_` and `-`. -/
def ArgName (t : Text) : Prop :=
  (∃ c ∈ t.head?, isAlnum c = true) ∧ ∀ c ∈ t, (isAlnum c || c = '_' || c = '-') = true

def Arg.Valid : Arg → Prop
  | .pair n _ v => ArgName n ∧ ArgText v
  | .key n => ArgName n
  | .word v => ArgText v

/-- What is read from an argument, apart from the name it gets from the arguments before it. -/
def Arg.attr : Arg → Attr
  | .pair n _ v => ⟨some n, none, false, .text v⟩
  | .key n => ⟨some n, none, false, .text []⟩
  | .word v => ⟨none, none, false, .text v⟩

def Arg.isWord : Arg → Bool
  | .word _ => true
  | _ => false

def Arg.isKey : Arg → Bool
  | .key _ => true
  | _ => false

/-- Arguments with the number of spaces before them, minus one. -/
def ArgsValid : List (Nat × Arg) → Prop
  | [] => True
  | (_, a) :: r => a.Valid ∧ (a.isKey = true → ∀ b ∈ r.head?, b.2.isWord = false) ∧ ArgsValid r

def argsText (as : List (Nat × Arg)) : Text := (as.map fun (g, a) => blanks (g + 1) ++ a.text).flatten

/-- A block. -/
structure Block where
  /-- the commands are written in capitals -/
  upper : Bool
  /-- spaces before the first line -/
  indent : Nat
  /-- the language, with the number of spaces before it, minus one -/
  lang : Option (Nat × Text)
  args : List (Nat × Arg)
  /-- spaces at the end of the first line -/
  gap : Nat
  lines : List (List Seg)
  /-- spaces before the last line -/
  close : Nat
  /-- line breaks after the block -/
  after : Nat
deriving DecidableEq

def langText : Option (Nat × Text) → Text
  | none => []
  | some (g, l) => blanks (g + 1) ++ l

def Block.head (b : Block) : Text :=
  (if b.upper then "#+BEGIN_SRC" else "#+begin_src").toList ++ langText b.lang ++ argsText b.args ++ blanks b.gap

def Block.foot (b : Block) : Text := blanks b.close ++ (if b.upper then "#+END_SRC" else "#+end_src").toList

def Block.text (b : Block) : Text :=
  blanks b.indent ++ b.head ++ "\n".toList ++ (b.lines.map fun l => segsText l ++ "\n".toList).flatten ++ b.foot ++
    List.replicate b.after '\n'

def render (d : List Block) : Text := (d.map Block.text).flatten

/-- The block is as described. -/
structure Block.Valid (b : Block) : Prop where
  lang : ∀ l ∈ b.lang, ArgText l.2
  args : ArgsValid b.args
  /-- without a language the first argument has a name -/
  first : b.lang = none → ∀ a ∈ b.args.head?, a.2.isWord = false
  lines : ∀ l ∈ b.lines, SegsValid l

/-- Each block but the last is followed by a line break. -/
def DocValid : List Block → Prop
  | [] => True
  | b :: r => b.Valid ∧ (r ≠ [] → 1 ≤ b.after) ∧ DocValid r

/-- The spaces at the start of a line. -/
def leading (t : Text) : Nat := (t.takeWhile (· = ' ')).length

/-- The indentation shared by the block and all the lines of its code; empty lines do not count. -/
def shared (indent : Nat) : List Text → Nat
  | [] => indent
  | [] :: ls => shared indent ls
  | t :: ls => min (leading t) (shared indent ls)

def Block.shift (b : Block) : Nat := shared b.indent (b.lines.map segsText)

/-- The line without the first `m` spaces. -/
def dedent (m : Nat) : List Seg → List Seg
  | .code t :: r => .code (t.drop m) :: r
  | l => l

/-- The arguments with their names: that of an argument is the last name among it and those before it. -/
def owned (as : List Attr) : List Attr := as.mapIdx fun i a => { a with name := ((as.take (i + 1)).filterMap Attr.name).getLast? }

/-- The code of the block. -/
def Block.code (b : Block) : Source :=
  ⟨b.lang.map Prod.snd, owned (b.args.map fun a => a.2.attr), b.lines.map fun l => lineParts (dedent b.shift l)⟩

/-- What is expected to be read: for a block which is not at the start of the line, there is an empty
paragraph before it. -/
def Block.nodes (b : Block) : List Node :=
  (if b.indent = 0 then [] else [.nothing]) ++ [.code b.code] ++ (if b.after = 0 then [] else [.newline (List.replicate b.after '\n')])

/-! ## Writing -/

/-- The line without empty pieces. -/
def clean (l : List Seg) : List Seg := l.filter (fun s => decide (s ≠ .code []))

/-- The block as it is expected to be written: in lower case, without indentation and spaces which are not part
of the code. -/
def Block.canon (b : Block) (after : Nat) : Block :=
  { upper := false, indent := 0, lang := b.lang.map fun l => (0, l.2), args := [], gap := 0,
    lines := b.lines.map fun l => clean (dedent b.shift l), close := 0, after := after }

/-- The document as it is expected to be written: it loses the line break at its end. -/
def canonDoc : List Block → List Block
  | [] => []
  | [b] => [b.canon (b.after - 1)]
  | b :: c :: r => b.canon b.after :: canonDoc (c :: r)

/-- The text of a part. -/
def Part.text : Part → Text
  | .raw t => t
  | .tangle t => "<<".toList ++ t ++ ">>".toList

/-- The text of a line. -/
def partsText (l : List Part) : Text := (l.map Part.text).flatten

/-- A line of text which can be put in a block as it is: it does not end the block, also not after `<<` or `>>`, and there
is no `<<` with a `>>` behind it. -/
structure Free (t : Text) : Prop where
  line : '\n' ∉ t
  stays : ¬ Ends t
  angles : ¬ ∃ a b c, t = a ++ "<<".toList ++ b ++ ">>".toList ++ c
  after : ∀ a s, (t = a ++ "<<".toList ++ s ∨ t = a ++ ">>".toList ++ s) → ¬ Ends s

/-- The blocks of a document. -/
def sources (ns : List Node) : List Source := ns.filterMap fun
  | .code s => some s
  | _ => none

/-- The parts of a line without those with no text. -/
def solid (l : List Part) : List Part := l.filter (fun p => decide (p ≠ .raw []))

/-- The block without the parts with no text. -/
def Source.solid (s : Source) : Source := { s with lines := s.lines.map Code.solid }

/-- No line of the code ends with a space. -/
def Block.Tidy (b : Block) : Prop := ∀ l ∈ b.lines, (segsText (dedent b.shift l)).getLast? ≠ some ' '

end Verif.Code
