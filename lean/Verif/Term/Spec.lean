import Verif.Term.Model

/-!
# What a terminal shows

The control sequences for the rendition of characters (SGR) of ECMA-48, 8.3.117, with the bright colours 90–97 and
100–107 and the colours of the palette, as terminals have them.
-/

namespace Verif.Term

/-- A colour on the screen. -/
inductive Colour where
  | default
  | basic (n : Nat)
  | bright (n : Nat)
  | palette (n : Nat)
deriving DecidableEq, Repr

/-- What characters look like. -/
inductive Look where
  | bold
  | faint
  | italic
  | underline
  | blink
  | rapid
  | negative
  | concealed
  | struck
deriving DecidableEq, Repr

/-- The rendition of the next character. -/
structure Attrs where
  fg : Colour := .default
  bg : Colour := .default
  looks : List Look := []
deriving DecidableEq, Repr

/-- A look is set. -/
def Attrs.on (a : Attrs) (l : Look) : Attrs := { a with looks := a.looks.filter (· ≠ l) ++ [l] }

/-- A look is not set any more. -/
def Attrs.off (a : Attrs) (l : Look) : Attrs := { a with looks := a.looks.filter (· ≠ l) }

/-- One parameter. -/
def sgr1 (a : Attrs) (n : Nat) : Attrs :=
  if n = 0 then {}
  else if n = 1 then a.on .bold
  else if n = 2 then a.on .faint
  else if n = 3 then a.on .italic
  else if n = 4 then a.on .underline
  else if n = 5 then a.on .blink
  else if n = 6 then a.on .rapid
  else if n = 7 then a.on .negative
  else if n = 8 then a.on .concealed
  else if n = 9 then a.on .struck
  else if n = 22 then (a.off .bold).off .faint
  else if n = 23 then a.off .italic
  else if n = 24 then a.off .underline
  else if n = 25 then (a.off .blink).off .rapid
  else if n = 27 then a.off .negative
  else if n = 28 then a.off .concealed
  else if n = 29 then a.off .struck
  else if 30 ≤ n ∧ n ≤ 37 then { a with fg := .basic (n - 30) }
  else if n = 39 then { a with fg := .default }
  else if 40 ≤ n ∧ n ≤ 47 then { a with bg := .basic (n - 40) }
  else if n = 49 then { a with bg := .default }
  else if 90 ≤ n ∧ n ≤ 97 then { a with fg := .bright (n - 90) }
  else if 100 ≤ n ∧ n ≤ 107 then { a with bg := .bright (n - 100) }
  else a

/-- The parameters of a sequence. -/
def sgr : Attrs → List Nat → Attrs
  | a, 38 :: 5 :: n :: r => sgr { a with fg := .palette n } r
  | a, 48 :: 5 :: n :: r => sgr { a with bg := .palette n } r
  | a, n :: r => sgr (sgr1 a n) r
  | a, [] => a

/-- Where the terminal is in the input: in text, after the escape character, or in the parameters. -/
inductive Mode where
  | text
  | esc
  | params (done : List Nat) (cur : Nat)
deriving DecidableEq, Repr

/-- A terminal: the characters on it are the cells, each with its rendition. -/
structure Screen where
  mode : Mode := .text
  attrs : Attrs := {}
  cells : List (Char × Attrs) := []
deriving DecidableEq, Repr

/-- The next character. -/
def step (s : Screen) (c : Char) : Screen :=
  match s.mode with
  | .text => if c = Char.ofNat 27 then { s with mode := .esc } else { s with cells := s.cells ++ [(c, s.attrs)] }
  | .esc => if c = '[' then { s with mode := .params [] 0 } else { s with mode := .text }
  | .params done cur =>
    if '0' ≤ c ∧ c ≤ '9' then { s with mode := .params done (cur * 10 + (c.toNat - 48)) }
    else if c = ';' then { s with mode := .params (done ++ [cur]) 0 }
    else if c = 'm' then { s with mode := .text, attrs := sgr s.attrs (done ++ [cur]) }
    else { s with mode := .text }

/-- What the terminal shows for a text. -/
def run (s : Screen) (l : List Char) : Screen := l.foldl step s

/-- How a colour is to be shown: none and `Default` as the default, black to white as the basic colours. -/
def colourFor (c : Fin 256) : Colour := if 1 ≤ c.val ∧ c.val ≤ 8 then .basic (c.val - 1) else .default

/-- The look for a style. -/
def lookFor : List (Nat × Look) :=
  [(1, .bold), (2, .faint), (3, .italic), (4, .underline), (5, .blink), (6, .rapid), (7, .negative), (8, .concealed), (9, .struck)]

/-- The style has the value `v` of the enumeration `Style`. -/
def Style.hasStyle (s : Style) (v : Nat) : Prop := Sets.contains (Sets.described 256 Sets.style.values) s.style v = .ok true

/-- What is shown is what the style says. -/
def Shows (a : Attrs) (s : Style) : Prop := a.fg = colourFor s.fg ∧ a.bg = colourFor s.bg ∧ ∀ x ∈ lookFor, x.2 ∈ a.looks ↔ s.hasStyle x.1

/-- The rune has no control characters. -/
def Clean (r : Rune) : Prop := ESC ∉ r.text

instance (r : Rune) : Decidable (Clean r) := inferInstanceAs (Decidable (ESC ∉ r.text))

/-! ## Tags -/

/-- The tags are nested: `stack` are those which are open. -/
def nestedFrom : List Tag → List Piece → Bool
  | stack, [] => stack.isEmpty
  | stack, .opens t _ :: r => nestedFrom (t :: stack) r
  | [], .closes _ :: _ => false
  | t :: stack, .closes u :: r => decide (t = u) && nestedFrom stack r
  | stack, .text _ :: r => nestedFrom stack r

/-- Every tag is closed, the one opened last first. -/
def Nested (l : List Piece) : Prop := nestedFrom [] l = true

end Verif.Term
