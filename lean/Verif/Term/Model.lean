import Verif.Sets.Model

/-!
# Model of coloured text

`src/hstd/stdlib/ColText.cpp:10-376`, `src/hstd/stdlib/ColText.hpp:19-366`: `ColText`, `ColStream`, the escape
sequences, the chunks for JSON and HTML.

Simplifications, for the whole file:
* A string is a list of characters; a rune (`ColRune::rune`) is any string.
* A colour is its number: 0 if it is not set, 1 to 8 for black to white, 9 for `EightBit`, 10 for `Default`.
* A stream is written to a buffer or to a string.
-/

namespace Verif.Term

open Verif.Sets (Bits elements)

/-- The character at the start of an escape sequence. -/
def ESC : Char := Char.ofNat 27

/-- `ColStyle` – ColText.hpp:119-124; the set of styles is an `IntSet<Style>`, of 256 bits. -/
structure Style where
  fg : Fin 256 := 0
  bg : Fin 256 := 0
  style : Bits 256 := Sets.empty 256
deriving DecidableEq

/-- `ColRune` – ColText.hpp:203-205. -/
structure Rune where
  text : List Char
  style : Style
deriving DecidableEq

/-- `isDefault` – ColText.hpp:115-116. -/
def isDefault (c : Fin 256) : Bool := decide (c = 0)

/-- `ansiEsc(int)` – ColText.hpp:167. -/
def esc (code : Nat) : List Char := ESC :: '[' :: (Nat.toDigits 10 code ++ ['m'])

/-- `ansiEsc(TermColorFg8Bit)`, of a colour which is set – ColText.cpp:10-18; `ord` is the number less one
(ColText.hpp:83-88). -/
def fgEsc (c : Fin 256) : List Char :=
  if c.val ≤ 7 then esc (c.val - 1 + 30)
  else if c.val ≤ 15 then esc (c.val - 1 + 30 + 60)
  else ESC :: '[' :: '3' :: '8' :: ';' :: '5' :: ';' :: (Nat.toDigits 10 c.val ++ ['m'])

/-- `ansiEsc(TermColorBg8Bit)` – ColText.cpp:20-28. -/
def bgEsc (c : Fin 256) : List Char :=
  if c.val ≤ 7 then esc (c.val - 1 + 40)
  else if c.val ≤ 15 then esc (c.val - 1 + 40 + 60)
  else ESC :: '[' :: '4' :: '8' :: ';' :: '5' :: ';' :: (Nat.toDigits 10 c.val ++ ['m'])

/-- `ansiEsc(Style, open)` – ColText.cpp:30-44. -/
def styleEsc (isOpen : Bool) (s : Nat) : List Char := if 1 ≤ s ∧ s ≤ 9 then esc (s + if isOpen then 0 else 20) else []

/-- `ansiDiff` – ColText.cpp:46-69. -/
def ansiDiff (s1 s2 : Style) : List Char :=
  (if s2.fg = s1.fg then [] else if isDefault s2.fg then esc 39 else fgEsc s2.fg) ++
  (if s2.bg = s1.bg then [] else if isDefault s2.bg then esc 49 else bgEsc s2.bg) ++
  (elements (Sets.minus s1.style s2.style)).flatMap (styleEsc false) ++
  (elements (Sets.minus s2.style s1.style)).flatMap (styleEsc true)

/-- The loop of `to_colored_string`, and the reset after it – ColText.cpp:86-94. -/
def colouredFrom : Style → List Rune → List Char
  | prev, [] => if isDefault prev.fg && isDefault prev.bg && decide (Sets.size prev.style = 0) then [] else esc 0
  | prev, r :: rs => ansiDiff prev r.style ++ r.text ++ colouredFrom r.style rs

/-- `to_colored_string` – ColText.cpp:83-99, `ColText::toString`. -/
def toColoured (runes : List Rune) (colour : Bool) : List Char := if colour then colouredFrom {} runes else runes.flatMap (·.text)

/-- `to_string(ColRune)` – ColText.cpp:71-81. -/
def runeString (r : Rune) (colour : Bool) : List Char := if colour then ansiDiff {} r.style ++ r.text ++ esc 0 else r.text

/-! ## Chunks for JSON -/

/-- An entry of `data_format`. -/
structure Chunk where
  text : List Char
  fg : Option Nat
  bg : Option Nat
  style : Option (List Nat)
deriving DecidableEq, Repr

/-- The chunk of a text with a style – ColText.cpp:119-130, 141-152. -/
def chunkOf (prev : Style) (text : List Char) : Chunk :=
  ⟨text, if isDefault prev.fg then none else some prev.fg.val, if isDefault prev.bg then none else some prev.bg.val,
    if Sets.size prev.style > 0 then some (elements prev.style) else none⟩

/-- What is pushed for the text that was collected – ColText.cpp:118, 140. -/
def pushed (prev : Style) (text : List Char) : List Chunk := if text = [] then [] else [chunkOf prev text]

/-- The loop of `to_formatting_json` – ColText.cpp:113-153. -/
def chunksFrom : Style → List Char → List Rune → List Chunk
  | prev, cur, [] => pushed prev cur
  | prev, cur, r :: rs =>
    if r.style = prev then chunksFrom prev (cur ++ r.text) rs
    else pushed prev cur ++ chunksFrom r.style r.text rs

/-- `to_formatting_json`, its `data_format` – ColText.cpp:101-157. -/
def chunks (runes : List Rune) : List Chunk := chunksFrom {} [] runes

/-! ## HTML -/

/-- The tags that are written. -/
inductive Tag where
  | font
  | bold
  | italic
  | underline
  | strike
deriving DecidableEq, Repr

/-- A part of the text. -/
inductive Piece where
  | opens (t : Tag) (colour : String)
  | closes (t : Tag)
  | text (s : List Char)
deriving DecidableEq, Repr

/-- `toHtmlColor` – ColText.cpp:314-326. -/
def htmlColour (c : Fin 256) : String :=
  match c.val with
  | 1 => "black"
  | 2 => "#800000"
  | 3 => "#008000"
  | 4 => "#808000"
  | 5 => "#000080"
  | 6 => "#800080"
  | 7 => "#008080"
  | 8 => "c0c0c0"
  | _ => "inherit"

/-- The tag of a style – ColText.cpp:346-349, 353-356, 366-369. -/
def tagOf (s : Nat) : List Tag := if s = 1 then [.bold] else if s = 3 then [.italic] else if s = 4 then [.underline] else if s = 9 then [.strike] else []

/-- `close_tags` – ColText.cpp:339, 345-350. -/
def closing (s1 s2 : Style) : List Piece :=
  (if s2.fg = s1.fg then [] else if isDefault s1.fg then [] else [.closes .font]) ++
  (elements (Sets.minus s1.style s2.style)).flatMap (fun s => (tagOf s).map .closes)

/-- `open_tags` – ColText.cpp:340-342, 352-357. -/
def opening (s1 s2 : Style) : List Piece :=
  (if s2.fg = s1.fg then [] else if isDefault s2.fg then [] else [.opens .font (htmlColour s2.fg)]) ++
  (elements (Sets.minus s2.style s1.style)).flatMap (fun s => (tagOf s).map (.opens · ""))

/-- The loop of `to_colored_html`, and the tags that are closed after it – ColText.cpp:332-370. -/
def htmlFrom : Style → List Rune → List Piece
  | prev, [] => (if isDefault prev.fg then [] else [.closes .font]) ++ (elements prev.style).flatMap (fun s => (tagOf s).map .closes)
  | prev, r :: rs => closing prev r.style ++ opening prev r.style ++ [.text r.text] ++ htmlFrom r.style rs

/-- `to_colored_html` – ColText.cpp:329-373; the parts, which are written one after the other. -/
def html (runes : List Rune) : List Piece := htmlFrom {} runes

/-! ## Text -/

/-- `ColText::rightAligned` – ColText.cpp:285-290. -/
def rightAligned (t : List Rune) (n : Nat) (c : Rune) : List Rune := (if t.length < n then List.replicate (n - t.length) c else []) ++ t

/-- The loop of `ColText::leftAligned` – ColText.cpp:292-296. -/
def leftAligned (t : List Rune) (n : Nat) (c : Rune) : List Rune := if t.length < n then leftAligned (t ++ [c]) n c else t
termination_by n - t.length
decreasing_by simp; omega

/-- The loop of `ColText::split` – ColText.cpp:302-309. -/
def splitFrom (d : List Char) : List Rune → List Rune → List (List Rune)
  | cur, [] => [cur]
  | cur, r :: rs => if r.text = d then cur :: splitFrom d [] rs else splitFrom d (cur ++ [r]) rs

/-- `ColText::split` – ColText.cpp:298-313. -/
def split (t : List Rune) (d : List Char) : List (List Rune) := splitFrom d [] t

/-- `join` – ColText.hpp:354-364, and `operator+` (350), with a buffer. -/
def join (sep : List Rune) : List (List Rune) → List Rune
  | [] => []
  | [t] => t
  | t :: u :: r => t ++ sep ++ join sep (u :: r)

/-! ## Streams -/

/-- `ColStyle::operator+` – ColText.hpp:130-140. -/
def Style.add (a b : Style) : Style := ⟨if isDefault a.fg then b.fg else a.fg, if isDefault a.bg then b.bg else a.bg, Sets.union a.style b.style⟩

/-- `ColStream` – ColText.hpp:285-312: the buffer, what was written to the stream that is not a buffer, `position`
and `active`. -/
structure Stream where
  buffered : Bool
  coloured : Bool := true
  buffer : List Rune := []
  out : List Char := []
  position : Nat := 0
  active : Style := {}
deriving DecidableEq

/-- `ColStream::write` – ColText.cpp:179-196. -/
def write (s : Stream) (t : List Rune) : Stream :=
  let s := { s with position := s.position + t.length }
  if s.buffered then { s with buffer := s.buffer ++ t } else { s with out := s.out ++ toColoured t s.coloured }

/-- What is put into a stream: a colour, a background, a style (`operator<<`), `red()` and the like, a whole style,
a string (its runes, with the active style) and a text – ColText.hpp:295-303, 331-349. -/
inductive Op where
  | fg (c : Fin 256)
  | bg (c : Fin 256)
  | style (s : Bits 256)
  | set (c : Fin 256)
  | whole (s : Style)
  | string (runes : List (List Char))
  | text (t : List Rune)

/-- `operator<<` – ColText.hpp:331-349. -/
def put (s : Stream) : Op → Stream
  | .fg c => { s with active := s.active.add { fg := c } }
  | .bg c => { s with active := s.active.add { bg := c } }
  | .style x => { s with active := s.active.add { style := x } }
  | .set c => { s with active := { s.active with fg := c } }
  | .whole x => { s with active := x }
  | .string runes => write s (runes.map fun r => ⟨r, s.active⟩)
  | .text t => write s t

/-- One after the other. -/
def puts (s : Stream) (l : List Op) : Stream := l.foldl put s

/-- `snap()` and the end of its scope – ColText.hpp:277-282, 326-330. -/
def inScope (s : Stream) (l : List Op) : Stream := { puts s l with active := s.active }

/-- The lines after the first one – ColText.cpp:199-219. -/
def indentRest (s : Stream) (indent : Nat) : List (List Rune) → Stream
  | [] => s
  | t :: r => indentRest (write (write (write s [⟨['\n'], {}⟩]) (List.replicate indent ⟨[' '], {}⟩)) t) indent r

/-- `write_indented_after_first` – ColText.cpp:211-223. -/
def writeIndented (s : Stream) (t : List Rune) (indent : Nat) : Stream :=
  match split t ['\n'] with
  | [] => s
  | x :: r => indentRest (write s x) indent r

end Verif.Term
