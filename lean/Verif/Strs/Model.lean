/-!
# Model of the string helpers – src/hstd/stdlib/strutils.cpp, Str.cpp

A string is the list of its bytes.  Loops that index a string are modelled on the part of
the string from the index on; an index is carried along where it is observable.
Simplification: sizes fit into `int`.  A loop that does not end is the outcome
`Err.diverges`.
-/

namespace Verif.Strs

/-- Bytes of a `std::string`. -/
abbrev Bytes := List UInt8

/-- Abnormal outcomes. -/
inductive Err where
  /-- access outside of a string or vector -/
  | range
  /-- the loop did not finish within the steps given to the model -/
  | diverges
deriving DecidableEq, Repr

/-! ## `validate_utf8` – strutils.cpp:477-563 -/

/-- The reasons given in the exception. -/
inductive Utf8Err where
  | incomplete (n : Nat)
  | invalid (n : Nat)
  | overlong (n : Nat)
  | surrogate
  | outOfRange
  | leading
deriving DecidableEq, Repr

/-- `(byte & 0xC0) != 0x80` negated. -/
def isCont (b : UInt8) : Bool := (b &&& 0xC0) == 0x80

/-- The loop 481-562 at position `i`; the error has the reason and the position. -/
def validateFrom : Nat → Bytes → Except (Utf8Err × Nat) Unit
  | _, [] => .ok ()
  | i, b :: rest =>
    if b ≤ 0x7F then validateFrom (i + 1) rest
    else if 0xC2 ≤ b ∧ b ≤ 0xDF then
      match rest with
      | [] => .error (.incomplete 2, i)
      | b1 :: r =>
        if !isCont b1 then .error (.invalid 2, i)
        else validateFrom (i + 2) r
    else if 0xE0 ≤ b ∧ b ≤ 0xEF then
      match rest with
      | b1 :: b2 :: r =>
        if !isCont b1 || !isCont b2 then .error (.invalid 3, i)
        else if b = 0xE0 ∧ b1 < 0xA0 then .error (.overlong 3, i)
        else if b = 0xED ∧ 0x9F < b1 then .error (.surrogate, i)
        else validateFrom (i + 3) r
      | _ => .error (.incomplete 3, i)
    else if 0xF0 ≤ b ∧ b ≤ 0xF4 then
      match rest with
      | b1 :: b2 :: b3 :: r =>
        if !isCont b1 || !isCont b2 || !isCont b3 then .error (.invalid 4, i)
        else if b = 0xF0 ∧ b1 < 0x90 then .error (.overlong 4, i)
        else if b = 0xF4 ∧ 0x8F < b1 then .error (.outOfRange, i)
        else validateFrom (i + 4) r
      | _ => .error (.incomplete 4, i)
    else .error (.leading, i)

/-- `validate_utf8` -/
def validateUtf8 (s : Bytes) : Except (Utf8Err × Nat) Unit := validateFrom 0 s

/-! ## `rune_length`, `rune_chunks` – 267-318 -/

/-- Length announced by the first byte – 271-286, 298-312. -/
def runeLen (b : UInt8) : Nat :=
  if b ≤ 127 then 1
  else if b >>> 5 = 0b110 then 2
  else if b >>> 4 = 0b1110 then 3
  else if b >>> 3 = 0b11110 then 4
  else if b >>> 2 = 0b111110 then 5
  else if b >>> 1 = 0b1111110 then 6
  else 1

/-- `rune_length` – 267-289. -/
def runeLength : Bytes → Nat
  | [] => 0
  | b :: rest => 1 + runeLength (rest.drop (runeLen b - 1))
termination_by s => s.length
decreasing_by simp; omega

/-- `rune_chunks` – 293-318; `substr` stops at the end of the string. -/
def runeChunks : Bytes → List Bytes
  | [] => []
  | b :: rest => (b :: rest).take (runeLen b) :: runeChunks (rest.drop (runeLen b - 1))
termination_by s => s.length
decreasing_by simp; omega

/-! ## Searching: `std::string::find` -/

/-- Position of the first occurrence. -/
def findFirst (pat : Bytes) : Bytes → Option Nat
  | [] => if pat.isPrefixOf [] then some 0 else none
  | c :: s => if pat.isPrefixOf (c :: s) then some 0 else (findFirst pat s).map (· + 1)

/-- `s.find(pat, start)` -/
def find (s pat : Bytes) (start : Nat) : Option Nat :=
  if start ≤ s.length then (findFirst pat (s.drop start)).map (· + start) else none

/-- `s.substr(start, count)`; throws for a start past the end. -/
def substr (s : Bytes) (start count : Nat) : Except Err Bytes :=
  if start ≤ s.length then .ok ((s.drop start).take count) else .error .range

/-! ## `split`, `split_keep_separator`, `join` -/

/-- `join` – src/hstd/system/string_convert.hpp:12-26, strutils.hpp:10-20. -/
def join (sep : Bytes) : List Bytes → Bytes
  | [] => []
  | [a] => a
  | a :: b :: rest => a ++ sep ++ join sep (b :: rest)

/-- One `std::getline` that succeeds: the piece, and what is left of the stream. -/
def getline (ch : UInt8) (s : Bytes) : Bytes × Bytes :=
  (s.takeWhile (· ≠ ch), (s.dropWhile (· ≠ ch)).drop 1)

/-- `split(Str, char)` – 111-119: `std::getline` fails when there are no characters left. -/
def splitChar (ch : UInt8) : Bytes → List Bytes
  | [] => []
  | c :: s => (getline ch (c :: s)).1 :: splitChar ch (getline ch (c :: s)).2
termination_by s => s.length
decreasing_by
  simp only [getline, List.length_drop, List.length_cons]
  have := (List.dropWhile_suffix (l := c :: s) (fun x => decide (x ≠ ch))).length_le
  simp only [List.length_cons] at this
  omega

/-- Loop of `split(Str, Str)` – 695-703. -/
def splitStrLoop (value delim : Bytes) : Nat → Nat → Option Nat → List Bytes → Except Err (List Bytes)
  | _, start, none, acc => do
    let piece ← substr value start value.length
    .ok (acc ++ [piece])
  | 0, _, some _, _ => .error .diverges
  | fuel + 1, start, some e, acc => do
    let piece ← substr value start (e - start)
    splitStrLoop value delim fuel (e + delim.length) (find value delim (e + delim.length)) (acc ++ [piece])

/-- `split(Str, Str)` – 692-706. -/
def splitStr (fuel : Nat) (value delim : Bytes) : Except Err (List Bytes) :=
  splitStrLoop value delim fuel 0 (find value delim 0) []

/-- Push a piece that is not empty. -/
def pushPiece (piece : Bytes) (rest : List Bytes) : List Bytes :=
  if piece = [] then rest else piece :: rest

/-- Loop of `split_keep_separator` – 125-137; `cur` is the text from `prev` to `curr`. -/
def splitKeep (sep : UInt8 → Bool) (cur : Bytes) : Bytes → List Bytes
  | [] => pushPiece cur []
  | c :: s =>
    if sep c then
      pushPiece cur ((c :: s.takeWhile (· = c)) :: splitKeep sep [] (s.dropWhile (· = c)))
    else splitKeep sep (cur ++ [c]) s
termination_by s => s.length
decreasing_by
  · have := (List.dropWhile_suffix (l := s) (fun x => decide (x = c))).length_le
    simp only [List.length_cons]
    omega
  · simp

/-- `split_keep_separator` – 122-139. -/
def splitKeepSeparator (s : Bytes) (sep : UInt8 → Bool) : List Bytes := splitKeep sep [] s

/-! ## Replacing: `Str::replaceAll` – Str.cpp:61-69, `replace_all` – strutils.cpp:404-412 -/

/-- The common loop. -/
def replaceLoop (pat to : Bytes) : Nat → Nat → Bytes → Except Err Bytes
  | fuel, pos, s =>
    match find s pat pos with
    | none => .ok s
    | some p =>
      match fuel with
      | 0 => .error .diverges
      | fuel + 1 => replaceLoop pat to fuel (p + to.length) (s.take p ++ to ++ s.drop (p + pat.length))

/-- `Str::replaceAll` – Str.cpp:61-69. -/
def Str.replaceAll (fuel : Nat) (s pat to : Bytes) : Except Err Bytes := replaceLoop pat to fuel 0 s

/-- `replace_all` – strutils.cpp:404-412. -/
def replaceAll (fuel : Nat) (s pat to : Bytes) : Except Err Bytes :=
  if pat = [] then .ok s else replaceLoop pat to fuel 0 s

/-! ## `strip` – 91-109, alignment – 231-246, `normalize` – 210-222 -/

/-- `strip` – 91-109, with `Span::moveStart`/`moveEnd` – Span.hpp:70-113 (moving past the
last element leaves the empty span). -/
def strip (s : Bytes) (leading trailing : UInt8 → Bool) : Bytes :=
  ((s.dropWhile leading).reverse.dropWhile trailing).reverse

/-- `Str::repeated` – Str.cpp:84-89, `repeat` – strutils.cpp:224-229. -/
def repeated (s : Bytes) : Nat → Bytes
  | 0 => []
  | n + 1 => s ++ repeated s n

/-- `left_aligned` – 231-236 (`n` is an `int`; a negative one adds nothing). -/
def leftAligned (s : Bytes) (n : Int) (c : UInt8) : Bytes :=
  if (runeLength s : Int) < n then s ++ repeated [c] (n - runeLength s).toNat else s

/-- `right_aligned` – 238-246. -/
def rightAligned (s : Bytes) (n : Int) (c : UInt8) : Bytes :=
  if (runeLength s : Int) < n then repeated [c] (n - runeLength s).toNat ++ s else s

/-- `islower`, `isdigit`, `isupper` and `tolower` for the C locale. -/
def isLower (c : UInt8) : Bool := decide (97 ≤ c ∧ c ≤ 122)
def isDigit (c : UInt8) : Bool := decide (48 ≤ c ∧ c ≤ 57)
def isUpper (c : UInt8) : Bool := decide (65 ≤ c ∧ c ≤ 90)

/-- One character of `normalize` – 212-221. -/
def normalizeChar (c : UInt8) : Option UInt8 :=
  if c = 95 ∨ c = 45 then none
  else if isLower c || isDigit c then some c
  else if isUpper c then some (c + 32)
  else none

/-- `normalize` – 210-222. -/
def normalize (s : Bytes) : Bytes := s.filterMap normalizeChar

end Verif.Strs
