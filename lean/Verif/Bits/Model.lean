import Verif.Drawer.Model

/-!
# Model of numbers in binary, octal and hexadecimal form – src/hstd/stdlib/strutils.cpp

Simplifications, for the whole file:
* The number is not bounded by 64 bits.
* The loop for binary digits and what a stream does for octal and hexadecimal ones are the same function.
-/

namespace Verif.Bits
open Verif.Drawer (Text)

/-- The argument `fmt`: `'b'`, `'o'`, `'x'` or any other character. -/
inductive Form where
  | binary | octal | hex | other
deriving DecidableEq

def Form.base : Form → Nat
  | .binary => 2
  | .octal => 8
  | .hex => 16
  | .other => 10

/-- A digit. -/
def digit (d : Nat) : Char := "0123456789abcdef".toList.getD d '0'

/-- The loop over the number – strutils.cpp:572-576 -/
def digitsLoop (base : Nat) (v : Nat) (raw : Text) : Text :=
  if h : v = 0 ∨ base ≤ 1 then raw else digitsLoop base (v / base) (digit (v % base) :: raw)
termination_by v
decreasing_by exact Nat.div_lt_self (by omega) (by omega)

/-- The digits – strutils.cpp:568-592 -/
def digits (base v : Nat) : Text := if v = 0 then "0".toList else digitsLoop base v []

/-- Zeros before the digits – strutils.cpp:595-597, 602-604 -/
def padded (raw : Text) (padTo : Int) : Text :=
  if 0 < padTo ∧ (raw.length : Int) < padTo then List.replicate (padTo.toNat - raw.length) '0' ++ raw else raw

/-- The loop that puts a mark after each four digits – strutils.cpp:606-613; the digits are given from the last to the first. -/
def groupLoop : Text → Nat → Text → Text
  | [], _, grouped => grouped
  | c :: r, count, grouped =>
    let grouped := if 0 < count ∧ count % 4 = 0 then '\'' :: grouped else grouped
    groupLoop r (count + 1) (c :: grouped)

def Form.prefix : Form → Text
  | .binary => "0b".toList
  | .octal => "0o".toList
  | .hex => "0x".toList
  | .other => []

/-- `format_integer_bits` – strutils.cpp:565-622 -/
def format (value : Nat) (form : Form) (padTo : Int) : Text :=
  let raw := padded (digits form.base value) padTo
  if form = .other then raw else form.prefix ++ groupLoop raw.reverse 0 []

end Verif.Bits
