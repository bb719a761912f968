import Verif.Drawer.Model

/-!
# Model of the JSON helpers

* `src/hstd/stdlib/Json.cpp:14-109`: `to_compact_json`; 111-125: `filterFields`; `Json.hpp:14-26`.

Simplifications, for the whole file:
* Numbers are whole numbers.  Texts are lists of code points, so they are always well-formed.
* `json::dump` (nlohmann) is modelled by its documentation: without arguments it gives the shortest text, with
  `"`, `\` and control characters escaped.
* Objects are lists of fields in the order of their keys, as `std::map` keeps them.
* The indentations of the options are not negative.
-/

namespace Verif.JsonText
open Verif.Drawer (Text)

/-- A JSON value. -/
inductive Json where
  | null
  | bool (b : Bool)
  | int (i : Int)
  | str (s : Text)
  | arr (l : List Json)
  | obj (l : List (Text × Json))

/-- A hexadecimal digit. -/
def hexDigit (n : Nat) : Char := if n < 10 then Char.ofNat (48 + n) else Char.ofNat (87 + n)

/-- The text for a character in a string: `json::dump`. -/
def escape (c : Char) : Text :=
  if c = '"' then "\\\"".toList
  else if c = '\\' then "\\\\".toList
  else if c.toNat = 8 then "\\b".toList
  else if c.toNat = 12 then "\\f".toList
  else if c = '\n' then "\\n".toList
  else if c = '\r' then "\\r".toList
  else if c = '\t' then "\\t".toList
  else if c.toNat < 32 then "\\u00".toList ++ [hexDigit (c.toNat / 16), hexDigit (c.toNat % 16)]
  else [c]

/-- The text for a string: `json::dump`. -/
def quote (s : Text) : Text := "\"".toList ++ (s.map escape).flatten ++ "\"".toList

mutual

/-- `json::dump()`. -/
def dump : Json → Text
  | .null => "null".toList
  | .bool true => "true".toList
  | .bool false => "false".toList
  | .int i => Drawer.showInt i
  | .str s => quote s
  | .arr l => "[".toList ++ dumpAll l ++ "]".toList
  | .obj l => "{".toList ++ dumpFields l ++ "}".toList

def dumpAll : List Json → Text
  | [] => []
  | x :: r => dump x ++ (if r.isEmpty then [] else ",".toList) ++ dumpAll r

def dumpFields : List (Text × Json) → Text
  | [] => []
  | (k, x) :: r => quote k ++ ":".toList ++ dump x ++ (if r.isEmpty then [] else ",".toList) ++ dumpFields r

end

/-- `JsonFormatOptions` – Json.hpp:14-19; `stableFieldOrder` is in the environment. -/
structure Options where
  width : Int
  indent : Nat
  startIndent : Nat

/-- The functions `to_compact_json` uses – Json.cpp:17-25 and 75-85. -/
structure Env where
  /-- `getSize`: the sizes are remembered by the hash of the value, so they depend on which values have the same hash;
  any function -/
  size : Json → Int
  /-- `sort`: by the keys or by `getSize`; values of the same size may come in any order.  The text of the value is with
  each field -/
  arrange : List (Text × Json × Text) → List (Text × Json × Text)

/-- The loop over the sorted fields – Json.cpp:87-94. -/
def lines (ind : Nat) : List (Text × Json × Text) → Text
  | [] => []
  | (k, _, t) :: r =>
    "\n".toList ++ List.replicate ind ' ' ++ ("\"".toList ++ k ++ "\": ".toList) ++ t ++ (if r.isEmpty then [] else ",".toList) ++ lines ind r

mutual

/-- `format` – Json.cpp:29-104.  The texts of the fields are made before they are sorted. -/
def format (E : Env) (o : Options) : Nat → Json → Text
  | ind, .null => if E.size .null < o.width - ind then dump .null else []
  | _, .bool b => dump (.bool b)
  | _, .int i => dump (.int i)
  | _, .str s => dump (.str s)
  | ind, .arr l => if E.size (.arr l) < o.width - ind then dump (.arr l) else "[".toList ++ formatAll E o ind l ++ "]".toList
  | ind, .obj l =>
    if E.size (.obj l) < o.width - ind then dump (.obj l)
    else "{".toList ++ lines ind (E.arrange (formatFields E o ind l)) ++ "}".toList

/-- The loop over the elements – Json.cpp:54-60. -/
def formatAll (E : Env) (o : Options) : Nat → List Json → Text
  | _, [] => []
  | ind, x :: r =>
    "\n".toList ++ List.replicate ind ' ' ++ format E o (ind + o.indent) x ++ (if r.isEmpty then [] else ",".toList) ++ formatAll E o ind r

/-- The fields – Json.cpp:71-73 – and the texts of their values – 91. -/
def formatFields (E : Env) (o : Options) : Nat → List (Text × Json) → List (Text × Json × Text)
  | _, [] => []
  | ind, (k, x) :: r => (k, x, format E o (ind + o.indent) x) :: formatFields E o ind r

end

/-- `to_compact_json` – Json.cpp:14, 107. -/
def compact (E : Env) (o : Options) (j : Json) : Text := format E o o.startIndent j

mutual

/-- `filterFields` – Json.cpp:111-125. -/
def filterFields (ks : List Text) : Json → Json
  | .obj l => .obj (filterObj ks l)
  | .arr l => .arr (filterArr ks l)
  | .null => .null
  | .bool b => .bool b
  | .int i => .int i
  | .str s => .str s

def filterObj (ks : List Text) : List (Text × Json) → List (Text × Json)
  | [] => []
  | (k, x) :: r => if k ∈ ks then filterObj ks r else (k, filterFields ks x) :: filterObj ks r

def filterArr (ks : List Text) : List Json → List Json
  | [] => []
  | x :: r => filterFields ks x :: filterArr ks r

end

end Verif.JsonText
