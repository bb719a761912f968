import Verif.JsonText.Model

/-!
# JSON texts, and what they stand for
-/

namespace Verif.JsonText
open Verif.Drawer (Text)

/-- Spaces between the parts of a JSON text. -/
def isSpace (c : Char) : Bool := c = ' ' || c = '\n' || c = '\r' || c = '\t'

def skip (t : Text) : Text := t.dropWhile isSpace

/-- The value of a hexadecimal digit. -/
def hexValue (c : Char) : Option Nat :=
  if '0' ≤ c ∧ c ≤ '9' then some (c.toNat - 48)
  else if 'a' ≤ c ∧ c ≤ 'f' then some (c.toNat - 87)
  else if 'A' ≤ c ∧ c ≤ 'F' then some (c.toNat - 55)
  else none

/-- What is after a backslash, with one character; surrogates are not read. -/
def simpleEscape (c : Char) : Option Char :=
  if c = '"' then some '"' else if c = '\\' then some '\\' else if c = '/' then some '/'
  else if c = 'b' then some (Char.ofNat 8) else if c = 'f' then some (Char.ofNat 12) else if c = 'n' then some '\n'
  else if c = 'r' then some '\r' else if c = 't' then some '\t' else none

/-- Four hexadecimal digits. -/
def codeOf (a b c d : Char) : Option Char :=
  match hexValue a, hexValue b, hexValue c, hexValue d with
  | some a, some b, some c, some d => some (Char.ofNat (((a * 16 + b) * 16 + c) * 16 + d))
  | _, _, _, _ => none

/-- The rest of a string, after the first quote: the string, and what is after the last quote. -/
def readString : Nat → Text → Option (Text × Text)
  | 0, _ => none
  | _ + 1, [] => none
  | n + 1, c :: r =>
    if c = '"' then some ([], r)
    else if c = '\\' then
      match r with
      | 'u' :: a :: b :: c :: d :: r => (codeOf a b c d).bind fun x => (readString n r).map fun p => (x :: p.1, p.2)
      | e :: r => (simpleEscape e).bind fun x => (readString n r).map fun p => (x :: p.1, p.2)
      | [] => none
    else if c.toNat < 32 then none
    else (readString n r).map fun p => (c :: p.1, p.2)

/-- The text starts with a word. -/
def word (w : Text) (t : Text) : Option Text := if w.isPrefixOf t then some (t.drop w.length) else none

/-- A whole number. -/
def readInt (t : Text) : Option (Int × Text) :=
  let neg := t.head? = some '-'
  let u := if t.head? = some '-' then t.drop 1 else t
  let ds := u.takeWhile BaseLexer.isDigit
  if ds = [] then none
  else
    let n : Int := Drawer.digitsValue ds
    some (if neg then -n else n, u.dropWhile BaseLexer.isDigit)

/-- The order of keys: that of their first different characters. -/
def before : Text → Text → Bool
  | [], [] => false
  | [], _ :: _ => true
  | _ :: _, [] => false
  | a :: r, b :: s => if a.toNat < b.toNat then true else if b.toNat < a.toNat then false else before r s

/-- A field is put into an object. -/
def put (l : List (Text × Json)) (f : Text × Json) : List (Text × Json) :=
  match l with
  | [] => [f]
  | g :: r => if before f.1 g.1 then f :: g :: r else if before g.1 f.1 then g :: put r f else f :: r

mutual

/-- A value at the start of a text, and what is after it.  The first argument bounds the recursion. -/
def readValue : Nat → Text → Option (Json × Text)
  | 0, _ => none
  | n + 1, t =>
    match skip t with
    | [] => none
    | c :: r =>
      if c = '"' then (readString n r).map fun p => (.str p.1, p.2)
      else if c = '[' then
        match skip r with
        | ']' :: r => some (.arr [], r)
        | _ => (readAll n r).map fun p => (.arr p.1, p.2)
      else if c = '{' then
        match skip r with
        | '}' :: r => some (.obj [], r)
        | _ => (readFields n r).map fun p => (.obj (p.1.foldl put []), p.2)
      else if c = 'n' then (word "ull".toList r).map fun r => (.null, r)
      else if c = 't' then (word "rue".toList r).map fun r => (.bool true, r)
      else if c = 'f' then (word "alse".toList r).map fun r => (.bool false, r)
      else (readInt (c :: r)).map fun p => (.int p.1, p.2)

/-- Elements, up to the bracket. -/
def readAll : Nat → Text → Option (List Json × Text)
  | 0, _ => none
  | n + 1, t =>
    (readValue n t).bind fun p =>
      match skip p.2 with
      | ',' :: r => (readAll n r).map fun q => (p.1 :: q.1, q.2)
      | ']' :: r => some ([p.1], r)
      | _ => none

/-- Fields, up to the brace. -/
def readFields : Nat → Text → Option (List (Text × Json) × Text)
  | 0, _ => none
  | n + 1, t =>
    match skip t with
    | '"' :: r =>
      (readString n r).bind fun k =>
        match skip k.2 with
        | ':' :: r =>
          (readValue n r).bind fun p =>
            match skip p.2 with
            | ',' :: r => (readFields n r).map fun q => ((k.1, p.1) :: q.1, q.2)
            | '}' :: r => some ([(k.1, p.1)], r)
            | _ => none
        | _ => none
    | _ => none

end

/-- The text stands for the value. -/
def Stands (t : Text) (v : Json) : Prop := ∃ n, ∃ r, readValue n t = some (v, r) ∧ skip r = []

mutual
/-- The fields of each object are in the order of their keys, and no key is there twice. -/
def Valid : Json → Prop
  | .arr l => ValidAll l
  | .obj l => l.Pairwise (fun a b => before a.1 b.1 = true) ∧ ValidFields l
  | _ => True

def ValidAll : List Json → Prop
  | [] => True
  | x :: r => Valid x ∧ ValidAll r

def ValidFields : List (Text × Json) → Prop
  | [] => True
  | f :: r => Valid f.2 ∧ ValidFields r
end

mutual
/-- One of the objects in the value has the key. -/
def HasKey (k : Text) : Json → Prop
  | .arr l => AllHasKey k l
  | .obj l => FieldsHasKey k l
  | _ => False

def AllHasKey (k : Text) : List Json → Prop
  | [] => False
  | x :: r => HasKey k x ∨ AllHasKey k r

def FieldsHasKey (k : Text) : List (Text × Json) → Prop
  | [] => False
  | f :: r => f.1 = k ∨ HasKey k f.2 ∨ FieldsHasKey k r
end

mutual
/-- There is `null` inside of so many arrays and objects. -/
def NullAt : Nat → Json → Prop
  | 0, .null => True
  | d + 1, .arr l => AllNullAt d l
  | d + 1, .obj l => FieldsNullAt d l
  | _, _ => False

def AllNullAt (d : Nat) : List Json → Prop
  | [] => False
  | x :: r => NullAt d x ∨ AllNullAt d r

def FieldsNullAt (d : Nat) : List (Text × Json) → Prop
  | [] => False
  | f :: r => NullAt d f.2 ∨ FieldsNullAt d r
end

/-- No character of the key has to be escaped. -/
def PlainKey (k : Text) : Prop := ∀ c ∈ k, c ≠ '"' ∧ c ≠ '\\' ∧ 32 ≤ c.toNat

/-- Sorting does not lose or add anything. -/
def Env.Sorts (E : Env) : Prop := ∀ l, (E.arrange l).Perm l

/-- A step into a value. -/
inductive Step where
  | key (k : Text)
  | index (i : Nat)

/-- The part of a value at a path. -/
def at? : Json → List Step → Option Json
  | j, [] => some j
  | .obj l, .key k :: p => (l.lookup k).bind fun x => at? x p
  | .arr l, .index i :: p => l[i]?.bind fun x => at? x p
  | _, _ => none
termination_by _ p => p.length

end Verif.JsonText
