import Verif.Xml.Model

/-!
# Specification: reading XML

The reader follows the grammar of XML 1.0, without declarations, processing instructions and entity definitions.  Names
are ASCII.
-/

namespace Verif.Xml
open Verif.Drawer (Text)

/-- What is in a document. -/
inductive Item where
  | elem (tag : Text) (attrs : List (Text × Text)) (content : List Item)
  | text (t : Text)
  | comment (t : Text)
  | cdata (t : Text)

def isSpace (c : Char) : Bool := c = ' ' || c = '\t' || c = '\n' || c = '\r'

/-- A text without the spaces at its ends. -/
def trim (t : Text) : Text := ((t.dropWhile isSpace).reverse.dropWhile isSpace).reverse

/-- A character in a name. -/
def nameChar (c : Char) : Bool := c.isAlphanum || c = '_' || c = ':' || c = '-' || c = '.'

/-- A name: does not start with a digit, a dash or a point. -/
def Name (t : Text) : Prop := (∀ c ∈ t, nameChar c = true) ∧ ∃ c r, t = c :: r ∧ c.isDigit = false ∧ c ≠ '-' ∧ c ≠ '.'

/-- The character an entity stands for. -/
def entity (name : Text) : Option Char :=
  if name = "amp".toList then some '&'
  else if name = "lt".toList then some '<'
  else if name = "gt".toList then some '>'
  else if name = "quot".toList then some '"'
  else if name = "apos".toList then some '\''
  else none

/-- A text with entities.  The number bounds the recursion. -/
def decode : Nat → Text → Option Text
  | 0, _ => none
  | _ + 1, [] => some []
  | n + 1, c :: r =>
    if c = '&' then
      let name := r.takeWhile (· ≠ ';')
      match r.dropWhile (· ≠ ';') with
      | [] => none
      | _ :: r => (entity name).bind fun x => (decode n r).map (x :: ·)
    else (decode n r).map (c :: ·)

/-- The value of an attribute: all white space is a space. -/
def attrValue (t : Text) : Option Text := (decode (t.length + 1) t).map fun t => t.map fun c => if isSpace c then ' ' else c

/-- The text up to a mark, and after it. -/
def upTo (mark : Text) : Text → Option (Text × Text)
  | [] => none
  | c :: r => if mark.isPrefixOf (c :: r) then some ([], (c :: r).drop mark.length) else (upTo mark r).map fun p => (c :: p.1, p.2)

/-- The attributes of an element, up to the end of its tag. -/
def readAttrs : Nat → Text → Option (List (Text × Text) × Text)
  | 0, _ => none
  | n + 1, t =>
    let u := t.dropWhile isSpace
    if u.head? = some '/' ∨ u.head? = some '>' then some ([], u)
    else if u.length = t.length then none
    else
      let name := u.takeWhile nameChar
      match u.dropWhile nameChar with
      | '=' :: '"' :: r =>
        if name = [] then none
        else
          let v := r.takeWhile (· ≠ '"')
          match r.dropWhile (· ≠ '"') with
          | [] => none
          | _ :: r =>
            if '<' ∈ v then none
            else (attrValue v).bind fun v => (readAttrs n r).map fun p => ((name, v) :: p.1, p.2)
      | _ => none

mutual

/-- What is up to the end of the text or the next closing tag. -/
def readContent : Nat → Text → Option (List Item × Text)
  | 0, _ => none
  | n + 1, t =>
    if t = [] then some ([], [])
    else if "</".toList.isPrefixOf t then some ([], t)
    else if "<!--".toList.isPrefixOf t then
      (upTo "--".toList (t.drop 4)).bind fun p =>
        if p.2.head? = some '>' then (readContent n (p.2.drop 1)).map fun q => (.comment p.1 :: q.1, q.2) else none
    else if "<![CDATA[".toList.isPrefixOf t then
      (upTo "]]>".toList (t.drop 9)).bind fun p => (readContent n p.2).map fun q => (.cdata p.1 :: q.1, q.2)
    else if t.head? = some '<' then
      (readElement n (t.drop 1)).bind fun p => (readContent n p.2).map fun q => (p.1 :: q.1, q.2)
    else
      let raw := t.takeWhile (· ≠ '<')
      (decode (raw.length + 1) raw).bind fun x => (readContent n (t.dropWhile (· ≠ '<'))).map fun q => (.text x :: q.1, q.2)

/-- An element, after its first character. -/
def readElement : Nat → Text → Option (Item × Text)
  | 0, _ => none
  | n + 1, t =>
    let tag := t.takeWhile nameChar
    if tag = [] then none
    else
      (readAttrs n (t.dropWhile nameChar)).bind fun p =>
        if "/>".toList.isPrefixOf p.2 then some (.elem tag p.1 [], p.2.drop 2)
        else if ">".toList.isPrefixOf p.2 then
          (readContent n (p.2.drop 1)).bind fun q =>
            if ("</".toList ++ tag ++ ">".toList).isPrefixOf q.2 then some (.elem tag p.1 q.1, q.2.drop (tag.length + 3)) else none
        else none

end

/-- The ends of lines are unified before anything is read (XML 1.0, 2.11). -/
def lineEnds : Text → Text
  | [] => []
  | '\r' :: '\n' :: r => '\n' :: lineEnds r
  | '\r' :: r => '\n' :: lineEnds r
  | c :: r => c :: lineEnds r

mutual
/-- Without white space between elements and at the ends of texts. -/
def tidy : Item → Item
  | .elem tag attrs l => .elem tag attrs (tidyAll l)
  | .text t => .text (trim t)
  | .comment t => .comment t
  | .cdata t => .cdata t

def tidyAll : List Item → List Item
  | [] => []
  | .text t :: r => if trim t = [] then tidyAll r else .text (trim t) :: tidyAll r
  | x :: r => tidy x :: tidyAll r
end

mutual
/-- The item a node stands for. -/
def item : Node → Item
  | .element tag attrs t subs => .elem tag attrs ((if trim t = [] then [] else [.text (trim t)]) ++ itemAll subs)
  | .comment t => .comment t
  | .cdata t => .cdata t
  | .raw t => .text (trim t)

def itemAll : List Node → List Item
  | [] => []
  | .raw t :: r => if trim t = [] then itemAll r else .text (trim t) :: itemAll r
  | x :: r => item x :: itemAll r
end

/-- The text stands for the node, up to white space. -/
def Stands (t : Text) (n : Node) : Prop :=
  ∃ fuel l, readContent fuel (lineEnds t) = some (l, []) ∧ tidyAll l = [item n]

/-- A character that XML can have. -/
def xmlChar (c : Char) : Prop := 32 ≤ c.toNat ∨ c = '\t' ∨ c = '\n' ∨ c = '\r'

mutual
/-- The names are names, and no attribute is there twice. -/
def Named : Node → Prop
  | .element tag attrs _ subs => Name tag ∧ (∀ a ∈ attrs, Name a.1) ∧ (attrs.map Prod.fst).Nodup ∧ NamedAll subs
  | _ => True

def NamedAll : List Node → Prop
  | [] => True
  | x :: r => Named x ∧ NamedAll r
end

/-- A property of all the nodes of a tree. -/
inductive Part : Node → Node → Prop
  | self (n : Node) : Part n n
  | sub {n x : Node} {tag t : Text} {attrs : List (Text × Text)} {subs : List Node} : x ∈ subs → Part n x → Part n (.element tag attrs t subs)

mutual
/-- A tree whose comments are empty. -/
def quiet : Node → Node
  | .comment _ => .comment []
  | .element tag attrs t subs => .element tag attrs t (quietAll subs)
  | n => n

def quietAll : List Node → List Node
  | [] => []
  | x :: r => quiet x :: quietAll r
end

/-- The texts of a node itself. -/
def texts : Node → List Text
  | .element _ attrs t _ => t :: attrs.map Prod.snd
  | .comment t => [t]
  | .cdata t => [t]
  | .raw t => [t]

end Verif.Xml
