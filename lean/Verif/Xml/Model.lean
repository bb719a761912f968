import Verif.Drawer.Model

/-!
# Model of XML trees and their text – src/hstd/stdlib/Xml.cpp, Xml.hpp

Simplifications, for the whole file:
* Texts are lists of code points instead of bytes; only ASCII characters are treated differently.
* The indentation is not negative (a negative one throws when the padding is made).
* Comments, character data and raw nodes have only their text: attributes and subnodes that were added to the first two
  are not looked at, and nothing in the code adds them to the third.
-/

namespace Verif.Xml
open Verif.Drawer (Text)

/-- `XmlNode` – Xml.hpp:12-56 -/
inductive Node where
  | element (tag : Text) (attrs : List (Text × Text)) (text : Text) (subs : List Node)
  | comment (text : Text)
  | cdata (text : Text)
  | raw (text : Text)

/-- `write_escaped` – Xml.cpp:89-98 -/
def escape (c : Char) : Text :=
  if c = '&' then "&amp;".toList
  else if c = '<' then "&lt;".toList
  else if c = '>' then "&gt;".toList
  else [c]

def escapeText (t : Text) : Text := (t.map escape).flatten

/-- `write_attr_escaped` – Xml.cpp:100-111 -/
def escapeIn (c : Char) : Text :=
  if c = '&' then "&amp;".toList
  else if c = '<' then "&lt;".toList
  else if c = '>' then "&gt;".toList
  else if c = '"' then "&quot;".toList
  else if c = '\'' then "&apos;".toList
  else [c]

def escapeAttr (t : Text) : Text := (t.map escapeIn).flatten

/-- `write_comment_escaped` – Xml.cpp:113-135; the first argument is `last_was_dash`. -/
def escapeComment : Bool → Text → Text
  | false, [] => []
  | true, [] => "&#45;".toList
  | last, c :: r =>
    if c = '-' then
      if last then "&#45;".toList ++ escapeComment false r
      else '-' :: escapeComment true r
    else c :: escapeComment false r

/-- The last dash is written a second time, as an entity (Xml.cpp:134). -/
example : escapeComment false "a-".toList = "a-&#45;".toList := by decide

/-- The attributes of an element – Xml.cpp:54-58 -/
def attrsText : List (Text × Text) → Text
  | [] => []
  | (k, v) :: r => " ".toList ++ k ++ "=\"".toList ++ escapeAttr v ++ "\"".toList ++ attrsText r

/-- A line break, unless there is no indentation – Xml.cpp:64, 71, 76, 81, 85 -/
def lineEnd (indent : Nat) : Text := if indent ≠ 0 then "\n".toList else []

/-- `pad` – Xml.cpp:40 -/
def pad (depth indent : Nat) : Text := List.replicate (depth * indent) ' '

mutual

/-- `serialize_impl` – Xml.cpp:39-87.  A raw node is an element without a tag. -/
def serialize (indent : Nat) : Nat → Node → Text
  | depth, .comment t => pad depth indent ++ "<!--".toList ++ escapeComment false t ++ "-->\n".toList
  | depth, .cdata t => pad depth indent ++ "<![CDATA[".toList ++ t ++ "]]>\n".toList
  | depth, .raw t =>
    pad depth indent ++ "<".toList ++
      (if t = [] then "/>".toList ++ lineEnd indent else ">".toList ++ escapeText t ++ "</>".toList ++ lineEnd indent)
  | depth, .element tag attrs t subs =>
    pad depth indent ++ "<".toList ++ tag ++ attrsText attrs ++
      (if t = [] ∧ subs.isEmpty then "/>".toList ++ lineEnd indent
      else if subs.isEmpty then ">".toList ++ escapeText t ++ "</".toList ++ tag ++ ">".toList ++ lineEnd indent
      else
        ">".toList ++ lineEnd indent ++ (if t = [] then [] else pad (depth + 1) indent ++ escapeText t ++ lineEnd indent) ++
          serializeAll indent (depth + 1) subs ++ pad depth indent ++ "</".toList ++ tag ++ ">".toList ++ lineEnd indent)

def serializeAll (indent : Nat) : Nat → List Node → Text
  | _, [] => []
  | depth, x :: r => serialize indent depth x ++ serializeAll indent depth r

end

/-- `to_string` – Xml.cpp:29-37 -/
def toText (indent : Nat) (n : Node) : Text := serialize indent 0 n

/-- `set_attr` – Xml.cpp:16-24 -/
def setAttr (l : List (Text × Text)) (k v : Text) : List (Text × Text) :=
  match l with
  | [] => [(k, v)]
  | (k', v') :: r => if k' = k then (k', v) :: r else (k', v') :: setAttr r k v

end Verif.Xml
