import Verif.Grid.Model

/-!
# Model of lists

* `src/haxorg/sem/SemConvert.cpp:1302-1351`: `convertList` and `convertListItem`, from the nodes of a list to
  its items; `src/haxorg/parse/OrgSpec.cpp:261-285`: the subnodes of an item by their names;
* `src/haxorg/sem/SemOrgFormat.cpp:579-585` and 1007-1040: from a list and its items to their text.

Lexer, tokenizer and parser are those of `Verif.Pipeline` (`parseList`, `parseListItem`:
`Verif/Parser/Block.lean`).  Simplifications, for the whole file:
* Of a document, lists, paragraphs and line breaks are modelled; anything else, and an item with a header,
  ends the conversion with `outside`.
* Of a paragraph, the leaves and the links are modelled, as in `Verif.Link`.
* What is attached to lists, paragraphs and links is left out.
-/

namespace Verif.Lists
open Verif.Token Verif.NodeGroup
open Verif.Parser (NK)
open Verif.Sem (Adapter Checkbox)
open Verif.Stamp (Out)
open Verif.Drawer (Text)
open Verif.Link (getText Part)

/-- Nodes one after the other: of a document, of a list, of an item. -/
inductive Nodes where
  | nil
  | para (parts : List Part) (next : Nodes)
  | newline (text : Text) (next : Nodes)
  | list (items next : Nodes)
  | item (bullet : Option Text) (box : Checkbox) (body next : Nodes)
deriving DecidableEq, Repr

/-! ## Reading -/

/-- The bullet – SemConvert.cpp:1319-1321. -/
def bulletOf (toks : List Tok) (a : Adapter) : Out (Option Text) :=
  if Sem.kindOf a = .Empty then .ok none else (getText toks a).bind fun t => .ok (some (Sem.stripSets t (· = ' ') (· = ' ')))

/-- The checkbox – SemConvert.cpp:1323-1344; any other value is an error node. -/
def boxOf (toks : List Tok) (a : Adapter) : Out Checkbox :=
  if Sem.kindOf a = .Empty then .ok .none
  else (getText toks a).bind fun t =>
    match Sem.stripSets t (fun c => c = '[' || c = ' ') (fun c => c = ' ' || c = ']') with
    | ['x'] | ['X'] => .ok .done
    | [] => .ok .empty
    | ['-'] => .ok .partly
    | _ => .outside

/-- `convert` for nodes one after the other – SemConvert.cpp:2628-2735; of a list: 1302-1309; of an item:
1311-1351.  The first argument bounds the recursion. -/
def nodesOf (toks : List Tok) : Nat → List Adapter → Out Nodes
  | 0, _ => .outside
  | _ + 1, [] => .ok .nil
  | d + 1, a :: as =>
    if (Sem.children a).any Sem.isError then .outside
    else if Sem.kindOf a = .List then
      (nodesOf toks d (Sem.children a)).bind fun s => (nodesOf toks d as).bind fun r => .ok (.list s r)
    else if Sem.kindOf a = .ListItem then
      match Sem.children a with
      | bullet :: _ :: box :: header :: body :: _ =>
        if Sem.kindOf header ≠ .Empty then .outside
        else
          (bulletOf toks bullet).bind fun b => (boxOf toks box).bind fun x =>
          (nodesOf toks d (Sem.children body)).bind fun s => (nodesOf toks d as).bind fun r => .ok (.item b x s r)
      | _ => .throws
    else if Sem.kindOf a = .Paragraph then
      (Link.paraOf toks a).bind fun p => (nodesOf toks d as).bind fun r => .ok (.para p r)
    else if Sem.kindOf a = .Newline then
      (getText toks a).bind fun t => (nodesOf toks d as).bind fun r => .ok (.newline t r)
    else .outside

/-- The nodes of a document: lexer, tokenizer, parser and conversion (`n`: fuel of the parser). -/
def readLists (n : Nat) (text : Text) : Except Pipeline.Err (Out Nodes) :=
  match Pipeline.parse BaseLexer.stdLex n text with
  | .error e => .error e
  | .ok (toks, nodes) => .ok (nodesOf toks (nodes.length + 1) (Sem.children nodes))

/-! ## Writing -/

open Verif.Layout (Block)
open Verif.Sem (str stack added)

/-- What is written before the body of an item – SemOrgFormat.cpp:1024-1036. -/
def lead (bullet : Option Text) (box : Checkbox) : Text :=
  (match bullet with
    | some b => b ++ [' ']
    | none => "- ".toList) ++
  match box with
    | .empty => "[ ] ".toList
    | .done => "[x] ".toList
    | .partly => "[-] ".toList
    | .none => []

/-- `toString` of nodes – SemOrgFormat.cpp: of lists 579-585, of items 1007-1040, of line breaks 602-609, of
paragraphs 1679-1697. -/
def Nodes.fmt : Nodes → List Block
  | .nil => []
  | .para ps r => Grid.paraFmt ps :: r.fmt
  | .newline t r => stack (added (List.replicate (t.length - 1) (str []))) :: r.fmt
  | .list s r => stack (added s.fmt) :: r.fmt
  | .item b x s r => .line [str (lead b x), stack (added s.fmt)] :: r.fmt

/-- The document – SemOrgFormat.cpp:176-387, with the default options and no properties. -/
def fmtDocument (ns : Nodes) : Block :=
  match added ns.fmt with
  | [] => stack [str []]
  | bs => stack bs

def Nodes.plain : Nodes → Bool
  | .nil => true
  | .para ps r => Grid.known ps && r.plain
  | .newline _ r => r.plain
  | .list s r => s.plain && r.plain
  | .item _ _ s r => s.plain && r.plain

/-- `Formatter::format` – SemOrgFormat.hpp:47-53, for a document; `none`: other nodes in paragraphs. -/
def write {C : Type} (A : Layout.Arith C) (o : Layout.Options C) (fuel : Nat) (ns : Nodes) : Option (Except Layout.Err Text) :=
  if ns.plain then some (Layout.toString A o fuel (fmtDocument ns)) else none

end Verif.Lists
