/-!
# Fragments of source files – src/haxorg/api/ParseContext.cpp:18-108, 157-241; src/haxorg/sem/SemConvert.cpp:2998-3023

Texts are lists of characters (bytes in the code).
-/

namespace Verif.Comments

/-- `OrgParseFragment` – ParseContext.hpp:16-21. -/
structure Frag where
  baseLine : Nat
  baseCol : Nat
  text : List Char
deriving DecidableEq, Repr

/-- A loop of `std::getline` – ParseContext.cpp:25-27; the text after the last line end is a line if it is not
empty. -/
def getLines : List Char → List (List Char)
  | [] => []
  | c :: r =>
    (c :: r).takeWhile (fun x => decide (x ≠ '\n')) :: getLines (((c :: r).dropWhile (fun x => decide (x ≠ '\n'))).drop 1)
termination_by s => s.length
decreasing_by
  have := (List.dropWhile_sublist (fun x => decide (x ≠ '\n')) (l := c :: r)).length_le
  simp only [List.length_drop, List.length_cons] at *
  omega

/-- `std::string::find`. -/
def find (p : List Char) : List Char → Option Nat
  | [] => if p = [] then some 0 else none
  | c :: s => if p.isPrefixOf (c :: s) then some 0 else (find p s).map (· + 1)

/-- The loop over the prefixes – ParseContext.cpp:37-45. -/
def search (line : List Char) : Option (Nat × List Char) → List (List Char) → Option (Nat × List Char)
  | best, [] => best
  | best, p :: ps =>
    match find p line with
    | none => search line best ps
    | some pos =>
      match best with
      | none => search line (some (pos, p)) ps
      | some b => if pos < b.1 then search line (some (pos, p)) ps else search line best ps

/-- The loop over the lines – ParseContext.cpp:31-66: the index of the line, the fragments, and the current one
(`none` for `baseLine = -1`). -/
def collect (ps : List (List Char)) : Nat → List Frag → Option Frag → List (List Char) → List Frag
  | _, fs, cur, [] =>
    match cur with
    | some f => fs ++ [f]
    | none => fs
  | i, fs, cur, l :: ls =>
    match search l none ps, cur with
    | some (pos, p), some f => collect ps (i + 1) fs (some { f with text := f.text ++ '\n' :: l.drop (pos + p.length) }) ls
    | some (pos, p), none => collect ps (i + 1) fs (some ⟨i, pos, l.drop (pos + p.length)⟩) ls
    | none, some f => collect ps (i + 1) (fs ++ [f]) none ls
    | none, none => collect ps (i + 1) fs none ls

/-- `find_first_not_of(" \t")` – ParseContext.cpp:88. -/
def firstText : List Char → Option Nat
  | [] => none
  | c :: s => if c = ' ' ∨ c = '\t' then (firstText s).map (· + 1) else some 0

/-- The loop over the prefixes of a later line – ParseContext.cpp:85-92. -/
def unprefix (line : List Char) : List (List Char) → List Char
  | [] => line
  | p :: ps =>
    match find p line with
    | some pos => if some pos = firstText line then line.drop (pos + p.length) else unprefix line ps
    | none => unprefix line ps

/-- "Remove at most one leading space" – ParseContext.cpp:95-98. -/
def unspace : List Char → List Char
  | ' ' :: s => s
  | s => s

/-- The loop over the lines of a fragment – ParseContext.cpp:76-102. -/
def cleanLines (ps : List (List Char)) : Bool → List (List Char) → List Char
  | _, [] => []
  | true, l :: ls => unspace l ++ cleanLines ps false ls
  | false, l :: ls => '\n' :: unspace (unprefix l ps) ++ cleanLines ps false ls

/-- `extractCommentBlocks` – ParseContext.cpp:18-108. -/
def extract (text : List Char) (ps : List (List Char)) : List Frag :=
  (collect ps 0 [] none (getLines text)).map fun f => { f with text := cleanLines ps true (getLines f.text) }

/-- `DocumentFragment`. -/
structure DocFrag (D : Type) where
  baseLine : Nat
  baseCol : Nat
  subnodes : D
deriving DecidableEq, Repr

inductive Err
  /-- `fragments.front()` of an empty vector. -/
  | undefined
  /-- An exception of the parser. -/
  | parser
deriving DecidableEq, Repr

/-- Parsing the fragments – ParseContext.cpp:186-231. -/
def parseAll {D : Type} (parse : List Char → Except Err D) : List Frag → Except Err (List (DocFrag D))
  | [] => .ok []
  | f :: fs => (parse f.text).bind fun d => (parseAll parse fs).bind fun ds => .ok (⟨f.baseLine, f.baseCol, d⟩ :: ds)

/-- `parseStringOpts` with `getFragments` (ParseContext.cpp:157-241) and `convertDocumentFragments` (SemConvert.cpp:2998-3023).
`parse` is what one text is parsed and converted to; what a fragment adds to the options of the document is left out. -/
def parseFragments {D : Type} (parse : List Char → Except Err D) (fs : List Frag) : Except Err (List (DocFrag D)) :=
  (parseAll parse fs).bind fun ds => if ds.isEmpty then .error .undefined else .ok ds

end Verif.Comments
