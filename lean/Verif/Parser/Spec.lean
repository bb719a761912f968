import Verif.Parser.Block
import Verif.NodeGroup.Spec
import Mathlib.Data.List.Forall2

/-!
# What is expected of the parse tree
-/

namespace Verif.Parser
open Verif.Lexer Verif.NodeGroup Verif.NodeGroup.Spec

/-- The tokens at the leaves, in document order (`0` is no token). -/
def leafToks : Forest NK Unit → List Nat
  | .nil => []
  | .leaf _ (.tok t) r => (if t = 0 then [] else [t]) ++ leafToks r
  | .leaf _ (.mono _) r => leafToks r
  | .tree _ c r => leafToks c ++ leafToks r

/-- The kinds of the trees of a forest. -/
def rootKinds : Forest NK Unit → List NK
  | .nil => []
  | .leaf k _ r => k :: rootKinds r
  | .tree k _ r => k :: rootKinds r

/-- The fields of a headline between the stars and the section, with the node kinds they may
have. -/
def headlineFields : List (List NK) :=
  [[.BigIdent, .Empty],          -- todo keyword
   [.SubtreeUrgency, .Empty],    -- priority
   [.Paragraph, .Empty],         -- title
   [.SubtreeCompletion, .Empty], -- completion
   [.InlineStmtList, .Empty],    -- tags
   [.StmtList, .Empty],          -- times
   [.Drawer, .Empty]]            -- drawers

/-- A headline: the stars, the fields and an empty list for the section. -/
def IsHeadline (toks : List TK) (c : Forest NK Unit) : Prop :=
  ∃ (stars : Nat) (fields : Forest NK Unit), stars ≠ 0 ∧ toks[stars - 1]? = some .SubtreeStars ∧
    List.Forall₂ (fun k ks => k ∈ ks) (rootKinds fields) headlineFields ∧
    c = .leaf .RawText (.tok stars) (fields.append (.tree .StmtList .nil .nil))

/-- Every headline node is a headline, and no inner node is an `Empty` node. -/
def Shape (toks : List TK) : Forest NK Unit → Prop
  | .nil => True
  | .leaf k _ r => k ≠ .Subtree ∧ Shape toks r
  | .tree k c r => k ≠ .Empty ∧ (k = .Subtree → IsHeadline toks c) ∧ Shape toks c ∧ Shape toks r

/-- No headline in the forest. -/
def NoHeadline : Forest NK Unit → Prop
  | .nil => True
  | .leaf k _ r => k ≠ .Subtree ∧ NoHeadline r
  | .tree k c r => k ≠ .Subtree ∧ NoHeadline c ∧ NoHeadline r

/-- No headline inside of another tree (a quote, a list item). -/
def TopHeadlines : Forest NK Unit → Prop
  | .nil => True
  | .leaf _ _ r => TopHeadlines r
  | .tree _ c r => NoHeadline c ∧ TopHeadlines r

/-- The stars of the headlines among the trees of a forest. -/
def topStars : Forest NK Unit → List Nat
  | .nil => []
  | .leaf _ _ r => topStars r
  | .tree .Subtree (.leaf _ (.tok s) _) r => s :: topStars r
  | .tree _ _ r => topStars r

end Verif.Parser
