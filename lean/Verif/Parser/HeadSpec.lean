import Verif.Parser.MarkupSpec

/-!
# The grammar of headlines

A document of paragraphs and headlines: a headline has stars, perhaps a keyword and a priority, a
title, perhaps tags, and goes to the end of the line.
-/

namespace Verif.Parser
open Verif.NodeGroup Verif.NodeGroup.Spec

/-- An absent part of a headline. -/
def absent (f : Forest NK Unit) : Forest NK Unit := .leaf .Empty (.mono ()) f

/-- Keyword and priority, with their nodes. -/
inductive Front : List (Nat × TK) → (Forest NK Unit → Forest NK Unit) → Prop
  | none : Front [] (fun f => absent (absent f))
  | priority {i j} : Front [(i, .SubtreePriority), (j, .Whitespace)] (fun f => absent (.leaf .SubtreeUrgency (.tok i) f))
  | keyword {a b i j} : Front [(a, .BigIdent), (b, .Whitespace), (i, .SubtreePriority), (j, .Whitespace)]
      (fun f => .leaf .BigIdent (.tok a) (.leaf .SubtreeUrgency (.tok i) f))

/-- The kinds of the tokens of tags (OrgParser.cpp:1932-1938). -/
def tagKinds : List TK := [.Colon, .Word, .DoubleHash, .At, .BigIdent]

/-- A title: a text in one line, which has no end that looks like tags. -/
def IsTitle (u : List (Nat × TK)) : Prop :=
  (∀ p ∈ u, p.2 ∉ lineBreaks ∧ p.2 ≠ .SubtreePriority) ∧ (∃ p ∈ u.head?, p.2 ≠ .Whitespace) ∧
  ∀ a i b, u = a ++ (i, .Colon) :: b → ∃ p ∈ b, p.2 ∉ tagKinds

/-- Tags: `:a:b:`. -/
inductive Tags : List (Nat × TK) → Forest NK Unit → Prop
  | last {i} : Tags [(i, .Colon)] .nil
  | tag {i j k r f} : k ∈ [Token.TK.Word, .BigIdent] → Tags r f →
      Tags ((i, .Colon) :: (j, k) :: r) (.tree .HashTag (.leaf .RawText (.tok j) .nil) f)

/-- The tags of a headline, with their nodes. -/
inductive TagPart : List (Nat × TK) → (Forest NK Unit → Forest NK Unit) → Prop
  | none : TagPart [] absent
  | tags {i j k r f} : Tags ((i, .Colon) :: (j, k) :: r) f → TagPart ((i, .Colon) :: (j, k) :: r) (.tree .InlineStmtList f)

/-- The end of a headline. -/
def IsEnd (e r : List (Nat × TK)) : Prop := (e = [] ∧ r = []) ∨ ∃ i k, e = [(i, k)] ∧ k ∈ lineBreaks

/-- The tokens which may start the text after a headline. -/
def follows (k : TK) : Prop := k ∉ lineBreaks ∧ k ∉ [Token.TK.TreeTime, .LeadingSpace, .ColonProperties, .ColonLogbook]

/-- A document of headlines and paragraphs. -/
inductive Heads : List (Nat × TK) → Forest NK Unit → Prop
  /-- the empty document -/
  | nil : Heads [] .nil
  /-- a line break between paragraphs -/
  | line {i k r f} : k ∈ lineBreaks → Heads r f → Heads ((i, k) :: r) (.leaf .Newline (.tok i) f)
  /-- white space between paragraphs -/
  | space {i r f} : Heads r f → Heads ((i, .Whitespace) :: r) (.leaf .Space (.tok i) f)
  /-- a paragraph goes to the next break or headline -/
  | par {i k u r f g} : k ∉ Token.TK.Whitespace :: lineBreaks → Open none ((i, k) :: u) g →
      (∀ p ∈ r.head?, p.2 ∈ [Token.TK.MediumNewline, .LongNewline, .SubtreeStars]) → Heads r f →
      Heads ((i, k) :: (u ++ r)) (.tree .Paragraph g f)
  /-- a headline -/
  | head {i j front ff u g tags tf e r f} : Front front ff → Open none u g → IsTitle u → TagPart tags tf → IsEnd e r →
      (∀ p ∈ r.head?, follows p.2) → Heads r f →
      Heads ((i, .SubtreeStars) :: (j, .Whitespace) :: (front ++ (u ++ (tags ++ (e ++ r)))))
        (.tree .Subtree (.leaf .RawText (.tok i) (ff (.tree .Paragraph g (absent (tf (absent (absent (.tree .StmtList .nil .nil)))))))) f)

end Verif.Parser
