import Verif.Parser.Good

/-!
# The inline functions
-/

namespace Verif.Parser
open Verif.Lexer Verif.NodeGroup Verif.NodeGroup.Spec

theorem good_attrLisp (t : Texts) (n : Nat) : Good (parseAttrLisp t n) := by
  induction n with
  | zero => unfold parseAttrLisp; good
  | succ n ih => unfold parseAttrLisp; good

theorem good_attrBracketList (t : Texts) (n : Nat) : Good (attrBracketList t n) := by unfold attrBracketList; good

theorem good_attrValue (t : Texts) (n : Nat) : Good (parseAttrValue t n) := by
  have h1 := good_attrLisp t n
  have h2 := good_attrBracketList t n
  unfold parseAttrValue; good

theorem good_callArguments (t : Texts) (n : Nat) : Good (parseCallArguments t n) := by
  have h1 := good_attrValue t n
  unfold parseCallArguments; good

theorem good_commandArguments (t : Texts) (n : Nat) : Good (parseCommandArguments t n) := by
  have h1 := good_attrValue t n
  unfold parseCommandArguments; good

theorem good_csvArguments (t : Texts) (n : Nat) : Good (parseCSVArguments t n) := by
  unfold parseCSVArguments; good

theorem good_closeMacro (t : Texts) (b : Bool) (i : Nat) : Good (closeMacro t b i) := by
  induction i with
  | zero => unfold closeMacro; cases b <;> simp only [if_true, Bool.false_eq_true, if_false] <;> good
  | succ i ih => unfold closeMacro; cases b <;> simp only [if_true, Bool.false_eq_true, if_false] <;> good

theorem good_macro (t : Texts) (n : Nat) : Good (parseMacro t n) := by
  have h1 := good_callArguments t n
  have h2 := fun b => good_closeMacro t b 3
  unfold parseMacro
  refine good_bind' (good_pure (pure_ask _)) (fun b => ?_)
  have h2 := h2 b
  good

theorem good_placeholder : Good parsePlaceholder := by unfold parsePlaceholder; good

theorem good_linkTarget (t : Texts) {par : P Unit} (hp : Good par) (n : Nat) (k : TK) : Good (linkTarget t par n k) := by
  unfold linkTarget
  split <;> good

theorem good_link (t : Texts) {par : P Unit} (hp : Good par) (n : Nat) : Good (parseLink t par n) := by
  have h1 := fun k => good_linkTarget t hp n k
  unfold parseLink
  refine good_if (pure_at _ _) ?_ ?_
  · good
  · refine good_node' (R := Any) ?_ (by decide) (by decide)
    refine good_bind' (by good) (fun _ => ?_)
    refine good_bind' (by good) (fun k => ?_)
    have h1 := h1 k
    good

theorem good_hashList {aux : P Bool} (h : Good aux) (n m : Nat) : Good (hashList aux n m) := by
  induction m with
  | zero => unfold hashList; good
  | succ m ih =>
    unfold hashList
    refine good_if (by askpure) (good_bind h (fun b => ?_)) (by good)
    cases b <;> dsimp only <;> good

theorem good_hashAux (t : Texts) (n : Nat) : Good (hashAux t n) := by
  induction n with
  | zero => unfold hashAux; good
  | succ n ih =>
    have h1 := good_hashList ih n n
    unfold hashAux
    good
    split <;> good

theorem good_hashTag (t : Texts) (n : Nat) : Good (parseHashTag t n) := by
  have := good_hashAux t n
  unfold parseHashTag; good

theorem good_dynamicTime (t : Texts) (n : Nat) : Good (dynamicTime t n) := by
  have := good_attrLisp t n
  unfold dynamicTime; good

theorem good_staticTime (t : Texts) (n : Nat) (b : Bool) : Good (staticTime t n b) := by
  unfold staticTime; good

theorem good_timeStamp (t : Texts) (n : Nat) : Good (parseTimeStamp t n) := by
  have h1 := good_dynamicTime t n
  unfold parseTimeStamp
  refine good_bind' (by good) (fun _ => ?_)
  refine good_bind' (by good) (fun _ => ?_)
  refine good_bind' (by good) (fun b => ?_)
  have h2 := good_staticTime t n b
  cases b <;> simp only [if_true, Bool.false_eq_true, if_false] <;> good

theorem good_timeRange (t : Texts) (n : Nat) : Good (parseTimeRange t n) := by
  have h1 := good_timeStamp t n
  unfold parseTimeRange; good

theorem good_footnote (t : Texts) {par : P Unit} (hp : Good par) (n : Nat) : Good (parseFootnote t par n) := by
  unfold parseFootnote; good

theorem good_srcInlineBody (t : Texts) (n : Nat) : Good (srcInlineBody t n) := by unfold srcInlineBody; good

theorem good_srcInline (t : Texts) (n : Nat) : Good (parseSrcInline t n) := by
  have h1 := good_srcInlineBody t n
  unfold parseSrcInline; good

theorem good_angleBody (e : TK) (n : Nat) : Good (angleBody e n) := by unfold angleBody; good

theorem good_angleTarget (t : Texts) (n : Nat) : Good (parseAngleTarget t n) := by
  have h1 := fun e => good_angleBody e n
  unfold parseAngleTarget
  refine good_bind' (by good) (fun k => ?_)
  dsimp only
  have h1 := h1 (if decide (k = .TripleAngleBegin) = true then .TripleAngleEnd else .DoubleAngleEnd)
  good

theorem good_inlineExport (t : Texts) : Good (parseInlineExport t) := by unfold parseInlineExport; good

theorem good_criticMarkup (t : Texts) {par : P Unit} (hp : Good par) (n : Nat) : Good (parseCriticMarkup t par n) := by
  unfold parseCriticMarkup; good

end Verif.Parser
