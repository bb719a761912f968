import Verif.Proto.Spec

/-! # The tables of writing and reading agree with the declared members -/

namespace Verif.Proto

/-- The member of a statement. -/
def Stmt.fld : Stmt → Option Fld
  | .one f _ _ | .oneIf f _ _ | .opt f _ _ | .rep f _ _ | .map f _ _ | .alts f _ _ | .ref f _ _ => some f
  | .base _ | .kind _ => none

/-- The field of a statement. -/
def Stmt.pf : Stmt → Option PF
  | .one _ p _ | .oneIf _ p _ | .opt _ p _ | .rep _ p _ | .map _ p _ | .alts _ p _ | .ref _ p _ => some p
  | .kind p => some p
  | .base _ => none

/-- A member is written and read by these two statements. -/
def agree (m : Fld × FTy) (w r : Stmt) : Bool :=
  match m.2, w, r with
  | .one c, .one f p c', .one f' p' c'' => decide (f = m.1) && decide (f' = m.1) && decide (p = p') && decide (c = c') && decide (c = c'')
  | .one c, .one f p c', .oneIf f' p' c'' => decide (f = m.1) && decide (f' = m.1) && decide (p = p') && decide (c = c') && decide (c = c'')
  | .opt c, .opt f p c', .opt f' p' c'' => decide (f = m.1) && decide (f' = m.1) && decide (p = p') && decide (c = c') && decide (c = c'')
  | .rep c, .rep f p c', .rep f' p' c'' => decide (f = m.1) && decide (f' = m.1) && decide (p = p') && decide (c = c') && decide (c = c'')
  | .map c, .map f p c', .map f' p' c'' => decide (f = m.1) && decide (f' = m.1) && decide (p = p') && decide (c = c') && decide (c = c'')
  | .ref c, .ref f p c', .one f' p' c'' => decide (f = m.1) && decide (f' = m.1) && decide (p = p') && decide (c = c') && decide (c = c'')
  | .alts l, .alts f p l', .alts f' p' l'' =>
    decide (f = m.1) && decide (f' = m.1) && decide (p = p') && decide (l = l'.map (·.2)) && decide (l' = l'') && decide ((l'.map (·.1)).Nodup)
  | _, _, _ => false

/-- The locations of nodes are read, but never written. -/
def locOk (t : Ty) (r : Stmt) : Bool :=
  isNode t && decide (r = .opt .loc .loc (.msg .SourceLoc)) && decide (PF.loc ∉ (stmtsOf writes t).filterMap Stmt.pf) && decide ((Fld.loc, FTy.opt (.msg .SourceLoc)) ∈ allMembers t)

/-- Everything that is needed for one class. -/
def okTy (t : Ty) : Bool :=
  decide ((allMembers t).map (·.1)).Nodup &&
  decide ((stmtsOf writes t).filterMap Stmt.pf).Nodup &&
  decide ((stmtsOf reads t).filterMap Stmt.fld).Nodup &&
  ((stmtsOf reads t).all fun r => locOk t r || (allMembers t).any fun m => (!(isNode t) || decide (m.1 ≠ .loc)) && (stmtsOf writes t).any fun w => agree m w r) &&
  ((stmtsOf writes t).all fun w => (match w with | .kind _ => true | _ => false) || (allMembers t).any fun m => (stmtsOf reads t).any fun r => agree m w r) &&
  ((allMembers t).all fun m => decide (some m.1 ∈ (stmtsOf reads t).map Stmt.fld))

/-- The classes of which there are no objects: they have no functions of their own. -/
def abstract : List Ty := [.Org, .Stmt, .Inline, .Cmd, .Block, .LineCommand, .Attached, .Leaf, .Markup]

theorem tables_ok (t : Ty) : t ∈ abstract ∨ okTy t = true := by
  cases t <;> first | exact Or.inr (by decide +kernel) | exact Or.inl (by decide)

end Verif.Proto
