import Mathlib.Algebra.Order.Field.Rat

/-!
# Model of the constraints on boxes – src/hstd/ext/geometry/kiwi_ir.{hpp,cpp}

Simplifications, for the whole file:
* `double` is a rational number: nothing is rounded.
* An expression of the library (`kiwi::Expression`) is its list of terms and its constant; the operations of the library append and
  scale terms and do not collect them.
* Strengths are left out: a constraint holds or does not.
* An exception is `none`.  Nodes are well-formed, and enumerations have their values only.
-/

namespace Verif.Constraint

/-- The variables of a rectangle – kiwi_ir.cpp:191-194 -/
inductive Attr where
  | x | y | width | height
deriving DecidableEq

abbrev Var := String × Attr

/-- `kiwi::Expression` – the library. -/
structure Lin where
  terms : List (Var × ℚ)
  constant : ℚ

def Lin.add (a b : Lin) : Lin := ⟨a.terms ++ b.terms, a.constant + b.constant⟩
def Lin.scale (a : Lin) (v : ℚ) : Lin := ⟨a.terms.map fun t => (t.1, t.2 * v), a.constant * v⟩
def Lin.neg (a : Lin) : Lin := a.scale (-1)
def Lin.sub (a b : Lin) : Lin := a.add b.neg

/-- `Expr::Node` – kiwi_ir.hpp:166-184 -/
inductive Expr where
  | constant (v : ℚ)
  | variable (v : Var)
  | kiwi (l : Lin)
  | add (a b : Expr)
  | sub (a b : Expr)
  | mul (a b : Expr)
  | neg (a : Expr)

/-- `fold_expr` – kiwi_ir.cpp:127-157 -/
def fold : Expr → Option Lin
  | .constant v => some ⟨[], v⟩
  | .variable v => some ⟨[(v, 1)], 0⟩
  | .kiwi l => some l
  | .add a b => do return (← fold a).add (← fold b)
  | .sub a b => do return (← fold a).sub (← fold b)
  | .neg a => do return (← fold a).neg
  | .mul a b => do
    let left ← fold a
    let right ← fold b
    if left.terms.isEmpty && right.terms.isEmpty then some ⟨[], left.constant * right.constant⟩
    else if left.terms.isEmpty then some (right.scale left.constant)
    else if right.terms.isEmpty then some (left.scale right.constant)
    else none

/-- `kiwi::RelationalOperator` – the library. -/
inductive Op where
  | eq | le | ge
deriving DecidableEq

/-- `Constraint` – kiwi_ir.hpp:224-241 -/
structure Constraint where
  lhs : Expr
  op : Op
  rhs : Expr

/-- `kiwi::Constraint` – the library; only these two relations are used. -/
inductive Kiwi where
  | eq (a b : Lin)
  | le (a b : Lin)

/-- `to_kiwi` – kiwi_ir.cpp:159-175 -/
def Constraint.toKiwi (c : Constraint) : Option Kiwi := do
  let left ← fold c.lhs
  let right ← fold c.rhs
  match c.op with
  | .eq => some (.eq left right)
  | .le => some (.le left right)
  | .ge => some (.le right left)

/-- `Anchor` – kiwi_ir.hpp:50 -/
inductive Anchor where
  | left | hcenter | right | top | vcenter | bottom
deriving DecidableEq

/-- `Axis`, `anchor_axis` – kiwi_ir.cpp:32-38 -/
inductive Axis where
  | x | y
deriving DecidableEq

def anchorAxis (a : Anchor) : Axis := if a = .left ∨ a = .hcenter ∨ a = .right then .x else .y

/-- `anchor_expr`, `expr` – kiwi_ir.cpp:196-226; `0.5 * e` is `e * 0.5`: 180-181. -/
def anchorExpr (id : String) : Anchor → Expr
  | .left => .variable (id, .x)
  | .hcenter => .add (.variable (id, .x)) (.mul (.variable (id, .width)) (.constant (1 / 2)))
  | .right => .add (.variable (id, .x)) (.variable (id, .width))
  | .top => .variable (id, .y)
  | .vcenter => .add (.variable (id, .y)) (.mul (.variable (id, .height)) (.constant (1 / 2)))
  | .bottom => .add (.variable (id, .y)) (.variable (id, .height))

/-- `rects.at(id).anchor_expr(anchor)` -/
def anchorAt (rects : List String) (id : String) (a : Anchor) : Option Expr := if id ∈ rects then some (anchorExpr id a) else none

/-- `RectSpec1Side` – kiwi_ir.hpp:128-130 -/
structure Side where
  id : String
  anchor : Anchor
deriving DecidableEq

/-- `AlignItem` – kiwi_ir.hpp:344 -/
structure Item where
  id : String
  anchor : Anchor
  offset : ℚ

/-- An item's expression. -/
def Item.expr (rects : List String) (i : Item) : Option Expr := do return .sub (← anchorAt rects i.id i.anchor) (.constant i.offset)

/-- `AlignConstraint::build` – kiwi_ir.cpp:249-265 -/
def align (rects : List String) : List Item → Option (List Constraint)
  | [] => none
  | [_] => none
  | base :: items => do
    let b ← base.expr rects
    items.mapM fun i => do return ⟨← i.expr rects, .eq, b⟩

/-- `SeparateConstraint::build` – kiwi_ir.cpp:302-307 -/
def separate (rects : List String) (a b : Side) (offset : ℚ) : Option (List Constraint) := do
  let first ← anchorAt rects a.id a.anchor
  let second ← anchorAt rects b.id b.anchor
  return [⟨first, .eq, .add second (.constant offset)⟩]

/-- The constructor of `MultiSeparateConstraint`: whether it returns – kiwi_ir.cpp:335-362.  `Vec` is copied, since it has no constructor
from a moved one. -/
def multiOk (seen : List String) : List String → Bool
  | [] => true
  | id :: r => if id ∈ seen then false else multiOk (id :: seen) r

/-- The first loop of `MultiSeparateConstraint::build` – kiwi_ir.cpp:366-387 -/
def lanes (rects : List String) (step : ℚ) : List (List Side) → Option (List Constraint)
  | (a :: _) :: (b :: s) :: r => do
    let first ← anchorAt rects a.id a.anchor
    let second ← anchorAt rects b.id b.anchor
    return ⟨.add first (.constant step), .eq, second⟩ :: (← lanes rects step ((b :: s) :: r))
  | [] :: _ :: _ => none
  | _ :: [] :: _ => none
  | _ => some []

/-- The second loop, for one group – kiwi_ir.cpp:389-411 -/
def stack (rects : List String) : List Side → Option (List Constraint)
  | a :: b :: r => do
    let first ← anchorAt rects a.id a.anchor
    let second ← anchorAt rects b.id b.anchor
    return ⟨first, .eq, second⟩ :: (← stack rects (b :: r))
  | _ => some []

/-- `MultiSeparateConstraint::build` – kiwi_ir.cpp:364-414 -/
def multi (rects : List String) (step : ℚ) (groups : List (List Side)) : Option (List Constraint) := do
  let a ← lanes rects step groups
  let b ← groups.mapM (stack rects)
  return a ++ b.flatten

/-- `geometry::Padding` – hstd_geometry.hpp:19-23 -/
structure Padding where
  top : ℚ
  bottom : ℚ
  left : ℚ
  right : ℚ

/-- `ParentWrapConstraint::build` – kiwi_ir.cpp:464-526; in the order of the expressions of one side. -/
def wrap (rects : List String) (parent : String) (pad : Padding) (nested : List String) : Option (List Constraint) :=
  match nested with
  | [] => some []
  | first :: _ =>
    if parent ∈ rects ∧ ∀ n ∈ nested, n ∈ rects then
      let last := nested.getLast?.getD first
      some (nested.map (fun n => ⟨anchorExpr parent .left, .le, .sub (anchorExpr n .left) (.constant pad.left)⟩) ++
        nested.map (fun n => ⟨anchorExpr parent .top, .le, .sub (anchorExpr n .top) (.constant pad.top)⟩) ++
        nested.map (fun n => ⟨.add (anchorExpr n .right) (.constant pad.right), .le, anchorExpr parent .right⟩) ++
        nested.map (fun n => ⟨.add (anchorExpr n .bottom) (.constant pad.bottom), .le, anchorExpr parent .bottom⟩) ++
        [⟨anchorExpr parent .left, .eq, .sub (anchorExpr first .left) (.constant pad.left)⟩,
          ⟨anchorExpr parent .top, .eq, .sub (anchorExpr first .top) (.constant pad.top)⟩,
          ⟨anchorExpr parent .right, .eq, .add (anchorExpr last .right) (.constant pad.right)⟩,
          ⟨anchorExpr parent .bottom, .eq, .add (anchorExpr last .bottom) (.constant pad.bottom)⟩])
    else none

/-- `RectSpec2Side` – kiwi_ir.hpp:108-111 -/
structure Sides where
  id : String
  first : Anchor
  last : Anchor

/-- The constructor of `EvenGapConstraint`: whether it returns – kiwi_ir.cpp:677-708 -/
def gapsOk (specs : List Sides) : Bool :=
  specs.all (fun s => anchorAxis s.first = anchorAxis s.last) &&
    match specs with
    | [] => true
    | f :: _ => specs.all fun s => anchorAxis s.first = anchorAxis f.first

/-- `EvenGapConstraint::build` – kiwi_ir.cpp:710-732 -/
def gaps (rects : List String) : List Sides → Option (List Constraint)
  | p :: c :: n :: r => do
    let prevMax ← anchorAt rects p.id p.last
    let currMin ← anchorAt rects c.id c.first
    let currMax ← anchorAt rects c.id c.last
    let nextMin ← anchorAt rects n.id n.first
    return ⟨.sub currMin prevMax, .eq, .sub nextMin currMax⟩ :: (← gaps rects (c :: n :: r))
  | _ => some []

/-- `EqualSizeConstraint::build` – kiwi_ir.cpp:776-792 -/
def equalSize (rects : List String) (a b : String) (matchWidth matchHeight : Bool) : Option (List Constraint) :=
  if a ∈ rects ∧ b ∈ rects then
    some ((if matchWidth then [⟨.variable (a, .width), .eq, .variable (b, .width)⟩] else []) ++
      if matchHeight then [⟨.variable (a, .height), .eq, .variable (b, .height)⟩] else [])
  else none

/-- `RelDimensionSpec` – kiwi_ir.hpp:452 -/
structure Dim where
  size : Option ℚ
  relative : Option ℚ
  absolute : ℚ

/-- `AnchorSpec` – kiwi_ir.hpp:79 -/
structure Anchors where
  x : Anchor
  y : Anchor

/-- The size of one dimension – kiwi_ir.cpp:574-589 -/
def Dim.scaled (d : Dim) (fixed rel : String) (attr : Attr) : List Constraint :=
  match d.size with
  | some k => [⟨.variable (rel, attr), .eq, .mul (.variable (fixed, attr)) (.constant k)⟩]
  | none => []

/-- The place in one dimension – kiwi_ir.cpp:591-623 -/
def Dim.placed (d : Dim) (fixed rel : String) (attr : Attr) (af ar : Anchor) : Constraint :=
  match d.relative with
  | some k => ⟨anchorExpr rel ar, .eq, .add (.add (anchorExpr fixed af) (.mul (.variable (fixed, attr)) (.constant k))) (.constant d.absolute)⟩
  | none => ⟨anchorExpr rel ar, .eq, .add (anchorExpr fixed af) (.constant d.absolute)⟩

/-- `RelativeConstraint::build` – kiwi_ir.cpp:569-627 -/
def relative (rects : List String) (fixed rel : String) (xd yd : Dim) (af ar : Anchors) : Option (List Constraint) :=
  if rel ∈ rects ∧ fixed ∈ rects then
    some (xd.scaled fixed rel .width ++ yd.scaled fixed rel .height ++
      [xd.placed fixed rel .width af.x ar.x, yd.placed fixed rel .height af.y ar.y])
  else none

/-- `LinearConstraint::build` – kiwi_ir.cpp:823-835 -/
def linear (left right : Expr) (relation : Op) : List Constraint :=
  match relation with
  | .eq => [⟨left, .eq, right⟩]
  | .le => [⟨left, .le, right⟩]
  | .ge => [⟨right, .le, left⟩]

end Verif.Constraint
