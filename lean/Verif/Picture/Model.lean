import Mathlib.Algebra.Order.Field.Rat
import Mathlib.Logic.Relation

/-!
# Model of the pictures of layouts – src/hstd/ext/geometry/kiwi_ir.cpp (895-1060)

Simplifications, for the whole file:
* `double` is a rational number: nothing is rounded.
* Names are of any linearly ordered type.
* A vertex of the graph is its box: the boxes are those of a map, so no two have the same name.
* The sorts of the library are relations: `topological_sort` throws `not_a_dag` if there is a cycle and otherwise gives any order along the
  edges; `sort` gives any order along the comparison.
-/

namespace Verif.Picture

/-- A solved rectangle with its name. -/
structure Box (I : Type) where
  id : I
  x : ℚ
  y : ℚ
  w : ℚ
  h : ℚ
deriving DecidableEq

variable {I : Type} [LinearOrder I]

/-- `area` – kiwi_ir.cpp:910-912 -/
def area (a : Box I) : ℚ := a.w * a.h

/-- `overlap_area` – kiwi_ir.cpp:914-918; boxes without a common point leave the empty box. -/
def overlapArea (a b : Box I) : ℚ :=
  let l := max a.x b.x
  let r := min (a.x + a.w) (b.x + b.w)
  let t := max a.y b.y
  let u := min (a.y + a.h) (b.y + b.h)
  if r < l ∨ u < t then 0 else (r - l) * (u - t)

/-- `contains`: `covered_by` of the library – kiwi_ir.cpp:920-922 -/
def contains (outer inner : Box I) : Bool :=
  outer.x ≤ inner.x && inner.x + inner.w ≤ outer.x + outer.w && outer.y ≤ inner.y && inner.y + inner.h ≤ outer.y + outer.h

/-- `prefer_before` – kiwi_ir.cpp:927-935 -/
def preferBefore (a b : Box I) : Bool :=
  if area a ≠ area b then area a > area b
  else if a.y ≠ b.y then a.y < b.y
  else if a.x ≠ b.x then a.x < b.x
  else a.id < b.id

/-- The edge between two boxes: `true` for one from the first to the second – kiwi_ir.cpp:945-965 -/
def arrow (a b : Box I) : Option Bool :=
  if overlapArea a b ≤ 0 then none
  else if contains a b && !contains b a then some true
  else if contains b a && !contains a b then some false
  else some (preferBefore a b)

/-- The edges of the graph – kiwi_ir.cpp:937-967 -/
def edges : List (Box I) → List (Box I × Box I)
  | [] => []
  | a :: r => (r.filterMap fun b => (arrow a b).map fun t => if t then (a, b) else (b, a)) ++ edges r

/-- There is a cycle. -/
def Cyclic (es : List (Box I × Box I)) : Prop := ∃ a, Relation.TransGen (fun a b => (a, b) ∈ es) a a

/-- One stands before the other in a list. -/
def Before (r : List (Box I)) (a b : Box I) : Prop := ∃ l m n, r = l ++ a :: m ++ b :: n

/-- What `sort_rectangles_for_svg` may give – kiwi_ir.cpp:969-991 -/
def Drawn (items r : List (Box I)) : Prop :=
  r.Perm items ∧ (¬ Cyclic (edges items) → ∀ e ∈ edges items, Before r e.1 e.2) ∧ (Cyclic (edges items) → r.Pairwise fun a b => ¬ preferBefore b a)

/-- The size of the picture – kiwi_ir.cpp:996-1009 -/
def canvas (items : List (Box I)) : ℚ × ℚ :=
  let m := if items.isEmpty then (100, 100) else items.foldl (fun m b => (max m.1 (b.x + b.w), max m.2 (b.y + b.h))) (0, 0)
  (m.1 + 40, m.2 + 40)

/-- The corner at which a box is drawn – kiwi_ir.cpp:1038-1041 -/
def corner (b : Box I) : ℚ × ℚ := (b.x + 20, b.y + 20)

end Verif.Picture
