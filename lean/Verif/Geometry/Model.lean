import Mathlib.Algebra.Order.Field.Rat

/-!
# Model of boxes and paths – src/hstd/ext/geometry/hstd_geometry.{hpp,cpp}

Simplifications, for the whole file:
* `double` is a rational number: nothing is rounded, and there are no infinities.
* A conversion to `int` cuts the fraction; outside of the range of `int`, and for a difference of two `int` outside of it, the
  behaviour is undefined: `none`.
-/

namespace Verif.Geometry

/-- `Point` – hstd_geometry.hpp:61-140 -/
structure Point where
  x : ℚ
  y : ℚ
deriving DecidableEq

/-- `operator+` – hstd_geometry.hpp:64-68, 105-108 -/
def Point.add (a b : Point) : Point := ⟨a.x + b.x, a.y + b.y⟩

/-- `operator-` – hstd_geometry.hpp:70-74, 110-113 -/
def Point.sub (a b : Point) : Point := ⟨a.x - b.x, a.y - b.y⟩

/-- `operator*` – hstd_geometry.hpp:76-80 -/
def Point.scale (a : Point) (v : ℚ) : Point := ⟨a.x * v, a.y * v⟩

/-- `operator/` – hstd_geometry.hpp:82-86 -/
def Point.div (a : Point) (v : ℚ) : Point := ⟨a.x / v, a.y / v⟩

/-- `Padding` – hstd_geometry.hpp:19-29 -/
structure Padding where
  top : ℚ
  bottom : ℚ
  left : ℚ
  right : ℚ

/-- `Rect`: the corners – hstd_geometry.hpp:327-335 -/
structure Rect where
  lo : Point
  hi : Point
deriving DecidableEq

/-- `Rect(x, y, w, h)` – hstd_geometry.hpp:332-333 -/
def rect (x y w h : ℚ) : Rect := ⟨⟨x, y⟩, ⟨x + w, y + h⟩⟩

/-- `width`, `height` – hstd_geometry.hpp:384-390 -/
def Rect.width (r : Rect) : ℚ := r.hi.x - r.lo.x
def Rect.height (r : Rect) : ℚ := r.hi.y - r.lo.y

/-- `withOuterPadding` – hstd_geometry.hpp:338-344 -/
def Rect.outer (r : Rect) (p : Padding) : Rect :=
  rect (r.lo.x - p.left) (r.lo.y - p.top) (r.width + p.left + p.right) (r.height + p.top + p.bottom)

/-- `withInnerPadding` – hstd_geometry.hpp:346-352 -/
def Rect.inner (r : Rect) (p : Padding) : Rect :=
  rect (r.lo.x + p.left) (r.lo.y + p.top) (r.width - p.left - p.right) (r.height - p.top - p.bottom)

/-- `FromCenterWH` – hstd_geometry.hpp:354-356 -/
def fromCenter (c : Point) (w h : ℚ) : Rect := rect (c.x - w / 2) (c.y - h / 2) w h

/-- `center` – hstd_geometry.hpp:370-375 -/
def Rect.center (r : Rect) : Point := ⟨r.lo.x + r.width / 2, r.lo.y + r.height / 2⟩

/-- `move` – hstd_geometry.hpp:377-379 -/
def Rect.move (r : Rect) (d : Point) : Rect := rect (r.lo.add d).x (r.lo.add d).y r.width r.height

/-- `operator/`, `operator*` – hstd_geometry.hpp:394-400 -/
def Rect.div (r : Rect) (v : ℚ) : Rect := rect (r.lo.x / v) (r.lo.y / v) (r.width / v) (r.height / v)
def Rect.scale (r : Rect) (v : ℚ) : Rect := rect (r.lo.x * v) (r.lo.y * v) (r.width * v) (r.height * v)

/-- A number in the range of `int`. -/
def int? (i : Int) : Option Int := if -2147483648 ≤ i ∧ i ≤ 2147483647 then some i else none

/-- The conversion to `int`. -/
def cut (q : ℚ) : Option Int := int? (q.num.tdiv q.den)

/-- `extend`, for the corners to cover – hstd_geometry.hpp:421-435 -/
def Rect.extend (r : Rect) (lo hi : Point) : Option Rect := do
  let minX ← cut (min r.lo.x lo.x)
  let maxX ← cut (max r.hi.x hi.x)
  let minY ← cut (min r.lo.y lo.y)
  let maxY ← cut (max r.hi.y hi.y)
  let w ← int? (maxX - minX)
  let h ← int? (maxY - minY)
  some (rect minX minY w h)

/-- `extend(Point)` – hstd_geometry.hpp:421-427 -/
def Rect.extendPoint (r : Rect) (p : Point) : Option Rect := r.extend p p

/-- `extend(Rect)` – hstd_geometry.hpp:429-435 -/
def Rect.extendRect (r s : Rect) : Option Rect := r.extend s.lo s.hi

/-- `Path::Command`; only the points that are used – hstd_geometry.hpp:471-513 -/
inductive Command where
  | moveTo (p : Point)
  | lineTo (p : Point)
  | quadTo (c p : Point)
  | cubicTo (c d p : Point)
  | close
deriving DecidableEq

/-- `forEachUsedPoint` – hstd_geometry.hpp:519-535 -/
def Command.map (f : Point → Point) : Command → Command
  | .moveTo p => .moveTo (f p)
  | .lineTo p => .lineTo (f p)
  | .quadTo c p => .quadTo (f c) (f p)
  | .cubicTo c d p => .cubicTo (f c) (f d) (f p)
  | .close => .close

/-- `operator*`, `operator/`, `operator+`, `operator-` – hstd_geometry.hpp:538-568 -/
def scalePath (p : List Command) (v : ℚ) : List Command := p.map (Command.map fun q => q.scale v)
def divPath (p : List Command) (v : ℚ) : List Command := p.map (Command.map fun q => q.div v)
def addPath (p : List Command) (d : Point) : List Command := p.map (Command.map fun q => q.add d)
def subPath (p : List Command) (d : Point) : List Command := p.map (Command.map fun q => q.sub d)

/-- `addPolyline` – hstd_geometry.cpp:54-60 -/
def polyline (p : List Command) : List Point → List Command
  | [] => p
  | a :: r => p ++ .moveTo a :: r.map .lineTo

/-- The variables of `currentPosition`. -/
structure Pen where
  current : Point
  start : Point
  have? : Bool

/-- The body of the loop – hstd_geometry.cpp:68-93 -/
def Pen.step (s : Pen) : Command → Pen
  | .moveTo p => ⟨p, p, true⟩
  | .lineTo p => ⟨p, s.start, true⟩
  | .quadTo _ p => ⟨p, s.start, true⟩
  | .cubicTo _ _ p => ⟨p, s.start, true⟩
  | .close => if s.have? then ⟨s.start, s.start, s.have?⟩ else s

/-- `currentPosition` – hstd_geometry.cpp:62-96 -/
def position (p : List Command) : Point := (p.foldl Pen.step ⟨⟨0, 0⟩, ⟨0, 0⟩, false⟩).current

end Verif.Geometry
