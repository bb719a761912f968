/-!
# Attributes of vertices, edges and ports

Models `src/hstd/ext/graph/base/graph_attribute.hpp`: the list of attributes of
an object of a graph, and its functions for attributes which are there once.
-/

namespace Verif.Attrs

/-- The classes of attributes: `IAttribute`, and which class is another one or
derived from it (what `dynamic_cast` decides, `graph_attribute.hpp:19-22`). -/
structure Classes (Ty : Type) where
  base : Ty
  isA : Ty → Ty → Bool

/-- An attribute: which object it is, and its dynamic type.  `getRepr` and the
serial form are left out. -/
structure Attr (Ty : Type) where
  id : Nat
  ty : Ty
deriving DecidableEq

variable {Ty : Type} [DecidableEq Ty]

/-- `IAttribute::isInstance<T>` (`graph_attribute.hpp:19-22`). -/
def isInstance (k : Classes Ty) (T : Ty) (a : Attr Ty) : Bool := k.isA a.ty T

/-- `getOptionalAttribute<T>` (`graph_attribute.hpp:53-62`). -/
def getOptional (k : Classes Ty) (T : Ty) : List (Attr Ty) → Option (Attr Ty)
  | [] => none
  | a :: r => if isInstance k T a then some a else getOptional k T r

/-- `getAllAttributes<T>` (`graph_attribute.hpp:70-82`). -/
def getAll (k : Classes Ty) (T : Ty) : List (Attr Ty) → List (Attr Ty)
  | [] => []
  | a :: r => if isInstance k T a then a :: getAll k T r else getAll k T r

/-- What `getUniqueAttribute` gives: an attribute, or one of its errors. -/
inductive Found (Ty : Type) where
  | one (a : Attr Ty)
  | two
  | missing

/-- The loop of `getUniqueAttribute<T>` (`graph_attribute.hpp:88-117`) with its
variable `result`. -/
def uniqueLoop (k : Classes Ty) (T : Ty) : Option (Attr Ty) → List (Attr Ty) → Found Ty
  | some a, [] => .one a
  | none, [] => .missing
  | result, a :: r =>
    if isInstance k T a then
      match result with
      | none => uniqueLoop k T (some a) r
      | some _ => .two
    else uniqueLoop k T result r

/-- `getUniqueAttribute<T>` (`graph_attribute.hpp:84-117`). -/
def getUnique (k : Classes Ty) (T : Ty) (as : List (Attr Ty)) : Found Ty := uniqueLoop k T none as

/-- `typeid(attr.get()) == typeid(existing.get())` (`graph_attribute.hpp:123`,
`142`).  Both are pointers, so these are the static types `T*` and
`IAttribute*`: the attributes themselves are not looked at. -/
def sameType (k : Classes Ty) (T : Ty) (_attr _existing : Attr Ty) : Bool := decide (T = k.base)

/-- `addUniqueAttribute<T>` (`graph_attribute.hpp:119-135`) with `addAttribute`
of `TrivialAttributeObject` (`:171-173`); `none` is the exception. -/
def addUnique (k : Classes Ty) (T : Ty) (attr : Attr Ty) (as : List (Attr Ty)) :
    Option (List (Attr Ty)) :=
  if as.any (sameType k T attr) then none else some (as ++ [attr])

/-- `addOrResetUniqueAttribute<T>` (`graph_attribute.hpp:137-149`) with
`setAttributes` (`:175-177`). -/
def addOrReset (k : Classes Ty) (T : Ty) (attr : Attr Ty) (as : List (Attr Ty)) :
    List (Attr Ty) :=
  as.map fun e => if sameType k T attr e then attr else e

/-- An object to which attributes are added one after the other, each with the
type of the pointer it is given by; `none` if one of them throws. -/
def build (k : Classes Ty) : List (Ty × Attr Ty) → List (Attr Ty) → Option (List (Attr Ty))
  | [], as => some as
  | (T, a) :: r, as => (addUnique k T a as).bind (build k r)

end Verif.Attrs
