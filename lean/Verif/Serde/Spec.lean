import Verif.Serde.Model

/-!
# Specification of the conversion to and from JSON

Which values are of a type.  With `all = false` the values that JSON cannot tell apart, and those that the code does not
support, are left out.
-/

namespace Verif.Serde

/-- The numbers of an integer type. -/
def InRange (signed : Bool) (bits : Nat) (i : Int) : Prop :=
  if signed then -(2 : Int) ^ (bits - 1) ≤ i ∧ i < (2 : Int) ^ (bits - 1) ∧ 0 < bits else 0 ≤ i ∧ i < (2 : Int) ^ bits

/-- The values of a type.  Only with `all = true`: enumerators without a name, an optional that holds an empty optional or
the JSON value null, `char const*`, variants, elements in immutable sets and maps, and fields which are left out although
they are not empty by default. -/
inductive Has (env : Env) (all : Bool) : Ty → Val → Prop where
  | int (s : Bool) (b : Nat) (i : Int) : InRange s b i → Has env all (.int s b) (.int i)
  | flt (f : Nat) : Has env all .flt (.flt f)
  | str (s : String) : Has env all .str (.str s)
  | cstr (s : String) : all = true → Has env all .cstr (.str s)
  | bool (b : Bool) : Has env all .bool (.bool b)
  | json (j : Json) : Has env all .json (.json j)
  | enum (names : List String) (k : Nat) : names.Nodup → (all = true ∨ k < names.length) → Has env all (.enum names) (.enum k)
  | none (t : Ty) : Has env all (.opt t) .null
  | some (t : Ty) (v : Val) : Has env all t v → (all = true ∨ (v ≠ .null ∧ v ≠ .json .null)) → Has env all (.opt t) (.some v)
  | box (t : Ty) (v : Val) : Has env all t v → Has env all (.box t) v
  | pair (a b : Ty) (x y : Val) : Has env all a x → Has env all b y → Has env all (.pair a b) (.pair x y)
  | slice (a b : Ty) (x y : Val) : Has env all a x → Has env all b y → Has env all (.slice a b) (.pair x y)
  | vec (t : Ty) (l : List Val) : (∀ v ∈ l, Has env all t v) → Has env all (.vec t) (.list l)
  | set (t : Ty) (l : List Val) : l.Nodup → (∀ v ∈ l, Has env all t v) → Has env all (.set t) (.list l)
  | map (a b : Ty) (l : List (Val × Val)) : (l.map (·.1)).Nodup → (∀ k v, (k, v) ∈ l → Has env all a k) →
      (∀ k v, (k, v) ∈ l → Has env all b v) → Has env all (.map a b) (.map l)
  | strMap (t : Ty) (l : List (String × Val)) : (l.map (·.1)).Nodup → (∀ k v, (k, v) ∈ l → Has env all t v) →
      Has env all (.strMap t) (.map (l.map fun e => (.str e.1, e.2)))
  | bimap (a b : Ty) (l : List (Val × Val)) : (l.map (·.1)).Nodup → (l.map (·.2)).Nodup →
      (∀ k v, (k, v) ∈ l → Has env all a k) → (∀ k v, (k, v) ∈ l → Has env all b v) → Has env all (.bimap a b) (.map l)
  | immSet (t : Ty) (l : List Val) : l.Nodup → (all = true ∨ l = []) → (∀ v ∈ l, Has env all t v) → Has env all (.immSet t) (.list l)
  | immMap (a b : Ty) (l : List (Val × Val)) : (l.map (·.1)).Nodup → (all = true ∨ l = []) →
      (∀ k v, (k, v) ∈ l → Has env all a k) → (∀ k v, (k, v) ∈ l → Has env all b v) → Has env all (.immMap a b) (.map l)
  | immId (i : Int) : InRange false 64 i → Has env all .immId (.int i)
  | record (r : Nat) (fs : List (String × Val)) : (((env.recd r).fields).map (·.1)).Nodup →
      fs.map (·.1) = ((env.recd r).fields).map (·.1) → ((env.recd r).defaults).map (·.1) = ((env.recd r).fields).map (·.1) →
      (∀ f t v, (f, t) ∈ (env.recd r).fields → (f, v) ∈ fs → Has env all t v) →
      (all = true ∨ (env.recd r).ex = false ∨ ∀ f v, (f, v) ∈ fs → v = .null ∨ v = .json .null → (f, v) ∈ (env.recd r).defaults) →
      Has env all (.record r) (.record fs)
  | variant (l : List Ty) (i : Nat) (t : Ty) (v : Val) : all = true → l[i]? = Option.some t → Has env all t v →
      Has env all (.variant l) (.alt i v)

end Verif.Serde
