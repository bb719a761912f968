import Verif.Api.Attr

/-!
# Specification: attributes as written

Attributes are written one after another, some with a name (`:name value`). A value without a name belongs to the last name before it.
-/

namespace Verif.Api
open Verif.Strs (Bytes normalize)

/-- The name the attribute number `i` belongs to: the last name written up to and including it. -/
def ownName (args : List AttrValue) (i : Nat) : Option Bytes := ((args.take (i + 1)).filterMap (·.name)).getLast?

/-- The attributes, each with the name it belongs to. -/
def owned (args : List AttrValue) : List AttrValue := args.mapIdx fun i a => { a with name := ownName args i }

/-- Two names are the same up to case and punctuation. -/
def SameName (a b : Bytes) : Prop := normalize a = normalize b

instance (a b : Bytes) : Decidable (SameName a b) := inferInstanceAs (Decidable (_ = _))

/-- The attribute belongs to the name `k` in some spelling. -/
def Belongs (k : Bytes) (a : AttrValue) : Prop := ∃ n, a.name = some n ∧ SameName n k

instance (k : Bytes) (a : AttrValue) : Decidable (Belongs k a) :=
  match h : a.name with
  | none => isFalse (by rintro ⟨n, hn, _⟩; rw [h] at hn; cases hn)
  | some n => if e : SameName n k then isTrue ⟨n, h, e⟩ else isFalse (by rintro ⟨m, hm, hk⟩; rw [h] at hm; cases hm; exact e hk)

end Verif.Api
