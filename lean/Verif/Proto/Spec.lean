import Verif.Proto.Model

/-!
# Specification of the protobuf conversion

Which values are of a declared type, and what is left of a value without the locations of its nodes.
-/

namespace Verif.Proto

/-- The values of a declared type.  The classes of nodes of which there are objects are those of the table.  With `nils = true` the members that are nodes may be nil. -/
inductive Has (nils : Bool) : FTy → Val → Prop where
  | num (n : Int) : Has nils (.one .num) (.num n)
  | str (s : String) : Has nils (.one .str) (.str s)
  | msg (t : Ty) (fs : List (Fld × Val)) : isNode t = false → fs.map (·.1) = (allMembers t).map (·.1) →
      (∀ f ty v, (f, ty) ∈ allMembers t → (f, v) ∈ fs → Has nils ty v) → Has nils (.one (.msg t)) (.record fs)
  | node (t : Ty) (fs : List (Fld × Val)) : t ∈ anyTable.map (·.2) → fs.map (·.1) = (allMembers t).map (·.1) →
      (∀ f ty v, (f, ty) ∈ allMembers t → (f, v) ∈ fs → Has nils ty v) → Has nils (.one (.node t)) (.node t fs)
  | any (t : Ty) (fs : List (Fld × Val)) : t ∈ anyTable.map (·.2) → fs.map (·.1) = (allMembers t).map (·.1) →
      (∀ f ty v, (f, ty) ∈ allMembers t → (f, v) ∈ fs → Has nils ty v) → Has nils (.one .any) (.node t fs)
  | none (c : Codec) : Has nils (.opt c) .none
  | some (c : Codec) (v : Val) : Has nils (.one c) v → Has nils (.opt c) (.some v)
  | vec (c : Codec) (l : List Val) : (∀ v ∈ l, Has nils (.one c) v) → Has nils (.rep c) (.vec l)
  | map (c : Codec) (l : List (String × Val)) : (l.map (·.1)).Nodup → (∀ k v, (k, v) ∈ l → Has nils (.one c) v) →
      Has nils (.map c) (.map l)
  | alt (l : List Codec) (i : Nat) (c : Codec) (v : Val) : l[i]? = Option.some c → Has nils (.one c) v →
      Has nils (.alts l) (.alt i v)
  | ref (c : Codec) (v : Val) : Has nils (.one c) v → Has nils (.ref c) v
  | nil (c : Codec) : nils = true → Has nils (.ref c) .nil

mutual
  /-- The value without the locations of the nodes in it. -/
  def unlocated : Val → Val
    | .some v => .some (unlocated v)
    | .vec l => .vec (unlocatedL l)
    | .map l => .map (unlocatedM l)
    | .alt i v => .alt i (unlocated v)
    | .node t fs => .node t (unlocatedN fs)
    | .record fs => .record (unlocatedF fs)
    | v => v
  def unlocatedL : List Val → List Val
    | [] => []
    | v :: l => unlocated v :: unlocatedL l
  def unlocatedM : List (String × Val) → List (String × Val)
    | [] => []
    | (k, v) :: l => (k, unlocated v) :: unlocatedM l
  def unlocatedF : List (Fld × Val) → List (Fld × Val)
    | [] => []
    | (f, v) :: l => (f, unlocated v) :: unlocatedF l
  def unlocatedN : List (Fld × Val) → List (Fld × Val)
    | [] => []
    | (f, v) :: l => (f, if f = .loc then .none else unlocated v) :: unlocatedN l
end

end Verif.Proto
