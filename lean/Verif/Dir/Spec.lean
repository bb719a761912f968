import Verif.Dir.Model

/-!
# What parsing a directory should do

Independent of the order of the search: which paths are reachable, which of them hold a document, and which
documents a result contains.
-/

namespace Verif.Dir

/-- The paths a path leads to: the target of a symbolic link to a directory or a file, the entries of a directory -/
def leadsTo (fs : FS) (p : Path) : List Path :=
  if fs.should p then
    if fs.isLink p then
      if fs.isDir (fs.resolve p) || fs.isFile (fs.resolve p) then [fs.resolve p] else []
    else if fs.isDir p then fs.entries p
    else []
  else []

/-- Reachable from a path -/
inductive Reach (fs : FS) (root : Path) : Path → Prop
  | root : Reach fs root root
  | step {p q : Path} : Reach fs root p → q ∈ leadsTo fs p → Reach fs root q

/-- A path that is accepted, and is a plain file with the extension of an Org document -/
def isDocument (fs : FS) (p : Path) : Bool :=
  fs.should p && !fs.isLink p && !fs.isDir p && fs.isFile p && isOrg p

/-- The parser of the file gives a node -/
def hasContent (fs : FS) (p : Path) : Bool :=
  match fs.parse p with
  | some (some _) => true
  | _ => false

mutual
/-- The paths of the `File` nodes with content in a tree -/
def files : Node → List Path
  | .mk info subs fields =>
    (match info with
      | .file _ abs => if subs.isEmpty then [] else [abs]
      | _ => []) ++ (filesAll subs ++ filesAll fields)
/-- The paths of the `File` nodes with content in a list of trees -/
def filesAll : List Node → List Path
  | [] => []
  | x :: xs => files x ++ filesAll xs
end

mutual
/-- All nodes of a tree -/
def nodes : Node → List Node
  | .mk info subs fields => .mk info subs fields :: (nodesAll subs ++ nodesAll fields)
/-- All nodes of a list of trees -/
def nodesAll : List Node → List Node
  | [] => []
  | x :: xs => nodes x ++ nodesAll xs
end

/-- A run with any sufficiently large bound on the recursion depth -/
def Returns {α : Type} (run : Nat → Except Err α) (r : Except Err α) : Prop :=
  r ≠ .error .fuel ∧ ∃ n, ∀ m, n ≤ m → run m = r

end Verif.Dir
