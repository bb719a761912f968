/-!
# The explorer of directories

Models `src/app/org_imgui/gui_lib/dir_explorer.cpp`: the tree of directories
and files it shows, and when files are read.
-/

namespace Verif.Explorer

abbrev Name := List Char

/-- What a directory has: directories, regular files with their contents, and
others.  Links to directories are not followed here (in the program they are
directories). -/
inductive Entry where
  | dir (name : Name) (sub : List Entry)
  | file (name : Name) (content : String)
  | other (name : Name)

/-- `DirNode` (`dir_explorer.cpp:169-173`): the names from the root, the files
with their contents (`FileNode`, here what `getFileNode` gives) and the
directories.  `readme` is never set. -/
inductive Node where
  | mk (relative : List Name) (files : List (List Name × String)) (nested : List Node)

/-- `DirNode::empty` (`dir_explorer.cpp:175`). -/
def Node.empty : Node → Bool
  | .mk _ files nested => files.isEmpty && nested.isEmpty

/-- The text of a relative path, as `fs::relative` gives it
(`dir_explorer.cpp:191`): `.` for the root. -/
def text : List Name → List Char
  | [] => ['.']
  | [n] => n
  | n :: m :: r => n ++ '/' :: text (m :: r)

/-- The test for directories that are not loaded (`dir_explorer.cpp:198`). -/
def skipped (rel : List Name) : Bool :=
  (text rel).head? == some '.' && decide (2 < (text rel).length)

/-- `extension() == ".org"` (`dir_explorer.cpp:207`): the part from the last
point on, which is not an extension if nothing is before it. -/
def isOrg (n : Name) : Bool := decide (4 < n.length) && decide (n.drop (n.length - 4) = ".org".toList)

/-- The files of a directory (`dir_explorer.cpp:207-209`). -/
def filesOf (rel : List Name) (es : List Entry) : List (List Name × String) :=
  es.filterMap fun
    | .file n c => if isOrg n then some (rel ++ [n], c) else none
    | _ => none

mutual
/-- The directory of an entry, if it is shown (`dir_explorer.cpp:189-213`). -/
def nodeOf (rel : List Name) : Entry → Option Node
  | .dir n sub =>
    let x := if skipped (rel ++ [n]) then .mk (rel ++ [n]) [] []
      else .mk (rel ++ [n]) (filesOf (rel ++ [n]) sub) (nodesOf (rel ++ [n]) sub)
    if x.empty then none else some x
  | .file _ _ => none
  | .other _ => none
/-- The loop over the entries, for directories (`dir_explorer.cpp:203-206`). -/
def nodesOf (rel : List Name) : List Entry → List Node
  | [] => []
  | e :: r => (nodeOf rel e).toList ++ nodesOf rel r
end

/-- `from_dir` for the root (`dir_explorer.cpp:330`). -/
def fromRoot (es : List Entry) : Node :=
  if skipped [] then .mk [] [] [] else .mk [] (filesOf [] es) (nodesOf [] es)

/-- `DirContext` (`dir_explorer.cpp:29-35`), as far as it is about files: the
times known, the nodes kept, and, for the claims, the files that were parsed.
A node is the content it was made of.  `parser` says if `parseContext` is
set. -/
structure Ctx where
  parser : Bool := true
  states : List (String × Nat) := []
  cache : List (String × String) := []
  parsed : List String := []

/-- `hadChanges` (`dir_explorer.cpp:37-44`). -/
def hadChanges (c : Ctx) (path : String) (modified : Nat) : Bool :=
  match c.states.lookup path with
  | some old => decide (old < modified)
  | none => true

/-- `getFileNode` (`dir_explorer.cpp:113-124`), for a file with the time and the
content it has now; nothing if a null pointer is used or `at` throws. -/
def getFileNode (c : Ctx) (path : String) (modified : Nat) (content : String) : Ctx × Option String :=
  if hadChanges c path modified then
    if c.parser then
      let c := { c with cache := (path, content) :: c.cache, parsed := c.parsed ++ [path] }
      (c, c.cache.lookup path)
    else (c, none)
  else (c, c.cache.lookup path)

/-- The context of `dir_explorer_loop` (`dir_explorer.cpp:326-329`): `ctx` and
`root` are set, and `parseContext` is not. -/
def loopCtx : Ctx := { parser := false }

/-- Calls one after the other, each with the time and the content the file has
then. -/
def calls (c : Ctx) (l : List (String × Nat × String)) : Ctx :=
  l.foldl (fun c x => (getFileNode c x.1 x.2.1 x.2.2).1) c

end Verif.Explorer
