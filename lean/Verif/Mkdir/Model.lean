/-!
# Model of creating directories – src/hstd/stdlib/Filesystem.cpp

Simplifications, for the whole file:
* A path is absolute or relative, with its names from the last to the first.  Names for other places (`.`, `..`, links) are
  not resolved: what is there is a property of the path.
* The file system does not refuse to create a directory in a directory, and nobody else changes it.
-/

namespace Verif.Mkdir

structure Path where
  absolute : Bool
  names : List String
deriving DecidableEq

/-- What is at a path. -/
inductive Kind where
  | nothing | directory | file
deriving DecidableEq

abbrev Disk := Path → Kind

/-- `path::parent_path` – the library; the root is its own parent, and so is the empty path. -/
def Path.parent (p : Path) : Path := ⟨p.absolute, p.names.tail⟩

/-- `fs::create_directory` – the library: nothing is done for a directory.  `none`: an exception. -/
def create (d : Disk) (p : Path) : Option Disk :=
  match d p with
  | .nothing => some fun q => if q = p then .directory else d q
  | .directory => some d
  | .file => none

/-- `aux` – Filesystem.cpp:80-87 -/
def make (absolute : Bool) : List String → Disk → Option Disk
  | [], d => some d
  | x :: r, d =>
    match make absolute r d with
    | none => none
    | some d => if d ⟨absolute, r⟩ = .directory then create d ⟨absolute, x :: r⟩ else some d

/-- `createDirectory` – Filesystem.cpp:58-89 -/
def createDirectory (d : Disk) (target : Path) (parents existsOk : Bool) : Option Disk :=
  if target = ⟨false, []⟩ then none
  else if d target = .file then none
  else if d target = .directory ∧ ¬ existsOk then none
  else if d target.parent ≠ .directory ∧ ¬ parents then none
  else make target.absolute target.names d

end Verif.Mkdir
