import Verif.Dod.Model

/-!
# Model of the source manager

`src/haxorg/lexbase/SourceManager.{hpp,cpp}` over `Store` (32-bit ids without mask)
and `Unordered1to1Bimap` (`src/hstd/ext/bimap_wrap.hpp:54-114`), a set of pairs in
which no left and no right key occurs twice.
-/

namespace Verif.Dod

/-- `SourceFile` – SourceManager.hpp:17-21. -/
structure SourceFile where
  path : String
  content : String
deriving DecidableEq, Repr

/-- `SourceManager` – SourceManager.hpp:23-35. -/
structure SourceManager where
  store : List SourceFile := []
  pathIds : List (String × BitVec 32) := []
deriving DecidableEq, Repr

/-- `get_right` – bimap_wrap.hpp:77-81. -/
def SourceManager.getRight (s : SourceManager) (path : String) : Option (BitVec 32) :=
  (s.pathIds.find? fun e => e.1 = path).map (·.2)

/-- `get_left` – bimap_wrap.hpp:71-75. -/
def SourceManager.getLeft (s : SourceManager) (id : BitVec 32) : Option String :=
  (s.pathIds.find? fun e => e.2 = id).map (·.1)

/-- `getPath` – SourceManager.cpp:4-6, `at_left` – bimap_wrap.hpp:83-91. -/
def SourceManager.getPath (s : SourceManager) (id : BitVec 32) : Except Err String :=
  match s.getLeft id with
  | some p => .ok p
  | none => .error .key

/-- `getId` – SourceManager.cpp:47-49, `at_right` – bimap_wrap.hpp:93-100. -/
def SourceManager.getId (s : SourceManager) (path : String) : Except Err (BitVec 32) :=
  match s.getRight path with
  | some id => .ok id
  | none => .error .key

/-- `getSourceContent` – SourceManager.cpp:8-11. -/
def SourceManager.getSourceContent (s : SourceManager) (id : BitVec 32) : Except Err String := do
  let f ← Store.at 0 s.store id
  .ok f.content

/-- `getContentTextForPath` – SourceManager.cpp:13-16. -/
def SourceManager.getContentTextForPath (s : SourceManager) (path : String) :
    Except Err String := do
  let id ← s.getId path
  let f ← Store.at 0 s.store id
  .ok f.content

/-- The first assertion of `addSource` – SourceManager.cpp:22-28. -/
def SourceManager.sameContent (s : SourceManager) (path content : String) : Except Err Bool :=
  match s.getRight path with
  | none => .ok true
  | some id => do
    let f ← Store.at 0 s.store id
    .ok (decide (f.content = content))

/-- `addSource` – SourceManager.cpp:18-45. -/
def SourceManager.addSource (s : SourceManager) (path content : String) :
    Except Err (SourceManager × BitVec 32) := do
  let same ← s.sameContent path content
  if same then
    match s.getRight path with
    | some id => .ok (s, id)
    | none => do
      let (store, id) ← Store.add 32 0 s.store ⟨path, content⟩
      if (s.getLeft id).isSome then .error .assertion
      else .ok ({ store := store, pathIds := s.pathIds ++ [(path, id)] }, id)
  else .error .assertion

/-- One `addSource` call whose exception, if any, is caught by the caller.  The
store is changed before the second assertion only in states that are not reachable;
the first one fails before any change. -/
def SourceManager.step (s : SourceManager) (op : String × String) : SourceManager :=
  match s.addSource op.1 op.2 with
  | .ok (s', _) => s'
  | .error _ => s

/-- The state after a history of `addSource` calls. -/
def SourceManager.run (s : SourceManager) (ops : List (String × String)) : SourceManager :=
  ops.foldl SourceManager.step s

end Verif.Dod
