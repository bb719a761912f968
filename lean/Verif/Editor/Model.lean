/-!
# Model of the history of edited documents – src/app/org_imgui/gui_lib/im_org_ui_common.{hpp,cpp}

Simplifications, for the whole file:
* A tree (`ImmUniqId`) is a number.  An edit of the trees (`ImmAstVersion`) is the map of those it replaces (`epoch->replaced`);
  what edits do to trees is in `Verif/Imm`.
* An id of a root (`DocRootId`) is the pair of its mask, which is the version, and its index.  Numbers are unbounded.
* `none` is an exception.
-/

namespace Verif.Editor

/-- `DocRootId` – im_org_ui_common.hpp:101 -/
structure RootId where
  version : Nat
  index : Nat
deriving DecidableEq

/-- `History` – im_org_ui_common.hpp:121-154 -/
structure Version where
  roots : List Nat
  transition : Nat → Option Nat

/-- `History(ctx)` – im_org_ui_common.hpp:145-148 -/
def Version.empty : Version := ⟨[], fun _ => none⟩

/-- `transition.insert_or_assign` -/
def assign (f : Nat → Option Nat) (k v : Nat) : Nat → Option Nat := fun i => if i = k then some v else f i

/-- The loop that assigns `i` to `i` – im_org_ui_common.cpp:319-328, 342 -/
def assignAll (f : Nat → Option Nat) (n : Nat) : Nat → Option Nat :=
  match n with
  | 0 => f
  | n + 1 => assign (assignAll f n) n n

/-- `withNewVersion` – im_org_ui_common.cpp:312-334 -/
def Version.withNew (v : Version) (replaced : List (Nat × Nat)) : Version :=
  ⟨v.roots.map fun r => match replaced.lookup r with
      | some r1 => r1
      | none => r,
   assignAll (fun _ => none) v.roots.length⟩

/-- `History::addRoot`: a new tree replaces no other – im_org_ui_common.cpp:336-343 -/
def Version.addRoot (v : Version) (root : Nat) : Version × Nat :=
  let res := v.withNew []
  let roots := res.roots ++ [root]
  (⟨roots, assignAll res.transition roots.length⟩, roots.length - 1)

/-- `EditableOrgDocGroup(ctx)` – im_org_ui_common.hpp:158-163 -/
def start : List Version := [.empty]

/-- `addRoot` – im_org_ui_common.cpp:167-177 -/
def addRoot (h : List Version) (root : Nat) : Option (List Version × RootId) :=
  match h.getLast? with
  | none => none
  | some current =>
    let r := current.addRoot root
    some (h ++ [r.1], ⟨h.length, r.2⟩)

/-- `resetWith` – im_org_ui_common.hpp:165-168 -/
def resetWith (_ : List Version) (root : Nat) : Option (List Version × RootId) := addRoot [] root

/-- `extendHistory` – im_org_ui_common.hpp:172-179.  The result is the history, and the new version if there is one. -/
def extend (h : List Version) (replaced : List (Nat × Nat)) : Option (List Version × Option Nat) :=
  if replaced.isEmpty then some (h, none)
  else match h.getLast? with
    | none => none
    | some current => some (h ++ [current.withNew replaced], some h.length)

/-- `getLatest` – im_org_ui_common.cpp:179-181 -/
def getLatest (h : List Version) (id : RootId) : RootId := ⟨h.length - 1, id.version⟩

/-- `getRoot` – im_org_ui_common.hpp:201-203 -/
def getRoot (h : List Version) (id : RootId) : Option Nat := do
  let v ← h[id.version]?
  v.roots[id.index]?

/-- `RootGroup` – im_org_ui_common.hpp:108-119 -/
structure Group where
  version : Nat
  roots : List RootId
deriving DecidableEq

/-- The constructor of `RootGroup` – im_org_ui_common.cpp:359-379 -/
def Group.make (version : Nat) (roots : List RootId) : Option Group :=
  if roots.all fun r => r.version = version then some ⟨version, roots⟩ else none

/-- `!maxVersion || historyIndex <= maxVersion` – im_org_ui_common.cpp:192 -/
def allowed (maxVersion : Option Nat) (version : Nat) : Bool :=
  match maxVersion with
  | none => true
  | some m => version ≤ m

/-- The loop of `migrate`, with as many steps as there can be – im_org_ui_common.cpp:191-217 -/
def migrateLoop (h : List Version) (maxVersion : Option Nat) (steps : Nat) (prev : Group) : Option Group :=
  match steps with
  | 0 => some prev
  | steps + 1 =>
    if prev.version + 1 < h.length ∧ allowed maxVersion prev.version then
      let next := prev.version + 1
      match h[next]? with
      | none => none
      | some v =>
        let updated := prev.roots.filterMap fun item => (v.transition item.index).map fun i => (⟨next, i⟩ : RootId)
        match Group.make next updated with
        | none => none
        | some upd => migrateLoop h maxVersion steps upd
    else some prev

/-- `migrate` – im_org_ui_common.cpp:183-220.  An empty option is `some none`. -/
def migrate (h : List Version) (prev : Group) (maxVersion : Option Nat) : Option (Option Group) :=
  if prev.version + 1 = h.length then some none else (migrateLoop h maxVersion h.length prev).map some

end Verif.Editor
