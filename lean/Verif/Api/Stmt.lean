import Verif.Api.AttrProps

/-!
# C88: attributes of statements and commands

Model of `src/haxorg/sem/SemOrgSharedApi.cpp:404-436, 552-662` and its properties: lines such as `#+attr_html: :width 5`, `#+name: x` and
`#+caption: …` are attached to the statement below them; commands and blocks have attributes of their own as well.
-/

namespace Verif.Api
open Verif.Strs (Bytes normalize normalize_idem)

/-- A node attached to a statement. -/
inductive Attached where
  /-- `CmdAttr` – `#+attr_target: …` -/
  | attr (target : Bytes) (attrs : AttrGroup)
  /-- `CmdCaption` – the text is a node, here its number -/
  | caption (text : Nat)
  /-- `CmdName` -/
  | name (name : Bytes)
  /-- any other -/
  | other (node : Nat)
deriving DecidableEq, Repr

/-- `Stmt_getAttrs` – SemOrgSharedApi.cpp:419-436 -/
def stmtGetAttrs (attached : List Attached) (k : Option Bytes) : List AttrValue :=
  attached.flatMap fun
    | .attr _ g => g.getAttrs k
    | _ => []

/-- `Stmt_getFirstAttr` – SemOrgSharedApi.cpp:562-572 -/
def stmtGetFirstAttr (attached : List Attached) (k : Bytes) : Option AttrValue :=
  match stmtGetAttrs attached (some k) with
  | [] => none
  | a :: _ => some a

/-- A command or block: its own attributes, and what is attached to it. -/
structure Command where
  attrs : AttrGroup
  attached : List Attached
deriving DecidableEq, Repr

/-- `isBoolFalse(h->attrs)`: `value_metadata<AttrGroup>::isEmpty` is the general one – basic_templates.hpp:92-95. -/
def isBoolFalse (_ : AttrGroup) : Bool := false

/-- `Cmd_getAttrs` – SemOrgSharedApi.cpp:552-560 -/
def Command.getAttrs (c : Command) (k : Option Bytes) : List AttrValue :=
  (if isBoolFalse c.attrs then [] else c.attrs.getAttrs k) ++ stmtGetAttrs c.attached k

/-- `Cmd_getFirstAttr` – SemOrgSharedApi.cpp:574-587 -/
def Command.getFirstAttr (c : Command) (k : Bytes) : Option AttrValue :=
  if isBoolFalse c.attrs then stmtGetFirstAttr c.attached k
  else
    match c.attrs.getAttrs (some k) with
    | [] => none
    | a :: _ => some a

/-- `getVariable` of code blocks – SemOrgSharedApi.cpp:1158-1164 -/
def Command.getVariable (c : Command) (v : Bytes) : Option AttrValue :=
  (c.getAttrs (some (ascii "var"))).find? fun a => decide (a.varname = some v)

/-- The condition in `Stmt_getAttached` – SemOrgSharedApi.cpp:600-615 -/
def Attached.isKind (k : Bytes) : Attached → Bool
  | .attr target _ =>
    (decide (ascii "attr" <+: k) && decide (normalize target = k)) || decide (normalize (ascii "attr_" ++ target) = k)
  | .caption _ => decide (normalize k = ascii "caption")
  | .name _ => decide (normalize k = ascii "name")
  | .other _ => false

/-- `Stmt_getAttached` – SemOrgSharedApi.cpp:589-621 -/
def stmtGetAttached (attached : List Attached) : Option Bytes → List Attached
  | some kind => attached.filter (Attached.isKind (normalize kind))
  | none => attached

/-- `Stmt_getCaption` – SemOrgSharedApi.cpp:623-637 -/
def stmtGetCaption (attached : List Attached) : List Nat :=
  (stmtGetAttached attached (some (ascii "caption"))).filterMap fun
    | .caption t => some t
    | _ => none

/-- `Stmt_getName` – SemOrgSharedApi.cpp:639-651 -/
def stmtGetName (attached : List Attached) : List Bytes :=
  (stmtGetAttached attached (some (ascii "name"))).filterMap fun
    | .name n => some n
    | _ => none

/-- `List_getListAttrs` – SemOrgSharedApi.cpp:653-663 -/
def getListAttrs (attached : List Attached) (k : Bytes) : List AttrValue :=
  (stmtGetAttached attached (some (ascii "attr_list"))).flatMap fun
    | .attr _ g => g.getAttrs (some k)
    | _ => []

/-! ## Specification -/

/-- A line attached to a statement, as written. -/
inductive Line where
  | attr (target : Bytes) (args : List AttrValue)
  | caption (text : Nat)
  | name (name : Bytes)
  | other (node : Nat)

/-- What is read from it. -/
def Line.read : Line → Attached
  | .attr t args => .attr t (readAttrs args)
  | .caption t => .caption t
  | .name n => .name n
  | .other n => .other n

/-- The attributes on the line. -/
def Line.args : Line → List AttrValue
  | .attr _ args => owned args
  | _ => []

/-- A line `#+attr_target:` for the given target, in some spelling. -/
def Line.Targets (target : Bytes) : Line → Prop
  | .attr t _ => SameName t target
  | _ => False

instance (target : Bytes) : (l : Line) → Decidable (l.Targets target)
  | .attr _ _ => inferInstanceAs (Decidable (SameName _ _))
  | .caption _ => isFalse id
  | .name _ => isFalse id
  | .other _ => isFalse id

/-! ## Properties -/

/-- **C88.** Asking a statement for the attributes of a name gives, line by line, the attributes that belong to it. -/
theorem stmt_attrs (lines : List Line) (k : Bytes) :
    stmtGetAttrs (lines.map Line.read) (some k) = (lines.flatMap Line.args).filter (fun a => decide (Belongs k a)) ∧
    stmtGetFirstAttr (lines.map Line.read) k = ((lines.flatMap Line.args).filter fun a => decide (Belongs k a)).head? := by
  have h1 : stmtGetAttrs (lines.map Line.read) (some k) = (lines.flatMap Line.args).filter (fun a => decide (Belongs k a)) := by
    unfold stmtGetAttrs
    rw [List.flatMap_map, List.filter_flatMap]
    apply List.flatMap_congr
    intro l _
    cases l with
    | attr t args => exact (attrs_read args).2.1 k
    | _ => rfl
  refine ⟨h1, ?_⟩
  unfold stmtGetFirstAttr
  rw [h1]
  cases (lines.flatMap Line.args).filter fun a => decide (Belongs k a) <;> rfl

/-- **C88.** Names and captions are those of the attached lines, in order. -/
theorem stmt_names (lines : List Line) :
    stmtGetName (lines.map Line.read) = (lines.filterMap fun | .name n => some n | _ => none) ∧
    stmtGetCaption (lines.map Line.read) = (lines.filterMap fun | .caption n => some n | _ => none) := by
  have h1 : normalize (normalize (ascii "name")) = ascii "name" := by decide +kernel
  have h2 : normalize (normalize (ascii "caption")) = ascii "caption" := by decide +kernel
  constructor
  · unfold stmtGetName stmtGetAttached
    simp only [List.filterMap_filter, List.filterMap_map]
    apply List.filterMap_congr
    intro l _
    cases l with
    | name n => simp [Line.read, Attached.isKind, h1]
    | attr t a => simp only [Function.comp_apply, Line.read]; exact ite_self _
    | caption t => simp only [Function.comp_apply, Line.read]; exact ite_self _
    | other t => simp [Line.read, Attached.isKind]
  · unfold stmtGetCaption stmtGetAttached
    simp only [List.filterMap_filter, List.filterMap_map]
    apply List.filterMap_congr
    intro l _
    cases l with
    | caption n => simp [Line.read, Attached.isKind, h2]
    | attr t a => simp only [Function.comp_apply, Line.read]; exact ite_self _
    | name t => simp only [Function.comp_apply, Line.read]; exact ite_self _
    | other t => simp [Line.read, Attached.isKind]

theorem normalize_append (a b : Bytes) : normalize (a ++ b) = normalize a ++ normalize b := by
  unfold normalize; exact List.filterMap_append

/-- The lines `#+attr_target:` are found under `attr_target` in any spelling. -/
theorem attached_attr (lines : List Line) (target : Bytes)
    (h : ∀ t args, Line.attr t args ∈ lines → normalize t ≠ normalize (ascii "attr_" ++ target)) :
    stmtGetAttached (lines.map Line.read) (some (ascii "attr_" ++ target)) = (lines.filter fun l => decide (l.Targets target)).map Line.read := by
  have hc : ascii "caption" = [99, 97, 112, 116, 105, 111, 110] := by decide +kernel
  have hn : ascii "name" = [110, 97, 109, 101] := by decide +kernel
  have ha : normalize (ascii "attr_") = [97, 116, 116, 114] := by decide +kernel
  unfold stmtGetAttached
  simp only
  rw [List.filter_map]
  congr 1
  apply List.filter_congr
  intro l hl
  rw [Bool.eq_iff_iff, decide_eq_true_iff]
  cases l with
  | attr t args =>
    have h' := h t args hl
    simp only [Function.comp_apply, Line.read, Attached.isKind, Line.Targets, SameName, h', decide_false, Bool.and_false, Bool.false_or,
      decide_eq_true_eq]
    rw [normalize_append, normalize_append]
    exact List.append_cancel_left_eq ..  |>.to_iff
  | caption n =>
    simp only [Function.comp_apply, Line.read, Attached.isKind, Line.Targets, normalize_idem, decide_eq_true_eq, iff_false]
    rw [normalize_append, ha, hc]
    simp
  | name n =>
    simp only [Function.comp_apply, Line.read, Attached.isKind, Line.Targets, normalize_idem, decide_eq_true_eq, iff_false]
    rw [normalize_append, ha, hn]
    simp
  | other n => simp [Line.read, Attached.isKind, Line.Targets]

/-- The attributes of a list are those of the lines `#+attr_list:`. -/
theorem list_attrs (lines : List Line) (k : Bytes)
    (h : ∀ t args, Line.attr t args ∈ lines → normalize t ≠ normalize (ascii "attr_" ++ ascii "list")) :
    getListAttrs (lines.map Line.read) k =
      ((lines.filter fun l => decide (l.Targets (ascii "list"))).flatMap Line.args).filter fun a => decide (Belongs k a) := by
  unfold getListAttrs
  have hs : ascii "attr_list" = ascii "attr_" ++ ascii "list" := by decide +kernel
  rw [hs, attached_attr lines (ascii "list") h, List.flatMap_map, List.filter_flatMap]
  apply List.flatMap_congr
  intro l hl
  have := of_decide_eq_true (List.mem_filter.1 hl).2
  cases l with
  | attr t args => exact (attrs_read args).2.1 k
  | _ => exact this.elim

/-- **C88.** Asking a command for the attributes of a name gives its own ones, and then those of the attached lines. -/
theorem cmd_attrs (args : List AttrValue) (lines : List Line) (k : Bytes) :
    (Command.mk (readAttrs args) (lines.map Line.read)).getAttrs (some k) =
      (owned args ++ lines.flatMap Line.args).filter fun a => decide (Belongs k a) := by
  unfold Command.getAttrs
  rw [(stmt_attrs lines k).1, List.filter_append]
  simp only [isBoolFalse, Bool.false_eq_true, if_false]
  rw [(attrs_read args).2.1 k]

/-- A variable of a code block is looked for among all attributes called `var`, own or attached. -/
theorem cmd_variable (args : List AttrValue) (lines : List Line) (v : Bytes) :
    (Command.mk (readAttrs args) (lines.map Line.read)).getVariable v =
      (owned args ++ lines.flatMap Line.args).find? fun a => decide (Belongs (ascii "var") a ∧ a.varname = some v) := by
  unfold Command.getVariable
  rw [cmd_attrs, List.find?_filter]
  congr 1
  funext a
  by_cases h1 : Belongs (ascii "var") a <;> by_cases h2 : a.varname = some v <;> simp [h1, h2]

/-- In full: the first attribute of a name is the first of all attributes of the name. -/
def FirstAttrStatement : Prop := ∀ (c : Command) (k : Bytes), c.getFirstAttr k = (c.getAttrs (some k)).head?

/-- `#+attr_html: :width 5` above a code block without attributes. -/
def exBlock : Command :=
  ⟨readAttrs [], [Line.attr (ascii "html") [⟨some (ascii "width"), none, .text (ascii "5")⟩]].map Line.read⟩

/-- The code: lines attached to commands and blocks are not looked at. -/
theorem firstAttr_false : ¬ FirstAttrStatement := by
  intro h
  have := h exBlock (ascii "width")
  revert this
  decide +kernel

/-- When the command has an attribute of that name itself, or no attached line has, then the first one is found. -/
theorem first_attr_partial (c : Command) (k : Bytes) (h : c.attrs.getAttrs (some k) ≠ [] ∨ stmtGetAttrs c.attached (some k) = []) :
    c.getFirstAttr k = (c.getAttrs (some k)).head? := by
  unfold Command.getFirstAttr Command.getAttrs
  simp only [isBoolFalse, Bool.false_eq_true, if_false]
  rcases h with h | h
  · cases h' : c.attrs.getAttrs (some k) with
    | nil => exact absurd h' h
    | cons a l => rfl
  · rw [h, List.append_nil]
    cases c.attrs.getAttrs (some k) <;> rfl

example : (exBlock.getAttrs (some (ascii "WIDTH"))).length = 1 ∧ (Command.mk (readAttrs exArgs) []).getFirstAttr (ascii "results") ≠ none := by
  decide +kernel

end Verif.Api
