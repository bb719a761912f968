import Verif.Diff.Model
import Mathlib.Data.List.Basic

/-!
# What it means for an edit script to turn one sequence into another
-/

namespace Verif.Diff

/-- Source position an edit consumes. -/
def Edit.source? (e : Edit) : Option Int :=
  match e.kind with
  | .keep | .delete | .replace => some e.sourcePos
  | _ => none

/-- Target position an edit produces. -/
def Edit.target? (e : Edit) : Option Int :=
  match e.kind with
  | .keep | .insert | .replace => some e.targetPos
  | _ => none

/-- `0, 1, …, n-1` -/
def upTo (n : Nat) : List Int := (List.range n).map fun (i : Nat) => (i : Int)

/-- A script of keeps, deletions, insertions and replacements that goes through all `n`
source positions in order, all `m` target positions in order, and keeps only pairs of
positions related by `cmp`. -/
structure Script (n m : Nat) (cmp : Nat → Nat → Bool) (h : List Edit) : Prop where
  kinds : ∀ e ∈ h, e.kind = .keep ∨ e.kind = .delete ∨ e.kind = .insert ∨ e.kind = .replace
  sources : h.filterMap Edit.source? = upTo n
  targets : h.filterMap Edit.target? = upTo m
  keeps : ∀ e ∈ h, e.kind = .keep → cmp e.sourcePos.toNat e.targetPos.toNat = true

/-- Number of edits that are not keeps. -/
def cost (h : List Edit) : Nat := h.countP fun e => decide (e.kind ≠ .keep)

/-- Applying a script: kept elements come from the source, inserted and replacing ones
from the target. -/
def apply {α : Type} (a b : List α) (h : List Edit) : List α :=
  h.filterMap fun e =>
    match e.kind with
    | .keep => a[e.sourcePos.toNat]?
    | .insert | .replace => b[e.targetPos.toNat]?
    | _ => none

/-- The comparison of the elements of two sequences. -/
def eqAt {α : Type} [DecidableEq α] (a b : List α) (i j : Nat) : Bool := decide (a[i]? = b[j]?)

/-- A script applied to its source gives its target. -/
theorem Script.apply_eq {α : Type} [DecidableEq α] {a b : List α} {h : List Edit}
    (hs : Script a.length b.length (eqAt a b) h) : apply a b h = b := by
  have h1 : apply a b h = (h.filterMap Edit.target?).filterMap fun j => b[j.toNat]? := by
    unfold apply
    rw [List.filterMap_filterMap]
    apply List.filterMap_congr
    intro e he
    have hk := hs.kinds e he
    have hkeep := hs.keeps e he
    unfold Edit.target?
    rcases hk with h' | h' | h' | h' <;> rw [h'] <;> simp only [Option.bind_some, Option.bind_none]
    have := hkeep h'
    simpa [eqAt] using this
  rw [h1, hs.targets]
  unfold upTo
  rw [List.filterMap_map]
  have : ∀ b : List α, (List.range b.length).filterMap (fun i => b[i]?) = b := by
    intro b
    induction b with
    | nil => rfl
    | cons x xs ih =>
      rw [List.length_cons, List.range_succ_eq_map, List.filterMap_cons]
      simp only [List.getElem?_cons_zero, List.filterMap_map]
      congr 1
  have h2 := this b
  simpa [Function.comp_def] using h2

end Verif.Diff
