import Verif.Api.AttrLemmas
import Mathlib.Data.List.TakeWhile

/-!
# C83, C84: attributes

A group of attributes is read from the attributes as written; they are asked for by name, by variable name, or all together.
-/

namespace Verif.Api
open Verif.Strs (Bytes normalize normalize_idem)

theorem owned_unnamed (args : List AttrValue) :
    ((owned args).filter fun a => a.name.isNone) = args.takeWhile fun a => a.name.isNone := by
  induction args using List.reverseRecOn with
  | nil => rfl
  | append_singleton args a ih =>
    rw [owned_snoc, List.filter_append, ih]
    by_cases h : ∀ b ∈ args, b.name.isNone = true
    · have hf : args.filterMap (·.name) = [] := by
        rw [List.filterMap_eq_nil_iff]
        intro b hb
        simpa using h b hb
      rw [List.takeWhile_append_of_pos h, List.takeWhile_eq_self_iff.mpr h]
      congr 1
      rw [lastName_snoc, hf]
      cases hn : a.name with
      | some n => simp [hn]
      | none =>
        have : ({ a with name := none } : AttrValue) = a := by cases a; simp_all
        simp [hn, this]
    · have hne : args.filterMap (·.name) ≠ [] := by
        intro hf
        apply h
        intro b hb
        rw [List.filterMap_eq_nil_iff] at hf
        simpa using hf b hb
      have ht : (args ++ [a]).takeWhile (fun a => a.name.isNone) = args.takeWhile fun a => a.name.isNone := by
        rw [List.takeWhile_append]
        rw [if_neg]
        intro hl
        apply h
        intro b hb
        have := (List.takeWhile_prefix (p := fun a : AttrValue => a.name.isNone) (l := args)).eq_of_length hl
        exact List.takeWhile_eq_self_iff.mp this b hb
      rw [ht]
      have hs : (((args ++ [a]).filterMap (·.name)).getLast?).isNone = false := by
        rw [Option.isNone_eq_false_iff, List.getLast?_isSome, List.filterMap_append]
        intro hc
        exact hne (List.append_eq_nil_iff.mp hc).1
      simp only [List.filter_cons, hs, List.filter_nil]
      simp

/-- **C83.** For every list of attributes as written: the positional attributes are those before the first name; asking for a name in any
spelling gives, in the written order, exactly the attributes that belong to it; asking for everything gives every attribute once, the
positional ones first; asking for a variable gives every attribute assigned to it; the sizes count them. -/
theorem attrs_read (args : List AttrValue) :
    (readAttrs args).positional = args.takeWhile (fun a => a.name.isNone) ∧
    (∀ k, (readAttrs args).getAttrs (some k) = (owned args).filter fun a => decide (Belongs k a)) ∧
    ((readAttrs args).getAttrs none).Perm (owned args) ∧
    (readAttrs args).positional <+: (readAttrs args).getAttrs none ∧
    (∀ v, ((readAttrs args).atVarNamed v).Perm ((owned args).filter fun a => decide (a.varname = some v))) ∧
    (readAttrs args).getPositionalSize + (readAttrs args).getNamedSize = args.length ∧
    ((readAttrs args).isEmpty = true ↔ args = []) := by
  have h := readAttrs_holds args
  have hsize : (readAttrs args).getPositionalSize + (readAttrs args).getNamedSize = args.length := by
    have := h.flat.length_eq
    rw [List.length_append, List.length_flatMap] at this
    rw [show args.length = (owned args).length by simp [owned]]
    exact this
  refine ⟨h.pos.trans (owned_unnamed args), fun k => ?_, (flatArgs_perm _ h.keys).trans h.flat, List.prefix_append _ _, fun v => ?_, hsize, ?_⟩
  · simp only [AttrGroup.getAttrs]
    rw [← ofKey_belongs]
    have := h.look (normalize k)
    split
    · rename_i items hi
      rw [hi] at this
      split at this
      · cases this
      · cases this; rfl
    · rename_i hi
      rw [hi] at this
      split at this
      · rename_i h'; exact h'.symm
      · cases this
  · unfold AttrGroup.atVarNamed
    refine (List.Perm.append_left _ (flat_lookup h.keys _ (keys_perm _) (List.filter fun a => decide (a.varname = some v)))).trans ?_
    rw [← List.filter_flatMap, ← List.filter_append]
    exact h.flat.filter _
  · unfold AttrGroup.isEmpty
    rw [Bool.and_eq_true, beq_iff_eq, beq_iff_eq, ← List.length_eq_zero_iff]
    omega

/-- What a group answers does not depend on the order in which its map is walked. -/
theorem attrs_order (g g' : AttrGroup) (hk : (g.named.map (·.1)).Nodup) (hp : g.positional = g'.positional) (hn : g.named.Perm g'.named) :
    (∀ k, g.getAttrs k = g'.getAttrs k) ∧ (∀ v, g.atVarNamed v = g'.atVarNamed v) ∧ (∀ k, g.getNamed k = g'.getNamed k) ∧
    g.getNamedSize = g'.getNamedSize := by
  have hl : lookup g.named = lookup g'.named := funext fun k => lookup_perm hk hn k
  have hks : g.keys = g'.keys := by
    unfold AttrGroup.keys
    exact List.Perm.eq_of_pairwise (fun a b _ _ hab hba => List.le_antisymm hab hba) (List.pairwise_insertionSort _ _) (List.pairwise_insertionSort _ _)
      ((List.perm_insertionSort _ _).trans ((hn.map _).trans (List.perm_insertionSort _ _).symm))
  refine ⟨fun k => ?_, fun v => ?_, fun k => congrFun hl k, ?_⟩
  · cases k with
    | none => simp only [AttrGroup.getAttrs, AttrGroup.getFlatArgs, hp, hks, hl]
    | some k => simp only [AttrGroup.getAttrs, hl]
  · simp only [AttrGroup.atVarNamed, hp, hks, hl]
  · exact (hn.map _).sum_nat

/-- `#+attr: pos :Results out file :var x :results raw` -/
def exArgs : List AttrValue :=
  [⟨none, none, .text (ascii "pos")⟩, ⟨some (ascii "Results"), none, .text (ascii "out")⟩, ⟨none, none, .text (ascii "file")⟩,
    ⟨some (ascii "var"), some (ascii "x"), .text (ascii "1")⟩, ⟨some (ascii "results"), none, .text (ascii "raw")⟩]

example : ((readAttrs exArgs).getAttrs (some (ascii "RESULTS"))).map (·.data) = [.text (ascii "out"), .text (ascii "file"), .text (ascii "raw")] := by
  decide +kernel

example : ((readAttrs exArgs).getAttrs none).length = 5 ∧ (readAttrs exArgs).positional.length = 1 := by decide +kernel

/-- **C84.** In full: all the ways to ask for the attributes of a name agree – `getNamed`, `getFirstNamed` and `getAttrs`. -/
def AttrLookupStatement : Prop :=
  ∀ (args : List AttrValue) (k : Bytes),
    ((readAttrs args).getNamed k).getD [] = (readAttrs args).getAttrs (some k) ∧
    (readAttrs args).getFirstNamed k = ((readAttrs args).getAttrs (some k)).head?

/-- The code: `:Results out` is found by `getAttrs("Results")` and not by `getNamed("Results")`. -/
theorem attrLookup_false : ¬ AttrLookupStatement := by
  intro h
  have := (h exArgs (ascii "Results")).2
  revert this
  decide +kernel

/-- For names in normal form – lower-case letters and digits only – they agree on every group. -/
theorem attrs_agree_partial (g : AttrGroup) (k : Bytes) (hk : normalize k = k) :
    (g.getNamed k).getD [] = g.getAttrs (some k) ∧ g.getFirstNamed k = (g.getAttrs (some k)).head? := by
  simp only [AttrGroup.getNamed, AttrGroup.getFirstNamed, AttrGroup.getAttrs]
  rw [hk]
  cases lookup g.named k <;> simp

example : normalize (ascii "results") = ascii "results" := by decide +kernel

/-- What is set under a name is what is got under that name in any spelling, and the other names keep theirs. -/
theorem attrs_set (g : AttrGroup) (k k' : Bytes) (items : List AttrValue) :
    (g.setNamedAttr k items).getAttrs (some k') = if SameName k' k then items else g.getAttrs (some k') := by
  unfold AttrGroup.setNamedAttr AttrGroup.getAttrs SameName
  simp only [lookup_assign]
  by_cases h : normalize k' = normalize k
  · simp [h]
  · simp [h]

end Verif.Api
