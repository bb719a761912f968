import Verif.Log.Spec
import Verif.Stamp.Convert
import Mathlib.Tactic.SplitIfs

/-!
# From the text of an entry to the nodes of its paragraph
-/

namespace Verif.Log
open Verif.NodeGroup Verif.NodeGroup.Spec
open Verif.Parser (NK)
open Verif.Token (TK Tok)
open Verif.Pipeline (tokAt Piece)
open Verif.Sem (LK children groupsF children_tree groupsF_append)
open Verif.Stamp (Item Stamp Out Found Dated DatedFrom docRaw docF itemF render Shows said)

def pieceKind : Piece → LK
  | .word w => if ∀ c ∈ w, ('A' ≤ c ∧ c ≤ 'Z') ∨ c = '_' then .BigIdent else .Word
  | .number _ => .Word
  | .gap _ => .Space
  | .brk _ => .Newline
  | _ => .Punctuation

def itemPart : Item → Part
  | .piece p => .leaf (pieceKind p) p.text
  | .stamp s => if s.Real then .time s.time else .other
  | .range a b => .range a.time b.time

theorem leaf_kind (p : Piece) : Sem.leafKind p.leafKind = some (pieceKind p) := by
  cases p <;> simp only [Piece.leafKind, pieceKind]
  case word w => split_ifs <;> rfl
  all_goals rfl

theorem parts_append {toks : List Tok} {a b : List Sem.Adapter} {x y : List Part} (ha : partsOf toks a = .ok x) (hb : partsOf toks b = .ok y) :
    partsOf toks (a ++ b) = .ok (x ++ y) := by
  induction a generalizing x with
  | nil => cases ha; exact hb
  | cons p a ih =>
    rw [partsOf] at ha
    rw [List.cons_append, partsOf]
    cases h1 : partOf toks p with
    | ok z =>
      rw [h1] at ha
      cases h2 : partsOf toks a with
      | ok w =>
        rw [h2] at ha
        cases ha
        simp only [Out.bind, ih h2]
        rfl
      | _ => rw [h2] at ha; cases ha
    | _ => rw [h1] at ha; cases ha

theorem part_time {toks : List Tok} {k : NK} (hk : k ∈ Stamp.timeKinds) (v : Val Unit) (r : List (Node NK Unit)) :
    partOf toks (⟨k, v⟩ :: r) = match Stamp.convertFound toks (⟨k, v⟩ :: r) with
        | .ok (.time t) => .ok (.time t)
        | .ok (.range x y) => .ok (.range x y)
        | .bad => .ok .other
        | .throws => .throws
        | .outside => .ok .dynamic := by
  have : Sem.leafKind k = none := by
    revert hk
    cases k <;> decide
  unfold partOf
  simp only [this, if_pos hk]
  rfl

theorem parts_items {toks : List Tok} {is : List Item} {b : Bool} (h : DatedFrom b is) (hr : ∀ x y, Item.range x y ∈ is → x.Real ∧ y.Real) :
    ∀ i, Shows toks i (said (docRaw is)) → partsOf toks (groupsF (docF i is)) = .ok (is.map itemPart) := by
  induction is generalizing b with
  | nil => intro i _; rfl
  | cons it r ih =>
    intro i hs
    have e : said (docRaw (it :: r)) = said it.raw ++ said (docRaw r) := by simp [docRaw, said]
    rw [e] at hs
    have h2 := hs.right
    rw [Stamp.said_length] at h2
    rw [docF, groupsF_append, List.map_cons]
    have hr' : ∀ x y, Item.range x y ∈ r → x.Real ∧ y.Real := fun x y h => hr x y (List.mem_cons_of_mem _ h)
    cases it with
    | piece p =>
      obtain ⟨-, -, -, -, -, h6⟩ := h
      refine parts_append (x := [itemPart (.piece p)]) ?_ (ih h6 hr' _ h2)
      obtain ⟨t, h3, h4⟩ := hs.left 0 p.text rfl
      simp only [Nat.add_zero] at h3
      simp only [itemF, groupsF, partsOf, partOf, leaf_kind, h3, h4]
      rfl
    | stamp s =>
      obtain ⟨h1, -, -, h4⟩ := h
      refine parts_append (x := [itemPart (.stamp s)]) ?_ (ih h4 hr' _ h2)
      have hc := Stamp.convert_single h1 hs.left
      rw [Stamp.stamp_count] at hc
      simp only [itemF, Stamp.stampF, groupsF, partsOf]
      have hk : Stamp.stampKind s ∈ Stamp.timeKinds := by unfold Stamp.stampKind; split <;> decide
      have := part_time (toks := toks) hk (.ext (Stamp.partsF i s).count) (Stamp.partsF i s).flat
      rw [hc] at this
      rw [this]
      by_cases hreal : s.Real <;> simp [itemPart, hreal, Out.bind]
    | range x y =>
      obtain ⟨h1, h2', -, -, h5⟩ := h
      refine parts_append (x := [itemPart (.range x y)]) ?_ (ih h5 hr' _ h2)
      have hc := Stamp.convert_range h1 h2' hs.left
      obtain ⟨c, e1, -⟩ := Stamp.range_flat i x y
      rw [e1] at hc
      have hreal := hr x y List.mem_cons_self
      rw [if_pos hreal] at hc
      have hg : groupsF (itemF i (.range x y)) = [⟨NK.TimeRange, .ext c.count⟩ :: c.flat] := by
        have : groupsF (itemF i (.range x y)) = [(itemF i (.range x y)).flat] := by
          simp [itemF, groupsF, Forest.flat]
        rw [this, e1]
      rw [hg]
      have := part_time (toks := toks) (show NK.TimeRange ∈ Stamp.timeKinds by decide) (.ext c.count) c.flat
      rw [hc] at this
      simp only [partsOf, this]
      rfl

/-- The entry of a text. -/
theorem read_items {is : List Item} (h : Dated is) (hr : ∀ x y, Item.range x y ∈ is → x.Real ∧ y.Real) {n : Nat} (hn : (docRaw is).length + 4 ≤ n) :
    readEntry n (render is) = .ok (convertLog (some (((is.map itemPart).reverse.dropWhile Part.isBlank).reverse, []))) := by
  unfold readEntry
  rw [Stamp.dated_nodes h hn]
  simp only
  have e : children ((Forest.tree NK.StmtList (.tree .Paragraph (docF 1 is) .nil) .nil : Forest NK Unit).flat) =
      [⟨.Paragraph, .ext (docF 1 is).count⟩ :: (docF 1 is).flat] := by
    have : (Forest.tree NK.StmtList (.tree .Paragraph (docF 1 is) .nil) .nil : Forest NK Unit).flat =
        ⟨.StmtList, .ext (Forest.tree NK.Paragraph (docF 1 is) .nil : Forest NK Unit).count⟩ :: (Forest.tree NK.Paragraph (docF 1 is) .nil : Forest NK Unit).flat := by
      simp [Forest.flat]
    rw [this, children_tree]
    rfl
  rw [e]
  simp only
  unfold paraOf
  rw [children_tree, parts_items h.from_ hr 1 (Stamp.shows_placed (docRaw is))]
  rfl

end Verif.Log
