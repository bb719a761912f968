import Verif.RangeTree.Model

/-!
# Specification vocabulary for C01 / C02

`Covers s p` – point `p` is in the inclusive interval `s`.
`annotationsAt` – the annotations a point must carry, defined directly from the
input groups without any tree.
-/

namespace Verif.RangeTree.Spec

/-- `p` lies in the inclusive interval `[s.first, s.last]`. -/
def Covers (s : Slice) (p : Int) : Prop := s.first ≤ p ∧ p ≤ s.last

instance (s : Slice) (p : Int) : Decidable (Covers s p) := by unfold Covers; infer_instance

/-- The slices covering `p`, each tagged with its position in the input. -/
def covering (slices : List Slice) (p : Int) : List Range :=
  ((slices.zipIdx).filter fun x => decide (Covers x.1 p)).map fun x => ⟨x.1, x.2⟩

/-- Kinds of the segments of `g` that contain the point `p`, ascending. -/
def kindsAt (g : Group) (p : Int) : List Int :=
  ((g.segments.filter fun s => decide (s.first ≤ p ∧ p ≤ s.last)).map Segment.kind).mergeSort
    (fun a b => decide (a ≤ b))

/-- The set of annotations of a point: one tag per group with a segment there. -/
def annotationsAt (groups : List Group) (p : Int) : Finset Tag :=
  ((groups.filter fun g => decide (∃ s ∈ g.segments, s.first ≤ p ∧ p ≤ s.last)).map
    fun g => (g.kind, kindsAt g p)).toFinset

end Verif.RangeTree.Spec
