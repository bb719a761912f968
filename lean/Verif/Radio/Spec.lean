import Verif.Radio.Model

/-! # What a grouping is -/

namespace Verif.Radio

variable {α : Type}

/-- The children of a group. -/
def Group.nodes : Group α → List α
  | .radio nodes _ => nodes
  | .single x => [x]
  | .hashtag x _ => [x]

/-- The nodes are leaves with the words as their texts, and spaces between them. -/
inductive Spells (v : View α) : List α → List String → Prop
  | nil : Spells v [] []
  | word {x w xs ws} : v.leaf x = some w → Spells v xs ws → Spells v (x :: xs) (w :: ws)
  | space {x xs ws} : v.space x = true → (v.leaf x).isSome → Spells v xs ws → Spells v (x :: xs) ws

/-- The words of a target. -/
def Target.Has : Target → List String → Prop
  | .radio ws, ws' => ws' = ws
  | .subtree ids, ws' => ws' ∈ ids
  | .bad, _ => False

/-- A group as it should be: a radio group spells its target, begins and ends with a word; a
hash tag group has the tracked definitions of its tag. -/
def Group.Right (v : View α) (t : Track) : Group α → Prop
  | .radio nodes id => ∃ ws, (t.node id).Has ws ∧ Spells v nodes ws ∧
      (∃ x, nodes.head? = some x ∧ v.space x = false) ∧ ∃ y w, nodes.getLast? = some y ∧ ws.getLast? = some w ∧ v.leaf y = some w
  | .single _ => True
  | .hashtag x ts => v.tags x = some ts ∧ ts ≠ []

/-- A target that is tracked under the text of a child. -/
def Tracked (v : View α) (t : Track) (x : α) (ws : List String) : Prop :=
  ∃ text ids id, v.leaf x = some text ∧ t.targets text = some ids ∧ id ∈ ids ∧ (t.node id).Has ws

/-- The children end within the words. -/
def Overrun (v : View α) (xs : List α) (ws : List String) : Prop :=
  ∃ ws₁ ws₂, ws = ws₁ ++ ws₂ ∧ ws₂ ≠ [] ∧ Spells v xs ws₁

end Verif.Radio
