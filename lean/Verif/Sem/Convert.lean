import Verif.Sem.Chain
import Verif.Sem.Spec
import Verif.Outline.Props
import Verif.Parser.Props

/-!
# Conversion of parse trees of paragraphs
-/

namespace Verif.Sem
open Verif.Token Verif.NodeGroup Verif.NodeGroup.Spec
open Verif.Parser (NK)

/-- The leaves have tokens, and leaves and inner nodes are of kinds converted node by node. -/
def Simple (toks : List Tok) : Forest NK Unit → Prop
  | .nil => True
  | .leaf k v r => (∃ lk i t, leafKind k = some lk ∧ v = .tok i ∧ Pipeline.tokAt toks i = some t) ∧ Simple toks r
  | .tree k c r => (leafKind k = none ∧ ∃ bk, branchKind k = some bk) ∧ Simple toks c ∧ Simple toks r

/-- The text of a token. -/
def textAt (toks : List Tok) (i : Nat) : List Char :=
  match Pipeline.tokAt toks i with
  | some t => t.text
  | none => []

/-- The sem nodes for such a tree. -/
def semsOf (toks : List Tok) : Forest NK Unit → List Sem
  | .nil => []
  | .leaf k (.tok i) r => .leaf ((leafKind k).getD .Word) (textAt toks i) :: semsOf toks r
  | .leaf k (.mono _) r => .leaf ((leafKind k).getD .Word) [] :: semsOf toks r
  | .tree k c r => branch ((branchKind k).getD .Par) (semsOf toks c) :: semsOf toks r

theorem groups_leaf (n : Nat) (k : NK) (i : Nat) (rest : List (Node NK Unit)) :
    groups (n + 1) (⟨k, .tok i⟩ :: rest) = [⟨k, .tok i⟩] :: groups n rest := by
  simp [groups, Node.getExtent]

theorem groups_tree (n : Nat) (k : NK) (c r : Forest NK Unit) :
    groups (n + 1) (Forest.tree k c r).flat = (⟨k, .ext c.count⟩ :: c.flat) :: groups n r.flat := by
  simp [Forest.flat, groups, Node.getExtent, ← flat_length]

theorem groups_noError (toks : List Tok) : ∀ (f : Forest NK Unit) (n : Nat), Simple toks f → (groups n f.flat).any isError = false
  | .nil, n, _ => by cases n <;> simp [Forest.flat, groups]
  | .leaf k v r, n, h => by
    obtain ⟨⟨lk, i, t, h1, rfl, h3⟩, h4⟩ := h
    cases n with
    | zero => simp [groups]
    | succ n =>
      rw [Forest.flat, groups_leaf, List.any_cons, groups_noError toks r n h4, Bool.or_false]
      unfold isError
      split
      · next heq => simp at heq
      · rfl
  | .tree k c r, n, h => by
    cases n with
    | zero => simp [groups]
    | succ n =>
      rw [groups_tree, List.any_cons, groups_noError toks r n h.2.2, Bool.or_false]
      unfold isError
      split
      · next heq => simp at heq
      · rfl

theorem convert_leaf (toks : List Tok) (d : Nat) (k : NK) (i : Nat) {lk : LK} {t : Tok} (hk : leafKind k = some lk)
    (ht : Pipeline.tokAt toks i = some t) : convert toks (d + 1) [⟨k, .tok i⟩] = .ok (.leaf lk t.text) := by
  rw [convert]
  simp only [children, groups, List.length_nil, List.any_nil, Bool.false_eq_true, if_false, hk, semLeaf, ht]

theorem convert_branch (toks : List Tok) (d : Nat) (k : NK) (c : Forest NK Unit) {bk : BK} {subs : List Sem} (hl : leafKind k = none)
    (hk : branchKind k = some bk) (hc : Simple toks c)
    (hs : mapE (convert toks d) (groups c.flat.length c.flat) = .ok subs) :
    convert toks (d + 1) (⟨k, .ext c.count⟩ :: c.flat) = .ok (branch bk subs) := by
  rw [convert]
  simp only [children, groups_noError toks c _ hc, Bool.false_eq_true, if_false, hl, hk, hs]

theorem convert_simple (toks : List Tok) : ∀ (f : Forest NK Unit) (d n : Nat), Simple toks f → f.count ≤ d → f.flat.length ≤ n →
    mapE (convert toks d) (groups n f.flat) = .ok (semsOf toks f)
  | .nil, d, n, _, _, _ => by cases n <;> simp [Forest.flat, groups, mapE, semsOf]
  | .leaf k v r, d, n, h, hd, hn => by
    obtain ⟨⟨lk, i, t, h1, rfl, h3⟩, h4⟩ := h
    simp only [Forest.count] at hd
    simp only [Forest.flat, List.length_cons] at hn
    obtain ⟨d, rfl⟩ : ∃ d', d = d' + 1 := ⟨d - 1, by omega⟩
    obtain ⟨n, rfl⟩ : ∃ n', n = n' + 1 := ⟨n - 1, by omega⟩
    rw [Forest.flat, groups_leaf, mapE, convert_leaf toks d k i h1 h3]
    simp only [convert_simple toks r (d + 1) n h4 (by omega) (by omega), semsOf, textAt, h1, h3, Option.getD_some]
  | .tree k c r, d, n, h, hd, hn => by
    obtain ⟨⟨h1, bk, h2⟩, hc, hr⟩ := h
    simp only [Forest.count] at hd
    simp only [Forest.flat, List.cons_append, List.length_cons, List.length_append] at hn
    obtain ⟨d, rfl⟩ : ∃ d', d = d' + 1 := ⟨d - 1, by omega⟩
    obtain ⟨n, rfl⟩ : ∃ n', n = n' + 1 := ⟨n - 1, by omega⟩
    have hs := convert_simple toks c d c.flat.length hc (by omega) (Nat.le_refl _)
    rw [groups_tree, mapE, convert_branch toks d k c h1 h2 hc hs]
    simp only [convert_simple toks r (d + 1) n hr (by omega) (by omega), semsOf, h2, Option.getD_some]

theorem simple_kinds (toks : List Tok) : ∀ f : Forest NK Unit, Simple toks f →
    Outline.Spec.Without .subtree (Parser.toKinds f) ∧ Outline.Spec.NoInner .empty (Parser.toKinds f)
  | .nil, _ => ⟨trivial, trivial⟩
  | .leaf k v r, h => by
    have ih := simple_kinds toks r h.2
    obtain ⟨lk, i, t, h1, -, -⟩ := h.1
    refine ⟨⟨?_, ih.1⟩, ih.2⟩
    cases k <;> first | (simp [leafKind] at h1; done) | (simp [Parser.outlineKind])
  | .tree k c r, h => by
    have ih1 := simple_kinds toks c h.2.1
    have ih2 := simple_kinds toks r h.2.2
    obtain ⟨bk, h1⟩ := h.1.2
    refine ⟨⟨?_, ih1.1, ih2.1⟩, ⟨?_, ih1.2, ih2.2⟩⟩ <;>
    cases k <;> first | (simp [branchKind] at h1; done) | (simp [Parser.outlineKind])

theorem zip_back (l : List (Node NK Unit)) :
    List.zipWith (fun (n : Node NK Unit) (m : Node Outline.Kind Unit) => (⟨n.kind, m.value⟩ : Node NK Unit)) l
      (l.map fun n => ⟨Parser.outlineKind n.kind, n.value⟩) = l := by
  induction l with
  | nil => rfl
  | cons a l ih => simp [ih]

/-- The outline pass changes nothing if there are no headlines. -/
theorem outlined_simple (toks : List Tok) (f : Forest NK Unit) (h : Simple toks f) :
    outlined toks (Forest.tree NK.StmtList f .nil).flat = .ok (Forest.tree NK.StmtList f .nil).flat := by
  obtain ⟨h1, h2⟩ := simple_kinds toks f h
  have hp := Outline.outline_pass (textLen toks) [.body (Parser.toKinds f)] (by simpa [Outline.Spec.Item.Ok] using ⟨h1, h2⟩) []
    ((Forest.tree NK.StmtList f .nil).flat.length + 1)
    (by simp [Outline.Spec.flatDoc, Forest.append, Parser.toKinds_count, Forest.flat, flat_length, Forest.count])
  have e : ∀ g : Forest Outline.Kind Unit, g.append .nil = g := by
    intro g
    induction g with
    | nil => rfl
    | leaf k v r ih => simp [Forest.append, ih]
    | tree k c r _ ih => simp [Forest.append, ih]
  rw [Outline.Spec.flatDoc, Outline.Spec.flatDoc, Outline.Spec.outline, Outline.Spec.outline, e] at hp
  have ho : Parser.toOutline ⟨(Forest.tree NK.StmtList f .nil).flat, []⟩ = ⟨(Outline.Spec.document (Parser.toKinds f)).flat, []⟩ := by
    rw [show Outline.Spec.document (Parser.toKinds f) = Parser.toKinds (.tree .StmtList f .nil) from rfl, Parser.toKinds_flat]
    rfl
  unfold outlined
  rw [ho, hp]
  simp only
  rw [show Outline.Spec.document (Parser.toKinds f) = Parser.toKinds (.tree .StmtList f .nil) from rfl, Parser.toKinds_flat, zip_back]

/-- Reading a document of paragraphs. -/
theorem load_simple {lex : BaseLexer.Lexy} {n : Nat} {text : List Char} {toks : List Tok} {f : Forest NK Unit}
    (hp : Pipeline.parse lex n text = .ok (toks, (Forest.tree NK.StmtList f .nil).flat)) (h : Simple toks f) :
    load lex n text = .ok (semsOf toks f) := by
  unfold load
  rw [hp]
  simp only [outlined_simple toks f h]
  have hc : convertDocument toks (Forest.tree NK.StmtList f .nil).flat = .ok (semsOf toks f) := by
    unfold convertDocument
    have : children (Forest.tree NK.StmtList f .nil).flat = groups f.flat.length f.flat := by
      simp [Forest.flat, children]
    rw [this]
    exact convert_simple toks f _ _ h (by simp [Forest.flat, flat_length]) (Nat.le_refl _)
  rw [hc]

end Verif.Sem
