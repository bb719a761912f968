import Verif.Track.Model
import Verif.Imm.Spec

/-!
# Specification of finding nodes by name
-/

namespace Verif.Track

open Verif.Imm

/-- A name: the key in one of the maps, or the first word of a radio target and the node it leads to. -/
inductive Key where
  | slot (slot : Slot) (key : Text)
  | radio (word : Text) (target : Id)
deriving DecidableEq, Repr

/-- A node of the store has a name. -/
inductive Named (stmt : Kind → Bool) (s : Store Info) (x : Id) : Key → Prop
  /-- a headline with an id -/
  | subtree {v k} : s[x]? = some v → v.kind = .Subtree → v.data.treeId = some k → Named stmt s x (.slot .subtree k)
  | customId {v k} : s[x]? = some v → v.kind = .Subtree → k ∈ v.data.customIds → Named stmt s x (.slot .customId k)
  | hashtag {v k} : s[x]? = some v → v.kind = .Subtree → k ∈ v.data.tags → Named stmt s x (.slot .hashtag k)
  /-- a headline with the property `radio_id` -/
  | radioId {v w ws} : s[x]? = some v → v.kind = .Subtree → w :: ws ∈ v.data.radioIds → Named stmt s x (.radio w x)
  /-- a paragraph that begins with a footnote -/
  | footnote {v l w k} : s[x]? = some v → v.kind = .Paragraph → v.subs.head? = some l → s[l]? = some w → w.kind = link →
      w.data.footnote = some k → Named stmt s x (.slot .footnote k)
  /-- a paragraph with a radio target in it -/
  | target {v t w f ws} : s[x]? = some v → v.kind = .Paragraph → t ∈ v.subs → s[t]? = some w → w.kind = .RadioTarget →
      w.data.words = f :: ws → Named stmt s x (.radio f t)
  /-- a statement with a line `#+name:` -/
  | name {v st a w} : s[x]? = some v → stmt v.kind = true → (st, a) ∈ v.kids → st.field = 1 → s[a]? = some w →
      w.kind = cmdName → Named stmt s x (.slot .name w.data.name)

/-- Looking up the name leads to the node. -/
def Found (n : Names) (x : Id) : Key → Prop
  | .slot sl k => n.slots sl k = some x
  | .radio w t => ∃ l, n.radio w = some l ∧ t ∈ l

/-- The node is somewhere in the document. -/
def InDoc (s : Store Info) (root x : Id) : Prop := ∃ p, s.at root p = some x

/-- Every name in the document is found. -/
def Complete (stmt : Kind → Bool) (c : TCtx) (root : Id) : Prop :=
  ∀ x key, InDoc c.ctx.store root x → Named stmt c.ctx.store x key → Found c.names x key

/-- No two nodes of the documents have the same name (several radio targets may begin with the same
word). -/
def Unique (stmt : Kind → Bool) (s : Store Info) (roots : List Id) : Prop :=
  ∀ r ∈ roots, ∀ r' ∈ roots, ∀ x y sl k, InDoc s r x → InDoc s r' y → Named stmt s x (.slot sl k) → Named stmt s y (.slot sl k) →
    x = y

/-! ## Documents that are added -/

/-- Documents were added one after the other; the roots. -/
inductive Adds (stmt : Kind → Bool) : TCtx → List Id → Prop
  | start : Adds stmt .start []
  | add {c roots t id c'} : Adds stmt c roots → ShapedTree t → addRoot stmt c t = .ok (id, c') → Adds stmt c' (roots ++ [id])

/-- The children at field 0 of kind radio target have words. -/
def targetsOk : Tree Info false → Prop
  | .nil => True
  | .cons st (.node k d _ _) rest => (st.field = 0 → k = .RadioTarget → d.words ≠ []) ∧ targetsOk rest

/-- All radio targets, and all properties `radio_id`, have words. -/
def WordsOk : {b : Bool} → Tree Info b → Prop
  | true, .node k d _ ks =>
    (k = .Subtree → ∀ ws ∈ d.radioIds, ws ≠ []) ∧ (k = .Paragraph → targetsOk ks) ∧ WordsOk ks
  | false, .nil => True
  | false, .cons _ t rest => WordsOk t ∧ WordsOk rest

/-- C118: a document can be added. -/
def AddReturnsStatement : Prop :=
  ∀ (stmt : Kind → Bool) (t : Tree Info true), ShapedTree t → ∃ r, addRoot stmt .start t = .ok r

/-! ## Editing -/

/-- What a user does before the new version is made: add documents (`made`) and replace nodes of the
document `root` (`rs`).  The children of a new node are nodes of the document or newly made. -/
inductive Work (stmt : Kind → Bool) (s : Store Info) (root : Id) : TCtx → List Id → List Replace → TCtx → Prop
  | nil (c) : Work stmt s root c [] [] c
  | add {c made rs c1 t id c2} : Work stmt s root c made rs c1 → ShapedTree t → addRoot stmt c1 t = .ok (id, c2) →
      Work stmt s root c (made ++ [id]) rs c2
  | set {c made rs c1 target v r c2} : Work stmt s root c made rs c1 → Shaped (v.kids.map (·.1)) →
      (∀ k ∈ v.kids, InDoc s root k.2 ∨ (∃ a ∈ made, InDoc c1.ctx.store a k.2) ∨ ∃ r ∈ rs, r.replaced.id = k.2) →
      target.root = root → s.at root target.path = some target.id →
      setNode stmt c1 target v = .ok (some r, c2) → Work stmt s root c made (rs ++ [r]) c2

/-- The node at the position or one below is replaced. -/
def Affected (rs : List Replace) (p : List Step) : Prop := ∃ r ∈ rs, p <+: r.original.path

/-- A new version of the document `root` of `c`: the root and the context. -/
structure NewVersion (stmt : Kind → Bool) (srt : List (Step × Id) → List (Step × Id)) (c : TCtx) (root : Id) (made : List Id)
    (rs : List Replace) (c' : TCtx) (root' : Id) : Prop where
  run : ∃ c1 fuel, Work stmt c.ctx.store root c made rs c1 ∧ cascade stmt srt fuel c1 root rs = .ok (root', c')
  /-- the replaced positions are different and none is below another one -/
  apart : Apart rs
  /-- what was made is used -/
  used : ∀ a ∈ made, InDoc c'.ctx.store root' a

/-- A name that is in both versions is at the same position, or where it was nothing is replaced. -/
def Stay (stmt : Kind → Bool) (c : TCtx) (root : Id) (rs : List Replace) (c' : TCtx) (root' : Id) : Prop :=
  ∀ key p q x y, c.ctx.store.at root p = some x → Named stmt c.ctx.store x key →
    c'.ctx.store.at root' q = some y → Named stmt c'.ctx.store y key → p = q ∨ ¬ Affected rs p

/-- Versions of a document. -/
inductive History (stmt : Kind → Bool) (srt : List (Step × Id) → List (Step × Id)) : TCtx → Id → Prop
  | start {t id c} : ShapedTree t → addRoot stmt .start t = .ok (id, c) →
      Unique stmt c.ctx.store [id] → History stmt srt c id
  | step {c root made rs c' root'} : History stmt srt c root → NewVersion stmt srt c root made rs c' root' →
      Unique stmt c'.ctx.store [root'] → Stay stmt c root rs c' root' → History stmt srt c' root'

/-- No node with a name leaves the document, unless the node or one below it is replaced. -/
def Kept (stmt : Kind → Bool) (c : TCtx) (root : Id) (rs : List Replace) (c' : TCtx) (root' : Id) : Prop :=
  ∀ p x sl k, c.ctx.store.at root p = some x → Named stmt c.ctx.store x (.slot sl k) →
    Affected rs p ∨ InDoc c'.ctx.store root' x

/-- Versions of a document without the removal of nodes with names. -/
inductive KeptHistory (stmt : Kind → Bool) (srt : List (Step × Id) → List (Step × Id)) : TCtx → Id → Prop
  | start {t id c} : ShapedTree t → addRoot stmt .start t = .ok (id, c) → KeptHistory stmt srt c id
  | step {c root made rs c' root'} : KeptHistory stmt srt c root → NewVersion stmt srt c root made rs c' root' →
      Kept stmt c root rs c' root' → KeptHistory stmt srt c' root'

/-- Any versions of a document. -/
inductive AnyHistory (stmt : Kind → Bool) (srt : List (Step × Id) → List (Step × Id)) : TCtx → Id → Prop
  | start {t id c} : ShapedTree t → addRoot stmt .start t = .ok (id, c) → AnyHistory stmt srt c id
  | step {c root made rs c' root'} : AnyHistory stmt srt c root → NewVersion stmt srt c root made rs c' root' →
      AnyHistory stmt srt c' root'

/-- The radio targets of a headline begin with different words, and no radio target is twice in a
paragraph. -/
def RadioOnce (s : Store Info) (v : Val Info) : Prop :=
  (v.kind = .Subtree → (v.data.radioIds.map (·.head?)).Nodup) ∧
  (v.kind = .Paragraph → (v.subs.filter (fun t => (s[t]?).any (fun w => decide (w.kind = .RadioTarget)))).Nodup)

/-- The radio targets of a value have words. -/
def ValWords (s : Store Info) (v : Val Info) : Prop :=
  (v.kind = .Subtree → ∀ ws ∈ v.data.radioIds, ws ≠ []) ∧
  (v.kind = .Paragraph → ∀ t ∈ v.subs, ∀ w, s[t]? = some w → w.kind = .RadioTarget → w.data.words ≠ [])

/-- C119: a node of a document that was added can be replaced. -/
def EditReturnsStatement : Prop :=
  ∀ (stmt : Kind → Bool) (t : Tree Info true) (root : Id) (c : TCtx) (target : Uniq) (v : Val Info), ShapedTree t →
    addRoot stmt .start t = .ok (root, c) → target.root = root → c.ctx.store.at root target.path = some target.id →
    Shaped (v.kids.map (·.1)) → (∀ k ∈ v.kids, k.2 < c.ctx.store.length) → ValWords c.ctx.store v →
    ∃ r, setNode stmt c target v = .ok r

/-- C119: in a new version of a document in which every name is found, every name is found, whatever was
replaced, if no two nodes have the same name. -/
def VersionStatement : Prop :=
  ∀ (stmt : Kind → Bool) (srt : List (Step × Id) → List (Step × Id)) (t : Tree Info true) (root : Id) (c : TCtx) (made : List Id)
    (rs : List Replace) (c' : TCtx) (root' : Id), Keeps srt → ShapedTree t → addRoot stmt .start t = .ok (root, c) →
    Unique stmt c.ctx.store [root] → NewVersion stmt srt c root made rs c' root' → Unique stmt c'.ctx.store [root'] →
    Complete stmt c' root'

/-- C119: what is found in a new version is in it. -/
def CurrentStatement : Prop :=
  ∀ (stmt : Kind → Bool) (srt : List (Step × Id) → List (Step × Id)) (t : Tree Info true) (root : Id) (c : TCtx) (made : List Id)
    (rs : List Replace) (c' : TCtx) (root' : Id), Keeps srt → ShapedTree t → addRoot stmt .start t = .ok (root, c) →
    Unique stmt c.ctx.store [root] → NewVersion stmt srt c root made rs c' root' → Unique stmt c'.ctx.store [root'] →
    ∀ sl k x, c'.names.slots sl k = some x → InDoc c'.ctx.store root' x

end Verif.Track
