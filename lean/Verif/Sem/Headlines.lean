import Verif.Sem.OutlineSpec
import Verif.Sem.Convert
import Verif.Pipeline.OutlineDoc

/-!
# Reading of written outlines
-/

namespace Verif.Sem
open Verif.Token Verif.NodeGroup Verif.NodeGroup.Spec
open Verif.Parser (NK absent toKinds)
open Verif.Pipeline (Inl Pars Piece Chunk Entry Mark entriesForest tagList tagsForest tagPieces stopPieces below sections)
open Verif.Outline.Spec (Item flatDoc outline inSection headTree Without NoInner document)

/-! ## The outline pass -/

/-- Entries with the numbers of their first tokens. -/
abbrev Spots := List (Nat × Entry)

def spots : Nat → List Entry → Spots
  | _, [] => []
  | i, e :: r => (i, e) :: spots (i + e.chunks.length) r

/-- The nodes of the parser: all entries in a row. -/
def rowF : Spots → Forest NK Unit
  | [] => .nil
  | (i, e) :: r => .tree .Subtree (e.fields i (.tree .StmtList .nil .nil)) ((e.body.forest (e.bodyAt i)).append (rowF r))

theorem rowF_spots (es : List Entry) : ∀ i, rowF (spots i es) = entriesForest i es := by
  induction es with
  | nil => intro i; rfl
  | cons e r ih => intro i; simp [spots, rowF, entriesForest, ih]

/-- The entries nested by their levels. -/
def nestF : Spots → Forest NK Unit
  | [] => .nil
  | (i, e) :: r =>
    .tree .Subtree (e.fields i (.tree .StmtList ((e.body.forest (e.bodyAt i)).append (nestF (r.takeWhile fun x => below e.level x.2))) .nil))
      (nestF (r.dropWhile fun x => below e.level x.2))
termination_by l => l.length
decreasing_by
  · have := Pipeline.takeWhile_le (fun x : Nat × Entry => below e.level x.2) r; simp; omega
  · have := Pipeline.dropWhile_le (fun x : Nat × Entry => below e.level x.2) r; simp; omega

/-- The fields of a headline between the stars and the text. -/
def fields0 (e : Entry) (i : Nat) : Forest NK Unit :=
  e.mark.forest (i + 2) (.tree .Paragraph (e.title.forest (e.titleAt i)) (absent (tagsForest (e.tagsAt i) (absent (absent .nil)) e.tags)))

theorem fields_eq (e : Entry) (i : Nat) (f : Forest NK Unit) : e.fields i f = .leaf .RawText (.tok i) ((fields0 e i).append f) := by
  unfold Entry.fields fields0 tagsForest
  cases e.mark <;> by_cases h : e.tags = [] <;> simp [Mark.forest, absent, Forest.append, h]

def itemsOf (x : Nat × Entry) : List (Item Unit) :=
  [.head (Parser.outlineKind .RawText) x.1 (toKinds (fields0 x.2 x.1)), .body (toKinds (x.2.body.forest (x.2.bodyAt x.1)))]

theorem row_items (l : Spots) : toKinds (rowF l) = flatDoc (l.flatMap itemsOf) := by
  induction l with
  | nil => rfl
  | cons x r ih =>
    obtain ⟨i, e⟩ := x
    simp only [rowF, List.flatMap_cons, itemsOf, List.cons_append, List.nil_append, flatDoc, headTree, fields_eq, toKinds, Parser.toKinds_append, ih]
    rfl

/-- The texts of the star tokens are the stars. -/
def LevelsOk (textLen : Nat → Nat) (l : Spots) : Prop := ∀ x ∈ l, textLen x.1 = x.2.level + 1

theorem take_items {textLen : Nat → Nat} {l : Spots} (h : LevelsOk textLen l) (n : Nat) :
    (l.flatMap itemsOf).takeWhile (inSection textLen (n + 1)) = (l.takeWhile fun x => below n x.2).flatMap itemsOf ∧
    (l.flatMap itemsOf).dropWhile (inSection textLen (n + 1)) = (l.dropWhile fun x => below n x.2).flatMap itemsOf := by
  induction l with
  | nil => exact ⟨rfl, rfl⟩
  | cons x r ih =>
    obtain ⟨h1, h2⟩ := ih (fun y hy => h y (by simp [hy]))
    have hx := h x (by simp)
    simp only [List.flatMap_cons]
    by_cases hb : below n x.2 = true
    · have hs : n + 1 < textLen x.1 := by simp only [below, decide_eq_true_eq] at hb; omega
      simp only [itemsOf, List.cons_append, List.nil_append, List.takeWhile_cons, List.dropWhile_cons, inSection, hs, decide_true, hb, if_true,
        List.flatMap_cons] at h1 h2 ⊢
      rw [← h1, ← h2]
      exact ⟨rfl, rfl⟩
    · have hs : ¬ n + 1 < textLen x.1 := by simp only [below, decide_eq_true_eq] at hb; omega
      simp [itemsOf, inSection, hs, hb]

theorem levels_sub {textLen : Nat → Nat} {l l' : Spots} (h : LevelsOk textLen l) (hs : ∀ x ∈ l', x ∈ l) : LevelsOk textLen l' :=
  fun x hx => h x (hs x hx)

theorem nest_items (textLen : Nat → Nat) (n : Nat) : ∀ l : Spots, l.length ≤ n → LevelsOk textLen l →
    toKinds (nestF l) = outline textLen (l.flatMap itemsOf) := by
  induction n with
  | zero =>
    intro l hl _
    obtain rfl : l = [] := List.length_eq_zero_iff.mp (by omega)
    rw [nestF]
    simp [outline, toKinds]
  | succ n ih =>
    intro l hl hlev
    cases l with
    | nil => rw [nestF]; simp [outline, toKinds]
    | cons x r =>
      obtain ⟨i, e⟩ := x
      have hx : textLen i = e.level + 1 := hlev (i, e) (by simp)
      have hr : LevelsOk textLen r := fun y hy => hlev y (by simp [hy])
      obtain ⟨h1, h2⟩ := take_items hr e.level
      have hlr : r.length ≤ n := by simp at hl; omega
      have ih1 := ih (r.takeWhile fun x => below e.level x.2) (Nat.le_trans (Pipeline.takeWhile_le _ _) hlr)
        (levels_sub hr fun y hy => (List.takeWhile_sublist _).subset hy)
      have ih2 := ih (r.dropWhile fun x => below e.level x.2) (Nat.le_trans (Pipeline.dropWhile_le _ _) hlr)
        (levels_sub hr fun y hy => (List.dropWhile_sublist _).subset hy)
      rw [nestF, List.flatMap_cons]
      simp only [itemsOf, List.cons_append, List.nil_append]
      rw [outline]
      rw [show textLen i = e.level + 1 from hx]
      have t1 : (Item.body (toKinds (e.body.forest (e.bodyAt i))) :: r.flatMap itemsOf).takeWhile (inSection textLen (e.level + 1)) =
          .body (toKinds (e.body.forest (e.bodyAt i))) :: (r.takeWhile fun x => below e.level x.2).flatMap itemsOf := by
        rw [List.takeWhile_cons, if_pos (show inSection textLen (e.level + 1) (Item.body _) = true from rfl), h1]
      have t2 : (Item.body (toKinds (e.body.forest (e.bodyAt i))) :: r.flatMap itemsOf).dropWhile (inSection textLen (e.level + 1)) =
          (r.dropWhile fun x => below e.level x.2).flatMap itemsOf := by
        rw [List.dropWhile_cons, if_pos (show inSection textLen (e.level + 1) (Item.body _) = true from rfl), h2]
      rw [t1, t2, outline, ← ih1, ← ih2, fields_eq]
      simp only [toKinds, Parser.toKinds_append, headTree]
      rfl

/-- The kinds of the nodes, in preorder. -/
def kindsF (f : Forest NK Unit) : List NK := f.flat.map (·.kind)

theorem kindsF_append (f g : Forest NK Unit) : kindsF (f.append g) = kindsF f ++ kindsF g := by
  simp [kindsF, flat_append]

theorem kindsF_tree (k : NK) (c r : Forest NK Unit) : kindsF (.tree k c r) = k :: (kindsF c ++ kindsF r) := by
  simp [kindsF, Forest.flat]

theorem kindsF_leaf (k : NK) (v : Leaf Unit) (r : Forest NK Unit) : kindsF (.leaf k v r) = k :: kindsF r := by
  cases v <;> simp [kindsF, Forest.flat]

theorem kindsF_row (a b : Spots) : kindsF (rowF (a ++ b)) = kindsF (rowF a) ++ kindsF (rowF b) := by
  induction a with
  | nil => rfl
  | cons x a ih =>
    obtain ⟨i, e⟩ := x
    simp [rowF, kindsF_tree, kindsF_append, ih]

theorem nest_kinds (n : Nat) : ∀ l : Spots, l.length ≤ n → kindsF (nestF l) = kindsF (rowF l) := by
  induction n with
  | zero =>
    intro l hl
    obtain rfl : l = [] := List.length_eq_zero_iff.mp (by omega)
    rw [nestF]
    rfl
  | succ n ih =>
    intro l hl
    cases l with
    | nil => rw [nestF]; rfl
    | cons x r =>
      obtain ⟨i, e⟩ := x
      have hlr : r.length ≤ n := by simp at hl; omega
      have ih1 := ih (r.takeWhile fun x => below e.level x.2) (Nat.le_trans (Pipeline.takeWhile_le _ _) hlr)
      have ih2 := ih (r.dropWhile fun x => below e.level x.2) (Nat.le_trans (Pipeline.dropWhile_le _ _) hlr)
      have hsplit : kindsF (rowF r) = kindsF (rowF (r.takeWhile fun x => below e.level x.2)) ++ kindsF (rowF (r.dropWhile fun x => below e.level x.2)) := by
        rw [← kindsF_row, List.takeWhile_append_dropWhile]
      rw [nestF, rowF]
      simp only [fields_eq, kindsF_tree, kindsF_leaf, kindsF_append, ih1, ih2, hsplit]
      simp [kindsF, Forest.flat]

theorem zip_kinds : ∀ (l g : List (Node NK Unit)), l.map (·.kind) = g.map (·.kind) →
    List.zipWith (fun (n : Node NK Unit) (m : Node Outline.Kind Unit) => (⟨n.kind, m.value⟩ : Node NK Unit)) l
      (g.map fun n => ⟨Parser.outlineKind n.kind, n.value⟩) = g
  | [], [], _ => rfl
  | [], b :: g, h => by simp at h
  | a :: l, [], h => by simp at h
  | a :: l, b :: g, h => by
    simp only [List.map_cons, List.cons.injEq] at h
    simp only [List.map_cons, List.zipWith_cons_cons, zip_kinds l g h.2, h.1]

theorem tagList_kinds (ts : List (List Char)) : ∀ i, Without .subtree (toKinds (tagList i ts)) ∧ NoInner .empty (toKinds (tagList i ts)) := by
  induction ts with
  | nil => intro i; exact ⟨trivial, trivial⟩
  | cons t ts ih =>
    intro i
    obtain ⟨h1, h2⟩ := ih (i + 2)
    simp only [tagList, toKinds, Without, NoInner, h1, h2, Parser.outlineKind]
    simp

theorem fields0_ok (toks : List Tok) (e : Entry) (i : Nat) (h : Simple toks (e.title.forest (e.titleAt i))) :
    ((toKinds (fields0 e i)).roots 0).length = 7 ∧ Without .subtree (toKinds (fields0 e i)) ∧ NoInner .empty (toKinds (fields0 e i)) := by
  obtain ⟨h1, h2⟩ := simple_kinds toks _ h
  obtain ⟨h3, h4⟩ := tagList_kinds e.tags (e.tagsAt i + 1)
  unfold fields0 tagsForest
  cases e.mark <;> by_cases ht : e.tags = [] <;>
    simp [Mark.forest, absent, ht, toKinds, Forest.roots, Without, NoInner, h1, h2, h3, h4, Parser.outlineKind]

/-- The outline pass nests the headlines of the document by their levels. -/
theorem outlined_spots (toks : List Tok) (pre : Forest NK Unit) (l : Spots) (hpre : Simple toks pre)
    (hl : ∀ x ∈ l, Simple toks (x.2.title.forest (x.2.titleAt x.1)) ∧ Simple toks (x.2.body.forest (x.2.bodyAt x.1)) ∧
      textLen toks x.1 = x.2.level + 1) :
    outlined toks (Forest.tree NK.StmtList (pre.append (rowF l)) .nil).flat = .ok (Forest.tree NK.StmtList (pre.append (nestF l)) .nil).flat := by
  obtain ⟨hp1, hp2⟩ := simple_kinds toks pre hpre
  have hok : ∀ it ∈ Item.body (toKinds pre) :: l.flatMap itemsOf, it.Ok (textLen toks) := by
    intro it hit
    rcases List.mem_cons.mp hit with rfl | hit
    · exact ⟨hp1, hp2⟩
    · obtain ⟨x, hx, hit⟩ := List.mem_flatMap.mp hit
      obtain ⟨h1, h2, h3⟩ := hl x hx
      simp only [itemsOf, List.mem_cons, List.not_mem_nil, or_false] at hit
      rcases hit with rfl | rfl
      · obtain ⟨k1, k2, k3⟩ := fields0_ok toks x.2 x.1 h1
        exact ⟨by decide, by omega, k1, k2, k3⟩
      · exact simple_kinds toks _ h2
  have hF : toKinds (pre.append (rowF l)) = flatDoc (.body (toKinds pre) :: l.flatMap itemsOf) := by
    rw [Parser.toKinds_append, row_items, flatDoc]
  have hG : toKinds (pre.append (nestF l)) = outline (textLen toks) (.body (toKinds pre) :: l.flatMap itemsOf) := by
    rw [Parser.toKinds_append, nest_items (textLen toks) l.length l (Nat.le_refl _) (fun x hx => (hl x hx).2.2), outline]
  have hp := Outline.outline_pass (textLen toks) _ hok [] ((Forest.tree NK.StmtList (pre.append (rowF l)) .nil).flat.length + 1)
    (by
      have := flat_length (pre.append (rowF l))
      rw [← hF, Parser.toKinds_count]
      simp only [Forest.flat, List.cons_append, List.length_cons, List.length_append, List.length_nil, this]
      omega)
  rw [← hF, ← hG] at hp
  have ho : Parser.toOutline ⟨(Forest.tree NK.StmtList (pre.append (rowF l)) .nil).flat, []⟩ = ⟨(document (toKinds (pre.append (rowF l)))).flat, []⟩ := by
    rw [show document (toKinds (pre.append (rowF l))) = toKinds (.tree .StmtList (pre.append (rowF l)) .nil) from rfl, Parser.toKinds_flat]
    rfl
  unfold outlined
  rw [ho, hp]
  simp only
  rw [show document (toKinds (pre.append (nestF l))) = toKinds (.tree .StmtList (pre.append (nestF l)) .nil) from rfl, Parser.toKinds_flat, zip_kinds]
  have := nest_kinds l.length l (Nat.le_refl _)
  have e1 : kindsF (Forest.tree NK.StmtList (pre.append (rowF l)) .nil) = kindsF (Forest.tree NK.StmtList (pre.append (nestF l)) .nil) := by
    simp only [kindsF_tree, kindsF_append, this]
  exact e1

/-! ## Conversion -/

/-- The nodes of a forest, each with everything inside of it. -/
def groupsF : Forest NK Unit → List Adapter
  | .nil => []
  | .leaf k (.tok i) r => [⟨k, .tok i⟩] :: groupsF r
  | .leaf k (.mono m) r => [⟨k, .mono m⟩] :: groupsF r
  | .tree k c r => (⟨k, .ext c.count⟩ :: c.flat) :: groupsF r

theorem groups_eq : ∀ (f : Forest NK Unit) (n : Nat), f.flat.length ≤ n → groups n f.flat = groupsF f
  | .nil, n, _ => by cases n <;> simp [Forest.flat, groups, groupsF]
  | .leaf k (.tok i) r, n, h => by
    simp only [Forest.flat, List.length_cons] at h
    obtain ⟨n, rfl⟩ : ∃ n', n = n' + 1 := ⟨n - 1, by omega⟩
    rw [Forest.flat, groups_leaf, groups_eq r n (by omega), groupsF]
  | .leaf k (.mono m) r, n, h => by
    simp only [Forest.flat, List.length_cons] at h
    obtain ⟨n, rfl⟩ : ∃ n', n = n' + 1 := ⟨n - 1, by omega⟩
    have : groups (n + 1) (⟨k, .mono m⟩ :: r.flat) = [⟨k, .mono m⟩] :: groups n r.flat := by
      simp [groups, Node.getExtent]
    rw [Forest.flat, this, groups_eq r n (by omega), groupsF]
  | .tree k c r, n, h => by
    simp only [Forest.flat, List.cons_append, List.length_cons, List.length_append] at h
    obtain ⟨n, rfl⟩ : ∃ n', n = n' + 1 := ⟨n - 1, by omega⟩
    rw [groups_tree, groups_eq r n (by omega), groupsF]

theorem children_tree (k : NK) (c : Forest NK Unit) : children (⟨k, .ext c.count⟩ :: c.flat) = groupsF c :=
  groups_eq c _ (Nat.le_refl _)

theorem groupsF_append (f g : Forest NK Unit) : groupsF (f.append g) = groupsF f ++ groupsF g := by
  induction f with
  | nil => rfl
  | leaf k v r ih => cases v <;> simp [Forest.append, groupsF, ih]
  | tree k c r _ ih => simp [Forest.append, groupsF, ih]

theorem mapE_append {α β : Type} (f : α → Except Err β) (a b : List α) {x y : List β} (ha : mapE f a = .ok x) (hb : mapE f b = .ok y) :
    mapE f (a ++ b) = .ok (x ++ y) := by
  induction a generalizing x with
  | nil =>
    simp only [mapE, Except.ok.injEq] at ha
    subst ha
    exact hb
  | cons c a ih =>
    simp only [mapE] at ha
    split at ha
    · cases ha
    · next v hv =>
      split at ha
      · cases ha
      · next vs hvs =>
        simp only [Except.ok.injEq] at ha
        subst ha
        simp only [List.cons_append, mapE, hv, ih hvs]

/-- The nodes are converted to the given ones. -/
def Conv (toks : List Tok) (f : Forest NK Unit) (ss : List Sem) : Prop :=
  (groupsF f).any isError = false ∧ ∀ d, f.count ≤ d → mapE (convert toks d) (groupsF f) = .ok ss

theorem conv_nil (toks : List Tok) : Conv toks .nil [] := ⟨rfl, fun _ _ => rfl⟩

theorem conv_simple {toks : List Tok} {f : Forest NK Unit} (h : Simple toks f) : Conv toks f (semsOf toks f) := by
  have e := groups_eq f f.flat.length (Nat.le_refl _)
  refine ⟨by rw [← e]; exact groups_noError toks f _ h, fun d hd => ?_⟩
  rw [← e]
  exact convert_simple toks f d _ h hd (Nat.le_refl _)

theorem count_append (f g : Forest NK Unit) : (f.append g).count = f.count + g.count := by
  induction f with
  | nil => simp [Forest.append, Forest.count]
  | leaf k v r ih => simp [Forest.append, Forest.count, ih]; omega
  | tree k c r _ ih => simp [Forest.append, Forest.count, ih]; omega

theorem conv_append {toks : List Tok} {f g : Forest NK Unit} {a b : List Sem} (hf : Conv toks f a) (hg : Conv toks g b) :
    Conv toks (f.append g) (a ++ b) := by
  refine ⟨by rw [groupsF_append, List.any_append, hf.1, hg.1]; rfl, fun d hd => ?_⟩
  rw [count_append] at hd
  rw [groupsF_append]
  exact mapE_append _ _ _ (hf.2 d (by omega)) (hg.2 d (by omega))

/-- The information of a headline from its fields. -/
theorem headInfo_eq {toks : List Tok} {a A0 A1 A2 A3 A4 A5 A6 A7 A8 : Adapter} {title : List Sem} {st : List Char} {pr td : Option (List Char)}
    {tags : List (List Char)} (hch : children a = [A0, A1, A2, A3, A4, A5, A6, A7, A8]) (h0 : getText toks A0 = .ok st)
    (h1 : (kindOf A1 = .Empty ∧ td = none) ∨ (kindOf A1 ≠ .Empty ∧ ∃ t, getText toks A1 = .ok t ∧ td = some t))
    (h2 : (kindOf A2 = .Empty ∧ pr = none) ∨
      (kindOf A2 ≠ .Empty ∧ ∃ t, getText toks A2 = .ok t ∧ pr = some (stripSets t (fun c => c = '[' || c = '#') (· = ']'))))
    (h4 : kindOf A4 = .Empty) (h5 : mapE (tagName toks) (children A5) = .ok tags) (h6 : children A6 = []) (h7 : kindOf A7 = .Empty)
    (hno : td ≠ some commentWord) (hdrop : dropComment title = (false, title)) :
    headInfo toks a title = .ok (⟨st.length, td, pr, false, tags.any (· = archiveTag), tags.filter (· ≠ archiveTag)⟩, title) := by
  have hf : ∀ i x, [A0, A1, A2, A3, A4, A5, A6, A7, A8][i]? = some x → field a i = .ok x := by
    intro i x hx
    unfold field
    rw [hch, hx]
  have f0 := hf 0 A0 rfl
  have f1 := hf 1 A1 rfl
  have f2 := hf 2 A2 rfl
  have f4 := hf 4 A4 rfl
  have f5 := hf 5 A5 rfl
  have f6 := hf 6 A6 rfl
  have f7 := hf 7 A7 rfl
  unfold headInfo
  rcases h1 with ⟨h1, rfl⟩ | ⟨h1, t, h1', rfl⟩ <;> rcases h2 with ⟨h2, rfl⟩ | ⟨h2, t', h2', rfl⟩ <;>
    simp_all [bind, Except.bind, pure, Except.pure, Functor.map, Except.map]

/-! ## Texts of tokens -/

/-- The tokens from number `i` on have the texts of the given parts. -/
def Has (toks : List Tok) (i : Nat) (cs : List Chunk) : Prop :=
  ∀ j c, cs[j]? = some c → ∃ t, Pipeline.tokAt toks (i + j) = some t ∧ t.text = c.text

theorem has_append {toks : List Tok} {i : Nat} {a b : List Chunk} (h : Has toks i (a ++ b)) : Has toks i a ∧ Has toks (i + a.length) b := by
  refine ⟨fun j c hj => h j c ?_, fun j c hj => ?_⟩
  · rw [List.getElem?_append_left]
    · exact hj
    · exact (List.getElem?_eq_some_iff.mp hj).1
  · have := h (a.length + j) c (by rw [List.getElem?_append_right (by omega)]; simpa using hj)
    rwa [← Nat.add_assoc] at this

theorem has_cons {toks : List Tok} {i : Nat} {c : Chunk} {cs : List Chunk} (h : Has toks i (c :: cs)) :
    (∃ t, Pipeline.tokAt toks i = some t ∧ t.text = c.text) ∧ Has toks (i + 1) cs := by
  have := has_append (a := [c]) h
  exact ⟨h 0 c rfl, this.2⟩

theorem has_all {toks : List Tok} {cs : List Chunk} (h : toks.map (·.text) = cs.map Chunk.text) : Has toks 1 cs := by
  intro j c hj
  have h1 : (cs.map Chunk.text)[j]? = some c.text := by rw [List.getElem?_map, hj]; rfl
  rw [← h, List.getElem?_map] at h1
  cases ht : toks[j]? with
  | none => rw [ht] at h1; cases h1
  | some t =>
    rw [ht] at h1
    refine ⟨t, ?_, by simpa using h1⟩
    unfold Pipeline.tokAt
    rw [if_neg (by omega), show 1 + j - 1 = j from by omega, ht]

/-! ## Text -/

theorem leaf_sem (p : Piece) : leafKind p.leafKind = some p.semKind := by
  cases p with
  | word w => simp only [Piece.leafKind, Piece.semKind]; split_ifs <;> rfl
  | _ => rfl

theorem inl_conv {toks : List Tok} (t : Inl) : ∀ i, Has toks i (t.pieces.map .txt) → Simple toks (t.forest i) ∧ semsOf toks (t.forest i) = t.sems := by
  induction t with
  | nil => intro i _; exact ⟨trivial, rfl⟩
  | piece p r ih =>
    intro i h
    obtain ⟨⟨t, h1, h2⟩, h3⟩ := has_cons h
    obtain ⟨h4, h5⟩ := ih (i + 1) h3
    refine ⟨⟨⟨p.semKind, i, t, leaf_sem p, rfl, h1⟩, h4⟩, ?_⟩
    simp only [Inl.forest, semsOf, leaf_sem, Option.getD_some, textAt, h1, h2, h5, Inl.sems, Chunk.text]
  | bold t r iht ihr =>
    intro i h
    simp only [Inl.pieces, List.map_cons, List.map_append] at h
    obtain ⟨-, h1⟩ := has_cons h
    obtain ⟨h2, h3⟩ := has_append h1
    obtain ⟨-, h4⟩ := has_cons h3
    obtain ⟨k1, k2⟩ := iht (i + 1) h2
    obtain ⟨k3, k4⟩ := ihr (i + t.pieces.length + 2) (by
      rw [List.length_map] at h4
      rwa [show i + t.pieces.length + 2 = i + 1 + t.pieces.length + 1 from by omega])
    refine ⟨⟨⟨rfl, .Bold, rfl⟩, k1, k3⟩, ?_⟩
    simp only [Inl.forest, semsOf, k2, k4, Inl.sems, branchKind, Option.getD_some, branch]
  | italic t r iht ihr =>
    intro i h
    simp only [Inl.pieces, List.map_cons, List.map_append] at h
    obtain ⟨-, h1⟩ := has_cons h
    obtain ⟨h2, h3⟩ := has_append h1
    obtain ⟨-, h4⟩ := has_cons h3
    obtain ⟨k1, k2⟩ := iht (i + 1) h2
    obtain ⟨k3, k4⟩ := ihr (i + t.pieces.length + 2) (by
      rw [List.length_map] at h4
      rwa [show i + t.pieces.length + 2 = i + 1 + t.pieces.length + 1 from by omega])
    refine ⟨⟨⟨rfl, .Italic, rfl⟩, k1, k3⟩, ?_⟩
    simp only [Inl.forest, semsOf, k2, k4, Inl.sems, branchKind, Option.getD_some, branch]

theorem trimmed_step (s : Sem) (l : List Sem) : trimmed (s :: l) = if trimmed l = [] ∧ s.isBlank = true then [] else s :: trimmed l := by
  unfold trimmed
  rw [List.reverse_cons, List.dropWhile_append]
  by_cases h : List.dropWhile Sem.isBlank l.reverse = []
  · rw [h]
    by_cases hs : s.isBlank = true
    · simp [hs]
    · simp [hs]
  · have : (List.dropWhile Sem.isBlank l.reverse).isEmpty = false := by simpa using h
    rw [this]
    simp [h]

theorem sems_nil {t : Inl} (h : t.sems = []) : t = .nil := by cases t <;> simp [Inl.sems] at h ⊢

theorem trim_sems (t : Inl) : trimmed t.sems = t.trim.sems := by
  have key : ∀ (s : Sem) (r : Inl), s.isBlank = false → trimmed (s :: r.sems) = s :: trimmed r.sems := by
    intro s r hs
    rw [trimmed_step, if_neg (by simp [hs])]
  have nb : ∀ p : Piece, (∀ n, p ≠ .gap n) → (∀ n, p ≠ .brk n) → (Sem.leaf p.semKind p.text).isBlank = false := by
    intro p h1 h2
    cases p with
    | word w => simp only [Piece.semKind]; split_ifs <;> rfl
    | gap n => exact absurd rfl (h1 n)
    | brk n => exact absurd rfl (h2 n)
    | _ => rfl
  induction t with
  | nil => rfl
  | piece p r ih =>
    rw [Inl.sems]
    by_cases hb : (∃ n, p = .gap n) ∨ ∃ n, p = .brk n
    · have hs : (Sem.leaf p.semKind p.text).isBlank = true := by
        rcases hb with ⟨n, rfl⟩ | ⟨n, rfl⟩ <;> rfl
      rw [trimmed_step, ih]
      cases hr : r.trim with
      | nil =>
        rw [if_pos ⟨rfl, hs⟩]
        rcases hb with ⟨n, rfl⟩ | ⟨n, rfl⟩ <;> simp [Inl.trim, hr, Inl.sems]
      | _ =>
        rw [if_neg (by simp [Inl.sems])]
        rcases hb with ⟨n, rfl⟩ | ⟨n, rfl⟩ <;> simp [Inl.trim, hr, Inl.sems]
    · have h1 : ∀ n, p ≠ .gap n := fun n e => hb (.inl ⟨n, e⟩)
      have h2 : ∀ n, p ≠ .brk n := fun n e => hb (.inr ⟨n, e⟩)
      rw [key _ _ (nb p h1 h2), ih]
      cases p <;> first | (exact absurd rfl (h1 _)) | (exact absurd rfl (h2 _)) | (cases hr : r.trim <;> simp [Inl.trim, hr, Inl.sems])
  | bold t r _ ih => rw [Inl.sems, key _ _ rfl, ih]; rfl
  | italic t r _ ih => rw [Inl.sems, key _ _ rfl, ih]; rfl

theorem pars_conv {toks : List Tok} (d : Pars) : ∀ i, Has toks i (d.pieces.map .txt) →
    Simple toks (d.forest i) ∧ semsOf toks (d.forest i) = d.sems := by
  induction d with
  | nil => intro i _; exact ⟨trivial, rfl⟩
  | brk n r ih =>
    intro i h
    obtain ⟨⟨t, h1, h2⟩, h3⟩ := has_cons h
    obtain ⟨h4, h5⟩ := ih (i + 1) h3
    refine ⟨⟨⟨.Newline, i, t, rfl, rfl, h1⟩, h4⟩, ?_⟩
    simp only [Pars.forest, semsOf, textAt, h1, h2, h5, Pars.sems]
    rfl
  | par t r ih =>
    intro i h
    simp only [Pars.pieces, List.map_append] at h
    obtain ⟨h1, h2⟩ := has_append h
    rw [List.length_map] at h2
    obtain ⟨k1, k2⟩ := inl_conv t i h1
    obtain ⟨k3, k4⟩ := ih _ h2
    refine ⟨⟨⟨rfl, .Paragraph, rfl⟩, k1, k3⟩, ?_⟩
    simp only [Pars.forest, semsOf, k2, k4, Pars.sems, branchKind, Option.getD_some, branch, trim_sems]

/-! ## Headlines -/

theorem tags_conv {toks : List Tok} (ts : List (List Char)) : ∀ i, (∀ t ∈ ts, Pipeline.IsWord t) →
    Has toks i ((ts.flatMap fun t => [Piece.word t, .colon]).map .txt) → mapE (tagName toks) (groupsF (tagList i ts)) = .ok ts := by
  induction ts with
  | nil => intro i _ _; rfl
  | cons t ts ih =>
    intro i hv h
    simp only [List.flatMap_cons, List.cons_append, List.nil_append, List.map_cons] at h
    obtain ⟨⟨x, h1, h2⟩, h3⟩ := has_cons h
    obtain ⟨-, h4⟩ := has_cons h3
    have hr := ih (i + 2) (fun y hy => hv y (by simp [hy])) h4
    have hw := hv t (by simp)
    have ht : tagName toks (⟨.HashTag, .ext (Forest.leaf (M := Unit) NK.RawText (.tok i) .nil).count⟩ :: (Forest.leaf (M := Unit) NK.RawText (.tok i) .nil).flat) = .ok t := by
      have hx : stripSets x.text (· = '#') (fun _ => false) = t := by
        rw [h2]
        obtain ⟨⟨c, hc1, hc2⟩, -⟩ := hw
        have : c ≠ '#' := by
          rintro rfl
          exact absurd hc2 (by decide)
        cases t with
        | nil => cases hc1
        | cons y t =>
          cases hc1
          simp [stripSets, Chunk.text, Piece.text, this]
      unfold tagName
      rw [children_tree]
      simp only [groupsF, getText, h1, hx]
    simp only [tagList, groupsF, mapE, ht, hr]

theorem prio_strip {c : Char} (h : BaseLexer.isAlpha c = true ∨ c = '_') :
    stripSets ['[', '#', c, ']'] (fun c => c = '[' || c = '#') (· = ']') = [c] := by
  have hc : c ≠ '[' ∧ c ≠ '#' ∧ c ≠ ']' := by
    rcases h with h | rfl
    · exact ⟨Pipeline.alpha_ne h (by decide), Pipeline.alpha_ne h (by decide), Pipeline.alpha_ne h (by decide)⟩
    · decide
  simp [stripSets, hc]

theorem keep_title {t : Inl} (h : t.pieces.head? ≠ some (.word Pipeline.comment)) : dropComment t.trim.sems = (false, t.trim.sems) := by
  cases t with
  | nil => rfl
  | piece p r =>
    have hw : ∀ w, p = .word w → w ≠ commentWord := by
      rintro w rfl rfl
      exact h rfl
    have key : ∀ q : Inl, dropComment (Inl.piece p q).sems = (false, (Inl.piece p q).sems) := by
      intro q
      cases p with
      | word w =>
        have := hw w rfl
        simp only [Inl.sems, Piece.semKind, Piece.text]
        split_ifs
        · simp only [dropComment, this, if_false]
        · rfl
      | _ => rfl
    have : (Inl.piece p r).trim = .nil ∨ ∃ q, (Inl.piece p r).trim = .piece p q := by
      cases p <;> cases hr : r.trim <;> simp [Inl.trim, hr]
    rcases this with e | ⟨q, e⟩
    · rw [e]; rfl
    · rw [e]; exact key q
  | bold t r => rfl
  | italic t r => rfl

theorem conv_head {toks : List Tok} {e : Entry} {i : Nat} {c r : Forest NK Unit} {cs rs : List Sem}
    (hhas : Has toks i e.chunks) (hvalid : ∀ c ∈ e.chunks, c.Valid) (hplain : e.Plain) (hc : Conv toks c cs) (hr : Conv toks r rs) :
    Conv toks (.tree .Subtree (e.fields i (.tree .StmtList c .nil)) r) (.head e.info e.title.trim.sems cs :: rs) := by
  unfold Entry.chunks at hhas
  obtain ⟨⟨st, hst1, hst2⟩, h1⟩ := has_cons hhas
  obtain ⟨-, h2⟩ := has_cons h1
  obtain ⟨hm, h3⟩ := has_append h2
  rw [List.append_assoc, List.map_append] at h3
  obtain ⟨ht, h4⟩ := has_append h3
  rw [Entry.tail, List.append_assoc, List.map_append] at h4
  obtain ⟨htg, -⟩ := has_append h4
  rw [List.length_map] at htg
  obtain ⟨hts, htsem⟩ := inl_conv e.title (e.titleAt i) ht
  have htc := conv_simple hts
  rw [htsem] at htc
  have hvt : ∀ t ∈ e.tags, Pipeline.IsWord t := by
    intro t ht
    refine hvalid (.txt (.word t)) ?_
    have hne : e.tags ≠ [] := by rintro e; rw [e] at ht; cases ht
    have : Piece.word t ∈ tagPieces e.tags := by
      simp only [tagPieces, hne, if_false, List.mem_cons, reduceCtorEq, List.mem_flatMap, List.not_mem_nil, or_false, false_or]
      exact ⟨t, ht, rfl⟩
    simp [Entry.chunks, Entry.tail, this]
  -- the nine fields
  obtain ⟨A1, A2, hA, hA1, hA2, hAe⟩ : ∃ A1 A2 : Adapter, (∀ f, groupsF (e.mark.forest (i + 2) f) = A1 :: A2 :: groupsF f) ∧
      ((kindOf A1 = .Empty ∧ e.mark.todo = none) ∨ (kindOf A1 ≠ .Empty ∧ ∃ t, getText toks A1 = .ok t ∧ e.mark.todo = some t)) ∧
      ((kindOf A2 = .Empty ∧ e.mark.prio = none) ∨
        (kindOf A2 ≠ .Empty ∧ ∃ t, getText toks A2 = .ok t ∧ e.mark.prio = some (stripSets t (fun c => c = '[' || c = '#') (· = ']')))) ∧
      isError A1 = false ∧ isError A2 = false := by
    cases hmk : e.mark with
    | none => exact ⟨_, _, fun f => rfl, .inl ⟨rfl, rfl⟩, .inl ⟨rfl, rfl⟩, rfl, rfl⟩
    | priority x g =>
      rw [hmk] at hm
      obtain ⟨⟨t, k1, k2⟩, -⟩ := has_cons hm
      have hx : BaseLexer.isAlpha x = true ∨ x = '_' := hvalid (.prio x) (by simp [Entry.chunks, hmk, Mark.chunks])
      refine ⟨_, _, fun f => rfl, .inl ⟨rfl, rfl⟩, .inr ⟨by simp [kindOf], t.text, ?_, ?_⟩, rfl, rfl⟩
      · simp only [getText]
        rw [show i + 2 = i + 1 + 1 from rfl, k1]
      · rw [k2]
        exact congrArg some (prio_strip hx).symm
    | keyword w g x g' =>
      rw [hmk] at hm
      obtain ⟨⟨t, k1, k2⟩, k3⟩ := has_cons hm
      obtain ⟨-, k4⟩ := has_cons k3
      obtain ⟨⟨t', k5, k6⟩, -⟩ := has_cons k4
      have hx : BaseLexer.isAlpha x = true ∨ x = '_' := hvalid (.prio x) (by simp [Entry.chunks, hmk, Mark.chunks])
      refine ⟨_, _, fun f => rfl, .inr ⟨by simp [kindOf], t.text, ?_, ?_⟩, .inr ⟨by simp [kindOf], t'.text, ?_, ?_⟩, rfl, rfl⟩
      · simp only [getText]
        rw [show i + 2 = i + 1 + 1 from rfl, k1]
      · rw [k2]; rfl
      · simp only [getText]
        rw [show i + 2 + 2 = i + 1 + 1 + 1 + 1 from rfl, k5]
      · rw [k6]
        exact congrArg some (prio_strip hx).symm
  obtain ⟨A5, hA5, hA5t, hA5e⟩ : ∃ A5 : Adapter, (∀ f, groupsF (tagsForest (e.tagsAt i) f e.tags) = A5 :: groupsF f) ∧
      mapE (tagName toks) (children A5) = .ok e.tags ∧ isError A5 = false := by
    by_cases hne : e.tags = []
    · rw [hne]
      exact ⟨_, fun f => rfl, rfl, rfl⟩
    · refine ⟨⟨.InlineStmtList, .ext (tagList (e.tagsAt i + 1) e.tags).count⟩ :: (tagList (e.tagsAt i + 1) e.tags).flat, fun f => ?_, ?_, rfl⟩
      · simp only [tagsForest, hne, if_false, groupsF]
      · rw [children_tree]
        simp only [tagPieces, hne, if_false, List.map_cons] at htg
        exact tags_conv e.tags _ hvt (has_cons htg).2
  have hfields : groupsF (e.fields i (.tree .StmtList c .nil)) =
      [[⟨.RawText, .tok i⟩], A1, A2, ⟨.Paragraph, .ext (e.title.forest (e.titleAt i)).count⟩ :: (e.title.forest (e.titleAt i)).flat,
        [⟨.Empty, .mono ()⟩], A5, [⟨.Empty, .mono ()⟩], [⟨.Empty, .mono ()⟩], ⟨.StmtList, .ext c.count⟩ :: c.flat] := by
    simp only [Entry.fields, groupsF, hA, absent, hA5]
  have hinfo : headInfo toks (⟨.Subtree, .ext (e.fields i (.tree .StmtList c .nil)).count⟩ :: (e.fields i (.tree .StmtList c .nil)).flat) e.title.trim.sems =
      .ok (e.info, e.title.trim.sems) := by
    rw [headInfo_eq (st := st.text) (td := e.mark.todo) (pr := e.mark.prio) (tags := e.tags) (by rw [children_tree, hfields])
      (by simp only [getText, hst1]) hA1 hA2 rfl hA5t rfl rfl hplain.1 (keep_title hplain.2)]
    simp only [Entry.info, hst2, Chunk.text, List.length_replicate, Except.ok.injEq, Prod.mk.injEq, and_true, HeadInfo.mk.injEq, true_and]
    have ha : archiveTag = Pipeline.archive := rfl
    rw [ha]
    refine ⟨?_, rfl⟩
    rw [Bool.eq_iff_iff]
    simp
  refine ⟨?_, fun d hd => ?_⟩
  · simp only [groupsF, List.any_cons, hr.1, Bool.or_false]
    rfl
  · obtain ⟨d, rfl⟩ : ∃ d', d = d' + 1 := ⟨d - 1, by simp only [Forest.count] at hd; omega⟩
    have hcount : (e.fields i (.tree .StmtList c .nil)).count = 1 + (fields0 e i).count + (1 + c.count) := by
      rw [fields_eq]
      simp only [Forest.count, count_append]
      omega
    have hcount0 : (e.title.forest (e.titleAt i)).count ≤ (fields0 e i).count := by
      unfold fields0
      cases e.mark <;> simp only [Mark.forest, absent, Forest.count] <;> omega
    simp only [Forest.count] at hd
    have hconv : convert toks (d + 1) (⟨.Subtree, .ext (e.fields i (.tree .StmtList c .nil)).count⟩ :: (e.fields i (.tree .StmtList c .nil)).flat) =
        .ok (.head e.info e.title.trim.sems cs) := by
      have hch := children_tree .Subtree (e.fields i (.tree .StmtList c .nil))
      have f3 : field (⟨.Subtree, .ext (e.fields i (.tree .StmtList c .nil)).count⟩ :: (e.fields i (.tree .StmtList c .nil)).flat) 3 =
          .ok (⟨.Paragraph, .ext (e.title.forest (e.titleAt i)).count⟩ :: (e.title.forest (e.titleAt i)).flat) := by
        unfold field; rw [hch, hfields]; rfl
      have f8 : field (⟨.Subtree, .ext (e.fields i (.tree .StmtList c .nil)).count⟩ :: (e.fields i (.tree .StmtList c .nil)).flat) 8 =
          .ok (⟨.StmtList, .ext c.count⟩ :: c.flat) := by
        unfold field; rw [hch, hfields]; rfl
      rw [convert]
      have herr : (children (⟨.Subtree, .ext (e.fields i (.tree .StmtList c .nil)).count⟩ :: (e.fields i (.tree .StmtList c .nil)).flat)).any isError = false := by
        rw [hch, hfields]
        simp only [List.any_cons, hAe.1, hAe.2, hA5e, List.any_nil, Bool.false_or, Bool.or_false]
        rfl
      rw [herr]
      simp only [Bool.false_eq_true, if_false, leafKind, branchKind, reduceCtorEq, if_true, f3, f8, bind, Except.bind, children_tree,
        htc.2 d (by omega), hc.2 d (by omega), trim_sems, hinfo, pure, Except.pure]
    simp only [groupsF, mapE, hconv, hr.2 (d + 1) (by omega)]

/-! ## The document -/

theorem takeWhile_snd (p : Entry → Bool) (l : Spots) : (l.takeWhile fun x => p x.2).map (·.2) = (l.map (·.2)).takeWhile p := by
  induction l with
  | nil => rfl
  | cons x l ih => by_cases h : p x.2 = true <;> simp [h, ih]

theorem dropWhile_snd (p : Entry → Bool) (l : Spots) : (l.dropWhile fun x => p x.2).map (·.2) = (l.map (·.2)).dropWhile p := by
  induction l with
  | nil => rfl
  | cons x l ih => by_cases h : p x.2 = true <;> simp [h, ih]

theorem spots_snd (es : List Entry) : ∀ i, (spots i es).map (·.2) = es := by
  induction es with
  | nil => intro i; rfl
  | cons e r ih => intro i; simp [spots, ih]

theorem spots_has {toks : List Tok} (es : List Entry) : ∀ i, Has toks i (es.flatMap Entry.chunks) →
    ∀ x ∈ spots i es, Has toks x.1 x.2.chunks := by
  induction es with
  | nil => intro i _ x hx; cases hx
  | cons e r ih =>
    intro i h x hx
    rw [List.flatMap_cons] at h
    obtain ⟨h1, h2⟩ := has_append h
    rcases List.mem_cons.mp hx with rfl | hx
    · exact h1
    · exact ih _ h2 x hx

/-- The parts of an entry are where they are expected. -/
theorem has_entry {toks : List Tok} {e : Entry} {i : Nat} (h : Has toks i e.chunks) :
    (∃ t, Pipeline.tokAt toks i = some t ∧ t.text = List.replicate (e.level + 1) '*') ∧
    Has toks (e.titleAt i) (e.title.pieces.map .txt) ∧ Has toks (e.bodyAt i) (e.body.pieces.map .txt) := by
  unfold Entry.chunks at h
  obtain ⟨h0, h1⟩ := has_cons h
  obtain ⟨-, h2⟩ := has_cons h1
  obtain ⟨-, h3⟩ := has_append h2
  rw [List.append_assoc, List.map_append] at h3
  obtain ⟨ht, h4⟩ := has_append h3
  rw [List.map_append] at h4
  obtain ⟨-, hb⟩ := has_append h4
  rw [List.length_map, List.length_map] at hb
  refine ⟨h0, ht, ?_⟩
  have e1 : i + 1 + 1 + e.mark.chunks.length + e.title.pieces.length + e.tail.length = e.bodyAt i := by
    simp only [Entry.bodyAt, Entry.tagsAt, Entry.titleAt]
  rwa [e1] at hb

theorem conv_nest {toks : List Tok} (n : Nat) : ∀ l : Spots, l.length ≤ n →
    (∀ x ∈ l, Has toks x.1 x.2.chunks ∧ (∀ c ∈ x.2.chunks, c.Valid) ∧ x.2.Plain) → Conv toks (nestF l) (Pipeline.sections (l.map (·.2))) := by
  induction n with
  | zero =>
    intro l hl _
    obtain rfl : l = [] := List.length_eq_zero_iff.mp (by omega)
    rw [nestF, List.map_nil, Pipeline.sections]
    exact conv_nil toks
  | succ n ih =>
    intro l hl h
    cases l with
    | nil =>
      rw [nestF, List.map_nil, Pipeline.sections]
      exact conv_nil toks
    | cons x r =>
      obtain ⟨i, e⟩ := x
      have ht := Pipeline.takeWhile_le (fun x : Nat × Entry => below e.level x.2) r
      have hd := Pipeline.dropWhile_le (fun x : Nat × Entry => below e.level x.2) r
      have h1 := ih (r.takeWhile fun x => below e.level x.2) (by simp at hl; omega)
        (fun y hy => h y (by simp [(List.takeWhile_sublist _).subset hy]))
      have h2 := ih (r.dropWhile fun x => below e.level x.2) (by simp at hl; omega)
        (fun y hy => h y (by simp [(List.dropWhile_sublist _).subset hy]))
      obtain ⟨k1, k2, k3⟩ := h (i, e) (by simp)
      rw [nestF, List.map_cons, Pipeline.sections, ← takeWhile_snd, ← dropWhile_snd]
      obtain ⟨b1, b2⟩ := pars_conv e.body _ (has_entry k1).2.2
      have hb := conv_simple b1
      rw [b2] at hb
      exact conv_head k1 k2 k3 (conv_append hb h1) h2

theorem joined_valid {cs : List Chunk} : ∀ {b : Bool}, Pipeline.JoinedFrom b cs → ∀ c ∈ cs, c.Valid := by
  induction cs with
  | nil => intro b _ c hc; cases hc
  | cons x cs ih =>
    intro b h c hc
    rcases List.mem_cons.mp hc with rfl | hc
    · exact h.1
    · exact ih h.2.2 c hc

/-- A written outline is loaded as that outline. -/
theorem load_outline (d : Pipeline.Outline) (hj : Pipeline.Joined d.chunks) (hf : d.Fine) (hp : ∀ e ∈ d.entries, e.Plain)
    {n : Nat} (hn : d.chunks.length + 4 ≤ n) : load BaseLexer.stdLex n (Pipeline.written d.chunks) = .ok d.sems := by
  obtain ⟨toks, h1, h2⟩ := Pipeline.outline_parsed d hj hf n hn
  have hh := has_all h2
  unfold Pipeline.Outline.chunks at hh
  obtain ⟨hpre, hent⟩ := has_append hh
  rw [List.length_map] at hent
  obtain ⟨p1, p2⟩ := pars_conv d.pre 1 hpre
  have hsp := spots_has d.entries _ hent
  have hval : ∀ x ∈ spots (1 + d.pre.pieces.length) d.entries, x.2 ∈ d.entries := by
    intro x hx
    have : x.2 ∈ (spots (1 + d.pre.pieces.length) d.entries).map (·.2) := List.mem_map.mpr ⟨x, hx, rfl⟩
    rwa [spots_snd] at this
  have hout := outlined_spots toks (d.pre.forest 1) (spots (1 + d.pre.pieces.length) d.entries) p1 (by
    intro x hx
    obtain ⟨⟨t, k1, k2⟩, k3, k4⟩ := has_entry (hsp x hx)
    exact ⟨(inl_conv _ _ k3).1, (pars_conv _ _ k4).1, by simp [textLen, k1, k2]⟩)
  have hc := conv_append (conv_simple p1) (conv_nest (toks := toks) _ (spots (1 + d.pre.pieces.length) d.entries) le_rfl
    (fun x hx => ⟨hsp x hx, fun c hc => joined_valid hj c (by
      simp only [Pipeline.Outline.chunks, List.mem_append, List.mem_flatMap]
      exact .inr ⟨x.2, hval x hx, hc⟩), hp _ (hval x hx)⟩))
  rw [p2, spots_snd] at hc
  unfold load
  rw [h1]
  simp only
  rw [← rowF_spots, hout]
  simp only
  have hdoc : convertDocument toks (Forest.tree NK.StmtList ((d.pre.forest 1).append (nestF (spots (1 + d.pre.pieces.length) d.entries))) .nil).flat =
      .ok d.sems := by
    unfold convertDocument
    rw [show (Forest.tree NK.StmtList ((d.pre.forest 1).append (nestF (spots (1 + d.pre.pieces.length) d.entries))) .nil).flat =
      ⟨.StmtList, .ext ((d.pre.forest 1).append (nestF (spots (1 + d.pre.pieces.length) d.entries))).count⟩ ::
        ((d.pre.forest 1).append (nestF (spots (1 + d.pre.pieces.length) d.entries))).flat from by simp [Forest.flat], children_tree]
    exact hc.2 _ (by rw [List.length_cons, flat_length]; omega)
  rw [hdoc]

end Verif.Sem
