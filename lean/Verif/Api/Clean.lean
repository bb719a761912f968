import Verif.Sem.OutlineProps

/-!
# C90: clean text

Model of `getCleanText`, `getDfsLeafText` (`src/haxorg/sem/SemOrgSharedApi.cpp:438-454, 1092-1140`) and `eachSubnodeRec`
(`src/haxorg/api/SemBaseApi.cpp:139-203`), on the sem nodes of `Verif.Sem`, and their properties.
-/

namespace Verif.Sem
open Verif.Pipeline (Pars Piece Entry Joined)
open Verif.BaseLexer (stdLex)

mutual
  /-- `recVisitOrgNodesImpl` – SemBaseApi.cpp:170-187: first the node, then the fields of its base class – the subnodes –, then its own
  fields – title or header. -/
  def Sem.visits : Sem → List Sem
    | .leaf k t => [.leaf k t]
    | .tree k subs => .tree k subs :: visitsOf subs
    | .item i header subs =>
      .item i header subs :: (visitsOf subs ++ if i.described then .tree .Paragraph header :: visitsOf header else [])
    | .head i title subs => .head i title subs :: (visitsOf subs ++ .tree .Paragraph title :: visitsOf title)
  def visitsOf : List Sem → List Sem
    | [] => []
    | s :: r => s.visits ++ visitsOf r
end

/-- The text of one node in `getCleanText` – SemOrgSharedApi.cpp:1114-1121: one space for spaces, else `Org_getString` – 438-454. -/
def Sem.ownText : Sem → Option (List Char)
  | .leaf .Space _ => some [' ']
  | .leaf _ t => some t
  | _ => none

/-- `getCleanText` – SemOrgSharedApi.cpp:1112-1121 -/
def Sem.cleanText (s : Sem) : List Char := (s.visits.filterMap Sem.ownText).flatten

/-- `getCleanTitle` – SemOrgSharedApi.cpp:890 -/
def Sem.cleanTitle : Sem → Option (List Char)
  | .head _ title _ => some (Sem.tree .Paragraph title).cleanText
  | _ => none

/-! ## Specification -/

mutual
  /-- The leaves in the order of the document: the title or header of a node is before what is below it. -/
  def Sem.leaves : Sem → List Sem
    | .leaf k t => [.leaf k t]
    | .tree _ subs => leavesOf subs
    | .item i header subs => (if i.described then leavesOf header else []) ++ leavesOf subs
    | .head _ title subs => leavesOf title ++ leavesOf subs
  def leavesOf : List Sem → List Sem
    | [] => []
    | s :: r => s.leaves ++ leavesOf r
end

/-- A leaf, any amount of space as one space. -/
def Sem.shown : Sem → List Char
  | .leaf .Space _ => [' ']
  | .leaf _ t => t
  | _ => []

mutual
  /-- There are neither headlines nor headers in it. -/
  def Sem.Flat : Sem → Prop
    | .leaf _ _ => True
    | .tree _ subs => FlatAll subs
    | .item i _ subs => i.described = false ∧ FlatAll subs
    | .head _ _ _ => False
  def FlatAll : List Sem → Prop
    | [] => True
    | s :: r => s.Flat ∧ FlatAll r
end

/-- A piece of text, any amount of space as one space. -/
def shown : Piece → List Char
  | .gap _ => [' ']
  | p => p.text

/-! ## Proofs -/

mutual
  theorem visits_flat (s : Sem) (h : s.Flat) : (s.visits.filterMap Sem.ownText) = s.leaves.map Sem.shown := by
    cases s with
    | leaf k t => cases k <;> rfl
    | tree k subs =>
      have := visitsOf_flat subs (by simpa [Sem.Flat] using h)
      simpa [List.filterMap_cons, Sem.visits, Sem.leaves, Sem.ownText] using this
    | item i header subs =>
      obtain ⟨h1, h2⟩ : i.described = false ∧ FlatAll subs := by simpa [Sem.Flat] using h
      have := visitsOf_flat subs h2
      simpa [List.filterMap_cons, Sem.visits, Sem.leaves, Sem.ownText, h1] using this
    | head i title subs => simp [Sem.Flat] at h
  theorem visitsOf_flat (ss : List Sem) (h : FlatAll ss) : ((visitsOf ss).filterMap Sem.ownText) = (leavesOf ss).map Sem.shown := by
    cases ss with
    | nil => rfl
    | cons s r =>
      obtain ⟨h1, h2⟩ : s.Flat ∧ FlatAll r := by simpa [FlatAll] using h
      have g1 := visits_flat s h1
      have g2 := visitsOf_flat r h2
      simp [visitsOf, leavesOf, g1, g2]
end

mutual
  theorem visits_perm (s : Sem) : (s.visits.filterMap Sem.ownText).Perm (s.leaves.map Sem.shown) := by
    cases s with
    | leaf k t => cases k <;> exact .refl _
    | tree k subs => simpa [List.filterMap_cons, Sem.visits, Sem.leaves, Sem.ownText] using visitsOf_perm subs
    | item i header subs =>
      have h1 := visitsOf_perm subs
      have h2 := visitsOf_perm header
      simp only [Sem.visits, Sem.leaves, List.filterMap_cons, Sem.ownText, List.filterMap_append, List.map_append]
      refine List.perm_append_comm.trans (List.Perm.append ?_ h1)
      by_cases hd : i.described = true
      · simpa [List.filterMap_cons, hd, Sem.ownText] using h2
      · simp [hd]
    | head i title subs =>
      have h1 := visitsOf_perm subs
      have h2 := visitsOf_perm title
      simp only [Sem.visits, Sem.leaves, List.filterMap_cons, Sem.ownText, List.filterMap_append, List.map_append]
      exact List.perm_append_comm.trans (List.Perm.append h2 h1)
  theorem visitsOf_perm (ss : List Sem) : ((visitsOf ss).filterMap Sem.ownText).Perm ((leavesOf ss).map Sem.shown) := by
    cases ss with
    | nil => exact .refl _
    | cons s r =>
      have g1 := visits_perm s
      have g2 := visitsOf_perm r
      simp only [visitsOf, leavesOf, List.filterMap_append, List.map_append]
      exact List.Perm.append g1 g2
end

theorem flatAll_inl (t : Pipeline.Inl) : FlatAll t.sems := by
  induction t with
  | nil => simp [Pipeline.Inl.sems, FlatAll]
  | piece p r ih => simp [Pipeline.Inl.sems, FlatAll, Sem.Flat, ih]
  | bold t r ih1 ih2 => simp [Pipeline.Inl.sems, FlatAll, Sem.Flat, ih1, ih2]
  | italic t r ih1 ih2 => simp [Pipeline.Inl.sems, FlatAll, Sem.Flat, ih1, ih2]

theorem leavesOf_append (a b : List Sem) : leavesOf (a ++ b) = leavesOf a ++ leavesOf b := by
  induction a with
  | nil => rfl
  | cons s a ih => simp [leavesOf, ih]

/-- The text inside the markup; `*` and `/` of the markup are left out. -/
def plain : Pipeline.Inl → List Piece
  | .nil => []
  | .piece p r => p :: plain r
  | .bold t r => plain t ++ plain r
  | .italic t r => plain t ++ plain r

theorem shown_piece (p : Piece) : (Sem.leaf p.semKind p.text).shown = shown p := by
  cases p with
  | word w =>
    simp only [Pipeline.Piece.semKind]
    split <;> rfl
  | _ => rfl

theorem leaves_inl (t : Pipeline.Inl) : (leavesOf t.sems).map Sem.shown = (plain t).map shown := by
  induction t with
  | nil => rfl
  | piece p r ih => simp [Pipeline.Inl.sems, leavesOf, Sem.leaves, plain, ih, shown_piece]
  | bold t r ih1 ih2 => simp [Pipeline.Inl.sems, leavesOf, Sem.leaves, plain, ih1, ih2]
  | italic t r ih1 ih2 => simp [Pipeline.Inl.sems, leavesOf, Sem.leaves, plain, ih1, ih2]

/-! ## Properties -/

/-- **C90.** In full: the clean text of a node is the text of its leaves in the order of the document, any amount of space as one space. -/
def CleanTextStatement : Prop := ∀ s : Sem, s.cleanText = (s.leaves.map Sem.shown).flatten

/-- The code: the clean text of a headline has its title after the text below it. -/
theorem cleanText_false : ¬ CleanTextStatement := by
  intro h
  have := h (.head { level := 1 } [.leaf .Word ['a']] [.tree .Paragraph [.leaf .Word ['b']]])
  revert this
  simp [List.filterMap_cons, Sem.cleanText, Sem.visits, visitsOf, Sem.ownText, Sem.leaves, leavesOf, Sem.shown]

/-- Nothing is lost or added in any case; and without headlines and headers inside, the text is in order. -/
theorem clean_text_partial (s : Sem) :
    (∃ l : List (List Char), l.Perm (s.leaves.map Sem.shown) ∧ s.cleanText = l.flatten) ∧ (s.Flat → s.cleanText = (s.leaves.map Sem.shown).flatten) :=
  ⟨⟨_, visits_perm s, rfl⟩, fun h => by unfold Sem.cleanText; rw [visits_flat s h]⟩

/-- All headlines of a tree with their clean titles, in the order of the document. -/
def titles (ss : List Sem) : List (List Char) := (visitsOf ss).filterMap Sem.cleanTitle

/-- The title of a headline as written, without markup, trailing space and repeated spaces. -/
def title (e : Entry) : List Char := ((plain e.title.trim).map shown).flatten

theorem visitsOf_append (a b : List Sem) : visitsOf (a ++ b) = visitsOf a ++ visitsOf b := by
  induction a with
  | nil => rfl
  | cons s a ih => simp [visitsOf, ih]

theorem titles_inl (t : Pipeline.Inl) : titles t.sems = [] := by
  unfold titles
  induction t with
  | nil => rfl
  | piece p r ih => simp [List.filterMap_cons, Pipeline.Inl.sems, visitsOf, Sem.visits, Sem.cleanTitle, ih]
  | bold t r ih1 ih2 => simp [List.filterMap_cons, Pipeline.Inl.sems, visitsOf, Sem.visits, Sem.cleanTitle, ih1, ih2]
  | italic t r ih1 ih2 => simp [List.filterMap_cons, Pipeline.Inl.sems, visitsOf, Sem.visits, Sem.cleanTitle, ih1, ih2]

theorem titles_pars (d : Pars) : titles d.sems = [] := by
  unfold titles
  induction d with
  | nil => rfl
  | brk n r ih => simp [List.filterMap_cons, Pars.sems, visitsOf, Sem.visits, Sem.cleanTitle, ih]
  | par t r ih =>
    have := titles_inl t.trim
    unfold titles at this
    simp [List.filterMap_cons, Pars.sems, visitsOf, Sem.visits, Sem.cleanTitle, ih, this]

theorem clean_title (e : Entry) : (Sem.tree .Paragraph e.title.trim.sems).cleanText = title e := by
  have h : (Sem.tree .Paragraph e.title.trim.sems).Flat := by simp [Sem.Flat, flatAll_inl]
  rw [(clean_text_partial _).2 h]
  unfold title
  rw [← leaves_inl]
  simp [Sem.leaves]

theorem titles_secs (s : Secs) : titles s.sems = s.entries.map title := by
  induction s with
  | nil => rfl
  | sec e s r ih1 ih2 =>
    have hb := titles_pars e.body
    have ht := titles_inl e.title.trim
    unfold titles at *
    simp only [Secs.sems, visitsOf, Sem.visits, List.filterMap_cons, Sem.cleanTitle, clean_title, List.cons_append, List.filterMap_append,
      visitsOf_append, hb, ht, ih1, ih2, Secs.entries, List.map_cons, List.map_append]
    simp

/-- **C90.** Reading a document with headlines, the clean titles are the titles as written, without markup, trailing space and repeated
spaces, in the order of the document. -/
theorem titles_read (pre : Pars) (s : Secs) (hs : s.Nested) (hj : Joined (Pipeline.Outline.chunks ⟨pre, s.entries⟩))
    (hf : Pipeline.Outline.Fine ⟨pre, s.entries⟩) (hp : ∀ e ∈ s.entries, e.Plain) (n : Nat)
    (hn : (Pipeline.Outline.chunks ⟨pre, s.entries⟩).length + 4 ≤ n) :
    ∃ doc, load stdLex n (Pipeline.written (Pipeline.Outline.chunks ⟨pre, s.entries⟩)) = .ok doc ∧ titles doc = s.entries.map title := by
  refine ⟨_, outline_loaded pre s hs hj hf hp n hn, ?_⟩
  have h1 := titles_pars pre
  have h2 := titles_secs s
  unfold titles at *
  rw [visitsOf_append, List.filterMap_append, h1, h2, List.nil_append]

example : (exSecs.entries.map title) = ["Buy tea".toList, "Sub".toList, "Next".toList] := by decide +kernel

example : (Sem.tree .Paragraph [.leaf .Word ['a'], .leaf .Space [' ', ' '], .tree .Bold [.leaf .Word ['b']]]).cleanText = ['a', ' ', 'b'] := by
  simp [List.filterMap_cons, Sem.cleanText, Sem.visits, visitsOf, Sem.ownText]

/-! ## Every node is visited once -/

/-- What is directly in a node: its title or header, and its subnodes. -/
def Sem.parts : Sem → List Sem
  | .leaf _ _ => []
  | .tree _ subs => subs
  | .item i header subs => (if i.described then [.tree .Paragraph header] else []) ++ subs
  | .head _ title subs => .tree .Paragraph title :: subs

/-- A node is in another one, at any depth, or is that node. -/
inductive Inside : Sem → Sem → Prop where
  | self (s : Sem) : Inside s s
  | part (s t u : Sem) : t ∈ s.parts → Inside t u → Inside s u

mutual
  /-- All nodes, each before what is in it, in the order of the document. -/
  def Sem.nodes : Sem → List Sem
    | .leaf k t => [.leaf k t]
    | .tree k subs => .tree k subs :: nodesOf subs
    | .item i header subs =>
      .item i header subs :: ((if i.described then .tree .Paragraph header :: nodesOf header else []) ++ nodesOf subs)
    | .head i title subs => .head i title subs :: .tree .Paragraph title :: (nodesOf title ++ nodesOf subs)
  def nodesOf : List Sem → List Sem
    | [] => []
    | s :: r => s.nodes ++ nodesOf r
end

mutual
  theorem visits_nodes (s : Sem) : s.visits.Perm s.nodes := by
    cases s with
    | leaf k t => exact .refl _
    | tree k subs => exact (visitsOf_nodes subs).cons _
    | item i header subs =>
      simp only [Sem.visits, Sem.nodes]
      refine .cons _ (List.perm_append_comm.trans (.append ?_ (visitsOf_nodes subs)))
      split
      · exact (visitsOf_nodes header).cons _
      · exact .refl _
    | head i title subs =>
      simp only [Sem.visits, Sem.nodes]
      exact .cons _ (List.perm_append_comm.trans (.append ((visitsOf_nodes title).cons _) (visitsOf_nodes subs)))
  theorem visitsOf_nodes (ss : List Sem) : (visitsOf ss).Perm (nodesOf ss) := by
    cases ss with
    | nil => exact .refl _
    | cons s r => exact .append (visits_nodes s) (visitsOf_nodes r)
end

theorem mem_nodesOf (ss : List Sem) (u : Sem) : u ∈ nodesOf ss ↔ ∃ s ∈ ss, u ∈ s.nodes := by
  induction ss with
  | nil => simp [nodesOf]
  | cons s r ih => simp [nodesOf, ih]

theorem nodes_self (s : Sem) : s ∈ s.nodes := by
  cases s <;> simp [Sem.nodes]

theorem mem_nodes (s u : Sem) : u ∈ s.nodes ↔ u = s ∨ ∃ t ∈ s.parts, u ∈ t.nodes := by
  cases s with
  | leaf k t => simp [Sem.nodes, Sem.parts]
  | tree k subs => simp [Sem.nodes, Sem.parts, mem_nodesOf]
  | item i header subs =>
    cases i.described <;> simp [Sem.nodes, Sem.parts, mem_nodesOf, or_assoc, or_and_right, exists_or]
  | head i title subs => simp [Sem.nodes, Sem.parts, mem_nodesOf, or_assoc]

theorem nodes_of_inside (s u : Sem) (h : Inside s u) : u ∈ s.nodes := by
  induction h with
  | self s => exact nodes_self s
  | part s t u ht _ ih => exact (mem_nodes s u).2 (Or.inr ⟨t, ht, ih⟩)

mutual
  theorem inside_of_nodes (s u : Sem) (h : u ∈ s.nodes) : Inside s u := by
    cases s with
    | leaf k t =>
      simp only [Sem.nodes, List.mem_singleton] at h
      subst h
      exact .self _
    | tree k subs =>
      simp only [Sem.nodes, List.mem_cons] at h
      rcases h with h | h
      · subst h
        exact .self _
      · obtain ⟨t, ht, hu⟩ := inside_of_nodesOf subs u h
        exact .part _ t u ht hu
    | item i header subs =>
      simp only [Sem.nodes, List.mem_cons, List.mem_append] at h
      rcases h with h | h | h
      · subst h
        exact .self _
      · split at h
        · rename_i hd
          rcases List.mem_cons.1 h with h | h
          · subst h
            exact .part _ _ _ (by simp [Sem.parts, hd]) (.self _)
          · obtain ⟨t, ht, hu⟩ := inside_of_nodesOf header u h
            exact .part _ (.tree .Paragraph header) _ (by simp [Sem.parts, hd]) (.part _ t u ht hu)
        · simp at h
      · obtain ⟨t, ht, hu⟩ := inside_of_nodesOf subs u h
        exact .part _ t u (by simp [Sem.parts, ht]) hu
    | head i title subs =>
      simp only [Sem.nodes, List.mem_cons, List.mem_append] at h
      rcases h with h | h | h | h
      · subst h
        exact .self _
      · subst h
        exact .part _ _ _ (by simp [Sem.parts]) (.self _)
      · obtain ⟨t, ht, hu⟩ := inside_of_nodesOf title u h
        exact .part _ (.tree .Paragraph title) _ (by simp [Sem.parts]) (.part _ t u ht hu)
      · obtain ⟨t, ht, hu⟩ := inside_of_nodesOf subs u h
        exact .part _ t u (by simp [Sem.parts, ht]) hu
  theorem inside_of_nodesOf (ss : List Sem) (u : Sem) (h : u ∈ nodesOf ss) : ∃ t ∈ ss, Inside t u := by
    cases ss with
    | nil => simp [nodesOf] at h
    | cons s r =>
      simp only [nodesOf, List.mem_append] at h
      rcases h with h | h
      · exact ⟨s, by simp, inside_of_nodes s u h⟩
      · obtain ⟨t, ht, hu⟩ := inside_of_nodesOf r u h
        exact ⟨t, by simp [ht], hu⟩
end

/-- `eachSubnodeRec` calls its function with the node itself first, and then with exactly the nodes in it, with each as often
as it is there. -/
theorem visits_all (s : Sem) :
    s.visits.head? = some s ∧ (∀ u, u ∈ s.visits ↔ Inside s u) ∧ s.visits.Perm s.nodes := by
  refine ⟨?_, ?_, visits_nodes s⟩
  · cases s <;> simp [Sem.visits]
  · intro u
    rw [(visits_nodes s).mem_iff]
    exact ⟨inside_of_nodes s u, nodes_of_inside s u⟩

end Verif.Sem
