/-!
# C93: finding nodes by their names

Model of `getAstTrackingMap` and `eachSubnodeRecSimplePath` (`src/haxorg/api/SemBaseApi.cpp:404-470`), `getAllSubnodes`
(`src/haxorg/sem/SemOrgApi.cpp:268-290`) and the look-ups of `AstTrackingMap` (`src/haxorg/api/SemBaseApi.hpp:200-233`), and their properties.
-/

namespace Verif.Api.Track

/-- What tracking asks of a node. -/
inductive Kind where
  /-- `Subtree`: its id, the words of its `RadioId` properties, and the flat tags of its `HashtagDef` properties -/
  | subtree (id : Option String) (radio : List (List String)) (tags : List (List String))
  /-- `Paragraph`: the name, if it starts with a footnote – `getFootnoteName`, SemOrgSharedApi.cpp:975-982 -/
  | paragraph (footnote : Option String)
  /-- `RadioTarget`: its words -/
  | radio (words : List String)
  | other (n : Nat)
deriving DecidableEq, Repr

/-- A node: the field `subnodes`, the other fields of type `SemId` and `Vec<SemId>`, and those of type `Opt<SemId>`, such as the header of a
list item.  No field is nil. -/
inductive Node where
  | mk (kind : Kind) (subnodes more optional : List Node)

namespace Node
def kind : Node → Kind | .mk k _ _ _ => k
def subnodes : Node → List Node | .mk _ s _ _ => s
def more : Node → List Node | .mk _ _ m _ => m
def optional : Node → List Node | .mk _ _ _ o => o
/-- `getAllSubnodes` – SemOrgApi.cpp:268-290: there is no case for `Opt`. -/
def allSubnodes (n : Node) : List Node := n.subnodes ++ n.more
end Node

/-- `AstTrackingPath` -/
abbrev Path := List Node

/-- `UnorderedMap<Str, AstTrackingAlternatives>` -/
abbrev Alts (K : Type) := List (K × List Path)

/-- `get` -/
def Alts.get {K : Type} [DecidableEq K] (m : Alts K) (k : K) : Option (List Path) :=
  match m with
  | [] => none
  | (k', ps) :: m => if k' = k then some ps else Alts.get m k

/-- `get_or_insert` and `push_back` – SemBaseApi.cpp:425-431 -/
def Alts.push {K : Type} [DecidableEq K] (m : Alts K) (k : K) (p : Path) : Alts K :=
  match m with
  | [] => [(k, [p])]
  | (k', ps) :: m => if k' = k then (k', ps ++ [p]) :: m else (k', ps) :: Alts.push m k p

/-- `AstTrackingMap` – SemBaseApi.hpp:202-213; the fields `names` and `anchorTargets` are not written. -/
structure Map where
  footnotes : Alts String := []
  subtrees : Alts String := []
  names : Alts String := []
  anchorTargets : Alts String := []
  radioTargets : Alts String := []
  hashtagDefinitions : Alts (List String) := []

/-- `getIdPath` – SemBaseApi.hpp:215-217 -/
def Map.getIdPath (m : Map) (id : String) : Option (List Path) := m.subtrees.get id
/-- `getFootnotePath` – SemBaseApi.hpp:229-232 -/
def Map.getFootnotePath (m : Map) (id : String) : Option (List Path) := m.names.get id

/-- `Vec::at` out of range -/
inductive Err where
  | range
deriving DecidableEq, Repr

/-- Radio targets under their first words – SemBaseApi.cpp:438-441, 461-466 -/
def pushRadios (m : Map) : List (List String × Path) → Except Err Map
  | [] => .ok m
  | ([], _) :: _ => .error .range
  | (w :: _, p) :: l => pushRadios { m with radioTargets := m.radioTargets.push w p } l

/-- Hashtag definitions – SemBaseApi.cpp:443-453 -/
def pushTags (m : Map) (p : Path) : List (List String) → Map
  | [] => m
  | t :: l => pushTags { m with hashtagDefinitions := m.hashtagDefinitions.push t p } p l

/-- The radio targets directly in a paragraph, with their paths – SemBaseApi.cpp:461 -/
def radiosIn (path : Path) (n : Node) : List (List String × Path) :=
  n.subnodes.filterMap fun s =>
    match s.kind with
    | .radio ws => some (ws, path ++ [n, s])
    | _ => none

/-- The id of a subtree – SemBaseApi.cpp:434-436 -/
def recordId (m : Map) (p : Path) : Option String → Map
  | some id => { m with subtrees := m.subtrees.push id p }
  | none => m

/-- The name of a footnote – SemBaseApi.cpp:457-459 -/
def recordFoot (m : Map) (p : Path) : Option String → Map
  | some f => { m with footnotes := m.footnotes.push f p }
  | none => m

/-- The callback – SemBaseApi.cpp:423-468 -/
def record (path : Path) (n : Node) (m : Map) : Except Err Map :=
  match n.kind with
  | .subtree id radio tags => do
    let m ← pushRadios (recordId m (path ++ [n]) id) (radio.map fun ws => (ws, path ++ [n]))
    .ok (pushTags m (path ++ [n]) tags)
  | .paragraph foot => pushRadios (recordFoot m (path ++ [n]) foot) (radiosIn path n)
  | _ => .ok m

mutual
  /-- `aux` – SemBaseApi.cpp:407-412 -/
  def walk (path : Path) : Node → Map → Except Err Map
    | .mk k subs more opt, m => do
      let m ← record path (.mk k subs more opt) m
      let m ← walkAll (path ++ [.mk k subs more opt]) subs m
      walkAll (path ++ [.mk k subs more opt]) more m
  /-- The loop – SemBaseApi.cpp:409-411 -/
  def walkAll (path : Path) : List Node → Map → Except Err Map
    | [], m => .ok m
    | n :: ns, m => do
      let m ← walk path n m
      walkAll path ns m
end

/-- `getAstTrackingMap` – SemBaseApi.cpp:418-470 -/
def getAstTrackingMap (nodes : List Node) : Except Err Map := walkAll [] nodes {}

/-! ## Specification -/

/-- The path leads from the first node down to a node below it or itself, through fields as given. -/
inductive Leads (fields : Node → List Node) : Node → Path → Prop
  | here (n : Node) : Leads fields n [n]
  | down {n s : Node} {p : Path} : s ∈ fields n → Leads fields s p → Leads fields n (n :: p)

/-- All subnodes. -/
def Node.every (n : Node) : List Node := n.subnodes ++ n.more ++ n.optional

/-- The node at the end of a path is a subtree with this id. -/
def IsTree (id : String) (p : Path) : Prop := ∃ n r t, p.getLast? = some n ∧ n.kind = .subtree (some id) r t
/-- The node at the end of a path is a footnote with this name. -/
def IsFootnote (name : String) (p : Path) : Prop := ∃ n, p.getLast? = some n ∧ n.kind = .paragraph (some name)
/-- The node at the end of a path is a radio target starting with this word, or a subtree with such a radio id. -/
def IsRadio (w : String) (p : Path) : Prop :=
  ∃ n ws, p.getLast? = some n ∧ ws.head? = some w ∧ (n.kind = .radio ws ∨ ∃ id r t, n.kind = .subtree id r t ∧ ws ∈ r)
/-- The node at the end of a path is a subtree defining this tag. -/
def IsTagDef (tag : List String) (p : Path) : Prop := ∃ n id r t, p.getLast? = some n ∧ n.kind = .subtree id r t ∧ tag ∈ t

/-- **C93.** In full: tracking returns, and what is found under a name is every node with that name with the way to it, and nothing else. -/
def TrackStatement : Prop :=
  ∀ docs : List Node, ∃ m, getAstTrackingMap docs = .ok m ∧
    (∀ id p, p ∈ (m.getIdPath id).getD [] ↔ ∃ d ∈ docs, Leads Node.every d p ∧ IsTree id p) ∧
    (∀ name p, p ∈ (m.getFootnotePath name).getD [] ↔ ∃ d ∈ docs, Leads Node.every d p ∧ IsFootnote name p) ∧
    (∀ w p, p ∈ (m.radioTargets.get w).getD [] ↔ ∃ d ∈ docs, Leads Node.every d p ∧ IsRadio w p) ∧
    (∀ t p, p ∈ (m.hashtagDefinitions.get t).getD [] ↔ ∃ d ∈ docs, Leads Node.every d p ∧ IsTagDef t p)

/-! ## Lemmas -/

variable {K : Type} [DecidableEq K]

/-- What is under a name. -/
def Alts.at (m : Alts K) (k : K) : List Path := (m.get k).getD []

theorem at_push (m : Alts K) (k k' : K) (p : Path) : (m.push k p).at k' = if k = k' then m.at k' ++ [p] else m.at k' := by
  induction m with
  | nil => by_cases h : k = k' <;> simp [Alts.at, Alts.push, Alts.get, h]
  | cons e m ih =>
    obtain ⟨k₁, ps⟩ := e
    unfold Alts.at at ih ⊢
    simp only [Alts.push]
    by_cases h1 : k₁ = k
    · subst h1
      by_cases h : k₁ = k' <;> simp [Alts.get, h]
    · by_cases h2 : k₁ = k'
      · subst h2
        have : ¬ k = k₁ := fun h => h1 h.symm
        simp [Alts.get, h1, this]
      · simpa [Alts.get, h1, h2] using ih

/-- What a node adds: for every kind of name the new paths. -/
structure Adds (m m' : Map) (tree foot radio : String → Path → Prop) (tag : List String → Path → Prop) : Prop where
  tree : ∀ k p, p ∈ m'.subtrees.at k ↔ p ∈ m.subtrees.at k ∨ tree k p
  foot : ∀ k p, p ∈ m'.footnotes.at k ↔ p ∈ m.footnotes.at k ∨ foot k p
  radio : ∀ k p, p ∈ m'.radioTargets.at k ↔ p ∈ m.radioTargets.at k ∨ radio k p
  tag : ∀ k p, p ∈ m'.hashtagDefinitions.at k ↔ p ∈ m.hashtagDefinitions.at k ∨ tag k p
  names : m'.names = m.names

theorem Adds.refl (m : Map) : Adds m m (fun _ _ => False) (fun _ _ => False) (fun _ _ => False) (fun _ _ => False) :=
  ⟨by simp, by simp, by simp, by simp, rfl⟩

theorem Adds.trans {a b c : Map} {t f r g t' f' r' g'} (h : Adds a b t f r g) (h' : Adds b c t' f' r' g') :
    Adds a c (fun k p => t k p ∨ t' k p) (fun k p => f k p ∨ f' k p) (fun k p => r k p ∨ r' k p) (fun k p => g k p ∨ g' k p) :=
  ⟨fun k p => by rw [h'.tree, h.tree, or_assoc], fun k p => by rw [h'.foot, h.foot, or_assoc], fun k p => by rw [h'.radio, h.radio, or_assoc],
    fun k p => by rw [h'.tag, h.tag, or_assoc], by rw [h'.names, h.names]⟩

theorem Adds.congr {a b : Map} {t f r g t' f' r' g'} (h : Adds a b t f r g) (ht : ∀ k p, t k p ↔ t' k p) (hf : ∀ k p, f k p ↔ f' k p)
    (hr : ∀ k p, r k p ↔ r' k p) (hg : ∀ k p, g k p ↔ g' k p) : Adds a b t' f' r' g' :=
  ⟨fun k p => by rw [h.tree, ht], fun k p => by rw [h.foot, hf], fun k p => by rw [h.radio, hr], fun k p => by rw [h.tag, hg], h.names⟩

theorem pushRadios_adds : ∀ (l : List (List String × Path)) (m : Map), (∀ e ∈ l, e.1 ≠ []) →
    ∃ m', pushRadios m l = .ok m' ∧
      Adds m m' (fun _ _ => False) (fun _ _ => False) (fun k p => ∃ ws, (ws, p) ∈ l ∧ ws.head? = some k) (fun _ _ => False) := by
  intro l
  induction l with
  | nil => intro m _; exact ⟨m, rfl, (Adds.refl m).congr (by simp) (by simp) (by simp) (by simp)⟩
  | cons e l ih =>
    intro m h
    obtain ⟨ws, p₀⟩ := e
    cases ws with
    | nil => exact absurd rfl (h ([], p₀) (by simp))
    | cons w ws =>
      obtain ⟨m', h1, h2⟩ := ih { m with radioTargets := m.radioTargets.push w p₀ } fun e he => h e (by simp [he])
      refine ⟨m', h1, ?_, ?_, ?_, ?_, ?_⟩
      · exact h2.tree
      · exact h2.foot
      · intro k p
        rw [h2.radio]
        simp only [at_push]
        by_cases hk : w = k
        · subst hk
          simp only [if_true, List.mem_append, List.mem_cons, List.not_mem_nil, or_false, Prod.mk.injEq]
          constructor
          · rintro ((h | rfl) | ⟨ws', h, h'⟩)
            · exact .inl h
            · exact .inr ⟨w :: ws, .inl ⟨rfl, rfl⟩, rfl⟩
            · exact .inr ⟨ws', .inr h, h'⟩
          · rintro (h | ⟨ws', ⟨rfl, rfl⟩ | h, h'⟩)
            · exact .inl (.inl h)
            · exact .inl (.inr rfl)
            · exact .inr ⟨ws', h, h'⟩
        · simp only [hk, if_false, List.mem_cons, Prod.mk.injEq]
          constructor
          · rintro (h | ⟨ws', h, h'⟩)
            · exact .inl h
            · exact .inr ⟨ws', .inr h, h'⟩
          · rintro (h | ⟨ws', ⟨rfl, rfl⟩ | h, h'⟩)
            · exact .inl h
            · simp at h'; exact absurd h' hk
            · exact .inr ⟨ws', h, h'⟩
      · exact h2.tag
      · exact h2.names

theorem pushTags_adds (q : Path) : ∀ (l : List (List String)) (m : Map),
    Adds m (pushTags m q l) (fun _ _ => False) (fun _ _ => False) (fun _ _ => False) (fun k p => k ∈ l ∧ p = q) := by
  intro l
  induction l with
  | nil => intro m; exact (Adds.refl m).congr (by simp) (by simp) (by simp) (by simp)
  | cons t l ih =>
    intro m
    have h2 := ih { m with hashtagDefinitions := m.hashtagDefinitions.push t q }
    refine ⟨h2.tree, h2.foot, h2.radio, ?_, h2.names⟩
    intro k p
    simp only [pushTags]
    rw [h2.tag]
    simp only [at_push]
    by_cases hk : t = k
    · subst hk
      simp only [if_true, List.mem_append, List.mem_cons, List.not_mem_nil, or_false, true_or, true_and]
      constructor
      · rintro ((h | h) | ⟨_, h⟩)
        · exact .inl h
        · exact .inr h
        · exact .inr h
      · rintro (h | h)
        · exact .inl (.inl h)
        · exact .inl (.inr h)
    · have hk' : ¬ k = t := fun h => hk h.symm
      simp [hk, hk']

/-- What a single node stands for: see `IsTree`, `IsFootnote`, `IsRadio`, `IsTagDef`; radio targets are found from the paragraph they are in. -/
def ownRadio (n : Node) (w : String) (q : Path) : Prop :=
  (q = [n] ∧ ∃ id r t, n.kind = .subtree id r t ∧ ∃ ws ∈ r, ws.head? = some w) ∨
  ∃ s f ws, q = [n, s] ∧ n.kind = .paragraph f ∧ s ∈ n.subnodes ∧ s.kind = .radio ws ∧ ws.head? = some w

/-- Every radio target of the node, and of the paragraph, has words. -/
def Worded (n : Node) : Prop :=
  (∀ id r t, n.kind = .subtree id r t → [] ∉ r) ∧ (∀ f, n.kind = .paragraph f → ∀ s ∈ n.subnodes, s.kind ≠ .radio [])

theorem record_adds' (path : Path) (n : Node) (m : Map) (hw : Worded n) :
    ∃ m', record path n m = .ok m' ∧
      Adds m m' (fun k p => p = path ++ [n] ∧ ∃ r t, n.kind = .subtree (some k) r t) (fun k p => p = path ++ [n] ∧ n.kind = .paragraph (some k))
        (fun k p => ∃ q, p = path ++ q ∧ ownRadio n k q) (fun k p => p = path ++ [n] ∧ ∃ id r t, n.kind = .subtree id r t ∧ k ∈ t) := by
  unfold record
  cases hk : n.kind with
  | subtree id radio tags =>
    simp only
    generalize hm1 : recordId m (path ++ [n]) id = m1
    have h1 : Adds m m1 (fun k p => p = path ++ [n] ∧ id = some k) (fun _ _ => False) (fun _ _ => False) (fun _ _ => False) := by
      subst hm1
      cases id with
      | none => exact (Adds.refl m).congr (by simp) (by simp) (by simp) (by simp)
      | some id =>
        refine ⟨?_, by simp [recordId], by simp [recordId], by simp [recordId], rfl⟩
        intro k p
        simp only [recordId, at_push]
        by_cases h : id = k <;> simp [h]
    obtain ⟨m2, h2, h2'⟩ := pushRadios_adds (radio.map fun ws => (ws, path ++ [n])) m1 (by
      intro e he
      obtain ⟨ws, hws, rfl⟩ := List.mem_map.1 he
      intro h0
      simp only at h0
      subst h0
      exact hw.1 _ _ _ hk hws)
    have h3 := pushTags_adds (path ++ [n]) tags m2
    simp only [bind, Except.bind, h2]
    refine ⟨_, rfl, ((h1.trans h2').trans h3).congr ?_ ?_ ?_ ?_⟩
    · intro k p; simp
    · intro k p; simp
    · intro k p
      simp only [ownRadio, hk, Kind.subtree.injEq, List.mem_map, Prod.mk.injEq, false_or, or_false, reduceCtorEq, false_and, and_false,
        exists_false]
      constructor
      · rintro ⟨ws, ⟨ws', h, rfl, rfl⟩, h'⟩
        exact ⟨[n], rfl, rfl, _, _, _, ⟨rfl, rfl, rfl⟩, ws', h, h'⟩
      · rintro ⟨q, rfl, rfl, _, _, _, ⟨rfl, rfl, rfl⟩, ws', h, h'⟩
        exact ⟨ws', ⟨ws', h, rfl, rfl⟩, h'⟩
    · intro k p
      simp only [false_or, Kind.subtree.injEq]
      constructor
      · rintro ⟨h, rfl⟩; exact ⟨rfl, _, _, _, ⟨rfl, rfl, rfl⟩, h⟩
      · rintro ⟨rfl, _, _, _, ⟨rfl, rfl, rfl⟩, h⟩; exact ⟨h, rfl⟩
  | paragraph foot =>
    simp only
    generalize hm1 : recordFoot m (path ++ [n]) foot = m1
    have h1 : Adds m m1 (fun _ _ => False) (fun k p => p = path ++ [n] ∧ foot = some k) (fun _ _ => False) (fun _ _ => False) := by
      subst hm1
      cases foot with
      | none => exact (Adds.refl m).congr (by simp) (by simp) (by simp) (by simp)
      | some f =>
        refine ⟨by simp [recordFoot], ?_, by simp [recordFoot], by simp [recordFoot], rfl⟩
        intro k p
        simp only [recordFoot, at_push]
        by_cases h : f = k <;> simp [h]
    have hmem : ∀ ws p, (ws, p) ∈ radiosIn path n ↔ ∃ s ∈ n.subnodes, s.kind = .radio ws ∧ p = path ++ [n, s] := by
      intro ws p
      unfold radiosIn
      rw [List.mem_filterMap]
      constructor
      · rintro ⟨s, hs, h⟩
        split at h
        · rename_i ws' hws
          simp only [Option.some.injEq, Prod.mk.injEq] at h
          exact ⟨s, hs, by rw [hws, h.1], h.2.symm⟩
        · simp at h
      · rintro ⟨s, hs, h, rfl⟩
        exact ⟨s, hs, by rw [h]⟩
    obtain ⟨m2, h2, h2'⟩ := pushRadios_adds (radiosIn path n) m1 (by
      rintro ⟨ws, p⟩ he h0
      simp only at h0
      subst h0
      obtain ⟨s, hs, h, _⟩ := (hmem _ _).1 he
      exact hw.2 _ hk s hs h)
    refine ⟨m2, h2, (h1.trans h2').congr ?_ ?_ ?_ ?_⟩
    · intro k p; simp
    · intro k p; simp
    · intro k p
      simp only [ownRadio, hk, hmem, false_or, reduceCtorEq, false_and, and_false, exists_false, Kind.paragraph.injEq]
      constructor
      · rintro ⟨ws, ⟨s, hs, h, rfl⟩, h'⟩
        exact ⟨_, rfl, s, _, ws, rfl, rfl, hs, h, h'⟩
      · rintro ⟨q, rfl, s, _, ws, rfl, rfl, hs, h, h'⟩
        exact ⟨ws, ⟨s, hs, h, rfl⟩, h'⟩
    · intro k p; simp
  | radio ws => exact ⟨m, rfl, (Adds.refl m).congr (by simp) (by simp) (by simp [ownRadio, hk]) (by simp)⟩
  | other i => exact ⟨m, rfl, (Adds.refl m).congr (by simp) (by simp) (by simp [ownRadio, hk]) (by simp)⟩

def ownTree (k : String) (n : Node) (q : Path) : Prop := q = [n] ∧ ∃ r t, n.kind = .subtree (some k) r t
def ownFoot (k : String) (n : Node) (q : Path) : Prop := q = [n] ∧ n.kind = .paragraph (some k)
def ownTag (k : List String) (n : Node) (q : Path) : Prop := q = [n] ∧ ∃ id r t, n.kind = .subtree id r t ∧ k ∈ t

theorem record_adds (path : Path) (n : Node) (m : Map) (hw : Worded n) :
    ∃ m', record path n m = .ok m' ∧
      Adds m m' (fun k p => ∃ q, p = path ++ q ∧ ownTree k n q) (fun k p => ∃ q, p = path ++ q ∧ ownFoot k n q)
        (fun k p => ∃ q, p = path ++ q ∧ ownRadio n k q) (fun k p => ∃ q, p = path ++ q ∧ ownTag k n q) := by
  obtain ⟨m', h, a⟩ := record_adds' path n m hw
  have key : ∀ (P : Prop) (p : Path), p = path ++ [n] ∧ P ↔ ∃ q, p = path ++ q ∧ q = [n] ∧ P := by
    intro P p
    constructor
    · rintro ⟨rfl, h⟩; exact ⟨_, rfl, rfl, h⟩
    · rintro ⟨q, rfl, rfl, h⟩; exact ⟨rfl, h⟩
  exact ⟨m', h, a.congr (fun k p => key _ p) (fun k p => key _ p) (fun k p => Iff.rfl) (fun k p => key _ p)⟩

/-- The paths found below a node: a way through all subnodes, and then what the last node stands for. -/
def Found (own : Node → Path → Prop) (n : Node) (p : Path) : Prop := ∃ q last tail, Leads Node.allSubnodes n (q ++ [last]) ∧ own last tail ∧ p = q ++ tail

theorem found_iff (own : Node → Path → Prop) (n : Node) (p : Path) :
    Found own n p ↔ own n p ∨ ∃ s ∈ n.allSubnodes, ∃ p', Found own s p' ∧ p = n :: p' := by
  constructor
  · rintro ⟨q, last, tail, h, ho, rfl⟩
    cases q with
    | nil =>
      have : last = n := by
        cases h with
        | here => rfl
        | down _ h' => cases h'
      subst this
      exact .inl ho
    | cons x q =>
      rw [List.cons_append] at h
      generalize hq : q ++ [last] = r at h
      cases h with
      | here => simp at hq
      | down hs h' => subst hq; exact .inr ⟨_, hs, _, ⟨q, last, tail, h', ho, rfl⟩, rfl⟩
  · rintro (h | ⟨s, hs, p', ⟨q, last, tail, h, ho, rfl⟩, rfl⟩)
    · exact ⟨[], n, p, .here n, h, rfl⟩
    · exact ⟨n :: q, last, tail, .down hs h, ho, rfl⟩

/-- All nodes that are walked over have words in their radio targets. -/
def AllWorded (n : Node) : Prop := ∀ p x, Leads Node.allSubnodes n (p ++ [x]) → Worded x

theorem AllWorded.sub {n s : Node} (h : AllWorded n) (hs : s ∈ n.allSubnodes) : AllWorded s := by
  intro p x hp
  exact h (n :: p) x (.down hs hp)

def AddsFound (path : Path) (ns : List Node) (m m' : Map) : Prop :=
  Adds m m' (fun k p => ∃ n ∈ ns, ∃ q, p = path ++ q ∧ Found (ownTree k) n q) (fun k p => ∃ n ∈ ns, ∃ q, p = path ++ q ∧ Found (ownFoot k) n q)
    (fun k p => ∃ n ∈ ns, ∃ q, p = path ++ q ∧ Found (fun n => ownRadio n k) n q)
    (fun k p => ∃ n ∈ ns, ∃ q, p = path ++ q ∧ Found (ownTag k) n q)

theorem AddsFound.append {path : Path} {a b : List Node} {m m' m'' : Map} (h : AddsFound path a m m') (h' : AddsFound path b m' m'') :
    AddsFound path (a ++ b) m m'' := by
  refine (Adds.trans h h').congr ?_ ?_ ?_ ?_ <;>
  · intro k p
    simp only [List.mem_append]
    constructor
    · rintro (⟨n, hn, h⟩ | ⟨n, hn, h⟩)
      · exact ⟨n, .inl hn, h⟩
      · exact ⟨n, .inr hn, h⟩
    · rintro ⟨n, hn | hn, h⟩
      · exact .inl ⟨n, hn, h⟩
      · exact .inr ⟨n, hn, h⟩

theorem step_iff (own : Node → Path → Prop) (path : Path) (n : Node) (p : Path) :
    ((∃ q, p = path ++ q ∧ own n q) ∨ ∃ s ∈ n.allSubnodes, ∃ q, p = path ++ [n] ++ q ∧ Found own s q) ↔
      ∃ n' ∈ [n], ∃ q, p = path ++ q ∧ Found own n' q := by
  simp only [List.mem_singleton, exists_eq_left]
  constructor
  · rintro (⟨q, rfl, h⟩ | ⟨s, hs, q, rfl, h⟩)
    · exact ⟨q, rfl, (found_iff _ _ _).2 (.inl h)⟩
    · exact ⟨n :: q, by simp, (found_iff _ _ _).2 (.inr ⟨s, hs, q, h, rfl⟩)⟩
  · rintro ⟨q, rfl, h⟩
    rcases (found_iff _ _ _).1 h with h | ⟨s, hs, q', h', rfl⟩
    · exact .inl ⟨q, rfl, h⟩
    · exact .inr ⟨s, hs, q', by simp, h'⟩

mutual
  theorem walk_adds (path : Path) : ∀ (n : Node) (m : Map), AllWorded n → ∃ m', walk path n m = .ok m' ∧ AddsFound path [n] m m'
    | .mk k subs more opt, m, hw => by
      have hn : Worded (.mk k subs more opt) := hw [] _ (.here _)
      obtain ⟨m1, h1, a1⟩ := record_adds path (.mk k subs more opt) m hn
      obtain ⟨m2, h2, a2⟩ := walkAll_adds (path ++ [.mk k subs more opt]) subs m1
        (fun s hs => hw.sub (by simp only [Node.allSubnodes, Node.subnodes, List.mem_append]; exact .inl hs))
      obtain ⟨m3, h3, a3⟩ := walkAll_adds (path ++ [.mk k subs more opt]) more m2
        (fun s hs => hw.sub (by simp only [Node.allSubnodes, Node.more, List.mem_append]; exact .inr hs))
      refine ⟨m3, ?_, ?_⟩
      · rw [walk]
        simp only [bind, Except.bind, h1, h2, h3]
      · have a := a1.trans (a2.append a3)
        exact a.congr (fun key p => step_iff (ownTree key) path _ p) (fun key p => step_iff (ownFoot key) path _ p)
          (fun key p => step_iff (fun n => ownRadio n key) path _ p) (fun key p => step_iff (ownTag key) path _ p)
  theorem walkAll_adds (path : Path) : ∀ (ns : List Node) (m : Map), (∀ n ∈ ns, AllWorded n) → ∃ m', walkAll path ns m = .ok m' ∧ AddsFound path ns m m'
    | [], m, _ => ⟨m, rfl, (Adds.refl m).congr (by simp) (by simp) (by simp) (by simp)⟩
    | n :: ns, m, hw => by
      obtain ⟨m1, h1, a1⟩ := walk_adds path n m (hw n (by simp))
      obtain ⟨m2, h2, a2⟩ := walkAll_adds path ns m1 (fun s hs => hw s (by simp [hs]))
      refine ⟨m2, ?_, a1.append a2⟩
      rw [walkAll]
      simp only [bind, Except.bind, h1, h2]
end

/-! ## C93 -/

/-- A paragraph in which a footnote is defined. -/
def exFoot : Node := .mk (.paragraph (some "1")) [.mk (.other 0) [] [] []] [] []

/-- The code: footnotes are looked for among the names, where nothing is. -/
theorem track_false : ¬ TrackStatement := by
  intro h
  obtain ⟨m, h1, _, h2, _⟩ := h [exFoot]
  have h3 : getAstTrackingMap [exFoot] = .ok { footnotes := [("1", [[exFoot]])] } := rfl
  rw [h3] at h1
  cases h1
  have := (h2 "1" [exFoot]).2 ⟨exFoot, by simp, .here _, exFoot, rfl, rfl⟩
  simp [Map.getFootnotePath, Alts.get] at this

/-- The code: a radio target in bold text is not found. -/
theorem bold_target_lost : ∃ target : Node, target.kind = .radio ["a"] ∧
    (getAstTrackingMap [.mk (.paragraph none) [.mk (.other 0) [target] [] []] [] []]).toOption.map (fun m => m.radioTargets.get "a") = some none :=
  ⟨.mk (.radio ["a"]) [] [] [], rfl, rfl⟩

/-- The code: the header of a list item is not walked over. -/
theorem header_target_lost : ∃ header target : Node, header.kind = .paragraph none ∧ target ∈ header.subnodes ∧ target.kind = .radio ["a"] ∧
    (getAstTrackingMap [.mk (.other 1) [] [] [header]]).toOption.map (fun m => m.radioTargets.get "a") = some none :=
  ⟨.mk (.paragraph none) [.mk (.radio ["a"]) [] [] []] [] [], .mk (.radio ["a"]) [] [] [], rfl, by simp [Node.subnodes], rfl, rfl⟩

/-- All nodes that are there are walked over, and radio targets are directly in paragraphs (and have words). -/
structure Plain (d : Node) : Prop where
  reached : ∀ p x, Leads Node.every d (p ++ [x]) → x.optional = []
  worded : ∀ p x, Leads Node.every d (p ++ [x]) → Worded x
  top : ∀ ws, d.kind ≠ .radio ws
  inside : ∀ p x s ws, Leads Node.every d (p ++ [x]) → s ∈ x.every → s.kind = .radio ws → (∃ f, x.kind = .paragraph f) ∧ s ∈ x.subnodes

theorem leads_ne {f : Node → List Node} {n : Node} {p : Path} (h : Leads f n p) : ∃ q x, p = q ++ [x] := by
  induction h with
  | here n => exact ⟨[], n, rfl⟩
  | down _ _ ih =>
    obtain ⟨q, x, rfl⟩ := ih
    exact ⟨_ :: q, x, rfl⟩

theorem leads_plain {d : Node} (hp : ∀ p x, Leads Node.every d (p ++ [x]) → x.optional = []) {p : Path} :
    Leads Node.every d p ↔ Leads Node.allSubnodes d p := by
  constructor
  · intro h
    induction h with
    | here n => exact .here n
    | @down n s p hs h ih =>
      have h0 := hp [] n (.here n)
      refine .down ?_ (ih fun q x hq => hp (n :: q) x (.down hs hq))
      simpa [Node.every, Node.allSubnodes, h0] using hs
  · intro h
    induction h with
    | here n => exact .here n
    | @down n s p hs h ih =>
      have hs' : s ∈ n.every := by
        simp only [Node.allSubnodes, List.mem_append] at hs
        simp only [Node.every, List.mem_append]
        exact .inl hs
      exact .down hs' (ih fun q x hq => hp (n :: q) x (.down hs' hq))

theorem found_single {own : Node → Path → Prop} {Q : Node → Prop} (ho : ∀ n q, own n q ↔ q = [n] ∧ Q n) (n : Node) (p : Path) :
    Found own n p ↔ Leads Node.allSubnodes n p ∧ ∃ x, p.getLast? = some x ∧ Q x := by
  constructor
  · rintro ⟨q, last, tail, h, h', rfl⟩
    obtain ⟨rfl, hq⟩ := (ho _ _).1 h'
    exact ⟨h, last, by simp, hq⟩
  · rintro ⟨h, x, hx, hq⟩
    obtain ⟨q, y, rfl⟩ := leads_ne h
    simp only [List.getLast?_append, List.getLast?_singleton, Option.some_or, Option.some.injEq] at hx
    subst hx
    exact ⟨q, y, [y], h, (ho _ _).2 ⟨rfl, hq⟩, rfl⟩

theorem leads_snoc {f : Node → List Node} {n x s : Node} {q : Path} (h : Leads f n (q ++ [x])) (hs : s ∈ f x) : Leads f n (q ++ [x, s]) := by
  induction q generalizing n with
  | nil =>
    cases h with
    | here => exact .down hs (.here s)
    | down _ h => cases h
  | cons y q ih =>
    rw [List.cons_append] at h ⊢
    generalize hq : q ++ [x] = r at h
    cases h with
    | here => simp at hq
    | down hs' h' => subst hq; exact .down hs' (ih h')

theorem leads_init {f : Node → List Node} {n s : Node} {q : Path} (h : Leads f n (q ++ [s])) :
    (q = [] ∧ s = n) ∨ ∃ q' x, q = q' ++ [x] ∧ Leads f n (q' ++ [x]) ∧ s ∈ f x := by
  induction q generalizing n with
  | nil =>
    cases h with
    | here => exact .inl ⟨rfl, rfl⟩
    | down _ h => cases h
  | cons y q ih =>
    rw [List.cons_append] at h
    generalize hq : q ++ [s] = r at h
    cases h with
    | here => simp at hq
    | down hs' h' =>
      subst hq
      rcases ih h' with ⟨rfl, rfl⟩ | ⟨q', x, rfl, h1, h2⟩
      · exact .inr ⟨[], y, rfl, .here y, hs'⟩
      · exact .inr ⟨y :: q', x, rfl, .down hs' h1, h2⟩

/-- **C93**, for documents in which radio targets (with words) are directly in paragraphs and in which nothing is in optional fields: subtrees
are found by their ids, radio targets by their first words, and definitions of tags by the tags; footnotes are recorded, though not found by
`getFootnotePath`. -/
theorem track_partial (docs : List Node) (hp : ∀ d ∈ docs, Plain d) : ∃ m, getAstTrackingMap docs = .ok m ∧
    (∀ id p, p ∈ (m.getIdPath id).getD [] ↔ ∃ d ∈ docs, Leads Node.every d p ∧ IsTree id p) ∧
    (∀ name p, p ∈ (m.footnotes.get name).getD [] ↔ ∃ d ∈ docs, Leads Node.every d p ∧ IsFootnote name p) ∧
    (∀ w p, p ∈ (m.radioTargets.get w).getD [] ↔ ∃ d ∈ docs, Leads Node.every d p ∧ IsRadio w p) ∧
    (∀ t p, p ∈ (m.hashtagDefinitions.get t).getD [] ↔ ∃ d ∈ docs, Leads Node.every d p ∧ IsTagDef t p) := by
  have hall : ∀ d ∈ docs, AllWorded d := by
    intro d hd p x hx
    exact (hp d hd).worded p x ((leads_plain (hp d hd).reached).2 hx)
  obtain ⟨m, h1, h2⟩ := walkAll_adds [] docs {} hall
  refine ⟨m, h1, ?_, ?_, ?_, ?_⟩
  · intro k p
    have := h2.tree k p
    unfold Alts.at at this
    unfold Map.getIdPath
    rw [this]
    simp only [Alts.get, Option.getD_none, List.not_mem_nil, false_or, List.nil_append, exists_eq_left']
    refine exists_congr fun d => and_congr_right fun hd => ?_
    rw [found_single (own := ownTree k) (Q := fun n => ∃ r t, n.kind = .subtree (some k) r t) (fun _ _ => Iff.rfl), leads_plain (hp d hd).reached]
    simp [IsTree]
  · intro k p
    have := h2.foot k p
    unfold Alts.at at this
    rw [this]
    simp only [Alts.get, Option.getD_none, List.not_mem_nil, false_or, List.nil_append, exists_eq_left']
    refine exists_congr fun d => and_congr_right fun hd => ?_
    rw [found_single (own := ownFoot k) (Q := fun n => n.kind = .paragraph (some k)) (fun _ _ => Iff.rfl), leads_plain (hp d hd).reached]
    simp [IsFootnote]
  · intro k p
    have := h2.radio k p
    unfold Alts.at at this
    rw [this]
    simp only [Alts.get, Option.getD_none, List.not_mem_nil, false_or, List.nil_append, exists_eq_left']
    refine exists_congr fun d => and_congr_right fun hd => ?_
    have hpl := hp d hd
    constructor
    · rintro ⟨q, last, tail, h, ho | ho, rfl⟩
      · obtain ⟨rfl, id, r, t, hk, ws, hws, hh⟩ := ho
        exact ⟨(leads_plain hpl.reached).2 h, last, ws, by simp, hh, .inr ⟨id, r, t, hk, hws⟩⟩
      · obtain ⟨s, f, ws, rfl, hk, hs, hsk, hh⟩ := ho
        refine ⟨(leads_plain hpl.reached).2 (leads_snoc h (by simp [Node.allSubnodes, hs])), s, ws, by simp, hh, .inl hsk⟩
    · rintro ⟨h, x, ws, hx, hh, hk⟩
      obtain ⟨q, y, rfl⟩ := leads_ne h
      simp only [List.getLast?_append, List.getLast?_singleton, Option.some_or, Option.some.injEq] at hx
      subst hx
      rcases hk with hk | ⟨id, r, t, hk, hws⟩
      · rcases leads_init h with ⟨rfl, rfl⟩ | ⟨q', x, rfl, h', hs⟩
        · exact absurd hk (hpl.top ws)
        · obtain ⟨⟨f, hf⟩, hs'⟩ := hpl.inside q' x y ws h' hs hk
          exact ⟨q', x, [x, y], (leads_plain hpl.reached).1 h', .inr ⟨y, f, ws, rfl, hf, hs', hk, hh⟩, by simp⟩
      · exact ⟨q, y, [y], (leads_plain hpl.reached).1 h, .inl ⟨rfl, id, r, t, hk, ws, hws, hh⟩, rfl⟩
  · intro k p
    have := h2.tag k p
    unfold Alts.at at this
    rw [this]
    simp only [Alts.get, Option.getD_none, List.not_mem_nil, false_or, List.nil_append, exists_eq_left']
    refine exists_congr fun d => and_congr_right fun hd => ?_
    rw [found_single (own := ownTag k) (Q := fun n => ∃ id r t, n.kind = .subtree id r t ∧ k ∈ t) (fun _ _ => Iff.rfl), leads_plain (hp d hd).reached]
    simp [IsTagDef]

/-- `* Title` with an id and a tag, and below it a paragraph with the radio target `<<<human being>>>`. -/
def exDoc : Node :=
  .mk (.other 0) [.mk (.subtree (some "id") [["big", "cat"]] [["tag"]])
    [.mk (.paragraph none) [.mk (.radio ["human", "being"]) [] [] [], .mk (.other 1) [] [] []] [] []] [.mk (.paragraph none) [] [] []] []] [] []

example : Plain exDoc := by
  have hall : ∀ p x, Leads Node.every exDoc (p ++ [x]) → x = exDoc ∨ x ∈ exDoc.subnodes ∨ (∃ y ∈ exDoc.subnodes, x ∈ y.every) ∨
      ∃ y ∈ exDoc.subnodes, ∃ z ∈ y.every, x ∈ z.every := by
    have h4 : ∀ y ∈ exDoc.subnodes, ∀ z ∈ y.every, ∀ x ∈ z.every, x.every = [] := by
      simp [exDoc, Node.subnodes, Node.every, Node.more, Node.optional]
    intro p x h
    rcases leads_init h with ⟨rfl, rfl⟩ | ⟨q, y, rfl, h, hx⟩
    · exact .inl rfl
    rcases leads_init h with ⟨rfl, rfl⟩ | ⟨q, z, rfl, h, hy⟩
    · exact .inr (.inl (by simpa [exDoc, Node.subnodes, Node.every, Node.more, Node.optional] using hx))
    rcases leads_init h with ⟨rfl, rfl⟩ | ⟨q, w, rfl, h, hz⟩
    · exact .inr (.inr (.inl ⟨y, by simpa [exDoc, Node.subnodes, Node.every, Node.more, Node.optional] using hy, hx⟩))
    rcases leads_init h with ⟨rfl, rfl⟩ | ⟨q, v, rfl, h, hw⟩
    · exact .inr (.inr (.inr ⟨z, by simpa [exDoc, Node.subnodes, Node.every, Node.more, Node.optional] using hz, y, hy, hx⟩))
    exfalso
    have deep : ∀ {q : Path} {v w z y x : Node}, Leads Node.every exDoc (q ++ [v]) → w ∈ v.every → z ∈ w.every → y ∈ z.every → x ∈ y.every → False := by
      intro q
      induction hq : q.length generalizing q with
      | zero =>
        intro v w z y x hl hw hz hy hx
        cases q with
        | cons a b => simp at hq
        | nil =>
          rcases leads_init hl with ⟨_, rfl⟩ | ⟨_, _, h, _⟩
          · have := h4 w (by simpa [exDoc, Node.subnodes, Node.every, Node.more, Node.optional] using hw) z hz y hy
            rw [this] at hx
            simp at hx
          · simp at h
      | succ n ih =>
        intro v w z y x hl hw hz hy hx
        rcases leads_init hl with ⟨rfl, rfl⟩ | ⟨q', v', rfl, hl', hv⟩
        · simp at hq
        · exact ih (by simpa using hq) hl' hv hw hz hy
    exact deep h hw hz hy hx
  have hnodes : ∀ p x, Leads Node.every exDoc (p ++ [x]) → x.optional = [] ∧ Worded x ∧
      ∀ s ∈ x.every, ∀ ws, s.kind = .radio ws → (∃ f, x.kind = .paragraph f) ∧ s ∈ x.subnodes := by
    intro p x h
    have := hall p x h
    simp only [exDoc, Node.subnodes, Node.every, Node.more, Node.optional, List.mem_append, List.mem_cons,
      List.not_mem_nil, or_false, exists_eq_left, exists_eq_or_imp] at this
    rcases this with rfl | rfl | (rfl | rfl) | (rfl | rfl) <;>
      refine ⟨rfl, ⟨?_, ?_⟩, ?_⟩ <;> simp [Node.kind, Node.subnodes, Node.every, Node.more, Node.optional]
  exact ⟨fun p x h => (hnodes p x h).1, fun p x h => (hnodes p x h).2.1, by simp [exDoc, Node.kind],
    fun p x s ws h hs hk => (hnodes p x h).2.2 s hs ws hk⟩

end Verif.Api.Track
