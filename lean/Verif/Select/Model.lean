/-!
# Model of document selectors – src/haxorg/imm/ImmOrgEdit.cpp:311-585, ImmOrgEdit.hpp:59-160

A document is a tree whose children carry the number of the field they are in, in the order of
`getAllSubnodes`.  A node found in it is its position (the indices of the children from the
start of the search) with the tree there.  Messages are left out.  `Ctx::maxDepth` is left out:
it is never set (`with_max_depth`, 345-349, copies the old value instead of its argument).
-/

namespace Verif.Select

/-- A document (`true`) or a list of children (`false`). -/
inductive Doc (L : Type) : Bool → Type where
  | node (label : L) (kids : Doc L false) : Doc L true
  | nil : Doc L false
  | cons (field : Nat) (t : Doc L true) (rest : Doc L false) : Doc L false
deriving DecidableEq, Repr

/-- `ImmAdapter` -/
structure At (L : Type) where
  pos : List Nat
  doc : Doc L true
deriving DecidableEq, Repr

/-- Abnormal ends: an exception of a check, a failed assertion, reading past the end of the
conditions. -/
inductive Err where
  | throws | assertion | unchecked
deriving DecidableEq, Repr

/-- `OrgSelectorResult` – ImmOrgEdit.hpp:89-93 -/
structure Result where
  isMatching : Bool := false
  tryNestedNodes : Bool := true
deriving DecidableEq, Repr

/-- `OrgSelectorLink` – ImmOrgEdit.hpp:61-87 -/
inductive Link where
  | direct | indirect | field (name : Nat)
deriving DecidableEq, Repr

/-- `OrgSelectorCondition` – ImmOrgEdit.hpp:95-105 -/
structure Cond (L : Type) where
  check : At L → Except Err Result
  isTarget : Bool
  link : Option Link

/-- The matches and the visited set of `Ctx` – ImmOrgEdit.cpp:314-350 -/
structure St (L : Type) where
  found : List (At L)
  visited : Option (List (List Nat))

section
variable {L : Type}

/-- `getAllSubnodes` with the field of each – ImmOrg.cpp:443-481 (for a list: its nodes, with
the index of the first one) -/
def kidsAt : {b : Bool} → Doc L b → List Nat → Nat → List (Nat × At L)
  | true, .node _ _, _, _ => []
  | false, .nil, _, _ => []
  | false, .cons f t rest, p, i => (f, ⟨p ++ [i], t⟩) :: kidsAt rest p (i + 1)

/-- The children of a node. -/
def At.subnodes (a : At L) : List (Nat × At L) :=
  match a.doc with
  | .node _ ks => kidsAt ks a.pos 0

/-- `getAllSubnodesDFS`, `aux` – ImmOrg.cpp:483-498 -/
def dfs : {b : Bool} → Doc L b → List Nat → Nat → List (At L)
  | true, .node l ks, p, _ => ⟨p, .node l ks⟩ :: dfs ks p 0
  | false, .nil, _, _ => []
  | false, .cons _ t rest, p, i => dfs t (p ++ [i]) 0 ++ dfs rest p (i + 1)

/-- `getAllSubnodesDFS` – ImmOrg.cpp:483-498 -/
def At.subnodesDFS (a : At L) : List (At L) :=
  match a.doc with
  | .node _ ks => dfs ks a.pos 0

/-- `!can_visit` – ImmOrgEdit.cpp:327-333 -/
def St.seen (st : St L) (p : List Nat) : Bool :=
  match st.visited with
  | some v => decide (p ∈ v)
  | none => false

/-- `visit` – ImmOrgEdit.cpp:323-325 -/
def St.visit (st : St L) (p : List Nat) : St L :=
  { st with visited := st.visited.map (fun v => v ++ [p]) }

/-- A loop `if (recMatches(...)) { isMatch = true; }` over nodes. -/
def anyOf (f : At L → St L → Except Err (Bool × St L)) : List (At L) → St L → Except Err (Bool × St L)
  | [], st => .ok (false, st)
  | a :: as, st =>
    match f a st with
    | .error e => .error e
    | .ok (m, st) =>
      match anyOf f as st with
      | .error e => .error e
      | .ok (m', st) => .ok (m || m', st)

/-- A matching node – ImmOrgEdit.cpp:378-437: whether the rest of the path matches.  `next` is
the search for the next condition, none for the last one. -/
def follow (c : Cond L) (next : Option (At L → St L → Except Err (Bool × St L))) (a : At L) (st : St L) :
    Except Err (Bool × St L) :=
  match next with
  | none => .ok (true, st)
  | some f =>
    match c.link with
    | none => .error .assertion
    | some .direct => anyOf f (a.subnodes.map (·.2)) st
    | some .indirect =>
      match anyOf f a.subnodesDFS { st with visited := some (st.visited.getD []) } with
      | .error e => .error e
      | .ok (m, st') => .ok (m, { st' with visited := if st.visited.isSome then st'.visited else none })
    | some (.field name) => anyOf f ((a.subnodes.filter (fun k => decide (k.1 = name))).map (·.2)) st

/-- `recMatches` for one condition on a node, and on a list of nodes (459-461) –
ImmOrgEdit.cpp:351-466 -/
def run (c : Cond L) (next : Option (At L → St L → Except Err (Bool × St L))) :
    {b : Bool} → Doc L b → List Nat → Nat → St L → Except Err (Bool × St L)
  | true, .node l ks, p, _, st =>
    if st.seen p then .ok (false, st)
    else
      match c.check ⟨p, .node l ks⟩ with
      | .error e => .error e
      | .ok r =>
        if r.isMatching then
          match follow c next ⟨p, .node l ks⟩ (st.visit p) with
          | .error e => .error e
          | .ok (m, st) => .ok (m, if m && c.isTarget then { st with found := st.found ++ [⟨p, .node l ks⟩] } else st)
        else if r.tryNestedNodes then run c next ks p 0 (st.visit p)
        else .ok (false, st.visit p)
  | false, .nil, _, _, st => .ok (false, st)
  | false, .cons _ t rest, p, i, st =>
    match run c next t (p ++ [i]) 0 st with
    | .error e => .error e
    | .ok (m, st) =>
      match run c next rest p (i + 1) st with
      | .error e => .error e
      | .ok (m', st) => .ok (m || m', st)

/-- `recMatches` – ImmOrgEdit.cpp:351-466 -/
def recMatches : List (Cond L) → At L → St L → Except Err (Bool × St L)
  | [], _, _ => .error .unchecked
  | [c], a, st => run c none a.doc a.pos 0 st
  | c :: c' :: cs, a, st => run c (some (recMatches (c' :: cs))) a.doc a.pos 0 st

/-- `OrgDocumentSelector::getMatches` – ImmOrgEdit.cpp:469-480 -/
def getMatches (path : List (Cond L)) (d : Doc L true) : Except Err (List (At L)) :=
  match recMatches path ⟨[], d⟩ ⟨[], none⟩ with
  | .error e => .error e
  | .ok (_, st) => .ok st.found

end

/-- What the ready-made checks ask of a node. -/
structure Node where
  kind : Nat
  subtree : Bool
  level : Nat
  id : Option String
  title : List String
deriving DecidableEq, Repr

/-- The label of a node. -/
def At.label {L : Type} (a : At L) : L :=
  match a.doc with
  | .node l _ => l

/-- The check of `searchSubtreePlaintextTitle` – ImmOrgEdit.cpp:494-523; `title` is `flatWords`
of the title. -/
def titleCheck (title : List String) (a : At Node) : Except Err Result :=
  if a.label.subtree then .ok { isMatching := decide (title = a.label.title) } else .ok { isMatching := false }

/-- The check of `searchSubtreeId` – ImmOrgEdit.cpp:525-556 -/
def idCheck (id : String) (maxLevel : Option Nat) (a : At Node) : Except Err Result :=
  if a.label.subtree then
    match maxLevel with
    | some _ => .ok { isMatching := decide (a.label.id = some id) }
    | none => .error .throws
  else .ok { isMatching := false }

/-- The check of `searchAnyKind` – ImmOrgEdit.cpp:558-571 -/
def kindCheck (kinds : List Nat) (a : At Node) : Except Err Result :=
  .ok { isMatching := decide (a.label.kind ∈ kinds) }

end Verif.Select
