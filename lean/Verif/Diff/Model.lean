/-!
# Model of the sequence differences – src/hstd/stdlib/diffs.hpp, diffs.cpp

Simplification: `int` positions and sizes are unbounded integers (`2 * maxD + 1` does not
overflow).  Vector accesses (`Vec::at`, and `operator[]` inside the user's comparison
callback) outside of the vector are the outcome `Err.range`.
-/

namespace Verif.Diff

/-- Abnormal outcomes. -/
inductive Err where
  /-- access outside of a vector (exception for `at`, undefined for `operator[]`) -/
  | range
  /-- failed assertion -/
  | assertion
  /-- the loop did not finish within the steps given to the model -/
  | fuel
deriving DecidableEq, Repr

/-- `SeqEditKind` – diffs.hpp:27-35. -/
inductive EditKind where
  | none | keep | insert | replace | delete | transpose
deriving DecidableEq, Repr

/-- `SeqEdit` – diffs.hpp:39-48. -/
structure Edit where
  kind : EditKind
  sourcePos : Int := -1
  targetPos : Int := -1
deriving DecidableEq, Repr

/-- `Vec::at` – src/hstd/stdlib/Vec.hpp:327-335. -/
def vecAt {α : Type} (v : List α) (i : Int) : Except Err α :=
  if i < 0 then .error .range else
    match v[i.toNat]? with
    | some a => .ok a
    | none => .error .range

/-- Assignment through `Vec::at`. -/
def vecSet {α : Type} (v : List α) (i : Int) (a : α) : Except Err (List α) :=
  if 0 ≤ i ∧ i < v.length then .ok (v.set i.toNat a) else .error .range

/-- The comparison callback: the wrappers (diffs.hpp:204-222, 279-282) index the two
sequences, so positions outside of them are errors. -/
def callCmp (n m : Nat) (cmp : Nat → Nat → Bool) (i j : Int) : Except Err Bool :=
  if 0 ≤ i ∧ i < n ∧ 0 ≤ j ∧ j < m then .ok (cmp i.toNat j.toNat) else .error .range

/-! ## `myersDiff` – diffs.cpp:100-161 -/

/-- Furthest position on each diagonal with the edits leading there – 110. -/
abbrev Front := List (Int × List Edit)

/-- `goDown` – 119-123. -/
def goDown (front : Front) (offset d k : Int) : Except Err Bool :=
  if k = -d then .ok true
  else if k = d then .ok false
  else do
    let l ← vecAt front (k + offset - 1)
    let r ← vecAt front (k + offset + 1)
    .ok (decide (l.1 < r.1))

/-- Start position on the diagonal and the inherited history – 125-135. -/
def pick (front : Front) (offset k : Int) (down : Bool) : Except Err (Int × List Edit) :=
  if down then vecAt front (k + offset + 1)
  else do
    let l ← vecAt front (k + offset - 1)
    .ok (l.1 + 1, l.2)

/-- The edit recorded for the step – 139-143. -/
def record (n m : Nat) (down : Bool) (x y : Int) (h : List Edit) : List Edit :=
  if 1 ≤ y ∧ y ≤ m ∧ down = true then h ++ [{ kind := .insert, targetPos := y - 1 }]
  else if 1 ≤ x ∧ x ≤ n then h ++ [{ kind := .delete, sourcePos := x - 1 }]
  else h

/-- Loop over equal elements – 145-149.  `fuel` bounds the number of rounds; the caller
passes the number of elements left on the left side. -/
def snake (n m : Nat) (cmp : Nat → Nat → Bool) :
    Nat → Int → Int → List Edit → Except Err (Int × Int × List Edit)
  | fuel, x, y, h =>
    if x < n ∧ y < m then
      match callCmp n m cmp x y with
      | .error e => .error e
      | .ok false => .ok (x, y, h)
      | .ok true =>
        match fuel with
        | 0 => .error .fuel
        | fuel + 1 =>
          snake n m cmp fuel (x + 1) (y + 1)
            (h ++ [{ kind := .keep, sourcePos := x, targetPos := y }])
    else .ok (x, y, h)

/-- Result of one round: either the final script or the updated front. -/
inductive Round where
  | done (script : List Edit)
  | more (front : Front)
deriving DecidableEq, Repr

/-- Body of the inner loop – 116-157. -/
def myersStep (n m : Nat) (cmp : Nat → Nat → Bool) (offset d : Int) (front : Front) (k : Int) :
    Except Err Round := do
  let down ← goDown front offset d k
  let p ← pick front offset k down
  let x := p.1
  let y := x - k
  let r ← snake n m cmp ((n : Int) - x).toNat x y (record n m down x y p.2)
  if (n : Int) ≤ r.1 ∧ (m : Int) ≤ r.2.1 then .ok (.done r.2.2)
  else do
    let front' ← vecSet front (k + offset) (r.1, r.2.2)
    .ok (.more front')

/-- Inner loop over the diagonals `-d, -d+2, …, d` – 115. -/
def myersInner (n m : Nat) (cmp : Nat → Nat → Bool) (offset d : Int) :
    List Int → Front → Except Err Round
  | [], front => .ok (.more front)
  | k :: ks, front => do
    let r ← myersStep n m cmp offset d front k
    match r with
    | .done h => .ok (.done h)
    | .more front' => myersInner n m cmp offset d ks front'

/-- The diagonals of round `d`. -/
def diagonals (d : Nat) : List Int := (List.range (d + 1)).map fun (i : Nat) => -(d : Int) + 2 * (i : Int)

/-- Outer loop – 114, and the fall-through result 160. -/
def myersOuter (n m : Nat) (cmp : Nat → Nat → Bool) (offset : Int) :
    List Nat → Front → Except Err (List Edit)
  | [], _ => .ok []
  | d :: ds, front => do
    let r ← myersInner n m cmp offset d (diagonals d) front
    match r with
    | .done h => .ok h
    | .more front' => myersOuter n m cmp offset ds front'

/-- `myersDiff` – 100-161. -/
def myersDiff (n m : Nat) (cmp : Nat → Nat → Bool) : Except Err (List Edit) :=
  if n = 0 ∧ m = 0 then .ok []
  else
    let maxD := n + m
    myersOuter n m cmp maxD (List.range (maxD + 1)) (List.replicate (2 * maxD + 1) (0, []))

/-! ## `levenshteinDistance` – diffs.cpp:163-246 -/

/-- A `Vec<Vec<T>>` with all rows of one length. -/
structure Grid (α : Type) where
  rows : Nat
  cols : Nat
  val : Nat → Nat → α

/-- `grid[i][j]` -/
def Grid.get {α : Type} (g : Grid α) (i j : Int) : Except Err α :=
  if 0 ≤ i ∧ i < g.rows ∧ 0 ≤ j ∧ j < g.cols then .ok (g.val i.toNat j.toNat) else .error .range

/-- `grid[i][j] = a` -/
def Grid.set {α : Type} (g : Grid α) (i j : Int) (a : α) : Except Err (Grid α) :=
  if 0 ≤ i ∧ i < g.rows ∧ 0 ≤ j ∧ j < g.cols then
    .ok { g with val := fun r c => if r = i.toNat ∧ c = j.toNat then a else g.val r c }
  else .error .range

/-- The two matrices. -/
structure Tables where
  table : Grid Int
  paths : Grid (Int × Int)

/-- Assign both entries of a cell. -/
def Tables.put (t : Tables) (i j : Int) (v : Int) (p : Int × Int) : Except Err Tables := do
  let table ← t.table.set i j v
  let paths ← t.paths.set i j p
  .ok ⟨table, paths⟩

/-- First column – 172-175. -/
def levColumn (t : Tables) (l : Nat) : Except Err Tables := t.put l 0 l (l - 1, 0)

/-- First row – 177-180. -/
def levRow (t : Tables) (r : Nat) : Except Err Tables := t.put 0 r r (0, r - 1)

/-- One cell – 184-200. -/
def levCell (n m : Nat) (eq : Nat → Nat → Bool) (t : Tables) (l r : Int) : Except Err Tables := do
  let e ← callCmp n m eq (l - 1) (r - 1)
  if e then do
    let v ← t.table.get (l - 1) (r - 1)
    t.put l r v (l - 1, r - 1)
  else do
    let up ← t.table.get (l - 1) r
    let left ← t.table.get l (r - 1)
    let diag ← t.table.get (l - 1) (r - 1)
    let minVal := min (min up left) diag
    if up = minVal then t.put l r (minVal + 1) (l - 1, r)
    else if left = minVal then t.put l r (minVal + 1) (l, r - 1)
    else t.put l r (minVal + 1) (l - 1, r - 1)

/-- Loop of an `Except` computation over a list. -/
def forEach {σ α : Type} (f : σ → α → Except Err σ) : List α → σ → Except Err σ
  | [], s => .ok s
  | a :: as, s => do
    let s' ← f s a
    forEach f as s'

/-- Filling both matrices – 168-203. -/
def levFill (n m : Nat) (eq : Nat → Nat → Bool) : Except Err Tables := do
  let t0 : Tables := ⟨⟨n + 1, m + 1, fun _ _ => 0⟩, ⟨n + 1, m + 1, fun _ _ => (0, 0)⟩⟩
  let t1 ← forEach levColumn (List.range (n + 1)) t0
  let t2 ← forEach levRow (List.range (m + 1)) t1
  forEach (fun t (l : Nat) => forEach (fun t (r : Nat) => levCell n m eq t ((l : Int) + 1) ((r : Int) + 1)) (List.range m) t)
    (List.range n) t2

/-- Inner loop of the back-trace – 216-221: the visited cells, and the cell where it
stopped. -/
def levTrace (t : Tables) : Nat → Int → Int → List (Int × Int) →
    Except Err (List (Int × Int) × Int × Int)
  | fuel, l, r, acc =>
    if 0 ≤ l ∧ 0 ≤ r then
      match fuel with
      | 0 => .error .fuel
      | fuel + 1 =>
        match t.paths.get l r with
        | .error e => .error e
        | .ok p => levTrace t fuel p.1 p.2 (acc ++ [(l, r)])
    else .ok (acc, l, r)

/-- Outer loop of the back-trace – 214-222: the right position is reset to the end every
round. -/
def levTraceOuter (t : Tables) (m : Nat) (inner : Nat) : Nat → Int → Int → List (Int × Int) →
    Except Err (List (Int × Int))
  | fuel, l, r, acc =>
    if 0 ≤ l ∧ 0 ≤ r then
      match fuel with
      | 0 => .error .fuel
      | fuel + 1 =>
        match levTrace t inner l m acc with
        | .error e => .error e
        | .ok (acc', l', r') => levTraceOuter t m inner fuel l' r' acc'
    else .ok acc

/-- Kind of the edit between two successive cells – 231-240. -/
def levKind (t : Tables) (last cur : Int × Int) : Except Err EditKind :=
  if cur.1 = last.1 + 1 ∧ cur.2 = last.2 + 1 then
    match t.table.get cur.1 cur.2, t.table.get last.1 last.2 with
    | .ok a, .ok b => .ok (if a ≠ b then .replace else .keep)
    | .error e, _ => .error e
    | _, .error e => .error e
  else if cur.1 = last.1 ∧ cur.2 = last.2 + 1 then .ok .insert
  else if cur.1 = last.1 + 1 ∧ cur.2 = last.2 then .ok .delete
  else .ok .keep

/-- The edit between two successive cells – 231-243. -/
def levOp (t : Tables) (last cur : Int × Int) : Except Err Edit := do
  let kind ← levKind t last cur
  .ok { kind := kind, sourcePos := cur.1 - 1, targetPos := cur.2 - 1 }

/-- Loop over successive cells – 227-243. -/
def levOps (t : Tables) : List (Int × Int) → Except Err (List Edit)
  | a :: b :: rest => do
    let op ← levOp t a b
    let ops ← levOps t (b :: rest)
    .ok (op :: ops)
  | _ => .ok []

/-- `levenshteinDistance` – 163-246.  The back-trace gets `n + m + 2` rounds. -/
def levenshteinDistance (n m : Nat) (eq : Nat → Nat → Bool) : Except Err (Int × List Edit) := do
  let t ← levFill n m eq
  let trace ← levTraceOuter t m (n + m + 2) (n + m + 2) n m []
  let path := trace.reverse
  let ops ← levOps t path
  match path.getLast? with
  | none => .error .range
  | some c => do
    let v ← t.table.get c.1 c.2
    .ok (v, ops)

end Verif.Diff
