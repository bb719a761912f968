/-!
# Model of the text layouter

`src/hstd/ext/textlayouter.{hpp,cpp}`: blocks of text, arranged in lines and stacks with
alternatives, are laid out by computing a piecewise linear cost function ("solution").

Simplifications, for the whole file:
* A block contains its elements instead of their ids; a block used twice is written twice.
  Consequently the cache `layoutCache` (hpp 297, cpp 361-365) is not modelled; neither is a change of
  a block after it was laid out.
* Text is a list of bytes (a byte is the character with that code); the length of a text is the number
  of its bytes, as computed by `SimpleStringStore::str` (cpp 1096-1100).
* Costs are `float`s in the code.  The arithmetic is a parameter (`Arith`) about which nothing is
  assumed here.
* `int` is `Int` (no overflow).
* `Block::isBreaking` is `false` (no code in the repository sets it), so `formatPolicy` is not called.
* A solution is a list of segments instead of five parallel vectors; the position `index` inside of a
  solution (hpp 177) is a local variable of the functions using it, each of which sets it to 0 first.
-/

namespace Verif.Layout

/-- Abnormal outcomes. -/
inductive Err where
  /-- failed assertion, `bad_optional_access` or `runtime_error` -/
  | exception
  /-- null pointer or access outside of a vector -/
  | undef
  /-- the fuel of the model is used up -/
  | diverges
deriving DecidableEq, Repr

/-- `LytStr` (hpp 28-41): spaces or a string of the string store. -/
inductive Piece where
  | spaces (n : Nat)
  | str (s : List Char)
deriving DecidableEq, Repr

/-- `LytStr::len` (hpp 32). -/
def Piece.len : Piece → Nat
  | .spaces n => n
  | .str s => s.length

/-- `LytStrSpan` (hpp 47-56): `len` is the sum. -/
def spanLen (ps : List Piece) : Nat := (ps.map Piece.len).sum

/-- `Block` (hpp 236-305), with `breakMult` where it is used. -/
inductive Block where
  | text (ps : List Piece)
  | line (bs : List Block)
  | stack (mult : Int) (bs : List Block)
  | choice (bs : List Block)
  | wrap (mult : Int) (pre : Option Piece) (sep : Piece) (bs : List Block)
  | verb (lines : List (List Piece)) (firstNl : Bool)
  | empty

/-- `Layout` (hpp 64-70) as a list of `LayoutElement`s (hpp 81-117); every constructor has the
following elements as its last field.  `NewlineSpace` is never created and left out. -/
inductive Lay where
  | nil
  | string (ps : List Piece) (rest : Lay)
  | newline (rest : Lay)
  | print (inner rest : Lay)
deriving DecidableEq, Repr

/-- Concatenation of the elements of two layouts. -/
def Lay.append : Lay → Lay → Lay
  | .nil, m => m
  | .string ps r, m => .string ps (r.append m)
  | .newline r, m => .newline (r.append m)
  | .print i r, m => .print i (r.append m)

/-- The operations on `float` used by the layouter. -/
structure Arith (C : Type) where
  ofInt : Int → C
  add : C → C → C
  sub : C → C → C
  mul : C → C → C
  lt : C → C → Bool
  eq : C → C → Bool
  /-- `(int)ceil(a / b)` -/
  ceilDiv : C → C → Int

/-- `Options` (hpp 375-398). -/
structure Options (C : Type) where
  leftMargin : Int
  rightMargin : Int
  leftCost : C
  rightCost : C
  linebreakCost : Int
  cpack : C

/-- One entry of each of the vectors of a `Solution` (hpp 164-176). -/
structure Seg (C : Type) where
  knot : Int
  span : Int
  icpt : C
  grad : C
  lay : Lay

/-- `Solution` (hpp 154-231). -/
abbrev Sol (C : Type) := List (Seg C)

/-- cpp 16. -/
def infty : Int := 1024 * 1024 * 1024

/-- cpp 18. -/
def isInf (a : Int) : Bool := decide (infty - 4096 ≤ a) && decide (a ≤ infty + 4096)

variable {C : Type}

/-- Access to the current entry of the vectors of a solution (hpp 182-187). -/
def cur (s : Sol C) (i : Nat) : Except Err (Seg C) :=
  match s[i]? with
  | some g => .ok g
  | none => .error .undef

/-- `Solution::nextKnot` (cpp 20-26). -/
def nextKnot (s : Sol C) (i : Nat) : Int :=
  match s[i + 1]? with
  | some g => g.knot
  | none => infty

/-- `while (curKnot() > margin) { retreat(); }` (cpp 30). -/
def retreatTo (s : Sol C) (m : Int) : Nat → Except Err Nat
  | 0 => do
    let g ← cur s 0
    if g.knot > m then .error .undef else .ok 0
  | i + 1 => do
    let g ← cur s (i + 1)
    if g.knot > m then retreatTo s m i else .ok (i + 1)

/-- `while (nextKnot() <= margin && nextKnot() != infty) { advance(); }` (cpp 32); the first argument
bounds the number of rounds: each of them moves to a further entry. -/
def advanceTo (s : Sol C) (m : Int) : Nat → Nat → Nat
  | 0, i => i
  | n + 1, i => if nextKnot s i ≤ m ∧ nextKnot s i ≠ infty then advanceTo s m n (i + 1) else i

/-- `Solution::moveToMargin` (cpp 28-34). -/
def moveTo (s : Sol C) (m : Int) (i : Nat) : Except Err Nat := do
  let g ← cur s i
  if g.knot > m then retreatTo s m i else .ok (advanceTo s m s.length i)

/-- `Solution::curValueAt` (hpp 208-210). -/
def valueAt (A : Arith C) (g : Seg C) (m : Int) : C :=
  A.add g.icpt (A.mul g.grad (A.ofInt (m - g.knot)))

/-- `Solution::plusConst` (hpp 212-217). -/
def plusConst (A : Arith C) (s : Sol C) (v : C) : Sol C := s.map fun g => { g with icpt := A.add g.icpt v }

/-- The check for linear extrapolation of the last entry (cpp 42-54). -/
def extrapolates (A : Arith C) (s : Sol C) (g : Seg C) : Bool :=
  match s.getLast? with
  | none => false
  | some l =>
    decide (g.span = l.span) && A.eq g.grad l.grad
      && A.eq (A.add l.icpt (A.mul (A.ofInt (g.knot - l.knot)) l.grad)) g.icpt

/-- `Solution::add` (cpp 36-67). -/
def addSeg (A : Arith C) (s : Sol C) (g : Seg C) : Except Err (Sol C) :=
  if extrapolates A s g then .ok s
  else if g.knot < 0 || g.span < 0 || A.lt g.icpt (A.ofInt 0) || A.lt g.grad (A.ofInt 0) then
    .error .exception
  else .ok (s ++ [g])

/-- A solution together with the position in it. -/
abbrev Cursor (C : Type) := Sol C × Nat

/-- The current entry of each of the solutions. -/
def curs : List (Cursor C) → Except Err (List (Seg C))
  | [] => .ok []
  | (s, i) :: cs => do
    let g ← cur s i
    let gs ← curs cs
    .ok (g :: gs)

/-- `for (auto& s : solutions) { s->moveToMargin(m); }`. -/
def movesTo (m : Int) : List (Cursor C) → Except Err (List (Cursor C))
  | [] => .ok []
  | (s, i) :: cs => do
    let j ← moveTo s m i
    let cs' ← movesTo m cs
    .ok ((s, j) :: cs')

/-- `std::min_element` on the values: position and value of the first least one, given the best
candidate of the values before `k` (cpp 106-111). -/
def minFrom (A : Arith C) (best : Nat × C) (k : Nat) : List C → Nat × C
  | [] => best
  | v :: vs => if A.lt v best.2 then minFrom A (k, v) (k + 1) vs else minFrom A best (k + 1) vs

/-- The least of a non-empty list of integers given as head and tail. -/
def leastInt (a : Int) (l : List Int) : Int := l.foldl min a

/-- `crossovers` (cpp 124-135). -/
def crossovers (A : Arith C) (kL kH : Int) (minValue minGradient : C) (vgs : List (C × C)) : List Int :=
  vgs.filterMap fun vg =>
    if A.lt vg.2 minGradient then
      let d := A.ceilDiv (A.sub vg.1 minValue) (A.sub minGradient vg.2)
      if kL + d ≤ kH then some (kL + d) else none
    else none

/-- Another piece is added only for another solution or another entry of it (cpp 115-122). -/
def addMin (A : Arith C) (fac : Sol C) (last : Option (Nat × Nat)) (new : Nat × Nat) (g : Seg C) :
    Except Err (Sol C) :=
  if some new ≠ last then addSeg A fac g else .ok fac

/-- cpp 141-143. -/
def movesBelow (m : Int) (cs : List (Cursor C)) : Except Err (List (Cursor C)) :=
  if m < infty then movesTo m cs else .ok cs

/-- The two loops of `minSolution` (cpp 90-147) as one: `kH` does not change while the positions in the
solutions do not. -/
def minLoop (A : Arith C) : Nat → List (Cursor C) → Sol C → Int → Option (Nat × Nat) → Except Err (Sol C)
  | 0, _, _, _, _ => .error .diverges
  | fuel + 1, cs, fac, kL, last =>
    if kL < infty then
      match cs.map fun c => nextKnot c.1 c.2 with
      | [] => .error .undef
      | k :: ks => do
        let kH := leastInt k ks - 1
        let gs ← curs cs
        match gs.map fun g => valueAt A g kL with
        | [] => .error .undef
        | v :: vs =>
          let (iMin, minValue) := minFrom A (0, v) 1 vs
          match gs[iMin]?, cs[iMin]? with
          | some g, some c =>
            let fac ← addMin A fac last (iMin, c.2)
              { knot := kL, span := g.span, icpt := minValue, grad := g.grad, lay := g.lay }
            match crossovers A kL kH minValue g.grad (gs.map fun h => (valueAt A h kL, h.grad)) with
            | x :: xs => minLoop A fuel cs fac (leastInt x xs) (some (iMin, c.2))
            | [] =>
              let kL' := kH + 1
              let cs' ← movesBelow kL' cs
              minLoop A fuel cs' fac kL' (some (iMin, c.2))
          | _, _ => .error .undef
    else .ok fac

/-- `minSolution` (cpp 78-150). -/
def minSolution (A : Arith C) (fuel : Nat) : List (Sol C) → Except Err (Sol C)
  | [s] => .ok s
  | ss => minLoop A fuel (ss.map (·, 0)) [] 0 none

/-- The elements of the layouts, each followed by a line break, without the last line break
(`getStacked`, cpp 158-168). -/
def getStacked : List Lay → Lay
  | [] => .nil
  | [l] => l
  | l :: ls => l.append (.newline (getStacked ls))

/-- `dStar` (cpp 210-222). -/
def nextStep (m : Int) : List Int → Option Int → Option Int
  | [], d => d
  | k :: ks, d =>
    if m < k then nextStep m ks (some (match d with | none => k - m | some x => min x (k - m)))
    else nextStep m ks d

/-- The loop of `vSumSolution` (cpp 187-229). -/
def vSumLoop (A : Arith C) : Nat → List (Cursor C) → Sol C → Int → Except Err (Sol C)
  | 0, _, _, _ => .error .diverges
  | fuel + 1, cs, res, margin => do
    let gs ← curs cs
    match gs.getLast? with
    | none => .error .undef
    | some l =>
      let res ← addSeg A res
        { knot := margin
          span := l.span
          icpt := gs.foldl (fun x g => A.add x (valueAt A g margin)) (A.ofInt 0)
          grad := gs.foldl (fun x g => A.add x g.grad) (A.ofInt 0)
          lay := getStacked (gs.map (·.lay)) }
      let dStar := (nextStep margin (cs.map fun c => nextKnot c.1 c.2) none).getD 0
      if isInf dStar then .ok res
      else do
        let cs' ← movesTo (margin + dStar) cs
        vSumLoop A fuel cs' res (margin + dStar)

/-- `vSumSolution` (cpp 178-232). -/
def vSum (A : Arith C) (fuel : Nat) : List (Sol C) → Except Err (Sol C)
  | [] => .error .exception
  | [s] => .ok s
  | ss => vSumLoop A fuel (ss.map (·, 0)) [] 0

/-- The loop of `hPlusSolution` (cpp 263-316). -/
def hPlusLoop (A : Arith C) (o : Options C) (s1 s2 : Sol C) :
    Nat → Nat → Nat → Int → Int → Sol C → Except Err (Sol C)
  | 0, _, _, _, _, _ => .error .diverges
  | fuel + 1, i1, i2, m1, m2, res => do
    let g1 ← cur s1 i1
    let g2 ← cur s2 i2
    let over0 := m2 - o.leftMargin
    let over1 := m2 - o.rightMargin
    let grad := A.sub (A.sub (A.add g1.grad g2.grad) (if 0 ≤ over0 then o.leftCost else A.ofInt 0))
      (if 0 ≤ over1 then o.rightCost else A.ofInt 0)
    let icpt := A.sub (A.sub (A.add (valueAt A g1 m1) (valueAt A g2 m2))
      (A.mul o.leftCost (A.ofInt (max over0 0)))) (A.mul o.rightCost (A.ofInt (max over1 0)))
    let res ← addSeg A res
      { knot := m1, span := g1.span + g2.span, icpt := icpt, grad := grad
        lay := .print g1.lay (.print g2.lay .nil) }
    let kn1 := nextKnot s1 i1
    let kn2 := nextKnot s2 i2
    if isInf kn1 && isInf kn2 then .ok res
    else if kn1 - m1 ≤ kn2 - m2 then do
      let h1 ← cur s1 (i1 + 1)
      let i2' ← moveTo s2 (kn1 + h1.span) i2
      hPlusLoop A o s1 s2 fuel (i1 + 1) i2' kn1 (kn1 + h1.span) res
    else hPlusLoop A o s1 s2 fuel i1 (i2 + 1) (kn2 - g1.span) kn2 res

/-- `hPlusSolution` (cpp 252-318). -/
def hPlus (A : Arith C) (o : Options C) (fuel : Nat) (s1 s2 : Sol C) : Except Err (Sol C) := do
  let g1 ← cur s1 0
  let i2 ← moveTo s2 g1.span 0
  hPlusLoop A o s1 s2 fuel 0 i2 0 g1.span []

/-- `withRestOfLine` (cpp 321-342). -/
def withRest (A : Arith C) (o : Options C) (fuel : Nat) (self rest : Option (Sol C)) :
    Except Err (Option (Sol C)) :=
  match rest with
  | none => .ok self
  | some r =>
    match self with
    | none => .error .exception
    | some s => do
      let t ← hPlus A o fuel s r
      .ok (some t)

/-- `Opt::value`. -/
def value {α : Type} : Option α → Except Err α
  | none => .error .exception
  | some x => .ok x

/-- The solution for a text (cpp 374-425). -/
def textSol (A : Arith C) (o : Options C) (ps : List Piece) : Sol C :=
  let span : Int := spanLen ps
  let lay := Lay.string ps .nil
  let mulI (k : Int) (c : C) := A.mul (A.ofInt k) c
  if o.rightMargin ≤ span then
    [{ knot := 0, span := span
       icpt := A.add (mulI (span - o.leftMargin) o.leftCost)
         (A.ofInt ((span - o.rightMargin) * o.rightMargin))
       grad := A.add o.leftCost o.rightCost, lay := lay }]
  else if o.leftMargin ≤ span then
    [{ knot := 0, span := span, icpt := mulI (span - o.leftMargin) o.leftCost, grad := o.leftCost, lay := lay },
     { knot := o.rightMargin - span, span := span, icpt := mulI (o.rightMargin - o.leftMargin) o.leftCost
       grad := A.add o.leftCost o.rightCost, lay := lay }]
  else
    [{ knot := 0, span := span, icpt := A.ofInt 0, grad := A.ofInt 0, lay := lay },
     { knot := o.leftMargin - span, span := span, icpt := A.ofInt 0, grad := o.leftCost, lay := lay },
     { knot := o.rightMargin - span, span := span, icpt := mulI (o.rightMargin - o.leftMargin) o.leftCost
       grad := A.add o.leftCost o.rightCost, lay := lay }]

/-- `doOptTextLayout` (cpp 368-428). -/
def optText (A : Arith C) (o : Options C) (fuel : Nat) (ps : List Piece) (rest : Option (Sol C)) :
    Except Err (Option (Sol C)) :=
  withRest A o fuel (some (textSol A o ps)) rest

/-- `prefixLayout` (cpp 544-550). -/
def optPrefix (A : Arith C) (o : Options C) (fuel : Nat) (pre : Option Piece) : Except Err (Option (Sol C)) :=
  match pre with
  | some p => optText A o fuel [p] none
  | none => .ok none

/-- The loop over the possible ends `j` of the first line in `doOptWrapLayout` (cpp 586-621): `line` is
the line up to element `j`, `els` are the layouts of the elements after it, `ws` the entries of
`wrapSolutions` for them.  `cpp 593`: `wrapSolutions[j + 1].value()`. -/
def wrapLine (A : Arith C) (o : Options C) (fuel : Nat) (mult : Int) (sep rest : Option (Sol C)) :
    Option (Sol C) → List (Option (Sol C)) → List (Option (Sol C)) → Except Err (List (Sol C))
  | line, e :: els, ws => do
    let a ← withRest A o fuel line sep
    let a ← value a
    let w ← value (ws.head?.getD none)
    let full ← vSum A fuel [a, w]
    let full := plusConst A full (A.add (A.ofInt (o.linebreakCost * mult))
      (A.mul o.cpack (A.ofInt (els.length + 2))))
    let sepElt ← withRest A o fuel sep e
    let line' ← withRest A o fuel line sepElt
    let more ← wrapLine A o fuel mult sep rest line' els ws.tail
    .ok (full :: more)
  | line, [], _ => do
    let l ← withRest A o fuel line rest
    let l ← value l
    .ok [l]

/-- The start of a line (cpp 579-582). -/
def firstInLine (A : Arith C) (o : Options C) (fuel : Nat) (pre e : Option (Sol C)) : Except Err (Option (Sol C)) :=
  match pre with
  | some _ => withRest A o fuel pre e
  | none => .ok e

/-- The loop over `i` in `doOptWrapLayout` (cpp 567-624), giving `wrapSolutions` (from `i` on). -/
def wrapSols (A : Arith C) (o : Options C) (fuel : Nat) (mult : Int) (pre sep rest : Option (Sol C)) :
    List (Option (Sol C)) → Except Err (List (Option (Sol C)))
  | [] => .ok []
  | e :: els => do
    let ws ← wrapSols A o fuel mult pre sep rest els
    let line ← firstInLine A o fuel pre e
    let sols ← wrapLine A o fuel mult sep rest line els ws
    let w ← minSolution A fuel sols
    .ok (some w :: ws)

mutual

/-- `optLayout` and `doOptLayout` (cpp 350-366, 667-681). -/
def opt (A : Arith C) (o : Options C) (fuel : Nat) : Block → Option (Sol C) → Except Err (Option (Sol C))
  | .empty, _ => .ok none
  -- doOptVerbLayout (630-664) adds to a solution through a null pointer
  | .verb _ _, _ => .error .undef
  | .text ps, rest => optText A o fuel ps rest
  -- doOptLineLayout (430-477)
  | .line bs, rest =>
    match bs with
    | [] => .ok rest
    | b :: bs => do
      let r ← optLine A o fuel (b :: bs) rest
      let s ← vSum A fuel r.toList
      .ok (some (plusConst A s (A.ofInt 0)))
  -- doOptChoiceLayout (479-493)
  | .choice bs, rest => do
    let ss ← optEach A o fuel bs rest
    let s ← minSolution A fuel (ss.filterMap id)
    .ok (some s)
  -- doOptStackLayout (495-529)
  | .stack mult bs, rest =>
    match bs with
    | [] => .ok rest
    | b :: bs => do
      let ss ← optStack A o fuel (b :: bs) rest
      let s ← vSum A fuel ss
      if s.isEmpty then .ok rest
      else .ok (some (plusConst A s (A.ofInt (o.linebreakCost * mult * bs.length))))
  -- doOptWrapLayout (531-628)
  | .wrap mult pre sep bs, rest => do
    let sepLayout ← optText A o fuel [sep] none
    let preLayout ← optPrefix A o fuel pre
    let els ← optEach A o fuel bs none
    let ws ← wrapSols A o fuel mult preLayout sepLayout rest els
    match ws with
    | [] => .error .undef
    | w :: _ => .ok w

/-- The elements of a line, from the last one to the first one (cpp 461-468). -/
def optLine (A : Arith C) (o : Options C) (fuel : Nat) : List Block → Option (Sol C) → Except Err (Option (Sol C))
  | [], rest => .ok rest
  | b :: bs, rest => do
    let r ← optLine A o fuel bs rest
    opt A o fuel b r

/-- The solutions of several blocks with the same rest of the line. -/
def optEach (A : Arith C) (o : Options C) (fuel : Nat) : List Block → Option (Sol C) → Except Err (List (Option (Sol C)))
  | [], _ => .ok []
  | b :: bs, rest => do
    let s ← opt A o fuel b rest
    let ss ← optEach A o fuel bs rest
    .ok (s :: ss)

/-- `solnCandidates` (cpp 504-515): the rest of the line belongs to the last element. -/
def optStack (A : Arith C) (o : Options C) (fuel : Nat) : List Block → Option (Sol C) → Except Err (List (Sol C))
  | [], _ => .ok []
  | [b], rest => do
    let s ← opt A o fuel b rest
    .ok s.toList
  | b :: bs, rest => do
    let s ← opt A o fuel b none
    let ss ← optStack A o fuel bs rest
    .ok (s.toList ++ ss)

end

/-- Characters of a piece of text (`SimpleStringStore::str`, cpp 1102-1108). -/
def Piece.chars : Piece → List Char
  | .spaces n => List.replicate n ' '
  | .str s => s

/-- The characters of a text. -/
def chars (ps : List Piece) : List Char := ps.flatMap Piece.chars

/-- `formatEvents` (cpp 683-745) with the events written as `SimpleStringStore::toString` does it
(cpp 1114-1131).  The explicit stack of layouts and margins is the recursion on the layout; the second
component of the result is the column reached (`buf.hPos`). -/
def format : Lay → (margin hPos : Nat) → List Char × Nat
  | .nil, _, h => ([], h)
  | .string ps r, m, h =>
    let h := max h m
    let (out, h') := format r m (h + spanLen ps)
    (chars ps ++ out, h')
  | .newline r, m, _ =>
    let (out, h') := format r m m
    ('\n' :: (List.replicate m ' ' ++ out), h')
  | .print i r, m, h =>
    let h := max h m
    let (out, h') := format i h h
    let (out', h'') := format r m h'
    (out ++ out', h'')

/-- Lines of a text: `split(result, "\n")` (cpp 1134). -/
def splitLines : List Char → List (List Char)
  | [] => [[]]
  | c :: cs =>
    if c = '\n' then [] :: splitLines cs
    else
      match splitLines cs with
      | [] => [[c]]
      | l :: ls => (c :: l) :: ls

/-- `strip(line, CharSet{}, CharSet{' '})` (cpp 1135): without the spaces at the end. -/
def stripEnd (l : List Char) : List Char := (l.reverse.dropWhile (· == ' ')).reverse

/-- `join("\n", …)` (cpp 1138). -/
def joinLines : List (List Char) → List Char
  | [] => []
  | [l] => l
  | l :: ls => l ++ '\n' :: joinLines ls

mutual

/-- `Block::leafCount` (cpp 759-777). -/
def leafCount : Block → Nat
  | .wrap _ _ _ bs => leafCounts bs
  | .stack _ bs => leafCounts bs
  | .choice bs => leafCounts bs
  | .line bs => leafCounts bs
  | _ => 1

/-- The sum for a list of blocks. -/
def leafCounts : List Block → Nat
  | [] => 0
  | b :: bs => leafCount b + leafCounts bs

end

/-- `SimpleStringStore::toString` (cpp 1110-1139), with `BlockStore::toLayouts` (911-915) and `toLayout`
(hpp 361-365). -/
def toString (A : Arith C) (o : Options C) (fuel : Nat) (b : Block) : Except Err (List Char) :=
  if leafCount b = 0 then .ok []
  else do
    let s ← opt A o fuel b none
    let s ← value s
    match s with
    | [] => .error .exception
    | g :: _ => .ok (joinLines ((splitLines (format g.lay 0 0).1).map stripEnd))

end Verif.Layout
