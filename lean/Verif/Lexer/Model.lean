/-!
# Model of the token cursor – src/haxorg/lexbase/Lexer.hpp

The tokens of a group are given by their kinds; a token id is `0` (nil) or the index plus
one, `pos + offset` stops at nil below (`operator+`, dod_base.hpp:311-315; the mask of a
token id is zero for the single token group; see `Verif.Dod` for the packing).
Simplification: positions do not reach the capacity of an id.
-/

namespace Verif.Lexer

/-- Abnormal outcomes: nil id or index outside of the group, and the two exceptions of
`expect` (268-287). -/
inductive Err where
  | range
  | unexpectedEnd
  | unexpectedChar
  /-- the model ran out of fuel -/
  | fuel
deriving DecidableEq, Repr

/-- `LexerCommon` (8-15) with what the derived `SubLexer` adds (351-361): the ids it goes
over and the position among them; `sub = none` for the plain `Lexer` (402-428). -/
structure Lex (K : Type) where
  toks : List K
  pos : Nat
  sub : Option (List Nat × Int)
deriving DecidableEq, Repr

variable {K : Type}

/-- `Lexer(in)` – 427: at the first token. -/
def Lex.main (toks : List K) : Lex K := ⟨toks, 1, none⟩

/-- `SubLexer(in, tokens)` – 396-398. -/
def Lex.ofIds (toks : List K) (ids : List Nat) : Lex K := ⟨toks, ids.headD 0, some (ids, 0)⟩

/-- `get(offset)` – 21 -/
def Lex.get (l : Lex K) (off : Int) : Nat := (l.pos + off).toNat

/-- `in->at(id)` -/
def Lex.tokAt (l : Lex K) (id : Nat) : Except Err K :=
  if id = 0 then .error .range
  else match l.toks[id - 1]? with
    | some k => .ok k
    | none => .error .range

/-- `kind(offset)`, `tok(offset)` – 17-20 -/
def Lex.kind (l : Lex K) (off : Int := 0) : Except Err K := l.tokAt (l.get off)

/-- `hasNext` – `Lexer` 418-425, `SubLexer` 364-367 -/
def Lex.hasNext (l : Lex K) (off : Int) : Bool :=
  match l.sub with
  | none => decide (l.pos ≠ 0 ∧ l.get off ≠ 0 ∧ l.get off - 1 < l.toks.length)
  | some (ids, subPos) => decide (l.pos ≠ 0 ∧ 0 ≤ subPos + off ∧ subPos + off < ids.length)

/-- `finished` – 291 -/
def Lex.finished (l : Lex K) : Bool := !l.hasNext 0

/-- `next(offset)` – `Lexer` 409-416, `SubLexer` 383-392; `lastToken` is not modelled, so
neither is the failing access when it is recorded (the position is never invalid there). -/
def Lex.next (l : Lex K) (off : Int := 1) : Lex K :=
  match l.sub with
  | none => if l.hasNext off then { l with pos := l.get off } else { l with pos := 0 }
  | some (ids, subPos) =>
    if l.hasNext off then { l with pos := ids.getD (subPos + off).toNat 0, sub := some (ids, subPos + off) }
    else { l with pos := 0, sub := some (ids, subPos + off) }

/-- `setPos` – 297, `SubLexer` 372-381 -/
def Lex.setPos (l : Lex K) (id : Nat) : Except Err (Lex K) :=
  match l.sub with
  | none => .ok { l with pos := id }
  | some (ids, _) =>
    if id ∈ ids then .ok { l with pos := id, sub := some (ids, ids.idxOf id) } else .error .range

/-- `pop()` – 170-174 -/
def Lex.pop (l : Lex K) : Nat × Lex K := (l.pos, l.next)

/-- `pop(count)` – 192-198 -/
def Lex.popN : Nat → Lex K → List Nat × Lex K
  | 0, l => ([], l)
  | n + 1, l => let r := Lex.popN n l.next; (l.pos :: r.1, r.2)

variable [DecidableEq K]

/-- `at(IntSet, offset)` – 223-225, and `at(K, offset)` – 200-202 with a set of one. -/
def Lex.at (l : Lex K) (kinds : List K) (off : Int := 0) : Except Err Bool :=
  if l.hasNext off then (l.kind off).map (fun k => decide (k ∈ kinds)) else .ok false

/-- The loop of `at(Vec)` – 209-213 -/
def Lex.atSeqFrom (l : Lex K) (off : Int) : Nat → List K → Except Err Bool
  | _, [] => .ok true
  | idx, k :: ks =>
    if l.hasNext (idx + off) then
      match l.kind (idx + off) with
      | .error e => .error e
      | .ok k' => if k' = k then l.atSeqFrom off (idx + 1) ks else .ok false
    else .ok false

/-- `at(Vec, offset)` – 205-216 -/
def Lex.atSeq (l : Lex K) (kinds : List K) (off : Int := 0) : Except Err Bool :=
  if l.hasNext off then l.atSeqFrom off 0 kinds else .ok false

/-- The loop of `find(skip, target, offset)` – 229; the fuel is the number of tokens. -/
def Lex.skipAhead (l : Lex K) (skip : List K) : Nat → Int → Except Err Int
  | fuel, off =>
    match l.at skip off with
    | .error e => .error e
    | .ok false => .ok off
    | .ok true => match fuel with
      | 0 => .error .fuel
      | fuel + 1 => l.skipAhead skip fuel (off + 1)

/-- `find(skip, target, offset)` – 227-236 -/
def Lex.find (l : Lex K) (skip target : List K) (fuel : Nat) (off : Int := 0) : Except Err Int :=
  match l.skipAhead skip fuel off with
  | .error e => .error e
  | .ok off =>
    match l.at target off with
    | .error e => .error e
    | .ok b => .ok (if b then off else -1)

/-- `find(K, offset)` – 299-308 -/
def Lex.findKind (l : Lex K) (k : K) : Nat → Int → Except Err Int
  | fuel, off =>
    if l.hasNext off then
      match l.at [k] off with
      | .error e => .error e
      | .ok true => .ok off
      | .ok false => match fuel with
        | 0 => .error .fuel
        | fuel + 1 => l.findKind k fuel (off + 1)
    else .ok (-1)

/-- `expect` – 258-282 (throws before anything is changed) -/
def Lex.expect (l : Lex K) (kinds : List K) : Except Err Unit :=
  match l.at kinds with
  | .error e => .error e
  | .ok true => .ok ()
  | .ok false => if l.finished then .error .unexpectedEnd else .error .unexpectedChar

/-- `skip(kind)` – 284-288 -/
def Lex.skip (l : Lex K) (kinds : List K) : Except Err (Lex K) :=
  match l.expect kinds with
  | .error e => .error e
  | .ok () => .ok l.next

/-- `trySkip` – 290-292 -/
def Lex.trySkip (l : Lex K) (k : K) : Except Err (Lex K) :=
  match l.at [k] with
  | .error e => .error e
  | .ok true => .ok l.next
  | .ok false => .ok l

/-! ## `getInside` – 312-346 -/

/-- More than the number of steps any of the loops can do. -/
def Lex.bound (l : Lex K) : Nat := l.toks.length + (match l.sub with | none => 0 | some (ids, _) => ids.length) + 1

/-- `start.contains(kind())`; `kind()` throws at the end. -/
def Lex.isKind (l : Lex K) (kinds : List K) : Except Err Bool := l.kind.map (fun k => decide (k ∈ kinds))

/-- `while (start.contains(kind())) { next() }` – 317, and the loop 321-330 which pops
(the count is positive there). -/
def Lex.popOpeners (start : List K) : Nat → Lex K → List Nat → Except Err (List Nat × Lex K)
  | fuel, l, acc =>
    match l.isKind start with
    | .error e => .error e
    | .ok false => .ok (acc, l)
    | .ok true => match fuel with
      | 0 => .error .fuel
      | fuel + 1 => Lex.popOpeners start fuel l.next (acc ++ [l.pos])

/-- The loop 333-339: closing tokens, kept when `1 < count`. -/
def Lex.popClosers (finish : List K) (keep : Bool) : Nat → Lex K → List Nat → Except Err (List Nat × Lex K)
  | fuel, l, acc =>
    if l.finished then .ok (acc, l)
    else match l.isKind finish with
      | .error e => .error e
      | .ok false => .ok (acc, l)
      | .ok true => match fuel with
        | 0 => .error .fuel
        | fuel + 1 => Lex.popClosers finish keep fuel l.next (if keep then acc ++ [l.pos] else acc)

/-- The main loop – 319-343 -/
def Lex.insideLoop (start finish : List K) : Nat → Nat → Lex K → List Nat → Except Err (List Nat × Lex K)
  | fuel, count, l, acc =>
    if 0 < count && !l.finished then
      match fuel with
      | 0 => .error .fuel
      | fuel + 1 =>
        match l.isKind start with
        | .error e => .error e
        | .ok true =>
          match l.popOpeners start l.bound acc with
          | .error e => .error e
          | .ok (acc, l) => Lex.insideLoop start finish fuel (count + 1) l acc
        | .ok false =>
          match l.isKind finish with
          | .error e => .error e
          | .ok true =>
            match l.popClosers finish (decide (1 < count)) l.bound acc with
            | .error e => .error e
            | .ok (acc, l) => Lex.insideLoop start finish fuel (count - 1) l acc
          | .ok false => Lex.insideLoop start finish fuel count l.next (acc ++ [l.pos])
    else .ok (acc, l)

/-- `getInside(start, finish)` – 312-346 -/
def Lex.getInside (l : Lex K) (start finish : List K) : Except Err (List Nat × Lex K) :=
  match l.popOpeners start l.bound [] with
  | .error e => .error e
  | .ok (_, l) => Lex.insideLoop start finish l.bound 1 l []

end Verif.Lexer
