import Verif.Diff.Model

/-!
# Model of `longestCommonSubsequence` and `ShiftedDiff` – diffs.cpp:12-98, 248-334
-/

namespace Verif.Diff

/-- `BacktrackRes` – diffs.hpp:21-25. -/
structure Backtrack where
  lhsIndex : List Int := []
  rhsIndex : List Int := []
deriving DecidableEq, Repr

/-- The memo table – diffs.cpp:20.  Simplification: the `float` scores are exact integers. -/
abbrev Mem := Int → Int → Option Int

/-- `mem[{i, j}] = v` -/
def Mem.put (mem : Mem) (i j v : Int) : Mem := fun a b => if a = i ∧ b = j then some v else mem a b

/-- The arguments shared by the two local functions. -/
structure LcsEnv where
  n : Nat
  m : Nat
  cmp : Nat → Nat → Bool
  metric : Nat → Nat → Int

/-- The local function `lcs` – 22-36.  The two arguments of `std::max` are evaluated left
to right (their order is unspecified; it does not influence the memo table). -/
def lcs (env : LcsEnv) : Nat → Int → Int → Mem → Except Err (Int × Mem)
  | 0, _, _, _ => .error .fuel
  | fuel + 1, l, r, mem =>
    match mem l r with
    | some v => .ok (v, mem)
    | none =>
      if l = -1 ∨ r = -1 then .ok (0, mem.put l r 0)
      else do
        let eq ← callCmp env.n env.m env.cmp l r
        if eq then do
          let a ← lcs env fuel (l - 1) (r - 1) mem
          let v := a.1 + env.metric l.toNat r.toNat
          .ok (v, a.2.put l r v)
        else do
          let a ← lcs env fuel l (r - 1) mem
          let b ← lcs env fuel (l - 1) r a.2
          let v := max a.1 b.1
          .ok (v, b.2.put l r v)

/-- Calls of `lcs` get enough steps for any position inside of the two sequences. -/
def LcsEnv.lcs (env : LcsEnv) (l r : Int) (mem : Mem) : Except Err (Int × Mem) :=
  Verif.Diff.lcs env (env.n + env.m + 1) l r mem

/-- The loop 45-52: walk left on row `l = 0` while the score stays the same. -/
def walkRhs (env : LcsEnv) (l r : Int) : Nat → Int → Mem → Except Err (Int × Mem)
  | fuel, res, mem =>
    match mem l (res - 1) with
    | none => .ok (res, mem)
    | some _ => do
      let a ← env.lcs l (res - 1) mem
      let b ← env.lcs l r a.2
      if a.1 = b.1 then
        match fuel with
        | 0 => .error .fuel
        | fuel + 1 => walkRhs env l r fuel (res - 1) b.2
      else .ok (res, b.2)

/-- The loop 58-67: the same in column `r = 0`. -/
def walkLhs (env : LcsEnv) (l r : Int) : Nat → Int → Mem → Except Err (Int × Mem)
  | fuel, res, mem =>
    match mem (res - 1) r with
    | none => .ok (res, mem)
    | some _ => do
      let a ← env.lcs (res - 1) r mem
      let b ← env.lcs l r a.2
      if a.1 = b.1 then
        match fuel with
        | 0 => .error .fuel
        | fuel + 1 => walkLhs env l r fuel (res - 1) b.2
      else .ok (res, b.2)

/-- The local function `backtrack` – 41-90. -/
def backtrack (env : LcsEnv) : Nat → Int → Int → Mem → Except Err (List Backtrack × Mem)
  | 0, _, _, _ => .error .fuel
  | fuel + 1, l, r, mem =>
    match env.lcs l r mem with
    | .error e => .error e
    | .ok (v, mem) =>
      if v = 0 then .ok ([], mem)
      else if l = 0 then
        match walkRhs env l r (env.n + env.m + 1) r mem with
        | .error e => .error e
        | .ok (res, mem) => .ok ([⟨[l], [res]⟩], mem)
      else if r = 0 then
        match walkLhs env l r (env.n + env.m + 1) l mem with
        | .error e => .error e
        | .ok (res, mem) => .ok ([⟨[res], [r]⟩], mem)
      else
        match callCmp env.n env.m env.cmp l r with
        | .error e => .error e
        | .ok true =>
          match backtrack env fuel (l - 1) (r - 1) mem with
          | .error e => .error e
          | .ok (back, mem) => .ok (back.map fun t => ⟨t.lhsIndex ++ [l], t.rhsIndex ++ [r]⟩, mem)
        | .ok false =>
          match env.lcs l (r - 1) mem with
          | .error e => .error e
          | .ok (a, mem) =>
            match env.lcs (l - 1) r mem with
            | .error e => .error e
            | .ok (b, mem) =>
              -- 79: `lcs(l, r - 1) > lcs(l - 1, r)`; 81 repeats both (memoised) calls
              if b < a then backtrack env fuel l (r - 1) mem
              else backtrack env fuel (l - 1) r mem

/-- `longestCommonSubsequence` – 12-98. -/
def longestCommonSubsequence (n m : Nat) (cmp : Nat → Nat → Bool) (metric : Nat → Nat → Int) :
    Except Err (List Backtrack) :=
  if n = 0 ∨ m = 0 then .ok [{}]
  else
    match backtrack ⟨n, m, cmp, metric⟩ (n + m + 1) (n - 1) (m - 1) (fun _ _ => none) with
    | .error e => .error e
    | .ok (result, _) => if result.isEmpty then .ok [{}] else .ok result

/-- The metric of the overload without one – diffs.hpp:189-202. -/
def unitMetric (cmp : Nat → Nat → Bool) (i j : Nat) : Int := if cmp i j then 1 else 0

/-! ## `ShiftedDiff` – diffs.hpp:347-363, diffs.cpp:248-334 -/

/-- `ShiftedDiff::Item` -/
structure Item where
  kind : EditKind
  item : Int
deriving DecidableEq, Repr

/-- `ShiftedDiff` -/
structure Shifted where
  oldShifted : List Item := []
  newShifted : List Item := []
deriving DecidableEq, Repr

/-- `a, a+1, …, b-1`: the values of `for (int i = a; i < b; ++i)`. -/
def intRange (a b : Int) : List Int := (List.range (b - a).toNat).map fun (i : Nat) => a + i

/-- Rows for deleted lines – 256-259, 271-276. -/
def Shifted.deletes (s : Shifted) (a b : Int) : Shifted :=
  { oldShifted := s.oldShifted ++ (intRange a b).map fun i => ⟨.delete, i⟩,
    newShifted := s.newShifted ++ (intRange a b).map fun _ => ⟨.none, 0⟩ }

/-- Rows for inserted lines – 261-264, 278-283. -/
def Shifted.inserts (s : Shifted) (a b : Int) : Shifted :=
  { oldShifted := s.oldShifted ++ (intRange a b).map fun _ => ⟨.none, 0⟩,
    newShifted := s.newShifted ++ (intRange a b).map fun i => ⟨.insert, i⟩ }

/-- A row of two kept lines – 266-267. -/
def Shifted.keep (s : Shifted) (l r : Int) : Shifted :=
  { oldShifted := s.oldShifted ++ [⟨.keep, l⟩], newShifted := s.newShifted ++ [⟨.keep, r⟩] }

/-- Loop over the alignment – 253-270.  State: rows, `prevLhs`, `prevRhs`. -/
def shiftTrackLoop (track : Backtrack) : List Nat → Shifted × Int × Int → Except Err (Shifted × Int × Int)
  | [], s => .ok s
  | pos :: rest, (s, prevLhs, prevRhs) => do
    let l ← vecAt track.lhsIndex pos
    let r ← vecAt track.rhsIndex pos
    shiftTrackLoop track rest (((s.deletes prevLhs l).inserts prevRhs r).keep l r, l + 1, r + 1)

/-- `ShiftedDiff(BacktrackRes, lhsMax, rhsMax)` – 248-284. -/
def shiftTrack (track : Backtrack) (lhsMax rhsMax : Nat) : Except Err Shifted := do
  let r ← shiftTrackLoop track (List.range track.lhsIndex.length) ({}, 0, 0)
  .ok ((r.1.deletes r.2.1 lhsMax).inserts r.2.2 rhsMax)

/-- Padding before a kept row – 313-328. -/
def Shifted.pad (s : Shifted) : Shifted :=
  { oldShifted := s.oldShifted ++ List.replicate (s.newShifted.length - s.oldShifted.length) ⟨.none, 0⟩,
    newShifted := s.newShifted ++ List.replicate (s.oldShifted.length - s.newShifted.length) ⟨.none, 0⟩ }

/-- One edit – 291-332. -/
def shiftEdit (s : Shifted) (e : Edit) : Except Err Shifted :=
  match e.kind with
  | .replace => .ok { s with oldShifted := s.oldShifted ++ [⟨.replace, e.sourcePos⟩] }
  | .none => .error .assertion
  | .transpose => .error .assertion
  | .delete => .ok { s with oldShifted := s.oldShifted ++ [⟨.delete, e.sourcePos⟩] }
  | .insert => .ok { s with newShifted := s.newShifted ++ [⟨.insert, e.targetPos⟩] }
  | .keep => .ok (s.pad.keep e.sourcePos e.targetPos)

/-- `ShiftedDiff(Vec<SeqEdit>)` – 286-334. -/
def shiftEdits (diff : List Edit) : Except Err Shifted := forEach shiftEdit diff {}

end Verif.Diff
