import Mathlib.Data.List.Basic
import Mathlib.Data.List.Forall2

/-!
# Model of the fuzzy matcher

`src/hstd/stdlib/diffs.hpp:582-642` and `src/hstd/stdlib/diffs.cpp:724-924`: `FuzzyMatcher`.

Simplifications, for the whole file:
* A range of positions `first .. last` (`Slice<int>`, Slice.hpp:33-36) is given by its first position and the
  position after its last one, both natural numbers; so `last` is at least -1, and `isValid()` is `first < stop`.
* Scores are integers without bounds.
* The callbacks `isEqual`, `matchScore` and `isSeparator` are functions, which are set.
* Messages of the tracer are left out.
-/

namespace Verif.Fuzzy

/-- What can go wrong: `Vec::at` beyond the end. -/
inductive Err where
  | range
deriving DecidableEq, Repr

/-- `FuzzyMatcher` – diffs.hpp:582-591.  The arguments of `score`: `str.first` and `str.last + 1`, `nextMatch`,
`matches`. -/
structure Matcher where
  isEqual : Nat → Nat → Bool
  score : Nat → Nat → Nat → List Nat → Int
  limit : Nat

/-- `fuzzy_result` (diffs.cpp:725-728), with `matches` and `recursionCount`, which the function changes. -/
structure Result where
  has : Bool
  score : Int
  matched : List Nat
  count : Nat
deriving DecidableEq, Repr

/-- The variables of the loop of `fuzzy_match_recursive` – diffs.cpp:768-775: `pattern.first`, `nextMatch`,
`first_match`, `matches`, `recursiveMatch`, `bestRecursiveMatches`, `bestRecursiveScore`, `recursionCount`. -/
structure State where
  pat : Nat
  next : Nat
  first : Bool
  matched : List Nat
  hit : Bool
  best : List Nat
  bestScore : Int
  count : Nat
deriving DecidableEq, Repr

/-- The variables before the loop – diffs.cpp:742-773. -/
def State.init (pat next : Nat) (matched : List Nat) (count : Nat) : State := ⟨pat, next, true, matched, false, [], 0, count⟩

/-- After the loop – diffs.cpp:827-853; `at_` is `str.first`. -/
def finish (m : Matcher) (patStop strStop : Nat) (x : State × Nat) : Result :=
  let (st, at_) := x
  let full := decide (¬ st.pat < patStop)
  let out := if full then m.score at_ strStop st.next st.matched else 0
  if st.hit && (!full || decide (out < st.bestScore)) then ⟨true, st.bestScore, st.best, st.count⟩
  else if full then ⟨true, out, st.matched, st.count⟩
  else ⟨false, 0, st.matched, st.count⟩

/-- `matches.at(i) = v` – diffs.cpp:818. -/
def setAt (ms : List Nat) (i v : Nat) : Except Err (List Nat) := if i < ms.length then .ok (ms.set i v) else .error .range

/-- The result of the recursive call is taken into account – diffs.cpp:807-814. -/
def State.recur (st : State) (r : Result) : State :=
  let st := { st with count := r.count }
  if r.has then
    let st := if !st.hit || decide (st.bestScore < r.score) then { st with best := r.matched, bestScore := r.score } else st
    { st with hit := true }
  else st

/-- The loop of `fuzzy_match_recursive` – diffs.cpp:774-825, and, for the recursive call (789-798), what comes
before the loop (753-773).  The number is the number of positions left, `strStop - str.first`; `src` is
`srcMatches`, `size` is `matchSize`.  Returns the variables and `str.first`. -/
def loop (m : Matcher) (patStop strStop size : Nat) : Nat → List Nat → State → Except Err (State × Nat)
  | 0, _, st => .ok (st, strStop)
  | rem + 1, src, st =>
    let at_ := strStop - (rem + 1)
    if st.pat < patStop then
      if m.isEqual st.pat at_ then
        let ms := if st.first then src else st.matched
        let st := { st with matched := ms, first := false }
        let fresh := List.replicate size 0
        let r : Except Err Result :=
          if m.limit ≤ st.count + 1 then .ok ⟨false, 0, fresh, st.count + 1⟩
          else if rem = 0 then .ok ⟨false, 0, fresh, st.count + 1⟩
          else
            (loop m patStop strStop size rem ms (.init st.pat st.next fresh (st.count + 1))).map (finish m patStop strStop)
        match r with
        | .error e => .error e
        | .ok r =>
          let st := st.recur r
          match setAt st.matched st.next at_ with
          | .error e => .error e
          | .ok ms => loop m patStop strStop size rem src { st with matched := ms, next := st.next + 1, pat := st.pat + 1 }
      else loop m patStop strStop size rem src st
    else .ok (st, at_)

/-- `FuzzyMatcher::fuzzy_match` – diffs.cpp:899-922: the first call, for which the count becomes 1 (diffs.cpp:
753-766). -/
def fuzzyMatch (m : Matcher) (patFirst patStop strFirst strStop : Nat) (matched : List Nat) : Except Err Result :=
  if m.limit ≤ 1 then .ok ⟨false, 0, matched, 1⟩
  else if patFirst < patStop ∧ strFirst < strStop then
    (loop m patStop strStop patStop (strStop - strFirst) (List.replicate patStop 0) (.init patFirst 0 matched 1)).map (finish m patStop strStop)
  else .ok ⟨false, 0, matched, 1⟩

/-- `get_score` – diffs.hpp:634-641. -/
def getScore (m : Matcher) (patFirst patStop strFirst strStop : Nat) : Except Err Int :=
  match fuzzyMatch m patFirst patStop strFirst strStop (List.replicate patStop 0) with
  | .error e => .error e
  | .ok r => .ok (if r.has then r.score else -1)

/-- `LinearScoreConfig` – diffs.hpp:593-607. -/
structure Linear where
  sequential : Int := 15
  separator : Int := 30
  firstLetter : Int := 15
  leading : Int := -5
  maxLeading : Int := -15
  unmatched : Int := -1
  start : Int := 100
  isSeparator : Option (Nat → Bool) := none

/-- The bonuses for the positions – diffs.cpp:879-894. -/
def bonuses (c : Linear) : Option Nat → List Nat → Int
  | _, [] => 0
  | prev, i :: r =>
    (match prev with
      | some p => if i = p + 1 then c.sequential else 0
      | none => 0) +
    (if i = 0 then c.firstLetter
      else match c.isSeparator with
        | some f => if f i then c.separator else 0
        | none => 0) + bonuses c (some i) r

/-- `getLinearScore` – diffs.cpp:857-897.  `while (str.isValid()) ++str.first` ends at the end of the range, if
it was not beyond it.  (The function keeps a reference to the configuration: it must outlive the function.) -/
def linearScore (c : Linear) (at_ strStop next : Nat) (matched : List Nat) : Int :=
  c.start + max (c.leading * (matched.headD 0 : Nat)) c.maxLeading + c.unmatched * ((max at_ strStop : Nat) - (next : Int)) +
    bonuses c none (matched.take next)

end Verif.Fuzzy
