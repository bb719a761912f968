import Verif.Fuzzy.Model

/-!
# What a fuzzy match is
-/

namespace Verif.Fuzzy

/-- `e` are positions of the string `strFirst .. strStop`, from left to right, one for each position of the
pattern `patFirst .. patStop`, and equal to it. -/
structure Embeds (m : Matcher) (patFirst patStop strFirst strStop : Nat) (e : List Nat) : Prop where
  size : e.length + patFirst = patStop
  inside : ∀ i ∈ e, strFirst ≤ i ∧ i < strStop
  order : e.Pairwise (· < ·)
  equal : ∀ k (h : k < e.length), m.isEqual (patFirst + k) e[k] = true

/-- The vector of positions which is reported: it has as many entries as the last position of the pattern
says, those that are not needed are 0. -/
def reported (patStop : Nat) (e : List Nat) : List Nat := e ++ List.replicate (patStop - e.length) 0

/-- The score of a match: the callback is called with what is left of the string, the number of positions and the
positions. -/
def worth (m : Matcher) (patStop strStop : Nat) (e : List Nat) : Int := m.score (e.getLast?.getD 0 + 1) strStop e.length (reported patStop e)

/-- The score of a match, in words: the start; less for every position before the first match, up to a limit; less for
every position that is not matched; more for two matches side by side, for the first letter and for a separator. -/
def standardWorth (c : Linear) (strStop : Nat) (e : List Nat) : Int :=
  c.start + max (c.leading * ((e.headD 0 : Nat) : Int)) c.maxLeading + c.unmatched * ((strStop : Int) - (e.length : Int)) +
    c.sequential * (((e.zip e.tail).countP fun x => x.2 = x.1 + 1 : Nat) : Int) + c.firstLetter * ((e.countP (· = 0) : Nat) : Int) +
    c.separator * ((e.countP (fun i => i ≠ 0 ∧ (c.isSeparator.map (· i)) = some true) : Nat) : Int)

end Verif.Fuzzy
