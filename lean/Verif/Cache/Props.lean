import Verif.Cache.Model
import Mathlib.Tactic.SplitIfs

/-!
# The cache of sources

**C190**  Each source that was added is found under its identifier with its name, as it was given first; a call that is refused
changes nothing; paths that are added are found with their texts.
* `cache_known` – the first part, for all histories of calls.
* `cache_refused_partial` – a call that is refused changes nothing for the identifiers that are known.
* `cache_refused_false` – it stores the source of an identifier that is not known.
* `paths_partial` – paths, if no two of them have the same hash; `paths_false` – if two have.
-/

namespace Verif.Cache

/-! ## Specification -/

/-- A call of `add`. -/
structure Add where
  id : Nat
  source : String
  name : String
deriving DecidableEq

/-- The sources that are known after a call, and whether it returns: an identifier that is known must have the same name, and one
that is not needs a name of its own. -/
def accept (known : List Add) (a : Add) : List Add × Bool :=
  match known.find? (fun b => b.id = a.id) with
  | some b => (known, b.name = a.name)
  | none => if ∃ b ∈ known, b.name = a.name then (known, false) else (known ++ [a], true)

/-- After a history. -/
def accepts : List Add → List Add → List Add × List Bool
  | known, [] => (known, [])
  | known, a :: as => ((accepts (accept known a).1 as).1, (accept known a).2 :: (accepts (accept known a).1 as).2)

/-! ## The cache -/

def run : Cache → List Add → Cache × List Bool
  | c, [] => (c, [])
  | c, a :: as => ((run (c.add a.id a.source a.name).1 as).1, (c.add a.id a.source a.name).2 :: (run (c.add a.id a.source a.name).1 as).2)

/-- The cache of the known sources. -/
def Holds (c : Cache) (known : List Add) : Prop :=
  c.names = known.map (fun b => (b.id, b.name)) ∧ ∀ b ∈ known, c.sources b.id = some b.source

theorem getRight_known (known : List Add) (id : Nat) :
    Bimap.getRight (known.map fun b => (b.id, b.name)) id = (known.find? fun b => b.id = id).map Add.name := by
  unfold Bimap.getRight
  rw [List.find?_map, Option.map_map, ]
  rfl

theorem add_holds (c : Cache) (known : List Add) (h : Holds c known) (a : Add) :
    Holds (c.add a.id a.source a.name).1 (accept known a).1 ∧ (c.add a.id a.source a.name).2 = (accept known a).2 := by
  unfold Cache.add accept
  rw [h.1, getRight_known]
  cases hf : known.find? (fun b => decide (b.id = a.id)) with
  | some b =>
    simp only [Option.map_some]
    by_cases e : b.name = a.name
    · rw [if_pos e]; exact ⟨h, by simp [e]⟩
    · rw [if_neg e]; exact ⟨h, by simp [e]⟩
  | none =>
    simp only [Option.map_none]
    have hid : ∀ b ∈ known, b.id ≠ a.id := by
      intro b hb e
      have := List.find?_eq_none.mp hf b hb
      simp [e] at this
    have hl : Bimap.containsLeft (known.map fun b => (b.id, b.name)) a.id = false := by
      unfold Bimap.containsLeft
      rw [Bool.eq_false_iff]
      intro hc
      obtain ⟨p, hp, e⟩ := List.any_eq_true.mp hc
      obtain ⟨b, hb, rfl⟩ := List.mem_map.mp hp
      exact hid b hb (by simpa using e)
    have hs : ∀ b ∈ known, (if b.id = a.id then some a.source else c.sources b.id) = some b.source := by
      intro b hb
      rw [if_neg (hid b hb)]
      exact h.2 b hb
    by_cases hn : ∃ b ∈ known, b.name = a.name
    · have hr : Bimap.containsRight (known.map fun b => (b.id, b.name)) a.name = true := by
        unfold Bimap.containsRight
        obtain ⟨b, hb, e⟩ := hn
        exact List.any_eq_true.mpr ⟨(b.id, b.name), List.mem_map.mpr ⟨b, hb, rfl⟩, by simpa using e⟩
      simp only [Bimap.addUnique, hl, hr, Bool.or_true, if_true]
      rw [if_pos hn]
      exact ⟨⟨rfl, hs⟩, rfl⟩
    · have hr : Bimap.containsRight (known.map fun b => (b.id, b.name)) a.name = false := by
        unfold Bimap.containsRight
        rw [Bool.eq_false_iff]
        intro hc
        obtain ⟨p, hp, e⟩ := List.any_eq_true.mp hc
        obtain ⟨b, hb, rfl⟩ := List.mem_map.mp hp
        exact hn ⟨b, hb, by simpa using e⟩
      simp only [Bimap.addUnique, Bimap.insert, hl, hr, Bool.or_false, Bool.false_eq_true, if_false, and_false, or_false]
      rw [if_neg hn]
      refine ⟨⟨by simp, ?_⟩, rfl⟩
      intro b hb
      rcases List.mem_append.mp hb with hb | hb
      · exact hs b hb
      · simp only [List.mem_cons, List.not_mem_nil, or_false] at hb
        subst hb
        simp

theorem run_holds (as : List Add) (c : Cache) (known : List Add) (h : Holds c known) :
    Holds (run c as).1 (accepts known as).1 ∧ (run c as).2 = (accepts known as).2 := by
  induction as generalizing c known with
  | nil => exact ⟨h, rfl⟩
  | cons a as ih =>
    obtain ⟨h1, h2⟩ := add_holds c known h a
    obtain ⟨h3, h4⟩ := ih _ _ h1
    exact ⟨h3, by rw [run, accepts, h2, h4]⟩

theorem holds_empty : Holds .empty [] := ⟨rfl, by simp⟩

/-- No identifier and no name is known twice. -/
def Apart (known : List Add) : Prop := known.Pairwise fun a b => a.id ≠ b.id ∧ a.name ≠ b.name

theorem accept_apart (known : List Add) (h : Apart known) (a : Add) : Apart (accept known a).1 := by
  unfold accept
  split
  · exact h
  · rename_i hf
    split_ifs with hn
    · exact h
    · refine List.pairwise_append.mpr ⟨h, List.pairwise_singleton _ _, ?_⟩
      intro b hb x hx
      simp only [List.mem_cons, List.not_mem_nil, or_false] at hx
      subst hx
      refine ⟨fun e => ?_, fun e => hn ⟨b, hb, e⟩⟩
      have := List.find?_eq_none.mp hf b hb
      simp [e] at this

theorem accepts_apart (as known : List Add) (h : Apart known) : Apart (accepts known as).1 := by
  induction as generalizing known with
  | nil => exact h
  | cons a as ih => exact ih _ (accept_apart known h a)

theorem find_apart (known : List Add) (h : Apart known) (b : Add) (hb : b ∈ known) : known.find? (fun x => x.id = b.id) = some b := by
  induction known with
  | nil => cases hb
  | cons x known ih =>
    obtain ⟨h1, h2⟩ := List.pairwise_cons.mp h
    rcases List.mem_cons.mp hb with rfl | hb
    · simp
    · rw [List.find?_cons_of_neg (by simpa using (h1 b hb).1)]
      exact ih h2 hb

/-- **C190** After any history of calls, those return that should, and each known source is found with its text and its name. -/
theorem cache_known (as : List Add) :
    (run .empty as).2 = (accepts [] as).2 ∧
    (∀ b ∈ (accepts [] as).1, (run .empty as).1.fetch b.id = some b.source ∧ (run .empty as).1.display b.id = some b.name) ∧
    ∀ id, (∀ b ∈ (accepts [] as).1, b.id ≠ id) → (run .empty as).1.display id = none := by
  obtain ⟨h, e⟩ := run_holds as .empty [] holds_empty
  have ha := accepts_apart as [] List.Pairwise.nil
  refine ⟨e, fun b hb => ⟨h.2 b hb, ?_⟩, ?_⟩
  · unfold Cache.display
    rw [h.1, getRight_known, find_apart _ ha b hb]
    rfl
  · intro id hid
    unfold Cache.display
    rw [h.1, getRight_known, List.find?_eq_none.mpr]
    · rfl
    · intro b hb
      simpa using hid b hb

/-- **C190** A call that is refused changes nothing for other identifiers, for known ones, and for the names. -/
theorem cache_refused_partial (c : Cache) (id : Nat) (source name : String) (h : (c.add id source name).2 = false) :
    (∀ x, (c.add id source name).1.display x = c.display x) ∧
    ∀ x, x ≠ id ∨ c.display x ≠ none → (c.add id source name).1.fetch x = c.fetch x := by
  unfold Cache.add at h ⊢
  split
  · rename_i known hk
    split_ifs <;> exact ⟨fun x => rfl, fun x _ => rfl⟩
  · rename_i hk
    rw [hk] at h
    dsimp only at h ⊢
    split
    · rename_i names hn
      rw [hn] at h
      cases h
    · refine ⟨fun x => rfl, fun x hx => ?_⟩
      unfold Cache.fetch
      dsimp only
      rw [if_neg]
      rintro rfl
      rcases hx with hx | hx
      · exact hx rfl
      · exact hx hk

/-- **C190**, the property of refused calls. -/
def RefusedStatement : Prop :=
  ∀ (as : List Add) (a : Add), ((run .empty as).1.add a.id a.source a.name).2 = false →
    ∀ x, ((run .empty as).1.add a.id a.source a.name).1.fetch x = (run .empty as).1.fetch x

/-- The source is stored before the name is refused. -/
theorem cache_refused_false : ¬ RefusedStatement := by
  intro h
  have := h [⟨1, "a", "file"⟩] ⟨2, "b", "file"⟩ (by decide) 2
  revert this
  decide

/-! ## Paths -/

def runPaths (hash : String → Nat) (read : String → String) : Cache → List String → Cache × List (Option Nat)
  | c, [] => (c, [])
  | c, p :: ps => ((runPaths hash read (c.addPath hash read p).1 ps).1, (c.addPath hash read p).2 :: (runPaths hash read (c.addPath hash read p).1 ps).2)

/-- All that is known are paths of a list. -/
def Paths (all : List String) (hash : String → Nat) (read : String → String) (known : List Add) : Prop :=
  ∀ b ∈ known, b.id = hash b.name ∧ b.source = read b.name ∧ b.name ∈ all

/-- No two of the paths have the same hash. -/
def Different (all : List String) (hash : String → Nat) : Prop := ∀ p ∈ all, ∀ q ∈ all, hash p = hash q → p = q

theorem path_step (all : List String) (hash : String → Nat) (read : String → String) (hinj : Different all hash) (c : Cache) (known : List Add) (h : Holds c known)
    (ha : Apart known) (hp : Paths all hash read known) (p : String) (hall : p ∈ all) : ∃ known', Holds (c.addPath hash read p).1 known' ∧ Apart known' ∧ Paths all hash read known' ∧
      (∀ b ∈ known, b ∈ known') ∧ (⟨hash p, read p, p⟩ : Add) ∈ known' ∧ (c.addPath hash read p).2 = some (hash p) := by
  unfold Cache.addPath
  dsimp only
  rw [show Bimap.getRight c.names (hash p) = (known.find? fun b => b.id = hash p).map Add.name by rw [h.1, getRight_known]]
  cases hf : known.find? (fun b => decide (b.id = hash p)) with
  | some b =>
    have h1 := List.mem_of_find?_eq_some hf
    have h2 : b.id = hash p := by simpa using List.find?_some hf
    have h3 : b.name = p := hinj _ (hp b h1).2.2 _ hall (by rw [← (hp b h1).1, h2])
    have h4 : b = ⟨hash p, read p, p⟩ := by
      have h5 := (hp b h1).2.1
      obtain ⟨i, s, n⟩ := b
      dsimp only at h2 h3 h5
      subst h2 h3 h5
      rfl
    exact ⟨known, h, ha, hp, fun b hb => hb, h4 ▸ h1, rfl⟩
  | none =>
    obtain ⟨g1, g2⟩ := add_holds c known h ⟨hash p, read p, p⟩
    have g3 := accept_apart known ha ⟨hash p, read p, p⟩
    have hacc : accept known ⟨hash p, read p, p⟩ = (known ++ [⟨hash p, read p, p⟩], true) := by
      unfold accept
      rw [hf]
      dsimp only
      rw [if_neg]
      rintro ⟨b, hb, e⟩
      have := List.find?_eq_none.mp hf b hb
      rw [(hp b hb).1, e] at this
      simp at this
    rw [hacc] at g1 g2 g3
    dsimp only at g1 g2 g3
    have hpair : c.add (hash p) (read p) p = ((c.add (hash p) (read p) p).1, true) := Prod.ext rfl g2
    simp only [Option.map_none]
    rw [hpair]
    refine ⟨_, g1, g3, ?_, fun b hb => List.mem_append_left _ hb, by simp, rfl⟩
    intro b hb
    rcases List.mem_append.mp hb with hb | hb
    · exact hp b hb
    · simp only [List.mem_cons, List.not_mem_nil, or_false] at hb
      subst hb
      exact ⟨rfl, rfl, hall⟩

theorem paths_run (all : List String) (hash : String → Nat) (read : String → String) (hinj : Different all hash) (ps : List String) (hall : ∀ p ∈ ps, p ∈ all) (c : Cache) (known : List Add)
    (h : Holds c known) (ha : Apart known) (hp : Paths all hash read known) : ∃ known', Holds (runPaths hash read c ps).1 known' ∧ Apart known' ∧
      (∀ b ∈ known, b ∈ known') ∧ (∀ p ∈ ps, (⟨hash p, read p, p⟩ : Add) ∈ known') ∧ (runPaths hash read c ps).2 = ps.map fun p => some (hash p) := by
  induction ps generalizing c known with
  | nil => exact ⟨known, h, ha, fun b hb => hb, by simp, rfl⟩
  | cons p ps ih =>
    obtain ⟨k1, a1, a2, a3, a4, a5, a6⟩ := path_step all hash read hinj c known h ha hp p (hall p (by simp))
    obtain ⟨k2, b1, b2, b3, b4, b5⟩ := ih (fun q hq => hall q (by simp [hq])) _ k1 a1 a2 a3
    refine ⟨k2, b1, b2, fun b hb => b3 b (a4 b hb), ?_, ?_⟩
    · intro q hq
      rcases List.mem_cons.mp hq with rfl | hq
      · exact b3 _ a5
      · exact b4 q hq
    · rw [runPaths, a6, b5]
      rfl

/-- The paths of a history are found with their texts, under the identifiers that the calls gave. -/
def Found (hash : String → Nat) (read : String → String) (ps : List String) : Prop :=
  ∀ (i : Nat) (p : String), ps[i]? = some p → ∃ id, (runPaths hash read .empty ps).2[i]? = some (some id) ∧
    (runPaths hash read .empty ps).1.fetch id = some (read p) ∧ (runPaths hash read .empty ps).1.display id = some p

/-- **C190** Paths are found with their texts if no two of them have the same hash. -/
theorem paths_partial (hash : String → Nat) (read : String → String) (ps : List String) (hinj : Different ps hash) : Found hash read ps := by
  obtain ⟨known, h1, h2, _, h4, h5⟩ := paths_run ps hash read hinj ps (fun _ h => h) .empty [] holds_empty List.Pairwise.nil (by intro b hb; cases hb)
  intro i p hi
  have hm := h4 p (List.mem_of_getElem? hi)
  refine ⟨hash p, by rw [h5, List.getElem?_map, hi]; rfl, h1.2 _ hm, ?_⟩
  unfold Cache.display
  rw [h1.1, getRight_known, find_apart _ h2 _ hm]
  rfl

/-- **C190**, the property of paths. -/
def PathsStatement : Prop := ∀ (hash : String → Nat) (read : String → String) (ps : List String), Found hash read ps

/-- The source of the second of two paths with the same hash is that of the first. -/
theorem paths_false : ¬ PathsStatement := by
  intro h
  obtain ⟨id, h1, h2, _⟩ := h (fun _ => 0) (fun p => p) ["a", "b"] 1 "b" rfl
  have e : (runPaths (fun _ => 0) (fun p => p) .empty ["a", "b"]).2 = [some 0, some 0] := by decide
  rw [e] at h1
  simp only [List.getElem?_cons_succ, List.getElem?_cons_zero, Option.some.injEq] at h1
  subst h1
  revert h2
  decide

example : Different ["a", "bc"] String.length := by unfold Different; decide

example : (run .empty [⟨1, "a", "x"⟩, ⟨1, "b", "x"⟩, ⟨2, "c", "y"⟩, ⟨1, "d", "z"⟩]).2 = [true, true, true, false] := by decide

end Verif.Cache
