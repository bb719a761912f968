import Verif.Layout.OptSound

/-!
# Properties of the text layouter
-/

namespace Verif.Layout
variable {C : Type}

/-! ## C75: what is printed is what the block shows -/

mutual

theorem leafless (b : Block) (hp : Plain b) (h : leafCount b = 0) : Shows b none := by
  match b with
  | .text _ => simp [leafCount] at h
  | .line bs =>
    simp only [leafCount] at h
    simp only [Plain] at hp
    simp only [Shows]
    exact (leafless_all bs hp h).1
  | .stack _ bs =>
    simp only [leafCount] at h
    simp only [Plain] at hp
    simp only [Shows]
    exact (leafless_all bs hp.1 h).2.1
  | .choice [] => simp [Plain] at hp
  | .choice (b :: bs) =>
    simp only [leafCount, leafCounts] at h
    simp only [Plain, AllPlain] at hp
    simp only [Shows, ShowsAny]
    exact Or.inl (leafless b hp.2.1 (by omega))
  | .wrap _ _ _ [] => simp [Plain] at hp
  | .wrap _ _ _ (b :: bs) =>
    simp only [leafCount, leafCounts] at h
    simp only [Plain, AllPlain] at hp
    exact absurd rfl (hp.2.2 b (by simp) none (leafless b hp.2.1.1 (by omega)))
  | .verb _ _ => simp [leafCount] at h
  | .empty => simp [leafCount] at h

theorem leafless_all (bs : List Block) (hp : AllPlain bs) (h : leafCounts bs = 0) :
    ShowsRow bs none ∧ ShowsColumn bs none ∧ True := by
  match bs with
  | [] => simp [ShowsRow, ShowsColumn]
  | b :: bs =>
    simp only [leafCounts] at h
    simp only [AllPlain] at hp
    have h1 := leafless b hp.1 (by omega)
    have h2 := leafless_all bs hp.2 (by omega)
    simp only [ShowsRow, ShowsColumn]
    exact ⟨⟨none, none, h1, h2.1, rfl⟩, ⟨none, none, h1, h2.2.1, rfl⟩, trivial⟩

end

/-- The full property: for every block, what `toString` returns is one of the pictures of the block,
whatever the costs and the margins are. -/
def LayoutStatement : Prop :=
  ∀ (C : Type) (A : Arith C) (o : Options C) (fuel : Nat) (b : Block) (out : List Char),
    toString A o fuel b = .ok out → ∃ x, Shows b x ∧ out = printed x

/-- It holds for plain blocks.  Missing: blocks with empty blocks, verbatim blocks, and stacks ending
with something that shows nothing. -/
theorem toString_shows_partial (A : Arith C) (o : Options C) (fuel : Nat) (b : Block) (out : List Char) (hp : Plain b)
    (h : toString A o fuel b = .ok out) : ∃ x, Shows b x ∧ out = printed x := by
  unfold toString at h
  split at h
  · next hl =>
    cases h
    exact ⟨none, leafless b hp hl, rfl⟩
  · simp only [bind, Except.bind] at h
    split at h
    · cases h
    · next s hs =>
      have hsound := opt_sound A o fuel b hp none s (· = none) (by simp) rfl hs
      split at h
      · cases h
      · next t ht =>
        cases s with
        | none => cases ht
        | some s =>
          cases ht
          split at h
          · cases h
          · next g gs =>
            cases h
            obtain ⟨⟨y, z, hy, rfl, -, -, hb⟩, -⟩ := holdsO_some.mp hsound g (by simp)
            rw [besideO_none] at hb
            refine ⟨y, hy, ?_⟩
            rw [← hb, format_start]
            rfl

mutual

theorem shows_fixed (b : Block) (hf : Fixed b) (x : Option Box) : Shows b x ↔ x = picture b := by
  match b with
  | .text _ => simp [Shows, picture]
  | .line bs =>
    simp only [Fixed] at hf
    simp only [Shows, picture]
    exact (shows_fixed_all bs hf x).1
  | .stack _ bs =>
    simp only [Fixed] at hf
    simp only [Shows, picture]
    exact (shows_fixed_all bs hf x).2
  | .choice _ => simp [Fixed] at hf
  | .wrap _ _ _ _ => simp [Fixed] at hf
  | .verb _ _ => simp [Fixed] at hf
  | .empty => simp [Fixed] at hf

theorem shows_fixed_all (bs : List Block) (hf : AllFixed bs) (x : Option Box) :
    (ShowsRow bs x ↔ x = rowPicture bs) ∧ (ShowsColumn bs x ↔ x = columnPicture bs) := by
  match bs with
  | [] => simp [ShowsRow, ShowsColumn, rowPicture, columnPicture]
  | b :: bs =>
    simp only [AllFixed] at hf
    simp only [ShowsRow, ShowsColumn, rowPicture, columnPicture]
    constructor
    · constructor
      · rintro ⟨y, z, hy, hz, rfl⟩
        rw [(shows_fixed b hf.1 y).mp hy, (shows_fixed_all bs hf.2 z).1.mp hz]
      · rintro rfl
        exact ⟨_, _, (shows_fixed b hf.1 _).mpr rfl, (shows_fixed_all bs hf.2 _).1.mpr rfl, rfl⟩
    · constructor
      · rintro ⟨y, z, hy, hz, rfl⟩
        rw [(shows_fixed b hf.1 y).mp hy, (shows_fixed_all bs hf.2 z).2.mp hz]
      · rintro rfl
        exact ⟨_, _, (shows_fixed b hf.1 _).mpr rfl, (shows_fixed_all bs hf.2 _).2.mpr rfl, rfl⟩

end

/-- Blocks without alternatives have one picture, which is printed for all costs and margins. -/
theorem toString_fixed (A : Arith C) (o : Options C) (fuel : Nat) (b : Block) (out : List Char) (hf : Fixed b) (hp : Plain b)
    (h : toString A o fuel b = .ok out) : out = printed (picture b) := by
  obtain ⟨x, hx, rfl⟩ := toString_shows_partial A o fuel b out hp h
  rw [(shows_fixed b hf x).mp hx]

/-- Exact arithmetic. -/
def exact : Arith Rat where
  ofInt := fun n => n
  add := (· + ·)
  sub := (· - ·)
  mul := (· * ·)
  lt := fun a b => decide (a < b)
  eq := fun a b => decide (a = b)
  ceilDiv := fun a b => (a / b).ceil

/-- The options used by default (hpp 375-398). -/
def defaults : Options Rat where
  leftMargin := 0
  rightMargin := 80
  leftCost := 1 / 20
  rightCost := 100
  linebreakCost := 5
  cpack := 1 / 1000

def str (s : String) : Block := .text [.str s.toList]

/-- An empty block in a line takes away everything to its right. -/
theorem empty_swallows : toString exact defaults 100 (.line [str "a", .empty, str "b"]) = .ok ['a'] := by
  decide +kernel

theorem layout_false : ¬ LayoutStatement := by
  intro h
  obtain ⟨x, hx, hout⟩ := h Rat exact defaults 100 _ _ empty_swallows
  simp only [Shows, ShowsRow, str] at hx
  obtain ⟨_, _, rfl, ⟨_, _, rfl, ⟨_, _, rfl, rfl, rfl⟩, rfl⟩, rfl⟩ := hx
  revert hout
  decide

/-- A stack next to a stack, an alternative and a wrapped list. -/
def sample : Block :=
  .line [.stack 1 [str "ab", str "cd"],
    .choice [str " long text", .stack 1 [str " short", str " text"]],
    .wrap 1 none (.str ", ".toList) [str "x", str "y"]]

example : toString exact defaults 100 sample = .ok "ab\ncd long textx, y".toList := by decide +kernel

example : Plain sample := by
  have solid : ∀ ps, Solid (.text ps) := by
    intro ps x hx
    simp only [Shows] at hx
    simp [hx]
  simp [sample, Plain, AllPlain, str]
  refine ⟨?_, ?_, ?_, ?_⟩ <;> exact solid _

end Verif.Layout
