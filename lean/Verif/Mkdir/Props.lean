import Verif.Mkdir.Model
import Mathlib.Tactic.SplitIfs

/-!
# Creating directories

**C187**  When `createDirectory` returns, the directory is there; what is new are the directory and those of its parents that
were not there; it throws only if there is a reason.
* `mkdir_partial`, `mkdir_throws_partial` – for absolute paths, and for relative paths whose first name is a directory.
* `mkdir_false` – for other relative paths nothing is created.
* `mkdir_throws_false` – without `parents` a path of one name cannot be created.
-/

namespace Verif.Mkdir

/-- A file system: the root is a directory, the empty path is not, and what is there is in a directory. -/
def Sound (d : Disk) : Prop :=
  d ⟨true, []⟩ = .directory ∧ d ⟨false, []⟩ = .nothing ∧ ∀ a x y r, d ⟨a, x :: y :: r⟩ ≠ .nothing → d ⟨a, y :: r⟩ = .directory

/-- A path above another, or that path. -/
def Above (p q : Path) : Prop := p.absolute = q.absolute ∧ p.names <:+ q.names

/-- Absolute, or below a directory. -/
def Rooted (d : Disk) (p : Path) : Prop := p.absolute = true ∨ ∃ x, p.names.getLast? = some x ∧ d ⟨false, [x]⟩ = .directory

/-- Only directories above a path are new. -/
def OnlyNew (d d' : Disk) (p : Path) : Prop := ∀ q, d' q = d q ∨ (d q = .nothing ∧ d' q = .directory ∧ Above q p)

theorem create_dir {d d' : Disk} {p : Path} (h : create d p = some d') : d' p = .directory ∧ OnlyNew d d' p := by
  unfold create at h
  split at h
  · rename_i hp
    injection h with h
    subst h
    refine ⟨by simp, ?_⟩
    intro q
    by_cases hq : q = p
    · subst hq; exact .inr ⟨hp, by simp, rfl, List.suffix_refl _⟩
    · exact .inl (by simp [hq])
  · rename_i hp
    injection h with h
    subst h
    exact ⟨hp, fun q => .inl rfl⟩
  · cases h

theorem only_trans {d d' d'' : Disk} {p q : Path} (h1 : OnlyNew d d' p) (hpq : Above p q) (h2 : OnlyNew d' d'' q) : OnlyNew d d'' q := by
  intro r
  rcases h1 r with a | ⟨a1, a2, a3⟩
  · rcases h2 r with b | ⟨b1, b2, b3⟩
    · exact .inl (by rw [b, a])
    · exact .inr ⟨by rw [← a, b1], b2, b3⟩
  · rcases h2 r with b | ⟨b1, _, _⟩
    · exact .inr ⟨a1, by rw [b, a2], by rw [a3.1, hpq.1], a3.2.trans hpq.2⟩
    · rw [a2] at b1; cases b1

theorem make_only (a : Bool) (names : List String) (d d' : Disk) (h : make a names d = some d') : OnlyNew d d' ⟨a, names⟩ := by
  induction names generalizing d' with
  | nil =>
    rw [make] at h
    injection h with h
    subst h
    exact fun q => .inl rfl
  | cons x r ih =>
    rw [make] at h
    have up : Above ⟨a, r⟩ ⟨a, x :: r⟩ := ⟨rfl, List.suffix_cons _ _⟩
    cases hm : make a r d with
    | none => rw [hm] at h; cases h
    | some e =>
      rw [hm] at h
      dsimp only at h
      split_ifs at h
      · exact only_trans (ih e hm) up (create_dir h).2
      · injection h with h
        subst h
        exact only_trans (ih e hm) up (fun q => .inl rfl)

theorem make_dir (a : Bool) (names : List String) (d d' : Disk) (hd : Sound d) (hr : Rooted d ⟨a, names⟩) (h : make a names d = some d') :
    d' ⟨a, names⟩ = .directory := by
  induction names generalizing d' with
  | nil =>
    rw [make] at h
    injection h with h
    subst h
    rcases hr with hr | ⟨x, hx, _⟩
    · dsimp only at hr
      subst hr
      exact hd.1
    · simp at hx
  | cons x r ih =>
    have hold := h
    rw [make] at h
    cases hm : make a r d with
    | none => rw [hm] at h; cases h
    | some e =>
      rw [hm] at h
      dsimp only at h
      by_cases hrel : a = false ∧ r = []
      · obtain ⟨rfl, rfl⟩ := hrel
        rcases hr with hr | ⟨y, hy, hy'⟩
        · cases hr
        · simp only [List.getLast?_singleton, Option.some.injEq] at hy
          subst hy
          rcases make_only _ _ _ _ hold ⟨false, [x]⟩ with e | ⟨_, e, _⟩
          · rw [e, hy']
          · exact e
      · have hr' : Rooted d ⟨a, r⟩ := by
          rcases hr with hr | ⟨y, hy, hy'⟩
          · exact .inl hr
          · cases r with
            | nil =>
              cases a with
              | true => exact .inl rfl
              | false => exact absurd ⟨rfl, rfl⟩ hrel
            | cons z r => exact .inr ⟨y, by simpa [List.getLast?_cons_cons] using hy, hy'⟩
        rw [if_pos (ih e hr' hm)] at h
        exact (create_dir h).1

/-- **C187** After `createDirectory` the directory is there, and only it and its parents are new. -/
theorem mkdir_partial (d d' : Disk) (p : Path) (parents existsOk : Bool) (hd : Sound d) (hr : Rooted d p) (h : createDirectory d p parents existsOk = some d') :
    d' p = .directory ∧ OnlyNew d d' p := by
  unfold createDirectory at h
  split_ifs at h
  exact ⟨make_dir _ _ _ _ hd hr h, make_only _ _ _ _ h⟩

/-- There is no file above a path. -/
def Free (d : Disk) (p : Path) : Prop := ∀ q, Above q p → d q ≠ .file

theorem make_some (a : Bool) (names : List String) (d : Disk) (hf : Free d ⟨a, names⟩) : ∃ d', make a names d = some d' := by
  induction names with
  | nil => exact ⟨d, rfl⟩
  | cons x r ih =>
    have hf' : Free d ⟨a, r⟩ := fun q hq => hf q ⟨hq.1, hq.2.trans (List.suffix_cons _ _)⟩
    obtain ⟨e, he⟩ := ih hf'
    rw [make, he]
    dsimp only
    split_ifs
    · unfold create
      have hx : e ⟨a, x :: r⟩ ≠ .file := by
        rcases make_only _ _ _ _ he ⟨a, x :: r⟩ with h | ⟨_, h, _⟩
        · rw [h]; exact hf _ ⟨rfl, List.suffix_refl _⟩
        · rw [h]; simp
      split
      · exact ⟨_, rfl⟩
      · exact ⟨_, rfl⟩
      · rename_i h; exact absurd h hx
    · exact ⟨e, rfl⟩

theorem make_all (a : Bool) (names : List String) (d d' : Disk) (hd : Sound d) (hr : Rooted d ⟨a, names⟩) (h : make a names d = some d') (q : Path)
    (hq : Above q ⟨a, names⟩) (hne : q ≠ ⟨false, []⟩) : d' q = .directory := by
  induction names generalizing d' with
  | nil =>
    obtain ⟨qa, qn⟩ := q
    obtain ⟨h1, h2⟩ := hq
    dsimp only at h1 h2
    rw [List.suffix_nil] at h2
    subst h1 h2
    exact make_dir _ _ _ _ hd hr h
  | cons x r ih =>
    have hfull := make_dir _ _ _ _ hd hr h
    rcases List.suffix_cons_iff.mp hq.2 with e | e
    · have : q = ⟨a, x :: r⟩ := by
        obtain ⟨qa, qn⟩ := q
        obtain ⟨h1, _⟩ := hq
        dsimp only at h1 e
        rw [h1, e]
      rw [this]
      exact hfull
    · have hr' : Rooted d ⟨a, r⟩ := by
        rcases hr with hr | ⟨y, hy, hy'⟩
        · exact .inl hr
        · cases r with
          | nil =>
            obtain ⟨qa, qn⟩ := q
            obtain ⟨h1, _⟩ := hq
            dsimp only at h1 e
            rw [List.suffix_nil] at e
            subst h1 e
            cases qa with
            | true => exact .inl rfl
            | false => exact absurd rfl hne
          | cons z r => exact .inr ⟨y, by simpa [List.getLast?_cons_cons] using hy, hy'⟩
      rw [make] at h
      cases hm : make a r d with
      | none => rw [hm] at h; cases h
      | some f =>
        rw [hm] at h
        dsimp only at h
        have hf := ih f hr' hm ⟨hq.1, e⟩
        split_ifs at h
        · rcases (create_dir h).2 q with g | ⟨g, _, _⟩
          · rw [g, hf]
          · rw [hf] at g; cases g
        · injection h with h
          rw [← h, hf]

/-- **C187** It throws if and only if the path is empty, there is a file at the path or above it, the directory is there and may
not be, or its parent is not there and may not be made. -/
theorem mkdir_throws_partial (d : Disk) (p : Path) (parents existsOk : Bool) (hd : Sound d) (hr : Rooted d p) :
    createDirectory d p parents existsOk = none ↔
      p = ⟨false, []⟩ ∨ ¬ Free d p ∨ (d p = .directory ∧ existsOk = false) ∨ (d p.parent ≠ .directory ∧ parents = false) := by
  unfold createDirectory
  split_ifs with h1 h2 h3 h4
  · simp [h1]
  · exact ⟨fun _ => .inr (.inl fun hf => hf p ⟨rfl, List.suffix_refl _⟩ h2), fun _ => rfl⟩
  · exact ⟨fun _ => .inr (.inr (.inl ⟨h3.1, by simpa using h3.2⟩)), fun _ => rfl⟩
  · exact ⟨fun _ => .inr (.inr (.inr ⟨h4.1, by simpa using h4.2⟩)), fun _ => rfl⟩
  · constructor
    · intro h
      refine .inr (.inl fun hf => ?_)
      obtain ⟨d', e⟩ := make_some p.absolute p.names d hf
      rw [e] at h
      cases h
    · rintro (h | h | ⟨h, h'⟩ | ⟨h, h'⟩)
      · exact absurd h h1
      · cases hm : make p.absolute p.names d with
        | none => rfl
        | some d' =>
          exfalso
          apply h
          intro q hq hfile
          by_cases hne : q = ⟨false, []⟩
          · rw [hne, hd.2.1] at hfile
            cases hfile
          · have := make_all _ _ _ _ hd hr hm q hq hne
            rcases make_only _ _ _ _ hm q with g | ⟨g, _, _⟩
            · rw [g, hfile] at this; cases this
            · rw [hfile] at g; cases g
      · exact absurd ⟨h, by simp [h']⟩ h3
      · exact absurd ⟨h, by simp [h']⟩ h4

/-- **C187**, the property. -/
def MkdirStatement : Prop := ∀ (d d' : Disk) (p : Path) (parents existsOk : Bool), Sound d → createDirectory d p parents existsOk = some d' → d' p = .directory

/-- A disk with the root and the directory `tmp` in it. -/
def disk : Disk := fun p => if p = ⟨true, []⟩ ∨ p = ⟨true, ["tmp"]⟩ then .directory else .nothing

theorem disk_sound : Sound disk := by
  refine ⟨by decide, by decide, ?_⟩
  intro a x y r h
  exfalso
  apply h
  unfold disk
  rw [if_neg (by simp)]

/-- The parent of a path of one name is the empty path, which is no directory: nothing is created, and nothing is thrown. -/
theorem mkdir_false : ¬ MkdirStatement := by
  intro h
  have e : createDirectory disk ⟨false, ["out"]⟩ true true = some disk := by
    simp [createDirectory, make, disk, Path.parent]
  have := h disk disk ⟨false, ["out"]⟩ true true disk_sound e
  revert this
  decide

/-- **C187**, the property: a path of one name, which is in the working directory, can be created. -/
def ThrowsStatement : Prop := ∀ (d : Disk) (x : String), Sound d → d ⟨false, [x]⟩ = .nothing → createDirectory d ⟨false, [x]⟩ false true ≠ none

theorem mkdir_throws_false : ¬ ThrowsStatement := by
  intro h
  exact h disk "out" disk_sound (by decide) (by decide)

example : ∃ d', createDirectory disk ⟨true, ["b", "a", "tmp"]⟩ true true = some d' ∧ d' ⟨true, ["a", "tmp"]⟩ = .directory := ⟨_, rfl, by decide⟩

end Verif.Mkdir
