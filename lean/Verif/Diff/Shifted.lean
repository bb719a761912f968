import Verif.Diff.Lcs
import Verif.Diff.Leven

/-!
# Proof about `ShiftedDiff`
-/

namespace Verif.Diff

/-- Line numbers on one side, leaving out the empty rows. -/
def lines (l : List Item) : List Int := l.filterMap fun i => if i.kind = .none then none else some i.item

/-- Line numbers marked as kept on one side. -/
def kept (l : List Item) : List Int := l.filterMap fun i => if i.kind = .keep then some i.item else none

theorem kept_append (a b : List Item) : kept (a ++ b) = kept a ++ kept b := by
  simp [kept, List.filterMap_append]

theorem kept_none (l : List Item) (h : ∀ i ∈ l, i.kind ≠ .keep) : kept l = [] := by
  unfold kept
  rw [List.filterMap_eq_nil_iff]
  intro i hi
  rw [if_neg (h i hi)]

/-- Rows in which some side is marked as kept. -/
def keepRows (s : Shifted) : List (Item × Item) :=
  (s.oldShifted.zip s.newShifted).filter fun p => decide (p.1.kind = .keep ∨ p.2.kind = .keep)

/-- The row of two kept lines. -/
def keepRow (p : Int × Int) : Item × Item := (⟨.keep, p.1⟩, ⟨.keep, p.2⟩)

theorem lines_append (a b : List Item) : lines (a ++ b) = lines a ++ lines b := by
  simp [lines, List.filterMap_append]

theorem lines_none {α : Type} (l : List α) : lines (l.map fun _ => ⟨.none, 0⟩) = [] := by
  induction l with
  | nil => rfl
  | cons a l ih => simp [lines]

theorem lines_kind (k : EditKind) (hk : k ≠ .none) (l : List Int) :
    lines (l.map fun i => ⟨k, i⟩) = l := by
  induction l with
  | nil => rfl
  | cons a l ih =>
    simp only [lines, List.map_cons, List.filterMap_cons, hk, if_false] at ih ⊢
    rw [ih]

theorem intRange_eq_upTo (a b : Nat) (h : a ≤ b) : upTo a ++ intRange a b = upTo b := by
  unfold upTo intRange
  have h1 : (((b : Int) - a).toNat) = b - a := by omega
  rw [h1]
  obtain ⟨c, rfl⟩ := Nat.exists_eq_add_of_le h
  rw [Nat.add_sub_cancel_left, List.range_add, List.map_append, List.map_map]
  congr 1

/-- State of the alignment loop. -/
structure TrackInv (s : Shifted) (pl pr : Nat) (done : List (Nat × Nat)) : Prop where
  len : s.oldShifted.length = s.newShifted.length
  old : lines s.oldShifted = upTo pl
  new : lines s.newShifted = upTo pr
  keeps : keepRows s = done.map fun p => keepRow (p.1, p.2)

theorem keepRows_append {s : Shifted} (hl : s.oldShifted.length = s.newShifted.length) (a b : List Item) :
    keepRows ⟨s.oldShifted ++ a, s.newShifted ++ b⟩ = keepRows s ++ keepRows ⟨a, b⟩ := by
  unfold keepRows
  dsimp only
  rw [List.zip_append hl, List.filter_append]

theorem keepRows_none (l : List Int) (k k' : EditKind) (hk : k ≠ .keep) (hk' : k' ≠ .keep) (f g : Int → Int) :
    keepRows ⟨l.map fun i => ⟨k, f i⟩, l.map fun i => ⟨k', g i⟩⟩ = [] := by
  unfold keepRows
  dsimp only
  rw [List.zip_map', List.filter_eq_nil_iff]
  intro p hp
  obtain ⟨i, -, rfl⟩ := List.mem_map.1 hp
  simp [hk, hk']

theorem TrackInv.deletes {s : Shifted} {pl pr : Nat} {done : List (Nat × Nat)} (h : TrackInv s pl pr done) (b : Nat)
    (hb : pl ≤ b) : TrackInv (s.deletes pl b) b pr done := by
  refine ⟨?_, ?_, ?_, ?_⟩
  · simp [Shifted.deletes, h.len]
  · simp only [Shifted.deletes]
    rw [lines_append, h.old, lines_kind _ (by simp), intRange_eq_upTo _ _ hb]
  · simp only [Shifted.deletes]
    rw [lines_append, h.new, lines_none, List.append_nil]
  · unfold Shifted.deletes
    rw [keepRows_append h.len, h.keeps, keepRows_none _ _ _ (by simp) (by simp) (fun i => i) (fun _ => 0),
      List.append_nil]

theorem TrackInv.inserts {s : Shifted} {pl pr : Nat} {done : List (Nat × Nat)} (h : TrackInv s pl pr done) (b : Nat)
    (hb : pr ≤ b) : TrackInv (s.inserts pr b) pl b done := by
  refine ⟨?_, ?_, ?_, ?_⟩
  · simp [Shifted.inserts, h.len]
  · simp only [Shifted.inserts]
    rw [lines_append, h.old, lines_none, List.append_nil]
  · simp only [Shifted.inserts]
    rw [lines_append, h.new, lines_kind _ (by simp), intRange_eq_upTo _ _ hb]
  · unfold Shifted.inserts
    rw [keepRows_append h.len, h.keeps, keepRows_none _ _ _ (by simp) (by simp) (fun _ => 0) (fun i => i),
      List.append_nil]

theorem TrackInv.keep {s : Shifted} {pl pr : Nat} {done : List (Nat × Nat)} (h : TrackInv s pl pr done) :
    TrackInv (s.keep pl pr) (pl + 1) (pr + 1) (done ++ [(pl, pr)]) := by
  refine ⟨?_, ?_, ?_, ?_⟩
  · simp [Shifted.keep, h.len]
  · simp only [Shifted.keep]
    rw [lines_append, h.old, upTo_succ]; rfl
  · simp only [Shifted.keep]
    rw [lines_append, h.new, upTo_succ]; rfl
  · unfold Shifted.keep
    rw [keepRows_append h.len, h.keeps, List.map_append]
    rfl

theorem shiftTrackLoop_spec (track : Backtrack) (ps : List (Nat × Nat)) (hd : track.Describes ps) :
    ∀ (rest done : List (Nat × Nat)) (s : Shifted) (pl pr : Nat), ps = done ++ rest →
      TrackInv s pl pr done → (∀ p ∈ rest, pl ≤ p.1 ∧ pr ≤ p.2) →
      rest.Pairwise (fun p q => p.1 < q.1 ∧ p.2 < q.2) →
      ∃ s' pl' pr' : _, shiftTrackLoop track (List.range' done.length rest.length) (s, (pl : Int), (pr : Int))
        = .ok (s', ((pl' : Nat) : Int), ((pr' : Nat) : Int)) ∧ TrackInv s' pl' pr' ps ∧
        (pl' = pl ∧ pr' = pr ∨ ∃ p ∈ rest, pl' = p.1 + 1 ∧ pr' = p.2 + 1) := by
  intro rest
  induction rest with
  | nil =>
    intro done s pl pr hps hinv _ _
    rw [List.append_nil] at hps
    exact ⟨s, pl, pr, rfl, by rw [hps]; exact hinv, Or.inl ⟨rfl, rfl⟩⟩
  | cons p rest ih =>
    intro done s pl pr hps hinv hle hpw
    obtain ⟨hpl, hpr⟩ := hle p (by simp)
    have hget : ps[done.length]? = some p := by rw [hps]; simp
    have hl : vecAt track.lhsIndex (done.length : Int) = .ok (p.1 : Int) := by
      refine vecAt_of_get (by omega) ?_
      rw [hd.1, Int.toNat_natCast, List.getElem?_map, hget]; rfl
    have hr : vecAt track.rhsIndex (done.length : Int) = .ok (p.2 : Int) := by
      refine vecAt_of_get (by omega) ?_
      rw [hd.2, Int.toNat_natCast, List.getElem?_map, hget]; rfl
    have hpw' := List.pairwise_cons.1 hpw
    obtain ⟨s', pl', pr', h1, h2, h3⟩ := ih (done ++ [p]) _ (p.1 + 1) (p.2 + 1) (by rw [hps]; simp)
      ((hinv.deletes p.1 hpl).inserts p.2 hpr).keep
      (fun q hq => by have := hpw'.1 q hq; omega) hpw'.2
    refine ⟨s', pl', pr', ?_, h2, ?_⟩
    · rw [List.length_cons, List.range'_succ]
      simp only [shiftTrackLoop, hl, hr, bind, Except.bind]
      rw [List.length_append, List.length_singleton] at h1
      exact_mod_cast h1
    · right
      rcases h3 with ⟨rfl, rfl⟩ | ⟨q, hq, h⟩
      · exact ⟨p, by simp, rfl, rfl⟩
      · exact ⟨q, by simp [hq], h⟩

/-- Rows built from an alignment. -/
theorem shiftTrack_spec (track : Backtrack) (n m : Nat) (cmp : Nat → Nat → Bool) (ps : List (Nat × Nat))
    (hd : track.Describes ps) (hc : Common n m cmp ps) :
    ∃ s, shiftTrack track n m = .ok s ∧ TrackInv s n m ps := by
  have hlen : track.lhsIndex.length = ps.length := by rw [hd.1]; simp
  obtain ⟨s, pl, pr, h1, h2, h3⟩ := shiftTrackLoop_spec track ps hd ps [] {} 0 0 rfl
    ⟨rfl, rfl, rfl, rfl⟩ (by simp) hc.increasing
  have hb : pl ≤ n ∧ pr ≤ m := by
    rcases h3 with ⟨rfl, rfl⟩ | ⟨p, hp, rfl, rfl⟩
    · omega
    · have := hc.bounds p hp; omega
  refine ⟨_, ?_, ((h2.deletes n hb.1).inserts m hb.2)⟩
  unfold shiftTrack
  rw [List.range_eq_range', hlen]
  simp only [List.length_nil] at h1
  have h1' : shiftTrackLoop track (List.range' 0 ps.length) ({}, 0, 0) = .ok (s, (pl : Int), (pr : Int)) := by
    exact_mod_cast h1
  simp only [bind, Except.bind, h1']

/-! ## From an edit script -/

/-- The kept pairs of a script. -/
def keepPairs (h : List Edit) : List (Int × Int) :=
  h.filterMap fun e => if e.kind = .keep then some (e.sourcePos, e.targetPos) else none

theorem lines_replicate (k : Nat) : lines (List.replicate k ⟨.none, 0⟩) = [] := by
  induction k with
  | zero => rfl
  | succ k ih =>
    rw [List.replicate_succ]
    simpa [lines] using ih

/-- State of the script loop: rows up to the last kept one, then the surplus of each side. -/
structure EditInv (s : Shifted) (done : List Edit) : Prop where
  old : lines s.oldShifted = done.filterMap Edit.source?
  new : lines s.newShifted = done.filterMap Edit.target?
  oldKeep : kept s.oldShifted = (keepPairs done).map Prod.fst
  newKeep : kept s.newShifted = (keepPairs done).map Prod.snd
  split : ∃ a b x y, s.oldShifted = a ++ x ∧ s.newShifted = b ++ y ∧ a.length = b.length ∧
    (∀ i ∈ x ++ y, i.kind ≠ .keep) ∧ keepRows ⟨a, b⟩ = (keepPairs done).map keepRow

theorem keepRows_of_not_keep (x y : List Item) (h : ∀ i ∈ x ++ y, i.kind ≠ .keep) : keepRows ⟨x, y⟩ = [] := by
  unfold keepRows
  dsimp only
  rw [List.filter_eq_nil_iff]
  intro p hp
  have := List.of_mem_zip (show (p.1, p.2) ∈ x.zip y from hp)
  have h1 := h p.1 (by simp [this.1])
  have h2 := h p.2 (by simp [this.2])
  simp [h1, h2]

theorem EditInv.keeps {s : Shifted} {done : List Edit} (h : EditInv s done) :
    keepRows s = (keepPairs done).map keepRow := by
  obtain ⟨a, b, x, y, h1, h2, h3, h4, h5⟩ := h.split
  have : s = ⟨a ++ x, b ++ y⟩ := by cases s; simp_all
  rw [this, keepRows_append (s := ⟨a, b⟩) h3, h5, keepRows_of_not_keep x y h4, List.append_nil]

theorem keepPairs_snoc (h : List Edit) (e : Edit) :
    keepPairs (h ++ [e]) = keepPairs h ++ if e.kind = .keep then [(e.sourcePos, e.targetPos)] else [] := by
  unfold keepPairs
  rw [List.filterMap_append]
  by_cases hk : e.kind = .keep <;> simp [hk]

theorem shiftEdit_spec {s : Shifted} {done : List Edit} (h : EditInv s done) (e : Edit)
    (hk : e.kind = .keep ∨ e.kind = .delete ∨ e.kind = .insert) :
    ∃ s', shiftEdit s e = .ok s' ∧ EditInv s' (done ++ [e]) := by
  obtain ⟨a, b, x, y, h1, h2, h3, h4, h5⟩ := h.split
  unfold shiftEdit
  rcases hk with hk | hk | hk <;> rw [hk] <;> dsimp only
  · refine ⟨_, rfl, ⟨?_, ?_, ?_, ?_, ?_⟩⟩
    · simp only [Shifted.keep, Shifted.pad]
      rw [lines_append, lines_append, lines_replicate, h.old, List.filterMap_append, List.append_nil]
      simp [lines, Edit.source?, hk]
    · simp only [Shifted.keep, Shifted.pad]
      rw [lines_append, lines_append, lines_replicate, h.new, List.filterMap_append, List.append_nil]
      simp [lines, Edit.target?, hk]
    · simp only [Shifted.keep, Shifted.pad]
      rw [kept_append, kept_append, h.oldKeep, keepPairs_snoc, if_pos hk, kept_none (List.replicate _ _)]
      · simp [kept]
      · intro i hi; rw [(List.mem_replicate.1 hi).2]; simp
    · simp only [Shifted.keep, Shifted.pad]
      rw [kept_append, kept_append, h.newKeep, keepPairs_snoc, if_pos hk, kept_none (List.replicate _ _)]
      · simp [kept]
      · intro i hi; rw [(List.mem_replicate.1 hi).2]; simp
    · refine ⟨s.pad.oldShifted ++ [⟨.keep, e.sourcePos⟩], s.pad.newShifted ++ [⟨.keep, e.targetPos⟩], [], [],
        by simp [Shifted.keep], by simp [Shifted.keep], ?_, by simp, ?_⟩
      · simp only [Shifted.pad, List.length_append, List.length_replicate, List.length_singleton]
        omega
      · have hpl : s.pad.oldShifted.length = s.pad.newShifted.length := by
          simp only [Shifted.pad, List.length_append, List.length_replicate]
          omega
        rw [keepRows_append hpl, keepPairs_snoc, if_pos hk, List.map_append]
        congr 1
        have : s.pad = ⟨a ++ (x ++ List.replicate (s.newShifted.length - s.oldShifted.length) ⟨.none, 0⟩),
            b ++ (y ++ List.replicate (s.oldShifted.length - s.newShifted.length) ⟨.none, 0⟩)⟩ := by
          unfold Shifted.pad
          rw [← List.append_assoc, ← List.append_assoc, ← h1, ← h2]
        rw [this, keepRows_append (s := ⟨a, b⟩) h3, h5, keepRows_of_not_keep, List.append_nil]
        intro i hi
        simp only [List.mem_append, List.mem_replicate] at hi
        rcases hi with (hi | ⟨-, rfl⟩) | (hi | ⟨-, rfl⟩)
        · exact h4 i (by simp [hi])
        · simp
        · exact h4 i (by simp [hi])
        · simp
  · refine ⟨_, rfl, ⟨?_, ?_, ?_, ?_, ?_⟩⟩
    · dsimp only
      rw [lines_append, h.old, List.filterMap_append]
      simp [lines, Edit.source?, hk]
    · dsimp only
      rw [h.new, List.filterMap_append]
      simp [Edit.target?, hk]
    · dsimp only
      rw [kept_append, h.oldKeep, keepPairs_snoc, if_neg (by simp [hk])]
      simp [kept]
    · dsimp only
      rw [h.newKeep, keepPairs_snoc, if_neg (by simp [hk]), List.append_nil]
    · refine ⟨a, b, x ++ [⟨.delete, e.sourcePos⟩], y, by rw [h1]; simp, h2, h3, ?_, ?_⟩
      · intro i hi
        simp only [List.mem_append, List.mem_singleton] at hi
        rcases hi with (hi | rfl) | hi
        · exact h4 i (by simp [hi])
        · simp
        · exact h4 i (by simp [hi])
      · rw [keepPairs_snoc, if_neg (by simp [hk]), List.append_nil]; exact h5
  · refine ⟨_, rfl, ⟨?_, ?_, ?_, ?_, ?_⟩⟩
    · dsimp only
      rw [h.old, List.filterMap_append]
      simp [Edit.source?, hk]
    · dsimp only
      rw [lines_append, h.new, List.filterMap_append]
      simp [lines, Edit.target?, hk]
    · dsimp only
      rw [h.oldKeep, keepPairs_snoc, if_neg (by simp [hk]), List.append_nil]
    · dsimp only
      rw [kept_append, h.newKeep, keepPairs_snoc, if_neg (by simp [hk])]
      simp [kept]
    · refine ⟨a, b, x, y ++ [⟨.insert, e.targetPos⟩], h1, by rw [h2]; simp, h3, ?_, ?_⟩
      · intro i hi
        simp only [List.mem_append, List.mem_singleton] at hi
        rcases hi with hi | hi | rfl
        · exact h4 i (by simp [hi])
        · exact h4 i (by simp [hi])
        · simp
      · rw [keepPairs_snoc, if_neg (by simp [hk]), List.append_nil]; exact h5

/-- Rows built from a script without replacements. -/
theorem shiftEdits_spec (h : List Edit) (hk : ∀ e ∈ h, e.kind = .keep ∨ e.kind = .delete ∨ e.kind = .insert) :
    ∃ s, shiftEdits h = .ok s ∧ EditInv s h := by
  have key : ∀ (rest done : List Edit) (s : Shifted), EditInv s done →
      (∀ e ∈ rest, e.kind = .keep ∨ e.kind = .delete ∨ e.kind = .insert) →
      ∃ s', forEach shiftEdit rest s = .ok s' ∧ EditInv s' (done ++ rest) := by
    intro rest
    induction rest with
    | nil => intro done s hi _; exact ⟨s, rfl, by simpa using hi⟩
    | cons e rest ih =>
      intro done s hi hr
      obtain ⟨s1, h1, h2⟩ := shiftEdit_spec hi e (hr e (by simp))
      obtain ⟨s2, h3, h4⟩ := ih (done ++ [e]) s1 h2 (fun e he => hr e (by simp [he]))
      refine ⟨s2, ?_, by simpa using h4⟩
      simp only [forEach, h1, bind, Except.bind]
      exact h3
  obtain ⟨s, h1, h2⟩ := key h [] {} ⟨rfl, rfl, rfl, rfl, [], [], [], [], rfl, rfl, rfl, by simp, rfl⟩ hk
  exact ⟨s, h1, by simpa using h2⟩

end Verif.Diff
