import Verif.AstDiff.TreeBfs
import Verif.AstDiff.TreeOrder

/-!
# The kinds of changes
-/

namespace Verif.AstDiff

section
variable {o : Options} {S D : SynTree} {m : Mapping}

/-- the kind of the change of a matched pair -/
def kindOf (o : Options) (S D : SynTree) (m : Mapping) (k : Marks) (a b : Nat) : Change :=
  if isMoved S D m k a b then (if o.valuesEqual (S.node a) (D.node b) then .move else .updateMove)
  else if o.valuesEqual (S.node a) (D.node b) then .none else .update

theorem isMoved_congr {k k' : Marks} (h1 : k.shS = k'.shS) (h2 : k.shD = k'.shD) (a b : Nat) : isMoved S D m k a b = isMoved S D m k' a b := by
  simp [isMoved, h1, h2]

theorem changeStep_sh (k : Marks) (b : Nat) : (changeStep o S D m k b).shS = k.shS ∧ (changeStep o S D m k b).shD = k.shD := by
  unfold changeStep
  cases m.src b with
  | none => exact ⟨rfl, rfl⟩
  | some a =>
    simp only
    by_cases h1 : isMoved S D m k a b = true <;> by_cases h2 : o.valuesEqual (S.node a) (D.node b) = true <;> simp [h1, h2]

theorem changeStep_none {k : Marks} {b : Nat} (h : m.src b = none) : changeStep o S D m k b = k := by
  simp [changeStep, h]

theorem changeStep_self {k : Marks} {a b : Nat} (h : m.src b = some a) (hk : k.chS a = .none) (hk' : k.chD b = .none) :
    (changeStep o S D m k b).chS a = kindOf o S D m k a b ∧ (changeStep o S D m k b).chD b = kindOf o S D m k a b := by
  simp only [changeStep, h, kindOf]
  by_cases h1 : isMoved S D m k a b = true <;> by_cases h2 : o.valuesEqual (S.node a) (D.node b) = true <;>
    simp [h1, h2, upd_apply, hk, hk']

theorem changeStep_other {k : Marks} {a b : Nat} (h : m.src b = some a) {x y : Nat} :
    (x ≠ a → (changeStep o S D m k b).chS x = k.chS x) ∧ (y ≠ b → (changeStep o S D m k b).chD y = k.chD y) := by
  simp only [changeStep, h]
  constructor <;> intro hx <;> by_cases h1 : isMoved S D m k a b = true <;> by_cases h2 : o.valuesEqual (S.node a) (D.node b) = true <;>
    simp [h1, h2, upd_apply, hx]

/-- The fourth loop of `computeChangeKinds`. -/
theorem changes_fold (one : ∀ (x y : Nat), m.dst x = some y ↔ m.src y = some x) : ∀ (l : List Nat) (k : Marks), l.Nodup →
    ((l.foldl (changeStep o S D m) k).shS = k.shS ∧ (l.foldl (changeStep o S D m) k).shD = k.shD) ∧
    (∀ x, m.dst x = none → (l.foldl (changeStep o S D m) k).chS x = k.chS x) ∧
    (∀ y, m.src y = none → (l.foldl (changeStep o S D m) k).chD y = k.chD y) ∧
    (∀ (x y : Nat), m.dst x = some y →
      (y ∉ l → (l.foldl (changeStep o S D m) k).chS x = k.chS x ∧ (l.foldl (changeStep o S D m) k).chD y = k.chD y) ∧
      (y ∈ l → k.chS x = .none → k.chD y = .none →
        (l.foldl (changeStep o S D m) k).chS x = kindOf o S D m k x y ∧ (l.foldl (changeStep o S D m) k).chD y = kindOf o S D m k x y))
  | [], k, _ => by simp
  | b :: l, k, hn => by
    obtain ⟨hb, hn⟩ := List.nodup_cons.1 hn
    obtain ⟨⟨h1, h2⟩, h3, h4, h5⟩ := changes_fold one l (changeStep o S D m k b) hn
    have hsh := changeStep_sh (o := o) (S := S) (D := D) (m := m) k b
    rw [List.foldl_cons]
    refine ⟨⟨h1.trans hsh.1, h2.trans hsh.2⟩, fun x hx => ?_, fun y hy => ?_, fun x y hxy => ⟨fun hy => ?_, fun hy k1 k2 => ?_⟩⟩
    · rw [h3 x hx]
      cases hs : m.src b with
      | none => rw [changeStep_none hs]
      | some a =>
        refine (changeStep_other hs (x := x) (y := 0)).1 (fun e => ?_)
        subst e
        rw [(one _ _).2 hs] at hx
        simp at hx
    · rw [h4 y hy]
      cases hs : m.src b with
      | none => rw [changeStep_none hs]
      | some a =>
        refine (changeStep_other hs (x := 0) (y := y)).2 (fun e => ?_)
        subst e
        rw [hs] at hy
        simp at hy
    · simp only [List.mem_cons, not_or] at hy
      obtain ⟨e1, e2⟩ := (h5 x y hxy).1 hy.2
      rw [e1, e2]
      cases hs : m.src b with
      | none => rw [changeStep_none hs]; exact ⟨rfl, rfl⟩
      | some a =>
        refine ⟨(changeStep_other hs (x := x) (y := y)).1 (fun e => ?_), (changeStep_other hs (x := x) (y := y)).2 hy.1⟩
        subst e
        rw [(one _ _).2 hs] at hxy
        exact hy.1 (Option.some.inj hxy).symm
    · by_cases e : y = b
      · subst e
        have hs := (one _ _).1 hxy
        obtain ⟨e1, e2⟩ := (h5 x y hxy).1 hb
        rw [e1, e2]
        exact changeStep_self hs k1 k2
      · have hy : y ∈ l := by simpa [e] using hy
        have hk : (changeStep o S D m k b).chS x = k.chS x ∧ (changeStep o S D m k b).chD y = k.chD y := by
          cases hs : m.src b with
          | none => rw [changeStep_none hs]; exact ⟨rfl, rfl⟩
          | some a =>
            refine ⟨(changeStep_other hs (x := x) (y := y)).1 (fun e' => ?_), (changeStep_other hs (x := x) (y := y)).2 e⟩
            subst e'
            rw [(one _ _).2 hs] at hxy
            exact e (Option.some.inj hxy).symm
        have := (h5 x y hxy).2 hy (by rw [hk.1, k1]) (by rw [hk.2, k2])
        have e3 : kindOf o S D m (changeStep o S D m k b) x y = kindOf o S D m k x y := by
          simp only [kindOf, isMoved_congr hsh.1 hsh.2]
        rw [e3] at this
        exact this

/-! ## Shifts -/

theorem shiftStep_ch (k : Marks) (a : Nat) : (shiftStep S D m k a).chS = k.chS ∧ (shiftStep S D m k a).chD = k.chD := by
  unfold shiftStep
  cases m.dst a with
  | none => exact ⟨rfl, rfl⟩
  | some b => simp only; split <;> exact ⟨rfl, rfl⟩

theorem shiftStep_other {k : Marks} {a x y : Nat} : (x ≠ a → (shiftStep S D m k a).shS x = k.shS x) ∧
    (m.dst a ≠ some y → (shiftStep S D m k a).shD y = k.shD y) := by
  unfold shiftStep
  cases m.dst a with
  | none => simp
  | some b =>
    simp only
    constructor
    · intro h
      split <;> simp [upd_apply, h]
    · intro h
      have : y ≠ b := fun e => h (by rw [e])
      split <;> simp [upd_apply, this]

theorem shift_fold_ch (l : List Nat) (k : Marks) : (l.foldl (shiftStep S D m) k).chS = k.chS ∧ (l.foldl (shiftStep S D m) k).chD = k.chD :=
  foldl_inv (fun k' => k'.chS = k.chS ∧ k'.chD = k.chD) _ l k ⟨rfl, rfl⟩
    (fun k' a _ h => ⟨(shiftStep_ch k' a).1.trans h.1, (shiftStep_ch k' a).2.trans h.2⟩)

theorem shift_fold_out (l : List Nat) (k : Marks) (x y : Nat) : (x ∉ l → (l.foldl (shiftStep S D m) k).shS x = k.shS x) ∧
    ((∀ a ∈ l, m.dst a ≠ some y) → (l.foldl (shiftStep S D m) k).shD y = k.shD y) := by
  constructor
  · intro hx
    refine foldl_inv (fun k' => k'.shS x = k.shS x) _ l k rfl (fun k' a ha h => ?_)
    rw [(shiftStep_other (y := 0)).1 (by rintro rfl; exact hx ha), h]
  · intro hy
    refine foldl_inv (fun k' => k'.shD y = k.shD y) _ l k rfl (fun k' a ha h => ?_)
    rw [(shiftStep_other (x := 0)).2 (hy a ha), h]

/-- the marks when `x` is visited by the third loop -/
def marksAt (S D : SynTree) (m : Mapping) (x : Nat) : Marks := (before x S.bfs).foldl (shiftStep S D m) (markUnmatched S D m)

/-- the marks after the third loop -/
def marksEnd (S D : SynTree) (m : Mapping) : Marks := S.bfs.foldl (shiftStep S D m) (markUnmatched S D m)

theorem split_before {x : Nat} {l : List Nat} (h : x ∈ l) : ∃ r, l = before x l ++ x :: r := by
  induction l with
  | nil => simp at h
  | cons c cs ih =>
    by_cases e : c = x
    · subst e
      exact ⟨cs, by rw [before_cons_eq]; rfl⟩
    · obtain ⟨r, hr⟩ := ih (by simpa [Ne.symm e] using h)
      refine ⟨r, ?_⟩
      rw [before_cons_ne e, List.cons_append, ← hr]

/-- the marks at a visit and at the end -/
theorem marks_spec (one : ∀ (x y : Nat), m.dst x = some y ↔ m.src y = some x) (hn : S.bfs.Nodup) {x y : Nat} (hx : x ∈ S.bfs)
    (hxy : m.dst x = some y) :
    ((marksEnd S D m).shS x = if isMoved S D m (marksAt S D m x) x y then -1 else 0) ∧
    (marksEnd S D m).shD y = (marksEnd S D m).shS x ∧
    (∀ (z w : Nat), m.dst z = some w → z ∈ S.bfs →
      (marksAt S D m x).shS z = (if z ∈ before x S.bfs then (marksEnd S D m).shS z else 0) ∧
      (marksAt S D m x).shD w = (if z ∈ before x S.bfs then (marksEnd S D m).shS z else 0)) := by
  have hlast : ∀ {x y : Nat}, x ∈ S.bfs → m.dst x = some y →
      ((marksEnd S D m).shS x = if isMoved S D m (marksAt S D m x) x y then -1 else 0) ∧
      (marksEnd S D m).shD y = (marksEnd S D m).shS x := by
    intro x y hx hxy
    obtain ⟨r, hr⟩ := split_before hx
    have hend : marksEnd S D m = r.foldl (shiftStep S D m) (shiftStep S D m (marksAt S D m x) x) := by
      rw [marksEnd, hr, List.foldl_append, List.foldl_cons]
      rw [marksAt]
    have hxr : x ∉ r := by
      intro h
      rw [hr, List.nodup_append] at hn
      exact (List.nodup_cons.1 hn.2.1).1 h
    have hyr : ∀ a ∈ r, m.dst a ≠ some y := by
      intro a ha e
      have := (one _ _).1 e
      rw [(one _ _).1 hxy] at this
      exact hxr (Option.some.inj this ▸ ha)
    have hs0 : (marksAt S D m x).shS x = 0 := by
      rw [marksAt, (shift_fold_out _ _ x 0).1 (not_mem_before x _)]
      simp [markUnmatched, hxy]
    have hd0 : (marksAt S D m x).shD y = 0 := by
      rw [marksAt, (shift_fold_out _ _ 0 y).2]
      · simp [markUnmatched, (one _ _).1 hxy]
      · intro a ha e
        have := (one _ _).1 e
        rw [(one _ _).1 hxy] at this
        rw [← Option.some.inj this] at ha
        exact not_mem_before x _ ha
    rw [hend, (shift_fold_out r _ x 0).1 hxr, (shift_fold_out r _ 0 y).2 hyr]
    simp only [shiftStep, hxy]
    split <;> simp [upd_apply, hs0, hd0]
  refine ⟨(hlast hx hxy).1, (hlast hx hxy).2, fun z w hzw hz => ?_⟩
  obtain ⟨r, hr⟩ := split_before hx
  have hend : marksEnd S D m = (x :: r).foldl (shiftStep S D m) (marksAt S D m x) := by
    rw [marksEnd, hr, List.foldl_append]
    rw [marksAt]
  by_cases hb : z ∈ before x S.bfs
  · rw [if_pos hb]
    have hzr : z ∉ x :: r := by
      intro h
      rw [hr, List.nodup_append] at hn
      exact hn.2.2 z hb z h rfl
    have hwr : ∀ a ∈ x :: r, m.dst a ≠ some w := by
      intro a ha e
      have := (one _ _).1 e
      rw [(one _ _).1 hzw] at this
      exact hzr (Option.some.inj this ▸ ha)
    have e1 := (shift_fold_out (S := S) (D := D) (m := m) (x :: r) (marksAt S D m x) z 0).1 hzr
    have e2 := (shift_fold_out (S := S) (D := D) (m := m) (x :: r) (marksAt S D m x) 0 w).2 hwr
    rw [← hend] at e1 e2
    exact ⟨e1.symm, by rw [← e2, (hlast hz hzw).2]⟩
  · rw [if_neg hb]
    constructor
    · rw [marksAt, (shift_fold_out _ _ z 0).1 hb]
      simp [markUnmatched, hzw]
    · rw [marksAt, (shift_fold_out _ _ 0 w).2]
      · simp [markUnmatched, (one _ _).1 hzw]
      · intro a ha e
        have := (one _ _).1 e
        rw [(one _ _).1 hzw] at this
        exact hb (Option.some.inj this ▸ ha)

theorem marks_unmatched (one : ∀ (x y : Nat), m.dst x = some y ↔ m.src y = some x) (l : List Nat) {z w : Nat} :
    (z < S.size → m.dst z = none → (l.foldl (shiftStep S D m) (markUnmatched S D m)).shS z = -1) ∧
    (w < D.size → m.src w = none → (l.foldl (shiftStep S D m) (markUnmatched S D m)).shD w = -1) := by
  constructor
  · intro hz h
    refine foldl_inv (fun k : Marks => k.shS z = -1) _ l _ (by simp [markUnmatched, hz, h]) (fun k a _ hk => ?_)
    by_cases e : z = a
    · subst e
      rw [shiftStep, h]
      exact hk
    · rw [(shiftStep_other (y := 0)).1 e, hk]
  · intro hw h
    refine foldl_inv (fun k : Marks => k.shD w = -1) _ l _ (by simp [markUnmatched, hw, h]) (fun k a _ hk => ?_)
    rw [(shiftStep_other (x := 0)).2 (fun e => ?_), hk]
    rw [(one _ _).1 e] at h
    simp at h

/-! ## Positions -/

theorem position_count (sh : Nat → Int) (x : Nat) : ∀ (L : List Nat) (pos i : Int), (∀ c ∈ L, sh c = 0 ∨ sh c = -1) → x ∈ L →
    positionLoop sh x pos i L = some (pos + i + ((upto x L).countP (fun c => decide (sh c = 0)) : Nat) - 1)
  | [], _, _, _, h => by simp at h
  | c :: cs, pos, i, hs, h => by
    rw [positionLoop, upto]
    by_cases e : c = x
    · rw [if_pos e, if_pos e]
      rcases hs c (by simp) with h0 | h0 <;> simp [h0] <;> omega
    · rw [if_neg e, if_neg e, position_count sh x cs _ _ (fun d hd => hs d (by simp [hd])) (by simpa [Ne.symm e] using h)]
      rcases hs c (by simp) with h0 | h0 <;> simp [h0] <;> omega

theorem countP_upto {M p : Nat → Bool} {x : Nat} {L : List Nat} (hx : x ∈ L) (hM : M x = true) (h : ∀ c ∈ L, p c = true → M c = true) :
    (upto x L).countP p = (upto x (L.filter M)).countP p := by
  rw [← upto_filter hx hM, List.countP_filter]
  refine List.countP_congr (fun c hc => ?_)
  have := h c (mem_upto hc)
  cases hp : p c with
  | false => simp
  | true => simp [this hp]

end

/-! ## No moves -/

/-- the matched nodes of a list of nodes of the source -/
def matchedS (m : Mapping) (l : List Nat) : List Nat := l.filter (fun x => (m.dst x).isSome)
/-- the matched nodes of a list of nodes of the destination -/
def matchedD (m : Mapping) (l : List Nat) : List Nat := l.filter (fun y => (m.src y).isSome)

theorem offsets_nodup (ts : List T) (off : Nat) : (offsets ts off).Nodup ∧ ∀ x ∈ offsets ts off, off ≤ x := by
  induction ts generalizing off with
  | nil => simp [offsets]
  | cons t ts ih =>
    obtain ⟨h1, h2⟩ := ih (off + t.size)
    have hp := size_pos t
    rw [offsets]
    refine ⟨List.nodup_cons.2 ⟨fun h => ?_, h1⟩, fun x hx => ?_⟩
    · have := h2 off h
      omega
    · rcases List.mem_cons.1 hx with rfl | hx
      · exact Nat.le_refl _
      · have := h2 x hx
        omega

theorem subs_nodup' {S : SynTree} (hS : Made S) {p : Nat} (hp : p < S.size) : (S.node p).subs.Nodup := by
  obtain ⟨par, dep, u, hat⟩ := hS.at hp
  rw [SynTree.node, hat.node]
  exact (offsets_nodup _ _).1

theorem before_append {x : Nat} {L Q : List Nat} (hx : x ∈ L) : before x (L ++ Q) = before x L := by
  induction L with
  | nil => simp at hx
  | cons c cs ih =>
    rw [List.cons_append]
    by_cases e : c = x
    · subst e
      rw [before_cons_eq, before_cons_eq]
    · rw [before_cons_ne e, before_cons_ne e, ih (by simpa [Ne.symm e] using hx)]

theorem before_infix {P L Q : List Nat} (hn : (P ++ L ++ Q).Nodup) {x z : Nat} (hx : x ∈ L) (hz : z ∈ L) :
    z ∈ before x (P ++ L ++ Q) ↔ z ∈ before x L := by
  have hxP : ∀ c ∈ P, c ≠ x := by
    intro c hc e
    rw [List.append_assoc, List.nodup_append] at hn
    exact hn.2.2 c hc x (by simp [hx]) e
  have e : before x (P ++ L ++ Q) = P ++ before x L := by
    clear hn
    induction P with
    | nil =>
      simp only [List.nil_append]
      exact before_append hx
    | cons c P ih =>
      rw [List.cons_append, List.cons_append, before_cons_ne (hxP c (by simp)), ih (fun c hc => hxP c (by simp [hc])), List.cons_append]
  rw [e, List.mem_append]
  constructor
  · rintro (h | h)
    · rw [List.append_assoc, List.nodup_append] at hn
      exact absurd rfl (hn.2.2 z h z (by simp [hz]))
    · exact h
  · exact .inr

/-- When no matched node is at another position in the end, the matched subnodes of matched nodes are in the same order. -/
theorem no_moves {o : Options} {s d : T} {m : Mapping} (hok : MapOk o (fromNode s) (fromNode d) m)
    (hend : ∀ (x y : Nat), m.dst x = some y → isMoved (fromNode s) (fromNode d) m (marksEnd (fromNode s) (fromNode d) m) x y = false)
    {p q : Nat} (hpq : m.dst p = some q) :
    (matchedS m ((fromNode s).node p).subs).map (fun x => (m.dst x).getD 0) = matchedD m ((fromNode d).node q).subs := by
  have hS : Made (fromNode s) := ⟨s, rfl⟩
  have hD : Made (fromNode d) := ⟨d, rfl⟩
  obtain ⟨hp, hq, _⟩ := hok.ok p q hpq
  have one := hok.one
  generalize hSe : fromNode s = S at *
  generalize hDe : fromNode d = D at *
  have hbn : S.bfs.Nodup := by rw [← hSe]; exact bfs_nodup s
  have hmem : ∀ x, x ∈ S.bfs ↔ x < S.size := by rw [← hSe]; exact mem_bfs s
  have hinf : (S.node p).subs <:+: S.bfs := by rw [← hSe] at hp ⊢; exact bfs_infix s hp
  obtain ⟨P, Q, hPQ⟩ := hinf
  have hsame : ∀ (x y : Nat), m.dst x = some y → sameParents S D m x y = true := by
    intro x y h
    have := hend x y h
    simp only [isMoved, Bool.or_eq_false_iff, Bool.not_eq_false'] at this
    exact this.1
  have hposE : ∀ (x y : Nat), m.dst x = some y → position S (marksEnd S D m).shS x = position D (marksEnd S D m).shD y := by
    intro x y h
    have := hend x y h
    simp only [isMoved, Bool.or_eq_false_iff] at this
    simpa using this.2
  -- the matched subnodes correspond
  have hLR : ∀ (x y : Nat), m.dst x = some y → (x ∈ (S.node p).subs ↔ y ∈ (D.node q).subs) := by
    intro x y h
    obtain ⟨hx, hy, _⟩ := hok.ok x y h
    have hsp := hsame x y h
    rw [mem_subs hS hp, mem_subs hD hq]
    rw [sameParents] at hsp
    constructor
    · rintro ⟨_, h2⟩
      rw [h2] at hsp
      refine ⟨hy, ?_⟩
      cases hpy : (D.node y).parent with
      | none => rw [hpy] at hsp; simp at hsp
      | some q' =>
        rw [hpy] at hsp
        simp only [beq_iff_eq] at hsp
        rw [hpq] at hsp
        exact hsp.symm
    · rintro ⟨_, h2⟩
      rw [h2] at hsp
      refine ⟨hx, ?_⟩
      cases hpx : (S.node x).parent with
      | none => rw [hpx] at hsp; simp at hsp
      | some p' =>
        rw [hpx] at hsp
        simp only [beq_iff_eq] at hsp
        have e1 := (one _ _).1 hsp
        rw [(one _ _).1 hpq] at e1
        exact e1.symm
  have hLlt : ∀ c ∈ (S.node p).subs, c < S.size := fun c hc => ((mem_subs hS hp).1 hc).1
  have hRlt : ∀ c ∈ (D.node q).subs, c < D.size := fun c hc => ((mem_subs hD hq).1 hc).1
  have hLn := subs_nodup' hS hp
  have hRn := subs_nodup' hD hq
  generalize hL : (S.node p).subs = L at *
  generalize hR : (D.node q).subs = R at *
  let srcf : Nat → Nat := fun w => (m.src w).getD 0
  have hsrcf : ∀ (x y : Nat), m.dst x = some y → srcf y = x := by
    intro x y h
    simp [srcf, (one _ _).1 h]
  have hRM : ∀ w ∈ matchedD m R, ∃ z, m.dst z = some w ∧ z ∈ L ∧ srcf w = z := by
    intro w hw
    obtain ⟨h1, h2⟩ := List.mem_filter.1 hw
    obtain ⟨z, hz⟩ := Option.isSome_iff_exists.1 h2
    have hz' := (one _ _).2 hz
    exact ⟨z, hz', (hLR z w hz').2 h1, hsrcf z w hz'⟩
  have hinj : ∀ c ∈ matchedD m R, ∀ y ∈ matchedD m R, srcf c = srcf y → c = y := by
    intro c hc y hy e
    obtain ⟨z, h1, _, h3⟩ := hRM c hc
    obtain ⟨z', h1', _, h3'⟩ := hRM y hy
    rw [h3, h3'] at e
    rw [e, h1'] at h1
    exact (Option.some.inj h1).symm
  -- positions as numbers of elements
  have hnum : ∀ (k : Marks) (g : Nat → Bool),
      (∀ (z w : Nat), m.dst z = some w → z < S.size → (k.shS z = 0 ∨ k.shS z = -1) ∧ k.shD w = k.shS z ∧ (k.shS z = 0 ↔ g z = true)) →
      (∀ z, z < S.size → m.dst z = none → k.shS z = -1) → (∀ w, w < D.size → m.src w = none → k.shD w = -1) →
      ∀ (x y : Nat), m.dst x = some y → x ∈ L →
        (position S k.shS x = position D k.shD y ↔ (upto x (matchedS m L)).countP g = (upto x ((matchedD m R).map srcf)).countP g) := by
    intro k g h1 h2 h3 x y hxy hxL
    obtain ⟨hx, hy, _⟩ := hok.ok x y hxy
    have hyR := (hLR x y hxy).1 hxL
    have hpx : (S.node x).parent = some p := by
      have : x ∈ (S.node p).subs := by rw [hL]; exact hxL
      exact ((mem_subs hS hp).1 this).2
    have hpy : (D.node y).parent = some q := by
      have : y ∈ (D.node q).subs := by rw [hR]; exact hyR
      exact ((mem_subs hD hq).1 this).2
    have c1 : ∀ c ∈ L, k.shS c = 0 ∨ k.shS c = -1 := by
      intro c hc
      cases hm : m.dst c with
      | none => exact .inr (h2 c (hLlt c hc) hm)
      | some w => exact (h1 c w hm (hLlt c hc)).1
    have c2 : ∀ c ∈ R, k.shD c = 0 ∨ k.shD c = -1 := by
      intro c hc
      cases hm : m.src c with
      | none => exact .inr (h3 c (hRlt c hc) hm)
      | some z =>
        have hz := (one _ _).2 hm
        have := h1 z c hz (hok.ok z c hz).1
        rw [this.2.1]
        exact this.1
    have e1 : (upto x L).countP (fun c => decide (k.shS c = 0)) = (upto x (matchedS m L)).countP g := by
      rw [countP_upto (M := fun x => (m.dst x).isSome) hxL (by simp [hxy])]
      · refine List.countP_congr (fun z hz => ?_)
        have hz := mem_upto hz
        obtain ⟨hz1, hz2⟩ := List.mem_filter.1 hz
        obtain ⟨w, hw⟩ := Option.isSome_iff_exists.1 hz2
        have := (h1 z w hw (hLlt z hz1)).2.2
        simpa using this
      · intro c hc h0
        simp only [decide_eq_true_eq] at h0
        cases hm : m.dst c with
        | none => have := h2 c (hLlt c hc) hm; omega
        | some w => rfl
    have hyM : y ∈ matchedD m R := List.mem_filter.2 ⟨hyR, by simp [(one _ _).1 hxy]⟩
    have e2 : (upto y R).countP (fun c => decide (k.shD c = 0)) = (upto x ((matchedD m R).map srcf)).countP g := by
      rw [countP_upto (M := fun y => (m.src y).isSome) hyR (by simp [(one _ _).1 hxy])]
      · have : upto x ((matchedD m R).map srcf) = (upto y (matchedD m R)).map srcf := by
          have := upto_map (f := srcf) (y := y) (l := matchedD m R) (fun c hc e => hinj c hc y hyM e)
          rw [hsrcf x y hxy] at this
          exact this
        rw [this, List.countP_map]
        refine List.countP_congr (fun w hw => ?_)
        have hw := mem_upto hw
        obtain ⟨z, hz1, hz2, hz3⟩ := hRM w hw
        have := h1 z w hz1 (hLlt z hz2)
        simp only [decide_eq_true_eq, Function.comp_apply, hz3, this.2.1]
        exact this.2.2
      · intro c hc h0
        simp only [decide_eq_true_eq] at h0
        cases hm : m.src c with
        | none => have := h3 c (hRlt c hc) hm; omega
        | some w => rfl
    rw [position, position, hpx, hpy]
    simp only
    rw [hL, hR, position_count _ _ _ _ _ c1 hxL, position_count _ _ _ _ _ c2 hyR, e1, e2]
    simp only [Option.some.injEq]
    omega
  let F : Nat → Bool := fun z => decide ((marksEnd S D m).shS z ≠ 0)
  have hspec := fun (x y : Nat) (h : m.dst x = some y) => marks_spec (S := S) (D := D) one hbn ((hmem x).2 (hok.ok x y h).1) h
  have hF : ∀ (z w : Nat), m.dst z = some w → ((marksEnd S D m).shS z = 0 ∨ (marksEnd S D m).shS z = -1) := by
    intro z w h
    have := (hspec z w h).1
    split at this
    · exact .inr this
    · exact .inl this
  have key : matchedS m L = (matchedD m R).map srcf := by
    refine same_order F _ _ (hLn.filter _) ?_ ?_ ?_ ?_
    · refine List.Nodup.map_on (fun c hc y hy e => hinj c hc y hy e) (hRn.filter _)
    · intro x
      constructor
      · intro hx
        obtain ⟨h1, h2⟩ := List.mem_filter.1 hx
        obtain ⟨y, hy⟩ := Option.isSome_iff_exists.1 h2
        exact List.mem_map.2 ⟨y, List.mem_filter.2 ⟨(hLR x y hy).1 h1, by simp [(one _ _).1 hy]⟩, hsrcf x y hy⟩
      · intro hx
        obtain ⟨w, hw, e⟩ := List.mem_map.1 hx
        obtain ⟨z, h1, h2, h3⟩ := hRM w hw
        rw [← e, h3]
        exact List.mem_filter.2 ⟨h2, by simp [h1]⟩
    · intro x hx
      obtain ⟨hxL, h2⟩ := List.mem_filter.1 hx
      obtain ⟨y, hy⟩ := Option.isSome_iff_exists.1 h2
      obtain ⟨g1, g2, g3⟩ := hspec x y hy
      have hbef : ∀ z ∈ matchedS m L, (z ∈ before x S.bfs ↔ z ∈ before x (matchedS m L)) := by
        intro z hz
        obtain ⟨hz1, hz2⟩ := List.mem_filter.1 hz
        rw [matchedS, before_filter h2, List.mem_filter]
        rw [← hPQ] at hbn
        rw [← hPQ, before_infix hbn hxL hz1]
        simp [hz2]
      have hpos := hnum (marksAt S D m x) (fun z => !(F z && decide (z ∈ before x S.bfs)))
        (by
          intro z w hzw hz
          obtain ⟨e1, e2⟩ := g3 z w hzw ((hmem z).2 hz)
          rw [e1, e2]
          refine ⟨?_, rfl, ?_⟩
          · split
            · exact hF z w hzw
            · exact .inl rfl
          · simp only [F]
            split
            · rename_i hb
              simp [hb]
            · rename_i hb
              simp [hb])
        (fun z hz h => (marks_unmatched (w := 0) one (before x S.bfs)).1 hz h)
        (fun w hw h => (marks_unmatched (z := 0) one (before x S.bfs)).2 hw h) x y hy hxL
      have hcong : ∀ l : List Nat, (∀ z ∈ l, z ∈ matchedS m L) →
          l.countP (fun z => !(F z && decide (z ∈ before x S.bfs))) = l.countP (vis F x (matchedS m L)) := by
        intro l hl
        refine List.countP_congr (fun z hz => ?_)
        have := hbef z (hl z hz)
        simp [vis, this]
      rw [hcong _ (fun z hz => mem_upto hz), hcong] at hpos
      · have hmv : F x = true ↔ isMoved S D m (marksAt S D m x) x y = true := by
          simp only [F, g1]
          split <;> simp_all
        rw [hmv]
        simp only [isMoved, hsame x y hy, Bool.not_true, Bool.false_or, bne_iff_ne, ne_eq]
        rw [hpos]
      · intro z hz
        obtain ⟨w, hw, e⟩ := List.mem_map.1 (mem_upto hz)
        obtain ⟨z', h1, h2, h3⟩ := hRM w hw
        rw [← e, h3]
        exact List.mem_filter.2 ⟨h2, by simp [h1]⟩
    · intro x hx
      obtain ⟨hxL, h2⟩ := List.mem_filter.1 hx
      obtain ⟨y, hy⟩ := Option.isSome_iff_exists.1 h2
      have hpos := hnum (marksEnd S D m) (fun z => !F z)
        (by
          intro z w hzw hz
          exact ⟨hF z w hzw, (hspec z w hzw).2.1, by simp [F]⟩)
        (fun z hz h => (marks_unmatched (w := 0) one S.bfs).1 hz h)
        (fun w hw h => (marks_unmatched (z := 0) one S.bfs).2 hw h) x y hy hxL
      exact hpos.1 (hposE x y hy)
  rw [key, List.map_map]
  have : List.map ((fun x => (m.dst x).getD 0) ∘ srcf) (matchedD m R) = List.map id (matchedD m R) := by
    refine List.map_congr_left (fun w hw => ?_)
    obtain ⟨z, h1, _, h3⟩ := hRM w hw
    simp [h3, h1]
  rw [this, List.map_id]

end Verif.AstDiff
