import Verif.Stamp.Does
import Verif.Stamp.LexDoc

/-!
# Parsing of timestamps
-/

namespace Verif.Stamp
open Verif.Lexer Verif.NodeGroup Verif.NodeGroup.Spec
open Verif.Parser hiding TK Does does_bind does_ret does_seq does_if_true does_if_false does_at does_finished does_next does_expect does_skip does_popAny does_popAs
  does_empty does_node does_sub does_while_stop does_while_step groupRest_eq
open Verif.Pipeline hiding render render_cons
open Verif.Token (TK)

/-! ## The kinds of the tokens -/

def gapK (n : Nat) : List TK := if n = 0 then [] else [.Whitespace]
def nameK (s : Stamp) : List TK := match s.dayName with | none => [] | some _ => gapK 1 ++ [.Word]
def clockK (s : Stamp) : List TK := match s.clock with | none => [] | some _ => gapK 1 ++ [.Time]
def zoneK (s : Stamp) : List TK := match s.zone with | none => [] | some _ => gapK 1 ++ [.StrikeBegin, .Number]
def repsK : List Rep → List TK
  | [] => []
  | r :: rs => gapK r.gap ++ (.TimeRepeaterSpec :: .TimeRepeaterDuration :: repsK rs)
def warnK (s : Stamp) : List TK := match s.warning with | none => [] | some w => gapK w.gap ++ [.TimeWarnPeriod]
def endK (s : Stamp) : TK := if s.active then .AngleEnd else .BraceEnd
def beginK (s : Stamp) : TK := if s.active then .AngleBegin else .BraceBegin

def stampK (s : Stamp) : List TK := beginK s :: .Date :: (nameK s ++ (clockK s ++ (zoneK s ++ (repsK s.reps ++ (warnK s ++ [endK s])))))

/-- The kinds of tokens for the parser. -/
def kinds (r : Raw) : List TK := (final r).map Prod.fst

theorem kinds_append (a b : Raw) : kinds (a ++ b) = kinds a ++ kinds b := by simp [kinds, final]

theorem kinds_cons (k : TK) (u : _) (r : Raw) : kinds ((k, u) :: r) = finalKind k u :: kinds r := rfl

theorem kinds_gap (n : Nat) : kinds (gapRaw n) = gapK n := by
  unfold gapRaw gapK
  split <;> rfl

theorem kinds_stamp {s : Stamp} (h : s.Valid) : kinds s.raw = stampK s := by
  have hn : kinds (nameRaw s) = nameK s := by
    unfold nameRaw nameK
    cases hd : s.dayName with
    | none => rfl
    | some w =>
      have := (h.name w hd).2
      simp only [kinds_append, kinds_gap]
      simp [kinds, final, finalKind, this]
  have hc : kinds (clockRaw s) = clockK s := by
    unfold clockRaw clockK
    cases s.clock <;> rfl
  have hz : kinds (zoneRaw s) = zoneK s := by
    unfold zoneRaw zoneK
    cases s.zone <;> rfl
  have hw : kinds (warnRaw s) = warnK s := by
    unfold warnRaw warnK
    cases s.warning with
    | none => rfl
    | some w =>
      show kinds (gapRaw w.gap ++ [(.TimeWarnPeriod, _)]) = _
      rw [kinds_append, kinds_gap]; rfl
  have hr : ∀ rs : List Rep, kinds (rs.map Rep.raw).flatten = repsK rs := by
    intro rs
    induction rs with
    | nil => rfl
    | cons r rs ih =>
      rw [List.map_cons, List.flatten_cons, kinds_append, ih, Rep.raw, kinds_append, kinds_gap]
      simp [repsK, kinds, final, finalKind]
  unfold Stamp.raw Stamp.inside
  simp only [List.cons_append, List.nil_append, kinds_cons, kinds_append, hn, hc, hz, hw, show repsRaw s = (s.reps.map Rep.raw).flatten from rfl, hr]
  unfold stampK beginK endK
  cases s.active <;> simp [kinds, final, finalKind]

/-! ## Spaces -/

/-- After at most one space there is a token of one of these kinds. -/
def Starts (R ks : List TK) : Prop := ∃ g k r, R = gapK g ++ k :: r ∧ k ∈ ks ∧ k ∉ [TK.Whitespace, .LeadingSpace]

theorem trim_gap (i g : Nat) {k : TK} (r : List TK) (w : List (Nat × TK)) (hk : k ∉ [TK.Whitespace, .LeadingSpace]) :
    trim (numbered i (gapK g ++ k :: r) ++ w) = (i + (gapK g).length, k) :: (numbered (i + (gapK g).length + 1) r ++ w) := by
  have hk' : decide (k ∈ [TK.Whitespace, .LeadingSpace]) = false := decide_eq_false hk
  unfold gapK
  split
  · simp only [List.nil_append, numbered_cons, List.cons_append, List.length_nil, Nat.add_zero]
    unfold trim
    rw [List.dropWhile_cons_of_neg (by simp only [hk']; simp)]
  · simp only [List.cons_append, List.nil_append, numbered_cons, List.length_singleton]
    unfold trim
    rw [List.dropWhile_cons_of_pos (by simp), List.dropWhile_cons_of_neg (by simp only [hk']; simp)]

theorem Starts.head {R ks : List TK} (h : Starts R ks) (i : Nat) (w : List (Nat × TK)) {bad : List TK} (hb : ∀ k ∈ ks, k ∉ bad) :
    ∀ p ∈ (trim (numbered i R ++ w)).head?, p.2 ∉ bad := by
  obtain ⟨g, k, r, rfl, h1, h2⟩ := h
  rw [trim_gap i g r w h2]
  simpa using hb k h1

/-- The first token, which may be the space. -/
theorem Starts.first {R ks : List TK} (h : Starts R ks) (i : Nat) (w : List (Nat × TK)) {bad : List TK} (hb : ∀ k ∈ TK.Whitespace :: ks, k ∉ bad) :
    ∀ p ∈ (numbered i R ++ w).head?, p.2 ∉ bad := by
  obtain ⟨g, k, r, rfl, h1, h2⟩ := h
  unfold gapK
  split
  · simpa [numbered_cons] using hb k (List.mem_cons_of_mem _ h1)
  · simpa [numbered_cons] using hb .Whitespace List.mem_cons_self

theorem Starts.mono {R ks ks' : List TK} (h : Starts R ks) (hs : ∀ k ∈ ks, k ∈ ks') : Starts R ks' := by
  obtain ⟨g, k, r, h1, h2, h3⟩ := h
  exact ⟨g, k, r, h1, hs k h2, h3⟩

def ends5 : List TK := [.AngleEnd, .BraceEnd]
def ends4 : List TK := .TimeWarnPeriod :: ends5
def ends3 : List TK := .TimeRepeaterSpec :: ends4
def ends2 : List TK := .StrikeBegin :: ends3
def ends1 : List TK := .Time :: ends2
def ends0 : List TK := .Word :: ends1

theorem starts5 (s : Stamp) : Starts [endK s] ends5 := by
  refine ⟨0, endK s, [], rfl, ?_, ?_⟩ <;> unfold endK <;> split <;> decide

theorem starts4 (s : Stamp) : Starts (warnK s ++ [endK s]) ends4 := by
  unfold warnK
  cases s.warning with
  | none => exact (starts5 s).mono fun k hk => List.mem_cons_of_mem _ hk
  | some w => exact ⟨w.gap, .TimeWarnPeriod, [endK s], by simp, by decide, by decide⟩

theorem starts3 (s : Stamp) (rs : List Rep) : Starts (repsK rs ++ (warnK s ++ [endK s])) ends3 := by
  cases rs with
  | nil => exact (starts4 s).mono fun k hk => List.mem_cons_of_mem _ hk
  | cons r rs => exact ⟨r.gap, .TimeRepeaterSpec, _, by rw [repsK]; simp; rfl, by decide, by decide⟩

theorem starts2 (s : Stamp) : Starts (zoneK s ++ (repsK s.reps ++ (warnK s ++ [endK s]))) ends2 := by
  unfold zoneK
  cases s.zone with
  | none => exact (starts3 s _).mono fun k hk => List.mem_cons_of_mem _ hk
  | some w => exact ⟨1, .StrikeBegin, _, by simp; rfl, by decide, by decide⟩

theorem starts1 (s : Stamp) : Starts (clockK s ++ (zoneK s ++ (repsK s.reps ++ (warnK s ++ [endK s])))) ends1 := by
  unfold clockK
  cases s.clock with
  | none => exact (starts2 s).mono fun k hk => List.mem_cons_of_mem _ hk
  | some w => exact ⟨1, .Time, _, by simp; rfl, by decide, by decide⟩

theorem gapK_one : gapK 1 = [.Whitespace] := rfl

/-! ## The nodes -/

def clockF (i : Nat) (s : Stamp) : Forest NK Unit :=
  match s.clock with | none => .leaf .Empty (.mono ()) .nil | some _ => .leaf .RawText (.tok (i + 1)) .nil

def zoneF (i : Nat) (s : Stamp) : Forest NK Unit :=
  match s.zone with | none => .leaf .Empty (.mono ()) .nil | some _ => .leaf .RawText (.tok (i + 2)) .nil

def repListF : Nat → List Rep → Forest NK Unit
  | _, [] => .nil
  | i, r :: rs => .tree .InlineStmtList
      (.leaf .RawText (.tok (i + (gapK r.gap).length)) (.leaf .RawText (.tok (i + (gapK r.gap).length + 1)) .nil))
      (repListF (i + (gapK r.gap).length + 2) rs)

def repsF (i : Nat) (rs : List Rep) : Forest NK Unit :=
  match rs with | [] => .leaf .Empty (.mono ()) .nil | r :: rs => .tree .InlineStmtList (repListF i (r :: rs)) .nil

def warnF (i : Nat) (s : Stamp) : Forest NK Unit :=
  match s.warning with | none => .leaf .Empty (.mono ()) .nil | some w => .leaf .RawText (.tok (i + (gapK w.gap).length)) .nil

/-- Where the parts of a timestamp start, if it starts at `i`. -/
def atClock (i : Nat) (s : Stamp) : Nat := i + 2 + (nameK s).length
def atZone (i : Nat) (s : Stamp) : Nat := atClock i s + (clockK s).length
def atReps (i : Nat) (s : Stamp) : Nat := atZone i s + (zoneK s).length
def atWarn (i : Nat) (s : Stamp) : Nat := atReps i s + (repsK s.reps).length
def atEnd (i : Nat) (s : Stamp) : Nat := atWarn i s + (warnK s).length

theorem atEnd_eq (i : Nat) (s : Stamp) : atEnd i s + 1 = i + (stampK s).length := by
  simp [atEnd, atWarn, atReps, atZone, atClock, stampK]
  omega

def stampKind (s : Stamp) : NK := if s.active then .StaticActiveTime else .StaticInactiveTime

def partsF (i : Nat) (s : Stamp) : Forest NK Unit :=
  (Forest.leaf .RawText (.tok (i + 1)) .nil).append ((clockF (atClock i s) s).append ((zoneF (atZone i s) s).append
    ((repsF (atReps i s) s.reps).append (warnF (atWarn i s) s))))

def stampF (i : Nat) (s : Stamp) : Forest NK Unit := .tree (stampKind s) (partsF i s) .nil

/-! ## Parsing -/

section
variable (t : Texts) {n : Nat}

theorem does_reps {s : Stamp} {w : List (Nat × TK)} (rs : List Rep) :
    ∀ (i m : Nat), rs.length ≤ m → (repsK rs ++ (warnK s ++ [endK s])).length + w.length ≤ n →
    Does (whileP (atP [.TimeRepeaterSpec])
        (do
          node .InlineStmtList do
            popAs t .RawText [.TimeRepeaterSpec]
            whileP (atP [.TimeRepeaterDuration]) (popAny .RawText) n
          spaceP n) m) ()
      (trim (numbered i (repsK rs ++ (warnK s ++ [endK s])) ++ w)) (trim (numbered (i + (repsK rs).length) (warnK s ++ [endK s]) ++ w))
      (repListF i rs) := by
  induction rs with
  | nil =>
    intro i m _ _
    exact does_while_stop m (does_at_false ((starts4 s).head i w (by decide)))
  | cons r rs ih =>
    intro i m hm hn
    obtain ⟨m, rfl⟩ : ∃ j, m = j + 1 := ⟨m - 1, by simp at hm; omega⟩
    have e : repsK (r :: rs) ++ (warnK s ++ [endK s]) =
        gapK r.gap ++ .TimeRepeaterSpec :: (.TimeRepeaterDuration :: (repsK rs ++ (warnK s ++ [endK s]))) := by simp [repsK]
    rw [e, trim_gap _ _ _ _ (by decide), numbered_cons, List.cons_append]
    have e2 : i + (repsK (r :: rs)).length = i + (gapK r.gap).length + 2 + (repsK rs).length := by simp [repsK]; omega
    rw [e2]
    have hlen : (repsK rs ++ (warnK s ++ [endK s])).length + w.length + 2 ≤ n := by
      rw [e] at hn
      simp only [List.length_append, List.length_cons] at hn ⊢
      omega
    obtain ⟨n', rfl⟩ : ∃ j, n = j + 1 := ⟨n - 1, by omega⟩
    have hbody := does_bind (q := fun _ => spaceP (n' + 1)) (does_node .InlineStmtList (does_bind (q := fun _ => whileP (atP [.TimeRepeaterDuration]) (popAny .RawText) (n' + 1)) (does_popAs t .RawText (kinds := [.TimeRepeaterSpec])
        (i := i + (gapK r.gap).length) (v := (i + (gapK r.gap).length + 1, .TimeRepeaterDuration) ::
          (numbered (i + (gapK r.gap).length + 1 + 1) (repsK rs ++ (warnK s ++ [endK s])) ++ w)) (List.mem_singleton.mpr rfl))
      (does_while_step (n := n') (does_at_true (kinds := [.TimeRepeaterDuration]) (List.mem_singleton.mpr rfl)) (does_popAny .RawText _ _ _)
        (does_while_stop n' (does_at_false ((starts3 s rs).first _ w (by decide)))))))
      (does_space (n := n' + 1) (v := numbered (i + (gapK r.gap).length + 1 + 1) (repsK rs ++ (warnK s ++ [endK s])) ++ w)
        (by rw [List.length_append, numbered_length]; omega))
    have := does_while_step (n := m) (does_at_true (kinds := [.TimeRepeaterSpec]) (List.mem_singleton.mpr rfl)) hbody
      (ih (i + (gapK r.gap).length + 2) m (by simpa using hm) (by omega))
    exact this

theorem does_static {s : Stamp} {w : List (Nat × TK)} (i : Nat) (hn : (stampK s).length + w.length ≤ n) :
    Does (staticTime t n s.active) () (numbered i (stampK s) ++ w) ((atEnd i s, endK s) :: w) (partsF i s) := by
  have hlen := hn
  simp only [stampK, List.length_cons, List.length_append] at hlen
  unfold staticTime stampK
  simp only [numbered_cons, List.cons_append]
  refine does_seq (a := ()) (does_skip t ?_) ?_
  · unfold beginK
    cases s.active <;> simp
  refine does_bind (a := ()) (does_if_true (does_at_true (List.mem_singleton.mpr rfl)) (does_then (a := ()) (does_popAs t .RawText (List.mem_singleton.mpr rfl))
    (does_space ?_))) ?_
  · rw [List.length_append, numbered_length]; simp; omega
  have hname : Does (ifP (atP [.Word]) (do nextP; spaceP n) (P.ret ())) ()
      (trim (numbered (i + 1 + 1) (nameK s ++ (clockK s ++ (zoneK s ++ (repsK s.reps ++ (warnK s ++ [endK s]))))) ++ w))
      (trim (numbered (atClock i s) (clockK s ++ (zoneK s ++ (repsK s.reps ++ (warnK s ++ [endK s])))) ++ w)) .nil := by
    unfold atClock nameK
    cases hd : s.dayName with
    | none => exact does_if_false (does_at_false ((starts1 s).head _ w (by decide))) (does_ret _ _)
    | some x =>
      simp only [List.append_assoc, List.cons_append, List.nil_append]
      rw [trim_gap _ _ _ _ (by decide)]
      refine does_if_true (does_at_true (List.mem_singleton.mpr rfl)) (does_seq (does_next _ _) ?_)
      have hx : (gapK 1 ++ [TK.Word]).length = 2 := rfl
      rw [hx]
      refine does_space ?_
      rw [List.length_append, numbered_length]; simp; omega
  refine does_seq (a := ()) hname ?_
  have hclock : Does (ifP (atP [.Time]) (do popAs t .RawText [.Time]; spaceP n) emptyP) ()
      (trim (numbered (atClock i s) (clockK s ++ (zoneK s ++ (repsK s.reps ++ (warnK s ++ [endK s])))) ++ w))
      (trim (numbered (atZone i s) (zoneK s ++ (repsK s.reps ++ (warnK s ++ [endK s]))) ++ w)) (clockF (atClock i s) s) := by
    unfold atZone clockK clockF
    cases hd : s.clock with
    | none => exact does_if_false (does_at_false ((starts2 s).head _ w (by decide))) (does_empty _)
    | some x =>
      simp only [List.append_assoc, List.cons_append, List.nil_append]
      rw [trim_gap _ _ _ _ (by decide)]
      refine does_if_true (does_at_true (List.mem_singleton.mpr rfl)) (does_then (a := ()) (does_popAs t .RawText (List.mem_singleton.mpr rfl)) ?_)
      have hx : (gapK 1 ++ [TK.Time]).length = 2 := rfl
      rw [hx]
      refine does_space ?_
      rw [List.length_append, numbered_length]; simp; omega
  refine does_bind (a := ()) hclock ?_
  have hzone : Does (ifP (andP (atP [.StrikeBegin]) (atP [.Number] 1)) (do nextP; popAs t .RawText [.Number]; spaceP n) emptyP) ()
      (trim (numbered (atZone i s) (zoneK s ++ (repsK s.reps ++ (warnK s ++ [endK s]))) ++ w))
      (trim (numbered (atReps i s) (repsK s.reps ++ (warnK s ++ [endK s])) ++ w)) (zoneF (atZone i s) s) := by
    unfold atReps zoneK zoneF
    cases hd : s.zone with
    | none => exact does_if_false (does_and_false (does_at_false ((starts3 s _).head _ w (by decide)))) (does_empty _)
    | some x =>
      simp only [List.append_assoc, List.cons_append, List.nil_append]
      rw [trim_gap _ _ _ _ (by decide), numbered_cons, List.cons_append]
      refine does_if_true (does_and_true (does_at_true (List.mem_singleton.mpr rfl)) ?_)
        (does_seq (does_next _ _) (does_then (a := ()) (does_popAs t .RawText (List.mem_singleton.mpr rfl)) ?_))
      · have := does_at [.Number] 1 ((atZone i s + (gapK 1).length, TK.StrikeBegin) :: (atZone i s + (gapK 1).length + 1, .Number) ::
          (numbered (atZone i s + (gapK 1).length + 1 + 1) (repsK s.reps ++ (warnK s ++ [endK s])) ++ w))
        simpa using this
      · have hx : (gapK 1 ++ [TK.StrikeBegin, .Number]).length = 3 := rfl
        rw [hx]
        refine does_space ?_
        rw [List.length_append, numbered_length]; simp; omega
  refine does_bind (a := ()) hzone ?_
  have hreps : Does (ifP (atP [.TimeRepeaterSpec])
      (node .InlineStmtList
        (whileP (atP [.TimeRepeaterSpec])
          (do
            node .InlineStmtList do
              popAs t .RawText [.TimeRepeaterSpec]
              whileP (atP [.TimeRepeaterDuration]) (popAny .RawText) n
            spaceP n) n)) emptyP) ()
      (trim (numbered (atReps i s) (repsK s.reps ++ (warnK s ++ [endK s])) ++ w)) (trim (numbered (atWarn i s) (warnK s ++ [endK s]) ++ w))
      (repsF (atReps i s) s.reps) := by
    have hrl : ∀ rs : List Rep, rs.length ≤ (repsK rs).length := by
      intro rs
      induction rs with
      | nil => simp
      | cons r rs ih => simp [repsK]; omega
    have hl : s.reps.length ≤ n := by have := hrl s.reps; omega
    have hm := does_reps (n := n) t (s := s) (w := w) s.reps (atReps i s) n hl (by simp; omega)
    unfold atWarn
    revert hm
    cases s.reps with
    | nil => exact fun _ => does_if_false (does_at_false ((starts4 s).head _ w (by decide))) (does_empty _)
    | cons r rs =>
      intro hm
      refine does_if_true ?_ (does_node _ hm)
      have e : repsK (r :: rs) ++ (warnK s ++ [endK s]) =
        gapK r.gap ++ .TimeRepeaterSpec :: (.TimeRepeaterDuration :: (repsK rs ++ (warnK s ++ [endK s]))) := by simp [repsK]
      rw [e, trim_gap _ _ _ _ (by decide)]
      exact does_at_true (List.mem_singleton.mpr rfl)
  refine does_bind (a := ()) hreps ?_
  unfold atEnd warnK warnF
  cases hd : s.warning with
  | none =>
    have e : trim (numbered (atWarn i s) [endK s] ++ w) = (atWarn i s, endK s) :: w := by
      have := trim_gap (atWarn i s) 0 (k := endK s) [] w (by unfold endK; split <;> decide)
      simpa [gapK, numbered] using this
    simp only [List.nil_append, List.length_nil, Nat.add_zero]
    rw [e]
    refine does_if_false (does_at_false ?_) (does_empty _)
    simp only [List.head?_cons, Option.mem_def, Option.some.injEq, forall_eq']
    unfold endK; split <;> decide
  | some x =>
    simp only [List.append_assoc, List.cons_append, List.nil_append]
    rw [trim_gap _ _ _ _ (by decide)]
    have := does_popAs t .RawText (kinds := [.TimeWarnPeriod]) (i := atWarn i s + (gapK x.gap).length) (k := .TimeWarnPeriod)
      (v := (atWarn i s + (gapK x.gap).length + 1, endK s) :: w) (List.mem_singleton.mpr rfl)
    refine does_if_true (does_at_true (List.mem_singleton.mpr rfl)) ?_
    simpa [numbered_cons, numbered, Nat.add_assoc] using this

theorem does_stamp {s : Stamp} {w : List (Nat × TK)} (i : Nat) (hn : (stampK s).length + w.length ≤ n) :
    Does (parseTimeStamp t n) () (numbered i (stampK s) ++ w) w (stampF i s) := by
  have hb : beginK s ∈ [TK.BraceBegin, .AngleBegin, .InactiveDynamicTimeContent, .ActiveDynamicTimeContent] := by
    unfold beginK; cases s.active <;> decide
  have hst := does_static t (w := w) i hn
  have hcons : numbered i (stampK s) ++ w = (i, beginK s) :: (numbered (i + 1) (stampK s).tail ++ w) := by
    simp [stampK, numbered_cons]
  rw [hcons] at hst ⊢
  unfold parseTimeStamp
  refine does_seq (does_kind _ _ _) (does_seq (does_expect t hb) (does_seq (a := s.active) (v' := (i, beginK s) :: (numbered (i + 1) (stampK s).tail ++ w)) ?_ ?_))
  · unfold beginK
    cases s.active with
    | true => exact does_at_true (by decide)
    | false => exact does_at_false (by simp)
  · refine does_then (a := ()) (v' := (atEnd i s, endK s) :: w) ?_ (does_skip t ?_)
    · refine does_if_false (does_at_false ?_) (does_node _ hst)
      simp only [List.head?_cons, Option.mem_def, Option.some.injEq, forall_eq']
      unfold beginK; cases s.active <;> decide
    · unfold endK; cases s.active <;> simp

end

end Verif.Stamp
