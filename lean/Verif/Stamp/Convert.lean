import Verif.Stamp.Dates
import Verif.Stamp.ParseDoc
import Verif.Sem.Headlines
import Verif.Drawer.Text

/-!
# From the nodes of a document to its times
-/

namespace Verif.Stamp
open Verif.NodeGroup Verif.NodeGroup.Spec
open Verif.Parser (NK)
open Verif.Token (TK Tok)
open Verif.Pipeline (tokAt Piece)
open Verif.Drawer (Text showNat showInt stoi stoi_show showNat_ne IsInt)
open Verif.Sem (children groupsF children_tree groupsF_append)

/-! ## Texts of tokens -/

/-- The tokens from number `i` on have these texts. -/
def Shows (toks : List Tok) (i : Nat) (us : List Text) : Prop :=
  ∀ j, ∀ u, us[j]? = some u → ∃ t, tokAt toks (i + j) = some t ∧ t.text = u

theorem Shows.left {toks : List Tok} {i : Nat} {a b : List Text} (h : Shows toks i (a ++ b)) : Shows toks i a := by
  intro j u hu
  refine h j u ?_
  rw [List.getElem?_append_left (by
    rcases Nat.lt_or_ge j a.length with hl | hl
    · exact hl
    · rw [List.getElem?_eq_none hl] at hu; cases hu)]
  exact hu

theorem Shows.right {toks : List Tok} {i : Nat} {a b : List Text} (h : Shows toks i (a ++ b)) : Shows toks (i + a.length) b := by
  intro j u hu
  have := h (a.length + j) u (by rw [List.getElem?_append_right (by omega)]; simpa using hu)
  rwa [← Nat.add_assoc] at this

theorem Shows.tail {toks : List Tok} {i : Nat} {u : Text} {us : List Text} (h : Shows toks i (u :: us)) : Shows toks (i + 1) us :=
  Shows.right (a := [u]) h

theorem Shows.text {toks : List Tok} {i : Nat} {u : Text} {us : List Text} (h : Shows toks i (u :: us)) :
    getText toks [⟨NK.RawText, .tok i⟩] = .ok u := by
  obtain ⟨t, h1, h2⟩ := h 0 u rfl
  simp only [Nat.add_zero] at h1
  simp only [getText, h1, h2]

theorem shows_placed (r : Raw) : Shows (placed 0 (final r)) 1 (r.map Prod.snd) := by
  have key : ∀ (r : Raw) (pos j : Nat) (u : Text), (r.map Prod.snd)[j]? = some u → ∃ t, (placed pos (final r))[j]? = some t ∧ t.text = u := by
    intro r
    induction r with
    | nil => intro pos j u h; simp at h
    | cons x r ih =>
      obtain ⟨k, v⟩ := x
      intro pos j u h
      cases j with
      | zero => exact ⟨⟨finalKind k v, v, some pos⟩, rfl, by simpa using h⟩
      | succ j =>
        obtain ⟨t, h1, h2⟩ := ih (pos + v.length) j u (by simpa using h)
        exact ⟨t, by simpa [final, placed] using h1, h2⟩
  intro j u h
  obtain ⟨t, h1, h2⟩ := key r 0 j u h
  refine ⟨t, ?_, h2⟩
  unfold tokAt
  rw [if_neg (by omega), show 1 + j - 1 = j by omega]
  exact h1

/-! ## The parts of a timestamp -/

/-- Texts of the tokens. -/
def said (r : Raw) : List Text := r.map Prod.snd

theorem said_append (a b : Raw) : said (a ++ b) = said a ++ said b := List.map_append

theorem said_length (r : Raw) : (said r).length = r.length := List.length_map _

theorem gap_length (n : Nat) : (gapK n).length = (said (gapRaw n)).length := by
  unfold gapK gapRaw said
  split <;> rfl

theorem name_length (s : Stamp) : (nameK s).length = (said (nameRaw s)).length := by
  unfold nameK nameRaw
  cases s.dayName <;> rfl

theorem clock_length (s : Stamp) : (clockK s).length = (said (clockRaw s)).length := by
  unfold clockK clockRaw
  cases s.clock <;> rfl

theorem zone_length (s : Stamp) : (zoneK s).length = (said (zoneRaw s)).length := by
  unfold zoneK zoneRaw
  cases s.zone <;> rfl

theorem reps_length (rs : List Rep) : (repsK rs).length = (said (rs.map Rep.raw).flatten).length := by
  induction rs with
  | nil => rfl
  | cons r rs ih =>
    simp only [repsK, List.map_cons, List.flatten_cons, said_append, List.length_append, List.length_cons, gap_length, ih, Rep.raw]
    simp [said]
    omega

/-- An empty node. -/
def emptyA : Sem.Adapter := [⟨.Empty, .mono ()⟩]

theorem clock_part {toks : List Tok} {i : Nat} {s : Stamp} (h : Shows toks i (said (clockRaw s))) :
    ∃ a, groupsF (clockF i s) = [a] ∧ getText toks a = .ok (clockPart s.clock) := by
  unfold clockF clockRaw at *
  cases hc : s.clock with
  | none => exact ⟨_, rfl, rfl⟩
  | some c =>
    rw [hc] at h
    exact ⟨_, rfl, Shows.text h.tail⟩

theorem zone_part {toks : List Tok} {i : Nat} {s : Stamp} (h : Shows toks i (said (zoneRaw s))) :
    ∃ a, groupsF (zoneF i s) = [a] ∧ isEmpty a = s.zone.isNone ∧ ∃ z, getText toks a = .ok z ∧ ∀ x ∈ s.zone, z = x.digits := by
  unfold zoneF zoneRaw at *
  cases hc : s.zone with
  | none => exact ⟨_, rfl, rfl, _, rfl, by simp⟩
  | some c =>
    rw [hc] at h
    exact ⟨_, rfl, rfl, _, Shows.text h.tail.tail, by simp⟩

theorem zone_digits {z : Zone} (h : z.hours < 24 ∧ ∀ m ∈ z.minutes, m < 60) : convertZone z.digits = z.hours * 3600 + z.minutes.getD 0 * 60 := by
  obtain ⟨hh, m⟩ := z
  obtain ⟨h1, h2⟩ := h
  have hd : ∀ n, dig n ≠ '-' ∧ dig n ≠ '+' := fun n => ⟨(Drawer.digit_plain (dig_digit n)).2.1, (Drawer.digit_plain (dig_digit n)).2.2.1⟩
  have h24 : hh < 100 := Nat.lt_trans h1 (by decide)
  cases m with
  | none =>
    have v := value_two h24
    have ht : (two hh).head? = some (dig (hh / 10)) := rfl
    simp only [convertZone, Zone.digits, List.append_nil, ht, Option.some.injEq, (hd _).1, (hd _).2, or_self, if_false, ne_eq, not_false_eq_true, if_true]
    simp only [show (two hh).length = 2 from rfl, if_true, stoi2, v, show ¬ (2 = 4) by decide, if_false, fixedZone, Option.getD_none]
    rw [if_pos (by simp only at h1; omega)]
    simp
  | some m =>
    have hm := h2 m rfl
    have hm' : m < 100 := Nat.lt_trans hm (by decide)
    have v := value_two h24
    have v' := value_two hm'
    have ht : (two hh ++ two m).head? = some (dig (hh / 10)) := rfl
    simp only [convertZone, Zone.digits, ht, Option.some.injEq, (hd _).1, (hd _).2, or_self, if_false, ne_eq, not_false_eq_true, if_true]
    simp only [show (two hh ++ two m).length = 4 from rfl, show (two hh ++ two m).take 2 = two hh from rfl, show (two hh ++ two m).drop 2 = two m from rfl,
      if_true, stoi2, v, v', show ¬ (4 = 2) by decide, if_false, fixedZone, Option.getD_some]
    rw [if_pos (by simp only at h1; omega)]

theorem period_letter (p : Period) : whichPeriod (some (unitLetter p)) = .ok p := by cases p <;> rfl

theorem count_plain {n : Nat} (h : n ≤ 2147483647) (p : Period) : countPeriod (durText n p) = .ok (p, n) := by
  have e : stoi (showNat n) = .ok (n : Int) := stoi_show (n := Int.ofNat n) ⟨Int.le_trans (by decide) (Int.natCast_nonneg n), Int.ofNat_le.mpr h⟩
  unfold countPeriod durText
  rw [List.dropLast_concat, e, List.getLast?_concat, period_letter]
  rfl

theorem count_minus {n : Nat} (h : n ≤ 2147483647) (p : Period) : countPeriod ('-' :: durText n p) = .ok (p, - (n : Int)) := by
  have e : stoi ('-' :: showNat n) = .ok (- (n : Int)) := by
    cases n with
    | zero => decide +kernel
    | succ n =>
      have := stoi_show (n := Int.negSucc n) ⟨by omega, by omega⟩
      exact this
  unfold countPeriod durText
  rw [show '-' :: (showNat n ++ [unitLetter p]) = ('-' :: showNat n) ++ [unitLetter p] from rfl, List.dropLast_concat, e, List.getLast?_concat, period_letter]
  rfl

theorem mode_spec (m : Mode) (h : m ≠ .none) : (if modeText m = "++".toList then Mode.firstMatch else if modeText m = ".+".toList then .sameDay
    else if modeText m = "+".toList then .exact else .none) = m := by
  cases m
  · exact absurd rfl h
  all_goals decide +kernel

theorem reps_convert {toks : List Tok} (rs : List Rep) : ∀ (i : Nat), Shows toks i (said (rs.map Rep.raw).flatten) →
    (∀ r ∈ rs, r.mode ≠ .none ∧ r.count ≤ 2147483647) → convertRepeats toks (groupsF (repListF i rs)) = .ok (rs.map fun r => ⟨r.mode, r.unit, r.count⟩) := by
  induction rs with
  | nil => intro i _ _; rfl
  | cons r rs ih =>
    intro i h hv
    obtain ⟨v1, v2⟩ := hv r List.mem_cons_self
    simp only [List.map_cons, List.flatten_cons, said_append, Rep.raw] at h
    have h1 := h.left.right
    have h2 := h.right
    rw [← gap_length] at h1
    have e : convertRepeat toks (⟨NK.InlineStmtList, .ext ((Forest.leaf NK.RawText (.tok (i + (gapK r.gap).length))
        (.leaf NK.RawText (.tok (i + (gapK r.gap).length + 1)) .nil) : Forest NK Unit).count)⟩ ::
        (Forest.leaf NK.RawText (.tok (i + (gapK r.gap).length)) (.leaf NK.RawText (.tok (i + (gapK r.gap).length + 1)) .nil)).flat) =
        .ok ⟨r.mode, r.unit, r.count⟩ := by
      unfold convertRepeat
      rw [children_tree]
      simp only [groupsF]
      rw [Shows.text h1]
      simp only [Out.bind]
      rw [Shows.text h1.tail]
      simp only [Out.bind, count_plain v2, mode_spec _ v1]
    rw [repListF, groupsF, convertRepeats, e]
    simp only [Out.bind]
    rw [ih _ (by
      rw [List.length_append, ← gap_length] at h2
      exact h2) (fun x hx => hv x (List.mem_cons_of_mem _ hx))]
    rfl

theorem reps_part {toks : List Tok} {i : Nat} {s : Stamp} (h : Shows toks i (said (repsRaw s))) (hv : ∀ r ∈ s.reps, r.mode ≠ .none ∧ r.count ≤ 2147483647) :
    ∃ a, groupsF (repsF i s.reps) = [a] ∧ repeatsOf toks a = .ok (s.reps.map fun r => ⟨r.mode, r.unit, r.count⟩) := by
  unfold repsRaw at h
  revert h hv
  generalize s.reps = rs
  intro h hv
  cases rs with
  | nil => exact ⟨_, rfl, rfl⟩
  | cons r rs =>
    refine ⟨_, rfl, ?_⟩
    unfold repeatsOf
    rw [if_neg (by simp [isEmpty]), children_tree]
    exact reps_convert (r :: rs) i h hv

theorem warn_part {toks : List Tok} {i : Nat} {s : Stamp} (h : Shows toks i (said (warnRaw s))) (hv : ∀ w ∈ s.warning, w.count ≤ 2147483647) :
    ∃ a, groupsF (warnF i s) = [a] ∧ warnOf toks a = .ok (s.warning.map fun w => (w.unit, - (w.count : Int))) := by
  unfold warnF warnRaw at *
  cases hc : s.warning with
  | none => exact ⟨_, rfl, rfl⟩
  | some w =>
    rw [hc] at h hv
    simp only [Warning.raw, said_append] at h
    have h1 := h.right
    rw [← gap_length] at h1
    refine ⟨_, rfl, ?_⟩
    unfold warnOf
    rw [if_neg (by simp [isEmpty]), Shows.text h1]
    simp only [Out.bind, count_minus (hv w rfl)]
    rfl

theorem stamp_count (i : Nat) (s : Stamp) : (stampF i s).flat = ⟨stampKind s, .ext (partsF i s).count⟩ :: (partsF i s).flat := by
  simp [stampF, Forest.flat]

/-- The conversion of a timestamp. -/
theorem convert_stamp {toks : List Tok} {i : Nat} {s : Stamp} (hv : s.Valid) (h : Shows toks i (said s.raw)) :
    convertTime toks (stampF i s).flat = if s.Real then .ok s.time else .bad := by
  rw [stamp_count]
  simp only [Stamp.raw, Stamp.inside, said_append] at h
  have h0 := h.right.left
  have hin : said ((TK.Date, s.date) :: (nameRaw s ++ (clockRaw s ++ (zoneRaw s ++ (repsRaw s ++ warnRaw s))))) =
      s.date :: (said (nameRaw s) ++ (said (clockRaw s) ++ (said (zoneRaw s) ++ (said (repsRaw s) ++ said (warnRaw s))))) := by
    simp [said]
  rw [hin] at h0
  have hdate := Shows.text h0
  have h1 := h0.tail.right
  have h2 := h1.right
  have h3 := h2.right
  have h4 := h3.right
  have p1 := h1.left
  have p2 := h2.left
  have p3 := h3.left
  rw [← name_length] at p1 p2 p3 h4
  rw [← clock_length] at p2 p3 h4
  rw [← zone_length] at p3 h4
  rw [show said (repsRaw s) = said (s.reps.map Rep.raw).flatten from rfl, ← reps_length] at h4
  obtain ⟨a1, e1, q1⟩ := clock_part (i := atClock i s) p1
  obtain ⟨a2, e2, q2, z, q2', q2''⟩ := zone_part (i := atZone i s) p2
  obtain ⟨a3, e3, q3⟩ := reps_part (i := atReps i s) p3 hv.reps
  obtain ⟨a4, e4, q4⟩ := warn_part (i := atWarn i s) h4 (fun w hw => (hv.warning w hw).1)
  have hk : children (⟨stampKind s, .ext (partsF i s).count⟩ :: (partsF i s).flat) = [[⟨.RawText, .tok (i + 1)⟩], a1, a2, a3, a4] := by
    rw [children_tree]
    unfold partsF
    simp only [groupsF_append, e1, e2, e3, e4]
    rfl
  have hz : (if isEmpty a2 = true then none else some (convertZone z)) = s.time.time.zone := by
    rw [q2]
    unfold Stamp.time
    cases hc : s.zone with
    | none => simp
    | some x =>
      rw [q2'' x hc]
      simp [zone_digits (hv.zone x hc)]
  have body : (getText toks [⟨NK.RawText, .tok (i + 1)⟩]).bind (fun y => (getText toks a1).bind fun c => (getText toks a2).bind fun z =>
      match parseUserTime (dateTime y c) (if isEmpty a2 then none else some (convertZone z)) with
      | none => Out.bad
      | some t => (repeatsOf toks a3).bind fun rs => (warnOf toks a4).bind fun w => .ok ⟨s.active, t, rs, w⟩) = if s.Real then .ok s.time else .bad := by
    have hdate' : getText toks [⟨NK.RawText, .tok (i + 1)⟩] = .ok s.date := hdate
    rw [hdate', q1, q2']
    simp only [Out.bind]
    rw [hz, userTime_stamp hv, q3, q4]
    by_cases hr : s.Real
    · rw [if_pos hr, if_pos hr]
      rfl
    · rw [if_neg hr, if_neg hr]
  rw [← body]
  unfold convertTime stampKind at *
  cases ha : s.active with
  | true =>
    rw [ha] at hk
    simp only [if_true] at hk ⊢
    rw [hk]
    simp
    rfl
  | false =>
    rw [ha] at hk
    simp only [if_false, Bool.false_eq_true] at hk ⊢
    rw [hk]
    simp
    rfl

/-! ## Documents -/

theorem range_flat (i : Nat) (a b : Stamp) : ∃ c : Forest NK Unit, (itemF i (.range a b)).flat = ⟨.TimeRange, .ext c.count⟩ :: c.flat ∧
    groupsF c = [(stampF i a).flat, (stampF (i + (stampK a).length + 1) b).flat, emptyA] := by
  refine ⟨(stampF i a).append ((stampF (i + (stampK a).length + 1) b).append (.leaf .Empty (.mono ()) .nil)), by simp [itemF, Forest.flat], ?_⟩
  rw [groupsF_append, groupsF_append, stamp_count, stamp_count]
  rfl

/-- The conversion of a range. -/
theorem convert_range {toks : List Tok} {i : Nat} {a b : Stamp} (ha : a.Valid) (hb : b.Valid) (h : Shows toks i (said (Item.raw (.range a b)))) :
    convertFound toks (itemF i (.range a b)).flat = if a.Real ∧ b.Real then .ok (.range a.time b.time) else .throws := by
  obtain ⟨c, h1, h2⟩ := range_flat i a b
  simp only [Item.raw, said_append] at h
  have ka : (stampK a).length = (said a.raw).length := by rw [said_length, ← kinds_stamp ha, kinds_length]
  have sa := convert_stamp ha h.left
  have h' := h.right.right
  rw [← ka] at h'
  have sb := convert_stamp hb h'
  rw [h1]
  simp only [convertFound]
  unfold convertRange
  rw [children_tree, h2]
  simp only
  rw [sa]
  erw [sb]
  by_cases ra : a.Real <;> by_cases rb : b.Real <;> simp [ra, rb, Out.value, Out.bind]

theorem convert_single {toks : List Tok} {i : Nat} {s : Stamp} (hv : s.Valid) (h : Shows toks i (said s.raw)) :
    convertFound toks (stampF i s).flat = if s.Real then .ok (.time s.time) else .bad := by
  have := convert_stamp hv h
  rw [stamp_count] at this ⊢
  have hne : stampKind s ≠ .TimeRange := by unfold stampKind; split <;> decide
  have e : convertFound toks (⟨stampKind s, .ext (partsF i s).count⟩ :: (partsF i s).flat) =
      (convertTime toks (⟨stampKind s, .ext (partsF i s).count⟩ :: (partsF i s).flat)).bind fun t => .ok (.time t) := by
    unfold convertFound
    split
    · rename_i he; injection he with he _; injection he with he _; exact absurd he hne
    · rfl
  rw [e, this]
  split_ifs <;> rfl

theorem leaf_no_time (p : Piece) : p.leafKind ∉ timeKinds := by
  cases p <;> simp only [Piece.leafKind]
  case word w => split_ifs <;> decide
  all_goals decide

theorem nodes_time {f : Nat} {k : NK} (hk : k ∈ timeKinds) (c : Forest NK Unit) (r : List (Node NK Unit)) :
    timeNodes (f + 1) ((⟨k, .ext c.count⟩ :: c.flat) ++ r) = (⟨k, .ext c.count⟩ :: c.flat) :: timeNodes f r := by
  rw [List.cons_append, timeNodes, if_pos hk]
  simp [Node.getExtent]

theorem nodes_items {toks : List Tok} {is : List Item} {b : Bool} (h : DatedFrom b is) : ∀ (f i : Nat), (docF i is).count ≤ f →
    Shows toks i (said (docRaw is)) → (timeNodes f (docF i is).flat).map (convertFound toks) = is.flatMap Item.found := by
  induction is generalizing b with
  | nil => intro f i _ _; cases f <;> rfl
  | cons it r ih =>
    intro f i hf hs
    have e : said (docRaw (it :: r)) = said it.raw ++ said (docRaw r) := by simp [docRaw, said]
    rw [e] at hs
    have h2 := hs.right
    rw [said_length] at h2
    have hflat : (docF i (it :: r)).flat = (itemF i it).flat ++ (docF (i + it.raw.length) r).flat := by rw [docF, flat_append]
    have hcount : (docF i (it :: r)).count = (itemF i it).count + (docF (i + it.raw.length) r).count := by
      rw [← flat_length, ← flat_length, ← flat_length, hflat, List.length_append]
    rw [hflat, List.flatMap_cons]
    cases it with
    | piece p =>
      obtain ⟨-, -, -, -, -, h6⟩ := h
      simp only [itemF, Forest.count] at hcount
      obtain ⟨f, rfl⟩ : ∃ g, f = g + 1 := ⟨f - 1, by omega⟩
      have hk := leaf_no_time p
      show ((timeNodes (f + 1) (⟨p.leafKind, .tok i⟩ :: (docF (i + 1) r).flat)).map (convertFound toks)) = [] ++ _
      rw [timeNodes, if_neg hk, List.nil_append]
      exact ih h6 f _ (by simp only [Item.raw, List.length_singleton] at hcount; omega) h2
    | stamp s =>
      obtain ⟨h1, -, -, h4⟩ := h
      have hf1 : 1 ≤ (itemF i (.stamp s)).count := by simp [itemF, stampF, Forest.count]
      obtain ⟨f, rfl⟩ : ∃ g, f = g + 1 := ⟨f - 1, by omega⟩
      simp only [itemF]
      have hc := convert_single h1 hs.left
      rw [stamp_count] at hc ⊢
      rw [nodes_time (by unfold stampKind; split <;> decide), List.map_cons, hc, ih h4 f _ (by omega) h2]
      rfl
    | range x y =>
      obtain ⟨h1, h2', -, -, h5⟩ := h
      have hf1 : 1 ≤ (itemF i (.range x y)).count := by simp [itemF, Forest.count]
      obtain ⟨f, rfl⟩ : ∃ g, f = g + 1 := ⟨f - 1, by omega⟩
      have hc := convert_range h1 h2' hs.left
      obtain ⟨c, e1, -⟩ := range_flat i x y
      rw [e1] at hc ⊢
      rw [nodes_time (by decide), List.map_cons, hc, ih h5 f _ (by omega) h2]
      rfl

/-- What is found in a document. -/
theorem dated_times {is : List Item} (h : Dated is) {n : Nat} (hn : (docRaw is).length + 4 ≤ n) :
    readTimes n (render is) = .ok (is.flatMap Item.found) := by
  unfold readTimes
  rw [dated_nodes h hn]
  simp only
  have hs := shows_placed (docRaw is)
  have key := nodes_items (toks := placed 0 (final (docRaw is))) h.from_ (docF 1 is).count 1 (Nat.le_refl _) hs
  have e : (Forest.tree NK.StmtList (.tree .Paragraph (docF 1 is) .nil) .nil : Forest NK Unit).flat =
      ⟨.StmtList, .ext ((docF 1 is).count + 1)⟩ :: ⟨.Paragraph, .ext (docF 1 is).count⟩ :: (docF 1 is).flat := by
    simp [Forest.flat, Forest.count, Int.add_comm]
  rw [e]
  have e2 : timeNodes (⟨NK.StmtList, .ext ((docF 1 is).count + 1)⟩ :: ⟨.Paragraph, .ext (docF 1 is).count⟩ :: (docF 1 is).flat).length
      (⟨NK.StmtList, .ext ((docF 1 is).count + 1)⟩ :: ⟨.Paragraph, .ext (docF 1 is).count⟩ :: (docF 1 is).flat) =
      timeNodes (docF 1 is).count (docF 1 is).flat := by
    simp only [List.length_cons, flat_length]
    rw [timeNodes, if_neg (show NK.StmtList ∉ timeKinds by decide), timeNodes, if_neg (show NK.Paragraph ∉ timeKinds by decide)]
  rw [e2, key]

end Verif.Stamp
