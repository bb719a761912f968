import Verif.Report.Lemmas

/-!
# Reports with labelled sources

**C183**  `get_offset_line` gives the line and the column of every offset in a source, and nothing for other offsets.
* `offset_partial` – for every offset in the source, and for its end if it does not end with a line end.
* `offset_past_partial` – nothing after one more than the end.
* `offset_false` – the end of a source that ends with a line end is given as a place in the last line but one.
* `offset_past_false` – the offset after the end has a place.

**C184**  `get_line_range` gives the lines from that of the start to that of the end of a span, and the lines have the texts of
the lines of the source.
* `range_partial`, `range_false` – it goes on to the line after the end, which need not be there.
* `line_texts`.

**C185**  The labels are grouped by their sources: `groups_spec`.

**C186**  An inline label is drawn on one line, the one it starts on, at its column.
* `drawn_partial`
* `drawn_never_false`, `drawn_twice_false`
-/

namespace Verif.Report

/-! ## C183 -/

/-- **C183** The place of an offset in the source. -/
theorem offset_partial (t : Text) (k : Nat) (h : Before t k) : offsetLine (source t) k = .ok (some (lineAt t k, columnAt t k)) := by
  have hlen := source_len t
  have hk : k ≤ t.length := by rcases h with h | h <;> omega
  unfold offsetLine
  rw [if_pos (by rw [hlen]; split_ifs <;> omega)]
  cases t with
  | nil =>
    have : k = 0 := by simpa using hk
    subst this
    rfl
  | cons c r =>
    have hs : (source (c :: r)).lines = linesFrom 0 (pieces [] (c :: r)) := rfl
    obtain ⟨h1, l, h2, h3, _⟩ := lines_place _ (c :: r) (Nat.le_refl _) (by simp) 0 k h
    rw [Nat.zero_add] at h1 h3
    dsimp only
    rw [hs, h1, Nat.add_sub_cancel, h2]
    dsimp only
    rw [if_pos (by omega)]
    congr 3
    omega

/-- **C183** No place further than one after the end. -/
theorem offset_past_partial (t : Text) (k : Int) (h : (t.length : Int) + 1 < k) : offsetLine (source t) k = .ok none := by
  have hlen := source_len t
  unfold offsetLine
  rw [if_neg (by rw [hlen]; split_ifs <;> omega)]

/-- **C183**, the property for the offsets in the source and its end. -/
def OffsetStatement : Prop := ∀ (t : Text) (k : Nat), k ≤ t.length → offsetLine (source t) k = .ok (some (lineAt t k, columnAt t k))

/-- After a line end at the end there is no line: the end of `a⏎` is in line 1, but is given as column 2 of line 0. -/
theorem offset_false : ¬ OffsetStatement := by
  intro h
  have := h ['a', '\n'] 2 (by decide)
  revert this
  decide

/-- **C183**, the property for other offsets. -/
def PastStatement : Prop := ∀ (t : Text) (k : Nat), t.length < k → offsetLine (source t) k = .ok none

theorem offset_past_false : ¬ PastStatement := by
  intro h
  have := h ['a'] 2 (by decide)
  revert this
  decide

/-- An offset before the source is an exception. -/
theorem offset_negative (t : Text) (k : Int) (h : k < 0) : offsetLine (source t) k = .throws := by
  unfold offsetLine
  rw [if_pos (by omega)]
  have : (source t).lines.takeWhile (fun l => decide ((l.offset : Int) ≤ k)) = [] := by
    cases hl : (source t).lines with
    | nil => rfl
    | cons a r => rw [List.takeWhile_cons_of_neg (by simp; omega)]
  dsimp only
  rw [this]
  cases hl : (source t).lines with
  | nil =>
    exfalso
    revert hl
    unfold source
    cases t with
    | nil => simp
    | cons c r =>
      simp only [List.isEmpty_cons, Bool.false_eq_true, if_false]
      rcases text_cases (c :: r) with ⟨p, q, hp, e⟩ | hp
      · rw [e, pieces_acc p hp]; simp [linesFrom]
      · rw [pieces_last _ hp [] (by simp)]; simp [linesFrom]
  | cons a r =>
    simp only [List.length_nil, Nat.zero_sub, List.getElem?_cons_zero]
    rw [if_neg (by omega)]

example : Before "ab\nc".toList 3 ∧ lineAt "ab\nc".toList 3 = 1 ∧ columnAt "ab\nc".toList 4 = 1 := ⟨.inl (by decide), by decide, by decide⟩

/-! ## C184 -/

theorem lineAt_mono (t : Text) {a b : Nat} (h : a ≤ b) : lineAt t a ≤ lineAt t b := by
  unfold lineAt
  exact List.Sublist.count_le _ ((List.take_prefix_take_left h).sublist)

/-- **C184** The range goes from the line of the start to the line after that of the end. -/
theorem range_partial (t : Text) (a b : Nat) (hab : a ≤ b) (hb : Before t b) : lineRange (source t) a b = .ok (lineAt t a, lineAt t b + 1) := by
  have ha : Before t a := by
    rcases hb with h | ⟨h1, h2⟩
    · exact .inl (by omega)
    · by_cases h : a = t.length
      · exact .inr ⟨h, h2⟩
      · exact .inl (by omega)
  unfold lineRange
  rw [show max b a = b by omega, offset_partial t a ha, offset_partial t b hb]
  dsimp only
  rw [if_pos (by have := lineAt_mono t hab; omega)]

/-- **C184**, the property: the lines of the range are lines of the source. -/
def RangeStatement : Prop := ∀ (t : Text) (a b : Nat), a ≤ b → b < t.length →
  ∃ first last, lineRange (source t) a b = .ok (first, last) ∧ ∀ i, first ≤ i → i ≤ last → i < (source t).lines.length

theorem range_false : ¬ RangeStatement := by
  intro h
  obtain ⟨first, last, h1, h2⟩ := h ['a'] 0 0 (by decide) (by decide)
  have e : lineRange (source ['a']) 0 0 = .ok (0, 1) := by decide
  rw [e] at h1
  injection h1 with h1
  injection h1 with h1 h1'
  subst h1 h1'
  have := h2 1 (by decide) (by decide)
  revert this
  decide

/-- The lines of a text, by their ends; a line end at the end is not the start of another line. -/
inductive Lines : Text → List Text → Prop
  | empty : Lines [] [[]]
  | last {p} : p ≠ [] → '\n' ∉ p → Lines p [p]
  | ended {p} : '\n' ∉ p → Lines (p ++ ['\n']) [p]
  | more {p r ls} : '\n' ∉ p → r ≠ [] → Lines r ls → Lines (p ++ '\n' :: r) (p :: ls)

theorem lines_texts : ∀ (n : Nat) (t : Text), t.length ≤ n → t ≠ [] → Lines t (pieces [] t) ∧
    ∀ (pre : Text) (s : Source), s.content = pre ++ t → (linesFrom pre.length (pieces [] t)).map (lineText s) = pieces [] t := by
  intro n
  induction n with
  | zero => intro t ht hne; exact absurd (List.length_eq_zero_iff.mp (by omega)) hne
  | succ n ih =>
    intro t ht hne
    have one : ∀ (pre p r : Text) (s : Source), s.content = pre ++ p ++ r → lineText s ⟨pre.length, p.length⟩ = p := by
      intro pre p r s h
      unfold lineText
      dsimp only
      split_ifs with h0
      · exact (List.length_eq_zero_iff.mp h0).symm
      · rw [h, List.append_assoc, List.drop_left, List.take_left]
    rcases text_cases t with ⟨p, r, hp, rfl⟩ | hp
    · rw [pieces_acc p hp, List.nil_append]
      rw [List.length_append, List.length_cons] at ht
      by_cases hr : r = []
      · subst hr
        refine ⟨by simpa [pieces] using Lines.ended hp, ?_⟩
        intro pre s hs
        simp only [linesFrom, pieces, List.isEmpty_nil, if_true, List.map_cons, List.map_nil]
        rw [one pre p ['\n'] s (by rw [hs, List.append_assoc])]
      · obtain ⟨i1, i2⟩ := ih r (by omega) hr
        refine ⟨.more hp hr i1, ?_⟩
        intro pre s hs
        rw [linesFrom, List.map_cons, one pre p ('\n' :: r) s (by rw [hs, List.append_assoc])]
        have := i2 (pre ++ p ++ ['\n']) s (by rw [hs]; simp)
        rw [show (pre ++ p ++ ['\n']).length = pre.length + p.length + 1 by simp; omega] at this
        rw [this]
    · rw [pieces_last t hp [] (by simpa using hne), List.nil_append]
      refine ⟨.last hne hp, ?_⟩
      intro pre s hs
      simp only [linesFrom, List.map_cons, List.map_nil]
      rw [one pre t [] s (by rw [hs]; simp)]

/-- **C184** The lines of a source have the texts of its lines. -/
theorem line_texts (t : Text) : Lines t ((source t).lines.map (lineText (source t))) := by
  by_cases ht : t = []
  · subst ht
    exact .empty
  · obtain ⟨h1, h2⟩ := lines_texts _ t (Nat.le_refl _) ht
    have hs : (source t).lines = linesFrom 0 (pieces [] t) ∧ (source t).content = t := by
      unfold source
      cases t with
      | nil => exact absurd rfl ht
      | cons c r => exact ⟨rfl, rfl⟩
    rw [hs.1]
    have := h2 [] (source t) (by rw [hs.2]; rfl)
    rw [List.length_nil] at this
    rw [this]
    exact h1

/-! ## C185 -/

/-- The labels of a source that is known, in order. -/
def labelsOf (fetch : Nat → Option Source) (ls : List Label) (id : Nat) : List Label :=
  if fetch id = none then [] else ls.filter fun l => l.id = id

/-- A group for its labels. -/
def GroupOf (g : Group) (ls : List Label) : Prop :=
  g.labels.map Info.label = ls ∧ ls ≠ [] ∧ (∀ l ∈ ls, l.id = g.id ∧ g.first ≤ l.start ∧ l.stop ≤ g.last) ∧
  (∃ l ∈ ls, l.start = g.first) ∧ (∃ l ∈ ls, l.stop = g.last)

theorem group_add {g : Group} {ls : List Label} {i : Info} (h : GroupOf g ls) (hi : i.label.id = g.id) :
    GroupOf ⟨g.id, min g.first i.label.start, max g.last i.label.stop, g.labels ++ [i]⟩ (ls ++ [i.label]) := by
  obtain ⟨h1, h2, h3, ⟨a, ha, ha'⟩, ⟨b, hb, hb'⟩⟩ := h
  refine ⟨by simp [h1], by simp, ?_, ?_, ?_⟩
  · intro l hl
    rcases List.mem_append.mp hl with hl | hl
    · obtain ⟨e1, e2, e3⟩ := h3 l hl
      exact ⟨e1, by dsimp only; omega, by dsimp only; omega⟩
    · rw [List.mem_singleton] at hl
      subst hl
      exact ⟨hi, by dsimp only; omega, by dsimp only; omega⟩
  · by_cases h : g.first ≤ i.label.start
    · exact ⟨a, by simp [ha], by dsimp only; omega⟩
    · exact ⟨i.label, by simp, by dsimp only; omega⟩
  · by_cases h : i.label.stop ≤ g.last
    · exact ⟨b, by simp [hb], by dsimp only; omega⟩
    · exact ⟨i.label, by simp, by dsimp only; omega⟩

/-- The groups hold the labels of each source. -/
def Grouped (groups : List Group) (of : Nat → List Label) : Prop :=
  (groups.map Group.id).Nodup ∧ (∀ g ∈ groups, GroupOf g (of g.id)) ∧ ∀ id, of id ≠ [] → id ∈ groups.map Group.id

theorem addTo_ids (i : Info) (groups : List Group) :
    (addTo i groups).map Group.id = groups.map Group.id ++ (if i.label.id ∈ groups.map Group.id then [] else [i.label.id]) := by
  induction groups with
  | nil => rfl
  | cons g r ih =>
    rw [addTo]
    split_ifs with h1 h2 h2
    · simp
    · exact absurd (by simp [h1]) h2
    · rw [List.map_cons, ih, if_pos]
      · simp
      · rw [List.map_cons, List.mem_cons] at h2
        exact h2.resolve_left (Ne.symm h1)
    · rw [List.map_cons, ih, if_neg]
      · simp
      · exact fun h => h2 (by simp only [List.map_cons, List.mem_cons]; exact .inr h)

theorem addTo_mem {i : Info} {groups : List Group} {of : Nat → List Label} (hn : (groups.map Group.id).Nodup) (hg : ∀ g ∈ groups, GroupOf g (of g.id))
    (hof : i.label.id ∉ groups.map Group.id → of i.label.id = []) (g : Group) (h : g ∈ addTo i groups) :
    GroupOf g (if g.id = i.label.id then of g.id ++ [i.label] else of g.id) := by
  induction groups with
  | nil =>
    rw [addTo, List.mem_singleton] at h
    subst h
    dsimp only
    rw [if_pos rfl, hof (by simp)]
    exact ⟨rfl, by simp, by simp, ⟨i.label, by simp, rfl⟩, ⟨i.label, by simp, rfl⟩⟩
  | cons a r ih =>
    rw [List.map_cons, List.nodup_cons] at hn
    rw [addTo] at h
    split_ifs at h with ha
    · rcases List.mem_cons.mp h with rfl | h
      · dsimp only
        rw [if_pos ha]
        exact group_add (hg a (by simp)) ha.symm
      · have : g.id ≠ i.label.id := by
          intro e
          apply hn.1
          rw [ha, ← e]
          exact List.mem_map_of_mem h
        rw [if_neg this]
        exact hg g (by simp [h])
    · rcases List.mem_cons.mp h with rfl | h
      · rw [if_neg ha]
        exact hg g (by simp)
      · refine ih hn.2 (fun g hg' => hg g (by simp [hg'])) ?_ h
        intro hni
        exact hof (by simp only [List.map_cons, List.mem_cons, not_or]; exact ⟨Ne.symm ha, hni⟩)

theorem infoOf_label {s : Source} {l : Label} {i : Info} (h : infoOf s l = .ok i) : i.label = l := by
  unfold infoOf at h
  split_ifs at h
  split at h
  · split at h
    · injection h with h
      rw [← h]
    · cases h
  · cases h

theorem groups_loop (fetch : Nat → Option Source) : ∀ (ls done : List Label) (groups res : List Group),
    Grouped groups (labelsOf fetch done) → groupsLoop fetch ls groups = .ok res → Grouped res (labelsOf fetch (done ++ ls)) := by
  intro ls
  induction ls with
  | nil =>
    intro done groups res h hr
    rw [groupsLoop] at hr
    injection hr with hr
    subst hr
    rw [List.append_nil]
    exact h
  | cons l ls ih =>
    intro done groups res h hr
    rw [groupsLoop] at hr
    rw [show done ++ l :: ls = done ++ [l] ++ ls by simp]
    cases hf : fetch l.id with
    | none =>
      rw [hf] at hr
      refine ih _ groups res ?_ hr
      have e : labelsOf fetch (done ++ [l]) = labelsOf fetch done := by
        funext id
        unfold labelsOf
        split_ifs with hid
        · rfl
        · rw [List.filter_append, List.filter_cons_of_neg (by simp only [decide_eq_true_eq]; rintro rfl; exact hid hf)]
          simp
      rw [e]
      exact h
    | some s =>
      rw [hf] at hr
      dsimp only at hr
      cases hi : infoOf s l with
      | throws => rw [hi] at hr; cases hr
      | ok i =>
        rw [hi] at hr
        have hl := infoOf_label hi
        refine ih _ (addTo i groups) res ?_ hr
        obtain ⟨h1, h2, h3⟩ := h
        have of_eq : ∀ id, labelsOf fetch (done ++ [l]) id = if id = l.id then labelsOf fetch done id ++ [l] else labelsOf fetch done id := by
          intro id
          unfold labelsOf
          by_cases e : id = l.id
          · subst e
            have hne : ¬ (fetch l.id = none) := by rw [hf]; simp
            simp only [if_neg hne]
            rw [if_pos trivial, List.filter_append, List.filter_cons_of_pos (by simp)]
            rfl
          · rw [if_neg e]
            split_ifs
            · rfl
            · rw [List.filter_append, List.filter_cons_of_neg (by simp only [decide_eq_true_eq]; exact Ne.symm e)]
              simp
        refine ⟨?_, ?_, ?_⟩
        · rw [addTo_ids]
          split_ifs with hm
          · rw [List.append_nil]; exact h1
          · rw [List.nodup_append]
            refine ⟨h1, by simp, ?_⟩
            rintro a ha b hb rfl
            rw [List.mem_singleton] at hb
            subst hb
            exact hm ha
        · intro g hg
          have := addTo_mem h1 h2 (of := labelsOf fetch done) (i := i) ?_ g hg
          · rw [of_eq, ← hl]
            exact this
          · intro hni
            apply Decidable.byContradiction
            intro hne
            exact hni (h3 _ hne)
        · intro id hne
          rw [addTo_ids, List.mem_append, hl]
          rw [of_eq] at hne
          by_cases e : id = l.id
          · subst e
            by_cases hm : l.id ∈ groups.map Group.id
            · exact .inl hm
            · rw [if_neg hm]; exact .inr (by simp)
          · rw [if_neg e] at hne
            exact .inl (h3 id hne)

/-- **C185** If nothing is thrown, there is one group for each source with labels; it has the labels of the source in their
order, and its span is the smallest that covers them. -/
theorem groups_spec (fetch : Nat → Option Source) (ls : List Label) (res : List Group) (h : groupsLoop fetch ls [] = .ok res) :
    (res.map Group.id).Nodup ∧ (∀ g ∈ res, GroupOf g (labelsOf fetch ls g.id)) ∧ ∀ id, labelsOf fetch ls id ≠ [] → id ∈ res.map Group.id := by
  refine groups_loop fetch ls [] [] res ⟨List.nodup_nil, by simp, ?_⟩ h
  intro id hne
  exfalso
  apply hne
  unfold labelsOf
  split_ifs <;> rfl

/-- **C185** Nothing is thrown for labels in their sources. -/
theorem groups_ok (fetch : Nat → Option Source) (text : Nat → Text) (hf : ∀ id s, fetch id = some s → s = source (text id)) (ls : List Label)
    (h : ∀ l ∈ ls, l.start ≤ l.stop ∧ l.start < (text l.id).length ∧ l.stop ≤ (text l.id).length) : ∃ res, groupsLoop fetch ls [] = .ok res := by
  have main : ∀ (ls : List Label) (groups : List Group), (∀ l ∈ ls, l.start ≤ l.stop ∧ l.start < (text l.id).length ∧ l.stop ≤ (text l.id).length) →
      ∃ res, groupsLoop fetch ls groups = .ok res := by
    intro ls
    induction ls with
    | nil => intro groups _; exact ⟨groups, rfl⟩
    | cons l ls ih =>
      intro groups hls
      obtain ⟨h1, h2, h3⟩ := hls l (by simp)
      rw [groupsLoop]
      cases hl : fetch l.id with
      | none => exact ih _ fun l hl => hls l (by simp [hl])
      | some s =>
        have hs := hf _ _ hl
        dsimp only
        have : ∃ i, infoOf s l = .ok i := by
          unfold infoOf
          rw [if_neg (by omega), hs, offset_partial _ _ (.inl h2)]
          dsimp only
          obtain ⟨m, hm⟩ : ∃ m : Nat, max ((l.stop : Int) - 1) l.start = m := ⟨max (l.stop - 1) l.start, by omega⟩
          rw [hm, offset_partial _ m (.inl (by omega))]
          exact ⟨_, rfl⟩
        obtain ⟨i, hi⟩ := this
        rw [hi]
        exact ih _ fun l hl => hls l (by simp [hl])
  exact main ls [] h

/-- **C185** A label is inline exactly if its characters are on one line. -/
theorem label_kind (t : Text) (l : Label) (h1 : l.start < l.stop) (h2 : l.stop ≤ t.length) :
    infoOf (source t) l = .ok ⟨l, decide (lineAt t l.start = lineAt t (l.stop - 1))⟩ := by
  unfold infoOf
  rw [if_neg (by omega), offset_partial _ _ (.inl (by omega))]
  dsimp only
  rw [show max ((l.stop : Int) - 1) l.start = ((l.stop - 1 : Nat) : Int) by omega, offset_partial _ _ (.inl (by omega))]

example : groupsLoop (fun id => if id = 0 then some (source "ab\nc".toList) else none) [⟨0, 1, 4, 7⟩, ⟨1, 0, 1, 8⟩, ⟨0, 0, 2, 9⟩] [] =
    .ok [⟨0, 0, 4, [⟨⟨0, 1, 4, 7⟩, false⟩, ⟨⟨0, 0, 2, 9⟩, true⟩]⟩] := by decide +kernel

/-! ## C186 -/

theorem lines_from_ge (base : Nat) (ps : List Text) (l : Line) (h : l ∈ linesFrom base ps) : base ≤ l.offset := by
  induction ps generalizing base with
  | nil => simp [linesFrom] at h
  | cons p ps ih =>
    rw [linesFrom] at h
    rcases List.mem_cons.mp h with rfl | h
    · exact Nat.le_refl _
    · have := ih _ h; omega

theorem lines_apart (base : Nat) (ps : List Text) (i j : Nat) (a b : Line) (hij : i < j) (ha : (linesFrom base ps)[i]? = some a)
    (hb : (linesFrom base ps)[j]? = some b) : a.offset + a.len < b.offset := by
  induction ps generalizing base i j with
  | nil => simp [linesFrom] at ha
  | cons p ps ih =>
    rw [linesFrom] at ha hb
    obtain ⟨j, rfl⟩ : ∃ k, j = k + 1 := ⟨j - 1, by omega⟩
    rw [List.getElem?_cons_succ] at hb
    cases i with
    | zero =>
      simp only [List.getElem?_cons_zero, Option.some.injEq] at ha
      subst ha
      have := lines_from_ge _ _ _ (List.mem_of_getElem? hb)
      dsimp only
      omega
    | succ i =>
      rw [List.getElem?_cons_succ] at ha
      exact ih _ i j (by omega) ha hb

/-- The character a label points to: its first, the one in the middle, or the one after its last. -/
def pointed (a : Attach) (first last : Nat) : Nat :=
  match a with
  | .start => first
  | .middle => first + (last - first) / 2
  | .stop => last

theorem position_pointed (a : Attach) (l : Label) (h : l.start ≤ l.stop) : position a l = pointed a l.start l.stop := by
  unfold position pointed
  cases a <;> dsimp only <;> omega

/-- **C186** An inline label that ends in the line it starts in is drawn on that line, at the column of the character it points
to, and on no other. -/
theorem drawn_partial (t : Text) (a : Attach) (l : Label) (h1 : l.start ≤ l.stop) (h2 : Before t l.stop) (h3 : lineAt t l.start = lineAt t l.stop)
    (i : Nat) (line : Line) (hi : (source t).lines[i]? = some line) :
    drawn (source t) a line ⟨l, true⟩ = if i = lineAt t l.start then some (columnAt t l.start + (pointed a l.start l.stop - l.start)) else none := by
  rw [← position_pointed a l h1]
  have hpos : l.start ≤ position a l := by unfold position; omega
  by_cases ht : t = []
  · subst ht
    have hz : l.stop = 0 := by
      rcases h2 with h | h
      · simp at h
      · exact h.1
    have hi0 : i = 0 ∧ line = ⟨0, 0⟩ := by
      have e : (source []).lines = [⟨0, 0⟩] := rfl
      rw [e] at hi
      cases i with
      | zero => simpa using hi.symm
      | succ i => simp at hi
    obtain ⟨rfl, rfl⟩ := hi0
    have hs0 : l.start = 0 := by omega
    unfold drawn
    rw [if_pos (by simp [hz]), if_pos (by rw [hs0]; rfl)]
    dsimp only
    rw [hs0]
    simp [columnAt]
  · have hs : (source t).lines = linesFrom 0 (pieces [] t) := by
      unfold source
      cases t with
      | nil => exact absurd rfl ht
      | cons c r => rfl
    have hb : Before t l.start := by
      rcases h2 with h | ⟨h, h'⟩
      · exact .inl (by omega)
      · by_cases e : l.start = t.length
        · exact .inr ⟨e, h'⟩
        · exact .inl (by omega)
    have hlt : l.stop < (source t).len := by
      rw [source_len]
      rcases h2 with h | ⟨h, h'⟩
      · split_ifs <;> omega
      · rw [if_neg (by simp [ht, h'])]; omega
    obtain ⟨_, x, x1, x2, x3⟩ := lines_place _ t (Nat.le_refl _) ht 0 l.start hb
    obtain ⟨_, y, y1, y2, y3⟩ := lines_place _ t (Nat.le_refl _) ht 0 l.stop h2
    rw [← h3, x1] at y1
    injection y1 with y1
    subst y1
    rw [hs] at hi
    unfold drawn
    dsimp only
    by_cases e : i = lineAt t l.start
    · subst e
      rw [x1] at hi
      injection hi with hi
      subst hi
      rw [if_pos rfl, if_pos ⟨by omega, .inl (by omega), rfl⟩]
      congr 1
      omega
    · rw [if_neg e, if_neg]
      rintro ⟨c1, c2, _⟩
      by_cases hlt' : i < lineAt t l.start
      · have := lines_apart 0 _ _ _ _ _ hlt' hi x1
        omega
      · have := lines_apart 0 _ _ _ _ _ (by omega : lineAt t l.start < i) x1 hi
        omega

/-- **C186**, the property: every inline label is drawn. -/
def DrawnStatement : Prop := ∀ (t : Text) (a : Attach) (l : Label) (i : Info), l.start < l.stop → l.stop ≤ t.length → infoOf (source t) l = .ok i → i.isInline = true →
  ∃ line ∈ (source t).lines, drawn (source t) a line i ≠ none

/-- A label for a line end is not drawn. -/
theorem drawn_never_false : ¬ DrawnStatement := by
  intro h
  obtain ⟨line, h1, h2⟩ := h "ab\ncd".toList .middle ⟨0, 2, 3, 0⟩ ⟨⟨0, 2, 3, 0⟩, true⟩ (by decide) (by decide) (by decide +kernel) rfl
  have e : (source "ab\ncd".toList).lines = [⟨0, 2⟩, ⟨3, 2⟩] := by decide +kernel
  rw [e] at h1
  simp only [List.mem_cons, List.not_mem_nil, or_false] at h1
  rcases h1 with rfl | rfl
  · exact h2 (by decide +kernel)
  · exact h2 (by decide +kernel)

/-- **C186**, the property: an inline label is drawn on one line only. -/
def OnceStatement : Prop := ∀ (t : Text) (a : Attach) (l : Label) (i : Info) (x y : Line), l.start < l.stop → l.stop ≤ t.length → infoOf (source t) l = .ok i →
  x ∈ (source t).lines → y ∈ (source t).lines → drawn (source t) a x i ≠ none → drawn (source t) a y i ≠ none → x = y

/-- A label for the last line end is drawn on every line before. -/
theorem drawn_twice_false : ¬ OnceStatement := by
  intro h
  have := h "a\nb\n".toList .middle ⟨0, 3, 4, 0⟩ ⟨⟨0, 3, 4, 0⟩, true⟩ ⟨0, 1⟩ ⟨2, 1⟩ (by decide) (by decide) (by decide +kernel)
    (by decide +kernel) (by decide +kernel) (by decide +kernel) (by decide +kernel)
  revert this
  decide

example : drawn (source "ab\ncde".toList) .middle ⟨3, 3⟩ ⟨⟨0, 4, 6, 0⟩, true⟩ = some 2 := by decide +kernel

end Verif.Report
