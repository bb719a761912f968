import Verif.Sem.Lines

/-!
# The number of characters in the block for a sem tree, and the text printed for lines
-/

namespace Verif.Sem
open Verif.Layout

theorem volume_str (s : List Char) : volume (str s) = s.length := by
  simp [str, volume, chars_str]

theorem volumes_append (as bs : List Block) : volumes (as ++ bs) = volumes as + volumes bs := by
  induction as with
  | nil => simp [volumes]
  | cons a as ih => simp [volumes, ih]; omega

theorem volumes_added (bs : List Block) : volumes (added bs) ≤ volumes bs := by
  induction bs with
  | nil => simp [added]
  | cons b bs ih =>
    simp only [added, List.filter_cons] at *
    split
    · simp only [volumes]; omega
    · simp only [volumes]; omega

theorem volumes_split : ∀ ps : List (Sem × Block),
    volumes ((splitNewlines ps).map lineOf) ≤ volumes (ps.map (·.2))
  | [] => by simp [splitNewlines, lineOf, added, volumes, volume]
  | (s, b) :: r => by
    have ih := volumes_split r
    rw [List.map_cons, volumes]
    have hcons : ∀ l ls, splitNewlines r = l :: ls → volumes (((b :: l) :: ls).map lineOf) ≤ volume b + volumes (r.map (·.2)) := by
      intro l ls e
      rw [e] at ih
      simp only [List.map_cons, volumes, lineOf, volume] at ih ⊢
      have h2 : volumes (added (b :: l)) ≤ volume b + volumes (added l) := by
        simp only [added, List.filter_cons]
        split
        · simp [volumes]
        · omega
      omega
    unfold splitNewlines
    split
    · simp only [List.map_cons, volumes, lineOf, added, volume, List.filter_nil]
      omega
    · next e => exact hcons _ _ e
    · next e =>
      have : volumes (added [b]) ≤ volume b := by
        have := volumes_added [b]
        simpa [volumes] using this
      simp only [List.map_cons, List.map_nil, volumes, lineOf, volume]
      omega

theorem volume_paragraph (subs : List Sem) (bs : List Block) : volume (paragraph subs bs) ≤ volumes bs := by
  have h1 := volumes_added ((splitNewlines (subs.zip bs)).map lineOf)
  have h2 := volumes_split (subs.zip bs)
  have h3 : ∀ (ss : List Sem) (bs : List Block), volumes ((ss.zip bs).map (·.2)) ≤ volumes bs := by
    intro ss
    induction ss with
    | nil => intro bs; simp [volumes]
    | cons s ss ih =>
      intro bs
      cases bs with
      | nil => simp [volumes]
      | cons b bs =>
        have := ih bs
        simp only [List.zip_cons_cons, List.map_cons, volumes]
        omega
  have h4 := h3 subs bs
  show volumes _ ≤ _
  omega

theorem volumes_joined (sep : Block) (bs : List Block) : volumes (joined sep bs) ≤ volumes bs + bs.length * volume sep := by
  induction bs with
  | nil => simp [joined, volumes]
  | cons b bs ih =>
    cases bs with
    | nil => simp [joined, volumes]
    | cons c cs =>
      rw [joined]
      · simp only [volumes, volume, List.length_cons, Nat.add_mul] at *
        omega
      · simp

theorem volumes_map_str (ts : List (List Char)) : volumes (ts.map str) + ts.length = (ts.map fun t => t.length + 1).sum := by
  induction ts with
  | nil => simp [volumes]
  | cons t ts ih => simp only [List.map_cons, volumes, volume_str, List.length_cons, List.sum_cons]; omega

theorem volumes_replicate (n : Nat) : volumes (List.replicate n (str [])) = 0 := by
  induction n with
  | zero => simp [volumes]
  | succ n ih => simp [List.replicate_succ, volumes, volume_str, ih]

theorem tagParts_volume (info : HeadInfo) : volumes (tagParts info) ≤ 7 + (info.tags.map fun t => t.length + 1).sum ∧ (tagParts info).length ≤ 2 := by
  have h1 := volumes_joined (str [':']) (info.tags.map str)
  have h2 := volumes_map_str info.tags
  rw [volume_str] at h1
  simp only [List.length_map, List.length_cons, List.length_nil, Nat.zero_add, Nat.mul_one] at h1
  have ha : volumes (if info.archived then [str archiveTag] else []) ≤ 7 := by
    split
    · simp [volumes, volume_str, archiveTag]
    · simp [volumes]
  have hb : volumes (if info.tags.isEmpty then [] else [.line (joined (str [':']) (info.tags.map str))]) ≤ (info.tags.map fun t => t.length + 1).sum := by
    split
    · simp [volumes]
    · simp only [volumes, volume]; omega
  constructor
  · unfold tagParts
    rw [volumes_append]
    omega
  · unfold tagParts
    rw [List.length_append]
    split <;> split <;> simp

theorem headParts_volume (info : HeadInfo) (b : Block) :
    volumes (headParts info [b]) ≤ (info.todo.getD []).length + (info.priority.getD []).length + (info.tags.map fun t => t.length + 1).sum + 21 + volume b ∧
    (headParts info [b]).length ≤ 5 := by
  obtain ⟨h1, h2⟩ := tagParts_volume info
  have h3 := volumes_joined (str [':']) (tagParts info)
  rw [volume_str] at h3
  simp only [List.length_cons, List.length_nil, Nat.zero_add, Nat.mul_one] at h3
  have ha : volumes (info.todo.toList.map str) = (info.todo.getD []).length := by
    cases info.todo <;> simp [volumes, volume_str]
  have hb : volumes (if info.comment then [str commentWord] else []) ≤ 7 := by
    split
    · simp [volumes, volume_str, commentWord]
    · simp [volumes]
  have hc : volumes (info.priority.toList.map fun p => str ("[#".toList ++ p ++ "]".toList)) ≤ (info.priority.getD []).length + 3 := by
    cases info.priority with
    | none => simp [volumes]
    | some p => simp [volumes, volume_str]
  have hd : volumes (if (tagParts info).isEmpty then [] else [.line [str [':'], .line (joined (str [':']) (tagParts info)), str [':']]])
      ≤ 4 + volumes (tagParts info) := by
    split
    · simp [volumes]
    · simp only [volumes, volume, volume_str, List.length_cons, List.length_nil]; omega
  constructor
  · unfold headParts
    simp only [volumes_append, volumes] at *
    omega
  · unfold headParts
    simp only [List.length_append, List.length_map]
    have e1 : info.todo.toList.length ≤ 1 := by cases info.todo <;> simp
    have e2 : info.priority.toList.length ≤ 1 := by cases info.priority <;> simp
    have e3 : (if info.comment then [str commentWord] else []).length ≤ 1 := by split <;> simp
    have e4 : (if (tagParts info).isEmpty then [] else [Block.line [str [':'], .line (joined (str [':']) (tagParts info)), str [':']]]).length ≤ 1 := by
      split <;> simp
    simp only [List.length_cons, List.length_nil] at *
    omega

mutual

theorem inline_volume (name : BK → List Char) (s : Sem) (h : Inline s) : volume (fmt name s) ≤ size s := by
  match s with
  | .leaf k t =>
    cases k
    case Newline =>
      have := volumes_added (List.replicate (t.length - 1) (str []))
      rw [volumes_replicate] at this
      simp only [fmt, stack, volume]; omega
    case Placeholder => simp [fmt, volume, volumes, volume_str, size]; omega
    case Escaped => simp [fmt, volume_str, size]
    case AtMention => simp [fmt, volume_str, size]
    all_goals simp [fmt, volume_str, size]
  | .tree k subs =>
    have h : mark k ≠ none ∧ AllInline subs := h
    have ih := inline_volumes name subs h.2
    cases k
    case Par => exact absurd rfl h.1
    case MarkQuote => exact absurd rfl h.1
    case Paragraph => exact absurd rfl h.1
    case StmtList => exact absurd rfl h.1
    case List => exact absurd rfl h.1
    all_goals
      simp only [fmt, volume, volumes, volume_str, List.cons_append, volumes_append, size, List.length_cons, List.length_nil]
      omega
  | .item .. => exact h.elim
  | .head .. => exact h.elim

theorem inline_volumes (name : BK → List Char) (ss : List Sem) (h : AllInline ss) : volumes (fmtAll name ss) ≤ sizes ss := by
  match ss with
  | [] => simp [fmtAll, volumes]
  | s :: ss =>
    have h1 := inline_volume name s h.1
    have h2 := inline_volumes name ss h.2
    simp only [fmtAll, volumes, sizes]
    omega

end

theorem bulletText_length (info : ItemInfo) : (bulletText info).length ≤ (info.bullet.getD []).length + 6 := by
  unfold bulletText
  cases info.bullet <;> cases info.box <;> simp

mutual

theorem outline_volume (name : BK → List Char) (s : Sem) (h : Outline s) : volume (fmt name s) ≤ size s := by
  match s with
  | .leaf k t =>
    cases k
    case Newline =>
      have := volumes_added (List.replicate (t.length - 1) (str []))
      rw [volumes_replicate] at this
      simp only [fmt, stack, volume]; omega
    all_goals exact inline_volume name _ (outline_leaf (by decide) h).1
  | .tree k subs =>
    cases k
    case Paragraph =>
      have h1 := volume_paragraph subs (fmtAll name subs)
      have h2 := inline_volumes name subs h
      simp only [fmt, size]; omega
    case List =>
      have h1 := volumes_added (fmtAll name subs)
      have h2 := outline_volumes name subs h
      simp only [fmt, size, stack, volume]; omega
    all_goals exact inline_volume name _ (outline_tree (by decide) (by decide) h).1
  | .item info header subs =>
    obtain ⟨hd, -, hs⟩ := h
    have h1 := volumes_added (fmtAll name subs)
    have h2 := outline_volumes name subs hs
    have h3 := bulletText_length info
    cases he : info.described with
    | false =>
      simp only [fmt, he, Bool.false_eq_true, if_false, size, stack, volume, volumes, volume_str]
      omega
    | true =>
      obtain ⟨-, k2, -, -⟩ := hd he
      have h4 := volume_paragraph header (fmtAll name header)
      have h5 := inline_volumes name header k2
      simp only [fmt, he, if_true, size, volume, volumes, volume_str]
      split
      · simp only [stack, volume, volumes]; omega
      · next first rest e =>
        have h6 := volumes_added (.line (added [paragraph header (fmtAll name header), str " :: ".toList, first]) :: str [] :: rest)
        have h7 := volumes_added [paragraph header (fmtAll name header), str " :: ".toList, first]
        have h8 : (" :: ".toList).length = 4 := rfl
        rw [e] at h2
        simp only [stack, volume, volumes, volume_str, List.length_nil] at *
        omega
  | .head info title subs =>
    obtain ⟨-, -, -, hne, hi, hn, hs⟩ := h
    have h1 := volumes_added (fmtAll name subs)
    have h2 := outline_volumes name subs hs
    have h3 := volume_paragraph title (fmtAll name title)
    have h4 := inline_volumes name title hi
    obtain ⟨h5, h6⟩ := headParts_volume info (paragraph title (fmtAll name title))
    have h7 := volumes_joined (str [' ']) (headParts info [paragraph title (fmtAll name title)])
    rw [volume_str] at h7
    simp only [List.length_cons, List.length_nil, Nat.zero_add, Nat.mul_one] at h7
    have h8 := volumes_added [.line (joined (str [' ']) (headParts info [paragraph title (fmtAll name title)]))]
    simp only [volumes, volume, Nat.add_zero] at h8
    have hts : title.isEmpty = false := by
      cases title with
      | nil => exact absurd rfl hne
      | cons => rfl
    simp only [fmt, hts, Bool.false_eq_true, if_false, size, stack, volume, volumes, volume_str, List.length_replicate, List.length_cons, List.length_nil]
    have h9 : volumes (if subs.isEmpty then [] else str [] :: added (fmtAll name subs)) ≤ volumes (fmtAll name subs) := by
      split
      · simp [volumes]
      · simp only [volumes, volume_str, List.length_nil]; omega
    omega

theorem outline_volumes (name : BK → List Char) (ss : List Sem) (h : AllOutline ss) : volumes (fmtAll name ss) ≤ sizes ss := by
  match ss with
  | [] => simp [fmtAll, volumes]
  | s :: ss =>
    have h1 := outline_volume name s h.1
    have h2 := outline_volumes name ss h.2
    simp only [fmtAll, volumes, sizes]
    omega

end

/-! ## Lines have no line breaks in them -/

mutual

theorem flat_nl (s : Sem) (h : Inline s) : '\n' ∉ flat s := by
  match s with
  | .leaf k t =>
    cases k
    case Newline => simp [flat]
    all_goals
      have h : '\n' ∉ t := h
      simp [flat, leafText, h]
  | .tree k subs =>
    have h : mark k ≠ none ∧ AllInline subs := h
    have ih := flats_nl subs h.2
    have hm : '\n' ∉ (mark k).toList := by cases k <;> simp [mark]
    simp only [flat, List.mem_append, not_or]
    exact ⟨⟨hm, ih⟩, hm⟩
  | .item .. => exact h.elim
  | .head .. => exact h.elim

theorem flats_nl (ss : List Sem) (h : AllInline ss) : '\n' ∉ flats ss := by
  match ss with
  | [] => simp [flats]
  | s :: ss =>
    simp only [flats, List.mem_append, not_or]
    exact ⟨flat_nl s h.1, flats_nl ss h.2⟩

end

theorem chunks_mem : ∀ (ss : List Sem) (c : List Sem), c ∈ chunks ss → ∀ s ∈ c, s ∈ ss
  | [], c, hc, s, hs => by simp [chunks] at hc; subst hc; simp at hs
  | t :: r, c, hc, s, hs => by
    have ih := chunks_mem r
    unfold chunks at hc
    split at hc
    · rcases List.mem_cons.mp hc with rfl | hc
      · simp at hs
      · exact List.mem_cons_of_mem _ (ih c hc s hs)
    · split at hc
      · simp at hc; subst hc; simp at hs; simp [hs]
      · next l ls e =>
        rcases List.mem_cons.mp hc with rfl | hc
        · rcases List.mem_cons.mp hs with rfl | hs
          · simp
          · exact List.mem_cons_of_mem _ (ih l (by simp [e]) s hs)
        · exact List.mem_cons_of_mem _ (ih c (by simp [e, hc]) s hs)

theorem parLines_nl (subs : List Sem) (h : AllInline subs) : ∀ l ∈ parLines subs, '\n' ∉ l := by
  intro l hl
  obtain ⟨c, hc, rfl⟩ := List.mem_map.mp hl
  have hc := (List.mem_filter.mp hc).1
  refine flats_nl c ?_
  rw [allInline_iff] at h ⊢
  exact fun s hs => h s (chunks_mem subs c hc s hs)

theorem sepBy_nl {c : Char} (sep : List Char) (h : c ∉ sep) (ts : List (List Char)) (hts : ∀ t ∈ ts, c ∉ t) : c ∉ sepBy sep ts := by
  induction ts with
  | nil => simp [sepBy]
  | cons t ts ih =>
    cases ts with
    | nil => simpa [sepBy] using hts
    | cons u us =>
      rw [sepBy_cons _ _ _ (by simp)]
      simp only [List.mem_append, not_or]
      exact ⟨⟨hts t (by simp), h⟩, ih (fun t ht => hts t (List.mem_cons_of_mem _ ht))⟩

theorem tagsText_nl (info : HeadInfo) (h : ∀ t ∈ info.tags, '\n' ∉ t) : ∀ t ∈ tagsText info, '\n' ∉ t := by
  have hh : ∀ t ∈ (if info.archived then [archiveTag] else []) ++ info.tags, '\n' ∉ t := by
    intro t ht
    rcases List.mem_append.mp ht with ht | ht
    · split at ht
      · simp at ht; subst ht; decide
      · simp at ht
    · exact h t ht
  unfold tagsText
  generalize (if info.archived then [archiveTag] else []) ++ info.tags = us at hh
  cases us with
  | nil => simp
  | cons u us =>
    intro t ht
    simp only [List.mem_singleton] at ht
    subst ht
    have := sepBy_nl [':'] (by decide) (u :: us) hh
    simp [this]

theorem hang_nl (p : List Char) (ls : List (List Char)) (hp : '\n' ∉ p) (h : ∀ l ∈ ls, '\n' ∉ l) : ∀ l ∈ hang p ls, '\n' ∉ l := by
  cases ls with
  | nil => simpa [hang] using hp
  | cons l r =>
    intro x hx
    simp only [hang, List.mem_cons, List.mem_map] at hx
    rcases hx with rfl | ⟨y, hy, rfl⟩
    · simp [hp, h l (by simp)]
    · simp [blanks, h y (by simp [hy])]

mutual

theorem lines_nl (s : Sem) (h : Outline s) : ∀ l ∈ lines s, '\n' ∉ l := by
  match s with
  | .leaf k t =>
    cases k
    case Newline =>
      intro l hl
      have := List.eq_of_mem_replicate hl
      simp [this]
    all_goals
      obtain ⟨h1, h2⟩ := outline_leaf (by decide) h
      rw [h2]
      simpa using flat_nl _ h1
  | .tree k subs =>
    cases k
    case Paragraph => exact parLines_nl subs h
    case List => exact linesAll_nl subs h
    all_goals
      obtain ⟨h1, h2⟩ := outline_tree (by decide) (by decide) h
      rw [h2]
      simpa using flat_nl _ h1
  | .item info header subs =>
    obtain ⟨hd, hb, hs⟩ := h
    have hp : '\n' ∉ bulletText info := by
      unfold bulletText
      cases hi : info.bullet with
      | none => cases info.box <;> simp
      | some b =>
        have := hb b (by simp [hi])
        cases info.box <;> simp [this]
    cases he : info.described with
    | false =>
      have e : lines (.item info header subs) = hang (bulletText info) (linesAll subs) := by
        cases subs <;> simp [lines, linesAll, he]
      rw [e]
      exact hang_nl _ _ hp (linesAll_nl subs hs)
    | true =>
      match subs with
      | [] => exact absurd rfl (hd he).2.2.2
      | s :: ss =>
        rw [lines, he]
        refine hang_nl _ _ hp ?_
        have h1 := hang_nl (flats header ++ " :: ".toList) (lines s) (by simpa using flats_nl header (hd he).2.1) (lines_nl s hs.1)
        have h2 := linesAll_nl ss hs.2
        intro l hl
        simp only [if_true, List.mem_append, List.mem_cons] at hl
        rcases hl with hl | rfl | hl
        · exact h1 l hl
        · simp
        · exact h2 l hl
  | .head info title subs =>
    obtain ⟨htodo, hprio, htags, hne, hi, hn, hs⟩ := h
    intro l hl
    simp only [lines, List.mem_cons] at hl
    rcases hl with rfl | hl
    · have : '\n' ∉ headLine info title := by
        refine sepBy_nl _ (by decide) _ ?_
        intro t ht
        simp only [List.mem_append, List.mem_map] at ht
        rcases ht with (((ht | ht) | ⟨p, hp, rfl⟩) | ht) | ht
        · exact htodo t (by simpa using ht)
        · split at ht
          · simp at ht; subst ht; decide
          · simp at ht
        · have := hprio p (by simpa using hp)
          simp [this]
        · simp at ht; subst ht; exact flats_nl title hi
        · exact tagsText_nl info htags t ht
      simp [this, List.mem_replicate]
    · split at hl
      · simp at hl
      · rcases List.mem_cons.mp hl with rfl | hl
        · simp
        · exact linesAll_nl subs hs l hl

theorem linesAll_nl (ss : List Sem) (h : AllOutline ss) : ∀ l ∈ linesAll ss, '\n' ∉ l := by
  match ss with
  | [] => simp [linesAll]
  | s :: ss =>
    intro l hl
    rcases List.mem_append.mp hl with hl | hl
    · exact lines_nl s h.1 l hl
    · exact linesAll_nl ss h.2 l hl

end

theorem splitLines_line (l : List Char) (h : '\n' ∉ l) : splitLines l = [l] := by
  induction l with
  | nil => rfl
  | cons c l ih =>
    simp only [List.mem_cons, not_or] at h
    rw [splitLines, if_neg (fun e => h.1 e.symm), ih h.2]

theorem splitLines_cons (l r : List Char) (h : '\n' ∉ l) : splitLines (l ++ '\n' :: r) = l :: splitLines r := by
  induction l with
  | nil => simp [splitLines]
  | cons c l ih =>
    simp only [List.mem_cons, not_or] at h
    rw [List.cons_append, splitLines, if_neg (fun e => h.1 e.symm), ih h.2]

theorem splitLines_join (ls : List (List Char)) (hne : ls ≠ []) (h : ∀ l ∈ ls, '\n' ∉ l) : splitLines (joinLines ls) = ls := by
  induction ls with
  | nil => exact absurd rfl hne
  | cons l r ih =>
    cases r with
    | nil => exact splitLines_line l (h l (by simp))
    | cons l' r' =>
      rw [joinLines_cons _ _ (by simp), splitLines_cons _ _ (h l (by simp)), ih (by simp) (fun l hl => h l (List.mem_cons_of_mem _ hl))]

theorem printed_box (ls : List (List Char)) (h : ∀ l ∈ ls, '\n' ∉ l) : printed (box ls) = textOf ls := by
  cases ls with
  | nil => rfl
  | cons l r =>
    show joinLines ((splitLines (joinLines (l :: r))).map stripEnd) = _
    rw [splitLines_join _ (by simp) h, textOf]

/-- The formatter writes the lines of the document. -/
theorem format_writes (o : Options Rat) (ho : Sane o) (name : BK → List Char) (subs : List Sem) (h : AllOutline subs)
    (hsize : sizes subs < 1000000000) (fuel : Nat) (hf : 4097 ≤ fuel) :
    format exact o fuel name subs = .ok (textOf (linesAll subs)) := by
  obtain ⟨ls, h1, h2⟩ := outline_fmtAll name subs h
  have h3 := h1.addedStack
  have h4 := outline_volumes name subs h
  have h5 := volumes_added (fmtAll name subs)
  rw [h2] at h3
  unfold format fmtDocument
  split
  · next e =>
    rw [e] at h3
    have hnil : linesAll subs = [] := h3.solid.mp rfl
    rw [hnil, toString_returns_partial o ho _ ?_ ?_ fuel hf]
    · simp [stack, picture, columnPicture, str, shownText, chars_str, aboveO, printed, joinLines, splitLines, textOf, stripEnd]
    · exact ⟨by decide, ⟨trivial, trivial⟩, by simp [str, picture]⟩
    · simp [stack, volume, volumes, volume_str]
  · rw [toString_returns_partial o ho _ h3.filled (by simp only [stack, volume]; omega) fuel hf, h3.shows,
      printed_box _ (linesAll_nl subs h)]

end Verif.Sem
