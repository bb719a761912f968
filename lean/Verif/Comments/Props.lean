import Verif.Comments.Lemmas

/-! # Fragments of source files – C161 to C164 -/

namespace Verif.Comments

/-! ### C161: which lines -/

/-- The fragments belong to the blocks of the lines. -/
theorem extract_blocks (text : List Char) (ps : List (List Char)) : ∃ ends, ends.Pairwise (fun x y => x.2 < y.1) ∧
    (∀ a b, (a, b) ∈ ends ↔ Block ps (getLines text) a b) ∧
    List.Forall₂ (fun x f => ∃ f', FragRaw ps (getLines text) x f' ∧ f = { f' with text := cleanLines ps true (getLines f'.text) }) ends (extract text ps) := by
  obtain ⟨ends, h1, h2, h3⟩ := collect_blocks ps (getLines text)
  refine ⟨ends, h1, h2, ?_⟩
  rw [extract, List.forall₂_map_right_iff]
  exact h3.imp fun x f h => ⟨f, h, rfl⟩

/-- C161: there is one fragment for each block of lines with comments, in the order of the lines, and its line and
column are those of the mark in the first line of the block. -/
theorem blocks (text : List Char) (ps : List (List Char)) : ∃ ls ends, IsLines text ls ∧ ends.Pairwise (fun x y => x.2 < y.1) ∧
    (∀ a b, (a, b) ∈ ends ↔ Block ps ls a b) ∧
    List.Forall₂ (fun x f => f.baseLine = x.1 ∧ ∃ l p, ls[x.1]? = some l ∧ Mark ps l f.baseCol p) ends (extract text ps) := by
  obtain ⟨ends, h1, h2, h3⟩ := extract_blocks text ps
  refine ⟨getLines text, ends, getLines_spec text, h1, h2, h3.imp ?_⟩
  rintro x f ⟨f', h, rfl⟩
  exact ⟨h.1, h.2.1⟩

/-- Every line with a comment is in a block. -/
theorem commented_in_block {ps ls : List (List Char)} {i : Nat} {l : List Char} (hl : ls[i]? = some l) (hc : Commented ps l) : ∃ a b, a ≤ i ∧ i < b ∧ Block ps ls a b := by
  obtain ⟨hi, _⟩ := List.getElem?_eq_some_iff.1 hl
  have down : ∀ n, n ≤ i → ∃ a, a ≤ i ∧ (∀ k, a ≤ k → k < i + 1 → ∃ l, ls[k]? = some l ∧ Commented ps l) ∧
      ((∀ k, k + 1 = a → ∃ l, ls[k]? = some l ∧ ¬ Commented ps l) ∨ a + n ≤ i) := by
    intro n
    induction n with
    | zero =>
      intro _
      refine ⟨i, Nat.le_refl _, ?_, .inr (by omega)⟩
      intro k h1 h2
      have : k = i := by omega
      subst this
      exact ⟨l, hl, hc⟩
    | succ n ih =>
      intro hn
      obtain ⟨a, h1, h2, h3⟩ := ih (by omega)
      rcases h3 with h3 | h3
      · exact ⟨a, h1, h2, .inl h3⟩
      · by_cases ha : a = 0
        · subst ha
          exact ⟨0, h1, h2, .inl (by omega)⟩
        · have hlt : a - 1 < ls.length := by omega
          by_cases hcc : Commented ps ls[a - 1]
          · refine ⟨a - 1, by omega, ?_, .inr (by omega)⟩
            intro k k1 k2
            by_cases hk : k = a - 1
            · subst hk
              exact ⟨_, List.getElem?_eq_getElem hlt, hcc⟩
            · exact h2 k (by omega) k2
          · refine ⟨a, h1, h2, .inl ?_⟩
            intro k hk
            have : k = a - 1 := by omega
            subst this
            exact ⟨_, List.getElem?_eq_getElem hlt, hcc⟩
  have up : ∀ n, i + n < ls.length → ∃ b, i < b ∧ b ≤ ls.length ∧ (∀ k, i ≤ k → k < b → ∃ l, ls[k]? = some l ∧ Commented ps l) ∧
      ((b < ls.length → ∃ l, ls[b]? = some l ∧ ¬ Commented ps l) ∨ i + n < b) := by
    intro n
    induction n with
    | zero =>
      intro _
      refine ⟨i + 1, by omega, hi, ?_, .inr (by omega)⟩
      intro k h1 h2
      have : k = i := by omega
      subst this
      exact ⟨l, hl, hc⟩
    | succ n ih =>
      intro hn
      obtain ⟨b, h0, h1, h2, h3⟩ := ih (by omega)
      rcases h3 with h3 | h3
      · exact ⟨b, h0, h1, h2, .inl h3⟩
      · by_cases hb : b = ls.length
        · exact ⟨b, h0, h1, h2, .inl (by omega)⟩
        · have hlt : b < ls.length := by omega
          by_cases hcc : Commented ps ls[b]
          · refine ⟨b + 1, by omega, hlt, ?_, .inr (by omega)⟩
            intro k k1 k2
            by_cases hk : k = b
            · subst hk
              exact ⟨_, List.getElem?_eq_getElem hlt, hcc⟩
            · exact h2 k k1 (by omega)
          · exact ⟨b, h0, h1, h2, .inl (fun _ => ⟨_, List.getElem?_eq_getElem hlt, hcc⟩)⟩
  obtain ⟨a, a1, a2, a3⟩ := down i (Nat.le_refl _)
  obtain ⟨b, b1, b2, b3, b4⟩ := up (ls.length - 1 - i) (by omega)
  refine ⟨a, b, a1, b1, by omega, b2, ?_, ?_, ?_⟩
  · intro k k1 k2
    by_cases hk : k < i + 1
    · exact a2 k k1 hk
    · exact b3 k (by omega) k2
  · rcases a3 with a3 | a3
    · exact a3
    · intro k hk
      omega
  · rcases b4 with b4 | b4
    · exact b4
    · intro h
      omega

/-- A source file with two blocks, with two kinds of comments. -/
def source : List Char := "int a; // * one\n  //two\n\nb # three\nc".toList

example : extract source ["//".toList, "#".toList] = [⟨0, 7, "* one\ntwo".toList⟩, ⟨3, 2, "three".toList⟩] := by decide +kernel

/-! ### C162: which text -/

/-- The text of the fragment is what the lines of its block say. -/
def TextOf (ps ls : List (List Char)) (x : Nat × Nat) (f : Frag) : Prop :=
  ∀ rs ts, List.Forall₂ (Raw ps) (part ls x.1 x.2) rs → List.Forall₂ LessSpace rs ts → f.text = glue ts

/-- C162: the text of a fragment is what stands after the marks of its lines. -/
def TextStatement : Prop := ∀ (text : List Char) (ps : List (List Char)) (ls : List (List Char)) (ends : List (Nat × Nat)), IsLines text ls →
  ends.Pairwise (fun x y => x.2 < y.1) → (∀ a b, (a, b) ∈ ends ↔ Block ps ls a b) → List.Forall₂ (TextOf ps ls) ends (extract text ps)

theorem less_map {rs ts : List (List Char)} (h : List.Forall₂ LessSpace rs ts) : ts = rs.map unspace := by
  induction h with
  | nil => rfl
  | cons h1 _ ih => rw [ih, List.map_cons, unspace_iff.1 h1]

theorem raw_unique {ps : List (List Char)} {l r r' : List Char} (h : Raw ps l r) (h' : Raw ps l r') : r = r' := by
  obtain ⟨i, p, h1, rfl⟩ := h
  obtain ⟨j, q, h2, rfl⟩ := h'
  obtain ⟨rfl, rfl⟩ := mark_unique h1 h2
  rfl

theorem raws_unique {ps : List (List Char)} : ∀ {ls rs rs' : List (List Char)}, List.Forall₂ (Raw ps) ls rs → List.Forall₂ (Raw ps) ls rs' → rs = rs'
  | _, _, _, .nil, .nil => rfl
  | _, _, _, .cons h1 h2, .cons k1 k2 => by rw [raw_unique h1 k1, raws_unique h2 k2]

theorem raws_lines {ps : List (List Char)} : ∀ {ls rs : List (List Char)}, List.Forall₂ (Raw ps) ls rs → (∀ l ∈ ls, '\n' ∉ l) → ∀ r ∈ rs, '\n' ∉ r
  | _, _, .nil, _ => by simp
  | _, _, .cons h1 h2, h => by
    intro r hr
    rcases List.mem_cons.1 hr with rfl | hr
    · exact raw_line h1 (h _ (by simp))
    · exact raws_lines h2 (fun l hl => h l (List.mem_cons_of_mem _ hl)) r hr

theorem part_mem {ls : List (List Char)} {a b : Nat} {l : List Char} (h : l ∈ part ls a b) : l ∈ ls := List.mem_of_mem_take (List.mem_of_mem_drop h)

/-- The text of the fragments before it is cleaned. -/
theorem texts {text : List Char} {ps : List (List Char)} : ∃ ends, ends.Pairwise (fun x y => x.2 < y.1) ∧
    (∀ a b, (a, b) ∈ ends ↔ Block ps (getLines text) a b) ∧
    List.Forall₂ (fun x f => x ∈ ends ∧ ∃ rs, rs ≠ [] ∧ List.Forall₂ (Raw ps) (part (getLines text) x.1 x.2) rs ∧ (∀ r ∈ rs, '\n' ∉ r) ∧
      f.text = cleanLines ps true (getLines (glue rs))) ends (extract text ps) := by
  obtain ⟨ends, h1, h2, h3⟩ := extract_blocks text ps
  refine ⟨ends, h1, h2, ?_⟩
  rw [List.forall₂_iff_get] at h3 ⊢
  refine ⟨h3.1, fun i hi hj => ?_⟩
  obtain ⟨f', h, hf⟩ := h3.2 i hi hj
  obtain ⟨rs, h4, h5⟩ := h.2.2
  have hin : ends.get ⟨i, hi⟩ ∈ ends := List.get_mem _ _
  have hb := (h2 _ _).1 hin
  refine ⟨hin, rs, ?_, h4, raws_lines h4 (fun l hl => (getLines_spec text).1 l (part_mem hl)), by rw [hf, h5]⟩
  rintro rfl
  have := h4.length_eq
  rw [part_length hb.le, List.length_nil] at this
  have := hb.lt
  omega

/-- C162, what holds: if the last line says something, or there is only one, and no later line starts with a
second mark, the text of the fragment is what its lines say. -/
theorem text_partial (text : List Char) (ps : List (List Char)) : ∃ ls ends, IsLines text ls ∧ ends.Pairwise (fun x y => x.2 < y.1) ∧
    (∀ a b, (a, b) ∈ ends ↔ Block ps ls a b) ∧
    List.Forall₂ (fun x f => ∀ rs ts, List.Forall₂ (Raw ps) (part ls x.1 x.2) rs → List.Forall₂ LessSpace rs ts →
      (∀ r ∈ rs.drop 1, ¬ Starts ps r) → (rs.getLast? ≠ some [] ∨ rs.length = 1) → f.text = glue ts) ends (extract text ps) := by
  obtain ⟨ends, h1, h2, h3⟩ := texts (text := text) (ps := ps)
  refine ⟨getLines text, ends, getLines_spec text, h1, h2, h3.imp ?_⟩
  rintro x f ⟨_, rs', hne, h4, h5, h6⟩ rs ts hr ht hst hlast
  have := raws_unique hr h4
  subst this
  rw [less_map ht, h6]
  cases rs with
  | nil => exact absurd rfl hne
  | cons r rs =>
    by_cases hl : (r :: rs).getLast? ≠ some []
    · rw [lines_glue h5 hl, clean_first (by simpa using hst)]
    · rcases hlast with hlast | hlast
      · exact absurd hlast hl
      · have hrs : rs = [] := by simpa using hlast
        subst hrs
        have hr0 : r = [] := by simpa using hl
        subst hr0
        simp [glue, getLines_nil, cleanLines, unspace]

/-- C162, what does not hold: an empty comment at the end of a block is lost, whatever the lines before it say. -/
theorem empty_lost (text : List Char) (ps : List (List Char)) : ∃ ls ends, IsLines text ls ∧ ends.Pairwise (fun x y => x.2 < y.1) ∧
    (∀ a b, (a, b) ∈ ends ↔ Block ps ls a b) ∧
    List.Forall₂ (fun x f => ∀ rs ts, List.Forall₂ (Raw ps) (part ls x.1 x.2) (rs ++ [[]]) → List.Forall₂ LessSpace rs ts →
      (∀ r ∈ rs.drop 1, ¬ Starts ps r) → f.text = glue ts) ends (extract text ps) := by
  obtain ⟨ends, h1, h2, h3⟩ := texts (text := text) (ps := ps)
  refine ⟨getLines text, ends, getLines_spec text, h1, h2, h3.imp ?_⟩
  rintro x f ⟨_, rs', _, h4, h5, h6⟩ rs ts hr ht hst
  have := raws_unique hr h4
  subst this
  rw [less_map ht, h6, lines_glue_empty (fun r hr => h5 r (by simp [hr]))]
  cases rs with
  | nil => rfl
  | cons r rs => rw [clean_first (by simpa using hst)]

/-- A paragraph that ends with an empty comment, and a comment in a comment. -/
example : extract "// a\n//\nb".toList ["//".toList] = [⟨0, 0, "a".toList⟩] ∧
    extract "// a\n// // b\n".toList ["//".toList] = [⟨0, 0, "a\nb".toList⟩] := by decide +kernel

theorem lines_example : getLines "// a\n//\nb".toList = ["// a".toList, "//".toList, "b".toList] := by decide +kernel

theorem commented_iff {ps : List (List Char)} {l : List Char} : Commented ps l ↔ (search l none ps).isSome := by
  cases h : search l none ps with
  | none => simpa using search_none h
  | some x => simpa using mark_commented (search_some h)

theorem text_false : ¬ TextStatement := by
  intro hs
  obtain ⟨ends, h1, h2, h3⟩ := texts (text := "// a\n//\nb".toList) (ps := ["//".toList])
  have hst := hs _ _ _ ends (getLines_spec "// a\n//\nb".toList) h1 h2
  have he : extract "// a\n//\nb".toList ["//".toList] = [⟨0, 0, "a".toList⟩] := by decide +kernel
  rw [he] at h3 hst
  cases h3 with
  | @cons x _ l _ h4 h5 =>
    cases hst with
    | cons k1 _ =>
    obtain ⟨hin, rs, _, h6, _, _⟩ := h4
    have hb := (h2 x.1 x.2).1 hin
    have hall := hb.all
    have hlt := hb.lt
    have hle := hb.le
    rw [lines_example] at hle
    have hno : ∀ i, x.1 ≤ i → i < x.2 → i ≠ 2 := by
      rintro i k1 k2 rfl
      obtain ⟨l, k3, k4⟩ := hall 2 k1 k2
      rw [lines_example] at k3
      cases k3
      rw [commented_iff] at k4
      exact absurd k4 (by decide +kernel)
    have hx2 : x.2 = 2 := by
      rcases Nat.lt_trichotomy x.2 2 with hl | he | hg
      · obtain ⟨l, k3, k4⟩ := hb.after (by rw [lines_example]; simp; omega)
        rw [lines_example] at k3
        have : x.2 = 1 := by omega
        rw [this] at k3
        cases k3
        rw [commented_iff] at k4
        exact absurd (by decide +kernel) k4
      · exact he
      · have : x.2 = 3 := by
          have : x.2 ≤ 3 := by simpa using hle
          omega
        exact absurd rfl (hno 2 (by omega) (by omega))
    have hx1 : x.1 = 0 := by
      rcases Nat.eq_zero_or_pos x.1 with h | h
      · exact h
      · obtain ⟨l, k3, k4⟩ := hb.before 0 (by omega)
        rw [lines_example] at k3
        cases k3
        rw [commented_iff] at k4
        exact absurd (by decide +kernel) k4
    have hraw : List.Forall₂ (Raw ["//".toList]) (part (getLines "// a\n//\nb".toList) x.1 x.2) [" a".toList, []] := by
      rw [hx1, hx2, lines_example]
      refine .cons ⟨0, "//".toList, search_some (by decide +kernel), by decide +kernel⟩ (.cons ⟨0, "//".toList, search_some (by decide +kernel), by decide +kernel⟩ .nil)
    have := k1 [" a".toList, []] ["a".toList, []] hraw (.cons (unspace_iff.2 (by decide +kernel)) (.cons (unspace_iff.2 rfl) .nil))
    exact absurd this (by decide +kernel)

/-! ### C163: where the text is -/

/-- C163: the text of a fragment is in the file at its line and column. -/
def PositionStatement : Prop := ∀ (text : List Char) (ps : List (List Char)), ∀ f ∈ extract text ps,
  ∃ l first rest, (getLines text)[f.baseLine]? = some l ∧ f.text = first ++ rest ∧ (rest = [] ∨ ∃ r, rest = '\n' :: r) ∧ '\n' ∉ first ∧ first <+: l.drop f.baseCol

/-- C163, what holds: the first line of the text is in the line of the fragment, after the mark and at most one
space. -/
theorem position_partial (text : List Char) (ps : List (List Char)) : ∀ f ∈ extract text ps,
    ∃ ls l p k rest, IsLines text ls ∧ ls[f.baseLine]? = some l ∧ Mark ps l f.baseCol p ∧ k ≤ 1 ∧
      f.text = l.drop (f.baseCol + p.length + k) ++ rest ∧ (rest = [] ∨ ∃ r, rest = '\n' :: r) := by
  obtain ⟨ends, h1, h2, h3⟩ := extract_blocks text ps
  intro f hf
  obtain ⟨i, hi, rfl⟩ := List.mem_iff_getElem.1 hf
  rw [List.forall₂_iff_get] at h3
  have hi' : i < ends.length := by rw [h3.1]; exact hi
  obtain ⟨f', ⟨k1, ⟨l, p, k2, k3⟩, rs, k4, k5⟩, k6⟩ := h3.2 i hi' hi
  have hb := (h2 _ _).1 (List.get_mem ends ⟨i, hi'⟩)
  simp only [List.get_eq_getElem] at k1 k2 k4 k6 hb
  rw [k6]
  have hpart : part (getLines text) ends[i].1 ends[i].2 = l :: part (getLines text) (ends[i].1 + 1) ends[i].2 := by
    have hlt := hb.lt
    obtain ⟨hlen, rfl⟩ := List.getElem?_eq_some_iff.1 k2
    rw [part, part, List.drop_eq_getElem_cons (by rw [List.length_take]; omega), List.getElem_take]
  rw [hpart] at k4
  cases k4 with
  | @cons _ r _ rs' hr hrs =>
  have hr0 : r = l.drop (f'.baseCol + p.length) := raw_unique hr ⟨_, _, k3, rfl⟩
  have hrest : ∃ rest, cleanLines ps true (getLines f'.text) = unspace r ++ rest ∧ (rest = [] ∨ ∃ u, rest = '\n' :: u) := by
    have hnl : '\n' ∉ r := raw_line hr ((getLines_spec text).1 l (List.mem_of_getElem? k2))
    rw [k5]
    cases rs' with
    | nil =>
      by_cases hr' : r = []
      · subst hr'
        exact ⟨[], by simp [glue, getLines_nil, cleanLines, unspace], .inl rfl⟩
      · exact ⟨[], by show cleanLines ps true (getLines r) = _; rw [getLines_last r hnl hr']; rfl, .inl rfl⟩
    | cons b rs' =>
      refine ⟨cleanLines ps false (getLines (glue (b :: rs'))), ?_, ?_⟩
      · show cleanLines ps true (getLines (r ++ '\n' :: glue (b :: rs'))) = _
        rw [getLines_end r _ hnl]
        rfl
      · cases getLines (glue (b :: rs')) with
        | nil => exact .inl rfl
        | cons y ys => exact .inr ⟨_, rfl⟩
  obtain ⟨rest, q1, q2⟩ := hrest
  have hsp : unspace r = r ∨ unspace r = r.drop 1 := by
    rcases unspace_iff.2 (rfl : unspace r = unspace r) with h | ⟨h, _⟩
    · right
      conv_rhs => rw [h]
      rfl
    · left
      exact h.symm
  rcases hsp with hsp | hsp
  · refine ⟨getLines text, l, p, 0, rest, getLines_spec text, ?_, k3, by omega, ?_, q2⟩
    · show (getLines text)[f'.baseLine]? = _
      rw [k1]
      exact k2
    · show cleanLines ps true (getLines f'.text) = _
      rw [q1, hsp, hr0]
      rfl
  · refine ⟨getLines text, l, p, 1, rest, getLines_spec text, ?_, k3, by omega, ?_, q2⟩
    · show (getLines text)[f'.baseLine]? = _
      rw [k1]
      exact k2
    · show cleanLines ps true (getLines f'.text) = _
      rw [q1, hsp, hr0, List.drop_drop]

theorem position_false : ¬ PositionStatement := by
  intro hs
  obtain ⟨l, first, rest, h1, h2, h3, _, h4⟩ := hs "// a".toList ["//".toList] ⟨0, 0, "a".toList⟩ (by decide +kernel)
  have hl : l = "// a".toList := by
    have : (getLines "// a".toList)[0]? = some "// a".toList := by decide +kernel
    rw [this] at h1
    exact (Option.some.inj h1).symm
  subst hl
  have hf : first = ['a'] := by
    rcases h3 with rfl | ⟨r, rfl⟩
    · rw [List.append_nil] at h2
      exact h2.symm
    · have : '\n' ∈ ['a'] := by
        have h5 : (['a'] : List Char) = first ++ '\n' :: r := h2
        rw [h5]
        simp
      exact absurd this (by decide)
  subst hf
  exact absurd h4 (by decide +kernel)

/-! ### C164: documents of fragments -/

/-- C164: parsing gives one part for each fragment. -/
def DocumentStatement : Prop := ∀ (D : Type) (parse : List Char → Except Err D) (text : List Char) (ps : List (List Char)),
  (∀ s, ∃ d, parse s = .ok d) → ∃ ds, parseFragments parse (extract text ps) = .ok ds ∧
    List.Forall₂ (fun f d => d.baseLine = f.baseLine ∧ d.baseCol = f.baseCol ∧ parse f.text = .ok d.subnodes) (extract text ps) ds

theorem parseAll_ok {D : Type} {parse : List Char → Except Err D} : ∀ {fs : List Frag}, (∀ f ∈ fs, ∃ d, parse f.text = .ok d) →
    ∃ ds, parseAll parse fs = .ok ds ∧ List.Forall₂ (fun f d => d.baseLine = f.baseLine ∧ d.baseCol = f.baseCol ∧ parse f.text = .ok d.subnodes) fs ds
  | [], _ => ⟨[], rfl, .nil⟩
  | f :: fs, h => by
    obtain ⟨d, h1⟩ := h f (by simp)
    obtain ⟨ds, h2, h3⟩ := parseAll_ok (fun x hx => h x (List.mem_cons_of_mem _ hx))
    refine ⟨⟨f.baseLine, f.baseCol, d⟩ :: ds, ?_, .cons ⟨rfl, rfl, h1⟩ h3⟩
    rw [parseAll, h1]
    show (parseAll parse fs).bind _ = _
    rw [h2]
    rfl

/-- C164, what holds: for a text with a comment that can be parsed. -/
theorem document_partial {D : Type} {parse : List Char → Except Err D} {text : List Char} {ps : List (List Char)}
    (hc : ∃ l ∈ getLines text, Commented ps l) (hp : ∀ f ∈ extract text ps, ∃ d, parse f.text = .ok d) :
    ∃ ds, parseFragments parse (extract text ps) = .ok ds ∧
      List.Forall₂ (fun f d => d.baseLine = f.baseLine ∧ d.baseCol = f.baseCol ∧ parse f.text = .ok d.subnodes) (extract text ps) ds := by
  obtain ⟨ds, h1, h2⟩ := parseAll_ok hp
  refine ⟨ds, ?_, h2⟩
  rw [parseFragments, h1]
  show (if ds.isEmpty then _ else _) = _
  rw [if_neg]
  intro hemp
  obtain ⟨ends, _, h4, h5⟩ := extract_blocks text ps
  obtain ⟨l, hl, hcl⟩ := hc
  obtain ⟨i, hi⟩ := List.mem_iff_getElem?.1 hl
  obtain ⟨a, b, _, _, hb⟩ := commented_in_block hi hcl
  have hmem := (h4 a b).2 hb
  have e1 := h5.length_eq
  have e2 := h2.length_eq
  rw [List.isEmpty_iff.1 hemp] at e2
  rw [e2, List.length_nil, List.length_eq_zero_iff] at e1
  rw [e1] at hmem
  cases hmem

/-- C164, what does not hold: a text without comments gives undefined behaviour. -/
theorem no_comments {D : Type} (parse : List Char → Except Err D) {text : List Char} {ps : List (List Char)} (hc : ∀ l ∈ getLines text, ¬ Commented ps l) :
    parseFragments parse (extract text ps) = .error .undefined := by
  obtain ⟨ends, _, h4, h5⟩ := extract_blocks text ps
  have : ends = [] := by
    rw [List.eq_nil_iff_forall_not_mem]
    rintro ⟨a, b⟩ hm
    have hb := (h4 a b).1 hm
    obtain ⟨l, h6, h7⟩ := hb.all a (Nat.le_refl _) hb.lt
    exact hc l (List.mem_of_getElem? h6) h7
  subst this
  cases h : extract text ps with
  | nil => rfl
  | cons x xs =>
    rw [h] at h5
    cases h5

theorem document_false : ¬ DocumentStatement := by
  intro hs
  obtain ⟨ds, h, _⟩ := hs Unit (fun _ => .ok ()) [] [] (fun _ => ⟨(), rfl⟩)
  rw [no_comments _ (by rw [getLines_nil]; simp)] at h
  cases h

example : ∃ l ∈ getLines source, Commented ["//".toList, "#".toList] l :=
  ⟨"  //two".toList, by decide +kernel, commented_iff.2 (by decide +kernel)⟩

end Verif.Comments
