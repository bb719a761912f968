import Verif.Eval.Model

/-!
# Slicing JSON values
-/

namespace Verif.Eval

open Verif.Serde (Json)

/-! ## What slicing should do -/

/-- a position in a vector of the given length, counted from the end when negative -/
def position (n : Nat) (i : Int) : Option Nat :=
  let j := if i < 0 then n + i else i
  if 0 ≤ j ∧ j < n then some j.toNat else none

/-- the first and the last position of a span; one position when there is no last one -/
def range? (n : Nat) (s : Span) : Option (Nat × Nat) :=
  match position n s.first, (match s.last with | some l => position n l | none => position n s.first) with
  | some f, some l => if f ≤ l then some (f, l) else none
  | _, _ => none

/-- the ranges of the spans, one dimension after the other -/
def ranges : List Nat → List Span → Option (List (Nat × Nat))
  | _, [] => some []
  | [], _ :: _ => none
  | n :: ns, s :: ss =>
    match range? n s, ranges ns ss with
    | some r, some rs => some (r :: rs)
    | _, _ => none

/-- the part of nested arrays given by the ranges -/
def pick : List (Nat × Nat) → Json → Option Json
  | [], v => some v
  | (f, l) :: rs, .arr xs => if l < xs.length then (((xs.drop f).take (l + 1 - f)).mapM (pick rs)).map .arr else none
  | _ :: _, _ => none

/-- arrays nested to the given depth, all of one depth with the same length -/
def Rect : List Nat → Json → Prop
  | [], _ => True
  | n :: ns, v => ∃ l, v = .arr l ∧ l.length = n ∧ ∀ x ∈ l, Rect ns x

/-- is the value an array -/
def isArray : Json → Bool
  | .arr _ => true
  | _ => false

/-! ## Proofs -/

/-- the positions of a range -/
def idxs (r : Nat × Nat) : List Nat := (List.range (r.2 + 1 - r.1)).map (r.1 + ·)

theorem indices_eq (n : Nat) (s : Span) :
    indices n s = match range? n s with
      | some r => .ok (idxs r)
      | none => if (position n s.first).isNone then .error .firstOutOfRange else .error .lastOutOfRange := by
  unfold indices range? position
  simp only
  generalize hj : (if s.first < 0 then (n : Int) + s.first else s.first) = j
  by_cases h1 : j < 0 ∨ (n : Int) ≤ j
  · rw [if_pos h1]
    have : ¬ (0 ≤ j ∧ j < n) := by omega
    simp [this]
  · rw [if_neg h1]
    have h2 : 0 ≤ j ∧ j < n := by omega
    rw [if_pos h2]
    cases hl : s.last with
    | none =>
      simp only
      have h3 : ¬ j < 0 := by omega
      rw [if_neg h3]
      have h4 : ¬ (j < 0 ∨ (n : Int) ≤ j ∨ j < j) := by omega
      rw [if_neg h4]
      simp only [Nat.le_refl, if_true, idxs]
      congr 2
      congr 1
      omega
    | some l =>
      simp only
      generalize hk : (if l < 0 then (n : Int) + l else l) = k
      by_cases h5 : 0 ≤ k ∧ k < n
      · rw [if_pos h5]
        simp only
        by_cases h6 : j.toNat ≤ k.toNat
        · have h4 : ¬ (k < 0 ∨ (n : Int) ≤ k ∨ k < j) := by omega
          rw [if_pos h6, if_neg h4]
          simp only [idxs]
          congr 2
          congr 1
          omega
        · have h4 : (k < 0 ∨ (n : Int) ≤ k ∨ k < j) := by omega
          rw [if_neg h6, if_pos h4]
          simp
      · have h4 : (k < 0 ∨ (n : Int) ≤ k ∨ k < j) := by omega
        rw [if_neg h5, if_pos h4]
        simp

theorem range?_le {n : Nat} {s : Span} {r : Nat × Nat} (h : range? n s = some r) : r.1 ≤ r.2 ∧ r.2 < n := by
  unfold range? at h
  split at h
  · rename_i f l hf hl
    split at h
    · rename_i hle
      injection h with h
      subst h
      refine ⟨hle, ?_⟩
      have : ∀ i, position n i = some l → l < n := by
        intro i hi
        unfold position at hi
        simp only at hi
        generalize (if i < 0 then (n : Int) + i else i) = j at hi
        by_cases hj : 0 ≤ j ∧ j < n
        · rw [if_pos hj] at hi; injection hi with hi; omega
        · rw [if_neg hj] at hi; cases hi
      split at hl
      · exact this _ hl
      · exact this _ hl
    · cases h
  · cases h

theorem allIndices_ok {ns : List Nat} {ss : List Span} {is : List (List Nat)} (h : allIndices ns ss = .ok is) :
    ∃ rs, ranges ns ss = some rs ∧ is = rs.map idxs := by
  induction ss generalizing ns is with
  | nil => rw [allIndices] at h; injection h with h; exact ⟨[], by rw [ranges], by simp [← h]⟩
  | cons s ss ih =>
    cases ns with
    | nil => rw [allIndices] at h; cases h
    | cons n ns =>
      rw [allIndices, indices_eq] at h
      cases hr : range? n s with
      | none =>
        rw [hr] at h
        simp only at h
        by_cases hp : (position n s.first).isNone = true
        · rw [if_pos hp] at h; cases h
        · rw [if_neg hp] at h; cases h
      | some r =>
        rw [hr] at h
        simp only at h
        split at h
        · cases h
        · rename_i ls hls
          injection h with h
          obtain ⟨rs, h1, h2⟩ := ih hls
          exact ⟨r :: rs, by rw [ranges, hr, h1], by rw [← h, h2]; rfl⟩

theorem allIndices_error {ns : List Nat} {ss : List Span} {e : SErr} (h : allIndices ns ss = .error e) :
    ranges ns ss = none ∧ (e = .tooManySpans ∨ e = .firstOutOfRange ∨ e = .lastOutOfRange) := by
  induction ss generalizing ns with
  | nil => rw [allIndices] at h; cases h
  | cons s ss ih =>
    cases ns with
    | nil => rw [allIndices] at h; injection h with h; exact ⟨by rw [ranges], .inl h.symm⟩
    | cons n ns =>
      rw [allIndices, indices_eq] at h
      cases hr : range? n s with
      | none =>
        rw [hr] at h
        simp only at h
        refine ⟨by rw [ranges, hr], ?_⟩
        by_cases hp : (position n s.first).isNone = true
        · rw [if_pos hp] at h; injection h with h; exact .inr (.inl h.symm)
        · rw [if_neg hp] at h; injection h with h; exact .inr (.inr h.symm)
      | some r =>
        rw [hr] at h
        simp only at h
        split at h
        · rename_i e' he
          injection h with h
          subst h
          obtain ⟨h1, h2⟩ := ih he
          exact ⟨by rw [ranges, hr, h1], h2⟩
        · cases h

theorem walk_snoc (v : Json) (p : List Nat) (i : Nat) :
    walk v (p ++ [i]) = match walk v p with | .ok w => walk w [i] | .error e => .error e := by
  induction p generalizing v with
  | nil => rw [List.nil_append]; rw [walk.eq_def v []]
  | cons j p ih =>
    cases v with
    | arr l =>
      rw [List.cons_append, walk, walk]
      cases l[j]? with
      | none => rfl
      | some x => exact ih x
    | _ => rfl

/-- indexing outside of the arrays or into something else -/
def Bad (e : SErr) : Prop := e = .undef ∨ e = .typeError

theorem walk_bad {v : Json} {p : List Nat} {e : SErr} (h : walk v p = .error e) : Bad e := by
  induction p generalizing v with
  | nil => rw [walk] at h; cases h
  | cons i p ih =>
    cases v with
    | arr l =>
      rw [walk] at h
      split at h
      · exact ih h
      · injection h with h; exact .inl h.symm
    | _ => rw [walk] at h <;> first | (injection h with h; exact .inr h.symm) | simp

theorem sliceRec_lost (input : Json) (is : List (List Nat)) (hne : ∀ l ∈ is, l ≠ []) {p : List Nat} {e : SErr}
    (h : walk input p = .error e) : ∃ e', sliceRec input is p = .error e' ∧ Bad e' := by
  induction is generalizing p e with
  | nil => exact ⟨e, by rw [sliceRec, h], walk_bad h⟩
  | cons l rest ih =>
    cases l with
    | nil => exact absurd rfl (hne [] (by simp))
    | cons i is =>
      have hw : walk input (p ++ [i]) = .error e := by rw [walk_snoc, h]
      obtain ⟨e', h1, h2⟩ := ih (fun l hl => hne l (by simp [hl])) hw
      exact ⟨e', by rw [sliceRec, sliceIdx, h1], h2⟩

/-- the part a run gives, or a bad index -/
def Gives (r : Except SErr Json) (o : Option Json) : Prop :=
  match r, o with
  | .ok a, some b => a = b
  | .error e, none => Bad e
  | _, _ => False

theorem idxs_ne {r : Nat × Nat} (h : r.1 ≤ r.2) : idxs r ≠ [] := by
  unfold idxs
  have : r.2 + 1 - r.1 ≠ 0 := by omega
  simp [this]

theorem sliceIdx_gives (input : Json) (rest : List (List Nat)) (path : List Nat) (g : Nat → Option Json) (is : List Nat)
    (h : ∀ i ∈ is, Gives (sliceRec input rest (path ++ [i])) (g i)) :
    (∃ l, sliceIdx input rest path is = .ok l ∧ is.mapM g = some l) ∨
      ∃ e, sliceIdx input rest path is = .error e ∧ Bad e ∧ is.mapM g = none := by
  induction is with
  | nil => exact .inl ⟨[], by rw [sliceIdx], rfl⟩
  | cons i is ih =>
    have hi := h i (by simp)
    rw [sliceIdx]
    cases hr : sliceRec input rest (path ++ [i]) with
    | error e =>
      rw [hr] at hi
      cases hg : g i with
      | some b => rw [hg] at hi; exact hi.elim
      | none =>
        rw [hg] at hi
        exact .inr ⟨e, rfl, hi, by rw [List.mapM_cons, hg]; rfl⟩
    | ok a =>
      rw [hr] at hi
      cases hg : g i with
      | none => rw [hg] at hi; exact hi.elim
      | some b =>
        rw [hg] at hi
        have hab : a = b := hi
        subst hab
        rcases ih (fun j hj => h j (by simp [hj])) with ⟨l, h1, h2⟩ | ⟨e, h1, h2, h3⟩
        · exact .inl ⟨a :: l, by rw [h1], by rw [List.mapM_cons, hg, h2]; rfl⟩
        · exact .inr ⟨e, by rw [h1], h2, by rw [List.mapM_cons, hg, h3]; rfl⟩

theorem mapM_range (g : Json → Option Json) (xs : List Json) (c f : Nat) (h : f + c ≤ xs.length) :
    ((List.range c).map (f + ·)).mapM (fun i => xs[i]?.bind g) = ((xs.drop f).take c).mapM g := by
  induction c generalizing f with
  | zero => simp
  | succ c ih =>
    have hlt : f < xs.length := by omega
    rw [List.range_succ_eq_map, List.drop_eq_getElem_cons hlt, List.take_succ_cons]
    rw [List.map_cons, List.mapM_cons, List.mapM_cons]
    have h0 : xs[f + 0]? = some xs[f] := by rw [Nat.add_zero]; exact List.getElem?_eq_getElem hlt
    rw [h0]
    have := ih (f + 1) (by omega)
    have he : List.map (f + ·) (List.map Nat.succ (List.range c)) = (List.range c).map (f + 1 + ·) := by
      rw [List.map_map]
      apply List.map_congr_left
      intro a _
      simp only [Function.comp]
      omega
    rw [he, this]
    rfl

theorem mapM_range_none (g : Json → Option Json) (xs : List Json) (c f : Nat) (hc : 0 < c) (h : ¬ f + c ≤ xs.length) :
    ((List.range c).map (f + ·)).mapM (fun i => xs[i]?.bind g) = none := by
  have hmem : f + (c - 1) ∈ (List.range c).map (f + ·) :=
    List.mem_map.2 ⟨c - 1, List.mem_range.2 (by omega), rfl⟩
  have hnone : xs[f + (c - 1)]?.bind g = none := by
    rw [List.getElem?_eq_none (by omega)]; rfl
  generalize (List.range c).map (f + ·) = l at hmem
  generalize f + (c - 1) = k at hmem hnone
  induction l with
  | nil => cases hmem
  | cons a l ih =>
    rw [List.mapM_cons]
    rcases List.mem_cons.1 hmem with rfl | hm
    · rw [hnone]; rfl
    · rw [ih hm]
      cases xs[a]?.bind g <;> rfl

theorem sliceRec_gives (input : Json) (rs : List (Nat × Nat)) (hrs : ∀ r ∈ rs, r.1 ≤ r.2) {p : List Nat} {v : Json}
    (h : walk input p = .ok v) : Gives (sliceRec input (rs.map idxs) p) (pick rs v) := by
  induction rs generalizing p v with
  | nil => rw [List.map_nil, sliceRec, h, pick]; rfl
  | cons r rs ih =>
    obtain ⟨f, l⟩ := r
    have hr := hrs (f, l) (by simp)
    have hrs' : ∀ r ∈ rs, r.1 ≤ r.2 := fun r hr => hrs r (by simp [hr])
    have hne : ∀ l ∈ rs.map idxs, l ≠ [] := by
      intro l hl
      obtain ⟨r, h1, rfl⟩ := List.mem_map.1 hl
      exact idxs_ne (hrs' r h1)
    rw [List.map_cons, sliceRec]
    have lost : (∀ i, ∃ e, walk v [i] = .error e) → Gives (match sliceIdx input (List.map idxs rs) p (idxs (f, l)) with
        | .error e => .error e
        | .ok l => .ok (.arr l)) none := by
      intro hv
      have hn := idxs_ne hr
      cases hi : idxs (f, l) with
      | nil => exact absurd hi hn
      | cons i is =>
        obtain ⟨e, he⟩ := hv i
        have hw : walk input (p ++ [i]) = .error e := by rw [walk_snoc, h]; exact he
        obtain ⟨e', h1, h2⟩ := sliceRec_lost input (rs.map idxs) hne hw
        rw [sliceIdx, h1]
        exact h2
    cases v with
    | arr xs =>
      rw [pick]
      have hall : ∀ i ∈ idxs (f, l), Gives (sliceRec input (rs.map idxs) (p ++ [i])) (xs[i]?.bind (pick rs)) := by
        intro i _
        have hw : walk input (p ++ [i]) = walk (.arr xs) [i] := by rw [walk_snoc, h]
        cases hx : xs[i]? with
        | some x =>
          apply ih hrs'
          rw [hw, walk, hx]
          rfl
        | none =>
          obtain ⟨e', h1, h2⟩ := sliceRec_lost input (rs.map idxs) hne (p := p ++ [i]) (e := .undef) (by
            rw [hw, walk, hx])
          rw [h1]
          exact h2
      by_cases hlt : l < xs.length
      · rw [if_pos hlt]
        have hm := mapM_range (pick rs) xs (l + 1 - f) f (by omega)
        rcases sliceIdx_gives input (rs.map idxs) p _ _ hall with ⟨w, h1, h2⟩ | ⟨e, h1, h2, h3⟩
        · rw [h1]
          have : (((xs.drop f).take (l + 1 - f)).mapM (pick rs)) = some w := by rw [← hm]; exact h2
          rw [this]; rfl
        · rw [h1]
          have : (((xs.drop f).take (l + 1 - f)).mapM (pick rs)) = none := by rw [← hm]; exact h3
          rw [this]; exact h2
      · rw [if_neg hlt]
        have hm := mapM_range_none (pick rs) xs (l + 1 - f) f (by simp only at hr; omega) (by simp only at hr; omega)
        rcases sliceIdx_gives input (rs.map idxs) p _ _ hall with ⟨w, h1, h2⟩ | ⟨e, h1, h2, h3⟩
        · have : (idxs (f, l)).mapM (fun i => xs[i]?.bind (pick rs)) = none := hm
          rw [this] at h2; cases h2
        · rw [h1]; exact h2
    | _ =>
      rw [pick]
      · exact lost (fun i => ⟨.typeError, by rw [walk]; simp⟩)
      · simp

theorem ranges_le {ns : List Nat} {ss : List Span} {rs : List (Nat × Nat)} (h : ranges ns ss = some rs) :
    ∀ r ∈ rs, r.1 ≤ r.2 := by
  induction ss generalizing ns rs with
  | nil => rw [ranges] at h; injection h with h; subst h; simp
  | cons s ss ih =>
    cases ns with
    | nil => rw [ranges] at h; cases h
    | cons n ns =>
      rw [ranges] at h
      split at h
      · rename_i r rs' h1 h2
        injection h with h
        subst h
        intro q hq
        rcases List.mem_cons.1 hq with rfl | hq
        · exact (range?_le h1).1
        · exact ih h2 q hq
      · cases h

theorem ranges_none_of_long {ns : List Nat} {ss : List Span} (h : ns.length < ss.length) : ranges ns ss = none := by
  induction ss generalizing ns with
  | nil => simp at h
  | cons s ss ih =>
    cases ns with
    | nil => rw [ranges]
    | cons n ns =>
      rw [ranges, ih (by simpa using h)]
      cases range? n s <;> rfl

/-! ## The property -/

/-- **C112** whatever the JSON value and the spans: when `sliceJson` gives a value, it is the part of the array that
the spans give, where the lengths of the dimensions are those along the first elements -/
theorem slice_sound (input : Json) (spans : List Span) (r : Json) :
    sliceJson input spans = .ok r ↔
      isArray input = true ∧ ∃ rs, ranges (dims input) spans = some rs ∧ pick rs input = some r := by
  cases input with
  | arr l =>
    simp only [sliceJson, isArray, true_and]
    by_cases h0 : spans.isEmpty = true
    · have : spans = [] := by simpa using h0
      subst this
      simp [ranges, pick]
    · rw [if_neg h0]
      by_cases h1 : (dims (.arr l)).length < spans.length
      · rw [if_pos h1]
        simp [ranges_none_of_long h1]
      · rw [if_neg h1]
        cases ha : allIndices (dims (.arr l)) spans with
        | error e => simp [(allIndices_error ha).1]
        | ok is =>
          obtain ⟨rs, h2, rfl⟩ := allIndices_ok ha
          have hg := sliceRec_gives (.arr l) rs (ranges_le h2) (p := []) (v := .arr l) (by rw [walk])
          simp only [h2, Option.some.injEq, exists_eq_left']
          cases hr : sliceRec (.arr l) (rs.map idxs) [] with
          | ok a =>
            rw [hr] at hg
            cases hp : pick rs (.arr l) with
            | none => rw [hp] at hg; exact hg.elim
            | some b =>
              rw [hp] at hg
              have : a = b := hg
              subst this
              simp
          | error e =>
            rw [hr] at hg
            cases hp : pick rs (.arr l) with
            | none => simp
            | some b => rw [hp] at hg; exact hg.elim
  | _ => simp [sliceJson, isArray]

/-- slicing ends with a value or with one of its own errors -/
def sliceDefinedStatement : Prop :=
  ∀ input spans, (∃ r, sliceJson input spans = .ok r) ∨ sliceJson input spans = .error .notArray ∨
    sliceJson input spans = .error .tooManySpans ∨ sliceJson input spans = .error .firstOutOfRange ∨
    sliceJson input spans = .error .lastOutOfRange

/-- it fails: only the first row is measured, so the shorter second row is read out of range -/
theorem sliceDefined_false : ¬ sliceDefinedStatement := by
  intro h
  have hx : sliceJson (.arr [.arr [.int 1, .int 2], .arr [.int 3]]) [⟨0, some (-1)⟩, ⟨1, none⟩] = .error .undef := by
    simp [sliceJson, dims, dimsL, allIndices, indices, sliceRec, sliceIdx, walk, List.range_succ]
  have := h (.arr [.arr [.int 1, .int 2], .arr [.int 3]]) [⟨0, some (-1)⟩, ⟨1, none⟩]
  rw [hx] at this
  simp at this

theorem pick_rect {ns : List Nat} {ss : List Span} {rs : List (Nat × Nat)} (h : ranges ns ss = some rs) {v : Json}
    (hv : Rect (ns.take ss.length) v) : ∃ r, pick rs v = some r := by
  induction ss generalizing ns rs v with
  | nil => rw [ranges] at h; injection h with h; subst h; exact ⟨v, by rw [pick]⟩
  | cons s ss ih =>
    cases ns with
    | nil => rw [ranges] at h; cases h
    | cons n ns =>
      rw [ranges] at h
      split at h
      · rename_i r rs' h1 h2
        injection h with h
        subst h
        obtain ⟨f, l⟩ := r
        rw [List.length_cons, List.take_succ_cons] at hv
        obtain ⟨xs, rfl, hlen, hxs⟩ := hv
        rw [pick, if_pos (by rw [hlen]; exact (range?_le h1).2)]
        have : ∀ l : List Json, (∀ x ∈ l, Rect (ns.take ss.length) x) → ∃ w, l.mapM (pick rs') = some w := by
          intro l
          induction l with
          | nil => intro _; exact ⟨[], rfl⟩
          | cons x l ihl =>
            intro hl
            obtain ⟨a, ha⟩ := ih h2 (hl x (by simp))
            obtain ⟨w, hw⟩ := ihl (fun y hy => hl y (by simp [hy]))
            exact ⟨a :: w, by rw [List.mapM_cons, ha, hw]; rfl⟩
        obtain ⟨w, hw⟩ := this ((xs.drop f).take (l + 1 - f))
          (fun x hx => hxs x (List.mem_of_mem_drop (List.mem_of_mem_take hx)))
        exact ⟨.arr w, by rw [hw]; rfl⟩
      · cases h

/-- **C112** for arrays that are rectangular as deep as there are spans (as those of tables with rows of equal length):
`sliceJson` gives the part of the array that the spans give, when all of them lie within their dimension, and
otherwise one of its own errors. Missing: arrays with rows of different lengths. -/
theorem slice_partial (input : Json) (spans : List Span) (hrect : Rect ((dims input).take spans.length) input) :
    (∃ rs r, isArray input = true ∧ ranges (dims input) spans = some rs ∧ pick rs input = some r ∧
      sliceJson input spans = .ok r) ∨
    ((isArray input = false ∨ ranges (dims input) spans = none) ∧
      (sliceJson input spans = .error .notArray ∨ sliceJson input spans = .error .tooManySpans ∨
        sliceJson input spans = .error .firstOutOfRange ∨ sliceJson input spans = .error .lastOutOfRange)) := by
  cases ha : isArray input with
  | false =>
    right
    refine ⟨.inl rfl, .inl ?_⟩
    cases input <;> first | rfl | simp [isArray] at ha
  | true =>
    cases hr : ranges (dims input) spans with
    | some rs =>
      left
      obtain ⟨r, hp⟩ := pick_rect hr hrect
      exact ⟨rs, r, rfl, rfl, hp, (slice_sound input spans r).2 ⟨ha, rs, hr, hp⟩⟩
    | none =>
      right
      refine ⟨.inr rfl, .inr ?_⟩
      cases input with
      | arr l =>
        simp only [sliceJson]
        by_cases h0 : spans.isEmpty = true
        · have : spans = [] := by simpa using h0
          subst this
          rw [ranges] at hr; cases hr
        · rw [if_neg h0]
          by_cases h1 : (dims (.arr l)).length < spans.length
          · rw [if_pos h1]; simp
          · rw [if_neg h1]
            cases hai : allIndices (dims (.arr l)) spans with
            | error e =>
              rcases (allIndices_error hai).2 with rfl | rfl | rfl <;> simp
            | ok is =>
              obtain ⟨rs, h2, _⟩ := allIndices_ok hai
              rw [hr] at h2; cases h2
      | _ => simp [isArray] at ha

/-- a table of three rows: the first two cells of the last two rows -/
example : sliceJson (.arr [.arr [.int 1, .int 2, .int 3], .arr [.int 4, .int 5, .int 6], .arr [.int 7, .int 8, .int 9]])
    [⟨-2, some (-1)⟩, ⟨0, some 1⟩] = .ok (.arr [.arr [.int 4, .int 5], .arr [.int 7, .int 8]]) := by
  simp [sliceJson, dims, dimsL, allIndices, indices, sliceRec, sliceIdx, walk, List.range_succ]

example : Rect [3, 2] (.arr [.arr [.int 1, .int 2], .arr [.int 3, .int 4], .arr [.int 5, .int 6]]) := by
  refine ⟨_, rfl, rfl, ?_⟩
  intro x hx
  simp only [List.mem_cons, List.not_mem_nil, or_false] at hx
  rcases hx with rfl | rfl | rfl <;> exact ⟨_, rfl, rfl, fun _ _ => trivial⟩

end Verif.Eval
