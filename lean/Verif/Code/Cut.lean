import Verif.Code.Again

/-!
# Any line of code
-/

namespace Verif.Code
open Verif.Drawer (Text)

/-- The pieces of a line without references. -/
def cut : Text → List Seg
  | '<' :: '<' :: r => .left :: cut r
  | '>' :: '>' :: r => .right :: cut r
  | c :: r =>
    match cut r with
    | .code t :: s => .code (c :: t) :: s
    | s => .code [c] :: s
  | [] => []

theorem cut_text (t : Text) : segsText (cut t) = t := by
  induction t using cut.induct with
  | case1 r ih => simp [cut, segsText, Seg.text]; simpa [segsText] using ih
  | case2 r ih => simp [cut, segsText, Seg.text]; simpa [segsText] using ih
  | case3 c r h1 h2 t s hs ih =>
    rw [cut.eq_3 _ _ h1 h2, hs]
    rw [hs] at ih
    simp [segsText, Seg.text] at ih ⊢
    exact ih
  | case4 c r h1 h2 hs ih =>
    rw [cut.eq_3 _ _ h1 h2]
    split
    · next t s e => exact absurd e (hs t s)
    · have e : segsText (.code [c] :: cut r) = c :: segsText (cut r) := rfl
      rw [e, ih]
  | case5 => rfl

/-- The pieces apart from the end of the block. -/
def Good : List Seg → Prop
  | [] => True
  | .code t :: r => ('\n' ∉ t ∧ ¬ "<<".toList <:+: t ∧ ¬ ">>".toList <:+: t) ∧ t ≠ [] ∧ (∀ s ∈ r.head?, s.isCode = false ∧ (s.opens = true → t.getLast? ≠ some '<') ∧
      (s.opens = false → t.getLast? ≠ some '>')) ∧ Good r
  | .ref _ :: _ => False
  | .left :: r => (∀ s ∈ r, s.closes = false) ∧ Good r
  | .right :: r => Good r

theorem good_valid {l : List Seg} (h : Good l) (he : ∀ t, Seg.code t ∈ l → ¬ Ends t) : SegsValid l := by
  induction l with
  | nil => trivial
  | cons s r ih =>
    have he' : ∀ t, Seg.code t ∈ r → ¬ Ends t := fun t ht => he t (List.mem_cons_of_mem _ ht)
    cases s with
    | code t => exact ⟨⟨h.1.1, h.1.2.1, h.1.2.2, he t List.mem_cons_self⟩, h.2.1, h.2.2.1, ih h.2.2.2 he'⟩
    | ref n => exact absurd h id
    | left => exact ⟨h.1, ih h.2 he'⟩
    | right => exact ih h he'

theorem text_split {l : List Seg} {s : Seg} (h : s ∈ l) : ∃ a b, segsText l = a ++ s.text ++ b := by
  obtain ⟨u, v, rfl⟩ := List.append_of_mem h
  exact ⟨segsText u, segsText v, by simp [segsText]⟩

theorem good_refs {l : List Seg} (h : Good l) : ∀ s ∈ l, s.closes = true → s = .right := by
  induction l with
  | nil => simp
  | cons x r ih =>
    intro s hs hc
    rcases List.mem_cons.mp hs with e | hs'
    · subst e
      cases s with
      | code t => cases hc
      | ref n => exact False.elim h
      | left => cases hc
      | right => rfl
    · cases x with
      | code t => exact ih h.2.2.2 s hs' hc
      | ref n => exact absurd h id
      | left => exact ih h.2 s hs' hc
      | right => exact ih h s hs' hc

theorem infix_pair {a c : Char} {t : Text} (h : [a, a] <:+: c :: t) : [a, a] <:+: t ∨ (c = a ∧ t.head? = some a) := by
  rcases List.infix_cons_iff.mp h with h | h
  · right
    obtain ⟨v, hv⟩ := h
    simp only [List.cons_append, List.nil_append, List.cons.injEq] at hv
    obtain ⟨rfl, rfl⟩ := hv
    exact ⟨rfl, rfl⟩
  · exact .inl h

theorem cut_good (t : Text) (hl : '\n' ∉ t) (ha : ¬ ∃ a b c, t = a ++ "<<".toList ++ b ++ ">>".toList ++ c) : Good (cut t) := by
  induction t using cut.induct with
  | case1 r ih =>
    have h1 := ih (fun h => hl (by simp [h])) (fun ⟨a, b, c, e⟩ => ha ⟨'<' :: '<' :: a, b, c, by rw [e]; rfl⟩)
    rw [cut]
    refine ⟨fun s hs => ?_, h1⟩
    cases hc : s.closes with
    | false => rfl
    | true =>
      have := good_refs h1 s hs hc
      subst this
      obtain ⟨a, b, e⟩ := text_split hs
      rw [cut_text] at e
      exact absurd ⟨[], a, b, by rw [e]; simp [Seg.text]⟩ ha
  | case2 r ih =>
    rw [cut]
    exact ih (fun h => hl (by simp [h])) (fun ⟨a, b, c, e⟩ => ha ⟨'>' :: '>' :: a, b, c, by rw [e]; rfl⟩)
  | case3 c r h1 h2 t s hs ih =>
    have hg := ih (fun h => hl (by simp [h])) (fun ⟨a, b, d, e⟩ => ha ⟨c :: a, b, d, by rw [e]; rfl⟩)
    have hr := cut_text r
    rw [cut.eq_3 _ _ h1 h2, hs]
    rw [hs] at hg hr
    obtain ⟨⟨g1, g2, g3⟩, g4, g5, g6⟩ := hg
    have hr : r = t ++ segsText s := hr.symm
    obtain ⟨x, u, rfl⟩ := List.exists_cons_of_ne_nil g4
    refine ⟨⟨?_, ?_, ?_⟩, by simp, ?_, g6⟩
    · intro h
      rcases List.mem_cons.mp h with h | h
      · exact hl (h ▸ List.mem_cons_self)
      · exact g1 h
    · intro h
      rcases infix_pair (a := '<') h with h | ⟨rfl, hh⟩
      · exact g2 h
      · have hx := Option.some.inj hh
        subst hx
        exact h1 _ rfl (by rw [hr]; rfl)
    · intro h
      rcases infix_pair (a := '>') h with h | ⟨rfl, hh⟩
      · exact g3 h
      · have hx := Option.some.inj hh
        subst hx
        exact h2 _ rfl (by rw [hr]; rfl)
    · rw [List.getLast?_cons_cons]
      exact g5
  | case4 c r h1 h2 hs ih =>
    have hg := ih (fun h => hl (by simp [h])) (fun ⟨a, b, d, e⟩ => ha ⟨c :: a, b, d, by rw [e]; rfl⟩)
    have hr := cut_text r
    rw [cut.eq_3 _ _ h1 h2]
    split
    · next t s e => exact absurd e (hs t s)
    · have short : ∀ a : Char, ¬ [a, a] <:+: [c] := fun a h => by
        have := h.length_le
        simp at this
      refine ⟨⟨fun h => hl (List.mem_singleton.mp h ▸ List.mem_cons_self), short '<', short '>'⟩, by simp, fun s hm => ?_, hg⟩
      cases he : cut r with
      | nil => rw [he] at hm; cases hm
      | cons x l =>
        rw [he] at hm hr
        cases hm
        have e : segsText (s :: l) = s.text ++ segsText l := rfl
        rw [e] at hr
        cases s with
        | code t => exact absurd he (hs t l)
        | ref n => rw [he] at hg; exact absurd hg id
        | left =>
          refine ⟨rfl, fun _ h => ?_, nofun⟩
          simp only [List.getLast?_singleton, Option.some.injEq] at h
          exact h1 _ h hr.symm
        | right =>
          refine ⟨rfl, nofun, fun _ h => ?_⟩
          simp only [List.getLast?_singleton, Option.some.injEq] at h
          exact h2 _ h hr.symm
  | case5 => trivial

theorem ends_more {t u : Text} (h : Ends t) : Ends (t ++ u) := by
  obtain ⟨n, x, v, h1, h2⟩ := h
  exact ⟨n, x, v ++ u, by rw [h1]; simp, h2⟩

theorem good_places {l : List Seg} (h : Good l) {t : Text} (ht : Seg.code t ∈ l) :
    ∃ a b, segsText l = a ++ t ++ b ∧ (a = [] ∨ ∃ c, a = c ++ "<<".toList ∨ a = c ++ ">>".toList) := by
  obtain ⟨u, v, rfl⟩ := List.append_of_mem ht
  refine ⟨segsText u, segsText v, by simp [segsText, Seg.text], ?_⟩
  rcases List.eq_nil_or_concat u with rfl | ⟨u, s, rfl⟩
  · exact .inl rfl
  · right
    refine ⟨segsText u, ?_⟩
    have e : segsText (u ++ [s]) = segsText u ++ s.text := by simp [segsText]
    have hs : Good (s :: .code t :: v) := by
      have : ∀ u : List Seg, Good (u ++ [s] ++ .code t :: v) → Good (s :: .code t :: v) := by
        intro u
        induction u with
        | nil => exact id
        | cons x u ih =>
          intro h
          cases x with
          | code t => exact ih h.2.2.2
          | ref n => exact absurd h id
          | left => exact ih h.2
          | right => exact ih h
      refine this u ?_
      rwa [List.concat_eq_append] at h
    rw [List.concat_eq_append, e]
    cases s with
    | code x => have := (hs.2.2.1 _ rfl).1; cases this
    | ref n => exact absurd hs id
    | left => exact .inl rfl
    | right => exact .inr rfl

theorem cut_valid {t : Text} (h : Free t) : SegsValid (cut t) := by
  have hg := cut_good t h.line h.angles
  refine good_valid hg fun x hx he => ?_
  obtain ⟨a, b, e, ha⟩ := good_places hg hx
  rw [cut_text] at e
  rcases ha with rfl | ⟨c, rfl | rfl⟩
  · exact h.stays (by rw [e]; exact ends_more he)
  · exact h.after c (x ++ b) (.inl (by rw [e]; simp)) (ends_more he)
  · exact h.after c (x ++ b) (.inr (by rw [e]; simp)) (ends_more he)

end Verif.Code
