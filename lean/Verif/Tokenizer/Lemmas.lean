import Verif.Tokenizer.Spec

namespace Verif.Tokenizer
open Verif.Token

/-! ### Lines -/

theorem mkLine_tokens {ts : List Tok} {l : Line} (h : mkLine ts = .ok l) : l.tokens = ts := by
  cases ts with
  | nil => simp only [mkLine] at h; cases h; rfl
  | cons t ts =>
    simp only [mkLine, bind, Except.bind] at h
    split at h
    · cases h
    · cases h; rfl

theorem toLinesLoop_spec : ∀ (ts cur : List Tok) (ls : List Line),
    (∀ t ∈ cur, t.kind ∉ lineEnd) → toLinesLoop cur ts = .ok ls →
    lineTokens ls = cur ++ ts ∧
    ∃ full rest, ls = full ++ rest ∧ (∀ l ∈ full, l.Closed) ∧
      (rest = [] ∨ ∃ l, rest = [l] ∧ l.tokens ≠ [] ∧ ∀ t ∈ l.tokens, t.kind ∉ lineEnd) := by
  intro ts
  induction ts with
  | nil =>
    intro cur ls hcur h
    simp only [toLinesLoop] at h
    split at h
    · rename_i hc
      cases h
      have : cur = [] := by simpa using hc
      subst this
      exact ⟨rfl, [], [], rfl, by simp, .inl rfl⟩
    · rename_i hc
      simp only [bind, Except.bind] at h
      split at h
      · cases h
      · rename_i l hl
        cases h
        have ht := mkLine_tokens hl
        refine ⟨by simp [lineTokens, ht], [], [l], rfl, by simp, .inr ⟨l, rfl, ?_, ?_⟩⟩
        · rw [ht]; intro h0; simp [h0] at hc
        · rw [ht]; exact hcur
  | cons t ts ih =>
    intro cur ls hcur h
    simp only [toLinesLoop] at h
    split at h
    · rename_i hk
      simp only [bind, Except.bind] at h
      split at h
      · cases h
      · rename_i l hl
        split at h
        · cases h
        · rename_i ls' hls
          cases h
          have ht := mkLine_tokens hl
          obtain ⟨h1, full, rest, h2, h3, h4⟩ := ih [] ls' (by simp) hls
          refine ⟨?_, l :: full, rest, by simp [h2], ?_, h4⟩
          · simp only [lineTokens, List.map_cons, List.flatten_cons] at h1 ⊢
            rw [ht]; simp [h1]
          · intro x hx
            rcases List.mem_cons.1 hx with rfl | hx
            · exact ⟨cur, t, ht, hcur, hk⟩
            · exact h3 x hx
    · rename_i hk
      have := ih (cur ++ [t]) ls (by
        intro x hx
        rcases List.mem_append.1 hx with hx | hx
        · exact hcur x hx
        · simp only [List.mem_singleton] at hx; subst hx; exact hk) h
      simpa using this

/-! ### Groups -/

theorem Groups.lines_append (a b : Groups) : (a.append b).lines = a.lines ++ b.lines := by
  induction a with
  | nil => rfl
  | leaf k l r ih => simp [Groups.append, Groups.lines, ih]
  | nested k x y s r _ ih => simp [Groups.append, Groups.lines, ih]

theorem Groups.Matched.mono {ib : Bool} {L : Bool} {g : Groups}
    (h : g.Matched ib false) : g.Matched ib L := by
  induction g with
  | nil => trivial
  | leaf k ls r ih => exact ⟨h.1, h.2.1, h.2.2.1, ih h.2.2.2⟩
  | nested k b e s r _ ih =>
    refine ⟨h.1, ?_, ih h.2.2⟩
    rcases h.2.1 with h1 | h1
    · exact .inl h1
    · simp at h1

theorem Groups.Matched.weaken {L : Bool} {g : Groups}
    (h : g.Matched true L) : g.Matched false L := by
  induction g with
  | nil => trivial
  | leaf k ls r ih => exact ⟨h.1, h.2.1, by simp, ih h.2.2.2⟩
  | nested k b e s r _ ih => exact ⟨h.1, h.2.1, ih h.2.2⟩

theorem Groups.Matched.append {ib L : Bool} {a b : Groups}
    (ha : a.Matched ib L) (hb : b.Matched ib L) (hc : b.lines = [] ∨ a.Matched ib false) :
    (a.append b).Matched ib L := by
  induction a with
  | nil => exact hb
  | leaf k ls r ih =>
    refine ⟨ha.1, ha.2.1, ha.2.2.1, ih ha.2.2.2 ?_⟩
    rcases hc with hc | hc
    · exact .inl hc
    · exact .inr hc.2.2.2
  | nested k x y s r _ ih =>
    refine ⟨ha.1, ?_, ih ha.2.2 ?_⟩
    · rcases ha.2.1 with h1 | ⟨h1, h2, h3, h4⟩
      · exact .inl h1
      · rcases hc with hc | hc
        · right
          exact ⟨h1, by rw [Groups.lines_append, h2, hc]; rfl, h3, h4⟩
        · rcases hc.2.1 with h5 | h5
          · exact .inl h5
          · simp at h5
    · rcases hc with hc | hc
      · exact .inl hc
      · exact .inr hc.2.2

/-- Lines with which grouping can work. -/
def Line.Groupable (l : Line) : Prop := l.tokens ≠ [] ∧ l.kind ≠ .none ∧ l.kind ≠ .subtree

theorem takeWhile_nonempty {α} {p : α → Bool} {a : α} {l : List α} (h : p a = true) :
    (a :: l).takeWhile p ≠ [] := by simp [List.takeWhile, h]

theorem mem_takeWhile_p {α} {p : α → Bool} : ∀ {l : List α} {a : α}, a ∈ l.takeWhile p → p a = true
  | [], _, h => by simp at h
  | b :: l, a, h => by
    by_cases hb : p b = true
    · rw [List.takeWhile_cons_of_pos hb] at h
      rcases List.mem_cons.1 h with rfl | h
      · exact hb
      · exact mem_takeWhile_p h
    · rw [List.takeWhile_cons_of_neg hb] at h; simp at h

theorem dropWhile_length_lt {α} {p : α → Bool} {a : α} {l : List α} (h : p a = true) :
    ((a :: l).dropWhile p).length < (a :: l).length := by
  rw [List.dropWhile_cons_of_pos h]
  have := (List.dropWhile_sublist (l := l) p).length_le
  simp only [List.length_cons]; omega

theorem recGroup_blockLoop (fuel : Nat) :
    (∀ l ls, (∀ x ∈ l :: ls, x.Groupable) → 2 * (l :: ls).length ≤ fuel →
      ∃ g it, recGroup fuel (l :: ls) = .ok (g, it) ∧ g.lines ++ it = l :: ls ∧
        it.length < (l :: ls).length ∧ g.Matched false it.isEmpty ∧
        (l.kind ≠ .blockClose → g.Matched true it.isEmpty)) ∧
    (∀ ls, (∀ x ∈ ls, x.Groupable) → 2 * ls.length + 1 ≤ fuel →
      ∃ g it, blockLoop fuel ls = .ok (g, it) ∧ g.lines ++ it = ls ∧
        (∀ x xs, it = x :: xs → x.kind = .blockClose) ∧ g.Matched true it.isEmpty) := by
  induction fuel with
  | zero => exact ⟨by intro l ls _ h; simp at h, by intro ls _ h; omega⟩
  | succ fuel ih =>
    obtain ⟨ihr, ihb⟩ := ih
    constructor
    · intro l ls hg hf
      have hk := hg l (by simp)
      have leafCase : ∀ (p : Line → Bool) (k : GK), p l = true →
          (∀ x, p x = true → x.kind ≠ .blockOpen ∧ x.kind ≠ .blockClose) →
          (Groups.leaf k ((l :: ls).takeWhile p) .nil).lines ++ (l :: ls).dropWhile p = l :: ls ∧
          ((l :: ls).dropWhile p).length < (l :: ls).length ∧
          (Groups.leaf k ((l :: ls).takeWhile p) .nil).Matched false ((l :: ls).dropWhile p).isEmpty ∧
          (l.kind ≠ .blockClose →
          (Groups.leaf k ((l :: ls).takeWhile p) .nil).Matched true
            ((l :: ls).dropWhile p).isEmpty) := by
        intro p k hp hpk
        refine ⟨by simp [Groups.lines], dropWhile_length_lt hp, ?_, ?_⟩
        · exact ⟨takeWhile_nonempty hp, fun x hx => (hpk x (mem_takeWhile_p hx)).1, by simp, trivial⟩
        · intro _
          exact ⟨takeWhile_nonempty hp, fun x hx => (hpk x (mem_takeWhile_p hx)).1,
            fun _ x hx => (hpk x (mem_takeWhile_p hx)).2, trivial⟩
      cases hkind : l.kind with
      | none => exact absurd hkind hk.2.1
      | subtree => exact absurd hkind hk.2.2
      | line =>
        simp only [recGroup, hkind]
        refine ⟨_, _, rfl, ?_⟩
        have := leafCase (fun x : Line => (decide (x.kind = .line) || decide (x.kind = .indentedLine))
          && decide (l.indent ≤ x.indent)) .line (by simp [hkind])
          (by intro x hx; simp at hx; rcases hx.1 with h | h <;> simp [h])
        simpa only [hkind] using this
      | indentedLine =>
        simp only [recGroup, hkind]
        refine ⟨_, _, rfl, ?_⟩
        have := leafCase (fun x : Line => (decide (x.kind = .line) || decide (x.kind = .indentedLine))
          && decide (l.indent ≤ x.indent)) .line (by simp [hkind])
          (by intro x hx; simp at hx; rcases hx.1 with h | h <;> simp [h])
        simpa only [hkind] using this
      | property =>
        simp only [recGroup, hkind]
        refine ⟨_, _, rfl, ?_⟩
        have := leafCase (fun x : Line => decide (x.kind = .property)) .properties (by simp [hkind])
          (by intro x hx; simp at hx; simp [hx])
        simpa only [hkind] using this
      | listItem =>
        simp only [recGroup, hkind]
        refine ⟨_, _, rfl, by simp [Groups.lines], ?_, ?_, ?_⟩
        · have := (List.dropWhile_sublist (l := ls)
            (fun x : Line => decide (x.kind = .indentedLine) && decide (l.indent ≤ x.indent))).length_le
          simp only [List.length_cons]; omega
        · refine ⟨by simp, ?_, by simp, trivial⟩
          intro x hx
          rcases List.mem_cons.1 hx with rfl | hx
          · simp [hkind]
          · have := mem_takeWhile_p hx
            simp at this; simp [this.1]
        · intro _
          refine ⟨by simp, ?_, ?_, trivial⟩
          · intro x hx
            rcases List.mem_cons.1 hx with rfl | hx
            · simp [hkind]
            · have := mem_takeWhile_p hx
              simp at this; simp [this.1]
          · intro _ x hx
            rcases List.mem_cons.1 hx with rfl | hx
            · simp [hkind]
            · have := mem_takeWhile_p hx
              simp at this; simp [this.1]
      | blockClose =>
        simp only [recGroup, hkind]
        exact ⟨_, _, rfl, by simp [Groups.lines], by simp, ⟨by simp, by simp [hkind], by simp, trivial⟩,
          by simp⟩
      | blockOpen =>
        obtain ⟨sub, it, h1, h2, h3, h4⟩ := ihb ls (fun x hx => hg x (by simp [hx]))
          (by simp only [List.length_cons] at hf; omega)
        simp only [recGroup, hkind, h1, bind, Except.bind]
        cases it with
        | nil =>
          simp only [List.append_nil] at h2
          have hl : ((Groups.nested .block l .empty sub .nil).lines ++ []) = l :: ls := by
            simp [Groups.lines, Line.empty, h2]
          have hm : ∀ ib, (Groups.nested .block l .empty sub .nil).Matched ib true := by
            intro ib
            exact ⟨hkind, .inr ⟨rfl, rfl, rfl, h4⟩, trivial⟩
          exact ⟨_, _, rfl, hl, by simp, hm false, fun _ => hm true⟩
        | cons e it =>
          have hek := h3 e it rfl
          have he : e.tokens ≠ [] := (hg e (by rw [← h2]; simp)).1
          have hl : ((Groups.nested .block l e sub .nil).lines ++ it) = l :: ls := by
            have he' : e.tokens.isEmpty = false := by
              cases hh : e.tokens with
              | nil => exact absurd hh he
              | cons a b => rfl
            rw [← h2]
            simp [Groups.lines, he']
          have hm : ∀ ib L, (Groups.nested .block l e sub .nil).Matched ib L := by
            intro ib L
            exact ⟨hkind, .inl ⟨hek, h4⟩, trivial⟩
          refine ⟨_, _, rfl, hl, ?_, hm _ _, fun _ => hm _ _⟩
          have := congrArg List.length h2
          simp only [List.length_append, List.length_cons] at this ⊢
          omega
    · intro ls hg hf
      cases ls with
      | nil => exact ⟨.nil, [], rfl, rfl, by simp, trivial⟩
      | cons l ls =>
        by_cases hkind : l.kind = .blockClose
        · refine ⟨.nil, l :: ls, by simp [blockLoop, hkind], rfl, ?_, trivial⟩
          intro x xs h
          cases h; exact hkind
        · obtain ⟨g, it, h1, h2, h3, h4, h5⟩ := ihr l ls hg (by omega)
          obtain ⟨gs, it', k1, k2, k3, k4⟩ := ihb it
            (fun x hx => hg x (by rw [← h2]; exact List.mem_append_right _ hx))
            (by simp only [List.length_cons] at hf h3; omega)
          refine ⟨g.append gs, it', ?_, ?_, k3, ?_⟩
          · simp only [blockLoop, hkind, if_false, h1, k1, bind, Except.bind]
          · rw [Groups.lines_append, List.append_assoc, k2, h2]
          · have h5 := h5 hkind
            cases it with
            | nil =>
              have hgs : gs.lines = [] ∧ it' = [] := by simpa using k2
              subst_vars
              rw [hgs.2] at k4 ⊢
              exact Groups.Matched.append h5 k4 (.inl hgs.1)
            | cons y ys =>
              have h5' : g.Matched true false := h5
              exact Groups.Matched.append h5'.mono k4 (.inr h5')

theorem toGroups_spec (fuel : Nat) (ls : List Line) (hg : ∀ x ∈ ls, x.Groupable)
    (hf : 2 * ls.length + 1 ≤ fuel) :
    ∃ gs, toGroups fuel ls = .ok gs ∧ gs.lines = ls ∧ gs.Matched false true := by
  induction fuel generalizing ls with
  | zero => omega
  | succ fuel ih =>
    cases ls with
    | nil => exact ⟨.nil, rfl, rfl, trivial⟩
    | cons l ls =>
      obtain ⟨g, it, h1, h2, h3, h4, _⟩ := (recGroup_blockLoop fuel).1 l ls hg (by omega)
      obtain ⟨gs, k1, k2, k3⟩ := ih it (fun x hx => hg x (by rw [← h2]; exact List.mem_append_right _ hx))
        (by simp only [List.length_cons] at hf h3; omega)
      refine ⟨g.append gs, ?_, ?_, ?_⟩
      · simp only [toGroups, h1, bind, Except.bind, k1]
        rw [if_neg (by omega)]
      · rw [Groups.lines_append, k2, h2]
      · cases it with
        | nil => exact Groups.Matched.append h4 k3 (.inl k2)
        | cons y ys =>
          have h4' : g.Matched false false := h4
          exact Groups.Matched.append h4'.mono k3 (.inr h4')

/-- The groups made from groupable lines have no empty `Leaf`. -/
def Groups.NoEmptyLeaf : Groups → Prop
  | .nil => True
  | .leaf _ ls r => ls ≠ [] ∧ r.NoEmptyLeaf
  | .nested _ _ _ s r => s.NoEmptyLeaf ∧ r.NoEmptyLeaf

theorem Groups.Matched.noEmptyLeaf {ib L : Bool} {g : Groups} (h : g.Matched ib L) : g.NoEmptyLeaf := by
  induction g generalizing ib L with
  | nil => trivial
  | leaf k ls r ih => exact ⟨h.1, ih h.2.2.2⟩
  | nested k b e s r ih1 ih2 =>
    refine ⟨?_, ih2 h.2.2⟩
    rcases h.2.1 with h1 | h1
    · exact ih1 h1.2
    · exact ih1 h1.2.2.2

end Verif.Tokenizer
