import Verif.AstDiff.EagerSpec
import Mathlib.Data.List.Nodup
import Mathlib.Data.List.Basic
import Mathlib.Data.List.Perm.Basic
import Mathlib.Tactic.SplitIfs

/-!
# What the loops of the eager diff do
-/

namespace Verif.AstDiff

variable (eq : Nat → Nat → Bool)

/-- A candidate is a source subnode not used before, with the kind of the destination node. -/
def GoodAt (srcs : List T) (processed : List Nat) (d : T) (i : Nat) : Prop :=
  ∃ s, srcs[i]? = some s ∧ s.id ∉ processed ∧ s.kind = d.kind

def GoodBest (srcs : List T) (processed : List Nat) (d : T) (b : Best) : Prop :=
  (∀ c, b.exactMatch = some c → GoodAt srcs processed d c.srcIndex) ∧
  (∀ c, b.idMatch = some c → GoodAt srcs processed d c.srcIndex) ∧
  (∀ c, b.moveCand = some c → GoodAt srcs processed d c.srcIndex)

theorem bestStep_good {srcs : List T} {processed : List Nat} {d s : T} {i j : Nat} {b : Best}
    (hs : srcs[i]? = some s) (h : GoodBest srcs processed d b) : GoodBest srcs processed d (bestStep eq d j processed i s b) := by
  unfold bestStep
  split
  · exact h
  · rename_i hc
    have hg : GoodAt srcs processed d i := ⟨s, hs, by simpa using (by simpa using hc : _ ∧ _).1, by simpa using (by simpa using hc : _ ∧ _).2⟩
    obtain ⟨h1, h2, h3⟩ := h
    split
    · split
      · split
        · refine ⟨h1, h2, ?_⟩
          rintro c ⟨⟩
          exact hg
        · split
          · refine ⟨h1, h2, ?_⟩
            rintro c ⟨⟩
            exact hg
          · exact ⟨h1, h2, h3⟩
      · refine ⟨?_, h2, h3⟩
        rintro c ⟨⟩
        exact hg
    · split
      · refine ⟨h1, ?_, h3⟩
        rintro c ⟨⟩
        exact hg
      · exact ⟨h1, h2, h3⟩

theorem bestLoop_good {srcs : List T} {processed : List Nat} {d : T} {j : Nat} :
    ∀ (rest : List T) (i : Nat) (b : Best), (∀ k s, rest[k]? = some s → srcs[i + k]? = some s) →
      GoodBest srcs processed d b → GoodBest srcs processed d (bestLoop eq d j processed i rest b)
  | [], i, b, _, hb => hb
  | s :: rest, i, b, h, hb => by
    unfold bestLoop
    refine bestLoop_good rest (i + 1) _ (fun k s hk => ?_) (bestStep_good eq (h 0 s rfl) hb)
    have := h (k + 1) s (by simpa using hk)
    rwa [show i + 1 + k = i + (k + 1) by omega]

theorem byKind_good {srcs : List T} {processed : List Nat} {d : T} :
    ∀ (rest : List T) (i : Nat), (∀ k s, rest[k]? = some s → srcs[i + k]? = some s) →
      ∀ m, byKind d processed i rest = some m → GoodAt srcs processed d m
  | [], i, _, m, hm => by simp [byKind] at hm
  | s :: rest, i, h, m, hm => by
    unfold byKind at hm
    split at hm
    · rename_i hc
      obtain rfl : i = m := by simpa using hm
      exact ⟨s, h 0 s rfl, by simpa using (by simpa using hc : _ ∧ _).1, by simpa using (by simpa using hc : _ ∧ _).2⟩
    · refine byKind_good rest (i + 1) (fun k s hk => ?_) m hm
      have := h (k + 1) s (by simpa using hk)
      rwa [show i + 1 + k = i + (k + 1) by omega]

theorem findBest_range {srcs : List T} {processed : List Nat} {d : T} {j : Nat} {c : Cand}
    (h : findBest eq d j srcs processed = some c) : GoodAt srcs processed d c.srcIndex := by
  have hg : GoodBest srcs processed d (bestLoop eq d j processed 0 srcs ⟨none, none, none⟩) :=
    bestLoop_good eq srcs 0 _ (by intro k s hk; simpa using hk) ⟨by simp, by simp, by simp⟩
  obtain ⟨h1, h2, h3⟩ := hg
  simp only [findBest] at h
  split at h
  · rename_i e
    obtain rfl := Option.some.inj h
    exact h3 _ e
  · split at h
    · rename_i e
      obtain rfl := Option.some.inj h
      exact h1 _ e
    · split at h
      · rename_i e
        obtain rfl := Option.some.inj h
        exact h2 _ e
      · split at h
        · rename_i e
          obtain rfl := Option.some.inj h
          exact byKind_good srcs 0 (by intro k s hk; simpa using hk) _ e
        · simp at h

/-- What the loop over the destination subnodes does: each one is inserted or matched with an unused source subnode. -/
inductive Run (recur : T → T → List Edit) (srcs : List T) :
    Nat → List T → List Nat → List Nat → List Edit → List (Nat × Nat) → List Nat → Prop where
  | nil {j p} : Run recur srcs j [] p p [] [] []
  | ins {j d rest p p' out ps is} : Run recur srcs (j + 1) rest p p' out ps is →
      Run recur srcs j (d :: rest) p p' (.insert d.id j :: out) ps (j :: is)
  | mat {j d rest p p' out ps is i s} : srcs[i]? = some s → s.id ∉ p → s.kind = d.kind →
      Run recur srcs (j + 1) rest (s.id :: p) p' out ps is →
      Run recur srcs j (d :: rest) p p' (recur s d ++ pairEdit eq s d i j ++ out) ((i, j) :: ps) is

theorem dstLoop_run (recur : T → T → List Edit) (srcs dsts : List T) :
    ∀ (rest : List T) (j : Nat) (st : St), (rest.map T.id).Nodup → (∀ d ∈ rest, d.id ∉ st.pD) →
      ∃ out ps is, (dstLoop eq recur srcs dsts j rest st).out = st.out ++ out ∧
        Run eq recur srcs j rest st.pS (dstLoop eq recur srcs dsts j rest st).pS out ps is
  | [], j, st, _, _ => ⟨[], [], [], by simp [dstLoop], by simpa [dstLoop] using Run.nil⟩
  | d :: rest, j, st, hn, hd => by
    have hd0 : ¬ (st.pD.contains d.id = true) := by simpa using hd d (by simp)
    have hn' : d.id ∉ rest.map T.id ∧ (rest.map T.id).Nodup := by simpa using hn
    have hrest : ∀ pD : List Nat, (∀ x, x ∈ pD ↔ x = d.id ∨ x ∈ st.pD) → ∀ e ∈ rest, e.id ∉ pD := by
      intro pD hp e he hc
      rcases (hp _).1 hc with h | h
      · exact hn'.1 (h ▸ List.mem_map_of_mem (f := T.id) he)
      · exact hd e (by simp [he]) h
    have hins : ∃ out ps is,
        (dstLoop eq recur srcs dsts (j + 1) rest { st with out := st.out ++ [.insert d.id j], pD := d.id :: st.pD }).out =
          st.out ++ out ∧
        Run eq recur srcs j (d :: rest) st.pS
          (dstLoop eq recur srcs dsts (j + 1) rest { st with out := st.out ++ [.insert d.id j], pD := d.id :: st.pD }).pS
          out ps is := by
      obtain ⟨out, ps, is, h1, h2⟩ := dstLoop_run recur srcs dsts rest (j + 1)
        { st with out := st.out ++ [.insert d.id j], pD := d.id :: st.pD } hn'.2 (hrest _ (by simp))
      exact ⟨_, ps, _, by rw [h1]; simp, Run.ins h2⟩
    unfold dstLoop
    rw [if_neg hd0]
    cases hb : findBest eq d j srcs st.pS with
    | none => exact hins
    | some c =>
      dsimp only
      split
      · exact hins
      · obtain ⟨s, hs, h1, h2⟩ := findBest_range eq hb
        rw [hs]
        dsimp only
        obtain ⟨out, ps, is, h3, h4⟩ := dstLoop_run recur srcs dsts rest (j + 1)
          { pS := s.id :: st.pS, pD := d.id :: st.pD, out := st.out ++ recur s d ++ pairEdit eq s d c.srcIndex j } hn'.2
          (hrest _ (by simp))
        exact ⟨_, _, is, by rw [h3]; simp, Run.mat hs h1 h2 h4⟩

section
variable {eq} {recur : T → T → List Edit} {srcs : List T}

theorem Run.indices {j rest p p' out ps is} (h : Run eq recur srcs j rest p p' out ps is) :
    (∀ q ∈ ps, j ≤ q.2 ∧ q.2 < j + rest.length) ∧ (∀ q ∈ is, j ≤ q ∧ q < j + rest.length) ∧
    (∀ q, j ≤ q → q < j + rest.length → q ∈ is ∨ ∃ i, (i, q) ∈ ps) ∧
    (∀ i q, (i, q) ∈ ps → q ∉ is) ∧ (∀ i i' q, (i, q) ∈ ps → (i', q) ∈ ps → i = i') := by
  induction h with
  | nil => simp
  | @ins j d rest p p' out ps is h ih =>
    obtain ⟨h1, h2, h3, h4, h5⟩ := ih
    refine ⟨?_, ?_, ?_, ?_, h5⟩
    · intro q hq
      have := h1 q hq
      simp only [List.length_cons]
      omega
    · intro q hq
      rcases List.mem_cons.1 hq with h | h
      · subst h
        simp
      · have := h2 q h
        simp only [List.length_cons]
        omega
    · intro q h6 h7
      simp only [List.length_cons] at h7
      by_cases e : q = j
      · exact .inl (by simp [e])
      · rcases h3 q (by omega) (by omega) with h | h
        · exact .inl (by simp [h])
        · exact .inr h
    · intro i q hq hc
      rcases List.mem_cons.1 hc with h | h
      · have := h1 _ hq
        simp only at this
        omega
      · exact h4 i q hq h
  | @mat j d rest p p' out ps is i s hs hp hk h ih =>
    obtain ⟨h1, h2, h3, h4, h5⟩ := ih
    refine ⟨?_, ?_, ?_, ?_, ?_⟩
    · intro q hq
      rcases List.mem_cons.1 hq with h | h
      · subst h
        simp
      · have := h1 q h
        simp only [List.length_cons]
        omega
    · intro q hq
      have := h2 q hq
      simp only [List.length_cons]
      omega
    · intro q h6 h7
      simp only [List.length_cons] at h7
      by_cases e : q = j
      · exact .inr ⟨i, by simp [e]⟩
      · rcases h3 q (by omega) (by omega) with h | ⟨i', h⟩
        · exact .inl h
        · exact .inr ⟨i', by simp [h]⟩
    · intro i' q hq hc
      rcases List.mem_cons.1 hq with h | h
      · have := h2 _ hc
        injection h
        omega
      · exact h4 i' q h hc
    · intro a b q ha hb
      rcases List.mem_cons.1 ha with h | h <;> rcases List.mem_cons.1 hb with h' | h'
      · injection h with e1 e2
        injection h' with e3 e4
        rw [e1, e3]
      · injection h with e1 e2
        have := h1 _ h'
        simp only at this
        omega
      · injection h' with e1 e2
        have := h1 _ h
        simp only at this
        omega
      · exact h5 a b q h h'

/-- A source subnode is matched once; the matched ones are the used ones. -/
theorem Run.sources {j rest p p' out ps is} (h : Run eq recur srcs j rest p p' out ps is) :
    (∀ x ∈ p, x ∈ p') ∧
    (∀ q ∈ ps, ∃ s, srcs[q.1]? = some s ∧ s.id ∉ p ∧ s.id ∈ p' ∧ ∃ d, rest[q.2 - j]? = some d ∧ s.kind = d.kind) ∧
    (∀ x ∈ p', x ∈ p ∨ ∃ q ∈ ps, ∃ s, srcs[q.1]? = some s ∧ s.id = x) ∧
    (∀ i q q', (i, q) ∈ ps → (i, q') ∈ ps → q = q') := by
  induction h with
  | nil => simp
  | @ins j d rest p p' out ps is h ih =>
    obtain ⟨h1, h2, h3, h4⟩ := ih
    refine ⟨h1, ?_, h3, h4⟩
    intro q hq
    obtain ⟨s, a1, a2, a3, d', a4, a5⟩ := h2 q hq
    have := (h.indices.1 q hq).1
    refine ⟨s, a1, a2, a3, d', ?_, a5⟩
    rw [show q.2 - j = (q.2 - (j + 1)) + 1 by omega]
    simpa using a4
  | @mat j d rest p p' out ps is i s hs hp hk h ih =>
    obtain ⟨h1, h2, h3, h4⟩ := ih
    refine ⟨fun x hx => h1 x (by simp [hx]), ?_, ?_, ?_⟩
    · intro q hq
      rcases List.mem_cons.1 hq with e | hq
      · subst e
        exact ⟨s, hs, hp, h1 _ (by simp), d, by simp, hk⟩
      · obtain ⟨s', a1, a2, a3, d', a4, a5⟩ := h2 q hq
        have := (h.indices.1 q hq).1
        refine ⟨s', a1, fun hc => a2 (by simp [hc]), a3, d', ?_, a5⟩
        rw [show q.2 - j = (q.2 - (j + 1)) + 1 by omega]
        simpa using a4
    · intro x hx
      rcases h3 x hx with hx | ⟨q, hq, s', a1, a2⟩
      · rcases List.mem_cons.1 hx with e | hx
        · exact .inr ⟨(i, j), by simp, s, hs, e.symm⟩
        · exact .inl hx
      · exact .inr ⟨q, by simp [hq], s', a1, a2⟩
    · intro a q q' hq hq'
      have key : ∀ q, (i, q) ∉ ps := by
        intro q hc
        obtain ⟨s', a1, a2, _⟩ := h2 _ hc
        rw [hs] at a1
        obtain rfl := Option.some.inj a1
        exact a2 (by simp)
      rcases List.mem_cons.1 hq with e | e <;> rcases List.mem_cons.1 hq' with e' | e'
      · injection e with e1 e2
        injection e' with e3 e4
        rw [e2, e4]
      · injection e with e1 e2
        subst e1
        exact absurd e' (key _)
      · injection e' with e1 e2
        subst e1
        exact absurd e (key _)
      · exact h4 a q q' e e'

/-- The edits of the loop -/
theorem Run.edits {j rest p p' out ps is} (h : Run eq recur srcs j rest p p' out ps is) (e : Edit) :
    e ∈ out ↔ (∃ q ∈ is, ∃ d, rest[q - j]? = some d ∧ e = .insert d.id q) ∨
      (∃ q ∈ ps, ∃ s d, srcs[q.1]? = some s ∧ rest[q.2 - j]? = some d ∧ (e ∈ recur s d ∨ e ∈ pairEdit eq s d q.1 q.2)) := by
  induction h with
  | nil => simp
  | @ins j d rest p p' out ps is h ih =>
    have hi : ∀ q ∈ is, ∀ x, (d :: rest)[q - j]? = some x ↔ rest[q - (j + 1)]? = some x := by
      intro q hq x
      have := (h.indices.2.1 q hq).1
      rw [show q - j = (q - (j + 1)) + 1 by omega]
      simp
    have hp : ∀ q ∈ ps, ∀ x, (d :: rest)[q.2 - j]? = some x ↔ rest[q.2 - (j + 1)]? = some x := by
      intro q hq x
      have := (h.indices.1 q hq).1
      rw [show q.2 - j = (q.2 - (j + 1)) + 1 by omega]
      simp
    rw [List.mem_cons, ih]
    constructor
    · rintro (h1 | ⟨q, hq, x, h2, h3⟩ | ⟨q, hq, s, x, h2, h3, h4⟩)
      · exact .inl ⟨j, by simp, d, by simp, h1⟩
      · exact .inl ⟨q, by simp [hq], x, (hi q hq x).2 h2, h3⟩
      · exact .inr ⟨q, hq, s, x, h2, (hp q hq x).2 h3, h4⟩
    · rintro (⟨q, hq, x, h2, h3⟩ | ⟨q, hq, s, x, h2, h3, h4⟩)
      · rcases List.mem_cons.1 hq with e1 | hq
        · subst e1
          simp at h2
          subst h2
          exact .inl h3
        · exact .inr (.inl ⟨q, hq, x, (hi q hq x).1 h2, h3⟩)
      · exact .inr (.inr ⟨q, hq, s, x, h2, (hp q hq x).1 h3, h4⟩)
  | @mat j d rest p p' out ps is i s hs hpp hk h ih =>
    have hi : ∀ q ∈ is, ∀ x, (d :: rest)[q - j]? = some x ↔ rest[q - (j + 1)]? = some x := by
      intro q hq x
      have := (h.indices.2.1 q hq).1
      rw [show q - j = (q - (j + 1)) + 1 by omega]
      simp
    have hp : ∀ q ∈ ps, ∀ x, (d :: rest)[q.2 - j]? = some x ↔ rest[q.2 - (j + 1)]? = some x := by
      intro q hq x
      have := (h.indices.1 q hq).1
      rw [show q.2 - j = (q.2 - (j + 1)) + 1 by omega]
      simp
    rw [List.mem_append, List.mem_append, ih]
    constructor
    · rintro (h1 | ⟨q, hq, x, h2, h3⟩ | ⟨q, hq, s, x, h2, h3, h4⟩)
      · exact .inr ⟨(i, j), by simp, s, d, hs, by simp, h1⟩
      · exact .inl ⟨q, hq, x, (hi q hq x).2 h2, h3⟩
      · exact .inr ⟨q, by simp [hq], s, x, h2, (hp q hq x).2 h3, h4⟩
    · rintro (⟨q, hq, x, h2, h3⟩ | ⟨q, hq, s', x, h2, h3, h4⟩)
      · exact .inr (.inl ⟨q, hq, x, (hi q hq x).1 h2, h3⟩)
      · rcases List.mem_cons.1 hq with e1 | hq
        · subst e1
          rw [hs] at h2
          obtain rfl := Option.some.inj h2
          simp at h3
          subst h3
          exact .inl h4
        · exact .inr (.inr ⟨q, hq, s', x, h2, (hp q hq x).1 h3, h4⟩)
end

theorem mem_deletes {processed : List Nat} {e : Edit} :
    ∀ (rest : List T) (i : Nat), e ∈ deletes processed i rest ↔
      ∃ k s, rest[k]? = some s ∧ s.id ∉ processed ∧ e = .delete s.id (i + k)
  | [], i => by simp [deletes]
  | s :: rest, i => by
    unfold deletes
    rw [List.mem_append, mem_deletes rest (i + 1)]
    constructor
    · rintro (h | ⟨k, s', h1, h2, h3⟩)
      · split at h
        · simp at h
        · rename_i hc
          exact ⟨0, s, rfl, by simpa using hc, by simpa using h⟩
      · exact ⟨k + 1, s', by simpa using h1, h2, by rw [h3]; congr 1; omega⟩
    · rintro ⟨k, s', h1, h2, h3⟩
      cases k with
      | zero =>
        simp at h1
        subst h1
        left
        rw [if_neg (by simpa using h2)]
        simpa using h3
      | succ k => exact .inr ⟨k, s', by simpa using h1, h2, by rw [h3]; congr 1; omega⟩

end Verif.AstDiff
