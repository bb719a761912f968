import Verif.TraceView.Model
import Mathlib.Data.List.Induction
import Mathlib.Tactic.Tauto

/-!
# Properties of the trace viewer (C211-C213)
-/

namespace Verif.TraceView

/-! ## Specification -/

/-- The number of spans which are open after the events: a begin opens one, an
end closes one if any is open. -/
def depth : List Kind → Nat
  | ks => ks.foldl (fun d k => match k with
      | .begin => d + 1
      | .end => d - 1
      | .instant => d) 0

/-- Event `j` begins the innermost span open when event `i` is recorded. -/
def Encloses (ks : List Kind) (j i : Nat) : Prop :=
  j < i ∧ ks[j]? = some .begin ∧ depth (ks.take i) = depth (ks.take j) + 1 ∧
    ∀ m, j < m → m ≤ i → depth (ks.take j) < depth (ks.take m)

/-! ## Structure of the tables -/

theorem build_snoc (ks : List Kind) (k : Kind) : build (ks ++ [k]) = step (build ks) k := by
  simp [build]

theorem depth_snoc (ks : List Kind) (k : Kind) :
    depth (ks ++ [k]) = match k with
      | .begin => depth ks + 1
      | .end => depth ks - 1
      | .instant => depth ks := by
  cases k <;> simp [depth]

theorem length_step (s : St) (k : Kind) : (step s k).recs.length = s.recs.length + 1 := by
  unfold step
  cases s.stack <;> simp

theorem length_build (ks : List Kind) : (build ks).recs.length = ks.length := by
  induction ks using List.reverseRecOn with
  | nil => rfl
  | append_singleton ks k ih => rw [build_snoc, length_step, ih]; simp

/-- The stack of open spans is a path of last children from the top (outermost
first). -/
def Path (recs : List Rec) : List Nat → List Nat → Prop
  | _, [] => True
  | ids, o :: p => ids.getLast? = some o ∧ ∃ r, recs[o]? = some r ∧ Path recs r.nested p

theorem Draws.unique {recs : List Rec} {f : Nat → Bool} {ids a b : List Nat}
    (ha : Draws recs f ids a) (hb : Draws recs f ids b) : a = b := by
  induction ha generalizing b with
  | nil => cases hb; rfl
  | shown h1 h2 _ _ i1 i2 =>
    cases hb with
    | shown g1 g2 g3 g4 =>
      rw [h1] at g1; cases g1
      rw [i1 g3, i2 g4]
    | hidden g1 g2 g3 g4 =>
      rw [h1] at g1; cases g1
      rcases h2 with h2 | h2
      · exact absurd h2 g2
      · rw [h2] at g3; cases g3
  | hidden h1 h2 h3 _ i2 =>
    cases hb with
    | shown g1 g2 g3 g4 =>
      rw [h1] at g1; cases g1
      rcases g2 with g2 | g2
      · exact absurd g2 h2
      · rw [g2] at h3; cases h3
    | hidden g1 g2 g3 g4 => rw [i2 g4]

/-- All rows are open. -/
abbrev allOpen : Nat → Bool := fun _ => true

theorem Path.mem {recs : List Rec} {ids out p : List Nat} (h : Draws recs allOpen ids out)
    (hp : Path recs ids p) : ∀ x ∈ p, x ∈ out := by
  induction h generalizing p with
  | nil =>
    cases p with
    | nil => simp
    | cons o p => simp [Path] at hp
  | hidden _ _ h => simp [allOpen] at h
  | @shown id ids r o1 o2 h1 h2 h3 h4 i1 i2 =>
    cases p with
    | nil => simp
    | cons o p =>
      obtain ⟨hl, r', hr, hp⟩ := hp
      cases ids with
      | nil =>
        simp at hl
        subst hl
        rw [h1] at hr; cases hr
        intro x hx
        rcases List.mem_cons.1 hx with rfl | hx
        · simp
        · simp [i1 hp x hx]
      | cons id' ids =>
        intro x hx
        have := i2 (p := o :: p) ⟨by simpa [List.getLast?_cons_cons] using hl, r', hr, hp⟩ x hx
        simp [this]

theorem Draws.frame {recs recs' : List Rec} {ids out : List Nat}
    (h : Draws recs allOpen ids out) (heq : ∀ x ∈ out, recs'[x]? = recs[x]?) :
    Draws recs' allOpen ids out := by
  induction h with
  | nil => exact .nil
  | hidden _ _ h => simp [allOpen] at h
  | shown h1 h2 h3 h4 i1 i2 =>
    refine .shown (by rw [heq _ (by simp)]; exact h1) h2 (i1 fun x hx => heq x (by simp [hx]))
      (i2 fun x hx => heq x (by simp [hx]))

/-- Adding a leaf to the end of the path adds its row at the end. -/
theorem Draws.extend {recs recs' : List Rec} {ids out p : List Nat} {n : Nat} {l : Nat}
    (h : Draws recs allOpen ids out) (hp : Path recs ids p) (hnd : out.Nodup)
    (hn : recs'[n]? = some { level := l, nested := [] })
    (hsame : ∀ x ∈ out, p.getLast? ≠ some x → recs'[x]? = recs[x]?)
    (hlast : ∀ o r, p.getLast? = some o → recs[o]? = some r →
      recs'[o]? = some { r with nested := r.nested ++ [n] }) :
    Draws recs' allOpen (if p = [] then ids ++ [n] else ids) (out ++ [n]) := by
  induction h generalizing p with
  | nil =>
    cases p with
    | nil =>
      have := Draws.shown (isOpen := allOpen) hn (.inl rfl) .nil .nil
      simpa using this
    | cons o p => simp [Path] at hp
  | hidden _ _ h => simp [allOpen] at h
  | @shown id ids r o1 o2 h1 h2 h3 h4 i1 i2 =>
    have hnd' := hnd
    rw [List.nodup_cons, List.nodup_append] at hnd
    obtain ⟨hid, n1, n2, ndis⟩ := hnd
    cases p with
    | nil =>
      have t := i2 (p := []) trivial n2 (fun x hx => hsame x (by simp [hx])) (by simp)
      have f := h3.frame (recs' := recs') fun x hx => hsame x (by simp [hx]) (by simp)
      have e := hsame id (by simp) (by simp)
      have := Draws.shown (e.trans h1) h2 f t
      simpa using this
    | cons o p =>
      have hmem := Path.mem (.shown h1 h2 h3 h4) hp
      obtain ⟨hl, r', hr, hp⟩ := hp
      cases ids with
      | nil =>
        simp at hl
        subst hl
        rw [h1] at hr; cases hr
        cases h4
        cases p with
        | nil =>
          have t := i1 (p := []) trivial n1
            (fun x hx _ => hsame x (by simp [hx]) (by
              simp; rintro rfl; exact hid (by simp [hx]))) (by simp)
          have e := hlast id r (by simp) h1
          have := Draws.shown (isOpen := allOpen) e (.inr rfl) (by simpa using t) .nil
          simpa using this
        | cons q p =>
          have pm := Path.mem h3 hp
          have hq : (q :: p).getLast? ≠ some id := fun hh =>
            hid (by simp [pm _ (List.mem_of_getLast? hh)])
          have t := i1 (p := q :: p) hp n1
            (fun x hx hne => hsame x (by simp [hx]) (by simpa [List.getLast?_cons_cons] using hne))
            (fun o r hh => hlast o r (by simpa [List.getLast?_cons_cons] using hh))
          have e := hsame id (by simp) (by simpa [List.getLast?_cons_cons] using hq)
          have := Draws.shown (isOpen := allOpen) (e.trans h1) (.inr rfl) (by simpa using t) .nil
          simpa using this
      | cons id' ids =>
        have hp' : Path recs (id' :: ids) (o :: p) :=
          ⟨by simpa [List.getLast?_cons_cons] using hl, r', hr, hp⟩
        have pm := Path.mem h4 hp'
        have t := i2 hp' n2 (fun x hx hne => hsame x (by simp [hx]) hne) hlast
        have f := h3.frame (recs' := recs') fun x hx => hsame x (by simp [hx]) fun hh =>
          ndis x hx x (pm x (List.mem_of_getLast? hh)) rfl
        have e := hsame id (by simp) fun hh =>
          hid (by simp [pm id (List.mem_of_getLast? hh)])
        have := Draws.shown (isOpen := allOpen) (e.trans h1) (.inr rfl) f (by simpa using t)
        simpa using this

theorem Path.prefix {recs : List Rec} {ids p q : List Nat} (h : Path recs ids (p ++ q)) :
    Path recs ids p := by
  induction p generalizing ids with
  | nil => trivial
  | cons o p ih =>
    obtain ⟨hl, r, hr, h⟩ := h
    exact ⟨hl, r, hr, ih h⟩

theorem Path.extend {recs recs' : List Rec} {ids p : List Nat} {n l : Nat}
    (hp : Path recs ids p) (hnd : p.Nodup)
    (hn : recs'[n]? = some { level := l, nested := [] })
    (hsame : ∀ x ∈ p, p.getLast? ≠ some x → recs'[x]? = recs[x]?)
    (hlast : ∀ o r, p.getLast? = some o → recs[o]? = some r →
      recs'[o]? = some { r with nested := r.nested ++ [n] }) :
    Path recs' (if p = [] then ids ++ [n] else ids) (p ++ [n]) := by
  induction p generalizing ids with
  | nil => exact ⟨by simp, _, hn, trivial⟩
  | cons o p ih =>
    obtain ⟨hl, r, hr, h⟩ := hp
    rw [List.nodup_cons] at hnd
    refine ⟨by simpa using hl, ?_⟩
    cases p with
    | nil =>
      exact ⟨_, hlast o r (by simp) hr, by simp, _, hn, trivial⟩
    | cons q p =>
      have hne : (o :: q :: p).getLast? ≠ some o := by
        rw [List.getLast?_cons_cons]
        exact fun hh => hnd.1 (List.mem_of_getLast? hh)
      refine ⟨r, (hsame o (by simp) hne).trans hr, ?_⟩
      have := ih h hnd.2
        (fun x hx hh => hsame x (by simp at hx ⊢; tauto) (by simpa [List.getLast?_cons_cons] using hh))
        (fun o r hh => hlast o r (by simpa [List.getLast?_cons_cons] using hh))
      simpa using this

structure Inv (ks : List Kind) (s : St) : Prop where
  len : s.recs.length = ks.length
  path : Path s.recs s.roots s.stack.reverse
  draws : Draws s.recs allOpen s.roots (List.range ks.length)
  desc : s.stack.Pairwise (· > ·)

theorem Inv.lt {ks : List Kind} {s : St} (h : Inv ks s) : ∀ x ∈ s.stack, x < ks.length := by
  intro x hx
  simpa using Path.mem h.draws h.path x (by simpa using hx)

/-- The table after a step: a new leaf, and the leaf among the nested events of
the innermost open span. -/
theorem step_recs (s : St) (k : Kind) (x : Nat) :
    (step s k).recs[x]? =
      if x = s.recs.length then
        some { level := s.stack.length,
               nested := if s.stack.head? = some x then [x] else [] }
      else (s.recs[x]?).map fun r =>
        if s.stack.head? = some x then { r with nested := r.nested ++ [s.recs.length] } else r := by
  have app : ∀ d : Rec, (s.recs ++ [d])[x]? =
      if x = s.recs.length then some d else s.recs[x]? := by
    intro d
    rcases Nat.lt_trichotomy x s.recs.length with h | h | h
    · rw [List.getElem?_append_left h, if_neg (by omega)]
    · subst h; simp
    · rw [if_neg (by omega), List.getElem?_eq_none (by simp; omega), List.getElem?_eq_none (by omega)]
  unfold step
  cases hs : s.stack with
  | nil =>
    simp only [List.length_nil, List.head?_nil, app]
    by_cases h : x = s.recs.length <;> simp [h]
  | cons o rest =>
    simp only [List.getElem?_modify, List.head?_cons, Option.some.injEq, app]
    by_cases h : x = s.recs.length
    · by_cases e : o = x <;> simp [h, e] <;> simp_all
    · by_cases e : o = x <;> simp [h, e]

theorem step_roots (s : St) (k : Kind) :
    (step s k).roots = if s.stack = [] then s.roots ++ [s.recs.length] else s.roots := by
  unfold step
  cases s.stack <;> simp

theorem step_stack (s : St) (k : Kind) : (step s k).stack = push k s.recs.length s.stack := by
  unfold step
  cases s.stack <;> simp

theorem Inv.step {ks : List Kind} {s : St} (h : Inv ks s) (k : Kind) :
    Inv (ks ++ [k]) (step s k) := by
  have hlt := h.lt
  have hlen := h.len
  have hn : (TraceView.step s k).recs[ks.length]? =
      some { level := s.stack.length, nested := [] } := by
    rw [step_recs, if_pos hlen.symm, if_neg]
    intro hh
    exact Nat.lt_irrefl _ (hlt _ (List.mem_of_head? hh))
  have hgl : s.stack.reverse.getLast? = s.stack.head? := by simp
  have hsame : ∀ x, x < ks.length → s.stack.reverse.getLast? ≠ some x →
      (TraceView.step s k).recs[x]? = s.recs[x]? := by
    intro x hx hne
    rw [hgl] at hne
    rw [step_recs, if_neg (by omega)]
    simp [hne]
  have hlast : ∀ o r, s.stack.reverse.getLast? = some o → s.recs[o]? = some r →
      (TraceView.step s k).recs[o]? = some { r with nested := r.nested ++ [ks.length] } := by
    intro o r hh hr
    rw [hgl] at hh
    have := hlt _ (List.mem_of_head? hh)
    rw [step_recs, if_neg (by omega), hr]
    simp [hh, hlen]
  have hroots : (TraceView.step s k).roots =
      if s.stack.reverse = [] then s.roots ++ [ks.length] else s.roots := by
    rw [step_roots, hlen]; simp
  have hpath : Path (TraceView.step s k).recs (TraceView.step s k).roots
      (s.stack.reverse ++ [ks.length]) := by
    rw [hroots]
    refine Path.extend h.path ?_ hn (fun x hx => hsame x (hlt x (by simpa using hx))) hlast
    exact List.pairwise_reverse.2 (h.desc.imp fun h => by omega)
  refine ⟨by simp [length_step, hlen], ?_, ?_, ?_⟩
  · rw [step_stack, hlen]
    cases k with
    | «begin» => simpa [push] using hpath
    | instant => exact hpath.prefix
    | «end» =>
      cases hs : s.stack with
      | nil => simp [push, Path]
      | cons o rest =>
        rw [hs] at hpath
        simp only [List.reverse_cons, List.append_assoc] at hpath
        exact hpath.prefix
  · rw [hroots]
    have := Draws.extend h.draws h.path List.nodup_range hn
      (fun x hx => hsame x (by simpa using hx)) hlast
    simpa [List.range_succ] using this
  · rw [step_stack, hlen]
    cases k with
    | «begin» => exact List.pairwise_cons.2 ⟨hlt, h.desc⟩
    | instant => exact h.desc
    | «end» => exact h.desc.tail

theorem inv_build (ks : List Kind) : Inv ks (build ks) := by
  induction ks using List.reverseRecOn with
  | nil => exact ⟨rfl, trivial, .nil, .nil⟩
  | append_singleton ks k ih => rw [build_snoc]; exact ih.step k

/-! ## Levels and parents -/

theorem take_snoc {ks : List Kind} {k : Kind} {i : Nat} (h : i ≤ ks.length) :
    (ks ++ [k]).take i = ks.take i := List.take_append_of_le_length h

theorem Encloses.unique {ks : List Kind} {a b i : Nat} (ha : Encloses ks a i)
    (hb : Encloses ks b i) : a = b := by
  obtain ⟨a1, _, a3, a4⟩ := ha
  obtain ⟨b1, _, b3, b4⟩ := hb
  rcases Nat.lt_trichotomy a b with h | h | h
  · have := a4 b h (by omega); omega
  · exact h
  · have := b4 a h (by omega); omega

theorem encloses_snoc {ks : List Kind} {k : Kind} {j i : Nat} (h : i ≤ ks.length) :
    Encloses (ks ++ [k]) j i ↔ Encloses ks j i := by
  unfold Encloses
  constructor
  · rintro ⟨a, b, c, d⟩
    rw [List.getElem?_append_left (by omega)] at b
    rw [take_snoc h, take_snoc (by omega)] at c
    refine ⟨a, b, c, fun m h1 h2 => ?_⟩
    have := d m h1 h2
    rwa [take_snoc (by omega), take_snoc (by omega)] at this
  · rintro ⟨a, b, c, d⟩
    rw [take_snoc h, take_snoc (by omega), List.getElem?_append_left (by omega)]
    refine ⟨a, b, c, fun m h1 h2 => ?_⟩
    rw [take_snoc (by omega)]
    exact d m h1 h2

def Ok (ks : List Kind) : List Nat → Prop
  | [] => True
  | o :: rest => o < ks.length ∧ ks[o]? = some .begin ∧ depth (ks.take o) = rest.length ∧
      (∀ m, o < m → m ≤ ks.length → rest.length < depth (ks.take m)) ∧ Ok ks rest

theorem Ok.snoc {ks : List Kind} {k : Kind} {st : List Nat} (h : Ok ks st)
    (hd : st.length ≤ depth (ks ++ [k])) : Ok (ks ++ [k]) st := by
  induction st with
  | nil => trivial
  | cons o rest ih =>
    obtain ⟨a, b, c, d, e⟩ := h
    simp only [List.length_cons] at hd
    refine ⟨by simp; omega, by rw [List.getElem?_append_left a]; exact b,
      by rw [take_snoc (by omega)]; exact c, fun m h1 h2 => ?_, ih e (by omega)⟩
    simp only [List.length_append, List.length_cons, List.length_nil] at h2
    rcases Nat.lt_or_ge ks.length m with hm | hm
    · rw [List.take_of_length_le (by simp; omega)]; omega
    · rw [take_snoc hm]; exact d m h1 hm

structure Inv2 (ks : List Kind) (s : St) : Prop where
  dep : s.stack.length = depth ks
  ok : Ok ks s.stack
  lev : ∀ (i : Nat) r, s.recs[i]? = some r → r.level = depth (ks.take i)
  nest : ∀ i j : Nat, (∃ r, s.recs[j]? = some r ∧ i ∈ r.nested) ↔ i < ks.length ∧ Encloses ks j i
  root : ∀ i, i ∈ s.roots ↔ i < ks.length ∧ depth (ks.take i) = 0

theorem head_encloses {ks : List Kind} {s : St} (h2 : Inv2 ks s) (j : Nat) :
    s.stack.head? = some j ↔ Encloses ks j ks.length := by
  have key : ∀ o rest, s.stack = o :: rest → Encloses ks o ks.length := by
    intro o rest hs
    have ok := h2.ok
    have dep := h2.dep
    rw [hs] at ok dep
    obtain ⟨a, b, c, d, _⟩ := ok
    refine ⟨a, b, by rw [List.take_length, c, ← dep]; simp, fun m h1 h2 => ?_⟩
    rw [c]; exact d m h1 h2
  constructor
  · intro h
    cases hs : s.stack with
    | nil => simp [hs] at h
    | cons o rest =>
      simp [hs] at h; subst h
      exact key o rest hs
  · intro h
    cases hs : s.stack with
    | nil =>
      have := h2.dep
      rw [hs] at this
      have := h.2.2.1
      rw [List.take_length] at this
      simp at *; omega
    | cons o rest =>
      rw [h.unique (key o rest hs)]; rfl

theorem Inv2.step {ks : List Kind} {s : St} (h : Inv ks s) (h2 : Inv2 ks s) (k : Kind) :
    Inv2 (ks ++ [k]) (step s k) := by
  have hlt := h.lt
  have hlen := h.len
  have hdep := h2.dep
  have dn : depth ((ks ++ [k]).take ks.length) = s.stack.length := by
    rw [take_snoc (by omega), List.take_length, hdep]
  refine ⟨?_, ?_, ?_, ?_, ?_⟩
  · rw [step_stack, depth_snoc]
    cases k <;> simp [push, hdep]
  · rw [step_stack]
    have hds := depth_snoc ks k
    cases k with
    | «begin» =>
      simp only at hds
      rw [hlen]
      refine ⟨by simp, by simp, dn, fun m m1 m2 => ?_, h2.ok.snoc (by omega)⟩
      simp only [List.length_append, List.length_cons, List.length_nil] at m2
      rw [List.take_of_length_le (by simp; omega)]; omega
    | instant => exact h2.ok.snoc (by simp only at hds; omega)
    | «end» =>
      simp only at hds
      have ok := h2.ok
      simp only [push]
      cases hs : s.stack with
      | nil => trivial
      | cons o rest =>
        rw [hs] at ok hdep
        simp only [List.length_cons] at hdep
        exact ok.2.2.2.2.snoc (by omega)
  · intro i r hr
    rw [step_recs] at hr
    split at hr
    · cases hr
      subst i
      simp only
      rw [hlen, dn]
    · cases hq : s.recs[i]? with
      | none => rw [hq] at hr; cases hr
      | some q =>
        have hi : i < s.recs.length := (List.getElem?_eq_some_iff.1 hq).1
        rw [hq] at hr
        rw [take_snoc (by omega), ← h2.lev i q hq]
        simp only [Option.map_some, Option.some.injEq] at hr
        subst hr
        split <;> rfl
  · intro i j
    have nohead : s.stack.head? ≠ some ks.length := fun hh =>
      Nat.lt_irrefl _ (hlt _ (List.mem_of_head? hh))
    have e : (∃ r, (TraceView.step s k).recs[j]? = some r ∧ i ∈ r.nested) ↔
        (∃ r, s.recs[j]? = some r ∧ i ∈ r.nested) ∨ (i = ks.length ∧ s.stack.head? = some j) := by
      rw [step_recs]
      by_cases hj : j = s.recs.length
      · have : s.recs[j]? = none := by simp; omega
        rw [if_pos hj, if_neg (by rw [hj, hlen]; exact nohead), this]
        simp only [Option.some.injEq, exists_eq_left', List.not_mem_nil, false_iff]
        rintro (⟨r, hr, _⟩ | ⟨_, hh⟩)
        · cases hr
        · rw [hj, hlen] at hh; exact nohead hh
      · rw [if_neg hj]
        cases hq : s.recs[j]? with
        | none =>
          simp only [Option.map_none]
          constructor
          · rintro ⟨r, hr, _⟩; cases hr
          · rintro (⟨r, hr, _⟩ | ⟨_, hh⟩)
            · cases hr
            · have := hlt _ (List.mem_of_head? hh)
              simp at hq; omega
        | some q =>
          simp only [Option.map_some, Option.some.injEq, exists_eq_left']
          by_cases hh : s.stack.head? = some j <;> simp [hh, hlen]
    rw [e, h2.nest, head_encloses h2]
    simp only [List.length_append, List.length_cons, List.length_nil]
    constructor
    · rintro (⟨a, b⟩ | ⟨rfl, b⟩)
      · exact ⟨by omega, (encloses_snoc (by omega)).2 b⟩
      · exact ⟨by omega, (encloses_snoc (by omega)).2 b⟩
    · rintro ⟨a, b⟩
      have b := (encloses_snoc (by omega)).1 b
      rcases Nat.lt_or_ge i ks.length with hi | hi
      · exact .inl ⟨hi, b⟩
      · have : i = ks.length := by omega
        subst this
        exact .inr ⟨rfl, b⟩
  · intro i
    rw [step_roots, hlen]
    have e : (i ∈ if s.stack = [] then s.roots ++ [ks.length] else s.roots) ↔
        i ∈ s.roots ∨ (i = ks.length ∧ s.stack = []) := by
      by_cases hs : s.stack = [] <;> simp [hs]
    rw [e, h2.root]
    simp only [List.length_append, List.length_cons, List.length_nil]
    constructor
    · rintro (⟨a, b⟩ | ⟨rfl, b⟩)
      · exact ⟨by omega, by rw [take_snoc (by omega)]; exact b⟩
      · exact ⟨by omega, by rw [dn, b]; rfl⟩
    · rintro ⟨a, b⟩
      rcases Nat.lt_or_ge i ks.length with hi | hi
      · exact .inl ⟨hi, by rwa [take_snoc (by omega)] at b⟩
      · have : i = ks.length := by omega
        subst this
        rw [dn] at b
        exact .inr ⟨rfl, List.length_eq_zero_iff.1 b⟩

theorem inv2_build (ks : List Kind) : Inv2 ks (build ks) := by
  induction ks using List.reverseRecOn with
  | nil => exact ⟨rfl, trivial, by simp [build], by simp [build], by simp [build]⟩
  | append_singleton ks k ih => rw [build_snoc]; exact ih.step (inv_build ks) k

/-! ## C211: the rows -/

/-- **C211**: with all rows open, the viewer draws each event once, in the order
in which the events were recorded. -/
theorem drawn_in_order (ks : List Kind) (out : List Nat) :
    Draws (build ks).recs allOpen (build ks).roots out ↔ out = List.range ks.length :=
  ⟨fun h => h.unique (inv_build ks).draws, fun h => h ▸ (inv_build ks).draws⟩

/-- A row can be seen: it is a row of the top, or the row of its span can be
seen and is open. -/
inductive Visible (ks : List Kind) (isOpen : Nat → Bool) : Nat → Prop where
  | top {i} : i < ks.length → depth (ks.take i) = 0 → Visible ks isOpen i
  | inside {i j} : i < ks.length → Encloses ks j i → Visible ks isOpen j → isOpen j = true →
      Visible ks isOpen i

theorem Draws.close {recs : List Rec} {ids full : List Nat} (f : Nat → Bool)
    (h : Draws recs allOpen ids full) : ∃ out, Draws recs f ids out ∧ out.Sublist full := by
  induction h with
  | nil => exact ⟨[], .nil, .slnil⟩
  | hidden _ _ h => simp [allOpen] at h
  | @shown id ids r o1 o2 h1 h2 h3 h4 i1 i2 =>
    obtain ⟨a, a1, a2⟩ := i1
    obtain ⟨b, b1, b2⟩ := i2
    by_cases hn : r.nested = [] ∨ f id = true
    · exact ⟨_, .shown h1 hn a1 b1, (a2.append b2).cons_cons id⟩
    · rw [not_or] at hn
      exact ⟨_, .hidden h1 hn.1 (by simpa using hn.2) b1,
        (b2.trans (List.sublist_append_right _ _)).cons_cons id⟩

theorem Draws.ids {recs : List Rec} {f : Nat → Bool} {ids out : List Nat}
    (h : Draws recs f ids out) : ∀ i ∈ ids, i ∈ out := by
  induction h with
  | nil => simp
  | shown _ _ _ _ _ i2 =>
    intro i hi
    rcases List.mem_cons.1 hi with rfl | hi
    · simp
    · simp [i2 i hi]
  | hidden _ _ _ _ i2 =>
    intro i hi
    rcases List.mem_cons.1 hi with rfl | hi
    · simp
    · simp [i2 i hi]

theorem Draws.closed {recs : List Rec} {f : Nat → Bool} {ids out : List Nat}
    (h : Draws recs f ids out) : ∀ (j : Nat) r, j ∈ out → recs[j]? = some r → f j = true →
      ∀ i ∈ r.nested, i ∈ out := by
  induction h with
  | nil => simp
  | shown h1 h2 h3 h4 i1 i2 =>
    intro j r hj hr hf i hi
    simp only [List.mem_cons, List.mem_append] at hj ⊢
    rcases hj with rfl | hj | hj
    · rw [h1] at hr; cases hr
      exact .inr (.inl (h3.ids i hi))
    · exact .inr (.inl (i1 j r hj hr hf i hi))
    · exact .inr (.inr (i2 j r hj hr hf i hi))
  | hidden h1 h2 h3 h4 i2 =>
    intro j r hj hr hf i hi
    simp only [List.mem_cons] at hj ⊢
    rcases hj with rfl | hj
    · rw [hf] at h3; cases h3
    · exact .inr (i2 j r hj hr hf i hi)

theorem Draws.all {recs : List Rec} {f : Nat → Bool} {ids out : List Nat} {P : Nat → Prop}
    (h : Draws recs f ids out) (hp : ∀ i ∈ ids, P i)
    (hc : ∀ (j : Nat) r, P j → recs[j]? = some r → f j = true → ∀ i ∈ r.nested, P i) :
    ∀ i ∈ out, P i := by
  induction h with
  | nil => simp
  | @shown id ids r o1 o2 h1 h2 h3 h4 i1 i2 =>
    have p0 : P id := hp _ (by simp)
    intro i hi
    simp only [List.mem_cons, List.mem_append] at hi
    rcases hi with rfl | hi | hi
    · exact p0
    · refine i1 (fun x hx => ?_) i hi
      rcases h2 with h2 | h2
      · rw [h2] at hx; cases hx
      · exact hc _ _ p0 h1 h2 x hx
    · exact i2 (fun x hx => hp x (by simp [hx])) i hi
  | hidden h1 h2 h3 h4 i2 =>
    intro i hi
    rcases List.mem_cons.1 hi with rfl | hi
    · exact hp _ (by simp)
    · exact i2 (fun x hx => hp x (by simp [hx])) i hi

/-- **C211**: whatever rows are closed, drawing ends, with the rows of the
events in the order in which they were recorded, each at most once, and these
are the rows of the top and those inside of rows which are seen and open. -/
theorem drawn_rows (ks : List Kind) (isOpen : Nat → Bool) :
    ∃ out, (∀ out', Draws (build ks).recs isOpen (build ks).roots out' ↔ out' = out) ∧
      out.Sublist (List.range ks.length) ∧ ∀ i, i ∈ out ↔ Visible ks isOpen i := by
  obtain ⟨out, h1, h2⟩ := (inv_build ks).draws.close isOpen
  have i2 := inv2_build ks
  refine ⟨out, fun out' => ⟨fun h => h.unique h1, fun h => h ▸ h1⟩, h2, fun i => ⟨?_, ?_⟩⟩
  · refine h1.all (fun i hi => ?_) (fun j r hj hr hf i hi => ?_) i
    · have := (i2.root i).1 hi
      exact .top this.1 this.2
    · have := (i2.nest i j).1 ⟨r, hr, hi⟩
      exact .inside this.1 this.2 hj hf
  · intro hv
    induction hv with
    | top a b => exact h1.ids _ ((i2.root _).2 ⟨a, b⟩)
    | inside a b _ hf ih =>
      obtain ⟨r, hr, hi⟩ := (i2.nest _ _).2 ⟨a, b⟩
      exact h1.closed _ r ih hr hf _ hi

/-! ## C212: the hierarchy -/

/-- **C212**: each event has a record, and its level is the number of spans open
when it was recorded. -/
theorem level_of (ks : List Kind) (i : Nat) :
    ((build ks).recs[i]?).map (·.level) =
      if i < ks.length then some (depth (ks.take i)) else none := by
  have hl := (inv_build ks).len
  split
  · rename_i h
    have e : (build ks).recs[i]? = some ((build ks).recs[i]) := List.getElem?_eq_getElem (by omega)
    rw [e]
    simp only [Option.map_some, Option.some.injEq]
    exact (inv2_build ks).lev i _ e
  · have : (build ks).recs[i]? = none := by simp; omega
    simp [this]

/-- **C212**: an event is nested in the event which began the innermost span
open when it was recorded, so an end is nested in the span it closes. -/
theorem nested_of (ks : List Kind) (i j : Nat) :
    (∃ r, (build ks).recs[j]? = some r ∧ i ∈ r.nested) ↔ i < ks.length ∧ Encloses ks j i :=
  (inv2_build ks).nest i j

/-- **C212**: the roots are the events recorded while no span was open. -/
theorem roots_of (ks : List Kind) (i : Nat) :
    i ∈ (build ks).roots ↔ i < ks.length ∧ depth (ks.take i) = 0 :=
  (inv2_build ks).root i

/-! ## C213: the hierarchy as a value -/

/-- The hierarchy a viewer gives shows the roots of this viewer, also after
calls on other viewers. -/
def HierarchyStatement : Prop :=
  ∀ (viewers : Nat → St) (before later : List Nat) (v : Nat),
    slotAfter viewers (before ++ v :: later) = some (v, (viewers v).roots)

/-- **C213**: false, as there is one object for all viewers. -/
theorem hierarchy_false : ¬ HierarchyStatement := by
  intro h
  have := h (fun v => if v = 0 then build [.begin, .end] else build [.instant, .instant]) [] [1] 0
  revert this
  decide +kernel

/-- **C213**, as far as it holds: it shows the roots of the viewer until another
viewer is asked. -/
theorem hierarchy_partial (viewers : Nat → St) (before later : List Nat) (v : Nat)
    (h : ∀ w ∈ later, w = v) :
    slotAfter viewers (before ++ v :: later) = some (v, (viewers v).roots) := by
  rcases List.eq_nil_or_concat later with rfl | ⟨init, w, rfl⟩
  · simp [slotAfter, getHierarchy]
  · have : w = v := h w (by simp)
    subst this
    have e : before ++ w :: init.concat w = (before ++ w :: init) ++ [w] := by simp
    rw [e]
    unfold slotAfter
    rw [List.foldl_append]
    rfl

/-! ## Concrete cases -/

/-- Two spans, one in the other, an instant in each, an end too many. -/
example : build [.begin, .instant, .begin, .instant, .end, .end, .end, .instant] =
    { recs := [⟨0, [1, 2, 5]⟩, ⟨1, []⟩, ⟨1, [3, 4]⟩, ⟨2, []⟩, ⟨2, []⟩, ⟨1, []⟩, ⟨0, []⟩, ⟨0, []⟩]
      roots := [0, 6, 7], stack := [] } := by decide +kernel

example : Encloses [.begin, .instant, .begin, .instant, .end, .end] 2 4 :=
  ((nested_of _ _ _).1 ⟨⟨1, [3, 4]⟩, by decide +kernel, by decide⟩).2

example : Draws (build [.begin, .instant, .end, .instant]).recs (fun _ => false)
    (build [.begin, .instant, .end, .instant]).roots [0, 3] :=
  .hidden (r := ⟨0, [1, 2]⟩) (by decide +kernel) (by decide) rfl
    (.shown (r := ⟨0, []⟩) (by decide +kernel) (.inl rfl) .nil .nil)

example : slotAfter (fun _ => build [.begin, .end]) [3, 0, 0] = some (0, [0]) :=
  hierarchy_partial _ [3] [0] 0 (by decide)

end Verif.TraceView
