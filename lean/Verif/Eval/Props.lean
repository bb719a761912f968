import Verif.Eval.Loop
import Verif.Imm.Props

/-!
# Evaluating the blocks of a document: C110, C111
-/

namespace Verif.Eval

open Verif.Imm

variable {D : Type}

/-! ## Depths -/

theorem depth_ofKids {n : Nat} : ∀ {l : List (Step × Tree D true)}, (∀ k ∈ l, depth k.2 ≤ n) → depth (ofKids l) ≤ n := by
  intro l
  induction l with
  | nil => intro _; simp [ofKids, depth]
  | cons k l ih =>
    intro h
    rw [ofKids, depth]
    have := h k (by simp)
    have := ih (fun x hx => h x (by simp [hx]))
    omega

theorem depth_kid {ks : Tree D false} {k : Step × Tree D true} (h : k ∈ kidList ks) : depth k.2 ≤ depth ks := by
  match ks, h with
  | .nil, h => simp [kidList] at h
  | .cons st t rest, h =>
    rw [kidList] at h
    rw [depth]
    rcases List.mem_cons.1 h with rfl | h
    · exact Nat.le_max_left _ _
    · exact Nat.le_trans (depth_kid h) (Nat.le_max_right _ _)

theorem combined_mem {X : Type} {h : Handling} {old : List X} {x y : X} (hy : y ∈ combined old x h) : y ∈ old ∨ y = x := by
  cases h <;> simp_all [combined]
  all_goals grind

theorem depth_placed (K : Kinds) (h : Handling) (out u : Tree D true) {n : Nat} (hu : depth u ≤ n) (ho : depth out + 1 ≤ n) :
    depth (placed K h out u) ≤ n := by
  cases u with
  | node k d l ks =>
    simp only [depth] at hu
    simp only [placed, withResults, depth]
    have : depth (ofKids ((kidList ks).filter (fun k' => decide (k'.1.field < K.resField k)) ++
        (combined (results (K.resField k) ks) out h).mapIdx (fun i t => ((⟨K.resField k, .idx i⟩ : Step), t)) ++
        (kidList ks).filter (fun k' => decide (K.resField k < k'.1.field)))) ≤ n - 1 := by
      apply depth_ofKids
      intro x hx
      rcases List.mem_append.1 hx with hx | hx
      · rcases List.mem_append.1 hx with hx | hx
        · have := depth_kid (List.mem_filter.1 hx).1; omega
        · obtain ⟨i, hi, rfl⟩ := List.mem_mapIdx.1 hx
          rcases combined_mem (List.getElem_mem hi) with hm | hm
          · obtain ⟨y, hy, he⟩ := List.mem_map.1 hm
            have := depth_kid (List.mem_filter.1 hy).1
            simp only
            rw [← he]
            omega
          · simp only [hm]; omega
      · have := depth_kid (List.mem_filter.1 hx).1; omega
    omega

theorem depth_substitute {new : List Step → Option (Tree D true)} {n : Nat} (hn : ∀ p t, new p = some t → depth t ≤ n)
    {b : Bool} (t : Tree D b) : ∀ p, depth (substitute new p t) ≤ depth t + n := by
  induction t with
  | node k d l ks ih =>
    intro p
    rw [substitute]
    cases hp : new p with
    | some t => simp only [depth]; have := hn p t hp; omega
    | none => simp only [depth]; have := ih p; omega
  | nil => intro p; simp [substitute, depth]
  | cons st t rest ih1 ih2 =>
    intro p
    simp only [substitute, depth]
    have := ih1 (p ++ [st])
    have := ih2 p
    omega

theorem depth_subtree {b : Bool} (t : Tree D b) : ∀ {p : List Step} {u : Tree D true}, subtree? t p = some u →
    depth u ≤ depth t := by
  induction t with
  | node k d l ks ih =>
    intro p u h
    cases p with
    | nil => rw [subtree?] at h; injection h with h; rw [h]
    | cons st p => rw [subtree?] at h; rw [depth]; have := ih h; omega
  | nil => intro p u h; rw [subtree?] at h; cases h
  | cons st t rest ih1 ih2 =>
    intro p u h
    cases p with
    | nil => rw [subtree?] at h; cases h
    | cons st' p =>
      rw [subtree?] at h
      rw [depth]
      split at h
      · have := ih1 h; omega
      · have := ih2 h; omega

variable [DecidableEq D]

theorem firstChange_depth {K : Kinds} {doc : Tree D true} {m : Nat} : ∀ {log : Log D},
    (∀ p h t, (p, some (h, t)) ∈ log → depth t ≤ m) → ∀ p t, firstChange K doc log = some (p, t) →
      depth t ≤ depth doc + m + 1 := by
  intro log
  induction log with
  | nil => intro _ p t h; rw [firstChange] at h; cases h
  | cons e log ih =>
    intro hm p t h
    obtain ⟨q, o⟩ := e
    have ih' := ih (fun p h t hx => hm p h t (by simp [hx]))
    cases o with
    | none => rw [firstChange] at h; exact ih' p t h
    | some o =>
      obtain ⟨hd, out⟩ := o
      rw [firstChange] at h
      split at h
      · exact ih' p t h
      · rename_i u hu
        split at h
        · exact ih' p t h
        · injection h with h
          injection h with _ h
          subst h
          have := depth_subtree doc hu
          have := hm q hd out (by simp)
          exact depth_placed K hd out u (by omega) (by omega)

/-! ## The run -/

/-- the documents that are evaluated, and enough steps -/
structure Fits (K : Kinds) (E : Evaluator D) (m : Nat) (doc : Tree D true) (fuel : Nat) : Prop where
  shaped : ShapedTree doc
  root : isRoot doc = true
  code : K.isCode .Document = false ∧ K.isCode .DocumentGroup = false
  outputs : ∀ n ver b h t, E n ver b = some (h, t) → ShapedTree t ∧ depth t ≤ m
  enough : 2 * depth doc + m + 2 ≤ fuel

theorem evaluate_ok {K : Kinds} {srt : List (Step × Id) → List (Step × Id)} (hsrt : Sorts srt) (hk : Keeps srt) {m fuel : Nat}
    {E : Evaluator D} {doc : Tree D true} (hF : Fits K E m doc fuel) :
    ∃ doc' out, evaluate K srt fuel E doc = .ok (doc', out) ∧ out.map (·.1.path) = codePositions K [] doc ∧
      strip doc' = strip (withChange doc (firstChange K doc (posLog out))) ∧
      ∀ i b o, out[i]? = some (b, o) →
        ∃ v u, E i v b = o ∧ subtree? doc b.path = some u ∧ Reads v.ctx.store (b := true) b.id u := by
  have hr0 : Reach srt (addRoot (start D) doc).2 := .single (.add _ _ hF.shaped)
  have hd0 : Reads (addRoot (start D) doc).2.store (b := true) (addRoot (start D) doc).1 doc := addTree_reads doc _
  have hg := reach_good hsrt hr0
  obtain ⟨f1, f2⟩ := collect_found (K := K) (good_distinct hg) (addRoot (start D) doc).1 doc (addRoot (start D) doc).1 [] fuel
    hd0 hF.shaped trivial (by have := hF.enough; omega)
  have hblocks : ∀ b ∈ collect K (addRoot (start D) doc).2.store fuel
      ⟨(addRoot (start D) doc).1, (addRoot (start D) doc).1, []⟩,
      ∃ u, IsBlock (addRoot (start D) doc).2.store (addRoot (start D) doc).1 doc b u := by
    intro b hb
    obtain ⟨r1, q, k, d, l, ks, r2, r3, r4, r5⟩ := f2 b hb
    rw [List.nil_append] at r2
    refine ⟨.node k d l ks, r1, by rw [r2]; exact r3, by rw [r2]; exact r4, ?_⟩
    rw [r2]
    rintro rfl
    rw [subtree?] at r4
    injection r4 with r4
    have hrt := hF.root
    rw [r4] at hrt
    simp only [isRoot, decide_eq_true_eq] at hrt
    rcases hrt with rfl | rfl
    · rw [hF.code.1] at r5; cases r5
    · rw [hF.code.2] at r5; cases r5
  obtain ⟨ver, out, e1, e2, e3, e4⟩ := evalLoop_ok (K := K) hsrt hk (fuel := fuel) (m := m) (E := E)
    hF.outputs (root := (addRoot (start D) doc).1) hF.root
    (by have := hF.enough; omega)
    _ 0 ⟨(addRoot (start D) doc).1, (addRoot (start D) doc).2⟩ none ⟨hr0, hd0, hd0, by simp⟩ hblocks
  have hor : orFirst none (firstChange K doc (posLog out)) = firstChange K doc (posLog out) := rfl
  rw [hor] at e3
  have hdep : depth (withChange doc (firstChange K doc (posLog out))) ≤ fuel := by
    have hfu := hF.enough
    have hfd := firstChange_depth (K := K) (doc := doc) (m := m) (log := posLog out) (by
      intro p h t hp
      obtain ⟨x, hx, he⟩ := List.mem_map.1 hp
      obtain ⟨b, o⟩ := x
      injection he with he1 he2
      obtain ⟨i, hi⟩ := List.getElem?_of_mem hx
      obtain ⟨v, u, h1, _⟩ := e4 i b o hi
      rw [show o = some (h, t) from he2] at h1
      exact (hF.outputs _ _ _ _ _ h1).2)
    cases hc : firstChange K doc (posLog out) with
    | none => simp only [withChange]; omega
    | some c =>
      obtain ⟨p, t⟩ := c
      simp only [withChange]
      have := depth_substitute (new := putAt p t) (n := depth doc + m + 1) (by
        intro q x hx
        unfold putAt at hx
        split at hx
        · injection hx with hx
          subst hx
          exact hfd p t hc
        · cases hx) doc []
      omega
  obtain ⟨doc', g1, g2⟩ := reads_get e3.now fuel hdep
  refine ⟨doc', out, ?_, ?_, g2, ?_⟩
  · unfold evaluate
    have hst : (⟨[], fun _ => none⟩ : Ctx D) = start D := rfl
    simp only [hst]
    rw [e1]
    simp only
    rw [g1]
  · rw [← f1, ← e2, List.map_map]
    rfl
  · intro i b o hio
    obtain ⟨v, u, h1, h2, h3⟩ := e4 i b o hio
    exact ⟨v, u, by rw [Nat.zero_add] at h1; exact h1, h2, h3⟩

/-! ## Positions -/

/-- the positions of the blocks lie at or below the position, below one of the children -/
def Within (p : List Step) (q : List Step) : {b : Bool} → Tree D b → Prop
  | true, _ => p <+: q
  | false, ts => ∃ st ∈ steps ts, ∃ r, q = p ++ st :: r

theorem codePositions_within {K : Kinds} {b : Bool} (t : Tree D b) : ∀ {p q : List Step}, q ∈ codePositions K p t →
    Within p q t := by
  induction t with
  | node k d l ks ih =>
    intro p q h
    rw [codePositions] at h
    rcases List.mem_append.1 h with h | h
    · split at h
      · rw [List.mem_singleton] at h; subst h; exact List.prefix_refl _
      · cases h
    · obtain ⟨st, _, r, rfl⟩ := ih h
      exact List.prefix_append _ _
  | nil => intro p q h; rw [codePositions] at h; cases h
  | cons st t rest ih1 ih2 =>
    intro p q h
    rw [codePositions] at h
    rcases List.mem_append.1 h with h | h
    · obtain ⟨r, rfl⟩ := ih1 h
      exact ⟨st, by simp [steps], r, by simp⟩
    · obtain ⟨st', h1, r, rfl⟩ := ih2 h
      exact ⟨st', by simp [steps, h1], r, rfl⟩

theorem codePositions_nodup {K : Kinds} {b : Bool} (t : Tree D b) : ∀ p, ShapedTree t → Apart' t →
    (codePositions K p t).Nodup := by
  induction t with
  | node k d l ks ih =>
    intro p hsh _
    rw [codePositions, List.nodup_append]
    refine ⟨by split <;> simp, ih p hsh.2 (shaped_nodup hsh.1), ?_⟩
    intro a ha b hb
    split at ha
    · rw [List.mem_singleton] at ha
      subst ha
      obtain ⟨st, _, r, rfl⟩ := codePositions_within ks hb
      simp
    · cases ha
  | nil => intro p _ _; rw [codePositions]; exact List.nodup_nil
  | cons st t rest ih1 ih2 =>
    intro p hsh hap
    have hap : (steps (.cons st t rest)).Nodup := hap
    rw [steps, List.nodup_cons] at hap
    rw [codePositions, List.nodup_append]
    refine ⟨ih1 _ hsh.1 trivial, ih2 _ hsh.2 hap.2, ?_⟩
    intro a ha b hb hab
    subst hab
    obtain ⟨r, rfl⟩ := codePositions_within t ha
    obtain ⟨st', h1, r', he⟩ := codePositions_within rest hb
    simp only [List.append_assoc, List.append_cancel_left_eq, List.singleton_append, List.cons.injEq] at he
    rw [he.1] at hap
    exact hap.1 h1

theorem steps_of_subtree {st : Step} {r : List Step} {u : Tree D true} (ts : Tree D false)
    (h : subtree? ts (st :: r) = some u) : st ∈ steps ts := by
  match ts, h with
  | .nil, h => rw [subtree?] at h; cases h
  | .cons st' t rest, h =>
    rw [subtree?] at h
    split at h
    · rename_i he; simp [steps, he]
    · simp [steps, steps_of_subtree rest h]

theorem subtree_rest {st : Step} {t : Tree D true} {rest : Tree D false} (hap : st ∉ steps rest) {r : List Step} {u : Tree D true}
    (h : subtree? rest r = some u) : subtree? (.cons st t rest) r = some u := by
  cases r with
  | nil => cases rest <;> (rw [subtree?] at h; cases h)
  | cons st' r =>
    rw [subtree?, if_neg]
    · exact h
    · rintro rfl
      exact hap (steps_of_subtree rest h)

theorem withAll_none {K : Kinds} {outs : List Step → Option (Handling × Tree D true)} {b : Bool} (t : Tree D b) :
    ∀ p, (∀ q, p <+: q → (b = false → q ≠ p) → outs q = none) → withAll K outs p t = t := by
  induction t with
  | node k d l ks ih =>
    intro p h
    rw [withAll, h p (List.prefix_refl _) (by simp), ih p (fun q hq _ => h q hq (by simp))]
  | nil => intro p _; rw [withAll]
  | cons st t rest ih1 ih2 =>
    intro p h
    rw [withAll, ih1, ih2 p h]
    intro q hq _
    refine h q ((List.prefix_append _ _).trans hq) (fun _ he => ?_)
    subst he
    have := hq.length_le
    simp only [List.length_append, List.length_singleton] at this
    omega

/-- one output only -/
theorem withAll_one {K : Kinds} {outs : List Step → Option (Handling × Tree D true)} {p : List Step} {h : Handling}
    {out u : Tree D true} (hp : outs p = some (h, out)) (hn : ∀ q, q ≠ p → outs q = none) {b : Bool} (t : Tree D b) :
    ∀ q, ShapedTree t → Apart' t → (∀ r u', p = q ++ r → subtree? t r = some u' → u' = u) → (b = false → p ≠ q) →
      withAll K outs q t = substitute (putAt p (placed K h out u)) q t := by
  induction t with
  | node k d l ks ih =>
    intro q hsh _ hu _
    by_cases hq : q = p
    · subst hq
      have := hu [] (.node k d l ks) (by simp) rfl
      rw [withAll, hp, substitute]
      simp only [putAt, if_true]
      rw [withAll_none ks q (fun q' _ hne => hn q' (hne rfl)), this]
    · rw [withAll, hn q hq, substitute]
      simp only [putAt, hq, if_false]
      rw [ih q hsh.2 (shaped_nodup hsh.1) ?_ (fun _ he => hq he.symm)]
      intro r u' h1 h2
      cases r with
      | nil => exact absurd (by simpa using h1.symm) hq
      | cons st r => exact hu (st :: r) u' h1 (by rw [subtree?]; exact h2)
  | nil => intro q _ _ _ _; rw [withAll, substitute]
  | cons st t rest ih1 ih2 =>
    intro q hsh hap hu hne
    have hap : (steps (.cons st t rest)).Nodup := hap
    rw [steps, List.nodup_cons] at hap
    rw [withAll, substitute, ih1 (q ++ [st]) hsh.1 trivial ?_ (by simp), ih2 q hsh.2 hap.2 ?_ hne]
    · intro r u' h1 h2
      exact hu r u' h1 (subtree_rest hap.1 h2)
    · intro r u' h1 h2
      refine hu (st :: r) u' (by simpa using h1) ?_
      rw [subtree?, if_pos rfl]
      exact h2

theorem substitute_same {p : List Step} {u : Tree D true} {b : Bool} (t : Tree D b) :
    ∀ q, ShapedTree t → Apart' t → (∀ r u', p = q ++ r → subtree? t r = some u' → u' = u) →
      substitute (putAt p u) q t = t := by
  induction t with
  | node k d l ks ih =>
    intro q hsh _ hu
    rw [substitute]
    by_cases hq : q = p
    · subst hq
      have := hu [] (.node k d l ks) (by simp) rfl
      simp only [putAt, if_true]
      exact this.symm
    · simp only [putAt, hq, if_false]
      congr 1
      refine ih q hsh.2 (shaped_nodup hsh.1) ?_
      intro r u' h1 h2
      cases r with
      | nil => exact absurd (by simpa using h1.symm) hq
      | cons st r => exact hu (st :: r) u' h1 (by rw [subtree?]; exact h2)
  | nil => intro q _ _ _; rw [substitute]
  | cons st t rest ih1 ih2 =>
    intro q hsh hap hu
    have hap : (steps (.cons st t rest)).Nodup := hap
    rw [steps, List.nodup_cons] at hap
    rw [substitute, ih1 (q ++ [st]) hsh.1 trivial ?_, ih2 q hsh.2 hap.2 ?_]
    · intro r u' h1 h2
      exact hu r u' h1 (subtree_rest hap.1 h2)
    · intro r u' h1 h2
      refine hu (st :: r) u' (by simpa using h1) ?_
      rw [subtree?, if_pos rfl]
      exact h2

/-! ## The properties -/

/-- **C111** the blocks and calls of a document are evaluated in the order of the document, each of them once, and each
as it is in the document before all evaluations.  Missing: sorts that are not stable, see C28. -/
theorem blocks_evaluated_partial {K : Kinds} {srt : List (Step × Id) → List (Step × Id)} (hsrt : Sorts srt) (hk : Keeps srt)
    {m fuel : Nat} {E : Evaluator D} {doc : Tree D true} (hF : Fits K E m doc fuel) :
    (codePositions K [] doc).Nodup ∧
    ∃ doc' out, evaluate K srt fuel E doc = .ok (doc', out) ∧ out.map (·.1.path) = codePositions K [] doc ∧
      ∀ i b o, out[i]? = some (b, o) → ∃ v u u', E i v b = o ∧ subtree? doc b.path = some u ∧
        Denotes v.ctx.store b.id u' ∧ strip u' = strip u := by
  refine ⟨codePositions_nodup doc [] hF.shaped trivial, ?_⟩
  obtain ⟨doc', out, h1, h2, _, h4⟩ := evaluate_ok hsrt hk hF
  refine ⟨doc', out, h1, h2, ?_⟩
  intro i b o hio
  obtain ⟨v, u, e1, e2, e3⟩ := h4 i b o hio
  obtain ⟨u', e4, e5⟩ := reads_denotes e3
  exact ⟨v, u, u', e1, e2, e4, e5⟩

/-- the positions of the blocks are where the blocks are -/
theorem codePositions_iff {K : Kinds} {b : Bool} (t : Tree D b) (hsh : ShapedTree t) (hap : Apart' t) : ∀ p q,
    (b = false → q ≠ []) →
    (p ++ q ∈ codePositions K p t ↔ ∃ k d l ks, subtree? t q = some (.node k d l ks) ∧ K.isCode k = true) := by
  induction t with
  | node k d l ks ih =>
    intro p q _
    rw [codePositions, List.mem_append]
    cases q with
    | nil =>
      rw [subtree?]
      constructor
      · rintro (h | h)
        · split at h
          · rename_i hc; exact ⟨k, d, l, ks, rfl, hc⟩
          · cases h
        · obtain ⟨st, _, r, he⟩ := codePositions_within ks h
          simp at he
      · rintro ⟨k', d', l', ks', he, hc⟩
        injection he with he
        injection he with he
        subst he
        left
        rw [if_pos hc]
        simp
    | cons st q =>
      rw [subtree?, ← ih hsh.2 (shaped_nodup hsh.1) p (st :: q) (by simp)]
      constructor
      · rintro (h | h)
        · split at h
          · simp at h
          · cases h
        · exact h
      · exact .inr
  | nil =>
    intro p q _
    rw [codePositions, subtree?]
    simp
  | cons st t rest ih1 ih2 =>
    intro p q hq
    have hap : (steps (.cons st t rest)).Nodup := hap
    rw [steps, List.nodup_cons] at hap
    cases q with
    | nil => exact absurd rfl (hq rfl)
    | cons st' q =>
      rw [codePositions, List.mem_append, subtree?]
      by_cases h : st = st'
      · subst h
        rw [if_pos rfl, ← ih1 hsh.1 trivial (p ++ [st]) q (by simp)]
        constructor
        · rintro (h | h)
          · simpa using h
          · obtain ⟨st'', h1, r, he⟩ := codePositions_within rest h
            simp only [List.append_cancel_left_eq, List.cons.injEq] at he
            rw [he.1] at hap
            exact absurd h1 hap.1
        · intro h; left; simpa using h
      · rw [if_neg h, ← ih2 hsh.2 hap.2 p (st' :: q) (by simp)]
        constructor
        · rintro (h' | h')
          · obtain ⟨r, he⟩ := codePositions_within t h'
            simp only [List.append_assoc, List.append_cancel_left_eq, List.singleton_append, List.cons.injEq] at he
            exact absurd he.1 h
          · exact h'
        · exact .inr

/-- **C111** the positions named there are exactly those of the blocks and calls -/
theorem positions_blocks {K : Kinds} {doc : Tree D true} (hsh : ShapedTree doc) (q : List Step) :
    q ∈ codePositions K [] doc ↔ ∃ k d l ks, subtree? doc q = some (.node k d l ks) ∧ K.isCode k = true := by
  have := codePositions_iff (K := K) doc hsh trivial [] q (by simp)
  simpa using this

/-- **C110** the result of every block is put into the document -/
def ResultsKeptStatement (D : Type) [DecidableEq D] : Prop :=
  ∀ (K : Kinds) (srt : List (Step × Id) → List (Step × Id)), Sorts srt → Keeps srt → ∀ (m fuel : Nat) (E : Evaluator D)
    (doc : Tree D true), Fits K E m doc fuel → ∀ doc' out, evaluate K srt fuel E doc = .ok (doc', out) →
      strip doc' = strip (withAll K (outAt (posLog out)) [] doc)

/-- **C110** what the code does: the document after the evaluation is the one before it, with the result of the first
block whose result changes the block.  Missing: the results of the other blocks, which are lost (`results_kept_false`);
sorts that are not stable, see C28. -/
theorem first_result_kept_partial {K : Kinds} {srt : List (Step × Id) → List (Step × Id)} (hsrt : Sorts srt) (hk : Keeps srt)
    {m fuel : Nat} {E : Evaluator D} {doc : Tree D true} (hF : Fits K E m doc fuel) :
    ∃ doc' out, evaluate K srt fuel E doc = .ok (doc', out) ∧
      strip doc' = strip (withChange doc (firstChange K doc (posLog out))) := by
  obtain ⟨doc', out, h1, _, h3, _⟩ := evaluate_ok hsrt hk hF
  exact ⟨doc', out, h1, h3⟩

theorem firstChange_none {K : Kinds} {doc : Tree D true} : ∀ {log : Log D}, (∀ e ∈ log, e.2 = none) →
    firstChange K doc log = none := by
  intro log
  induction log with
  | nil => intro _; rw [firstChange]
  | cons e log ih =>
    intro h
    obtain ⟨p, o⟩ := e
    have : o = none := h (p, o) (by simp)
    subst this
    rw [firstChange]
    exact ih (fun e he => h e (by simp [he]))

theorem firstChange_one {K : Kinds} {doc : Tree D true} {p : List Step} {h : Handling} {t u : Tree D true}
    (hu : subtree? doc p = some u) : ∀ {log : Log D}, (p, some (h, t)) ∈ log → (∀ e ∈ log, e.2 ≠ none → e = (p, some (h, t))) →
    firstChange K doc log = if strip (placed K h t u) = strip u then none else some (p, placed K h t u) := by
  intro log
  induction log with
  | nil => intro hm _; cases hm
  | cons e log ih =>
    intro hm hall
    have hall' : ∀ e ∈ log, e.2 ≠ none → e = (p, some (h, t)) := fun e he => hall e (by simp [he])
    by_cases hmem : (p, some (h, t)) ∈ log
    · obtain ⟨q, o⟩ := e
      cases o with
      | none => rw [firstChange]; exact ih hmem hall'
      | some o =>
        have := hall (q, some o) (by simp) (by simp)
        injection this with e1 e2
        subst e1
        injection e2 with e2
        subst e2
        rw [firstChange, hu]
        simp only
        rw [ih hmem hall']
        split <;> rfl
    · rcases List.mem_cons.1 hm with he | he
      · subst he
        rw [firstChange, hu]
        simp only
        rw [firstChange_none]
        intro e he
        by_contra hc
        have := hall' e he hc
        rw [this] at he
        exact hmem he
      · exact absurd he hmem

/-- **C110** when only one block gives an output, its result is put into the document, and nothing else changes. -/
theorem one_result_kept_partial {K : Kinds} {srt : List (Step × Id) → List (Step × Id)} (hsrt : Sorts srt) (hk : Keeps srt)
    {m fuel : Nat} {E : Evaluator D} {doc : Tree D true} (hF : Fits K E m doc fuel) {doc' : Tree D true}
    {out : List (Uniq × Option (Handling × Tree D true))} (hrun : evaluate K srt fuel E doc = .ok (doc', out))
    (hone : ∀ e ∈ posLog out, ∀ e' ∈ posLog out, e.2 ≠ none → e'.2 ≠ none → e = e') :
    strip doc' = strip (withAll K (outAt (posLog out)) [] doc) := by
  obtain ⟨doc'', out', h1, h2, h3, h4⟩ := evaluate_ok hsrt hk hF
  rw [hrun] at h1
  injection h1 with h1
  injection h1 with e1 e2
  subst e1 e2
  rw [h3]
  have hpaths : (posLog out).map (·.1) = codePositions K [] doc := by
    rw [← h2, posLog, List.map_map]; rfl
  have hnd : ((posLog out).map (·.1)).Nodup := by rw [hpaths]; exact codePositions_nodup doc [] hF.shaped trivial
  have hout : ∀ e ∈ posLog out, outAt (posLog out) e.1 = e.2 := by
    intro e he
    unfold outAt
    have : ∀ (l : Log D), (l.map (·.1)).Nodup → e ∈ l → l.find? (fun x => decide (x.1 = e.1)) = some e := by
      intro l
      induction l with
      | nil => intro _ h; cases h
      | cons a l ih =>
        intro hn hm
        rw [List.map_cons, List.nodup_cons] at hn
        rw [List.find?_cons]
        rcases List.mem_cons.1 hm with rfl | hm
        · simp
        · have : a.1 ≠ e.1 := fun hc => hn.1 (List.mem_map.2 ⟨e, hm, hc.symm⟩)
          simp only [this, decide_false]
          exact ih hn.2 hm
    rw [this _ hnd he]
    rfl
  have hmiss : ∀ q, (∀ e ∈ posLog out, e.2 ≠ none → e.1 ≠ q) → outAt (posLog out) q = none := by
    intro q hq
    unfold outAt
    cases hf : (posLog out).find? (fun x => decide (x.1 = q)) with
    | none => rfl
    | some e =>
      have h5 := List.mem_of_find?_eq_some hf
      have h6 := List.find?_some hf
      simp only [decide_eq_true_eq] at h6
      simp only [Option.bind_some]
      by_contra hc
      exact hq e h5 hc h6
  by_cases hex : ∃ e ∈ posLog out, e.2 ≠ none
  · obtain ⟨⟨p, o⟩, hm, ho⟩ := hex
    cases o with
    | none => exact absurd rfl ho
    | some o =>
      obtain ⟨h, t⟩ := o
      have hmem : p ∈ codePositions K [] doc := by rw [← hpaths]; exact List.mem_map.2 ⟨_, hm, rfl⟩
      obtain ⟨k, d, l, ks, hu, _⟩ := (positions_blocks hF.shaped p).1 hmem
      have hall : ∀ e ∈ posLog out, e.2 ≠ none → e = (p, some (h, t)) := fun e he hne => hone e he _ hm hne (by simp)
      have huniq : ∀ (r : List Step) (u' : Tree D true), p = [] ++ r → subtree? doc r = some u' → u' = .node k d l ks := by
        intro r u' hr hu'
        rw [List.nil_append] at hr
        subst hr
        rw [hu] at hu'
        injection hu' with hu'
        exact hu'.symm
      rw [firstChange_one hu hm hall, withAll_one (hout _ hm) ?_ doc [] hF.shaped trivial huniq (by simp)]
      · by_cases hs : strip (placed K h t (.node k d l ks)) = strip (.node k d l ks)
        · rw [if_pos hs, strip_putAt hs p doc [], substitute_same doc [] hF.shaped trivial huniq]
          rfl
        · rw [if_neg hs]
          rfl
      · intro q hq
        apply hmiss
        intro e he hne hc
        rw [hall e he hne] at hc
        exact hq hc.symm
  · have hall : ∀ e ∈ posLog out, e.2 = none := fun e he => by
      by_contra hc
      exact hex ⟨e, he, hc⟩
    rw [firstChange_none hall, withAll_none doc [] (fun q _ _ => hmiss q (fun e he hne => absurd (hall e he) hne))]
    rfl

/-! ## Two blocks -/

/-- blocks have kind 1; their results are in field 1 -/
def K₁ : Kinds := ⟨fun k => decide (k = .other 1), fun _ => 1⟩

/-- a document with two blocks without results -/
def twoBlocks : Tree Unit true :=
  .node .Document () none (.cons (subStep 0) (.node (.other 1) () none .nil)
    (.cons (subStep 1) (.node (.other 1) () none .nil) .nil))

/-- every block gives a result -/
def E₁ : Evaluator Unit := fun _ _ _ => some (.replace, .node (.other 2) () none .nil)

theorem twoBlocks_fits : Fits K₁ E₁ 1 twoBlocks 7 := by
  refine ⟨?_, rfl, ⟨rfl, rfl⟩, ?_, by decide +kernel⟩
  · simp only [twoBlocks, ShapedTree, steps]
    exact ⟨shaped2, ⟨shaped0, trivial⟩, ⟨shaped0, trivial⟩, trivial⟩
  · intro n ver b h t he
    simp only [E₁, Option.some.injEq, Prod.mk.injEq] at he
    rw [← he.2]
    simp only [ShapedTree, steps]
    exact ⟨⟨shaped0, trivial⟩, by decide +kernel⟩

theorem twoBlocks_log : ∃ doc' out, evaluate K₁ stable 7 E₁ twoBlocks = .ok (doc', out) ∧
    posLog out = [([subStep 0], some (.replace, .node (.other 2) () none .nil)),
      ([subStep 1], some (.replace, .node (.other 2) () none .nil))] ∧
    strip doc' = strip (withChange twoBlocks (firstChange K₁ twoBlocks (posLog out))) := by
  obtain ⟨doc', out, h1, h2, h3, h4⟩ := evaluate_ok stable_sorts stable_keeps twoBlocks_fits
  refine ⟨doc', out, h1, ?_, h3⟩
  have hpos : codePositions K₁ [] twoBlocks = [[subStep 0], [subStep 1]] := by decide +kernel
  rw [hpos] at h2
  match out, h2, h4 with
  | [(b0, o0), (b1, o1)], h2, h4 =>
    obtain ⟨v0, _, e0, _⟩ := h4 0 b0 o0 rfl
    obtain ⟨v1, _, e1, _⟩ := h4 1 b1 o1 rfl
    simp only [List.map_cons, List.map_nil, List.cons.injEq, and_true] at h2
    simp only [posLog, List.map_cons, List.map_nil, h2.1, h2.2, ← e0, ← e1, E₁]
  | [], h2, _ => simp at h2
  | [_], h2, _ => simp at h2
  | _ :: _ :: _ :: _, h2, _ => simp at h2

/-- **C110** fails: of two blocks with a result, only the first one gets it. -/
theorem results_kept_false : ¬ ResultsKeptStatement Unit := by
  intro h
  obtain ⟨doc', out, h1, h2, h3⟩ := twoBlocks_log
  have h4 := h K₁ stable stable_sorts stable_keeps 1 7 E₁ twoBlocks twoBlocks_fits doc' out h1
  rw [h2] at h3 h4
  rw [h3] at h4
  exact absurd h4 (by decide +kernel)

/-- one block with a result: the call of the second one gives nothing -/
def E₂ : Evaluator Unit := fun n _ _ => if n = 0 then some (.append, .node (.other 2) () none .nil) else none

example : Fits K₁ E₂ 1 twoBlocks 7 := by
  refine ⟨twoBlocks_fits.shaped, rfl, ⟨rfl, rfl⟩, ?_, by decide +kernel⟩
  intro n ver b h t he
  simp only [E₂] at he
  split at he
  · simp only [Option.some.injEq, Prod.mk.injEq] at he
    rw [← he.2]
    simp only [ShapedTree, steps]
    exact ⟨⟨shaped0, trivial⟩, by decide +kernel⟩
  · cases he

end Verif.Eval
