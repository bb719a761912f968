import Verif.Select.Direct

/-! # Paths with indirect links only

All searches below one match share the set of visited positions.  It stays closed under parents
(`Closed`), so that nothing below a position that was not visited has been visited, and all
chains that start at visited positions have been reported (`Done`). -/

namespace Verif.Select

variable {L : Type}

theorem Kid.unique {ks : Doc L false} {i f g : Nat} {t u : Doc L true} (h : Kid ks i f t) (h' : Kid ks i g u) : t = u := by
  induction h with
  | here => cases h'; rfl
  | there _ ih =>
    cases h' with
    | there h' => exact ih h'

theorem within_eq_pos {a b : At L} (h : Within a b) (he : b.pos = a.pos) : b = a := by
  rcases Relation.ReflTransGen.cases_head h with h | ⟨c, h1, h2⟩
  · exact h.symm
  · exact absurd he.symm (below_pos (below_iff.2 ⟨c, h1, h2⟩)).2

theorem within_unique {r a b : At L} (ha : Within r a) (hb : Within r b) (he : a.pos = b.pos) : a = b := by
  induction hb generalizing a with
  | refl => exact within_eq_pos ha he
  | @tail b' b hb hc ih =>
    rcases Relation.ReflTransGen.cases_tail ha with h | ⟨a', h1, h2⟩
    · subst h
      have := (below_pos (Relation.TransGen.tail' hb hc)).2
      exact absurd he this
    · obtain ⟨f, l, ks, i, d1, k1, p1⟩ := hc
      obtain ⟨g, l', ks', j, d2, k2, p2⟩ := h2
      rw [p1, p2] at he
      have he := List.append_inj' he rfl
      obtain rfl := ih h1 he.1
      rw [d1] at d2
      injection d2 with _ d2
      subst d2
      injection he.2 with hij
      subst hij
      have := k1.unique k2
      cases a
      cases b
      simp_all

/-- The node at a position on the way. -/
theorem within_between {a b : At L} (h : Within a b) {u : List Nat} (h1 : a.pos <+: u) (h2 : u <+: b.pos) :
    ∃ w, Within a w ∧ w.pos = u ∧ Within w b := by
  induction h with
  | refl => exact ⟨a, .refl, h1.eq_of_length_le h2.length_le, .refl⟩
  | @tail b' b hb hc ih =>
    obtain ⟨i, hp⟩ := child_pos hc
    rw [hp, List.prefix_concat_iff] at h2
    rcases h2 with h2 | h2
    · exact ⟨b, .tail hb hc, by rw [hp, h2], .refl⟩
    · obtain ⟨w, w1, w2, w3⟩ := ih h2
      exact ⟨w, w1, w2, .tail w3 hc⟩

theorem within_of_prefix {r a b : At L} (ha : Within r a) (hb : Within r b) (h : a.pos <+: b.pos) : Within a b := by
  obtain ⟨w, w1, w2, w3⟩ := within_between hb (within_pos ha) h
  rw [← within_unique w1 ha w2]
  exact w3

/-- Strict prefix. -/
def Under (x u : List Nat) : Prop := x <+: u ∧ x ≠ u

theorem below_of_under {r a b : At L} (ha : Within r a) (hb : Within r b) (h : Under a.pos b.pos) : Below a b := by
  rcases Relation.ReflTransGen.cases_head (within_of_prefix ha hb h.1) with h' | ⟨c, h1, h2⟩
  · subst h'
    exact absurd rfl h.2
  · exact below_iff.2 ⟨c, h1, h2⟩

theorem dfs_sorted {b : Bool} (d : Doc L b) : ∀ (p : List Nat) (i : Nat), (dfs d p i).Pairwise Before := by
  induction d with
  | node l ks ih =>
    intro p i
    refine List.Pairwise.cons ?_ (ih p 0)
    intro a ha
    obtain ⟨j, _, h⟩ := dfs_kids_pos ha
    refine lex_prefix ((List.prefix_append _ _).trans h) ?_
    intro he
    have h := h.length_le
    rw [← he] at h
    simp at h
    omega
  | nil => intro p i; exact .nil
  | cons g t rest ih1 ih2 =>
    intro p i
    simp only [dfs]
    rw [List.pairwise_append]
    refine ⟨ih1 _ _, ih2 _ _, ?_⟩
    intro x hx y hy
    obtain ⟨j, hj, h2⟩ := dfs_kids_pos hy
    exact lex_siblings (by omega : i < j) (dfs_doc_pos hx) h2

theorem subnodesDFS_sorted (a : At L) : a.subnodesDFS.Pairwise Before := by
  obtain ⟨p, d⟩ := a
  cases d
  exact dfs_sorted _ _ _

theorem lex_asymm : ∀ {x y : List Nat}, List.Lex (· < ·) x y → ¬ List.Lex (· < ·) y x
  | _, _, .nil, h => by cases h
  | _, _, .rel h, .rel h' => absurd h (Nat.lt_asymm h')
  | _, _, .rel h, .cons _ => Nat.lt_irrefl _ h
  | _, _, .cons _, .rel h => Nat.lt_irrefl _ h
  | _, _, .cons h, .cons h' => lex_asymm h h'

theorem sorted_pre {l pre post : List (At L)} {w b : At L} (hs : l.Pairwise Before) (hl : l = pre ++ b :: post) (hw : w ∈ l)
    (hb : Before w b) : w ∈ pre := by
  subst hl
  rcases List.mem_append.1 hw with h | h
  · exact h
  · rcases List.mem_cons.1 h with rfl | h
    · exact absurd hb lex_irrefl
    · have := (List.pairwise_cons.1 (List.pairwise_append.1 hs).2.1).1 w h
      exact absurd this (lex_asymm hb)

/-- With a position all positions above it, down from `x`. -/
def Closed (x : List Nat) (V : List (List Nat)) : Prop := ∀ q ∈ V, ∀ u, Under x u → u <+: q → u ∈ V

/-- The positions between `x` and `q`. -/
def Above (x q : List Nat) (V : List (List Nat)) : Prop := ∀ u, Under x u → u <+: q → u ≠ q → u ∈ V

/-- All ends of chains that start at visited positions are reported. -/
def Done (r : At L) (E : At L → At L → Prop) (x : List Nat) (V : List (List Nat)) (M : List (At L)) : Prop :=
  ∀ v n, Within r v → Under x v.pos → v.pos ∈ V → E v n → n ∈ M

/-- The new reports. -/
structure News (st st' : St L) (V V' : List (List Nat)) (new : List (At L)) : Prop where
  vis : st'.visited = some V'
  sub : ∀ q ∈ V, q ∈ V'
  found : st'.found = st.found ++ new
  nodup : (new.map (·.pos)).Nodup
  fresh : ∀ n ∈ new, n.pos ∉ V ∧ n.pos ∈ V'

theorem News.refl {st : St L} {V} (h : st.visited = some V) : News st st V V [] :=
  ⟨h, fun _ h => h, by simp, by simp, by simp⟩

theorem News.trans {st st1 st2 : St L} {V V1 V2 n1 n2} (h1 : News st st1 V V1 n1) (h2 : News st1 st2 V1 V2 n2) :
    News st st2 V V2 (n1 ++ n2) where
  vis := h2.vis
  sub q h := h2.sub q (h1.sub q h)
  found := by rw [h2.found, h1.found, List.append_assoc]
  nodup := by
    rw [List.map_append, List.nodup_append]
    refine ⟨h1.nodup, h2.nodup, ?_⟩
    rintro x hx y hy rfl
    obtain ⟨a, ha, rfl⟩ := List.mem_map.1 hx
    obtain ⟨b, hb, he⟩ := List.mem_map.1 hy
    exact (h2.fresh b hb).1 (he ▸ (h1.fresh a ha).2)
  fresh n hn := by
    rcases List.mem_append.1 hn with hn | hn
    · exact ⟨(h1.fresh n hn).1, h2.sub _ (h1.fresh n hn).2⟩
    · exact ⟨fun h => (h2.fresh n hn).1 (h1.sub _ h), (h2.fresh n hn).2⟩

theorem Done.mono {r : At L} {E x V M M'} (h : Done r E x V M) (hM : ∀ n ∈ M, n ∈ M') : Done r E x V M' :=
  fun v n h1 h2 h3 h4 => hM n (h v n h1 h2 h3 h4)

/-- A search with a visited set that finds all ends. -/
def Covers (r : At L) (E : At L → At L → Prop) (f : At L → St L → Except Err (Bool × St L)) : Prop :=
  ∀ x a st V M, Within r a → Under x a.pos → st.visited = some V → Closed x V → Above x a.pos V → Done r E x V M →
    ∃ m st' V' new, f a st = .ok (m, st') ∧ News st st' V V' new ∧ Closed x V' ∧ Done r E x V' (M ++ new) ∧
      a.pos ∈ V' ∧ (∀ q ∈ V', q ∈ V ∨ a.pos <+: q) ∧ ∀ n ∈ new, Within a n

theorem anyOf_covers {r : At L} {E : At L → At L → Prop} {f} (hf : Covers r E f) (x : List Nat) :
    ∀ (l : List (At L)) st V M, (∀ b ∈ l, Within r b ∧ Under x b.pos) →
      (∀ pre b post, l = pre ++ b :: post → ∀ u, Under x u → u <+: b.pos → u ≠ b.pos → u ∈ V ∨ ∃ b' ∈ pre, b'.pos = u) →
      st.visited = some V → Closed x V → Done r E x V M →
      ∃ m st' V' new, anyOf f l st = .ok (m, st') ∧ News st st' V V' new ∧ Closed x V' ∧ Done r E x V' (M ++ new) ∧
        (∀ b ∈ l, b.pos ∈ V') ∧ (∀ q ∈ V', q ∈ V ∨ ∃ b ∈ l, b.pos <+: q) ∧ ∀ n ∈ new, ∃ b ∈ l, Within b n := by
  intro l
  induction l with
  | nil =>
    intro st V M _ _ hv hc hd
    exact ⟨false, st, V, [], rfl, .refl hv, hc, by simpa using hd, by simp, fun q h => .inl h, by simp⟩
  | cons a as ih =>
    intro st V M hl hp hv hc hd
    obtain ⟨h1, h2⟩ := hl a (by simp)
    obtain ⟨m1, st1, V1, n1, e1, N1, c1, d1, a1, q1, w1⟩ := hf x a st V M h1 h2 hv hc
      (fun u hu h3 h4 => by
        rcases hp [] a as rfl u hu h3 h4 with h | ⟨b, hb, _⟩
        · exact h
        · cases hb) hd
    obtain ⟨m2, st2, V2, n2, e2, N2, c2, d2, a2, q2, w2⟩ := ih st1 V1 (M ++ n1) (fun b hb => hl b (by simp [hb]))
      (fun pre b post he u hu h3 h4 => by
        rcases hp (a :: pre) b post (by rw [he]; rfl) u hu h3 h4 with h | ⟨b', hb', h⟩
        · exact .inl (N1.sub _ h)
        · rcases List.mem_cons.1 hb' with rfl | hb'
          · exact .inl (h ▸ a1)
          · exact .inr ⟨b', hb', h⟩) N1.vis c1 d1
    refine ⟨m1 || m2, st2, V2, n1 ++ n2, by simp only [anyOf, e1, e2], N1.trans N2, c2, by rw [← List.append_assoc]; exact d2, ?_, ?_, ?_⟩
    · intro b hb
      rcases List.mem_cons.1 hb with rfl | hb
      · exact N2.sub _ a1
      · exact a2 b hb
    · intro q hq
      rcases q2 q hq with h | ⟨b, hb, h⟩
      · rcases q1 q h with h | h
        · exact .inl h
        · exact .inr ⟨a, by simp, h⟩
      · exact .inr ⟨b, by simp [hb], h⟩
    · intro n hn
      rcases List.mem_append.1 hn with hn | hn
      · exact ⟨a, by simp, w1 n hn⟩
      · obtain ⟨b, hb, h⟩ := w2 n hn
        exact ⟨b, by simp [hb], h⟩

/-- The loop over all nodes below `a`, started with nothing visited there. -/
theorem below_covers {r : At L} {E : At L → At L → Prop} {f} (hf : Covers r E f) {a : At L} (ha : Within r a) {st : St L}
    {V : List (List Nat)} (hv : st.visited = some V) (hV : ∀ q ∈ V, ¬ Under a.pos q) :
    ∃ m st' V' new, anyOf f a.subnodesDFS st = .ok (m, st') ∧ News st st' V V' new ∧ Closed a.pos V' ∧
      (∀ b n, Below a b → E b n → n ∈ new) ∧ (∀ b, Below a b → b.pos ∈ V') ∧
      (∀ q ∈ V', q ∈ V ∨ Under a.pos q) ∧ ∀ n ∈ new, Below a n := by
  have hin : ∀ {b}, Below a b → Within r b := fun h => Relation.ReflTransGen.trans ha h.to_reflTransGen
  obtain ⟨m, st', V', new, e, N, c, d, al, q, w⟩ := anyOf_covers hf a.pos a.subnodesDFS st V []
    (fun b hb => by
      rw [mem_subnodesDFS] at hb
      exact ⟨hin hb, below_pos hb⟩)
    (fun pre b post he u hu h3 h4 => by
      have hb : b ∈ a.subnodesDFS := by rw [he]; simp
      rw [mem_subnodesDFS] at hb
      obtain ⟨w, w1, w2, w3⟩ := within_between hb.to_reflTransGen hu.1 h3
      have hw : Below a w := below_of_under .refl w1 (by rw [w2]; exact hu)
      right
      refine ⟨w, sorted_pre (subnodesDFS_sorted a) he (mem_subnodesDFS.2 hw) (lex_prefix (by rw [w2]; exact h3) (by rw [w2]; exact h4)), w2⟩)
    hv
    (fun q hq u hu h => absurd ⟨hu.1.trans h, fun he => hu.2 (hu.1.eq_of_length_le (by rw [he]; exact h.length_le))⟩ (hV q hq))
    (fun v n h1 h2 h3 _ => absurd h2 (hV _ h3))
  simp only [mem_subnodesDFS] at al q w
  refine ⟨m, st', V', new, e, N, c, ?_, al, ?_, ?_⟩
  · intro b n hb hn
    exact d b n (hin hb) (below_pos hb) (al b hb) hn
  · intro u hu
    rcases q u hu with h | ⟨b, hb, h⟩
    · exact .inl h
    · obtain ⟨h1, h2⟩ := below_pos hb
      exact .inr ⟨h1.trans h, fun he => h2 (h1.eq_of_length_le (by rw [he]; exact h.length_le))⟩
  · intro n hn
    obtain ⟨b, hb, h⟩ := w n hn
    exact below_within hb h

/-- What `run` does at a matching node. -/
def hit (c : Cond L) (next : Option (At L → St L → Except Err (Bool × St L))) (a : At L) (st : St L) : Except Err (Bool × St L) :=
  match follow c next a st with
  | .error e => .error e
  | .ok (m, st) => .ok (m, if m && c.isTarget then { st with found := st.found ++ [a] } else st)

/-- `hit` keeps the invariants and finds the ends of chains that start at the node or below. -/
def HitCovers (r : At L) (E : At L → At L → Prop) (c : Cond L) (next : Option (At L → St L → Except Err (Bool × St L))) : Prop :=
  ∀ a st V, Within r a → Hits c a → st.visited = some V → (∀ q ∈ V, ¬ Under a.pos q) →
    ∃ m st' V' new, hit c next a st = .ok (m, st') ∧ st'.visited = some V' ∧ (∀ q ∈ V, q ∈ V') ∧ st'.found = st.found ++ new ∧
      (new.map (·.pos)).Nodup ∧ (∀ n ∈ new, n = a ∨ (Under a.pos n.pos ∧ n.pos ∈ V')) ∧ Closed a.pos V' ∧
      (∀ v n, Within a v → v.pos ∈ V' → E v n → n ∈ new) ∧ (∀ q ∈ V', q ∈ V ∨ Under a.pos q) ∧ ∀ n ∈ new, Within a n

theorem not_hits {c : Cond L} {a : At L} {r : Result} (h1 : c.check a = .ok r) (h2 : r.isMatching = false) : ¬ Hits c a := by
  rintro ⟨r', h3, h4⟩
  rw [h1] at h3
  injection h3 with h3
  subst h3
  rw [h2] at h4
  cases h4

theorem run_covers {r : At L} {E : At L → At L → Prop} {c : Cond L} {next} (hc : ∀ a, ∃ r, c.check a = .ok r)
    (hE : ∀ v n, E v n → Hits c v) (hm : HitCovers r E c next) (x : List Nat) :
    ∀ {b : Bool} (d : Doc L b) (p : List Nat) (i : Nat) st V M, st.visited = some V → Closed x V → Done r E x V M →
      (match b, d with
        | true, d => Within r ⟨p, d⟩ ∧ Under x p ∧ Above x p V
        | false, ks => (∀ j f u, Kid ks j f u → Within r ⟨p ++ [i + j], u⟩) ∧ x <+: p ∧ (∀ u, Under x u → u <+: p → u ∈ V)) →
      ∃ m st' V' new, run c next d p i st = .ok (m, st') ∧ News st st' V V' new ∧ Closed x V' ∧ Done r E x V' (M ++ new) ∧
        (∀ q ∈ V', q ∈ V ∨ p <+: q) ∧
        match b, d with
        | true, d => p ∈ V' ∧ ∀ n ∈ new, Within ⟨p, d⟩ n
        | false, ks => ∀ n ∈ new, ∃ j f u, Kid ks j f u ∧ Within ⟨p ++ [i + j], u⟩ n := by
  intro b d
  induction d with
  | node l ks ih =>
    rintro p i st V M hv hcl hd ⟨hin, hu, hab⟩
    by_cases hseen : p ∈ V
    · refine ⟨false, st, V, [], ?_, .refl hv, hcl, by simpa using hd, fun q h => .inl h, hseen, by simp⟩
      simp [run, St.seen, hv, hseen]
    · have hseen' : st.seen p = false := by simp [St.seen, hv, hseen]
      have hvis : (st.visit p).visited = some (V ++ [p]) := by simp [St.visit, hv]
      have hfo : (st.visit p).found = st.found := rfl
      have hV : ∀ q ∈ V ++ [p], ¬ Under p q := by
        intro q hq hup
        rcases List.mem_append.1 hq with hq | hq
        · exact hseen (hcl q hq p hu hup.1)
        · rw [List.mem_singleton] at hq
          exact hup.2 hq.symm
      have habove : ∀ u, Under x u → u <+: p → u ∈ V ++ [p] := by
        intro u h1 h2
        by_cases he : u = p
        · simp [he]
        · exact List.mem_append_left _ (hab u h1 h2 he)
      have hcl1 : Closed x (V ++ [p]) := by
        intro q hq u h1 h2
        rcases List.mem_append.1 hq with hq | hq
        · exact List.mem_append_left _ (hcl q hq u h1 h2)
        · rw [List.mem_singleton] at hq
          subst hq
          exact habove u h1 h2
      have N0 : News st (st.visit p) V (V ++ [p]) [] :=
        ⟨hvis, fun q h => List.mem_append_left _ h, by simp [hfo], by simp, by simp⟩
      have hq0 : ∀ q ∈ V ++ [p], q ∈ V ∨ p <+: q := by
        intro q hq
        rcases List.mem_append.1 hq with hq | hq
        · exact .inl hq
        · rw [List.mem_singleton] at hq
          exact .inr (hq ▸ List.prefix_refl _)
      obtain ⟨res, hr⟩ := hc ⟨p, .node l ks⟩
      by_cases hmatch : res.isMatching = true
      · obtain ⟨m, st', V', new, e, v', sub, fo, nd, nn, cl, dn, q, w⟩ :=
          hm ⟨p, .node l ks⟩ (st.visit p) (V ++ [p]) hin ⟨res, hr, hmatch⟩ hvis hV
        refine ⟨m, st', V', new, ?_, ?_, ?_, ?_, ?_, ?_, w⟩
        · have : run c next (.node l ks) p i st = hit c next ⟨p, .node l ks⟩ (st.visit p) := by
            simp only [run, hseen', hr, hmatch, if_true, hit]
            rfl
          rw [this, e]
        · refine ⟨v', fun q h => sub q (List.mem_append_left _ h), by rw [fo, hfo], nd, ?_⟩
          intro n hn
          rcases nn n hn with rfl | ⟨h1, h2⟩
          · exact ⟨hseen, sub _ (by simp)⟩
          · exact ⟨fun h => hV n.pos (List.mem_append_left _ h) h1, h2⟩
        · intro u hu' w hw hwu
          rcases q u hu' with h | h
          · exact sub _ (hcl1 u h w hw hwu)
          · rcases Nat.le_total w.length p.length with hle | hle
            · exact sub _ (habove w hw (List.prefix_of_prefix_length_le hwu h.1 hle))
            · have hpw := List.prefix_of_prefix_length_le h.1 hwu hle
              by_cases he : p = w
              · exact sub _ (by simp [he])
              · exact cl u hu' w ⟨hpw, he⟩ hwu
        · intro v n h1 h2 h3 h4
          rcases q _ h3 with h | h
          · rcases List.mem_append.1 h with h | h
            · exact List.mem_append_left _ (hd v n h1 h2 h h4)
            · rw [List.mem_singleton] at h
              obtain rfl := within_unique hin h1 h.symm
              exact List.mem_append_right _ (dn _ n .refl h3 h4)
          · exact List.mem_append_right _ (dn v n (within_of_prefix hin h1 h.1) h3 h4)
        · intro u hu'
          rcases q u hu' with h | h
          · exact hq0 u h
          · exact .inr h.1
        · exact sub _ (by simp)
      · have hmatch : res.isMatching = false := by simpa using hmatch
        have hnot := not_hits hr hmatch
        have hd1 : Done r E x (V ++ [p]) M := by
          intro v n h1 h2 h3 h4
          rcases List.mem_append.1 h3 with h | h
          · exact hd v n h1 h2 h h4
          · rw [List.mem_singleton] at h
            obtain rfl := within_unique hin h1 h.symm
            exact absurd (hE _ _ h4) hnot
        by_cases htry : res.tryNestedNodes = true
        · obtain ⟨m, st', V', new, e, N, cl, dn, q, w⟩ := ih p 0 (st.visit p) (V ++ [p]) M hvis hcl1 hd1
            ⟨fun j f u hk => Relation.ReflTransGen.tail hin ⟨f, l, ks, j, rfl, hk, by simp⟩, hu.1, habove⟩
          refine ⟨m, st', V', new, ?_, by simpa using N0.trans N, cl, dn, ?_, N.sub _ (by simp), ?_⟩
          · simp only [run, hseen', hr, hmatch, htry, e, if_true]
            simp
          · intro u hu'
            rcases q u hu' with h | h
            · exact hq0 u h
            · exact .inr h
          · intro n hn
            obtain ⟨j, f, u, hk, hw⟩ := w n hn
            exact Relation.ReflTransGen.head ⟨f, l, ks, j, rfl, hk, by simp⟩ hw
        · refine ⟨false, st.visit p, V ++ [p], [], ?_, N0, hcl1, by simpa using hd1, hq0, by simp, by simp⟩
          simp only [run, hseen', hr, hmatch, htry]
          simp
  | nil =>
    rintro p i st V M hv hcl hd _
    exact ⟨false, st, V, [], rfl, .refl hv, hcl, by simpa using hd, fun q h => .inl h, by simp⟩
  | cons g t rest ih1 ih2 =>
    rintro p i st V M hv hcl hd ⟨hin, hx, hab⟩
    have key : ∀ j, i + (j + 1) = i + 1 + j := by omega
    obtain ⟨m1, st1, V1, n1, e1, N1, c1, d1, q1, _, w1⟩ := ih1 (p ++ [i]) 0 st V M hv hcl hd
      ⟨hin 0 g t .here, ⟨hx.trans (List.prefix_append _ _), fun he => by
          have := hx.length_le
          rw [he] at this
          simp at this
          omega⟩, fun u hu h1 h2 => by
        rw [List.prefix_concat_iff] at h1
        rcases h1 with h1 | h1
        · exact absurd h1 h2
        · exact hab u hu h1⟩
    obtain ⟨m2, st2, V2, n2, e2, N2, c2, d2, q2, w2⟩ := ih2 p (i + 1) st1 V1 (M ++ n1) N1.vis c1 d1
      ⟨fun j f u hk => by rw [← key]; exact hin (j + 1) f u (.there hk), hx, fun u h1 h2 => N1.sub _ (hab u h1 h2)⟩
    refine ⟨m1 || m2, st2, V2, n1 ++ n2, by simp only [run, e1, e2], N1.trans N2, c2, by rw [← List.append_assoc]; exact d2, ?_, ?_⟩
    · intro q hq
      rcases q2 q hq with h | h
      · rcases q1 q h with h | h
        · exact .inl h
        · exact .inr ((List.prefix_append _ _).trans h)
      · exact .inr h
    · intro n hn
      rcases List.mem_append.1 hn with hn | hn
      · exact ⟨0, g, t, .here, w1 n hn⟩
      · obtain ⟨j, f, u, hk, hw⟩ := w2 n hn
        rw [← key] at hw
        exact ⟨j + 1, f, u, .there hk, hw⟩

/-- The end of a chain that starts at a node. -/
def Ends (cs : List (Cond L)) (v n : At L) : Prop := ∃ as, Match cs (v :: as) ∧ (v :: as).getLast? = some n

theorem ends_single {c : Cond L} {v n : At L} : Ends [c] v n ↔ Hits c v ∧ n = v := by
  constructor
  · rintro ⟨as, h, hl⟩
    cases h with
    | last h =>
      simp only [List.getLast?_singleton, Option.some.injEq] at hl
      exact ⟨h, hl.symm⟩
  · rintro ⟨h, rfl⟩
    exact ⟨[], .last h, rfl⟩

theorem ends_cons {c c' : Cond L} {cs} (hl : c.link = some .indirect) {v n : At L} :
    Ends (c :: c' :: cs) v n ↔ Hits c v ∧ ∃ w, Below v w ∧ Ends (c' :: cs) w n := by
  constructor
  · rintro ⟨as, h, hn⟩
    cases h with
    | step h1 h2 h3 h4 =>
      rw [hl] at h2
      injection h2 with h2
      subst h2
      exact ⟨h1, _, h3, _, h4, by rw [List.getLast?_cons_cons] at hn; exact hn⟩
  · rintro ⟨h1, w, h2, as, h3, h4⟩
    exact ⟨w :: as, .step h1 hl h2 h3, by rw [List.getLast?_cons_cons]; exact h4⟩

theorem ends_hits {c : Cond L} {cs} {v n : At L} (h : Ends (c :: cs) v n) : Hits c v := by
  obtain ⟨as, h, _⟩ := h
  cases h <;> assumption

theorem hit_last {r : At L} {c : Cond L} (ht : c.isTarget = true) : HitCovers r (Ends [c]) c none := by
  intro a st V ha hh hv hV
  refine ⟨true, { st with found := st.found ++ [a] }, V, [a], ?_, hv, fun _ h => h, rfl, by simp, by simp, ?_, ?_, fun q h => .inl h, ?_⟩
  · simp [hit, follow, ht]
  · intro q hq u hu h
    exact absurd ⟨hu.1.trans h, fun he => hu.2 (hu.1.eq_of_length_le (by rw [he]; exact h.length_le))⟩ (hV q hq)
  · intro v n h1 h2 h3
    obtain ⟨_, rfl⟩ := ends_single.1 h3
    have : n = a := by
      by_cases he : n.pos = a.pos
      · exact within_eq_pos h1 he
      · exact absurd ⟨within_pos h1, fun h => he h.symm⟩ (hV _ h2)
    simp [this]
  · intro n hn
    rw [List.mem_singleton] at hn
    subst hn
    exact .refl

theorem hit_cons {r : At L} {c c' : Cond L} {cs} (ht : c.isTarget = false) (hl : c.link = some .indirect)
    (hf : Covers r (Ends (c' :: cs)) (recMatches (c' :: cs))) :
    HitCovers r (Ends (c :: c' :: cs)) c (some (recMatches (c' :: cs))) := by
  intro a st V ha hh hv hV
  have hst : ({ st with visited := some (st.visited.getD []) } : St L) = st := by
    cases st
    simp only at hv
    simp [hv]
  obtain ⟨m, st', V', new, e, N, cl, dn, al, q, w⟩ := below_covers hf ha hv hV
  refine ⟨m, st', V', new, ?_, N.vis, N.sub, N.found, N.nodup, ?_, cl, ?_, q, ?_⟩
  · simp only [hit, follow, hl]
    rw [hst, e]
    simp only [ht, Bool.and_false, hv, Option.isSome_some, if_true]
    rfl
  · intro n hn
    exact .inr ⟨below_pos (w n hn), (N.fresh n hn).2⟩
  · intro v n h1 h2 h3
    obtain ⟨_, u, h4, h5⟩ := (ends_cons hl).1 h3
    exact dn u n (Relation.TransGen.trans_right h1 h4) h5
  · intro n hn
    exact (w n hn).to_reflTransGen

theorem recMatches_covers (r : At L) (cs : List (Cond L)) (hwf : WellFormed cs) (hi : AllIndirect cs) (hl : LastTarget cs) :
    Covers r (Ends cs) (recMatches cs) := by
  induction cs with
  | nil => cases hl
  | cons c cs ih =>
    cases cs with
    | nil =>
      intro x a st V M h1 h2 hv hcl hab hd
      obtain ⟨m, st', V', new, e, N, cl, dn, q, hp, w⟩ := run_covers hwf (fun v n h => ends_hits h) (hit_last hl) x
        a.doc a.pos 0 st V M hv hcl hd ⟨h1, h2, hab⟩
      exact ⟨m, st', V', new, e, N, cl, dn, hp, q, w⟩
    | cons c' cs =>
      intro x a st V M h1 h2 hv hcl hab hd
      obtain ⟨m, st', V', new, e, N, cl, dn, q, hp, w⟩ := run_covers hwf.1 (fun v n h => ends_hits h)
        (hit_cons hl.1 hi.1 (ih hwf.2.2 hi.2 hl.2)) x a.doc a.pos 0 st V M hv hcl hd ⟨h1, h2, hab⟩
      exact ⟨m, st', V', new, e, N, cl, dn, hp, q, w⟩

/-- The whole search: at least two conditions. -/
theorem recMatches_indirect (r : At L) {c c' : Cond L} {cs} (hwf : WellFormed (c :: c' :: cs))
    (hi : AllIndirect (c :: c' :: cs)) (hl : LastTarget (c :: c' :: cs)) (st : St L) (hv : st.visited = none) :
    ∃ m st' new, recMatches (c :: c' :: cs) r st = .ok (m, st') ∧ st'.found = st.found ++ new ∧ new.Nodup ∧
      ∀ a n, Through c r a → Ends (c :: c' :: cs) a n → n ∈ new := by
  have hcov := fun r => recMatches_covers r (c' :: cs) hwf.2.2 hi.2 hl.2
  obtain ⟨m, st', new, e, v, fo, pw, q, _, w⟩ := run_finds (s := false) (c := c) (next := some (recMatches (c' :: cs)))
    (Q := fun a n => ∃ w, Below a w ∧ Ends (c' :: cs) w n) (R := fun _ => False) hwf.1
    (fun a st hv _ => by
      obtain ⟨m, st', V', new, e, N, cl, dn, al, q, w⟩ := below_covers (hcov a) (a := a) .refl
        (st := { st with visited := some (st.visited.getD []) }) (V := []) (by simp [hv]) (by simp)
      refine ⟨m, { st' with visited := if st.visited.isSome then st'.visited else none }, new, ?_, ?_, N.found, ?_, ?_, ?_, ?_, ?_⟩
      · simp only [follow, hi.1, e]
      · simp [hv]
      · rintro n ⟨w', h1, h2⟩
        exact dn w' n h1 h2
      · exact False.elim
      · have := N.nodup
        rw [List.Nodup, List.pairwise_map] at this
        exact this.imp (fun h he => h (by rw [he]))
      · exact w
      · intro h
        cases h) r.doc r.pos 0 st hv
  refine ⟨m, st', new, e, fo, pw.imp (fun h => h), ?_⟩
  intro a n ht h
  obtain ⟨h1, w', h2, h3⟩ := (ends_cons hi.1).1 h
  exact q n a ht h1 (.inl ⟨w', h2, h3⟩)

end Verif.Select
