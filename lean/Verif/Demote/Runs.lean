import Verif.Demote.Docs
import Verif.Demote.Moved

/-! # Demoting a headline of a stored document -/

namespace Verif.Demote

open Verif.Imm
open Verif.Eval (kidList ofKids results withResults putAt kidList_ofKids isRoot isRoot_kind depth_subtree field_reads)

variable {E : Type} [DecidableEq E]

theorem reads_pos {D : Type} [DecidableEq D] {s : Store D} (hg : Good s) : ∀ {q : List Step} {root : Id} {T u : Tree D true},
    Reads s (b := true) root T → subtree? T q = some u → ∃ j, s.at root q = some j ∧ Reads s (b := true) j u := by
  intro q
  induction q with
  | nil =>
    intro root T u hT h
    rw [subtree_nil] at h
    injection h with h
    subst h
    exact ⟨root, rfl, hT⟩
  | cons st q ih =>
    intro root T u hT h
    cases T with
    | node k d l ks =>
      rw [subtree?] at h
      obtain ⟨w, h1, h2⟩ := subtree_kids h
      obtain ⟨v, e1, _, _, e4⟩ := hT
      obtain ⟨i, h3, h4⟩ := kid_reads_mem e4 h1
      obtain ⟨j, h5, h6⟩ := ih h4 h2
      exact ⟨j, by rw [Verif.Eval.at_cons (good_distinct hg) e1 h3]; exact h5, h6⟩

omit [DecidableEq E] in
theorem level?_reads {s : Store (Data E)} {i : Id} {t : Tree (Data E) true} (h : Reads s (b := true) i t) : level? s i = levelOf t := by
  cases t with
  | node k d l ks =>
    obtain ⟨v, h1, h2, h3, _⟩ := h
    have h1 : s[i]? = some v := h1
    rw [level?, h1, levelOf, ← h2, ← h3]

omit [DecidableEq E] in
theorem reads_split {s : Store (Data E)} {pre post : List (Tree (Data E) true)} {t : Tree (Data E) true} {ids : List Id}
    (h : List.Forall₂ (fun (a : Id) (b : Tree (Data E) true) => Reads s (b := true) a b) ids (pre ++ t :: post)) :
    ∃ a i b, ids = a ++ i :: b ∧ a.length = pre.length ∧
      List.Forall₂ (fun (a : Id) (b : Tree (Data E) true) => Reads s (b := true) a b) a pre ∧ Reads s (b := true) i t ∧
      List.Forall₂ (fun (a : Id) (b : Tree (Data E) true) => Reads s (b := true) a b) b post := by
  induction pre generalizing ids with
  | nil =>
    cases h with
    | cons h1 h2 => exact ⟨[], _, _, rfl, rfl, .nil, h1, h2⟩
  | cons u pre ih =>
    cases h with
    | cons h1 h2 =>
      obtain ⟨a, i, b, rfl, e2, e3, e4, e5⟩ := ih h2
      exact ⟨_ :: a, i, b, rfl, by simp [e2], .cons h1 e3, e4, e5⟩

omit [DecidableEq E] in
theorem forall₂_mem {s : Store (Data E)} {ids : List Id} {ts : List (Tree (Data E) true)}
    (h : List.Forall₂ (fun (a : Id) (b : Tree (Data E) true) => Reads s (b := true) a b) ids ts) {i : Id} (hi : i ∈ ids) :
    ∃ t ∈ ts, Reads s (b := true) i t := by
  induction h with
  | nil => simp at hi
  | cons h1 _ ih =>
    rcases List.mem_cons.1 hi with rfl | hi
    · exact ⟨_, by simp, h1⟩
    · obtain ⟨t, h2, h3⟩ := ih hi
      exact ⟨t, by simp [h2], h3⟩

omit [DecidableEq E] in
theorem last_reads {s : Store (Data E)} {ids : List Id} {ts : List (Tree (Data E) true)}
    (h : List.Forall₂ (fun (a : Id) (b : Tree (Data E) true) => Reads s (b := true) a b) ids ts) {x : Id} (hl : ids.getLast? = some x) :
    ∃ u, ts.getLast? = some u ∧ Reads s (b := true) x u := by
  induction h with
  | nil => simp at hl
  | cons h1 h2 ih =>
    rename_i i' u' is us
    cases h2 with
    | nil =>
      simp only [List.getLast?_singleton, Option.some.injEq] at hl
      subst hl
      exact ⟨u', rfl, h1⟩
    | cons h3 h4 =>
      rw [List.getLast?_cons_cons] at hl ⊢
      exact ih hl

/-- the stored nodes around a headline -/
structure Stored (s : Store (Data E)) (root : Id) (p q : List Step) (kd : Kind) (d : Data E) (loc : Option Nat) (ks : Tree (Data E) false)
    (pre : List (Tree (Data E) true)) (t : Tree (Data E) true) (post : List (Tree (Data E) true)) (idP : Id) (v : Val (Data E))
    (a : List Id) (i : Id) (b : List Id) : Prop where
  atP : s.at root q = some idP
  valP : s[idP]? = some v
  readsP : Reads s (b := true) idP (.node kd d loc ks)
  subs : v.subs = a ++ i :: b
  len : a.length = pre.length
  at' : s.at root p = some i
  pres : List.Forall₂ (fun (a : Id) (b : Tree (Data E) true) => Reads s (b := true) a b) a pre
  here : Reads s (b := true) i t
  posts : List.Forall₂ (fun (a : Id) (b : Tree (Data E) true) => Reads s (b := true) a b) b post

theorem stored {s : Store (Data E)} (hg : Good s) {root : Id} {T : Tree (Data E) true} (hT : Reads s (b := true) root T)
    {p : List Step} {lev : Int} {q : List Step} {kd : Kind} {d : Data E} {loc : Option Nat} {ks : Tree (Data E) false}
    {pre : List (Tree (Data E) true)} {t : Tree (Data E) true} {post : List (Tree (Data E) true)}
    (hs : Spot T p lev q kd d loc ks pre t post) : ∃ idP v a i b, Stored s root p q kd d loc ks pre t post idP v a i b := by
  obtain ⟨idP, h1, h2⟩ := reads_pos hg hT hs.parent
  have h2' := h2
  obtain ⟨v, e1, e2, e3, e4⟩ := h2'
  have hsubs : List.Forall₂ (fun (a : Id) (b : Tree (Data E) true) => Reads s (b := true) a b) v.subs (results 0 ks) := field_reads e4 0
  rw [hs.subs] at hsubs
  obtain ⟨a, i, b, f1, f2, f3, f4, f5⟩ := reads_split hsubs
  obtain ⟨j, g1, g2⟩ := reads_pos hg hT hs.here
  have : j = i := reads_inj (b := true) (a := j) (a' := i) hg.interned g2 f4 rfl
  exact ⟨idP, v, a, i, b, h1, e1, h2, f1, f2, by rw [← this]; exact g1, f3, f4, f5⟩

omit [DecidableEq E] in
theorem depth_kid_lt {T : Tree (Data E) true} {p : List Step} {t : Tree (Data E) true} (h : subtree? T p = some t) :
    depth t ≤ depth T := depth_subtree T h

/-- the headline stays below the same node -/
theorem reparent_stay {s0 : Store (Data E)} (hg : Good s0) {root : Id} {st : St E} (hext : s0 <+: st.ctx.store) {p q : List Step} {kd : Kind} {d : Data E}
    {loc : Option Nat} {ks : Tree (Data E) false} {pre : List (Tree (Data E) true)} {t : Tree (Data E) true}
    {post : List (Tree (Data E) true)} {idP : Id} {v : Val (Data E)} {a : List Id} {i : Id} {b : List Id}
    (hst : Stored s0 root p q kd d loc ks pre t post idP v a i b) (hp : p = q ++ [subStep pre.length]) (hi : i ∉ a) {lev : Int} {r : Replace}
    (hlr : level? st.ctx.store r.replaced.id = some (lev + 1))
    (hlast : ∀ u x, pre.getLast? = some u → levelOf u = some x → lev + 1 ≤ x) : reparent ⟨i, root, p⟩ r st = .ok st := by
  have hvP : st.ctx.store[idP]? = some v := getElem?_prefix hext hst.valP
  have hsubP : st.ctx.store.subs idP = a ++ i :: b := by
    unfold Store.subs
    rw [hvP]
    exact hst.subs
  have hpar : parent st.ctx.store ⟨i, root, p⟩ = .ok (some ⟨idP, root, q⟩) := by
    unfold parent
    have h1 : p.dropLast = q := by rw [hp]; simp
    have h2 : p.isEmpty = false := by rw [hp]; simp
    simp only [h2, h1, at_mono hext hst.atP]
    simp
  have hidx : indexOf st.ctx.store idP i = (a.length : Int) := by
    unfold indexOf
    rw [hsubP, if_pos (by simp), List.idxOf_append_of_notMem hi, List.idxOf_cons_self]
    rfl
  unfold reparent
  rw [hpar]
  simp only
  have hadj : adjacent st.ctx.store ⟨idP, root, q⟩ i (-1) = a.getLast?.map (fun x => ⟨x, root, q ++ [subStep (a.length - 1)]⟩) := by
    unfold adjacent
    simp only
    rw [hidx, hsubP]
    rcases List.eq_nil_or_concat a with rfl | ⟨a', x, rfl⟩
    · simp
    · simp only [List.concat_eq_append, List.length_append, List.length_singleton]
      have h1 : ((a'.length + 1 : Nat) : Int) + -1 = (a'.length : Int) := by omega
      rw [h1, if_pos (by omega), Int.toNat_natCast]
      simp
  rw [hadj]
  cases hl : a.getLast? with
  | none => simp
  | some x =>
    simp only [Option.map_some]
    obtain ⟨u, hu1, hu2⟩ := last_reads hst.pres hl
    rw [level?_reads (reads_mono hext hu2)]
    cases hlu : levelOf u with
    | none => rfl
    | some x' =>
      have := hlast u x' hu1 hlu
      simp only
      rw [hlr]
      simp only
      rw [if_neg (by omega)]

omit [DecidableEq E] in
theorem substitute_stay {T : Tree (Data E) true} (hT : ShapedTree T) {p : List Step} {lev : Int} {q : List Step} {kd : Kind} {d : Data E}
    {loc : Option Nat} {ks : Tree (Data E) false} {pre : List (Tree (Data E) true)} {t : Tree (Data E) true}
    {post : List (Tree (Data E) true)} (hs : Spot T p lev q kd d loc ks pre t post) (X : Tree (Data E) true) :
    substitute (putAt p X) [] T = substitute (putAt q (.node kd d loc (withResults 0 ks (pre ++ X :: post)))) [] T := by
  have := put_at (X := X) hs.shaped.1 hs.subs q T [] hT hs.parent
  rw [List.nil_append, ← hs.path] at this
  exact this

omit [DecidableEq E] in
theorem nested_sub : ∀ {q' : List Step} {T u : Tree (Data E) true}, subtree? T q' = some u → Nested none T →
    (∀ x ∈ q', x.field = 0) → Nested none u := by
  intro q'
  induction q' with
  | nil =>
    intro T u h hn _
    rw [subtree_nil] at h
    injection h with h
    rw [← h]
    exact hn
  | cons st q' ih =>
    intro T u h hn hf
    cases T with
    | node k2 d2 l2 ks2 =>
      rw [subtree?] at h
      obtain ⟨u', hu1, hu2⟩ := subtree_kids h
      rw [Nested, nested_results] at hn
      refine ih hu2 (hn.each u' ?_) (fun x hx => hf x (by simp [hx]))
      rw [results, List.mem_map]
      exact ⟨(st, u'), List.mem_filter.2 ⟨hu1, by simpa using hf st (by simp)⟩, rfl⟩

/-- **All headlines of a part that has only headlines get one star more**, the others stay as they are, in the same order,
and the new document is nested as its levels say. -/
theorem force_run {srt : List (Step × Id) → List (Step × Id)} (hk : Keeps srt) {c : Ctx (Data E)} (hg : Good c.store) {root : Id}
    {T : Tree (Data E) true} (hT : Reads c.store (b := true) root T) (hroot : isRoot T = true) (hn : Nested none T)
    {p : List Step} {lev : Int} (hm : ∃ ln, (p, ln) ∈ docLines T) {q : List Step} {kd : Kind} {d : Data E} {loc : Option Nat} {ks : Tree (Data E) false}
    {pre : List (Tree (Data E) true)} {t : Tree (Data E) true} {post : List (Tree (Data E) true)}
    (hs : Spot T p lev q kd d loc ks pre t post) (hon : OnlyHeadlines t) (hone : ∀ u ∈ pre ++ post, strip u ≠ strip t)
    {move : Move} (hmv : move ≠ .physical) {fuel : Nat} (hf : 3 + 2 * depth T ≤ fuel) :
    ∃ root' c' T', demoteVersion srt fuel c root p move = .ok (root', c') ∧ c.store <+: c'.store ∧ Reads c'.store (b := true) root' T' ∧
      docHead T' = docHead T ∧ Nested none T' ∧ (docLines T').map (·.2) = (docLines T).map (shown p) := by
  have hsh : ShapedTree T := reads_shaped hg.shaped hT
  obtain ⟨idP, v, a, i, b, hst⟩ := stored hg hT hs
  have hpne : p ≠ [] := by rw [hs.path]; simp
  have hia : i ∉ a := by
    intro hi
    obtain ⟨u, h1, h2⟩ := forall₂_mem hst.pres hi
    exact hone u (by simp [h1]) (reads_strip h2 hst.here)
  have hib : i ∉ b := by
    intro hi
    obtain ⟨u, h1, h2⟩ := forall₂_mem hst.posts hi
    exact hone u (by simp [h1]) (reads_strip h2 hst.here)
  have hinv0 : Inv c.store root ⟨c, []⟩ := ⟨hg, List.prefix_refl _, by simp, by simp⟩
  have hd := depth_kid_lt hs.here
  obtain ⟨r, st1, x1, x2, x3, x4, x5, x6, l1, x7, x8⟩ := aux_ok hg root fuel t ⟨i, root, p⟩ ⟨c, []⟩ hinv0 hon hst.here rfl hst.at' hpne
    hs.outline (by simp) (by omega)
  simp only [List.nil_append] at x7
  have hbelow : ∀ x ∈ st1.edits, p <+: x.original.path := by rw [x7]; exact x8
  have hlr : level? st1.ctx.store r.replaced.id = some (lev + 1) := by rw [level?_reads x6, levelOf_bump hs.level]
  have hdem : demote fuel c ⟨i, root, p⟩ move = reparent ⟨i, root, p⟩ r st1 := by
    unfold demote
    rw [level?_reads hst.here, hs.level]
    simp only
    rw [x1]
  have hqp : q <+: p := by rw [hs.path]; exact List.prefix_append _ _
  have hnpq : ¬ p <+: q := by
    intro h
    have := h.length_le
    rw [hs.path, List.length_append, List.length_singleton] at this
    omega
  have hnt : Nested none (bump t) := nested_bump t none hon (nested_sub hs.here hn hs.outline)
  have hlines : (lines q ks).map (shown p) = pre.flatMap plain ++ (plain (bump t) ++ post.flatMap plain) := by
    have h1 := lines_demoted (p := p) t p (List.prefix_refl _) hon
    have := lines_one hs.shaped.1 hs.subs q (new := plain (bump t)) (by rw [← hs.path]; exact h1)
    rw [← hs.path] at this
    exact this
  unfold demoteVersion Store.adapter
  rw [hst.at']
  simp only
  rw [hdem]
  by_cases hcase : ∀ u x, pre.getLast? = some u → levelOf u = some x → lev + 1 ≤ x
  · rw [reparent_stay hg (hinv0.ext.trans x2) hst hs.path hia hlr hcase]
    simp only
    obtain ⟨id', c', y1, y2, y3⟩ := case_stay hk hg x3 hT hroot (node := ⟨i, root, p⟩) hst.at' hst.here x4 x5 x6 hbelow hf
    obtain ⟨z1, z2, z3⟩ := doc_put hsh hqp hnpq hs.parent hm (ts := pre ++ bump t :: post)
      (by rw [hlines]; simp)
      (by
        intro above hab
        rw [hs.subs] at hab
        exact nestedL_stay hab hs.level (levelOf_bump hs.level) hnt hcase) rfl
    rw [← substitute_stay hsh hs] at z1 z2 z3
    exact ⟨id', c', _, y1, x2.trans y2, y3, z1, z2 hn, z3⟩
  · simp only [not_forall] at hcase
    obtain ⟨ta, la, hlast, hla, hlt⟩ := hcase
    obtain ⟨tpre, rfl⟩ : ∃ tpre, pre = tpre ++ [ta] := by
      rcases List.eq_nil_or_concat pre with h | ⟨L, b, h⟩
      · rw [h] at hlast; simp at hlast
      · rw [h, List.concat_eq_append] at hlast
        simp only [List.getLast?_append, List.getLast?_singleton, Option.some_or, Option.some.injEq] at hlast
        exact ⟨L, by rw [h, hlast, List.concat_eq_append]⟩
    obtain ⟨a1, adj, a2, e1, e2, e3, e4, e5⟩ := reads_split hst.pres
    cases e5
    subst e1
    have hst' := hst.subs
    cases ta with
    | node kA dA lA ksA =>
      have e4' := e4
      obtain ⟨va, w1, w2, w3, w4⟩ := e4
      have hkA : kA = .Subtree := by
        rw [levelOf] at hla
        split at hla
        · assumption
        · simp at hla
      have hdA : dA.1 = la := by
        rw [levelOf, if_pos hkA] at hla
        injection hla
      have hpl : Place c.store root ⟨i, root, p⟩ q idP v a1 b adj va := by
        refine ⟨rfl, ?_, hst.atP, hst.valP, ?_, ⟨?_, ?_⟩, hib, w1⟩
        · rw [hs.path, e2]; simp
        · rw [hst.subs]; simp
        · intro h; exact hia (by simp [h])
        · intro h; exact hia (by simp only at h; simp [h])
      have hqo : q = [] → rootKind c.store idP = true := by
        rintro rfl
        have := hst.atP
        rw [Store.at] at this
        injection this with this
        rw [← this]
        exact isRoot_kind hT hroot
      obtain ⟨st2, nP, nA, y1, y2⟩ := reparent_move x3 hpl hqo x4 hbelow (by rw [w2]; exact hkA) hlr (by rw [w3, hdA]; omega)
      rw [y1]
      simp only
      obtain ⟨id', c', z1, z2, z3⟩ := case_move hk x3 hT hroot hqo hpl x4 hbelow y2 hst.readsP e4' x6 e3 hst.posts hf
      have hla' : levelOf (.node kA dA lA ksA : Tree (Data E) true) = some la := hla
      obtain ⟨u1, u2, u3⟩ := doc_put hsh hqp hnpq hs.parent hm (ts := tpre ++ appended (.node kA dA lA ksA) (bump t) :: post)
        (by
          rw [hlines, List.flatMap_append, List.flatMap_append, List.flatMap_cons, List.flatMap_cons, plain_appended hla']
          simp)
        (by
          intro above hab
          rw [hs.subs, List.append_assoc] at hab
          exact nestedL_move hab hla' hs.level (by omega) (levelOf_bump hs.level) hnt) rfl
      exact ⟨id', c', _, z1, (x2.trans y2.ext).trans z2, z3, u1, u2 hn, u3⟩

omit [DecidableEq E] in
theorem lines_sub {p : List Step} {ln : Line E} {t : Tree (Data E) true} : ∀ (r : List Step) (W : Tree (Data E) true) (p0 : List Step),
    ShapedTree W → p = p0 ++ r → subtree? W r = some t → (p, ln) ∈ lines p0 W → ∀ y ∈ lines p t, y ∈ lines p0 W := by
  intro r
  induction r with
  | nil =>
    intro W p0 _ hp h _ y hy
    rw [subtree_nil] at h
    injection h with h
    subst h
    rw [List.append_nil] at hp
    rw [← hp]
    exact hy
  | cons s1 r ih =>
    intro W p0 hsh hp h hm y hy
    cases W with
    | node k d l ks =>
      rw [subtree?] at h
      obtain ⟨u, h3, h4⟩ := subtree_kids h
      have hne : p ≠ p0 := by
        intro he
        rw [he] at hp
        simp at hp
      rw [lines] at hm ⊢
      split at hm
      case isTrue hks =>
        rw [if_pos hks]
        rcases List.mem_cons.1 hm with hm | hm
        · injection hm with hm _
          exact absurd hm hne
        · obtain ⟨k4, h5, h6, h7⟩ := lines_kid hm
          have h8 : k4.1 = s1 := by
            obtain ⟨a, ha⟩ := lines_below _ _ _ h7
            simp only at ha
            rw [hp, List.append_assoc, List.append_cancel_left_eq] at ha
            simp only [List.cons_append, List.nil_append, List.cons.injEq] at ha
            exact ha.1
          have h9 : k4.2 = u := kid_unique hsh.1 (st := s1) (by rw [← h8]; exact h5) h3
          rw [h8, h9] at h7
          have := ih u (p0 ++ [s1]) (kid_shaped hsh.2 h3) (by rw [hp]; simp) h4 h7 y hy
          refine List.mem_cons_of_mem _ ?_
          rw [lines_kids, List.mem_flatMap]
          exact ⟨(s1, u), h3, by rw [if_pos (by rw [← h8]; exact h6)]; exact this⟩
      case isFalse =>
        rw [List.mem_singleton] at hm
        injection hm with hm _
        exact absurd hm hne

omit [DecidableEq E] in
theorem docLines_sub {p : List Step} {ln : Line E} {T t : Tree (Data E) true} (hsh : ShapedTree T) (hne : p ≠ [])
    (h : subtree? T p = some t) (hm : (p, ln) ∈ docLines T) : ∀ y ∈ lines p t, y ∈ docLines T := by
  intro y hy
  cases T with
  | node k d l ks =>
    have h' := lines_sub p (.node .Subtree d l ks) [] hsh (by simp) (t := t) (ln := ln)
      (by
        cases p with
        | nil => exact absurd rfl hne
        | cons st p => rw [subtree?] at h ⊢; exact h)
      (by rw [lines, if_pos rfl]; exact List.mem_cons_of_mem _ hm) y hy
    rw [lines, if_pos rfl] at h'
    rcases List.mem_cons.1 h' with h' | h'
    · exfalso
      have := lines_below _ _ _ hy
      rw [h'] at this
      simp only [List.prefix_nil] at this
      exact hne this
    · exact h'

/-- one star more for a headline, without those below it -/
def star : Tree (Data E) true → Tree (Data E) true
  | .node k d l ks => .node k (d.1 + 1, d.2) l ks

theorem withResults_self {D : Type} {ks : Tree D false} (hs : Shaped (steps ks)) : withResults 0 ks (results 0 ks) = ks := by
  apply kidList_inj
  rw [kidList_with]
  exact (kidList_split hs).symm

theorem newSubnodes_nil (ids : List Id) : newSubnodes [] ids = ids := by
  simp [newSubnodes]

/-- **One headline gets one star more** if it has no headlines below it and does not come to be below another one. -/
theorem physical_run {srt : List (Step × Id) → List (Step × Id)} (hk : Keeps srt) {c : Ctx (Data E)} (hg : Good c.store) {root : Id}
    {T : Tree (Data E) true} (hT : Reads c.store (b := true) root T) (hroot : isRoot T = true) (hn : Nested none T)
    {p : List Step} {lev : Int} (hm : ∃ ln, (p, ln) ∈ docLines T) {q : List Step} {kd : Kind} {d : Data E} {loc : Option Nat} {ks : Tree (Data E) false}
    {pre : List (Tree (Data E) true)} {t : Tree (Data E) true} {post : List (Tree (Data E) true)}
    (hs : Spot T p lev q kd d loc ks pre t post) (hno : ∀ x ∈ docLines T, p <+: x.1 → x.1 ≠ p → ∃ u, x.2 = .body u)
    (hlast : ∀ u x, pre.getLast? = some u → levelOf u = some x → lev + 1 ≤ x)
    {fuel : Nat} (hf : 3 + 2 * depth T ≤ fuel) :
    ∃ root' c' T', demoteVersion srt fuel c root p .physical = .ok (root', c') ∧ c.store <+: c'.store ∧ Reads c'.store (b := true) root' T' ∧
      docHead T' = docHead T ∧ Nested none T' ∧ (docLines T').map (·.2) = (docLines T).map (shown p) := by
  have hsh : ShapedTree T := reads_shaped hg.shaped hT
  obtain ⟨idP, v, a, i, b, hst⟩ := stored hg hT hs
  have hpne : p ≠ [] := by rw [hs.path]; simp
  have hqp : q <+: p := by rw [hs.path]; exact List.prefix_append _ _
  have hnpq : ¬ p <+: q := by
    intro h
    have := h.length_le
    rw [hs.path, List.length_append, List.length_singleton] at this
    omega
  obtain ⟨ln, hln⟩ := hm
  have hsub := docLines_sub hsh hpne hs.here hln
  have hnt := nested_sub hs.here hn hs.outline
  cases t with
  | node kt dt lt kst =>
    have hkt : kt = .Subtree := by
      have := hs.level
      rw [levelOf] at this
      split at this
      · assumption
      · simp at this
    have hlev : dt.1 = lev := by
      have := hs.level
      rw [levelOf, if_pos hkt] at this
      injection this
    have hsht : ShapedTree (.node kt dt lt kst) := reads_shaped hg.shaped hst.here
    -- no headline is directly below
    have hkid : ∀ u ∈ results 0 kst, levelOf u = none := by
      intro u hu
      cases hlu : levelOf u with
      | none => rfl
      | some x =>
        exfalso
        obtain ⟨st, h1, h2⟩ := results_of_kidList hu
        cases u with
        | node ku du lu ksu =>
          have hku : ku = .Subtree := by
            rw [levelOf] at hlu
            split at hlu
            · assumption
            · simp at hlu
          have hmem : (p ++ [st], Line.head du.1 du.2 (fields ksu)) ∈ lines p (.node kt dt lt kst) := by
            rw [lines, if_pos hkt]
            refine List.mem_cons_of_mem _ ?_
            rw [lines_kids, List.mem_flatMap]
            refine ⟨_, h2, ?_⟩
            rw [if_pos h1, lines, if_pos hku]
            simp
          obtain ⟨w, hw⟩ := hno _ (hsub _ hmem) (List.prefix_append _ _) (by simp)
          cases hw
    have hlinesk : (lines p kst).map (shown p) = (lines p kst).map (·.2) := by
      refine List.map_congr_left ?_
      intro y hy
      have hm : y ∈ lines p (.node kt dt lt kst) := by
        rw [lines, if_pos hkt]
        exact List.mem_cons_of_mem _ hy
      have hb := lines_below _ _ _ hm
      have hyp : y.1 ≠ p := by
        obtain ⟨k4, h5, h6, h7⟩ := lines_kid (x := y) hy
        intro he
        have := (lines_below _ _ _ h7).length_le
        rw [he, List.length_append, List.length_singleton] at this
        omega
      obtain ⟨u, hu⟩ := hno _ (hsub _ hm) hb hyp
      unfold shown
      rw [if_pos hb, hu]
      rfl
    have hlt : (lines p (.node kt dt lt kst)).map (shown p) = plain (star (.node kt dt lt kst)) := by
      rw [lines, star, plain, if_pos hkt, if_pos hkt, List.map_cons, hlinesk, ← lines_snd]
      unfold shown
      rw [if_pos (List.prefix_refl _)]
      rfl
    have hlines : (lines q ks).map (shown p) = pre.flatMap plain ++ (plain (star (.node kt dt lt kst)) ++ post.flatMap plain) := by
      have := lines_one hs.shaped.1 hs.subs q (new := plain (star (.node kt dt lt kst))) (by rw [← hs.path]; exact hlt)
      rw [← hs.path] at this
      exact this
    have hstn : Nested none (star (.node kt dt lt kst)) := by
      rw [Nested, nested_results] at hnt
      rw [star, Nested, nested_results]
      refine ⟨hnt.each, ?_, hnt.order⟩
      intro u hu a l _ hl
      rw [hkid u hu] at hl
      cases hl
    have hstl : levelOf (star (.node kt dt lt kst)) = some (lev + 1) := by
      rw [star, levelOf, if_pos hkt, hlev]
    obtain ⟨z1, z2, z3⟩ := doc_put hsh hqp hnpq hs.parent ⟨ln, hln⟩ (ts := pre ++ star (.node kt dt lt kst) :: post)
      (by rw [hlines]; simp)
      (by
        intro above hab
        rw [hs.subs] at hab
        exact nestedL_stay hab hs.level hstl hstn hlast) rfl
    rw [← substitute_stay hsh hs] at z1 z2 z3
    -- the run
    have hhere := hst.here
    obtain ⟨vt, w1, w2, w3, w4⟩ := hhere
    have w1 : c.store[i]? = some vt := w1
    have hsubs : List.Forall₂ (fun (a : Id) (b : Tree (Data E) true) => Reads c.store (b := true) a b) vt.subs (results 0 kst) :=
      field_reads w4 0
    have hstay : ∀ j ∈ vt.subs, stays c.store vt.data.1 j = true := by
      intro j hj
      obtain ⟨u, h1, h2⟩ := forall₂_mem hsubs hj
      unfold stays
      rw [level?_reads h2, hkid u h1]
    have hkeep : vt.subs.filter (stays c.store vt.data.1) = vt.subs := List.filter_eq_self.2 hstay
    have hout : vt.subs.filter (fun i => !stays c.store vt.data.1 i) = [] := by
      rw [List.filter_eq_nil_iff]
      intro j hj
      rw [hstay j hj]
      simp
    have hlt : ∀ j ∈ vt.subs, j < c.store.length := by
      intro j hj
      obtain ⟨u, _, h2⟩ := forall₂_mem hsubs hj
      exact Verif.Eval.reads_lt h2
    let w : Val (Data E) := { vt.setSubs vt.subs with data := (vt.data.1 + 1, vt.data.2) }
    have hread := setSubs_reads w4 hsubs
    rw [withResults_self hsht.1] at hread
    obtain ⟨n, c2, x, y1, y2, y3, y4, y5, y6, y7, y8⟩ := setNode_new hg ⟨i, root, p⟩ (w := w) w1
      ⟨setSubs_valid hg.below w1 hlt, setSubs_shaped (hg.shaped _ _ w1) vt.subs⟩
      (by
        cases hb : w.same vt with
        | false => rfl
        | true =>
          obtain ⟨_, h2, _⟩ := same_iff.1 hb
          have := congrArg Prod.fst h2
          simp only [w] at this
          omega)
    have hrn : Reads c2.store (b := true) n (star (.node kt dt lt kst)) := by
      refine ⟨x, y4, ?_, ?_, ?_⟩
      · rw [y5]; exact w2
      · rw [y6, ← w3]
      · rw [y7]
        exact reads_mono y2 hread
    let r : Replace := ⟨⟨i, root, p⟩, ⟨n, root, p⟩⟩
    have hok : ∀ s : Store (Data E), replaceOk s r = true := by
      intro s
      have h3 : r.original ≠ r.replaced := by
        intro he
        injection he with he
        exact y8 he.symm
      simp only [replaceOk, h3, ne_eq, not_false_eq_true, decide_true, Bool.and_true, Bool.and_eq_true,
        Bool.or_eq_true, Bool.not_eq_eq_eq_not, Bool.not_true, List.isEmpty_eq_false_iff]
      exact ⟨.inr hpne, .inr hpne⟩
    have hdem : demote fuel c ⟨i, root, p⟩ .physical = .ok ⟨c2, [r]⟩ := by
      unfold demote
      rw [level?_reads hst.here, hs.level]
      simp only
      unfold physical
      simp only
      rw [w1]
      simp only
      rw [hkeep, hout, newSubnodes_nil]
      unfold update
      rw [w1]
      simp only
      rw [if_pos (by rw [w2]; exact hkt), y1]
      simp only
      rw [inclOpt, incl_ok (by simp) (hok _)]
      simp [r]
    obtain ⟨id', c', u1, u2, u3⟩ := cascade_single hk y3 (reads_mono y2 hT) hroot (rs := [r]) (by simp)
      (by
        intro x hx
        rw [List.mem_singleton] at hx
        subst hx
        exact ⟨rfl, at_mono y2 hst.at'⟩) (by simp)
      (by
        intro x hx
        rw [List.mem_singleton] at hx
        subst hx
        exact hok _) (q := p) (idq := i) (at_mono y2 hst.at')
      (by
        intro x hx
        rw [List.mem_singleton] at hx
        subst hx
        exact List.prefix_refl _) (new := star (.node kt dt lt kst)) (F := 3)
      (by
        intro ps hps c1 f hpre hint hf1
        obtain ⟨m, rfl⟩ : ∃ m, f = m + 3 := ⟨f - 3, by omega⟩
        refine ⟨n, c1, ?_, List.prefix_refl _, hint, reads_mono hpre hrn, y8⟩
        have hnp : (⟨i, root, p⟩ : Uniq) ∉ ps := by
          rw [hps]
          rintro ⟨x, hx, _, _, ⟨h1, h2⟩ | h1⟩
          · rw [List.mem_singleton] at hx
            subst hx
            exact h2 rfl
          · exact hpne h1
        rw [recurse, if_neg hnp]
        have : edit? [r] ⟨i, root, p⟩ = some ⟨n, root, p⟩ := by simp [edit?, r]
        rw [this]
        simp only
        rw [if_pos (hok _)]) hf
    unfold demoteVersion Store.adapter
    rw [hst.at']
    simp only
    rw [hdem]
    exact ⟨id', c', _, u1, y2.trans u2, u3, z1, z2 hn, z3⟩

end Verif.Demote
