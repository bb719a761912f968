import Verif.Demote.Trees
import Verif.Eval.Props

/-! # Documents with one headline demoted -/

namespace Verif.Demote

open Verif.Imm
open Verif.Eval (kidList ofKids results withResults putAt kidList_ofKids isRoot isRoot_kind depth_subtree at_cons field_reads)

variable {E : Type}

theorem lines_indexed {ks : Tree (Data E) false} (hs : Shaped (steps ks)) (q : List Step) :
    lines q ks = ((results 0 ks).mapIdx (fun i t => lines (q ++ [subStep i]) t)).flatten := by
  rw [lines_kids]
  conv_lhs => rw [kidList_split hs, List.flatMap_append]
  have e2 : ((kidList ks).filter (fun k => decide (k.1.field ≠ 0))).flatMap
      (fun k => if k.1.field = 0 then lines (q ++ [k.1]) k.2 else []) = [] := by
    rw [List.flatMap_eq_nil_iff]
    intro k hk
    have := (List.mem_filter.1 hk).2
    simp only [ne_eq, decide_eq_true_eq] at this
    rw [if_neg this]
  rw [e2, List.append_nil, List.flatMap_def]
  congr 1
  refine List.ext_getElem (by simp) ?_
  intro n h1 h2
  simp [subStep]

/-- The lines of the subnodes with one of them shown changed. -/
theorem lines_one {ks : Tree (Data E) false} (hs : Shaped (steps ks)) {pre post : List (Tree (Data E) true)} {t : Tree (Data E) true}
    (hr : results 0 ks = pre ++ t :: post) (q : List Step) {new : List (Line E)}
    (ht : (lines (q ++ [subStep pre.length]) t).map (shown (q ++ [subStep pre.length])) = new) :
    (lines q ks).map (shown (q ++ [subStep pre.length])) = pre.flatMap plain ++ (new ++ post.flatMap plain) := by
  have hother : ∀ (i : Nat) (u : Tree (Data E) true), i ≠ pre.length →
      (lines (q ++ [subStep i]) u).map (shown (q ++ [subStep pre.length])) = plain u := by
    intro i u hi
    refine lines_same ?_
    intro x hx hp
    exact hi (snoc_ne (lines_below _ _ _ hx) hp)
  rw [lines_indexed hs, hr, List.map_flatten, List.mapIdx_append, List.map_append, List.flatten_append, List.mapIdx_cons,
    List.map_cons, List.flatten_cons]
  congr 1
  · rw [List.flatMap_def]
    congr 1
    refine List.ext_getElem (by simp) ?_
    intro n h1 h2
    simp only [List.length_map, List.length_mapIdx] at h1
    simp only [List.getElem_map, List.getElem_mapIdx]
    exact hother _ _ (by omega)
  · congr 1
    · simp only [Nat.zero_add]
      exact ht
    · rw [List.flatMap_def]
      congr 1
      refine List.ext_getElem (by simp) ?_
      intro n h1 h2
      simp only [List.getElem_map, List.getElem_mapIdx]
      exact hother _ _ (by omega)

theorem plain_appended {t X : Tree (Data E) true} {l : Int} (h : levelOf t = some l) : plain (appended t X) = plain t ++ plain X := by
  cases t with
  | node k d loc ks =>
    rw [levelOf] at h
    split at h
    · rename_i hk
      rw [appended, plain, plain, if_pos hk, if_pos hk, fields_with, plain_kids, results_with, plain_kids]
      simp
    · simp at h

/-- A document in which the subnodes of one node are other ones. -/
theorem doc_put {T : Tree (Data E) true} (hT : ShapedTree T) {q p : List Step} (hqp : q <+: p) (hne : ¬ p <+: q)
    {kd : Kind} {d : Data E} {l : Option Nat}
    {ks : Tree (Data E) false} (hP : subtree? T q = some (.node kd d l ks)) (hmem : ∃ ln, (p, ln) ∈ docLines T)
    {ts : List (Tree (Data E) true)} (hl : (lines q ks).map (shown p) = ts.flatMap plain)
    (hn : ∀ above, NestedL above (results 0 ks) → NestedL above ts) {T' : Tree (Data E) true}
    (hT' : T' = substitute (putAt q (.node kd d l (withResults 0 ks ts))) [] T) :
    docHead T' = docHead T ∧ (Nested none T → Nested none T') ∧ (docLines T').map (·.2) = (docLines T).map (shown p) := by
  subst hT'
  have hX : ∀ above, Nested above (.node kd d l ks) → Nested none (.node kd d l (withResults 0 ks ts)) := by
    intro above h
    rw [Nested, nested_results] at h ⊢
    rw [results_with]
    exact hn _ h
  have hsub : ∀ {T : Tree (Data E) true} {q' : List Step}, subtree? T q' = some (.node kd d l ks) → Nested none T →
      (∀ x ∈ q', x.field = 0) → Nested none (.node kd d l ks) := by
    intro T q'
    induction q' generalizing T with
    | nil =>
      intro h hn _
      rw [subtree_nil] at h
      injection h with h
      rw [← h]
      exact hn
    | cons st q' ih =>
      intro h hn hf
      cases T with
      | node k2 d2 l2 ks2 =>
        rw [subtree?] at h
        obtain ⟨u, hu1, hu2⟩ := subtree_kids h
        rw [Nested, nested_results] at hn
        refine ih hu2 (hn.each u ?_) (fun x hx => hf x (by simp [hx]))
        rw [results, List.mem_map]
        exact ⟨(st, u), List.mem_filter.2 ⟨hu1, by simpa using hf st (by simp)⟩, rfl⟩
  have hpath : ∀ (x : List Step × Line E) (p0 : List Step) {b : Bool} (t : Tree (Data E) b), x ∈ lines p0 t →
      ∃ r, x.1 = p0 ++ r ∧ ∀ y ∈ r, y.field = 0 := by
    intro x p0 b t
    induction t generalizing p0 with
    | node k d l ks ih =>
      intro hx
      rw [lines] at hx
      split at hx
      · rcases List.mem_cons.1 hx with rfl | hx
        · exact ⟨[], by simp, by simp⟩
        · exact ih p0 hx
      · rw [List.mem_singleton] at hx
        subst hx
        exact ⟨[], by simp, by simp⟩
    | nil => intro hx; simp [lines] at hx
    | cons st t rest ih1 ih2 =>
      intro hx
      rw [lines] at hx
      rcases List.mem_append.1 hx with hx | hx
      · split at hx
        · rename_i h0
          obtain ⟨r, h1, h2⟩ := ih1 _ hx
          refine ⟨st :: r, by rw [h1]; simp, ?_⟩
          intro y hy
          rcases List.mem_cons.1 hy with rfl | hy
          · exact h0
          · exact h2 y hy
        · simp at hx
      · exact ih2 p0 hx
  obtain ⟨ln, hln⟩ := hmem
  cases q with
  | nil =>
    have hTe : T = .node kd d l ks := by
      rw [subtree_nil] at hP
      injection hP
    subst hTe
    have he : substitute (putAt [] (.node kd d l (withResults 0 ks ts))) [] (.node kd d l ks) = .node kd d l (withResults 0 ks ts) := by
      simp [substitute, putAt]
    rw [he]
    refine ⟨?_, hX none, ?_⟩
    · simp only [docHead, fields_with]
    · simp only [docLines]
      rw [lines_snd, plain_kids, results_with, hl]
  | cons st q' =>
    cases T with
    | node k2 d2 l2 ks2 =>
      have hnone : ∀ Y : Tree (Data E) true, putAt (st :: q') Y [] = none := by
        intro Y
        simp [putAt]
      have hq0 : ∀ x ∈ st :: q', x.field = 0 := by
        obtain ⟨r, h1, h2⟩ := hpath _ _ _ hln
        simp only [List.nil_append] at h1
        intro x hx
        refine h2 x ?_
        rw [← h1]
        exact hqp.subset hx
      have hPn := hP
      rw [subtree?] at hP
      obtain ⟨u, hu1, hu2⟩ := subtree_kids hP
      have hother : ∀ k ∈ kidList ks2, k.1 ≠ st → ∀ Y, substitute (putAt (st :: q') Y) ([] ++ [k.1]) k.2 = k.2 := by
        intro k _ hne Y
        refine putAt_untouched _ _ ?_
        intro hx
        exact hne (snoc_prefix (p := []) hx)
      simp only [substitute, hnone]
      refine ⟨?_, ?_, ?_⟩
      · simp only [docHead]
        congr 2
        unfold fields
        rw [kidList_substitute, List.filter_map]
        conv_rhs => rw [← List.map_id (List.filter (fun k => decide (k.1.field ≠ 0)) (kidList ks2))]
        refine List.map_congr_left ?_
        intro k hk
        have h1 := List.mem_filter.1 hk
        have h0 : k.1.field ≠ 0 := by simpa using h1.2
        rw [hother k h1.1 (by
          intro he
          rw [he] at h0
          exact h0 (hq0 st (by simp)))]
        rfl
      · intro hnest
        have := nested_put (q := st :: q') (X := .node kd d l (withResults 0 ks ts)) (P := .node kd d l ks) rfl
          (hX none (hsub hPn hnest hq0)) (st :: q') (.node k2 d2 l2 ks2) [] rfl hT hPn hnest
        simp only [substitute, hnone] at this
        exact this
      · -- the part is below a headline
        have hlines := lines_put (E := E) hqp (X := .node .Subtree d none .nil) (P := .node .Subtree d none .nil)
        clear hlines
        obtain ⟨k1, hk1, hf1, hm1⟩ := lines_kid hln
        have hpp : [st] <+: p := (show [st] <+: st :: q' from ⟨q', rfl⟩).trans hqp
        have hst : k1.1 = st := by
          have := lines_below _ _ _ hm1
          simp only [List.nil_append] at this
          obtain ⟨a, ha⟩ := this
          obtain ⟨b, hb⟩ := hpp
          rw [← ha] at hb
          simp only [List.cons_append, List.nil_append, List.cons.injEq] at hb
          exact hb.1.symm
        have hk1u : k1.2 = u := kid_unique hT.1 (st := st) (by rw [← hst]; exact hk1) hu1
        rw [hk1u, hst] at hm1
        have hsubk : kd = .Subtree := by
          -- otherwise nothing below it is a line
          have key : ∀ (r : List Step) (w : Tree (Data E) true) (p0 : List Step), subtree? w r = some (.node kd d l ks) →
              ShapedTree w → p0 ++ r <+: p → ¬ p <+: p0 ++ r → (p, ln) ∈ lines p0 w → kd = .Subtree := by
            intro r
            induction r with
            | nil =>
              intro w p0 h _ hpre hnp hm
              rw [subtree_nil] at h
              injection h with h
              subst h
              rw [lines] at hm
              split at hm
              · assumption
              · rw [List.mem_singleton] at hm
                injection hm with hm _
                rw [List.append_nil] at hnp
                exact absurd (by rw [hm]) hnp
            | cons s1 r ih =>
              intro w p0 h hsh hpre hnp hm
              cases w with
              | node k3 d3 l3 ks3 =>
                rw [subtree?] at h
                obtain ⟨u3, h3, h4⟩ := subtree_kids h
                have hnp0 : ¬ p <+: p0 := fun hx => hnp (hx.trans (List.prefix_append _ _))
                rw [lines] at hm
                split at hm
                · rcases List.mem_cons.1 hm with hm | hm
                  · injection hm with hm _
                    exact absurd (by rw [hm]) hnp0
                  · obtain ⟨k4, h5, h6, h7⟩ := lines_kid hm
                    have h8 : k4.1 = s1 := by
                      have := lines_below _ _ _ h7
                      simp only at this
                      obtain ⟨a, ha⟩ := this
                      obtain ⟨b, hb⟩ := hpre
                      rw [← ha, List.append_assoc, List.append_assoc, List.append_cancel_left_eq] at hb
                      simp only [List.cons_append, List.nil_append, List.cons.injEq] at hb
                      exact hb.1.symm
                    have h9 : k4.2 = u3 := kid_unique hsh.1 (st := s1) (by rw [← h8]; exact h5) h3
                    rw [h8, h9] at h7
                    exact ih u3 (p0 ++ [s1]) h4 (kid_shaped hsh.2 h3) (by simpa using hpre) (by simpa using hnp) h7
                · rw [List.mem_singleton] at hm
                  injection hm with hm _
                  exact absurd (by rw [hm]) hnp0
          exact key q' u [st] hu2 (kid_shaped hT.2 hu1) (by simpa using hqp) (by simpa using hne) hm1
        have H : (lines (st :: q') (.node kd d l ks)).map (shown p) = plain (.node kd d l (withResults 0 ks ts)) := by
          rw [lines, plain, if_pos hsubk, if_pos hsubk, List.map_cons, hl, fields_with, plain_kids, results_with]
          unfold shown
          rw [if_neg hne]
        have hput := lines_put hqp H q' u [st] (by simp) (kid_shaped hT.2 hu1) hu2 ⟨ln, hm1⟩
        simp only [docLines]
        rw [lines_snd, plain_kids, results, kidList_substitute, lines_kids]
        have : ∀ (l2 : List (Step × Tree (Data E) true)), (∀ k ∈ l2, k ∈ kidList ks2) →
            (((l2.map (fun k => (k.1, substitute (putAt (st :: q') (.node kd d l (withResults 0 ks ts))) ([] ++ [k.1]) k.2))).filter
              (fun k => decide (k.1.field = 0))).map (·.2)).flatMap plain =
            (l2.flatMap (fun k => if k.1.field = 0 then lines ([] ++ [k.1]) k.2 else [])).map (shown p) := by
          intro l2
          induction l2 with
          | nil => intro _; rfl
          | cons k l2 ihl =>
            intro hl2
            rw [List.map_cons, List.flatMap_cons, List.map_append, ← ihl (fun x hx => hl2 x (by simp [hx]))]
            by_cases h0 : k.1.field = 0
            · rw [List.filter_cons_of_pos (by simpa using h0), List.map_cons, List.flatMap_cons, if_pos h0]
              congr 1
              by_cases hks : k.1 = st
              · have hku : k.2 = u := kid_unique hT.1 (st := st) (by rw [← hks]; exact hl2 k (by simp)) hu1
                simp only
                rw [hks, hku]
                exact hput.symm
              · simp only
                rw [hother k (hl2 k (by simp)) hks]
                refine (lines_same ?_).symm
                intro x hx hpx
                have h1 := lines_below _ _ _ hx
                simp only [List.nil_append] at h1
                have h2 := hpp.trans hpx
                obtain ⟨a, ha⟩ := h1
                obtain ⟨b, hb⟩ := h2
                rw [← ha] at hb
                simp only [List.cons_append, List.nil_append, List.cons.injEq] at hb
                exact hks hb.1.symm
            · rw [List.filter_cons_of_neg (by simpa using h0), if_neg h0]
              rfl
        exact this _ (fun _ h => h)

/-! ## Without locations -/

/-- the line without locations -/
def Line.strip : Line E → Line E
  | .head l r f => .head l r (f.map (fun k => (k.1, Verif.Imm.strip k.2)))
  | .body t => .body (Verif.Imm.strip t)

theorem kidList_strip (ks : Tree (Data E) false) : kidList (strip ks) = (kidList ks).map (fun k => (k.1, strip k.2)) := by
  have key : ∀ {b : Bool} (t : Tree (Data E) b), b = false → kidList (strip t) = (kidList t).map (fun k => (k.1, strip k.2)) := by
    intro b t
    induction t with
    | node => intro h; exact absurd h (by simp)
    | nil => intro _; simp [strip, kidList]
    | cons st t rest _ ih => intro _; rw [strip, kidList, kidList, List.map_cons, ih rfl]
  exact key ks rfl

theorem fields_strip (ks : Tree (Data E) false) : fields (strip ks) = (fields ks).map (fun k => (k.1, strip k.2)) := by
  unfold fields
  rw [kidList_strip, List.filter_map]
  rfl

theorem results_strip (ks : Tree (Data E) false) : results 0 (strip ks) = (results 0 ks).map strip := by
  unfold results
  rw [kidList_strip, List.filter_map, List.map_map, List.map_map]
  rfl

theorem lines_strip {b : Bool} (t : Tree (Data E) b) : ∀ p, lines p (strip t) = (lines p t).map (fun x => (x.1, x.2.strip)) := by
  induction t with
  | node k d l ks ih =>
    intro p
    rw [strip, lines, lines]
    split
    · rw [List.map_cons, ih p, fields_strip]
      rfl
    · rfl
  | nil => intro p; rfl
  | cons st t rest ih1 ih2 =>
    intro p
    rw [strip, lines, lines, List.map_append, ih2 p]
    split
    · rw [ih1]
    · rfl

theorem docLines_strip (T : Tree (Data E) true) : docLines (strip T) = (docLines T).map (fun x => (x.1, x.2.strip)) := by
  cases T with
  | node k d l ks => exact lines_strip ks []

theorem docHead_strip (T : Tree (Data E) true) :
    docHead (strip T) = ((docHead T).1, (docHead T).2.1, (docHead T).2.2.map (fun k => (k.1, strip k.2))) := by
  cases T with
  | node k d l ks => simp only [strip, docHead, fields_strip]

theorem levelOf_strip (t : Tree (Data E) true) : levelOf (strip t) = levelOf t := by
  cases t
  rfl

theorem nested_strip {b : Bool} (t : Tree (Data E) b) : ∀ above, Nested above (strip t) ↔ Nested above t := by
  induction t with
  | node k d l ks ih => intro above; rw [strip, Nested, Nested, ih]
  | nil => intro above; exact Iff.rfl
  | cons st t rest ih1 ih2 =>
    intro above
    rw [strip, Nested, Nested, ih1, ih2, levelOf_strip, results_strip]
    simp only [List.mem_map, forall_exists_index, and_imp, forall_apply_eq_imp_iff₂, levelOf_strip]

theorem demote_strip (l : Line E) : l.demote.strip = l.strip.demote := by
  cases l <;> rfl

/-! ## The place of a headline -/

theorem lines_subtree {b : Bool} (t : Tree (Data E) b) : ∀ (p0 : List Step) (x : List Step × Line E), ShapedTree t →
    (∀ (h : b = false), (steps (h ▸ t)).Nodup) → x ∈ lines p0 t →
    ∃ p u, x.1 = p0 ++ p ∧ subtree? t p = some u ∧ (∀ s ∈ p, s.field = 0) ∧ (b = false → p ≠ []) ∧
      ∀ l r f, x.2 = .head l r f → levelOf u = some l := by
  induction t with
  | node k d l ks ih =>
    intro p0 x hsh _ hx
    rw [lines] at hx
    split at hx
    case isTrue hk =>
      rcases List.mem_cons.1 hx with rfl | hx
      · refine ⟨[], .node k d l ks, by simp, rfl, by simp, by simp, ?_⟩
        intro l' r f he
        injection he with he
        rw [levelOf, if_pos hk, he]
      · obtain ⟨p, u, h1, h2, h3, h4, h5⟩ := ih p0 x hsh.2 (fun _ => shaped_nodup hsh.1) hx
        refine ⟨p, u, h1, ?_, h3, by simp, h5⟩
        cases p with
        | nil => exact absurd rfl (h4 rfl)
        | cons st p => rw [subtree?]; exact h2
    case isFalse hk =>
      rw [List.mem_singleton] at hx
      subst hx
      refine ⟨[], .node k d l ks, by simp, rfl, by simp, by simp, ?_⟩
      intro l' r f he
      cases he
  | nil => intro p0 x _ _ hx; simp [lines] at hx
  | cons st t rest ih1 ih2 =>
    intro p0 x hsh hnd hx
    have hnd' := hnd rfl
    simp only [steps, List.nodup_cons] at hnd'
    rw [lines] at hx
    rcases List.mem_append.1 hx with hx | hx
    · split at hx
      case isTrue h0 =>
        obtain ⟨p, u, h1, h2, h3, h4, h5⟩ := ih1 _ x hsh.1 (by simp) hx
        refine ⟨st :: p, u, by rw [h1]; simp, by rw [subtree?, if_pos rfl]; exact h2, ?_, by simp, h5⟩
        intro y hy
        rcases List.mem_cons.1 hy with rfl | hy
        · exact h0
        · exact h3 y hy
      case isFalse => simp at hx
    · obtain ⟨p, u, h1, h2, h3, h4, h5⟩ := ih2 p0 x hsh.2 (fun _ => hnd'.2) hx
      refine ⟨p, u, h1, ?_, h3, h4, h5⟩
      cases p with
      | nil => exact absurd rfl (h4 rfl)
      | cons s p =>
        rw [subtree?, if_neg]
        · exact h2
        · intro he
          obtain ⟨w, hw, _⟩ := subtree_kids h2
          apply hnd'.1
          rw [he, ← steps_kidList]
          exact List.mem_map.2 ⟨_, hw, rfl⟩

theorem subtree_snoc {D : Type} : ∀ {q : List Step} {T : Tree D true} {st : Step} {u : Tree D true}, ShapedTree T →
    subtree? T (q ++ [st]) = some u → ∃ k d l ks, subtree? T q = some (.node k d l ks) ∧ (st, u) ∈ kidList ks ∧ ShapedTree (.node k d l ks) := by
  intro q
  induction q with
  | nil =>
    intro T st u hsh h
    cases T with
    | node k d l ks =>
      rw [List.nil_append, subtree?] at h
      obtain ⟨w, h1, h2⟩ := subtree_kids h
      rw [subtree_nil] at h2
      injection h2 with h2
      subst h2
      exact ⟨k, d, l, ks, rfl, h1, hsh⟩
  | cons s q ih =>
    intro T st u hsh h
    cases T with
    | node k d l ks =>
      rw [List.cons_append, subtree?] at h
      obtain ⟨w, h1, h2⟩ := subtree_kids h
      obtain ⟨k', d', l', ks', h3, h4, h5⟩ := ih (kid_shaped hsh.2 h1) h2
      refine ⟨k', d', l', ks', ?_, h4, h5⟩
      rw [subtree?, kids_subtree (shaped_nodup hsh.1) h1]
      exact h3

/-- where a headline is -/
structure Spot (T : Tree (Data E) true) (p : List Step) (lev : Int) (q : List Step) (kd : Kind) (d : Data E) (loc : Option Nat)
    (ks : Tree (Data E) false) (pre : List (Tree (Data E) true)) (t : Tree (Data E) true) (post : List (Tree (Data E) true)) : Prop where
  path : p = q ++ [subStep pre.length]
  parent : subtree? T q = some (.node kd d loc ks)
  shaped : ShapedTree (.node kd d loc ks)
  subs : results 0 ks = pre ++ t :: post
  here : subtree? T p = some t
  level : levelOf t = some lev
  outline : ∀ x ∈ p, x.field = 0

theorem spot {T : Tree (Data E) true} (hT : ShapedTree T) {p : List Step} {lev : Int} {r : E} {f : List (Step × Tree (Data E) true)}
    (h : (p, .head lev r f) ∈ docLines T) : ∃ q kd d loc ks pre t post, Spot T p lev q kd d loc ks pre t post := by
  cases T with
  | node k0 d0 l0 ks0 =>
    obtain ⟨p', u, h1, h2, h3, h4, h5⟩ := lines_subtree ks0 [] _ hT.2 (fun _ => shaped_nodup hT.1) h
    simp only [List.nil_append] at h1
    subst h1
    have hhere : subtree? (.node k0 d0 l0 ks0) p = some u := by
      cases p with
      | nil => exact absurd rfl (h4 rfl)
      | cons s p => rw [subtree?]; exact h2
    rcases List.eq_nil_or_concat p with rfl | ⟨q, st, rfl⟩
    · exact absurd rfl (h4 rfl)
    · rw [List.concat_eq_append] at *
      obtain ⟨k, d, l, ks, g1, g2, g3⟩ := subtree_snoc hT hhere
      have hst : st.field = 0 := h3 st (by simp)
      rw [kidList_split g3.1] at g2
      rcases List.mem_append.1 g2 with g2 | g2
      · obtain ⟨i, hi, he⟩ := List.mem_mapIdx.1 g2
        injection he with he1 he2
        refine ⟨q, k, d, l, ks, (results 0 ks).take i, u, (results 0 ks).drop (i + 1), ?_, g1, g3, ?_, hhere, h5 _ _ _ rfl, h3⟩
        · rw [List.length_take, Nat.min_eq_left (by omega), he1]
        · rw [← he2, List.getElem_cons_drop, List.take_append_drop]
      · have := (List.mem_filter.1 g2).2
        simp [hst] at this

end Verif.Demote
