import Verif.Tokenizer.Lemmas
import Mathlib.Data.List.Forall2

namespace Verif.Tokenizer
open Verif.Token

theorem whichBlockLineKind_groupable {k : TK} {lk : LK} (h : whichBlockLineKind k = some lk) :
    lk ≠ .none ∧ lk ≠ .subtree := by
  unfold whichBlockLineKind at h
  split at h
  · cases h; simp
  · split at h
    · cases h; simp
    · split at h
      · cases h; simp
      · cases h

theorem setLineCommandKind_groupable {ts : List Tok} {n : Nat} {lk : LK}
    (h : setLineCommandKind ts n = .ok lk) : lk ≠ .none ∧ lk ≠ .subtree := by
  unfold setLineCommandKind at h
  split at h
  · cases h
  · split at h
    · split at h
      · cases h
      · split at h
        · rename_i hw; cases h; exact whichBlockLineKind_groupable hw
        · cases h
    · split at h
      · cases h; simp
      · cases h

theorem setLeadingSpaceKind_groupable {ts : List Tok} {lk : LK}
    (h : setLeadingSpaceKind ts = .ok lk) : lk ≠ .none ∧ lk ≠ .subtree := by
  unfold setLeadingSpaceKind at h
  split at h
  · cases h; simp
  · split at h
    · cases h; simp
    · split at h
      · split at h <;> cases h <;> simp
      · cases h; simp
    · cases h; simp
    · cases h; simp
    · cases h; simp
    · cases h; simp
    · exact setLineCommandKind_groupable h
    · split at h <;> cases h <;> simp

theorem lineKindOf_groupable {ts : List Tok} {t : Tok} {lk : LK}
    (h : lineKindOf ts t = .ok lk) : lk ≠ .none ∧ lk ≠ .subtree := by
  unfold lineKindOf at h
  split at h
  · exact setLeadingSpaceKind_groupable h
  · split at h
    · split at h <;> cases h <;> simp
    · cases h; simp
  · cases h; simp
  · cases h; simp
  · cases h; simp
  · exact setLineCommandKind_groupable h
  · cases h; simp
  · split at h <;> cases h <;> simp

theorem mkLine_groupable {ts : List Tok} {l : Line} (hne : ts ≠ []) (h : mkLine ts = .ok l) :
    l.Groupable := by
  refine ⟨by rw [mkLine_tokens h]; exact hne, ?_⟩
  cases ts with
  | nil => exact absurd rfl hne
  | cons t ts =>
    simp only [mkLine, bind, Except.bind] at h
    split at h
    · cases h
    · rename_i k hk
      cases h
      exact lineKindOf_groupable hk

theorem toLinesLoop_groupable : ∀ (ts cur : List Tok) (ls : List Line),
    toLinesLoop cur ts = .ok ls → ∀ l ∈ ls, l.Groupable := by
  intro ts
  induction ts with
  | nil =>
    intro cur ls h
    simp only [toLinesLoop] at h
    split at h
    · cases h; simp
    · rename_i hc
      simp only [bind, Except.bind] at h
      split at h
      · cases h
      · rename_i l hl
        cases h
        intro x hx
        simp only [List.mem_singleton] at hx; subst hx
        exact mkLine_groupable (by intro h0; simp [h0] at hc) hl
  | cons t ts ih =>
    intro cur ls h
    simp only [toLinesLoop] at h
    split at h
    · simp only [bind, Except.bind] at h
      split at h
      · cases h
      · rename_i l hl
        split at h
        · cases h
        · rename_i ls' hls
          cases h
          intro x hx
          rcases List.mem_cons.1 hx with rfl | hx
          · exact mkLine_groupable (by simp) hl
          · exact ih _ _ hls x hx
    · exact ih _ _ h

/-! ### Indentation tokens -/

theorem indentWalk_append (d : Nat) (a b : List Tok) :
    indentWalk d (a ++ b) = (indentWalk d a).bind (fun d' => indentWalk d' b) := by
  induction a generalizing d with
  | nil => rfl
  | cons t ts ih =>
    simp only [List.cons_append, indentWalk]
    split
    · exact ih _
    · split
      · cases d with
        | zero => rfl
        | succ d => exact ih _
      · exact ih _

theorem indentWalk_plain {ts : List Tok} (h : ∀ t ∈ ts, t.kind ≠ .Indent ∧ t.kind ≠ .Dedent) (d : Nat) :
    indentWalk d ts = some d := by
  induction ts with
  | nil => rfl
  | cons t ts ih =>
    have h1 := h t (by simp)
    simp only [indentWalk, h1.1, h1.2, if_false]
    exact ih (fun x hx => h x (by simp [hx]))

theorem indentWalk_dedents (d n : Nat) :
    indentWalk (d + n) (List.replicate n (.fake .Dedent)) = some d := by
  induction n with
  | zero => rfl
  | succ n ih =>
    rw [List.replicate_succ]
    exact ih

theorem drop_popCount (i : Nat) (ind : List Nat) :
    ind.drop (popCount i ind) = ind.dropWhile (fun x => decide (i < x)) := by
  unfold popCount
  induction ind with
  | nil => rfl
  | cons a l ih =>
    by_cases h : i < a
    · rw [List.takeWhile_cons_of_pos (by simpa using h), List.dropWhile_cons_of_pos (by simpa using h)]
      simpa using ih
    · rw [List.takeWhile_cons_of_neg (by simpa using h), List.dropWhile_cons_of_neg (by simpa using h)]
      rfl

theorem popCount_le (i : Nat) (ind : List Nat) : popCount i ind ≤ ind.length :=
  (List.takeWhile_sublist _).length_le

theorem preGroup_spec {k : GK} {i : Nat} {prev : Prev} {ind ind' : List Nat} {pre : List Tok}
    (h : preGroup k i prev ind = .ok (pre, ind')) :
    (∀ d, indentWalk (d + ind.length) pre = some (d + ind'.length)) ∧ (∀ t ∈ pre, t.isFake = true) := by
  have hpop : ∀ d, indentWalk (d + ind.length) (List.replicate (popCount i ind) (.fake .Dedent))
      = some (d + (ind.drop (popCount i ind)).length) := by
    intro d
    have := indentWalk_dedents (d + (ind.drop (popCount i ind)).length) (popCount i ind)
    have hle := popCount_le i ind
    rw [List.length_drop] at this ⊢
    rw [show d + (ind.length - popCount i ind) + popCount i ind = d + ind.length by omega] at this
    exact this
  unfold preGroup at h
  split at h
  · split at h
    · cases h
      exact ⟨fun d => by simp [indentWalk, Tok.fake], by simp [Tok.fake, Tok.isFake]⟩
    · rename_i top below
      split at h
      · cases h
        refine ⟨fun d => ?_, by simp [Tok.fake, Tok.isFake]⟩
        simp [indentWalk, Tok.fake, Nat.add_assoc]
      · split at h
        · simp only at h
          cases h
          constructor
          · intro d
            rw [indentWalk_append, hpop]
            simp only [Option.bind_some]
            split
            · rfl
            · split
              · simp [indentWalk, Tok.fake]
              · rfl
          · intro t ht
            rcases List.mem_append.1 ht with ht | ht
            · rw [(List.mem_replicate.1 ht).2]; rfl
            · split at ht
              · simp at ht
              · split at ht
                · simp only [List.mem_singleton] at ht; rw [ht]; rfl
                · simp at ht
        · split at h
          · split at h
            · cases h
            · split at h
              · cases h
                refine ⟨fun d => ?_, by simp [Tok.fake, Tok.isFake]⟩
                rfl
              · cases h
                exact ⟨fun d => by simp [indentWalk, Tok.fake], by simp [Tok.fake, Tok.isFake]⟩
          · cases h
            exact ⟨fun d => by simp [indentWalk, Tok.fake], by simp [Tok.fake, Tok.isFake]⟩
  · cases h
    refine ⟨hpop, ?_⟩
    intro t ht
    rw [(List.mem_replicate.1 ht).2]; rfl

theorem recAddLine_ok (gk : GK) (prev : Option Tok) (ts out : List Tok)
    (h : recAddLine gk prev ts = .ok out) : out = ts := by
  fun_induction recAddLine gk prev ts generalizing out
  all_goals try simp only [bind, Except.bind] at h
  all_goals first
    | (cases h; done)
    | (cases h; rfl)
    | (rename_i ih
       split at h
       · cases h
       · rename_i o ho
         cases h
         rw [ih _ ho])

theorem recAddLines_ok (gk : GK) (ls : List Line) (out : List Tok)
    (h : recAddLines gk ls = .ok out) : out = lineTokens ls := by
  induction ls generalizing out with
  | nil => simp only [recAddLines] at h; cases h; rfl
  | cons l ls ih =>
    simp only [recAddLines, bind, Except.bind] at h
    split at h
    · cases h
    · rename_i a ha
      split at h
      · cases h
      · rename_i b hb
        cases h
        rw [recAddLine_ok _ _ _ _ ha, ih _ hb]
        rfl

/-- Token relation used for source blocks, lifted to lists. -/
abbrev DropsAll := List.Forall₂ Tok.DropsPrefix

theorem dropsAll_refl (ts : List Tok) : DropsAll ts ts := by
  induction ts with
  | nil => exact .nil
  | cons t ts ih => exact .cons ⟨rfl, rfl, 0, by simp⟩ ih

theorem dropsAll_append {a b c d : List Tok} (h : DropsAll a b) (h' : DropsAll c d) :
    DropsAll (a ++ c) (b ++ d) := by
  induction h with
  | nil => exact h'
  | cons h1 _ ih => exact .cons h1 ih

theorem dropsAll_mem {a b : List Tok} (h : DropsAll a b) {t : Tok} (ht : t ∈ b) :
    ∃ s ∈ a, s.DropsPrefix t := by
  induction h with
  | nil => simp at ht
  | cons h1 _ ih =>
    rcases List.mem_cons.1 ht with rfl | ht
    · exact ⟨_, by simp, h1⟩
    · obtain ⟨s, hs, h2⟩ := ih ht
      exact ⟨s, by simp [hs], h2⟩

theorem srcLine_drops {m : Nat} {ts out : List Tok} (h : srcLine m ts = .ok out) : DropsAll ts out := by
  unfold srcLine at h
  split at h
  · cases h; exact .nil
  · split at h
    · cases h; exact dropsAll_refl _
    · split at h
      · cases h; exact .cons ⟨rfl, rfl, m, rfl⟩ (dropsAll_refl _)
      · cases h

theorem srcLines_drops {m : Nat} {ls : List Line} {out : List Tok} (h : srcLines m ls = .ok out) :
    DropsAll (lineTokens ls) out := by
  induction ls generalizing out with
  | nil => simp only [srcLines] at h; cases h; exact .nil
  | cons l ls ih =>
    simp only [srcLines, bind, Except.bind] at h
    split at h
    · cases h
    · rename_i a ha
      split at h
      · cases h
      · rename_i b hb
        cases h
        exact dropsAll_append (srcLine_drops ha) (ih hb)

theorem leafLines_ok {gs : Groups} {ls : List Line} (h : leafLines gs = .ok ls) : gs.lines = ls := by
  induction gs generalizing ls with
  | nil => simp only [leafLines] at h; cases h; rfl
  | leaf k l r ih =>
    simp only [leafLines, bind, Except.bind] at h
    split at h
    · cases h
    · rename_i b hb
      cases h
      simp [Groups.lines, ih hb]
  | nested => simp [leafLines] at h

theorem lineTokens_append (a b : List Line) : lineTokens (a ++ b) = lineTokens a ++ lineTokens b := by
  simp [lineTokens]

theorem lineTokens_end (e : Line) : lineTokens (if e.tokens.isEmpty then [] else [e]) = e.tokens := by
  cases h : e.tokens with
  | nil => simp [lineTokens]
  | cons a b => simp [lineTokens, h]

theorem lineTokens_nested (k : GK) (b e : Line) (sub rest : Groups) :
    lineTokens (Groups.nested k b e sub rest).lines
      = b.tokens ++ (lineTokens sub.lines ++ (e.tokens ++ lineTokens rest.lines)) := by
  have : (Groups.nested k b e sub rest).lines
      = [b] ++ (sub.lines ++ ((if e.tokens.isEmpty then [] else [e]) ++ rest.lines)) := rfl
  rw [this, lineTokens_append, lineTokens_append, lineTokens_append, lineTokens_end]
  simp [lineTokens]

theorem walk_dropsAll {a b : List Tok} (ha : ∀ t ∈ a, t.Real) (h : DropsAll a b) (d : Nat) :
    indentWalk d b = some d := by
  apply indentWalk_plain
  intro t ht
  obtain ⟨s, hs, h1, _⟩ := dropsAll_mem h ht
  rw [h1]
  exact (ha s hs).2

theorem filter_dropsAll {a b : List Tok} (ha : ∀ t ∈ a, t.Real) (h : DropsAll a b) :
    b.filter (fun t => !t.isFake) = b := by
  apply List.filter_eq_self.2
  intro t ht
  obtain ⟨s, hs, _, h2, _⟩ := dropsAll_mem h ht
  have := (ha s hs).1
  simp only [Tok.isFake] at this ⊢
  rw [h2, this]; rfl

theorem filter_fake {a : List Tok} (ha : ∀ t ∈ a, t.isFake = true) :
    a.filter (fun t => !t.isFake) = [] := by
  apply List.filter_eq_nil_iff.2
  intro t ht
  simp [ha t ht]

theorem convertLoop_spec (gs : Groups) : ∀ (prev : Prev) (ind : List Nat) (out : List Tok),
    (∀ t ∈ lineTokens gs.lines, t.Real) → convertLoop gs prev ind = .ok out →
    (∀ d, indentWalk (d + ind.length) out = some d) ∧
    DropsAll (lineTokens gs.lines) (out.filter (fun t => !t.isFake)) := by
  induction gs with
  | nil =>
    intro prev ind out _ h
    simp only [convertLoop] at h
    cases h
    refine ⟨fun d => indentWalk_dedents d _, ?_⟩
    rw [filter_fake]
    · exact .nil
    · intro t ht; rw [(List.mem_replicate.1 ht).2]; rfl
  | leaf k lines rest ih =>
    intro prev ind out hreal h
    have hl : lineTokens (Groups.leaf k lines rest).lines = lineTokens lines ++ lineTokens rest.lines :=
      lineTokens_append _ _
    rw [hl] at hreal ⊢
    cases lines with
    | nil => simp only [convertLoop] at h; cases h
    | cons first tl =>
      simp only [convertLoop, bind, Except.bind] at h
      split at h
      · cases h
      · rename_i pi hpre
        obtain ⟨pre, ind'⟩ := pi
        simp only at h
        split at h
        · cases h
        · rename_i body hbody
          split at h
          · cases h
          · rename_i tail htail
            cases h
            obtain ⟨hw, hf⟩ := preGroup_spec hpre
            obtain ⟨t1, t2⟩ := ih _ _ _ (fun t ht => hreal t (List.mem_append_right _ ht)) htail
            have hb := recAddLines_ok _ _ _ hbody
            have hbr : ∀ t ∈ lineTokens (first :: tl), t.Real :=
              fun t ht => hreal t (List.mem_append_left _ ht)
            have hbd : DropsAll (lineTokens (first :: tl)) body := by rw [hb]; exact dropsAll_refl _
            constructor
            · intro d
              rw [indentWalk_append, indentWalk_append, hw, Option.bind_some,
                walk_dropsAll hbr hbd, Option.bind_some, t1]
            · rw [List.filter_append, List.filter_append, filter_fake hf, filter_dropsAll hbr hbd]
              exact dropsAll_append hbd t2
  | nested k b e sub rest ihs ihr =>
    intro prev ind out hreal h
    rw [lineTokens_nested] at hreal ⊢
    have hbr : ∀ t ∈ b.tokens, t.Real := fun t ht => hreal t (by simp [ht])
    have hsr : ∀ t ∈ lineTokens sub.lines, t.Real := fun t ht => hreal t (by simp [ht])
    have her : ∀ t ∈ e.tokens, t.Real := fun t ht => hreal t (by simp [ht])
    have hrr : ∀ t ∈ lineTokens rest.lines, t.Real := fun t ht => hreal t (by simp [ht])
    simp only [convertLoop, bind, Except.bind] at h
    split at h
    · cases h
    · rename_i pi hpre
      obtain ⟨pre, ind'⟩ := pi
      simp only at h
      split at h
      · cases h
      · rename_i bt hbt
        split at h
        · cases h
        · rename_i body hbody
          split at h
          · cases h
          · rename_i et het
            split at h
            · cases h
            · rename_i tail htail
              cases h
              have hbb : (∀ d, indentWalk d body = some d) ∧
                  DropsAll (lineTokens sub.lines) (body.filter (fun t => !t.isFake)) := by
                split at hbody
                · simp only [srcBody, bind, Except.bind] at hbody
                  split at hbody
                  · cases hbody
                  · rename_i lines hll
                    have hd : DropsAll (lineTokens sub.lines) body := by
                      rw [leafLines_ok hll]; exact srcLines_drops hbody
                    exact ⟨fun d => walk_dropsAll hsr hd d, by rw [filter_dropsAll hsr hd]; exact hd⟩
                · obtain ⟨s1, s2⟩ := ihs _ _ _ hsr hbody
                  exact ⟨fun d => by simpa using s1 d, s2⟩
              obtain ⟨hb1, hb2⟩ := hbb
              obtain ⟨hw, hf⟩ := preGroup_spec hpre
              obtain ⟨t1, t2⟩ := ihr _ _ _ hrr htail
              rw [recAddLine_ok _ _ _ _ hbt, recAddLine_ok _ _ _ _ het]
              have hbd := dropsAll_refl b.tokens
              have hed := dropsAll_refl e.tokens
              constructor
              · intro d
                rw [indentWalk_append, indentWalk_append, indentWalk_append, indentWalk_append, hw,
                  Option.bind_some, walk_dropsAll hbr hbd, Option.bind_some, hb1, Option.bind_some,
                  walk_dropsAll her hed, Option.bind_some, t1]
              · rw [List.filter_append, List.filter_append, List.filter_append, List.filter_append,
                  filter_fake hf, filter_dropsAll hbr hbd, filter_dropsAll her hed, List.nil_append,
                  List.append_assoc, List.append_assoc]
                exact dropsAll_append hbd (dropsAll_append hb2 (dropsAll_append hed t2))

end Verif.Tokenizer
