import Verif.Parser.Does
import Verif.Parser.HeadSpec
import Mathlib.Tactic.Tauto

/-!
# How headlines are parsed
-/

namespace Verif.Parser
open Verif.Lexer Verif.NodeGroup Verif.NodeGroup.Spec

theorem mem_newlineKinds {k : TK} : k ∈ newlineKinds ↔ k ∈ lineBreaks := by
  simp only [newlineKinds, lineBreaks, List.mem_cons, List.not_mem_nil, or_false]
  tauto

theorem does_atSeq (kinds : List TK) (v : List (Nat × TK)) :
    Does (atSeqP kinds) (decide (0 < v.length ∧ kinds <+: v.map Prod.snd)) v v .nil := by
  intro s hv hs
  refine ⟨s.lex, ?_, hv, hs, rfl⟩
  have := atSeq_reads s.lex v hv.1 (.inl hs) kinds 0
  unfold atSeqP ask
  dsimp only
  rw [show s.lex.atSeq kinds = s.lex.atSeq kinds ((0 : Nat) : Int) from rfl, this]
  simp [Forest.flat]

/-- Are only tags left in the line? -/
theorem does_atTags {v : List (Nat × TK)} : Does (ask atTags)
    (match v with
      | [] => false
      | p :: _ => decide (p.2 = .Colon ∧ ∀ k ∈ ((v.map Prod.snd).dropWhile (fun k => decide (k ∈ tagKinds))).head?, k ∈ lineBreaks)) v v .nil := by
  intro s hv hs
  refine ⟨s.lex, ?_, hv, hs, rfl⟩
  have h0 := at_reads s.lex v hv.1 (.inl hs) [.Colon] 0
  unfold ask atTags
  have e : (fun k => decide (k ∈ [Token.TK.Colon, .Word, .DoubleHash, .At, .BigIdent])) = (fun k => decide (k ∈ tagKinds)) := rfl
  rw [show s.lex.at [.Colon] = s.lex.at [.Colon] ((0 : Nat) : Int) from rfl, h0, groupRest_eq hv hs, e]
  clear e
  cases v with
  | nil => simp [Forest.flat]
  | cons p v =>
    simp only [List.getElem?_cons_zero, List.mem_cons, List.not_mem_nil, or_false]
    by_cases hp : p.2 = .Colon
    · simp only [hp, decide_true, true_and]
      generalize hd : List.dropWhile (fun k => decide (k ∈ tagKinds)) (List.map Prod.snd (p :: v)) = d
      cases d with
      | nil => simp [Forest.flat]
      | cons k d => simp [Forest.flat, mem_newlineKinds]
    · simp [hp, Forest.flat]

/-- The condition under which tokens belong to the title. -/
def inTitle : P Bool := andP (canSearch newlineKinds) (andP (notP (ask atTags)) (notP (atP [.SubtreeCompletion])))

theorem dropWhile_has {l : List TK} {q : TK → Bool} (h : ∃ k ∈ l, q k = false) : ∀ r : List TK,
    ∃ k ∈ l, q k = false ∧ ((l ++ r).dropWhile q).head? = some k := by
  induction l with
  | nil => simp at h
  | cons a l ih =>
    intro r
    by_cases ha : q a = true
    · obtain ⟨k, h1, h2⟩ := ih (by
        obtain ⟨k, hk, hq⟩ := h
        rcases List.mem_cons.1 hk with rfl | hk
        · rw [ha] at hq; cases hq
        · exact ⟨k, hk, hq⟩) r
      refine ⟨k, List.mem_cons_of_mem _ h1, h2.1, ?_⟩
      rw [List.cons_append, List.dropWhile_cons, if_pos ha]
      exact h2.2
    · refine ⟨a, List.mem_cons_self, by simpa using ha, ?_⟩
      rw [List.cons_append, List.dropWhile_cons, if_neg ha]
      rfl

theorem inTitle_title {u r : List (Nat × TK)} {g : Forest NK Unit} (hg : Open none u g) (ht : IsTitle u) :
    ∀ a p b, u = a ++ p :: b → Does inTitle true (p :: (b ++ r)) (p :: (b ++ r)) .nil := by
  intro a p b e
  have hp : p ∈ u := by rw [e]; simp
  have hx := open_textual hg p hp
  have h1 := (ht.1 p hp).1
  have hc : p.2 ≠ .SubtreeCompletion := by intro h; rw [h] at hx; simp [Textual, role] at hx
  refine does_and (a := true) ?_ (fun _ => does_and (a := true) ?_ (fun _ => ?_) (by simp)) (by simp)
  · have := does_canSearch_cons newlineKinds p.1 p.2 (b ++ r)
    rwa [decide_eq_false (by rwa [mem_newlineKinds])] at this
  · have := does_not (does_atTags (v := p :: (b ++ r)))
    have e' : (decide (p.2 = .Colon ∧ ∀ k ∈ (((p :: (b ++ r)).map Prod.snd).dropWhile (fun k => decide (k ∈ tagKinds))).head?, k ∈ lineBreaks)) = false := by
      rw [decide_eq_false_iff_not]
      rintro ⟨hpc, hk⟩
      obtain ⟨q, hq, hqt⟩ := ht.2.2 a p.1 b (by rw [e, ← hpc])
      obtain ⟨k, h1, h2, h3⟩ := dropWhile_has (l := ((p :: b).map Prod.snd)) (q := fun k => decide (k ∈ tagKinds))
        ⟨q.2, List.mem_map_of_mem (List.mem_cons_of_mem _ hq), by simpa using hqt⟩ (r.map Prod.snd)
      have e2 : (p :: (b ++ r)).map Prod.snd = (p :: b).map Prod.snd ++ r.map Prod.snd := by simp
      rw [e2, h3] at hk
      obtain ⟨q', hq', rfl⟩ := List.mem_map.1 h1
      refine (ht.1 q' ?_).1 (hk _ rfl)
      rw [e]
      exact List.mem_append_right _ hq'
    simp only [e'] at this
    exact this
  · have := does_not (does_at_cons [.SubtreeCompletion] p.1 p.2 (b ++ r))
    rwa [decide_eq_false (by simpa using hc)] at this

theorem inTitle_nil : Does inTitle false [] [] .nil := does_and (a := false) (does_canSearch_nil _) (by simp) (by simp)

theorem inTitle_break {i : Nat} {k : TK} {r : List (Nat × TK)} (hk : k ∈ lineBreaks) : Does inTitle false ((i, k) :: r) ((i, k) :: r) .nil := by
  refine does_and (a := false) ?_ (by simp) (by simp)
  have := does_canSearch_cons newlineKinds i k r
  rwa [decide_eq_true (by rwa [mem_newlineKinds])] at this

theorem tags_kinds {v : List (Nat × TK)} {f : Forest NK Unit} (h : Tags v f) : ∀ p ∈ v, p.2 ∈ tagKinds := by
  induction h with
  | last => simp [tagKinds]
  | @tag i j k r f hk _ ih =>
    intro p hp
    simp only [List.mem_cons] at hp
    rcases hp with rfl | rfl | hp
    · simp [tagKinds]
    · simp only [List.mem_cons, List.not_mem_nil, or_false] at hk
      rcases hk with rfl | rfl <;> simp [tagKinds]
    · exact ih p hp

theorem dropWhile_all {l : List TK} {q : TK → Bool} (h : ∀ k ∈ l, q k = true) (r : List TK) : (l ++ r).dropWhile q = r.dropWhile q := by
  induction l with
  | nil => rfl
  | cons a l ih =>
    rw [List.cons_append, List.dropWhile_cons, if_pos (h a List.mem_cons_self)]
    exact ih fun k hk => h k (List.mem_cons_of_mem _ hk)

theorem not_tag_break {k : TK} (hk : k ∈ lineBreaks) : k ∉ tagKinds := by
  simp only [lineBreaks, List.mem_cons, List.not_mem_nil, or_false] at hk
  rcases hk with rfl | rfl | rfl <;> simp [tagKinds]

theorem inTitle_tags {v e r : List (Nat × TK)} {f : Forest NK Unit} (h : Tags v f) (he : IsEnd e r) :
    Does inTitle false (v ++ (e ++ r)) (v ++ (e ++ r)) .nil := by
  obtain ⟨i, v', rfl⟩ : ∃ i v', v = (i, .Colon) :: v' := by cases h <;> exact ⟨_, _, rfl⟩
  refine does_and (a := true) (does_canSearch_cons newlineKinds i .Colon (v' ++ (e ++ r))) (fun _ => does_and (a := false) ?_ (by simp) (by simp)) (by simp)
  have := does_not (does_atTags (v := ((i, .Colon) :: v') ++ (e ++ r)))
  have e' : (∀ k ∈ (((((i, Token.TK.Colon) :: v') ++ (e ++ r)).map Prod.snd).dropWhile (fun k => decide (k ∈ tagKinds))).head?, k ∈ lineBreaks) := by
    rw [List.map_append, dropWhile_all]
    · rcases he with ⟨rfl, rfl⟩ | ⟨i, k, rfl, hk⟩
      · simp
      · intro k' hk'
        rw [List.singleton_append, List.map_cons, List.dropWhile_cons, if_neg (by simpa using not_tag_break hk)] at hk'
        simp only [List.head?_cons, Option.mem_some_iff] at hk'
        rwa [← hk']
    · intro k hk
      obtain ⟨p, hp, rfl⟩ := List.mem_map.1 hk
      simpa using tags_kinds h p hp
  simp only [List.cons_append] at this e' ⊢
  simp only [true_and] at this
  rw [decide_eq_true e'] at this
  exact this

theorem hash_tag (t : Texts) (n : Nat) {j : Nat} {k : TK} {r : List (Nat × TK)} (hk : k ∈ [Token.TK.Word, .BigIdent])
    (hr : ∀ p ∈ r.head?, p.2 ≠ .DoubleHash) :
    Does (parseHashTag t (n + 1)) () ((j, k) :: r) r (.tree .HashTag (.leaf .RawText (.tok j) .nil) .nil) := by
  have h : Does (hashAux t (n + 1)) false ((j, k) :: r) r (.tree .HashTag (.leaf .RawText (.tok j) .nil) .nil) := by
    refine does_node .HashTag (does_seq (does_space_none n ?_) (does_bind (a := ()) (f := .leaf .RawText (.tok j) .nil) (g := .nil)
      (does_if_false ?_ (does_popAs t .RawText ?_)) (does_if_false (does_at_head ?_) (does_ret _ _))))
    · intro p hp
      simp only [List.head?_cons, Option.mem_some_iff] at hp
      subst hp
      simp only [List.mem_cons, List.not_mem_nil, or_false] at hk
      rcases hk with rfl | rfl <;> simp
    · refine does_at_head ?_
      intro p hp
      simp only [List.head?_cons, Option.mem_some_iff] at hp
      subst hp
      simp only [List.mem_cons, List.not_mem_nil, or_false] at hk
      rcases hk with rfl | rfl <;> simp
    · simp only [List.mem_cons, List.not_mem_nil, or_false] at hk ⊢
      exact .inr hk
    · intro p hp
      simpa using hr p hp
  exact does_bind h (does_ret () r)

theorem does_tagLoop (t : Texts) {v e r : List (Nat × TK)} {f : Forest NK Unit} (h : Tags v f) (he : IsEnd e r) :
    ∀ n m, v.length < n → 0 < m → ∃ i,
    Does (whileP (andP (atP [.Colon]) (atP [.Word, .At, .BigIdent] 1)) (P.bind (skipP t [.Colon]) fun _ => subP t (parseHashTag t m)) n)
      () (v ++ (e ++ r)) ((i, .Colon) :: (e ++ r)) f := by
  induction h with
  | @last i =>
    intro n m _ _
    refine ⟨i, does_while_stop n (does_and (a := true) (does_at_cons _ i .Colon _) (fun _ => ?_) (by simp))⟩
    have := does_at [.Word, .At, .BigIdent] 1 ([(i, .Colon)] ++ (e ++ r))
    rcases he with ⟨rfl, rfl⟩ | ⟨i', k, rfl, hk⟩
    · exact this
    · simp only [List.singleton_append, List.getElem?_cons_succ, List.getElem?_cons_zero] at this
      rwa [decide_eq_false] at this
      simp only [lineBreaks, List.mem_cons, List.not_mem_nil, or_false] at hk
      rcases hk with rfl | rfl | rfl <;> simp
  | @tag i j k v f hk hv ih =>
    intro n m hn hm
    obtain ⟨n, rfl⟩ : ∃ m, n = m + 1 := ⟨n - 1, by simp at hn; omega⟩
    obtain ⟨m, rfl⟩ : ∃ l, m = l + 1 := ⟨m - 1, by omega⟩
    obtain ⟨i0, ih⟩ := ih n (m + 1) (by simp at hn; omega) hm
    refine ⟨i0, does_while_step (v' := v ++ (e ++ r)) (f := .tree .HashTag (.leaf .RawText (.tok j) .nil) .nil) ?_ ?_ ih⟩
    · refine does_and (a := true) (does_at_cons _ i .Colon _) (fun _ => ?_) (by simp)
      have := does_at [.Word, .At, .BigIdent] 1 ((i, .Colon) :: (j, k) :: (v ++ (e ++ r)))
      simp only [List.getElem?_cons_succ, List.getElem?_cons_zero] at this
      rwa [decide_eq_true] at this
      simp only [List.mem_cons, List.not_mem_nil, or_false] at hk
      rcases hk with rfl | rfl <;> simp
    · refine does_seq (does_skip t (by simp)) (does_sub t (hash_tag t m (r := v ++ (e ++ r)) hk ?_))
      intro p hp
      obtain ⟨i, v', rfl⟩ : ∃ i v', v = (i, .Colon) :: v' := by cases hv <;> exact ⟨_, _, rfl⟩
      simp only [List.cons_append, List.head?_cons, Option.mem_some_iff] at hp
      subst hp
      simp

theorem append_nil' (f : Forest NK Unit) : f.append .nil = f := by
  induction f <;> simp_all [Forest.append]

/-- The tags of a headline. -/
theorem does_tags (t : Texts) {v e r : List (Nat × TK)} {f : Forest NK Unit} (h : Tags v f) (he : IsEnd e r) (n m : Nat) (hn : v.length < n)
    (hm : 0 < m) :
    Does (P.bind (whileP (andP (atP [.Colon]) (atP [.Word, .At, .BigIdent] 1)) (P.bind (skipP t [.Colon]) fun _ => subP t (parseHashTag t m)) n)
      fun _ => skipP t (.Colon :: newlineKinds)) () (v ++ (e ++ r)) (e ++ r) f := by
  obtain ⟨i, h⟩ := does_tagLoop t h he n m hn hm
  rw [← append_nil' f]
  exact does_bind h (does_skip t (by simp))

theorem does_element {p : P Unit} {v v' : List (Nat × TK)} {f : Forest NK Unit} (hp : Does p () v v' f) : Does (element p false) false v v' f :=
  does_fails hp

theorem does_const {a : α} {v : List (Nat × TK)} : Does (fun s : St => .ok (some a, s)) a v v .nil := does_ret a v

theorem isEnd_head {e r : List (Nat × TK)} (he : IsEnd e r) : ∀ p ∈ (e ++ r).head?, p.2 ∈ lineBreaks := by
  rcases he with ⟨rfl, rfl⟩ | ⟨i, k, rfl, hk⟩
  · simp
  · intro p hp
    simp only [List.singleton_append, List.head?_cons, Option.mem_some_iff] at hp
    subst hp; exact hk

theorem no_break {k : TK} (hk : k ∈ lineBreaks) {l : List TK} (h : ∀ k ∈ l, k ∉ lineBreaks) : k ∉ l := fun h' => h k h' hk

/-- What comes after the title. -/
theorem tagPart_head {tags e r : List (Nat × TK)} {tf : Forest NK Unit → Forest NK Unit} (h : TagPart tags tf) (he : IsEnd e r) :
    ∀ p ∈ (tags ++ (e ++ r)).head?, p.2 ∈ lineBreaks ∨ p.2 = .Colon := by
  cases h with
  | none => exact fun p hp => .inl (isEnd_head he p hp)
  | tags h =>
    intro p hp
    simp only [List.cons_append, List.head?_cons, Option.mem_some_iff] at hp
    subst hp; exact .inr rfl

theorem does_tagPart (t : Texts) (n : Nat) {tags e r : List (Nat × TK)} {tf : Forest NK Unit → Forest NK Unit} (h : TagPart tags tf) (he : IsEnd e r)
    (hn : tags.length < n) : Does (parseSubtreeTags t n) () (tags ++ (e ++ r)) (e ++ r) (tf .nil) := by
  cases h with
  | none =>
    refine does_if_false (does_at_head ?_) (does_empty _)
    exact fun p hp => no_break (isEnd_head he p hp) (by simp [lineBreaks])
  | @tags i j k r' f h =>
    refine does_if_true ?_ (does_node .InlineStmtList (does_tags t h he n n hn (by omega)))
    exact does_at_cons [.Colon] i .Colon _

/-- The end of the line and nothing more. -/
theorem does_tail (t : Texts) (n : Nat) {e r : List (Nat × TK)} (he : IsEnd e r) (hr : ∀ p ∈ r.head?, follows p.2) (par stmt : P Unit) (hn : 0 < n) :
    Does (P.bind (ifP (atP [.Newline]) (newlineP n) (P.ret ())) fun _ => P.bind (element (parseSubtreeTimes t n) false) fun f =>
      P.bind (ifP (atP [.Newline]) (newlineP n) (P.ret ())) fun _ => P.bind (ifP (atP [.ColonProperties, .ColonLogbook]) (element (parseSubtreeDrawer t par stmt n) f)
        (P.bind emptyP (fun _ => P.ret f))) fun f => P.bind (newlineP n) fun _ => P.bind (node .StmtList (P.ret ())) fun _ => 
      fun s => .ok (if f then none else some (), s)) () (e ++ r) r (absent (absent (.tree .StmtList .nil .nil))) := by
  obtain ⟨n, rfl⟩ : ∃ m, n = m + 1 := ⟨n - 1, by omega⟩
  have hrn : ∀ p ∈ r.head?, p.2 ∉ newlineKinds := fun p hp => by rw [mem_newlineKinds]; exact (hr p hp).1
  have hmem : ∀ {l : List TK}, (∀ k ∈ l, k ∈ [Token.TK.TreeTime, .LeadingSpace, .ColonProperties, .ColonLogbook]) → ∀ p ∈ r.head?, p.2 ∉ l :=
    fun hl p hp h => (hr p hp).2 (hl _ h)
  have htimes : ∀ {v : List (Nat × TK)}, (∀ p ∈ v.head?, p.2 ∉ [Token.TK.TreeTime, .LeadingSpace]) →
      Does (element (parseSubtreeTimes t (n + 1)) false) false v v (absent .nil) := by
    intro v hv
    refine does_element (does_if_false (does_or (a := false) (does_and (a := false) (does_at_head ?_) (by simp) (by simp))
      (fun _ => does_at_head ?_) (by simp)) (does_empty _))
    · intro p hp; have := hv p hp; simp only [List.mem_cons, List.not_mem_nil, or_false, not_or] at this ⊢; exact this.2
    · intro p hp; have := hv p hp; simp only [List.mem_cons, List.not_mem_nil, or_false, not_or] at this ⊢; exact this.1
  have hend : ∀ {v : List (Nat × TK)}, (∀ p ∈ v.head?, p.2 ∉ [Token.TK.ColonProperties, .ColonLogbook]) → Does (newlineP (n + 1)) () v r .nil →
      Does (P.bind (ifP (atP [.ColonProperties, .ColonLogbook]) (element (parseSubtreeDrawer t par stmt (n + 1)) false)
        (P.bind emptyP (fun _ => P.ret false))) fun f => P.bind (newlineP (n + 1)) fun _ => P.bind (node .StmtList (P.ret ())) fun _ => 
      fun s => .ok (if f then none else some (), s)) () v r (absent (.tree .StmtList .nil .nil)) := by
    intro v hv hn
    refine does_bind (a := false) (f := absent .nil) (g := .tree .StmtList .nil .nil) (does_if_false (does_at_head hv) (does_bind (does_empty _) (does_ret _ _)))
      (does_seq hn (does_bind (f := .tree .StmtList .nil .nil) (g := .nil) (does_node .StmtList (does_ret () r)) (does_ret () r)))
  rcases he with ⟨rfl, rfl⟩ | ⟨i, k, rfl, hk⟩
  · refine does_seq (does_if_false (does_at_nil _) (does_ret _ _)) (does_bind (f := absent .nil) (htimes (by simp))
      (does_seq (does_if_false (does_at_nil _) (does_ret _ _)) (hend (by simp) (does_newline_none _ (by simp)))))
  · by_cases hkn : k = .Newline
    · subst hkn
      refine does_seq (does_if_true (does_at_cons [.Newline] i .Newline r) (does_newline_one n (by simp [newlineKinds]) hrn))
        (does_bind (f := absent .nil) (htimes (hmem (by simp)))
          (does_seq (does_if_false (does_at_head ?_) (does_ret _ _)) (hend (hmem (by simp)) (does_newline_none _ hrn))))
      intro p hp
      have := hrn p hp
      simp only [newlineKinds, List.mem_cons, List.not_mem_nil, or_false, not_or] at this ⊢
      exact this.1
    · have hk' : ∀ {l : List TK}, (∀ k ∈ l, k ∉ lineBreaks) → ∀ p ∈ ((i, k) :: r).head?, p.2 ∉ l := by
        intro l hl p hp
        simp only [List.head?_cons, Option.mem_some_iff] at hp
        subst hp
        exact no_break hk hl
      have hk2 : ∀ p ∈ ((i, k) :: r).head?, p.2 ∉ [Token.TK.Newline] := by
        intro p hp
        simp only [List.head?_cons, Option.mem_some_iff] at hp
        subst hp
        simpa using hkn
      refine does_seq (does_if_false (does_at_head hk2) (does_ret _ _)) (does_bind (f := absent .nil) (htimes (hk' (by simp [lineBreaks])))
        (does_seq (does_if_false (does_at_head hk2) (does_ret _ _)) (hend (hk' (by simp [lineBreaks])) (does_newline_one n (by rwa [mem_newlineKinds]) hrn))))

/-- Keyword and priority. -/
theorem does_front (n : Nat) {front w : List (Nat × TK)} {ff : Forest NK Unit → Forest NK Unit} (h : Front front ff)
    (hw : ∀ p ∈ w.head?, p.2 ∉ [Token.TK.Whitespace, .LeadingSpace, .SubtreePriority])
    (hwp : ¬ [Token.TK.BigIdent, .Whitespace, .SubtreePriority] <+: w.map Prod.snd) (hn : 0 < n) (j : Nat) :
    ∃ v1 v2 f1 f2, Does (element (parseSubtreeTodo n) false) false ((j, .Whitespace) :: (front ++ w)) v1 f1 ∧
      Does (element (parseSubtreeUrgency n) false) false v1 v2 f2 ∧ Does (spaceP n) () v2 w .nil ∧
      ∀ g : Forest NK Unit, ff g = f1.append (f2.append g) := by
  obtain ⟨n, rfl⟩ : ∃ m, n = m + 1 := ⟨n - 1, by omega⟩
  have hws : ∀ p ∈ w.head?, p.2 ∉ [Token.TK.Whitespace, .LeadingSpace] := fun p hp h => hw p hp (by
    simp only [List.mem_cons, List.not_mem_nil, or_false] at h ⊢; tauto)
  have hwq : ∀ p ∈ w.head?, p.2 ∉ [Token.TK.SubtreePriority] := fun p hp h => hw p hp (by
    simp only [List.mem_cons, List.not_mem_nil, or_false] at h ⊢; tauto)
  cases h with
  | none =>
    refine ⟨w, w, absent .nil, absent .nil, does_element (does_seq (does_space_one n hws) (does_if_false ?_ (does_empty _))),
      does_element (does_seq (does_space_none _ hws) (does_if_false (does_at_head hwq) (does_empty _))), does_space_none _ hws, fun g => rfl⟩
    have := does_atSeq [Token.TK.BigIdent, .Whitespace, .SubtreePriority] w
    rwa [decide_eq_false (fun h => hwp h.2)] at this
  | @priority i j' =>
    refine ⟨(i, .SubtreePriority) :: (j', .Whitespace) :: w, (j', .Whitespace) :: w, absent .nil, .leaf .SubtreeUrgency (.tok i) .nil,
      does_element (does_seq (does_space_one n ?_) (does_if_false ?_ (does_empty _))),
      does_element (does_seq (does_space_none _ ?_) (does_if_true ?_ (does_popAny .SubtreeUrgency i _ _))), does_space_one n hws, fun g => rfl⟩
    · simp
    · have := does_atSeq [Token.TK.BigIdent, .Whitespace, .SubtreePriority] ((i, .SubtreePriority) :: (j', .Whitespace) :: w)
      rwa [decide_eq_false (fun h => by simp [List.cons_prefix_cons] at h)] at this
    · simp
    · exact does_at_cons [.SubtreePriority] i .SubtreePriority _
  | @keyword a b i j' =>
    refine ⟨(b, .Whitespace) :: (i, .SubtreePriority) :: (j', .Whitespace) :: w, (j', .Whitespace) :: w, .leaf .BigIdent (.tok a) .nil,
      .leaf .SubtreeUrgency (.tok i) .nil, does_element (does_seq (does_space_one n ?_) (does_if_true ?_ (does_popAny .BigIdent a _ _))),
      does_element (does_seq (does_space_one n ?_) (does_if_true ?_ (does_popAny .SubtreeUrgency i _ _))), does_space_one n hws, fun g => rfl⟩
    · simp
    · have := does_atSeq [Token.TK.BigIdent, .Whitespace, .SubtreePriority]
        ((a, .BigIdent) :: (b, .Whitespace) :: (i, .SubtreePriority) :: (j', .Whitespace) :: w)
      rwa [decide_eq_true (by simp)] at this
    · simp
    · exact does_at_cons [.SubtreePriority] i .SubtreePriority _

/-- No keyword at the start of a title. -/
theorem title_noKeyword {u w : List (Nat × TK)} (hu : IsTitle u) (hw : ∀ p ∈ w.head?, p.2 ∈ lineBreaks ∨ p.2 = .Colon) :
    ¬ [Token.TK.BigIdent, .Whitespace, .SubtreePriority] <+: (u ++ w).map Prod.snd := by
  intro h
  have hne : u ≠ [] := by
    rintro rfl
    obtain ⟨p, hp, _⟩ := hu.2.1
    simp at hp
  obtain ⟨a, u, rfl⟩ := List.exists_cons_of_ne_nil hne
  cases u with
  | nil =>
    cases w with
    | nil => simp [List.cons_prefix_cons] at h
    | cons b w =>
      simp only [List.cons_append, List.nil_append, List.map_cons, List.cons_prefix_cons] at h
      have := hw b rfl
      rw [← h.2.1] at this
      simp [lineBreaks] at this
  | cons b u =>
    cases u with
    | nil =>
      cases w with
      | nil => simp [List.cons_prefix_cons] at h
      | cons c w =>
        simp only [List.cons_append, List.nil_append, List.map_cons, List.cons_prefix_cons] at h
        have := hw c rfl
        rw [← h.2.2.1] at this
        simp [lineBreaks] at this
    | cons c u =>
      simp only [List.cons_append, List.map_cons, List.cons_prefix_cons] at h
      exact (hu.1 c (by simp)).2 h.2.2.1.symm

/-- One headline. -/
theorem does_head (t : Texts) (n m : Nat) (stmt : P Unit) {i j : Nat} {front u tags e r : List (Nat × TK)} {ff tf : Forest NK Unit → Forest NK Unit}
    {g : Forest NK Unit} (hf : Front front ff) (hg : Open none u g) (hu : IsTitle u) (ht : TagPart tags tf) (he : IsEnd e r)
    (hr : ∀ p ∈ r.head?, follows p.2) (hn : u.length + tags.length + 2 ≤ n) (hm : u.length + 2 ≤ m) :
    Does (parseSubtree t (parseParagraph t m) stmt n) () ((i, .SubtreeStars) :: (j, .Whitespace) :: (front ++ (u ++ (tags ++ (e ++ r))))) r
      (.tree .Subtree (.leaf .RawText (.tok i) (ff (.tree .Paragraph g (absent (tf (absent (absent (.tree .StmtList .nil .nil)))))))) .nil) := by
  have hw := tagPart_head ht he
  obtain ⟨p0, hp0, hp0w⟩ := hu.2.1
  have hne : u ≠ [] := by rintro rfl; simp at hp0
  have htx := open_textual hg
  have huw : ∀ p ∈ (u ++ (tags ++ (e ++ r))).head?, p.2 ∉ [Token.TK.Whitespace, .LeadingSpace, .SubtreePriority] := by
    intro p hp
    obtain ⟨q, u, rfl⟩ := List.exists_cons_of_ne_nil hne
    simp only [List.cons_append, List.head?_cons, Option.mem_some_iff] at hp hp0
    subst hp hp0
    have h1 := htx q List.mem_cons_self
    have h2 := (hu.1 q List.mem_cons_self).2
    simp only [List.mem_cons, List.not_mem_nil, or_false, not_or]
    refine ⟨hp0w, ?_, h2⟩
    intro h
    rw [h] at h1
    simp [Textual, role] at h1
  have huw2 : ∀ p ∈ (u ++ (tags ++ (e ++ r))).head?, p.2 ∉ [Token.TK.Whitespace, .LeadingSpace] := fun p hp h => huw p hp (by
    simp only [List.mem_cons, List.not_mem_nil, or_false] at h ⊢; tauto)
  obtain ⟨v1, v2, f1, f2, a1, a2, a3, a4⟩ := does_front n hf huw (title_noKeyword hu hw) (by omega) j
  have hwh : ∀ {l : List TK}, (∀ k ∈ l, k ∉ lineBreaks ∧ k ≠ .Colon) → ∀ p ∈ (tags ++ (e ++ r)).head?, p.2 ∉ l := by
    intro l hl p hp h
    rcases hw p hp with h' | h'
    · exact (hl _ h).1 h'
    · exact (hl _ h).2 h'
  rw [a4]
  refine does_node .Subtree (does_bind (f := .leaf .RawText (.tok i) .nil) (does_popAs t .RawText (by simp)) (does_bind a1 (does_bind a2 (does_seq a3
    (does_bind (f := .tree .Paragraph g .nil) (g := absent (tf (absent (absent (.tree .StmtList .nil .nil))))) (v' := tags ++ (e ++ r)) (a := false) ?_
      (does_bind (f := absent .nil) (g := tf (absent (absent (.tree .StmtList .nil .nil)))) (a := false) ?_
        (does_seq (does_space_none n (hwh (by simp [lineBreaks]))) ?_)))))))
  · refine does_element (does_seq (does_space_none n huw2) (does_collected t hg hne (inTitle_title hg hu) ?_ m n hm (by omega)))
    cases ht with
    | none =>
      rcases he with ⟨rfl, rfl⟩ | ⟨i, k, rfl, hk⟩
      · exact inTitle_nil
      · exact inTitle_break hk
    | tags ht => exact inTitle_tags ht he
  · exact does_element (does_seq (does_space_none n (hwh (by simp [lineBreaks]))) (does_if_false (does_at_head (hwh (by simp [lineBreaks]))) (does_empty _)))
  · have e3 : tf (absent (absent (.tree .StmtList .nil .nil))) = (tf .nil).append (absent (absent (.tree .StmtList .nil .nil))) := by
      cases ht <;> rfl
    rw [e3]
    exact does_bind (does_element (does_tagPart t n ht he (by omega))) (does_tail t n he hr _ _ (by omega))

theorem heads_kinds {v : List (Nat × TK)} {f : Forest NK Unit} (h : Heads v f) : ∀ p ∈ v.head?, p.2 ≠ .Comment := by
  cases h with
  | nil => simp
  | line hk _ =>
    intro p hp
    simp only [List.head?_cons, Option.mem_some_iff] at hp
    subst hp
    rintro rfl
    simp [lineBreaks] at hk
  | space _ => simp
  | par _ hg _ _ =>
    intro p hp
    simp only [List.head?_cons, Option.mem_some_iff] at hp
    subst hp
    rintro rfl
    have := open_textual hg _ List.mem_cons_self
    simp [Textual, role] at this
  | head => simp

theorem does_stmtLine (t : Texts) (n : Nat) {i : Nat} {k : TK} {r : List (Nat × TK)} (hk : k ∈ lineBreaks) :
    Does (parseStmt t (n + 1)) () ((i, k) :: r) r (.leaf .Newline (.tok i) .nil) := by
  intro s hv hs
  obtain ⟨h1, h2, h3, _⟩ := cur_next_cons hv
  refine ⟨s.lex.next, stmt_newline t n s hv hk, h1, ?_, h2.1⟩
  have := h2.2
  rw [hs] at this
  simpa using this

theorem does_stmtSpace (t : Texts) (n : Nat) {i : Nat} {r : List (Nat × TK)} :
    Does (parseStmt t (n + 1)) () ((i, .Whitespace) :: r) r (.leaf .Space (.tok i) .nil) := by
  intro s hv hs
  obtain ⟨h1, h2, h3, _⟩ := cur_next_cons hv
  refine ⟨s.lex.next, stmt_space t n s hv, h1, ?_, h2.1⟩
  have := h2.2
  rw [hs] at this
  simpa using this

theorem does_kind (i : Nat) (k : TK) (v : List (Nat × TK)) : Does kindP k ((i, k) :: v) ((i, k) :: v) .nil := by
  intro s hv hs
  exact ⟨s.lex, by rw [kind_ok hv]; simp [Forest.flat], hv, hs, rfl⟩

theorem does_stmtPar (t : Texts) (n : Nat) {i : Nat} {k : TK} {u r : List (Nat × TK)} {g : Forest NK Unit}
    (hk : k ∉ Token.TK.Whitespace :: lineBreaks) (hg : Open none ((i, k) :: u) g)
    (hr : ∀ p ∈ r.head?, p.2 ∈ paragraphTerminator) (hn : u.length + 4 ≤ n) :
    Does (parseStmt t n) () ((i, k) :: (u ++ r)) r (.tree .Paragraph g .nil) := by
  obtain ⟨n, rfl⟩ : ∃ m, n = m + 1 := ⟨n - 1, by omega⟩
  have ht := open_textual hg
  have hkt : Textual k := ht (i, k) List.mem_cons_self
  refine does_seq (does_kind i k _) ?_
  have e1 : k ≠ .SubtreeStars := by rintro rfl; simp [Textual, role] at hkt
  have e2 : k ≠ .Indent := by rintro rfl; simp [Textual, role] at hkt
  have e3 : k ≠ .Whitespace := by rintro rfl; simp at hk
  have e4 : k ∉ newlineKinds := by
    intro h
    simp only [newlineKinds, lineBreaks, List.mem_cons, List.not_mem_nil, or_false, not_or] at h hk
    tauto
  have e5 : k ≠ .TextSeparator := by rintro rfl; simp [Textual, role] at hkt
  have e6 : k ∉ [Token.TK.TableSeparator, .LeadingPipe] := by
    intro h
    simp only [List.mem_cons, List.not_mem_nil, or_false] at h
    rcases h with rfl | rfl <;> simp [Textual, role] at hkt
  have e7 : k ≠ .ColonExampleLine := by rintro rfl; simp [Textual, role] at hkt
  have e8 : k ≠ .CmdPrefix := by rintro rfl; simp [Textual, role] at hkt
  rw [if_neg e1, if_neg e2, if_neg e3, if_neg e4, if_neg e5, if_neg e6, if_neg e7, if_neg e8]
  intro s hv hs
  obtain ⟨l, h1, h2, h3⟩ := collect_text (u := (i, k) :: u) (r := r) (kinds := paragraphTerminator)
    (fun p hp => textual_not_terminator (ht p hp)) hr n (by simp; omega) s hv
  have hval := valid_prefix (u := (i, k) :: u) (r := r) (cur_valid hv)
  obtain ⟨l', q1, q2⟩ := paragraph_reading t n ⟨Lex.ofIds l.toks (((i, k) :: u).map Prod.fst), s.g⟩ _
    (cur_sub (h3.1 ▸ hval)) hg (by simp; omega)
  refine ⟨l, ?_, h2, ?_, h3.1⟩
  · unfold plainParagraph
    rw [bind_ok h1]
    rw [List.map_cons] at q1 ⊢
    dsimp only
    unfold withIds withLex
    dsimp only
    rw [q1]
  · have := h3.2
    rw [hs] at this
    simpa using this

theorem does_stmtHead (t : Texts) (n : Nat) {i j : Nat} {front u tags e r : List (Nat × TK)} {ff tf : Forest NK Unit → Forest NK Unit}
    {g : Forest NK Unit} (hf : Front front ff) (hg : Open none u g) (hu : IsTitle u) (ht : TagPart tags tf) (he : IsEnd e r)
    (hr : ∀ p ∈ r.head?, follows p.2) (hn : u.length + tags.length + 4 ≤ n) :
    Does (parseStmt t n) () ((i, .SubtreeStars) :: (j, .Whitespace) :: (front ++ (u ++ (tags ++ (e ++ r))))) r
      (.tree .Subtree (.leaf .RawText (.tok i) (ff (.tree .Paragraph g (absent (tf (absent (absent (.tree .StmtList .nil .nil)))))))) .nil) := by
  obtain ⟨n, rfl⟩ : ∃ m, n = m + 1 := ⟨n - 1, by omega⟩
  refine does_seq (does_kind i .SubtreeStars _) ?_
  rw [if_pos rfl]
  exact does_head t n n _ hf hg hu ht he hr (by omega) (by omega)

theorem does_recover {stmt : P Unit} {v v' : List (Nat × TK)} {f : Forest NK Unit} (m : Nat) (h : Does stmt () v v' f) : Does (recover stmt m) () v v' f := by
  intro s hv hs
  obtain ⟨l, h1, h2⟩ := h s hv hs
  exact ⟨l, recover_ok h1, h2⟩

/-- The main loop over a document of headlines and paragraphs. -/
theorem does_heads (t : Texts) (n m : Nat) {v : List (Nat × TK)} {f : Forest NK Unit} (hf : Heads v f) :
    ∀ j : Nat, v.length ≤ j → v.length + 4 ≤ n →
    Does (whileP (notP finishedP) (ifP (atP [.Comment]) nextP (recover (parseStmt t n) m)) j) () v [] f := by
  have step : ∀ {v v' : List (Nat × TK)} {f g : Forest NK Unit} {j : Nat}, v ≠ [] → (∀ p ∈ v.head?, p.2 ≠ .Comment) → Does (parseStmt t n) () v v' f →
      Does (whileP (notP finishedP) (ifP (atP [.Comment]) nextP (recover (parseStmt t n) m)) j) () v' [] g →
      Does (whileP (notP finishedP) (ifP (atP [.Comment]) nextP (recover (parseStmt t n) m)) (j + 1)) () v [] (f.append g) := by
    intro v v' f g j hne hc h1 h2
    refine does_while_step ?_ (does_if_false (does_at_head fun p hp => by simpa using hc p hp) (does_recover m h1)) h2
    have := does_not (does_finished v)
    obtain ⟨p, v, rfl⟩ := List.exists_cons_of_ne_nil hne
    exact this
  have hall := hf
  induction hf with
  | nil =>
    intro j _ _
    exact does_while_stop j (does_not (does_finished []))
  | @line i k r f hk hr ih =>
    intro j hj hn
    obtain ⟨j, rfl⟩ : ∃ m, j = m + 1 := ⟨j - 1, by simp at hj; omega⟩
    obtain ⟨n, rfl⟩ : ∃ m, n = m + 1 := ⟨n - 1, by omega⟩
    exact step (by simp) (heads_kinds hall) (does_stmtLine t n hk) (ih hr j (by simpa using hj) (by simp at hn; omega))
  | @space i r f hr ih =>
    intro j hj hn
    obtain ⟨j, rfl⟩ : ∃ m, j = m + 1 := ⟨j - 1, by simp at hj; omega⟩
    obtain ⟨n, rfl⟩ : ∃ m, n = m + 1 := ⟨n - 1, by omega⟩
    exact step (by simp) (heads_kinds hall) (does_stmtSpace t n) (ih hr j (by simpa using hj) (by simp at hn; omega))
  | @par i k u r f g hk hg hr hd ih =>
    intro j hj hn
    simp only [List.length_cons, List.length_append] at hj hn
    obtain ⟨j, rfl⟩ : ∃ m, j = m + 1 := ⟨j - 1, by omega⟩
    refine step (by simp) (heads_kinds hall) (does_stmtPar t n hk hg (fun p hp => ?_) (by omega)) (ih hd j (by omega) (by omega))
    have := hr p hp
    simp only [List.mem_cons, List.not_mem_nil, or_false] at this
    rcases this with h | h | h <;> rw [h] <;> decide
  | @head i j' front ff u g tags tf e r f hf hg hu ht he hr hd ih =>
    intro j hj hn
    simp only [List.length_cons, List.length_append] at hj hn
    obtain ⟨j, rfl⟩ : ∃ m, j = m + 1 := ⟨j - 1, by omega⟩
    exact step (by simp) (heads_kinds hall) (does_stmtHead t n hf hg hu ht he hr (by omega)) (ih hd j (by omega) (by omega))

end Verif.Parser
