import Verif.Parser.GoodInline

/-!
# Verbatim text, symbols and markup
-/

namespace Verif.Parser
open Verif.Lexer Verif.NodeGroup Verif.NodeGroup.Spec

theorem kind_cons {l : Lex TK} {v : List (Nat × TK)} {k : TK} (h : Cur l v) (hk : l.kind = .ok k) :
    ∃ p v', v = p :: v' ∧ p.2 = k := by
  cases v with
  | nil => rw [(reads_nil h.1).2.2] at hk; cases hk
  | cons p v =>
    rw [(cur_next_cons h).2.2.2.1] at hk
    injection hk with hk
    exact ⟨p, v, rfl, hk⟩

theorem not_finished {l : Lex TK} {v : List (Nat × TK)} (h : Cur l v) (hf : l.finished = false) :
    ∃ p v', v = p :: v' := by
  cases v with
  | nil => rw [(reads_nil h.1).1] at hf; cases hf
  | cons p v => exact ⟨p, v, rfl⟩

/-! ## `getInside` -/

/-- From `l` to `l'` the tokens `acc'` without `acc` were collected. -/
def Got (v : List (Nat × TK)) (l l' : Lex TK) (acc acc' : List Nat) : Prop :=
  ∃ c v', ∃ u : List (Nat × TK), v = c ++ v' ∧ Cur l' v' ∧ SameToks l l' ∧ acc' = acc ++ u.map Prod.fst ∧ u.Sublist c

theorem Got.refl {v : List (Nat × TK)} {l : Lex TK} {acc : List Nat} (h : Cur l v) : Got v l l acc acc :=
  ⟨[], v, [], rfl, h, SameToks.refl _, by simp, List.Sublist.refl _⟩

theorem Got.cur {v : List (Nat × TK)} {l l' : Lex TK} {acc acc' : List Nat} (h : Got v l l' acc acc') :
    ∃ v', Cur l' v' := by
  obtain ⟨_, v', _, _, h, _⟩ := h; exact ⟨v', h⟩

theorem Got.trans {v v' : List (Nat × TK)} {l l' l'' : Lex TK} {acc acc' acc'' : List Nat} (h : Got v l l' acc acc')
    (hv : Cur l' v') (h' : ∀ v', Cur l' v' → Got v' l' l'' acc' acc'') : Got v l l'' acc acc'' := by
  obtain ⟨c, w, u, h1, h2, h3, h4, h5⟩ := h
  obtain ⟨c', w', u', k1, k2, k3, k4, k5⟩ := h' w h2
  refine ⟨c ++ c', w', u ++ u', by rw [h1, k1, List.append_assoc], k2, h3.trans k3, ?_, h5.append k5⟩
  rw [k4, h4, List.map_append, List.append_assoc]

theorem got_next {v : List (Nat × TK)} {p : Nat × TK} {l : Lex TK} {acc : List Nat} (h : Cur l (p :: v)) (keep : Bool) :
    Got (p :: v) l l.next acc (if keep then acc ++ [l.pos] else acc) := by
  obtain ⟨h1, h2, h3, _⟩ := cur_next_cons h
  cases keep with
  | true => exact ⟨[p], v, [p], rfl, h1, h2, by simp [h3], List.Sublist.refl _⟩
  | false => exact ⟨[p], v, [], rfl, h1, h2, by simp, by simp⟩

theorem isKind_ok {l : Lex TK} {ks : List TK} {b : Bool} (h : l.isKind ks = .ok b) : ∃ k, l.kind = .ok k := by
  unfold Lex.isKind at h
  cases hk : l.kind with
  | error e => rw [hk] at h; cases h
  | ok k => exact ⟨k, rfl⟩

theorem got_openers (start : List TK) : ∀ (fuel : Nat) (l : Lex TK) (acc : List Nat) (v : List (Nat × TK)) (acc' : List Nat)
    (l' : Lex TK), Cur l v → l.popOpeners start fuel acc = .ok (acc', l') → Got v l l' acc acc' := by
  intro fuel
  induction fuel with
  | zero =>
    intro l acc v acc' l' hv h
    unfold Lex.popOpeners at h
    split at h
    · cases h
    · cases h; exact Got.refl hv
    · cases h
  | succ fuel ih =>
    intro l acc v acc' l' hv h
    unfold Lex.popOpeners at h
    split at h
    · cases h
    · cases h; exact Got.refl hv
    · rename_i hk
      obtain ⟨k, hk⟩ := isKind_ok hk
      obtain ⟨p, w, rfl, _⟩ := kind_cons hv hk
      exact (got_next hv true).trans (cur_next_cons hv).1 (fun w hw => ih _ _ w _ _ hw h)

theorem got_closers (finish : List TK) (keep : Bool) : ∀ (fuel : Nat) (l : Lex TK) (acc : List Nat) (v : List (Nat × TK))
    (acc' : List Nat) (l' : Lex TK), Cur l v → l.popClosers finish keep fuel acc = .ok (acc', l') → Got v l l' acc acc' := by
  intro fuel
  induction fuel with
  | zero =>
    intro l acc v acc' l' hv h
    unfold Lex.popClosers at h
    split at h
    · cases h; exact Got.refl hv
    · split at h
      · cases h
      · cases h; exact Got.refl hv
      · cases h
  | succ fuel ih =>
    intro l acc v acc' l' hv h
    unfold Lex.popClosers at h
    split at h
    · cases h; exact Got.refl hv
    · split at h
      · cases h
      · cases h; exact Got.refl hv
      · rename_i hk
        obtain ⟨k, hk⟩ := isKind_ok hk
        obtain ⟨p, w, rfl, _⟩ := kind_cons hv hk
        exact (got_next hv keep).trans (cur_next_cons hv).1 (fun w hw => ih _ _ w _ _ hw h)

theorem got_inside (start finish : List TK) : ∀ (fuel count : Nat) (l : Lex TK) (acc : List Nat) (v : List (Nat × TK))
    (acc' : List Nat) (l' : Lex TK), Cur l v → Lex.insideLoop start finish fuel count l acc = .ok (acc', l') →
      Got v l l' acc acc' := by
  intro fuel
  induction fuel with
  | zero =>
    intro count l acc v acc' l' hv h
    rw [Lex.insideLoop.eq_def] at h
    dsimp only at h
    split at h
    · cases h
    · cases h; exact Got.refl hv
  | succ fuel ih =>
    intro count l acc v acc' l' hv h
    rw [Lex.insideLoop.eq_def] at h
    dsimp only at h
    split at h
    · split at h
      · cases h
      · split at h
        · cases h
        · rename_i ho
          have hg := got_openers start _ _ _ v _ _ hv ho
          obtain ⟨w, hw⟩ := hg.cur
          exact hg.trans hw (fun w hw => ih _ _ _ w _ _ hw h)
      · split at h
        · cases h
        · split at h
          · cases h
          · rename_i ho
            have hg := got_closers finish _ _ _ _ v _ _ hv ho
            obtain ⟨w, hw⟩ := hg.cur
            exact hg.trans hw (fun w hw => ih _ _ _ w _ _ hw h)
        · rename_i hk _ _ _ _
          rename_i hk'
          obtain ⟨k, hk⟩ := isKind_ok hk'
          obtain ⟨p, w, rfl, _⟩ := kind_cons hv hk
          exact (got_next hv true).trans (cur_next_cons hv).1 (fun w hw => ih _ _ _ w _ _ hw h)
    · cases h; exact Got.refl hv

theorem got_getInside {start finish : List TK} {l l' : Lex TK} {v : List (Nat × TK)} {ids : List Nat} (hv : Cur l v)
    (h : l.getInside start finish = .ok (ids, l')) : Got v l l' [] ids := by
  unfold Lex.getInside at h
  split at h
  · cases h
  · rename_i ids0 l0 ho
    obtain ⟨c, w, u, h1, h2, h3, _, _⟩ := got_openers start _ _ _ v _ _ hv ho
    have hg : Got v l l0 [] [] := ⟨c, w, [], h1, h2, h3, rfl, by simp⟩
    exact hg.trans h2 (fun w hw => got_inside start finish _ _ _ _ w _ _ hw h)

/-! ## Verbatim text -/

theorem good_verbatimLoop (m : Bool) (n : Nat) : ∀ lines, Good (verbatimLoop m n lines) := by
  induction n with
  | zero => intro lines; unfold verbatimLoop; good
  | succ n ih =>
    intro lines
    have h1 := ih lines
    have h2 := ih (lines + 1)
    have h3 := good_placeholder
    unfold verbatimLoop
    refine good_if (by askpure) (by good) (good_bind (by good) (fun k => ?_))
    by_cases e1 : k = verbatimEnd m
    · rw [if_pos e1]; good
    · rw [if_neg e1]
      by_cases e2 : k = .Newline
      · rw [if_pos e2]
        by_cases e3 : 2 < lines
        · rw [if_pos e3]; good
        · rw [if_neg e3]; good
      · rw [if_neg e2]
        by_cases e3 : k = .Placeholder
        · rw [if_pos e3]; good
        · rw [if_neg e3]; good

theorem good_verbatim (n : Nat) : Good (parseVerbatim n) := by
  intro s v hu hv
  unfold parseVerbatim
  cases hk : s.lex.kind with
  | error e => exact foreign_ofLex e
  | ok k =>
    obtain ⟨q, w, rfl, _⟩ := kind_cons hv hk
    dsimp only
    have hl := good_verbatimLoop (decide (k = .MonospaceBegin)) n 0
    generalize hb : (do
      nextP
      verbatimLoop (decide (k = .MonospaceBegin)) n 0
      let closed ← atP [verbatimEnd (decide (k = .MonospaceBegin))]
      ifP (P.ret closed) nextP (P.ret ())
      P.ret closed : P Bool) = body
    have hbody : Good body := by
      rw [← hb]; good
    have h := good_node' (k := if decide (k = .MonospaceBegin) = true then .Monospace else .Verbatim) hbody
      (by split <;> decide) (by split <;> decide) s _ hu hv
    cases hs : node (if decide (k = .MonospaceBegin) = true then .Monospace else .Verbatim) body s with
    | error e => rw [hs] at h; exact h
    | ok rs =>
      obtain ⟨r, s'⟩ := rs
      rw [hs] at h
      obtain ⟨v', f, h1, _⟩ := h
      match r with
      | none => exact ⟨v', f, h1, trivial⟩
      | some true => exact ⟨v', f, h1, trivial⟩
      | some false =>
        dsimp only
        obtain ⟨c, k1, k2, k3, k4, k5, k6, k7⟩ := h1
        rw [cur_setPos hv k3]
        have hg : s'.g.removeTail (s.g.nodes.length + 1) = .ok s.g := by
          obtain ⟨l', nodes', pend'⟩ := s'
          dsimp only at k4 k5
          subst k4 k5
          simp [Group.removeTail, getIndex, bind, Except.bind]
        rw [hg]
        exact (good_popAny (k := .Punctuation) (by decide)).any s _ hu hv

/-! ## Symbols -/

/-- The innermost open tree is there and is no markup. -/
def InText (s : St) : Prop :=
  ∃ q rest nd, s.g.pending = q :: rest ∧ s.g.at q = .ok nd ∧ nd.kind ∉ [NK.Bold, .Italic, .Underline, .Strike]

/-- Good inside of a paragraph. -/
def TextGood (R : Option α → Forest NK Unit → Prop) (p : P α) : Prop := ∀ s, InText s → OkAt R [] s p

theorem inText_start (s : St) {k : NK} (hk : k ∉ [NK.Bold, .Italic, .Underline, .Strike]) (l : Lex TK) :
    InText ⟨l, (s.g.startTree ⟨k, .ext 0⟩).1⟩ :=
  ⟨s.g.nodes.length + 1, s.g.pending, ⟨k, .ext 0⟩, rfl, at_append s.g.nodes [] _ _, hk⟩

theorem good_paragraphNode {R : Option α → Forest NK Unit → Prop} {p : P α} (h : TextGood R p) :
    GoodFrom (Around R .Paragraph) [] (node .Paragraph p) :=
  fun s => okAt_node (by decide) (h _ (inText_start s (by decide) _)) (by intro e; cases e)

theorem withIds_text {R : Option α → Forest NK Unit → Prop} {u : List (Nat × TK)} {p : P α} (h : TextGood R p) (s : St)
    (hs : InText s) : OkAt R u s (withIds (u.map Prod.fst) p) := by
  intro v hu hv
  have hc := cur_sub hu
  have h := h { s with lex := Lex.ofIds s.lex.toks (u.map Prod.fst) } hs u (valid_nil _) hc
  unfold withIds withLex
  cases hs : p { s with lex := Lex.ofIds s.lex.toks (u.map Prod.fst) } with
  | error e => rw [hs] at h; exact h
  | ok rs =>
    obtain ⟨r, s'⟩ := rs
    rw [hs] at h
    obtain ⟨v', f, ⟨c, h1, h2, h3, h4, h5, h6, h7⟩, hR⟩ := h
    refine ⟨v, f, ⟨[], rfl, hv, SameToks.refl _, h4, h5, ?_, h7⟩, hR⟩
    refine h6.trans (List.Sublist.map _ ?_)
    rw [h1]; simp

theorem good_symbolArg (t : Texts) {text : P Unit} (h : TextGood Any text) : Good (symbolArg t text) := by
  unfold symbolArg
  refine good_if (by askpure) (by good) ?_
  intro s v hu hv
  dsimp only
  cases hi : s.lex.getInside [.CurlyBegin] [.CurlyEnd] with
  | error e => exact foreign_ofLex e
  | ok rs =>
    obtain ⟨ids, l⟩ := rs
    obtain ⟨c, v', u, h1, h2, h3, h4, h5⟩ := got_getInside hv hi
    simp only [List.nil_append] at h4
    subst h4
    dsimp only
    have hval : Valid l.toks u := by
      rw [h3.1]
      refine (cur_valid hv).sublist (h5.trans ?_)
      rw [h1]; exact List.sublist_append_left _ _
    have hn := okAt_node (R := Any) (u := u) (k := .Paragraph) (body := withIds (u.map Prod.fst) text)
      (s := { s with lex := l }) (by decide) (withIds_text h _ (inText_start _ (by decide) _)) (by intro e; cases e)
      v' hval h2
    cases hs : node .Paragraph (withIds (u.map Prod.fst) text) { s with lex := l } with
    | error e => rw [hs] at hn; exact hn
    | ok rs =>
      obtain ⟨r, s'⟩ := rs
      rw [hs] at hn
      obtain ⟨v'', f, ⟨c', k1, k2, k3, k4, k5, k6, k7⟩, _⟩ := hn
      refine ⟨v'', f, ⟨c ++ c', by rw [h1, k1, List.append_assoc], k2, h3.trans k3, k4, k5, k6.trans ?_, h3.1 ▸ k7⟩, trivial⟩
      exact (h5.append (List.Sublist.refl c')).map _

theorem good_symbol (t : Texts) {text : P Unit} (h : TextGood Any text) (n : Nat) : Good (parseSymbol t text n) := by
  have h1 := good_symbolArg t h
  unfold parseSymbol; good

end Verif.Parser
