import Verif.Keywords.Lex
import Verif.Raw.Tokens

/-!
# Lines, groups and tokens of documents with keyword lines
-/

namespace Verif.Keywords
open Verif.Token Verif.Tokenizer
open Verif.Stamp (Raw placed)
open Verif.Drawer (Text)
open Verif.BaseLexer (normalize)
open Verif.Code (afterRaw breakKind raws raws_append raws_placed raws_split raws_cons raws_nil raws_mem split_lines lines_one rec_add rec_adds pre_none Conv conv_nil
  conv_step)

def lineKinds : List TK := [.CmdStartup, .CmdOptions, .CmdKeywordsRaw, .CmdEmailRaw, .CmdTagsRaw, .CmdDrawersRaw, .CmdCategoryRaw, .CmdPrioritiesRaw,
  .CmdLatexHeaderExtraRaw, .CmdMacroRaw, .CmdBindRaw, .CmdExcludeTagsRaw, .CmdSelectTagsRaw, .CmdSetupfileRaw, .CmdSeqTodoRaw, .CmdCustomRaw]

theorem kind_role {l : Line} (h : l.Valid) : ∃ r, l.role = some r ∧ roleKind l.kind r := by
  obtain ⟨r, hr⟩ := Option.ne_none_iff_exists'.mp h.role
  exact ⟨r, hr, (dispatch hr (fun s => .ok s) none ⟨⟨[], 0, 0, none⟩, []⟩).2⟩

theorem kind_mem {l : Line} (h : l.Valid) : l.kind ∈ lineKinds := by
  obtain ⟨r, -, hk⟩ := kind_role h
  revert hk
  generalize l.kind = k
  intro hk
  cases r with
  | custom =>
    replace hk : k ∈ [TK.CmdTagsRaw, .CmdDrawersRaw, .CmdCategoryRaw, .CmdPrioritiesRaw, .CmdLatexHeaderExtraRaw, .CmdMacroRaw, .CmdBindRaw, .CmdExcludeTagsRaw,
      .CmdSelectTagsRaw, .CmdSetupfileRaw, .CmdSeqTodoRaw, .CmdCustomRaw] := hk
    revert hk
    generalize k = x
    revert x
    decide
  | _ => cases hk; decide

/-- The tokens of a line. -/
theorem line_toks {l : Line} {L : List Tok} (h : raws L = l.raw ++ afterRaw l.after) :
    ∃ c k r A, L = c :: k :: r :: A ∧ c.kind = .LineCommand ∧ c.text = "#+".toList ∧ k.kind = l.kind ∧ k.text = l.head ∧ r.kind = .RawText ∧ r.text = l.rest ∧
      raws A = afterRaw l.after := by
  obtain ⟨c, R, rfl, h1, h2, h⟩ := raws_cons (b := (l.kind, l.head) :: (.RawText, l.rest) :: afterRaw l.after) h
  obtain ⟨k, R, rfl, h3, h4, h⟩ := raws_cons h
  obtain ⟨r, R, rfl, h5, h6, h⟩ := raws_cons h
  exact ⟨c, k, r, R, rfl, h1, h2, h3, h4, h5, h6, h⟩

theorem line_made {l : Line} (hl : l.Valid) {L : List Tok} (h : raws L = l.raw ++ afterRaw l.after) : mkLine L = .ok ⟨L, 0, .line⟩ := by
  obtain ⟨c, k, r, A, rfl, h1, -, h3, -⟩ := line_toks h
  show (do let x ← lineKindOf (c :: k :: r :: A) c; Except.ok (Tokenizer.Line.mk (c :: k :: r :: A) (indentOf c) x)) = _
  have e : lineKindOf (c :: k :: r :: A) c = .ok .line := by
    unfold lineKindOf
    rw [h1]
    show setLineCommandKind _ 0 = _
    unfold setLineCommandKind
    simp only [List.getElem?_cons_zero, h1, if_true, Nat.zero_add, List.getElem?_cons_succ, h3]
    have := kind_mem hl
    revert this
    generalize l.kind = x
    revert x
    decide
  rw [e]
  show Except.ok (Tokenizer.Line.mk (c :: k :: r :: A) (indentOf c) .line) = _
  rw [show indentOf c = 0 from by unfold indentOf; rw [h1]]

theorem line_ends {l : Line} (hl : l.Valid) {L : List Tok} (h : raws L = l.raw ++ afterRaw l.after) {r : List Tok} {ls : List Tokenizer.Line}
    (ha : l.after = 0 → r = []) (hr : toLinesLoop [] r = .ok ls) : toLinesLoop [] (L ++ r) = .ok (⟨L, 0, .line⟩ :: ls) := by
  have hm := line_made hl h
  obtain ⟨c, k, t, A, rfl, h1, -, h3, -, h5, -, h7⟩ := line_toks h
  have n1 : c.kind ∉ lineEnd := by rw [h1]; decide
  have n2 : k.kind ∉ lineEnd := by
    rw [h3]
    have := kind_mem hl
    revert this
    generalize l.kind = x
    revert x
    decide
  have n3 : t.kind ∉ lineEnd := by rw [h5]; decide
  cases hb : l.after with
  | zero =>
    rw [hb] at h7
    cases raws_nil h7
    cases ha hb
    simp only [toLinesLoop, List.isEmpty_nil, if_true] at hr
    cases hr
    simp only [List.append_nil, toLinesLoop, if_neg n1, if_neg n2, if_neg n3, List.nil_append, List.cons_append, List.isEmpty_cons,
      Bool.false_eq_true, if_false, hm]
    rfl
  | succ n =>
    rw [hb] at h7
    obtain ⟨b, R, rfl, g3, -, g4⟩ := raws_cons h7
    cases raws_nil g4
    refine lines_one (u := [c, k, t]) (t := b) (fun x hx => ?_) ?_ [] hm hr
    · simp only [List.mem_cons, List.not_mem_nil, or_false] at hx
      rcases hx with rfl | rfl | rfl <;> assumption
    · rw [g3]
      match n with
      | 0 => decide
      | 1 => decide
      | n + 2 => simp [breakKind, lineEnd]

theorem split_doc {d : List Line} {ts : List Tok} (h : raws ts = docRaw d) :
    ∃ xs : List (List Tok), ts = xs.flatten ∧ List.Forall₂ (fun l L => raws L = Line.raw l ++ afterRaw l.after) d xs := by
  induction d generalizing ts with
  | nil => exact ⟨[], raws_nil h, .nil⟩
  | cons l d ih =>
    obtain ⟨u, v, rfl, h1, h2⟩ := raws_split (a := l.raw ++ afterRaw l.after) (b := docRaw d) h
    obtain ⟨xs, rfl, hxs⟩ := ih h2
    exact ⟨u :: xs, rfl, .cons h1 hxs⟩

theorem doc_lines {d : List Line} {xs : List (List Tok)} (hd : DocValid d) (h : List.Forall₂ (fun l L => raws L = Line.raw l ++ afterRaw l.after) d xs) :
    toLines xs.flatten = .ok (xs.map fun L => ⟨L, 0, .line⟩) := by
  unfold toLines
  induction h with
  | nil => rfl
  | @cons l L d xs h1 h2 ih =>
    obtain ⟨hl, ha, hd⟩ := hd
    rw [List.flatten_cons]
    exact line_ends hl h1 (fun h0 => by
      cases h2 with
      | nil => rfl
      | cons _ _ => have := ha (by simp); omega) (ih hd)

theorem calm {d : List Line} {xs : List (List Tok)} (hd : DocValid d) (h : List.Forall₂ (fun l L => raws L = Line.raw l ++ afterRaw l.after) d xs) :
    ∀ L ∈ xs, ∀ t ∈ L, t.kind ∉ [TK.LeadingPlus, .LeadingNumber, .LeadingMinus, .TreeClock, .Minus] := by
  induction h with
  | nil => intro L hL; cases hL
  | @cons l L d xs h1 h2 ih =>
    obtain ⟨hl, -, hd⟩ := hd
    intro M hM t ht
    rcases List.mem_cons.mp hM with rfl | hM
    · obtain ⟨c, k, r, A, rfl, g1, -, g3, -, g5, -, g7⟩ := line_toks h1
      rcases List.mem_cons.mp ht with rfl | ht
      · rw [g1]; decide
      rcases List.mem_cons.mp ht with rfl | ht
      · rw [g3]
        have := kind_mem hl
        revert this
        generalize l.kind = x
        revert x
        decide
      rcases List.mem_cons.mp ht with rfl | ht
      · rw [g5]; decide
      have hk := Raw.after_kind (g7 ▸ raws_mem ht)
      revert hk
      generalize t.kind = x
      revert x
      decide
    · exact ih hd M hM t ht

theorem doc_groups {d : List Line} {xs : List (List Tok)} (hd : DocValid d) (h : List.Forall₂ (fun l L => raws L = Line.raw l ++ afterRaw l.after) d xs) (fuel : Nat)
    (hf : 2 ≤ fuel) : ∃ gs, toGroups fuel (xs.map fun L => ⟨L, 0, .line⟩) = .ok gs ∧ convertLoop gs none [] = .ok xs.flatten := by
  obtain ⟨f, rfl⟩ : ∃ f, fuel = f + 2 := ⟨fuel - 2, by omega⟩
  have hc := calm hd h
  cases xs with
  | nil => exact ⟨.nil, rfl, rfl⟩
  | cons L xs =>
    let Ls : List Tokenizer.Line := (L :: xs).map fun L => ⟨L, 0, .line⟩
    have hadd := rec_adds (gk := .line) (ls := Ls) (fun l hl t ht => by
      obtain ⟨M, hM, rfl⟩ := List.mem_map.mp hl
      exact hc M hM t ht)
    have hmap : (Ls.map Tokenizer.Line.tokens).flatten = (L :: xs).flatten := by
      show (((L :: xs).map fun L => (⟨L, 0, .line⟩ : Tokenizer.Line)).map Tokenizer.Line.tokens).flatten = _
      rw [List.map_map]
      exact congrArg List.flatten (List.map_id _)
    rw [hmap] at hadd
    refine ⟨.leaf .line Ls .nil, ?_, ?_⟩
    · have hr : recGroup (f + 1) Ls = .ok (.leaf .line Ls .nil, []) := by
        have hp : ∀ x ∈ Ls, ((decide (x.kind = LK.line) || decide (x.kind = LK.indentedLine)) && decide ((⟨L, 0, .line⟩ : Tokenizer.Line).indent ≤ x.indent)) = true := by
          intro x hx
          obtain ⟨M, -, rfl⟩ := List.mem_map.mp hx
          rfl
        have h1 := List.takeWhile_eq_self_iff.mpr hp
        have h2 := List.dropWhile_eq_nil_iff.mpr hp
        show recGroup (f + 1) (⟨L, 0, .line⟩ :: xs.map fun L => ⟨L, 0, .line⟩) = _
        simp only [recGroup]
        exact congrArg Except.ok (Prod.ext (by rw [← h1]; rfl) h2)
      show toGroups (f + 2) (⟨L, 0, .line⟩ :: xs.map fun L => ⟨L, 0, .line⟩) = _
      have hr' : recGroup (f + 1) (⟨L, 0, .line⟩ :: xs.map fun L => ⟨L, 0, .line⟩) = .ok (.leaf .line Ls .nil, []) := hr
      simp only [toGroups, hr', bind, Except.bind]
      rfl
    · show convertLoop (.leaf .line (⟨L, 0, .line⟩ :: xs.map fun L => ⟨L, 0, .line⟩) .nil) none [] = _
      have hadd' : recAddLines .line (⟨L, 0, .line⟩ :: xs.map fun L => ⟨L, 0, .line⟩) = .ok (L :: xs).flatten := hadd
      simp only [convertLoop, pre_none (show GK.line ≠ .listItem from by decide), bind, Except.bind, hadd']
      simp

/-! ## Tokens of the parser -/

/-- The tokens which are read by the parser. -/
def Line.fin (l : Line) : Raw := (.CmdPrefix, "#+".toList) :: (l.kind, l.head) :: (.RawText, l.rest) :: afterRaw l.after

def docFin (d : List Line) : Raw := (d.map Line.fin).flatten

def stillKinds : List TK := [.RawText, .Newline, .MediumNewline, .LongNewline]

theorem conv_still {u ts : List Tok} {out : Raw} (hk : ∀ t ∈ u, t.kind ∈ stillKinds) (h : Conv ts out) : Conv (u ++ ts) (raws u ++ out) := by
  induction u with
  | nil => exact h
  | cons t u ih =>
    have ht := hk t List.mem_cons_self
    have ih := ih (fun x hx => hk x (List.mem_cons_of_mem _ hx))
    refine conv_step (os := [t]) ?_ (fun prev next => ?_) ih
    · revert ht
      generalize t.kind = k
      revert k
      decide
    · unfold Recombine.mapOne
      simp only [stillKinds, List.mem_cons, List.not_mem_nil, or_false] at ht
      rcases ht with h | h | h | h <;> rw [h] <;> rfl

theorem conv_command {l : Line} (hl : l.Valid) {c m : Tok} {ts : List Tok} {out : Raw} (hc : c.kind = .LineCommand) (hm : m.kind = l.kind) (h : Conv ts out) :
    Conv (c :: m :: ts) ((.CmdPrefix, c.text) :: (l.kind, m.text) :: out) := by
  intro k prev hk
  obtain ⟨j, rfl⟩ : ∃ j, k = j + 1 := ⟨k - 1, by simp at hk; omega⟩
  obtain ⟨o, h1, h2⟩ := h j (some m) (by simp at hk ⊢; omega)
  refine ⟨{ c with kind := .CmdPrefix } :: m :: o, ?_, ?_⟩
  · rw [Recombine.loop]
    simp only [List.isEmpty_cons, Bool.false_eq_true, if_false]
    have hmap : Recombine.mapTok ((c :: m :: ts).length + 1) ⟨prev, c :: m :: ts⟩ = .ok ([{ c with kind := .CmdPrefix }, m], ⟨some m, ts⟩) := by
      rw [Recombine.mapTok]
      dsimp only
      rw [if_pos hc]
      unfold Recombine.lineCommand Recombine.commandName Recombine.commandRest
      have := kind_mem hl
      rw [← hm] at this
      simp only [lineKinds, List.mem_cons, List.not_mem_nil, or_false] at this
      rcases this with h | h | h | h | h | h | h | h | h | h | h | h | h | h | h | h <;> simp only [h, bind, Except.bind]
    rw [hmap]
    dsimp only
    rw [if_neg (by simp; omega), h1]
    rfl
  · simp only [raws, List.map_cons, hm] at h2 ⊢
    rw [h2]

theorem conv_doc {d : List Line} (hd : DocValid d) {ts : List Tok} (h : raws ts = docRaw d) : Conv ts (docFin d) := by
  induction d generalizing ts with
  | nil => cases raws_nil h; exact conv_nil
  | cons l d ih =>
    obtain ⟨u, v, rfl, h1, h2⟩ := raws_split (a := l.raw ++ afterRaw l.after) (b := docRaw d) h
    have hv := ih hd.2.2 h2
    obtain ⟨c, k, r, A, rfl, g1, g2, g3, g4, g5, g6, g7⟩ := line_toks h1
    have cA := conv_still (u := r :: A) (fun t ht => by
      rcases List.mem_cons.mp ht with rfl | ht
      · rw [g5]; decide
      · have := Raw.after_kind (g7 ▸ raws_mem ht)
        revert this
        generalize t.kind = k
        revert k
        decide) hv
    have := conv_command hd.1 g1 g3 cA
    rw [g2, g4] at this
    have e : raws (r :: A) = (.RawText, l.rest) :: afterRaw l.after := by
      rw [← g7, ← g5, ← g6]
      rfl
    rw [e] at this
    exact this

/-- The tokens of a document. -/
theorem doc_tokens {d : List Line} (h : DocValid d) : ∃ toks, Pipeline.tokens BaseLexer.stdLex (render d) = .ok toks ∧ raws toks = docFin d := by
  obtain ⟨xs, hx, hs⟩ := split_doc (d := d) (raws_placed (docRaw d) 0)
  have h1 := doc_lines h hs
  obtain ⟨gs, g1, g2⟩ := doc_groups h hs (2 * (xs.map fun L => (⟨L, 0, .line⟩ : Tokenizer.Line)).length + 2) (Nat.le_add_left 2 _)
  obtain ⟨q, q1, q2⟩ := conv_doc h (ts := xs.flatten) (by rw [← hx, raws_placed]) xs.flatten.length none (Nat.le_refl _)
  refine ⟨q, ?_, q2⟩
  unfold Pipeline.tokens
  rw [doc_lexed h]
  dsimp only
  unfold Recombine.convert regroup
  rw [hx, h1]
  simp only [bind, Except.bind, g1]
  rw [show convertGroups gs = .ok xs.flatten from g2]
  dsimp only
  unfold Recombine.recombine
  rw [q1]

end Verif.Keywords
