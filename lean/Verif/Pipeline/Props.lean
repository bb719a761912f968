import Verif.Pipeline.Model
import Verif.Recombine.Props
import Verif.Tokenizer.Props
import Verif.BaseLexer.Props
import Verif.BaseLexer.Std
import Verif.Parser.Props

/-!
# From the text to the parse tree (C73)
-/

namespace Verif.Pipeline
open Verif.Token Verif.Parser Verif.Recombine Verif.NodeGroup Verif.NodeGroup.Spec

/-! ## Tokens of the parser and their places -/

theorem regroup_keeps {lex : BaseLexer.Lexy} (hlex : BaseLexer.Sane lex) {text : List Char} {base g : List Tok}
    (hb : BaseLexer.tokenize lex text = .ok base) (hg : Tokenizer.regroup base = .ok g) :
    Tokenizer.indentWalk 0 g = some 0 ∧ List.Forall₂ Tok.DropsPrefix base (g.filter (fun t => !t.isFake)) := by
  refine Tokenizer.regroup_balanced base g (fun t ht => ?_) hg
  obtain ⟨h1, h2⟩ := BaseLexer.lexer_kinds lex hlex text base hb t ht
  refine ⟨?_, fun h => h1 (by rw [h]; decide), fun h => h1 (by rw [h]; decide)⟩
  cases h : t.loc with
  | none => exact absurd h h2
  | some l => simp [Tok.isFake, h]

theorem places_filter (g : List Tok) : places (g.filter (fun t => !t.isFake)) = places g := by
  induction g with
  | nil => rfl
  | cons t ts ih =>
    cases h : t.loc with
    | none => simpa [List.filter, Tok.isFake, h, places] using ih
    | some l => simpa [List.filter, Tok.isFake, h, places] using ih

theorem places_drops {a b : List Tok} (h : List.Forall₂ Tok.DropsPrefix a b) : places b = places a := by
  induction h with
  | nil => rfl
  | cons hd _ ih =>
    have : ∀ (t : Tok) (ts : List Tok), places (t :: ts) = t.loc.toList ++ places ts := by
      intro t ts
      cases h : t.loc <;> simp [places, h]
    rw [this, this, ih, hd.2.1]

theorem places_located {base : List Tok} (h : BaseLexer.Located base) : (places base).Pairwise (· ≤ ·) := by
  have h0 : places base = (List.range base.length).map (fun i => ((base.take i).map (·.text)).flatten.length) := by
    have : ∀ (n : Nat) (b : List Tok), (∀ i t, b[i]? = some t → t.loc = some (n + ((b.take i).map (·.text)).flatten.length)) →
        places b = (List.range b.length).map (fun i => n + ((b.take i).map (·.text)).flatten.length) := by
      intro n b
      induction b generalizing n with
      | nil => intro _; rfl
      | cons t ts ih =>
        intro hb
        have h1 := hb 0 t rfl
        have h2 := ih (n + t.text.length) (fun i u hu => by
          have := hb (i + 1) u (by simpa using hu)
          rw [this]
          simp
          omega)
        have : places (t :: ts) = n :: places ts := by simp [places, h1]
        rw [this, h2, List.length_cons, List.range_succ_eq_map]
        simp only [List.map_cons, List.take_zero, List.map_nil, List.flatten_nil, List.length_nil, Nat.add_zero, List.map_map, List.cons.injEq,
          true_and]
        refine List.map_congr_left (fun i _ => ?_)
        simp only [Function.comp_apply, List.take_succ_cons, List.map_cons, List.flatten_cons, List.length_append]
        omega
    have := this 0 base (fun i t ht => by simpa using h i t ht)
    simpa using this
  rw [h0]
  refine List.Pairwise.map _ ?_ List.pairwise_lt_range
  intro a b hab
  have : (base.take b) = base.take a ++ (base.drop a).take (b - a) := by
    have := List.take_add (l := base) (i := a) (j := b - a)
    rwa [show a + (b - a) = b from by omega] at this
  rw [this]
  simp

theorem infix_tail {α : Type} (l : List α) : l.tail <:+: l := (List.tail_suffix l).isInfix
theorem infix_dropLast {α : Type} (l : List α) : l.dropLast <:+: l := (List.dropLast_prefix l).isInfix
theorem infix_drop {α : Type} (n : Nat) (l : List α) : l.drop n <:+: l := (List.drop_suffix n l).isInfix

theorem infix_dropPrefix (p s : List Char) : dropPrefix p s <:+: s := by
  unfold dropPrefix
  split
  · exact infix_drop _ _
  · exact List.infix_refl _

theorem infix_dropSuffix (p s : List Char) : dropSuffix p s <:+: s := by
  unfold dropSuffix
  split
  · exact (List.take_prefix _ _).isInfix
  · exact List.infix_refl _

theorem shown_infix (t : Tok) : shown t <:+: t.text := by
  unfold shown
  split
  · exact infix_tail _
  · exact infix_tail _
  · exact (infix_dropLast _).trans (infix_tail _)
  · exact infix_drop _ _
  · exact infix_drop _ _
  · exact (infix_dropSuffix _ _).trans (infix_dropPrefix _ _)
  · exact List.infix_refl _

theorem turns_infix {t t' : Tok} (h : Turns t t') : t'.text <:+: t.text := by
  rcases h.text with h | h | ⟨_, a, u, z, h, _⟩
  · rw [h]; exact List.infix_refl _
  · rw [h]; exact shown_infix t
  · exact ⟨a ++ u, z, h.symm⟩

/-- Each token of the result with a place is one of the given tokens, perhaps with less text;
the text of an argument may be that of several tokens. -/
theorem kept_infix {toks out : List Tok} (h : Kept toks out) :
    ∀ o ∈ out, o.kind ≠ .CmdRawArg → o.loc ≠ none → ∃ t ∈ toks, t.loc = o.loc ∧ o.text <:+: t.text := by
  induction h with
  | nil => simp
  | @turn t t' ts os ht _ ih =>
    intro o ho hk hl
    rcases List.mem_cons.mp ho with rfl | ho
    · exact ⟨t, List.mem_cons_self, ht.loc.symm, turns_infix ht⟩
    · obtain ⟨t2, h1, h2⟩ := ih o ho hk hl
      exact ⟨t2, List.mem_cons_of_mem _ h1, h2⟩
  | @eof t ts os _ _ ih =>
    intro o ho hk hl
    obtain ⟨t2, h1, h2⟩ := ih o ho hk hl
    exact ⟨t2, List.mem_cons_of_mem _ h1, h2⟩
  | @close t ts os _ _ ih =>
    intro o ho hk hl
    rcases List.mem_cons.mp ho with rfl | ho
    · exact ⟨t, List.mem_cons_self, rfl, List.nil_infix⟩
    · rcases List.mem_cons.mp ho with rfl | ho
      · exact ⟨o, List.mem_cons_self, rfl, List.infix_refl _⟩
      · obtain ⟨t2, h1, h2⟩ := ih o ho hk hl
        exact ⟨t2, List.mem_cons_of_mem _ h1, h2⟩
  | @quoted t buf ts os _ _ _ _ _ ih =>
    intro o ho hk hl
    rcases List.mem_cons.mp ho with rfl | ho
    · exact absurd rfl hk
    · obtain ⟨t2, h1, h2⟩ := ih o ho hk hl
      exact ⟨t2, by simp [h1], h2⟩
  | @title t t' nm sp ts os _ ht _ _ _ ih =>
    intro o ho hk hl
    rcases List.mem_cons.mp ho with rfl | ho
    · exact ⟨t, List.mem_cons_self, ht.loc.symm, turns_infix ht⟩
    · rcases List.mem_cons.mp ho with rfl | ho
      · exact ⟨o, by simp, rfl, List.infix_refl _⟩
      · obtain ⟨t2, h1, h2⟩ := ih o ho hk hl
        exact ⟨t2, by simp [h1], h2⟩
  | @source t t' nm args nl ts os _ ht _ _ _ _ _ ih =>
    intro o ho hk hl
    rcases List.mem_cons.mp ho with rfl | ho
    · exact ⟨t, List.mem_cons_self, ht.loc.symm, turns_infix ht⟩
    · rcases List.mem_cons.mp ho with rfl | ho
      · exact ⟨o, by simp, rfl, List.infix_refl _⟩
      · rcases List.mem_append.mp ho with ho | ho
        · exact ⟨o, by simp [ho], rfl, List.infix_refl _⟩
        · rcases List.mem_cons.mp ho with rfl | ho
          · exact absurd rfl hl
          · obtain ⟨t2, h1, h2⟩ := ih o ho hk hl
            exact ⟨t2, by simp [h1], h2⟩
  | @property t t' nm a ts os _ ht _ _ ih =>
    intro o ho hk hl
    rcases List.mem_cons.mp ho with rfl | ho
    · exact ⟨t, List.mem_cons_self, ht.loc.symm, turns_infix ht⟩
    · rcases List.mem_cons.mp ho with rfl | ho
      · exact ⟨o, by simp, rfl, List.infix_refl _⟩
      · rcases List.mem_cons.mp ho with rfl | ho
        · exact absurd rfl hk
        · obtain ⟨t2, h1, h2⟩ := ih o ho hk hl
          exact ⟨t2, by simp [h1], h2⟩

/-- The text of `t` is a piece of the document, and lies in the token `b` of the lexer that
starts at the place recorded in `t`. -/
def LiesIn (text : List Char) (b t : Tok) : Prop :=
  ∃ before after, text = before ++ b.text ++ after ∧ t.loc = some before.length ∧ t.text <:+: b.text

theorem located_split {text : List Char} {base : List Tok} (hl : BaseLexer.Lossless text base) (hd : BaseLexer.Located base)
    {b : Tok} (hb : b ∈ base) : ∃ before after, text = before ++ b.text ++ after ∧ b.loc = some before.length := by
  obtain ⟨i, hi⟩ := List.getElem?_of_mem hb
  refine ⟨((base.take i).map (·.text)).flatten, ((base.drop (i + 1)).map (·.text)).flatten, ?_, hd i b hi⟩
  have : base = base.take i ++ b :: base.drop (i + 1) := by
    obtain ⟨h1, h2⟩ := List.getElem?_eq_some_iff.mp hi
    rw [← h2, ← List.drop_eq_getElem_cons h1, List.take_append_drop]
  rw [← hl]
  conv => lhs; rw [this]
  simp

/-- The tokens of the parser are in the order of the document, and each of them lies in a token of
the lexer. -/
theorem document_tokens (lex : BaseLexer.Lexy) (hlex : BaseLexer.Sane lex) (text : List Char) (base toks : List Tok)
    (hb : BaseLexer.tokenize lex text = .ok base) (hc : convert base = .ok toks) :
    (places toks).Pairwise (· ≤ ·) ∧
      ∀ t ∈ toks, t.loc ≠ none → t.kind ≠ .CmdRawArg → ∃ b ∈ base, LiesIn text b t := by
  simp only [convert, bind, Except.bind] at hc
  split at hc
  · cases hc
  · rename_i g hg
    obtain ⟨_, hdrop⟩ := regroup_keeps hlex hb hg
    obtain ⟨hl, hd⟩ := BaseLexer.lexer_lossless lex hlex text base hb
    have hk := recombine_keeps g toks hc
    have hpl : places g = places base := by rw [← places_filter, places_drops hdrop]
    refine ⟨(kept_places hk (by rw [hpl]; exact places_located hd)).1, ?_⟩
    intro t ht hloc hkind
    obtain ⟨t2, h1, h2, h3⟩ := kept_infix hk t ht hkind hloc
    have h4 : t2 ∈ g.filter (fun t => !t.isFake) := by
      rw [List.mem_filter]
      refine ⟨h1, ?_⟩
      cases h : t2.loc with
      | none => rw [← h2, h] at hloc; exact absurd rfl hloc
      | some l => simp [Tok.isFake, h]
    obtain ⟨b, hbm, hbd⟩ : ∃ b ∈ base, b.DropsPrefix t2 := by
      obtain ⟨i, hi⟩ := List.getElem?_of_mem h4
      obtain ⟨hi1, hi2⟩ := List.getElem?_eq_some_iff.mp hi
      have hi3 : i < base.length := by rw [hdrop.length_eq]; exact hi1
      exact ⟨base[i], List.getElem_mem hi3, by have := hdrop.get hi3 hi1; rw [List.get_eq_getElem, List.get_eq_getElem, hi2] at this; exact this⟩
    obtain ⟨before, after, h5, h6⟩ := located_split hl hd hbm
    refine ⟨b, hbm, before, after, h5, ?_, ?_⟩
    · rw [← h2, hbd.2.1, h6]
    · obtain ⟨n, hn⟩ := hbd.2.2
      rw [hn] at h3
      exact h3.trans (infix_drop n _)

theorem increasing_sublist (n : Nat) : ∀ (a : Nat) (l : List Nat), l.Pairwise (· < ·) → (∀ i ∈ l, a ≤ i ∧ i < a + n) →
    l.Sublist (List.range' a n) := by
  induction n with
  | zero =>
    intro a l _ h
    cases l with
    | nil => exact List.nil_sublist _
    | cons i l => have := h i List.mem_cons_self; omega
  | succ n ih =>
    intro a l hp h
    rw [List.range'_succ]
    cases l with
    | nil => exact List.nil_sublist _
    | cons i l =>
      have hi := h i List.mem_cons_self
      obtain ⟨hp1, hp2⟩ := List.pairwise_cons.mp hp
      by_cases hai : i = a
      · subst hai
        refine List.Sublist.cons_cons _ (ih (i + 1) l hp2 (fun j hj => ?_))
        have := hp1 j hj
        have := h j (List.mem_cons_of_mem _ hj)
        omega
      · refine List.Sublist.cons _ (ih (a + 1) (i :: l) hp (fun j hj => ?_))
        have := h j hj
        rcases List.mem_cons.mp hj with rfl | hj'
        · omega
        · have := hp1 j hj'
          omega

/-- **C73.** Whatever the document is: if it is parsed, the result is one tree, and its leaves
stand for pieces of the document in the order of the document.  The text of a leaf lies in the
document at the place that is recorded for it (in the token of the lexer that starts there). -/
theorem document_leaves (lex : BaseLexer.Lexy) (hlex : BaseLexer.Sane lex) (n : Nat) (text : List Char) (toks : List Tok)
    (nodes : List (Node NK Unit)) (h : parse lex n text = .ok (toks, nodes)) :
    ∃ (base : List Tok) (c : Forest NK Unit), BaseLexer.tokenize lex text = .ok base ∧
      nodes = (Forest.tree .StmtList c .nil).flat ∧
      (leafToks c).Pairwise (· < ·) ∧
      ((leafToks c).filterMap (fun i => (tokAt toks i).bind (·.loc))).Pairwise (· ≤ ·) ∧
      ∀ i ∈ leafToks c, ∃ t, tokAt toks i = some t ∧
        (t.loc ≠ none → t.kind ≠ .CmdRawArg → ∃ b ∈ base, LiesIn text b t) := by
  unfold parse tokens at h
  cases hb : BaseLexer.tokenize lex text with
  | error e => rw [hb] at h; cases h
  | ok base =>
    rw [hb] at h
    cases hc : convert base with
    | error e => simp only [hc] at h; cases h
    | ok toks' =>
      simp only [hc] at h
      have ht := parse_tree (texts toks') n (toks'.map (·.kind))
      cases hp : parseTop (texts toks') n (start (toks'.map (·.kind))) with
      | error e =>
        rw [show parseTop (texts toks') n ⟨Lexer.Lex.main (toks'.map (·.kind)), {}⟩ = .error e from hp] at h
        cases h
      | ok rs =>
        rw [show parseTop (texts toks') n ⟨Lexer.Lex.main (toks'.map (·.kind)), {}⟩ = .ok rs from hp] at h
        rw [hp] at ht
        cases h
        obtain ⟨_, c, hg, hinc, hbound⟩ := ht
        obtain ⟨hpl, hlies⟩ := document_tokens lex hlex text base toks hb hc
        refine ⟨base, c, rfl, by rw [hg], hinc, ?_, ?_⟩
        · have hsub : ((leafToks c).filterMap (fun i => (tokAt toks i).bind (·.loc))).Sublist (places toks) := by
            have h1 : (leafToks c).Sublist (List.range' 1 toks.length) := by
              refine increasing_sublist _ _ _ hinc (fun i hi => ?_)
              have := hbound i hi
              simp at this
              omega
            refine (h1.filterMap _).trans ?_
            have h2 : ∀ (k : Nat) (l : List Tok), l = toks.drop k →
                (List.range' (k + 1) l.length).filterMap (fun i => (tokAt toks i).bind (·.loc)) = places l := by
              intro k l
              induction l generalizing k with
              | nil => intro _; rfl
              | cons t ts ih =>
                intro hk
                have hkt : tokAt toks (k + 1) = some t := by
                  have : (toks.drop k)[0]? = some t := by rw [← hk]; rfl
                  simpa [tokAt] using this
                have := ih (k + 1) (by rw [← List.tail_drop, ← hk]; rfl)
                rw [List.length_cons, List.range'_succ, List.filterMap_cons, hkt, this]
                cases h : t.loc <;> simp [places, h]
            rw [h2 0 toks rfl]
          exact hpl.sublist hsub
        · intro i hi
          obtain ⟨h1, h2⟩ := hbound i hi
          have h3 : i - 1 < toks.length := by simp at h2; omega
          refine ⟨toks[i - 1], ?_, fun hl hk => hlies _ (List.getElem_mem h3) hl hk⟩
          rw [tokAt, if_neg (by omega), List.getElem?_eq_getElem h3]

/-- The kinds of the nodes, for the examples. -/
def nodeKinds (r : Except Err (List Tok × List (Node NK Unit))) : List NK :=
  match r with
  | .ok x => x.2.map (·.kind)
  | .error _ => []

/-- A paragraph with markup. -/
def sample : List Char := "a *b*\n".toList

/-- Outcomes can be compared (used for the concrete witnesses only). -/
instance : DecidableEq (Except Err (List Tok))
  | .ok a, .ok b => if h : a = b then isTrue (h ▸ rfl) else isFalse (fun h' => h (by cases h'; rfl))
  | .error a, .error b => if h : a = b then isTrue (h ▸ rfl) else isFalse (fun h' => h (by cases h'; rfl))
  | .ok _, .error _ => isFalse (fun h => by cases h)
  | .error _, .ok _ => isFalse (fun h => by cases h)

theorem sample_tokens : tokens BaseLexer.stdLex sample = .ok
    [tk .Word "a" 0, tk .Whitespace " " 1, tk .BoldBegin "*" 2, tk .Word "b" 3, tk .BoldEnd "*" 4, tk .Newline "\n" 5] := by
  decide +kernel

theorem sample_parse : nodeKinds (parse BaseLexer.stdLex 10 sample) = [.StmtList, .Paragraph, .Word, .Space, .Bold, .Word, .Newline] := by
  unfold parse
  rw [sample_tokens]
  decide +kernel

example : BaseLexer.Sane BaseLexer.stdLex ∧ ∃ toks nodes, parse BaseLexer.stdLex 10 sample = .ok (toks, nodes) := by
  refine ⟨BaseLexer.stdLex_sane, ?_⟩
  have h := sample_parse
  cases hp : parse BaseLexer.stdLex 10 sample with
  | error e => rw [hp] at h; cases h
  | ok x => exact ⟨x.1, x.2, rfl⟩

end Verif.Pipeline
