import Verif.Raw.Lex
import Verif.Code.Tokens

/-!
# Lines, groups and tokens of documents with example and export blocks
-/

namespace Verif.Raw
open Verif.Token Verif.Tokenizer
open Verif.Stamp (Raw placed)
open Verif.Drawer (Text)
open Verif.Code (blanks leading shared wordsRaw gapRaw afterRaw breakKind raws raws_append raws_placed raws_split raws_cons raws_nil raws_mem split_lines
  lineOf lines_one words_kinds Lined firstSrc takeWhile_stop block_lines rec_add rec_adds pre_none lined_tokens shared_le shared_line Conv conv_nil
  conv_step Toks)

/-! ## The parts of a block -/

def Block.headRaw (b : Block) : Raw :=
  (if b.indent = 0 then [] else [(.LeadingSpace, blanks b.indent)]) ++ ([(.LineCommand, "#+".toList), (b.kind.beginTok, beginWord b.kind b.upper)] ++
    (wordsRaw b.kind.words ++ gapRaw b.gap))

structure Shape (b : Block) (x : Toks) : Prop where
  head : raws x.head = b.headRaw ++ [(.Newline, "\n".toList)]
  lines : x.lines.map raws = b.lines.map fun l => [(b.kind.lineTok, l), (.Newline, "\n".toList)]
  foot : raws x.foot = (b.kind.endTok, b.last) :: afterRaw b.after

theorem split_block {b : Block} {ts : List Tok} (h : raws ts = b.raw ++ afterRaw b.after) : ∃ x, ts = Toks.all x ∧ Shape b x := by
  have e : b.raw ++ afterRaw b.after = (b.headRaw ++ [(.Newline, "\n".toList)]) ++ (linesRaw b.kind b.lines ++ ((b.kind.endTok, b.last) :: afterRaw b.after)) := by
    unfold Block.raw Block.headRaw Block.innerRaw
    simp only [List.append_assoc]
    rfl
  rw [e] at h
  obtain ⟨u, v, rfl, h1, h2⟩ := raws_split h
  obtain ⟨v, w, rfl, h3, h4⟩ := raws_split h2
  obtain ⟨ls, rfl, h5⟩ := split_lines h3
  exact ⟨⟨u, ls, w⟩, rfl, h1, h5, h4⟩

theorem split_doc {d : List Block} {ts : List Tok} (h : raws ts = docRaw d) : ∃ xs, ts = (xs.map Toks.all).flatten ∧ List.Forall₂ Shape d xs := by
  induction d generalizing ts with
  | nil => exact ⟨[], raws_nil h, .nil⟩
  | cons b d ih =>
    obtain ⟨u, v, rfl, h1, h2⟩ := raws_split (a := b.raw ++ afterRaw b.after) (b := docRaw d) h
    obtain ⟨x, rfl, hx⟩ := split_block h1
    obtain ⟨xs, rfl, hxs⟩ := ih h2
    exact ⟨x :: xs, rfl, .cons hx hxs⟩

/-! ## Lines -/

def tokLines (x : Toks) (b : Block) : List Line :=
  ⟨x.head, b.indent, .blockOpen⟩ :: (x.lines.map lineOf ++ [⟨x.foot, 0, .blockClose⟩])

/-- A line: its text, and the line break. -/
theorem line_tokens {k : TK} {l : List Tok} {s : Text} (h : raws l = [(k, s), (.Newline, "\n".toList)]) :
    ∃ t n, l = [t, n] ∧ n.kind = .Newline ∧ n.text = "\n".toList ∧ t.kind = k ∧ t.text = s := by
  obtain ⟨t, u, rfl, h1, h2, h3⟩ := raws_cons h
  obtain ⟨n, u, rfl, h4, h5, h6⟩ := raws_cons h3
  cases raws_nil h6
  exact ⟨t, n, rfl, h4, h5, h1, h2⟩

theorem line_kind (k : Kind) : k.lineTok = .CmdExampleLine ∨ k.lineTok = .CmdExportLine := by cases k <;> simp [Kind.lineTok]

theorem code_ends {k : Kind} {l : List Tok} {s : Text} (h : raws l = [(k.lineTok, s), (.Newline, "\n".toList)]) {r : List Tok} {ls : List Line}
    (hr : toLinesLoop [] r = .ok ls) : toLinesLoop [] (l ++ r) = .ok (lineOf l :: ls) := by
  obtain ⟨t, n, rfl, h1, -, h2, -⟩ := line_tokens h
  refine lines_one (u := [t]) (t := n) (fun x hx => ?_) (by rw [h1]; decide) [] ?_ hr
  · rw [List.mem_singleton.mp hx, h2]
    rcases line_kind k with h | h <;> rw [h] <;> decide
  · have e : lineKindOf [t, n] t = .ok .line := by
      unfold lineKindOf
      rw [h2]
      rcases line_kind k with h | h <;> rw [h] <;> rfl
    show (do let k ← lineKindOf [t, n] t; Except.ok (Line.mk [t, n] (indentOf t) k)) = _
    rw [e]
    rfl

theorem codes_end {k : Kind} {ls : List (List Tok)} {ss : List Text} (h : ls.map raws = ss.map fun l => [(k.lineTok, l), (.Newline, "\n".toList)]) {r : List Tok}
    {os : List Line} (hr : toLinesLoop [] r = .ok os) : toLinesLoop [] (ls.flatten ++ r) = .ok (ls.map lineOf ++ os) := by
  induction ls generalizing ss with
  | nil => exact hr
  | cons l ls ih =>
    cases ss with
    | nil => cases h
    | cons s ss =>
      rw [List.map_cons, List.map_cons] at h
      obtain ⟨h1, h2⟩ := List.cons.inj h
      rw [List.flatten_cons, List.append_assoc]
      exact code_ends h1 (ih h2)

theorem begin_kind (k : Kind) : k.beginTok = .CmdExampleBegin ∨ k.beginTok = .CmdExportBegin := by cases k <;> simp [Kind.beginTok]

theorem end_kind (k : Kind) : k.endTok = .CmdExampleEnd ∨ k.endTok = .CmdExportEnd := by cases k <;> simp [Kind.endTok]

/-- The first line of a block. -/
theorem head_tokens {b : Block} (hb : b.Valid) {H : List Tok} (h : raws H = b.headRaw ++ [(.Newline, "\n".toList)]) :
    ∃ c m as n, H = (if b.indent = 0 then [] else [(H.head?.getD n)]) ++ (c :: m :: as ++ [n]) ∧ (b.indent ≠ 0 → ∃ s, H.head? = some s ∧ s.kind = .LeadingSpace ∧ s.text = blanks b.indent) ∧
      c.kind = .LineCommand ∧ c.text = "#+".toList ∧ m.kind = b.kind.beginTok ∧ m.text = beginWord b.kind b.upper ∧ raws as = wordsRaw b.kind.words ++ gapRaw b.gap ∧
      (∀ x ∈ as, x.kind ∈ [TK.Whitespace, .CmdRawArg, .CmdColonIdent]) ∧ n.kind = .Newline ∧ n.text = "\n".toList := by
  unfold Block.headRaw at h
  rw [List.append_assoc] at h
  obtain ⟨L, R, rfl, h1, h2⟩ := raws_split h
  obtain ⟨c, R, rfl, h3, h4, h2⟩ := raws_cons h2
  obtain ⟨m, R, rfl, h5, h6, h2⟩ := raws_cons h2
  obtain ⟨as, R, rfl, h7, h8⟩ := raws_split (a := wordsRaw b.kind.words ++ gapRaw b.gap) (b := [(TK.Newline, "\n".toList)]) (by simpa using h2)
  obtain ⟨n, R, rfl, h9, h10, h11⟩ := raws_cons h8
  cases raws_nil h11
  have hk : ∀ x ∈ as, x.kind ∈ [TK.Whitespace, .CmdRawArg, .CmdColonIdent] := fun x hx => words_kinds (words_ok hb) b.gap _ (h7 ▸ raws_mem hx)
  by_cases hi : b.indent = 0
  · rw [if_pos hi] at h1
    cases raws_nil h1
    exact ⟨c, m, as, n, by simp [hi], fun h => absurd hi h, h3, h4, h5, h6, h7, hk, h9, h10⟩
  · rw [if_neg hi] at h1
    obtain ⟨s, R, rfl, k1, k2, k3⟩ := raws_cons h1
    cases raws_nil k3
    exact ⟨c, m, as, n, by simp [hi], fun _ => ⟨s, rfl, k1, k2⟩, h3, h4, h5, h6, h7, hk, h9, h10⟩

theorem head_ends {b : Block} (hb : b.Valid) {H : List Tok} (h : raws H = b.headRaw ++ [(.Newline, "\n".toList)]) {r : List Tok} {ls : List Line}
    (hr : toLinesLoop [] r = .ok ls) : toLinesLoop [] (H ++ r) = .ok (⟨H, b.indent, .blockOpen⟩ :: ls) := by
  obtain ⟨c, m, as, n, hH, hs, h1, -, h2, -, -, h3, h4, -⟩ := head_tokens hb h
  have hno : ∀ x ∈ c :: m :: as, x.kind ∉ lineEnd := by
    intro x hx
    rcases List.mem_cons.mp hx with rfl | hx
    · rw [h1]; decide
    rcases List.mem_cons.mp hx with rfl | hx
    · rw [h2]; rcases begin_kind b.kind with h | h <;> rw [h] <;> decide
    have := h3 x hx
    revert this
    generalize x.kind = k
    revert k
    decide
  have hn : n.kind ∈ lineEnd := by rw [h4]; decide
  by_cases hi : b.indent = 0
  · rw [if_pos hi, List.nil_append] at hH
    subst hH
    rw [List.append_assoc, List.singleton_append]
    refine lines_one hno hn [] ?_ hr
    show (do let k ← lineKindOf (c :: (m :: as ++ [n])) c; Except.ok (Line.mk (c :: (m :: as ++ [n])) (indentOf c) k)) = _
    have e : lineKindOf (c :: (m :: as ++ [n])) c = .ok .blockOpen := by
      unfold lineKindOf
      rw [h1]
      show setLineCommandKind _ 0 = _
      unfold setLineCommandKind
      simp only [List.getElem?_cons_zero, h1, if_true, List.cons_append, Nat.zero_add, List.getElem?_cons_succ, h2]
      rcases begin_kind b.kind with h | h <;> rw [h] <;> rfl
    rw [e]
    show Except.ok (Line.mk (c :: (m :: as ++ [n])) (indentOf c) .blockOpen) = _
    rw [show indentOf c = b.indent from by unfold indentOf; rw [h1, hi]]
    rfl
  · obtain ⟨s, hs1, hs2, hs3⟩ := hs hi
    rw [if_neg hi, hs1, Option.getD_some] at hH
    subst hH
    rw [show [s] ++ (c :: m :: as ++ [n]) ++ r = (s :: c :: m :: as) ++ n :: r from by simp]
    refine lines_one (fun x hx => ?_) hn [] ?_ hr
    · rcases List.mem_cons.mp hx with rfl | hx
      · rw [hs2]; decide
      · exact hno x hx
    · show (do let k ← lineKindOf (s :: c :: (m :: as ++ [n])) s; Except.ok (Line.mk (s :: c :: (m :: as ++ [n])) (indentOf s) k)) = _
      have e : lineKindOf (s :: c :: (m :: as ++ [n])) s = .ok .blockOpen := by
        unfold lineKindOf
        rw [hs2]
        show setLeadingSpaceKind _ = _
        unfold setLeadingSpaceKind
        simp only [List.getElem?_cons_zero, List.getElem?_cons_succ, h1]
        unfold setLineCommandKind
        simp only [List.getElem?_cons_zero, h1, if_true, List.cons_append, Nat.zero_add, List.getElem?_cons_succ, h2]
        rcases begin_kind b.kind with h | h <;> rw [h] <;> rfl
      rw [e]
      show Except.ok (Line.mk (s :: c :: (m :: as ++ [n])) (indentOf s) .blockOpen) = _
      rw [show indentOf s = b.indent from by unfold indentOf; rw [hs2, hs3]; simp [blanks]]
      rfl

/-- The last line of a block. -/
theorem foot_ends {b : Block} {F : List Tok} (h : raws F = (b.kind.endTok, b.last) :: afterRaw b.after) {r : List Tok} {ls : List Line}
    (ha : b.after = 0 → r = []) (hr : toLinesLoop [] r = .ok ls) : toLinesLoop [] (F ++ r) = .ok (⟨F, 0, .blockClose⟩ :: ls) := by
  obtain ⟨e, R, rfl, h1, -, h2⟩ := raws_cons h
  have hm : mkLine (e :: R) = .ok ⟨e :: R, 0, .blockClose⟩ := by
    show (do let k ← lineKindOf (e :: R) e; Except.ok (Line.mk (e :: R) (indentOf e) k)) = _
    have e1 : lineKindOf (e :: R) e = .ok .blockClose := by
      unfold lineKindOf; rw [h1]
      rcases end_kind b.kind with h | h <;> rw [h] <;> rfl
    rw [e1]
    show Except.ok (Line.mk (e :: R) (indentOf e) .blockClose) = _
    rw [show indentOf e = 0 from by
      unfold indentOf; rw [h1]
      rcases end_kind b.kind with h | h <;> rw [h]]
  have he : e.kind ∉ lineEnd := by rw [h1]; rcases end_kind b.kind with h | h <;> rw [h] <;> decide
  cases hb : b.after with
  | zero =>
    rw [hb] at h2
    cases raws_nil h2
    cases ha hb
    simp only [toLinesLoop, List.isEmpty_nil, if_true] at hr
    cases hr
    simp only [List.append_nil, toLinesLoop, if_neg he, List.nil_append, List.isEmpty_cons, Bool.false_eq_true, if_false, hm]
    rfl
  | succ n =>
    rw [hb] at h2
    obtain ⟨t, R, rfl, h3, -, h4⟩ := raws_cons h2
    cases raws_nil h4
    refine lines_one (u := [e]) (t := t) (fun x hx => by rw [List.mem_singleton.mp hx]; exact he) ?_ [] hm hr
    rw [h3]
    match n with
    | 0 => decide
    | 1 => decide
    | n + 2 => simp [breakKind, lineEnd]

theorem doc_lines {d : List Block} {xs : List Toks} (hd : DocValid d) (h : List.Forall₂ Shape d xs) :
    toLines (xs.map Toks.all).flatten = .ok ((xs.zip d).map fun p => tokLines p.1 p.2).flatten := by
  unfold toLines
  induction h with
  | nil => rfl
  | @cons b x d xs h1 h2 ih =>
    obtain ⟨hb, ha, hd⟩ := hd
    have ih := ih hd
    rw [List.map_cons, List.flatten_cons, Toks.all, List.append_assoc, List.append_assoc]
    have := head_ends hb h1.head (codes_end h1.lines (foot_ends h1.foot (fun h0 => by
      cases h2 with
      | nil => rfl
      | cons _ _ => have := ha (by simp); omega) ih))
    rw [this]
    simp [tokLines]

/-! ## The shared indentation -/

theorem min_indent {ls : List (List Tok)} {ss : List Text} (h : ls.map raws = ss.map fun l => [(.CmdExampleLine, l), (.Newline, "\n".toList)]) (m i : Nat) :
    (ls.map lineOf).foldl (fun m l => if isBlankSrc l then m else min l.indent m) (min m i) = min m (shared i ss) := by
  induction ls generalizing ss m with
  | nil =>
    cases ss with
    | nil => rfl
    | cons s ss => cases h
  | cons l ls ih =>
    cases ss with
    | nil => cases h
    | cons s ss =>
      rw [List.map_cons, List.map_cons] at h
      obtain ⟨h1, h2⟩ := List.cons.inj h
      have ih := ih h2
      obtain ⟨t, n, rfl, k1, k2, k3, k4⟩ := line_tokens h1
      rw [List.map_cons, List.foldl_cons]
      have hi : (lineOf [t, n]).indent = leading s := by
        show indentOf t = _
        unfold indentOf
        rw [k3, k4]
        rfl
      cases s with
      | nil =>
        have hb : isBlankSrc (lineOf [t, n]) = true := by
          show (t.text.isEmpty && decide (n.kind ∈ lineEnd)) = true
          rw [k4, k1]; decide
        rw [hb, if_pos rfl]
        exact ih m
      | cons c s =>
        have hb : isBlankSrc (lineOf [t, n]) = false := by
          show (t.text.isEmpty && decide (n.kind ∈ lineEnd)) = false
          rw [k4]; rfl
        rw [hb, if_neg (by decide), hi]
        show _ = min m (min (leading (c :: s)) (shared i ss))
        rw [← Nat.min_assoc, ← Nat.min_assoc, Nat.min_comm _ m]
        exact ih (min m (leading (c :: s)))

theorem src_lines {ls : List (List Tok)} {ss : List Text} {m : Nat} (hm : ∀ l ∈ ss, l ≠ [] → m ≤ leading l)
    (h : ls.map raws = ss.map fun l => [(.CmdExampleLine, l), (.Newline, "\n".toList)]) :
    ∃ o, srcLines m (ls.map lineOf) = .ok o ∧ raws o = linesRaw .sample (ss.map (·.drop m)) := by
  induction ls generalizing ss with
  | nil =>
    cases ss with
    | nil => exact ⟨[], rfl, rfl⟩
    | cons s ss => cases h
  | cons l ls ih =>
    cases ss with
    | nil => cases h
    | cons s ss =>
      rw [List.map_cons, List.map_cons] at h
      obtain ⟨h1, h2⟩ := List.cons.inj h
      obtain ⟨o, k1, k2⟩ := ih (fun x hx => hm x (List.mem_cons_of_mem _ hx)) h2
      have hm := hm s List.mem_cons_self
      obtain ⟨t, n, rfl, g1, g2, g3, g4⟩ := line_tokens h1
      obtain ⟨o', k3, k4⟩ : ∃ o, srcLine m [t, n] = .ok o ∧ raws o = [(TK.CmdExampleLine, s.drop m), (.Newline, "\n".toList)] := by
        by_cases hs : s = []
        · subst hs
          refine ⟨[t, n], by simp [srcLine, g4], ?_⟩
          rw [List.drop_nil]
          exact h1
        · have hle : m ≤ t.text.length := by
            rw [g4]
            exact Nat.le_trans (hm hs) (List.takeWhile_sublist _).length_le
          have hne : t.text.isEmpty = false := by rw [g4]; simpa using hs
          refine ⟨{ t with text := t.text.drop m } :: [n], by simp only [srcLine, hne, hle]; rfl, ?_⟩
          simp [raws, g1, g2, g3, g4]
      refine ⟨o' ++ o, ?_, ?_⟩
      · rw [List.map_cons, srcLines, k1]
        show (do let a ← srcLine m [t, n]; _) = _
        rw [k3]
        rfl
      · rw [raws_append, k2, k4]
        rfl

/-- The lines after the removal of the spaces. -/
def Block.left (b : Block) : List Text :=
  match b.kind with
  | .sample => b.dedented
  | .foreign _ _ => b.lines

/-- The tokens of a block after the removal of the spaces. -/
def Block.groupRaw (b : Block) : Raw :=
  b.headRaw ++ ((.Newline, "\n".toList) :: (linesRaw b.kind b.left ++ ((b.kind.endTok, b.last) :: afterRaw b.after)))

theorem block_body {b : Block} {x : Toks} (h : Shape b x) {H : Line} (hi : H.indent = b.indent) {gs : Groups} (h1 : Lined gs)
    (h2 : leafLines gs = .ok (x.lines.map lineOf)) (h3 : isSrc gs = firstSrc (x.lines.map lineOf)) :
    ∃ o, (if isSrc gs then srcBody H gs else convertLoop gs none []) = .ok o ∧ raws o = linesRaw b.kind b.left := by
  have hfirst : ∀ t ts, b.lines = t :: ts → isSrc gs = decide (b.kind.lineTok = .CmdExampleLine) := by
    intro t ts hl
    have hsh := h.lines
    rw [hl] at hsh
    obtain ⟨l, ls, hx, he, -⟩ := List.map_eq_cons_iff.mp hsh
    obtain ⟨t, n, rfl, g1, g2, g3, g4⟩ := line_tokens he
    rw [h3, hx]
    simp only [List.map_cons, firstSrc, lineOf, g3]
    rcases line_kind b.kind with h | h <;> rw [h] <;> decide
  have hcalm : ∀ l ∈ x.lines.map lineOf, ∀ t ∈ l.tokens, t.kind ∉ [TK.LeadingPlus, .LeadingNumber, .LeadingMinus, .TreeClock, .Minus] := by
    intro l hl t ht
    obtain ⟨l, hl', rfl⟩ := List.mem_map.mp hl
    have hmem : raws l ∈ x.lines.map raws := List.mem_map_of_mem hl'
    rw [h.lines] at hmem
    obtain ⟨s, hs, he⟩ := List.mem_map.mp hmem
    have ht' := raws_mem (ts := l) ht
    rw [← he] at ht'
    simp only [List.mem_cons, List.not_mem_nil, or_false, Prod.mk.injEq] at ht'
    rcases ht' with h | h
    · rw [h.1]; rcases line_kind b.kind with h | h <;> rw [h] <;> decide
    · rw [h.1]; decide
  have hplain : raws ((x.lines.map lineOf).map Line.tokens).flatten = linesRaw b.kind b.lines := by
    have : (x.lines.map lineOf).map Line.tokens = x.lines := by
      rw [List.map_map]
      exact List.map_id x.lines
    rw [this]
    unfold raws linesRaw
    rw [List.map_flatten]
    exact congrArg List.flatten h.lines
  cases hk : b.kind with
  | foreign g e =>
    have hleft : b.left = b.lines := by simp [Block.left, hk]
    have hs : isSrc gs = false := by
      cases hl : b.lines with
      | nil =>
        have := h.lines
        rw [hl] at this
        rw [h3, List.map_eq_nil_iff.mp this]
        rfl
      | cons t ts => rw [hfirst t ts hl, hk]; rfl
    refine ⟨_, ?_, by rw [hleft, ← hk]; exact hplain⟩
    rw [if_neg (by simp [hs])]
    exact lined_tokens h1 none h2 hcalm
  | sample =>
    have hleft : b.left = b.dedented := by simp [Block.left, hk]
    have hlines : x.lines.map raws = b.lines.map fun l => [(.CmdExampleLine, l), (.Newline, "\n".toList)] := by
      have := h.lines
      rw [hk] at this
      exact this
    obtain ⟨o, k1, k2⟩ := src_lines (m := shared b.indent b.lines) (fun l hl hne => shared_line hl hne) hlines
    rw [hleft]
    cases hl : b.lines with
    | nil =>
      have hx : x.lines = [] := by
        have := h.lines
        rw [hl] at this
        exact List.map_eq_nil_iff.mp this
      have hs : isSrc gs = false := by rw [h3, hx]; rfl
      refine ⟨((x.lines.map lineOf).map Line.tokens).flatten, ?_, ?_⟩
      · rw [if_neg (by simp [hs])]
        exact lined_tokens h1 none h2 hcalm
      · rw [hplain, hl]
        simp [Block.dedented, hl, linesRaw]
    | cons t ts =>
      have hs : isSrc gs = true := by rw [hfirst t ts hl, hk]; rfl
      refine ⟨o, ?_, k2⟩
      rw [if_pos hs]
      unfold srcBody
      rw [h2]
      show srcLines (minIndent H (x.lines.map lineOf)) (x.lines.map lineOf) = _
      have hmin : minIndent H (x.lines.map lineOf) = shared b.indent b.lines := by
        unfold minIndent
        have := min_indent hlines b.indent b.indent
        rw [Nat.min_self] at this
        rw [hi, this]
        exact Nat.min_eq_right (shared_le _ _)
      rw [hmin, k1]

theorem head_calm {b : Block} (hb : b.Valid) {H : List Tok} (h : raws H = b.headRaw ++ [(.Newline, "\n".toList)]) :
    ∀ t ∈ H, t.kind ∉ [TK.LeadingPlus, .LeadingNumber, .LeadingMinus, .TreeClock, .Minus] := by
  intro t ht
  have hm := raws_mem ht
  rw [h] at hm
  have : t.kind ∈ [TK.LeadingSpace, .LineCommand, .CmdExampleBegin, .CmdExportBegin, .Newline, .Whitespace, .CmdRawArg, .CmdColonIdent] := by
    unfold Block.headRaw at hm
    rcases List.mem_append.mp hm with hm | hm
    · rcases List.mem_append.mp hm with hm | hm
      · split at hm
        · cases hm
        · have := congrArg Prod.fst (List.mem_singleton.mp hm)
          dsimp only at this
          rw [this]; decide
      · rcases List.mem_append.mp hm with hm | hm
        · simp only [List.mem_cons, List.not_mem_nil, or_false, Prod.mk.injEq] at hm
          rcases hm with hm | hm
          · rw [hm.1]; decide
          · rw [hm.1]; rcases begin_kind b.kind with h | h <;> rw [h] <;> decide
        · have := words_kinds (words_ok hb) b.gap _ hm
          dsimp only at this
          revert this
          generalize t.kind = k
          revert k
          decide
    · have := congrArg Prod.fst (List.mem_singleton.mp hm)
      dsimp only at this
      rw [this]; decide
  revert this
  generalize t.kind = k
  revert k
  decide

theorem after_kind {t : Tok} {n : Nat} (h : (t.kind, t.text) ∈ afterRaw n) : t.kind ∈ [TK.Newline, .MediumNewline, .LongNewline] := by
  cases n with
  | zero => cases h
  | succ n =>
    have := congrArg Prod.fst (List.mem_singleton.mp h)
    dsimp only at this
    rw [this]
    match n with
    | 0 => decide
    | 1 => decide
    | n + 2 => simp [breakKind]

theorem foot_calm {b : Block} {F : List Tok} (h : raws F = (b.kind.endTok, b.last) :: afterRaw b.after) :
    ∀ t ∈ F, t.kind ∉ [TK.LeadingPlus, .LeadingNumber, .LeadingMinus, .TreeClock, .Minus] := by
  intro t ht
  have hm := raws_mem ht
  rw [h] at hm
  rcases List.mem_cons.mp hm with hm | hm
  · have := congrArg Prod.fst hm
    dsimp only at this
    rw [this]; rcases end_kind b.kind with h | h <;> rw [h] <;> decide
  · have hk := after_kind hm
    revert hk
    generalize t.kind = k
    revert k
    decide

theorem doc_groups {d : List Block} {xs : List Toks} (hd : DocValid d) (h : List.Forall₂ Shape d xs) : ∀ fuel,
    2 * (((xs.zip d).map fun p => tokLines p.1 p.2).flatten).length + 2 ≤ fuel →
    ∃ gs, toGroups fuel ((xs.zip d).map fun p => tokLines p.1 p.2).flatten = .ok gs ∧
      ∀ prev, ∃ o, convertLoop gs prev [] = .ok o ∧ raws o = (d.map Block.groupRaw).flatten := by
  induction h with
  | nil =>
    intro fuel hf
    obtain ⟨f, rfl⟩ : ∃ f, fuel = f + 1 := ⟨fuel - 1, by omega⟩
    exact ⟨.nil, rfl, fun prev => ⟨[], rfl, rfl⟩⟩
  | @cons b x d xs h1 h2 ih =>
    obtain ⟨hb, -, hd⟩ := hd
    intro fuel hf
    rw [List.zip_cons_cons, List.map_cons, List.flatten_cons] at hf ⊢
    generalize hR : ((xs.zip d).map fun p => tokLines p.1 p.2).flatten = R at hf ih ⊢
    dsimp only at hf ⊢
    unfold tokLines at hf ⊢
    simp only [List.length_append, List.length_cons, List.length_nil, List.length_map] at hf
    obtain ⟨f, rfl⟩ : ∃ f, fuel = f + 2 := ⟨fuel - 2, by omega⟩
    obtain ⟨gs, g1, g2⟩ := ih hd (f + 1) (by omega)
    obtain ⟨sub, s1, s2, s3, s4⟩ := block_lines x.lines.length (x.lines.map lineOf) (by simp) (fun l hl => by
      obtain ⟨l', -, rfl⟩ := List.mem_map.mp hl; rfl) ⟨x.foot, 0, .blockClose⟩ R rfl f (by omega)
    refine ⟨.nested .block ⟨x.head, b.indent, .blockOpen⟩ ⟨x.foot, 0, .blockClose⟩ sub gs, ?_, fun prev => ?_⟩
    · have hr : recGroup (f + 1) (⟨x.head, b.indent, .blockOpen⟩ :: (x.lines.map lineOf ++ [⟨x.foot, 0, .blockClose⟩]) ++ R) =
          .ok (.nested .block ⟨x.head, b.indent, .blockOpen⟩ ⟨x.foot, 0, .blockClose⟩ sub .nil, R) := by
        rw [List.cons_append, List.append_assoc, List.singleton_append]
        simp only [recGroup, s1, bind, Except.bind]
      rw [List.cons_append] at hr ⊢
      simp only [toGroups, hr, bind, Except.bind]
      rw [if_neg (by simp; omega), g1]
      rfl
    · obtain ⟨o, o1, o2⟩ := block_body h1 (H := ⟨x.head, b.indent, .blockOpen⟩) rfl s3 s2 s4
      obtain ⟨q, q1, q2⟩ := g2 (some (.block, none))
      refine ⟨x.head ++ o ++ x.foot ++ q, ?_, ?_⟩
      · simp only [convertLoop, pre_none (show GK.block ≠ .listItem from by decide), rec_add (head_calm hb h1.head), rec_add (foot_calm h1.foot), bind, Except.bind, q1]
        rw [o1]
        rfl
      · rw [raws_append, raws_append, raws_append, h1.head, o2, h1.foot, q2]
        simp [Block.groupRaw]

/-! ## Tokens of the parser -/

/-- The tokens which are read by the parser. -/
def Block.fin (b : Block) : Raw :=
  (if b.indent = 0 then [] else [(.LeadingSpace, blanks b.indent)]) ++ ([(.CmdPrefix, "#+".toList), (b.kind.beginTok, beginWord b.kind b.upper)] ++
    ((wordsRaw b.kind.words ++ gapRaw b.gap) ++ ((.Newline, "\n".toList) :: (linesRaw b.kind b.left ++
      ((.CmdPrefix, []) :: (b.kind.endTok, b.last) :: afterRaw b.after)))))

def docFin (d : List Block) : Raw := (d.map Block.fin).flatten

def stillKinds : List TK := [.CmdExampleLine, .CmdExportLine, .Newline, .MediumNewline, .LongNewline, .LeadingSpace]

theorem conv_still {u ts : List Tok} {out : Raw} (hk : ∀ t ∈ u, t.kind ∈ stillKinds) (h : Conv ts out) : Conv (u ++ ts) (raws u ++ out) := by
  induction u with
  | nil => exact h
  | cons t u ih =>
    have ht := hk t List.mem_cons_self
    have ih := ih (fun x hx => hk x (List.mem_cons_of_mem _ hx))
    refine conv_step (os := [t]) ?_ (fun prev next => ?_) ih
    · revert ht
      generalize t.kind = k
      revert k
      decide
    · unfold Recombine.mapOne
      simp only [stillKinds, List.mem_cons, List.not_mem_nil, or_false] at ht
      rcases ht with h | h | h | h | h | h <;> rw [h] <;> rfl

theorem conv_close {kd : Kind} {e : Tok} {ts : List Tok} {out : Raw} {x : Text} (hk : e.kind = kd.endTok) (hx : e.text = x) (h : Conv ts out) :
    Conv (e :: ts) ((.CmdPrefix, []) :: (kd.endTok, x) :: out) := by
  have := conv_step (os := [⟨.CmdPrefix, [], e.loc⟩, e]) (by rw [hk]; rcases end_kind kd with h | h <;> rw [h] <;> decide)
    (fun prev next => by unfold Recombine.mapOne; rw [hk]; rcases end_kind kd with h | h <;> rw [h]) h
  simp only [raws, List.map_cons, List.map_nil, hk, hx] at this
  exact this

theorem conv_open {kd : Kind} {c m n : Tok} {as ts : List Tok} {out : Raw} (hc : c.kind = .LineCommand) (hm : m.kind = kd.beginTok) (hn : n.kind = .Newline)
    (has : ∀ x ∈ as, x.kind ∈ [TK.Whitespace, .CmdRawArg, .CmdColonIdent]) (h : Conv (n :: ts) out) :
    Conv (c :: m :: (as ++ n :: ts)) ((.CmdPrefix, c.text) :: (kd.beginTok, m.text) :: (raws as ++ out)) := by
  intro k prev hk
  obtain ⟨j, rfl⟩ : ∃ j, k = j + 1 := ⟨k - 1, by simp at hk; omega⟩
  obtain ⟨o, h1, h2⟩ := h j ((as.getLast?).or (some m)) (by simp at hk ⊢; omega)
  refine ⟨({ c with kind := .CmdPrefix } :: m :: as) ++ o, ?_, ?_⟩
  · rw [Recombine.loop]
    simp only [List.isEmpty_cons, Bool.false_eq_true, if_false]
    have hargs : (as ++ n :: ts).takeWhile (fun t : Tok => !decide (t.kind ∈ lineEnd)) = as ∧
        (as ++ n :: ts).dropWhile (fun t : Tok => !decide (t.kind ∈ lineEnd)) = n :: ts := by
      obtain ⟨t1, t2⟩ := takeWhile_stop (fun t : Tok => !decide (t.kind ∈ lineEnd)) as (e := n) ts (by rw [hn]; decide)
      rw [t1, t2]
      have hall : ∀ x ∈ as, (!decide (x.kind ∈ lineEnd)) = true := by
        intro x hx
        have := has x hx
        revert this
        generalize x.kind = k
        revert k
        decide
      rw [List.takeWhile_eq_self_iff.mpr hall, List.dropWhile_eq_nil_iff.mpr hall]
      exact ⟨rfl, rfl⟩
    have hmap : Recombine.mapTok ((c :: m :: (as ++ n :: ts)).length + 1) ⟨prev, c :: m :: (as ++ n :: ts)⟩ =
        .ok ({ c with kind := .CmdPrefix } :: m :: as, ⟨(as.getLast?).or (some m), n :: ts⟩) := by
      rw [Recombine.mapTok]
      dsimp only
      rw [if_pos hc]
      unfold Recombine.lineCommand Recombine.commandName Recombine.commandRest Recombine.commandArgs
      rcases begin_kind kd with h | h <;> rw [h] at hm <;> simp only [hm, hargs.1, hargs.2, bind, Except.bind]
    rw [hmap]
    dsimp only
    rw [if_neg (by simp; omega), h1]
  · simp only [raws, List.map_cons, List.map_append, List.cons_append, hm] at h2 ⊢
    rw [h2]

theorem conv_block {b : Block} (hb : b.Valid) {ts : List Tok} {r : List Tok} {out : Raw} (h : raws ts = b.groupRaw) (hr : Conv r out) :
    Conv (ts ++ r) (b.fin ++ out) := by
  have e : b.groupRaw = (b.headRaw ++ [(.Newline, "\n".toList)]) ++ (linesRaw b.kind b.left ++ ((b.kind.endTok, b.last) :: afterRaw b.after)) := by
    simp [Block.groupRaw]
  rw [e] at h
  obtain ⟨H, R, rfl, h1, h2⟩ := raws_split h
  obtain ⟨L, F, rfl, h3, h4⟩ := raws_split h2
  obtain ⟨f, A, rfl, h5, h6, h7⟩ := raws_cons h4
  have cA : Conv (A ++ r) (afterRaw b.after ++ out) := by
    rw [← h7]
    refine conv_still (fun t ht => ?_) hr
    have := raws_mem ht
    rw [h7] at this
    have := after_kind this
    revert this
    generalize t.kind = k
    revert k
    decide
  have cF := conv_close h5 h6 cA
  have cL : Conv (L ++ (f :: (A ++ r))) (linesRaw b.kind b.left ++ ((.CmdPrefix, []) :: (b.kind.endTok, b.last) :: (afterRaw b.after ++ out))) := by
    rw [← h3]
    refine conv_still (fun t ht => ?_) cF
    have := raws_mem ht
    rw [h3] at this
    obtain ⟨y, hy, hx⟩ := List.mem_flatten.mp this
    obtain ⟨l, -, rfl⟩ := List.mem_map.mp hy
    simp only [List.mem_cons, List.not_mem_nil, or_false, Prod.mk.injEq] at hx
    rcases hx with hx | hx
    · rw [hx.1]; rcases line_kind b.kind with h | h <;> rw [h] <;> decide
    · rw [hx.1]; decide
  obtain ⟨c, m, as, n, hH, hs, k1, k2, k3, k4, k5, k6, k7, k8⟩ := head_tokens hb h1
  have cN := conv_still (u := [n]) (fun t ht => by rw [List.mem_singleton.mp ht, k7]; decide) cL
  have cH := conv_open k1 k3 k7 k6 cN
  rw [k2, k4, k5, show raws [n] = [(TK.Newline, "\n".toList)] from by simp [raws, k7, k8]] at cH
  by_cases hi : b.indent = 0
  · rw [if_pos hi, List.nil_append] at hH
    subst hH
    have e1 : b.fin ++ out = (.CmdPrefix, "#+".toList) :: (b.kind.beginTok, beginWord b.kind b.upper) :: ((wordsRaw b.kind.words ++ gapRaw b.gap) ++
        ([(.Newline, "\n".toList)] ++ (linesRaw b.kind b.left ++ ((.CmdPrefix, []) :: (b.kind.endTok, b.last) :: (afterRaw b.after ++ out))))) := by
      unfold Block.fin
      rw [if_pos hi]
      simp
    rw [e1]
    simpa using cH
  · obtain ⟨s, hs1, hs2, hs3⟩ := hs hi
    rw [if_neg hi, hs1, Option.getD_some] at hH
    subst hH
    have := conv_still (u := [s]) (fun t ht => by rw [List.mem_singleton.mp ht, hs2]; decide) cH
    have e1 : b.fin ++ out = raws [s] ++ ((.CmdPrefix, "#+".toList) :: (b.kind.beginTok, beginWord b.kind b.upper) :: ((wordsRaw b.kind.words ++ gapRaw b.gap) ++
        ([(.Newline, "\n".toList)] ++ (linesRaw b.kind b.left ++ ((.CmdPrefix, []) :: (b.kind.endTok, b.last) :: (afterRaw b.after ++ out)))))) := by
      unfold Block.fin
      rw [if_neg hi]
      simp [raws, hs2, hs3]
    rw [e1]
    simpa using this

theorem conv_doc {d : List Block} (hd : DocValid d) {ts : List Tok} (h : raws ts = (d.map Block.groupRaw).flatten) : Conv ts (docFin d) := by
  induction d generalizing ts with
  | nil => cases raws_nil h; exact conv_nil
  | cons b d ih =>
    obtain ⟨u, v, rfl, h1, h2⟩ := raws_split (a := b.groupRaw) (b := (d.map Block.groupRaw).flatten) h
    exact conv_block hd.1 h1 (ih hd.2.2 h2)

/-- The tokens of a document. -/
theorem doc_tokens {d : List Block} (h : DocValid d) : ∃ toks, Pipeline.tokens BaseLexer.stdLex (render d) = .ok toks ∧ raws toks = docFin d := by
  obtain ⟨xs, hx, hs⟩ := split_doc (d := d) (raws_placed (docRaw d) 0)
  have h1 := doc_lines h hs
  obtain ⟨gs, g1, g2⟩ := doc_groups h hs _ (Nat.le_refl _)
  obtain ⟨o, o1, o2⟩ := g2 none
  obtain ⟨q, q1, q2⟩ := conv_doc h o2 o.length none (Nat.le_refl _)
  refine ⟨q, ?_, q2⟩
  unfold Pipeline.tokens
  rw [doc_lexed h]
  dsimp only
  unfold Recombine.convert regroup
  rw [hx, h1]
  simp only [bind, Except.bind, g1]
  rw [show convertGroups gs = .ok o from o1]
  dsimp only
  unfold Recombine.recombine
  rw [q1]

end Verif.Raw
