import Verif.Code.LexDoc

/-!
# Lines, groups and tokens of documents with source blocks
-/

namespace Verif.Code
open Verif.Token Verif.Tokenizer
open Verif.Stamp (Raw placed)
open Verif.Drawer (Text)

/-- Kinds and texts of tokens. -/
def raws (ts : List Tok) : Raw := ts.map fun t => (t.kind, t.text)

theorem raws_append (a b : List Tok) : raws (a ++ b) = raws a ++ raws b := List.map_append

theorem raws_placed (r : Raw) (p : Nat) : raws (placed p r) = r := by
  induction r generalizing p with
  | nil => rfl
  | cons x r ih =>
    rw [placed, raws, List.map_cons]
    exact congrArg _ (ih _)

theorem raws_split {ts : List Tok} {a b : Raw} (h : raws ts = a ++ b) : ∃ u v, ts = u ++ v ∧ raws u = a ∧ raws v = b := by
  obtain ⟨u, v, rfl, h1, h2⟩ := List.map_eq_append_iff.mp h
  exact ⟨u, v, rfl, h1, h2⟩

theorem raws_cons {ts : List Tok} {k : TK} {x : Text} {b : Raw} (h : raws ts = (k, x) :: b) : ∃ t v, ts = t :: v ∧ t.kind = k ∧ t.text = x ∧ raws v = b := by
  obtain ⟨t, v, rfl, h1, h2⟩ := List.map_eq_cons_iff.mp h
  exact ⟨t, v, rfl, congrArg Prod.fst h1, congrArg Prod.snd h1, h2⟩

theorem raws_nil {ts : List Tok} (h : raws ts = []) : ts = [] := List.map_eq_nil_iff.mp h

theorem raws_mem {ts : List Tok} {t : Tok} (h : t ∈ ts) : (t.kind, t.text) ∈ raws ts := List.mem_map_of_mem (f := fun t : Tok => (t.kind, t.text)) h

/-! ## The parts of a block -/

def Block.headRaw (b : Block) : Raw :=
  (if b.indent = 0 then [] else [(.LeadingSpace, blanks b.indent)]) ++ ([(.LineCommand, "#+".toList), (.CmdSrcBegin, beginWord b.upper)] ++
    (wordsRaw b.words ++ gapRaw b.gap))

structure Toks where
  head : List Tok
  lines : List (List Tok)
  foot : List Tok

def Toks.all (x : Toks) : List Tok := x.head ++ (x.lines.flatten ++ x.foot)

structure Shape (b : Block) (x : Toks) : Prop where
  head : raws x.head = b.headRaw ++ [(.Newline, "\n".toList)]
  lines : x.lines.map raws = b.lines.map fun l => lineRaw l ++ [(.Newline, "\n".toList)]
  foot : raws x.foot = (.CmdSrcEnd, b.foot) :: afterRaw b.after

theorem split_lines {rs : List Raw} {ts : List Tok} (h : raws ts = rs.flatten) : ∃ ls : List (List Tok), ts = ls.flatten ∧ ls.map raws = rs := by
  induction rs generalizing ts with
  | nil => exact ⟨[], raws_nil h, rfl⟩
  | cons r rs ih =>
    obtain ⟨u, v, rfl, h1, h2⟩ := raws_split h
    obtain ⟨ls, rfl, h3⟩ := ih h2
    exact ⟨u :: ls, rfl, by rw [List.map_cons, h1, h3]⟩

theorem split_block {b : Block} {ts : List Tok} (h : raws ts = b.raw ++ afterRaw b.after) : ∃ x, ts = Toks.all x ∧ Shape b x := by
  have e : b.raw ++ afterRaw b.after = (b.headRaw ++ [(.Newline, "\n".toList)]) ++ (linesRaw b.lines ++ ((.CmdSrcEnd, b.foot) :: afterRaw b.after)) := by
    unfold Block.raw Block.headRaw
    simp only [List.append_assoc]
    rfl
  rw [e] at h
  obtain ⟨u, v, rfl, h1, h2⟩ := raws_split h
  obtain ⟨v, w, rfl, h3, h4⟩ := raws_split h2
  obtain ⟨ls, rfl, h5⟩ := split_lines h3
  exact ⟨⟨u, ls, w⟩, rfl, h1, h5, h4⟩

theorem split_doc {d : List Block} {ts : List Tok} (h : raws ts = docRaw d) : ∃ xs, ts = (xs.map Toks.all).flatten ∧ List.Forall₂ Shape d xs := by
  induction d generalizing ts with
  | nil => exact ⟨[], raws_nil h, .nil⟩
  | cons b d ih =>
    obtain ⟨u, v, rfl, h1, h2⟩ := raws_split (a := b.raw ++ afterRaw b.after) (b := docRaw d) h
    obtain ⟨x, rfl, hx⟩ := split_block h1
    obtain ⟨xs, rfl, hxs⟩ := ih h2
    exact ⟨x :: xs, rfl, .cons hx hxs⟩

/-! ## Lines -/

/-- A line of code. -/
def lineOf (l : List Tok) : Line := ⟨l, match l with | t :: _ => indentOf t | [] => 0, .line⟩

def Toks.tokLines (x : Toks) (b : Block) : List Line :=
  ⟨x.head, b.indent, .blockOpen⟩ :: (x.lines.map lineOf ++ [⟨x.foot, 0, .blockClose⟩])

theorem lines_one {u : List Tok} {t : Tok} {r : List Tok} {l : Line} {ls : List Line} (hu : ∀ x ∈ u, x.kind ∉ lineEnd) (ht : t.kind ∈ lineEnd) :
    ∀ cur, mkLine (cur ++ (u ++ [t])) = .ok l → toLinesLoop [] r = .ok ls → toLinesLoop cur (u ++ t :: r) = .ok (l :: ls) := by
  induction u with
  | nil =>
    intro cur h1 h2
    simp only [List.nil_append] at h1 ⊢
    simp only [toLinesLoop, if_pos ht, h1, h2]
    rfl
  | cons x u ih =>
    intro cur h1 h2
    simp only [List.cons_append, toLinesLoop, if_neg (hu x List.mem_cons_self)]
    refine ih (fun y hy => hu y (List.mem_cons_of_mem _ hy)) _ ?_ h2
    rw [← h1]
    simp

def codeKinds : List TK := [.SrcContent, .DoubleAngleBegin, .DoubleAngleEnd]

theorem line_kinds (l : List Seg) : ∀ x ∈ lineRaw l, x.1 ∈ codeKinds := by
  intro x hx
  unfold lineRaw at hx
  split at hx
  · cases List.mem_singleton.mp hx
    decide
  · unfold segsRaw at hx
    obtain ⟨y, hy, hx⟩ := List.mem_flatten.mp hx
    obtain ⟨s, -, rfl⟩ := List.mem_map.mp hy
    cases s <;> simp only [Seg.raw, List.mem_cons, List.not_mem_nil, or_false] at hx
    · subst hx; simp [codeKinds]
    · rcases hx with rfl | rfl | rfl <;> simp [codeKinds]
    · subst hx; simp [codeKinds]
    · subst hx; simp [codeKinds]

theorem lineRaw_ne (l : List Seg) : lineRaw l ≠ [] := by
  cases l with
  | nil => simp [lineRaw]
  | cons s l => cases s <;> simp [lineRaw, segsRaw, Seg.raw]

/-- A line of code: its tokens, and the line break. -/
theorem line_tokens {l : List Tok} {s : List Seg} (h : raws l = lineRaw s ++ [(.Newline, "\n".toList)]) :
    ∃ t u n, l = t :: u ++ [n] ∧ n.kind = .Newline ∧ n.text = "\n".toList ∧ raws (t :: u) = lineRaw s ∧ ∀ x ∈ t :: u, x.kind ∈ codeKinds := by
  obtain ⟨u, v, rfl, h1, h2⟩ := raws_split h
  obtain ⟨n, w, rfl, h3, h4, h5⟩ := raws_cons h2
  cases raws_nil h5
  have hk : ∀ x ∈ u, x.kind ∈ codeKinds := fun x hx => line_kinds s _ (h1 ▸ raws_mem hx)
  cases u with
  | nil => exact absurd h1.symm (lineRaw_ne s)
  | cons t u => exact ⟨t, u, n, rfl, h3, h4, h1, hk⟩

theorem mk_code {l : List Tok} {s : List Seg} (h : raws l = lineRaw s ++ [(.Newline, "\n".toList)]) : mkLine l = .ok (lineOf l) := by
  obtain ⟨t, u, n, rfl, -, -, -, hk⟩ := line_tokens h
  have := hk t List.mem_cons_self
  simp only [codeKinds, List.mem_cons, List.not_mem_nil, or_false] at this
  have e : lineKindOf (t :: u ++ [n]) t = .ok .line := by
    unfold lineKindOf
    rcases this with h | h | h <;> rw [h] <;> rfl
  show (do let k ← lineKindOf (t :: u ++ [n]) t; Except.ok (Line.mk (t :: u ++ [n]) (indentOf t) k)) = _
  rw [e]
  rfl

theorem code_ends {l : List Tok} {s : List Seg} (h : raws l = lineRaw s ++ [(.Newline, "\n".toList)]) {r : List Tok} {ls : List Line}
    (hr : toLinesLoop [] r = .ok ls) : toLinesLoop [] (l ++ r) = .ok (lineOf l :: ls) := by
  have hm := mk_code h
  obtain ⟨t, u, n, rfl, h1, -, -, hk⟩ := line_tokens h
  rw [List.append_assoc, List.singleton_append]
  refine lines_one (fun x hx => ?_) (by rw [h1]; decide) [] hm hr
  have := hk x hx
  revert this
  generalize x.kind = k
  revert k
  decide

theorem codes_end {ls : List (List Tok)} {ss : List (List Seg)} (h : ls.map raws = ss.map fun l => lineRaw l ++ [(.Newline, "\n".toList)]) {r : List Tok}
    {os : List Line} (hr : toLinesLoop [] r = .ok os) : toLinesLoop [] (ls.flatten ++ r) = .ok (ls.map lineOf ++ os) := by
  induction ls generalizing ss with
  | nil => exact hr
  | cons l ls ih =>
    cases ss with
    | nil => cases h
    | cons s ss =>
      rw [List.map_cons, List.map_cons] at h
      obtain ⟨h1, h2⟩ := List.cons.inj h
      rw [List.flatten_cons, List.append_assoc]
      exact code_ends h1 (ih h2)

theorem words_kinds {ws : Words} (h : ∀ w ∈ ws, WordOk w.2) (gap : Nat) : ∀ x ∈ wordsRaw ws ++ gapRaw gap, x.1 ∈ [TK.Whitespace, .CmdRawArg, .CmdColonIdent] := by
  intro x hx
  rcases List.mem_append.mp hx with hx | hx
  · obtain ⟨y, hy, hx⟩ := List.mem_flatten.mp hx
    obtain ⟨w, hw, rfl⟩ := List.mem_map.mp hy
    simp only [List.mem_cons, List.not_mem_nil, or_false] at hx
    rcases hx with rfl | rfl
    · simp
    · rcases h w hw with ⟨h1, -⟩ | ⟨h1, -⟩ <;> rw [h1] <;> decide
  · unfold gapRaw at hx
    split at hx
    · cases hx
    · cases List.mem_singleton.mp hx
      simp

/-- The first line of a block. -/
theorem head_tokens {b : Block} (hb : b.Valid) {H : List Tok} (h : raws H = b.headRaw ++ [(.Newline, "\n".toList)]) :
    ∃ c m as n, H = (if b.indent = 0 then [] else [(H.head?.getD n)]) ++ (c :: m :: as ++ [n]) ∧ (b.indent ≠ 0 → ∃ s, H.head? = some s ∧ s.kind = .LeadingSpace ∧ s.text = blanks b.indent) ∧
      c.kind = .LineCommand ∧ c.text = "#+".toList ∧ m.kind = .CmdSrcBegin ∧ m.text = beginWord b.upper ∧ raws as = wordsRaw b.words ++ gapRaw b.gap ∧
      (∀ x ∈ as, x.kind ∈ [TK.Whitespace, .CmdRawArg, .CmdColonIdent]) ∧ n.kind = .Newline ∧ n.text = "\n".toList := by
  unfold Block.headRaw at h
  rw [List.append_assoc] at h
  obtain ⟨L, R, rfl, h1, h2⟩ := raws_split h
  obtain ⟨c, R, rfl, h3, h4, h2⟩ := raws_cons h2
  obtain ⟨m, R, rfl, h5, h6, h2⟩ := raws_cons h2
  obtain ⟨as, R, rfl, h7, h8⟩ := raws_split (a := wordsRaw b.words ++ gapRaw b.gap) (b := [(TK.Newline, "\n".toList)]) (by simpa using h2)
  obtain ⟨n, R, rfl, h9, h10, h11⟩ := raws_cons h8
  cases raws_nil h11
  have hk : ∀ x ∈ as, x.kind ∈ [TK.Whitespace, .CmdRawArg, .CmdColonIdent] := fun x hx => words_kinds (words_ok hb) b.gap _ (h7 ▸ raws_mem hx)
  by_cases hi : b.indent = 0
  · rw [if_pos hi] at h1
    cases raws_nil h1
    exact ⟨c, m, as, n, by simp [hi], fun h => absurd hi h, h3, h4, h5, h6, h7, hk, h9, h10⟩
  · rw [if_neg hi] at h1
    obtain ⟨s, R, rfl, k1, k2, k3⟩ := raws_cons h1
    cases raws_nil k3
    exact ⟨c, m, as, n, by simp [hi], fun _ => ⟨s, rfl, k1, k2⟩, h3, h4, h5, h6, h7, hk, h9, h10⟩

theorem head_ends {b : Block} (hb : b.Valid) {H : List Tok} (h : raws H = b.headRaw ++ [(.Newline, "\n".toList)]) {r : List Tok} {ls : List Line}
    (hr : toLinesLoop [] r = .ok ls) : toLinesLoop [] (H ++ r) = .ok (⟨H, b.indent, .blockOpen⟩ :: ls) := by
  obtain ⟨c, m, as, n, hH, hs, h1, -, h2, -, -, h3, h4, -⟩ := head_tokens hb h
  have hno : ∀ x ∈ c :: m :: as, x.kind ∉ lineEnd := by
    intro x hx
    rcases List.mem_cons.mp hx with rfl | hx
    · rw [h1]; decide
    rcases List.mem_cons.mp hx with rfl | hx
    · rw [h2]; decide
    have := h3 x hx
    revert this
    generalize x.kind = k
    revert k
    decide
  have hn : n.kind ∈ lineEnd := by rw [h4]; decide
  by_cases hi : b.indent = 0
  · rw [if_pos hi, List.nil_append] at hH
    subst hH
    rw [List.append_assoc, List.singleton_append]
    refine lines_one hno hn [] ?_ hr
    show (do let k ← lineKindOf (c :: (m :: as ++ [n])) c; Except.ok (Line.mk (c :: (m :: as ++ [n])) (indentOf c) k)) = _
    have e : lineKindOf (c :: (m :: as ++ [n])) c = .ok .blockOpen := by
      unfold lineKindOf
      rw [h1]
      show setLineCommandKind _ 0 = _
      unfold setLineCommandKind
      simp only [List.getElem?_cons_zero, h1, if_true, List.cons_append, Nat.zero_add, List.getElem?_cons_succ, h2]
      rfl
    rw [e]
    show Except.ok (Line.mk (c :: (m :: as ++ [n])) (indentOf c) .blockOpen) = _
    rw [show indentOf c = b.indent from by unfold indentOf; rw [h1, hi]]
    rfl
  · obtain ⟨s, hs1, hs2, hs3⟩ := hs hi
    rw [if_neg hi, hs1, Option.getD_some] at hH
    subst hH
    rw [show [s] ++ (c :: m :: as ++ [n]) ++ r = (s :: c :: m :: as) ++ n :: r from by simp]
    refine lines_one (fun x hx => ?_) hn [] ?_ hr
    · rcases List.mem_cons.mp hx with rfl | hx
      · rw [hs2]; decide
      · exact hno x hx
    · show (do let k ← lineKindOf (s :: c :: (m :: as ++ [n])) s; Except.ok (Line.mk (s :: c :: (m :: as ++ [n])) (indentOf s) k)) = _
      have e : lineKindOf (s :: c :: (m :: as ++ [n])) s = .ok .blockOpen := by
        unfold lineKindOf
        rw [hs2]
        show setLeadingSpaceKind _ = _
        unfold setLeadingSpaceKind
        simp only [List.getElem?_cons_zero, List.getElem?_cons_succ, h1]
        unfold setLineCommandKind
        simp only [List.getElem?_cons_zero, h1, if_true, List.cons_append, Nat.zero_add, List.getElem?_cons_succ, h2]
        rfl
      rw [e]
      show Except.ok (Line.mk (s :: c :: (m :: as ++ [n])) (indentOf s) .blockOpen) = _
      rw [show indentOf s = b.indent from by unfold indentOf; rw [hs2, hs3]; simp [blanks]]
      rfl

/-- The last line of a block. -/
theorem foot_ends {b : Block} {F : List Tok} (h : raws F = (.CmdSrcEnd, b.foot) :: afterRaw b.after) {r : List Tok} {ls : List Line}
    (ha : b.after = 0 → r = []) (hr : toLinesLoop [] r = .ok ls) : toLinesLoop [] (F ++ r) = .ok (⟨F, 0, .blockClose⟩ :: ls) := by
  obtain ⟨e, R, rfl, h1, -, h2⟩ := raws_cons h
  have hm : mkLine (e :: R) = .ok ⟨e :: R, 0, .blockClose⟩ := by
    show (do let k ← lineKindOf (e :: R) e; Except.ok (Line.mk (e :: R) (indentOf e) k)) = _
    have e1 : lineKindOf (e :: R) e = .ok .blockClose := by unfold lineKindOf; rw [h1]; rfl
    rw [e1]
    show Except.ok (Line.mk (e :: R) (indentOf e) .blockClose) = _
    rw [show indentOf e = 0 from by unfold indentOf; rw [h1]]
  have he : e.kind ∉ lineEnd := by rw [h1]; decide
  cases hb : b.after with
  | zero =>
    rw [hb] at h2
    cases raws_nil h2
    cases ha hb
    simp only [toLinesLoop, List.isEmpty_nil, if_true] at hr
    cases hr
    simp only [List.append_nil, toLinesLoop, if_neg he, List.nil_append, List.isEmpty_cons, Bool.false_eq_true, if_false, hm]
    rfl
  | succ n =>
    rw [hb] at h2
    obtain ⟨t, R, rfl, h3, -, h4⟩ := raws_cons h2
    cases raws_nil h4
    refine lines_one (u := [e]) (t := t) (fun x hx => by rw [List.mem_singleton.mp hx]; exact he) ?_ [] hm hr
    rw [h3]
    match n with
    | 0 => decide
    | 1 => decide
    | n + 2 => simp [breakKind, lineEnd]

theorem doc_lines {d : List Block} {xs : List Toks} (hd : DocValid d) (h : List.Forall₂ Shape d xs) :
    toLines (xs.map Toks.all).flatten = .ok ((xs.zip d).map fun p => p.1.tokLines p.2).flatten := by
  unfold toLines
  induction h with
  | nil => rfl
  | @cons b x d xs h1 h2 ih =>
    obtain ⟨hb, ha, hd⟩ := hd
    have ih := ih hd
    rw [List.map_cons, List.flatten_cons, Toks.all, List.append_assoc, List.append_assoc]
    have := head_ends hb h1.head (codes_end h1.lines (foot_ends h1.foot (fun h0 => by
      cases h2 with
      | nil => rfl
      | cons _ _ => have := ha (by simp); omega) ih))
    rw [this]
    simp [Toks.tokLines]

/-! ## Groups -/

/-- Groups of lines only. -/
def Lined : Groups → Prop
  | .nil => True
  | .leaf k ls r => k = .line ∧ ls ≠ [] ∧ Lined r
  | .nested .. => False

/-- Is the first token a piece of code? -/
def firstSrc : List Line → Bool
  | [] => false
  | l :: _ =>
    match l.tokens with
    | t :: _ => decide (t.kind = .SrcContent) || decide (t.kind = .CmdExampleLine)
    | [] => false

theorem takeWhile_stop {α : Type} (p : α → Bool) (l : List α) {e : α} (r : List α) (he : p e = false) :
    (l ++ e :: r).takeWhile p = l.takeWhile p ∧ (l ++ e :: r).dropWhile p = l.dropWhile p ++ e :: r := by
  induction l with
  | nil => simp [he]
  | cons a l ih =>
    by_cases ha : p a = true
    · simp [ha, ih]
    · simp [ha]

theorem block_lines (n : Nat) : ∀ (Ls : List Line), Ls.length ≤ n → (∀ l ∈ Ls, l.kind = .line) → ∀ (e : Line) (rest : List Line), e.kind = .blockClose →
    ∀ fuel, n + 2 ≤ fuel → ∃ gs, blockLoop fuel (Ls ++ e :: rest) = .ok (gs, e :: rest) ∧ leafLines gs = .ok Ls ∧ Lined gs ∧ isSrc gs = firstSrc Ls := by
  induction n with
  | zero =>
    intro Ls hl _ e rest he fuel hf
    obtain ⟨f, rfl⟩ : ∃ f, fuel = f + 1 := ⟨fuel - 1, by omega⟩
    cases List.eq_nil_of_length_eq_zero (Nat.le_zero.mp hl)
    exact ⟨.nil, by simp [blockLoop, he], rfl, trivial, rfl⟩
  | succ n ih =>
    intro Ls hl hk e rest he fuel hf
    obtain ⟨f, rfl⟩ : ∃ f, fuel = f + 1 := ⟨fuel - 1, by omega⟩
    obtain ⟨f', rfl⟩ : ∃ f', f = f' + 1 := ⟨f - 1, by omega⟩
    cases Ls with
    | nil => exact ⟨.nil, by simp [blockLoop, he], rfl, trivial, rfl⟩
    | cons l Ls =>
      have hl1 := hk l List.mem_cons_self
      let p := fun x : Line => (decide (x.kind = .line) || decide (x.kind = .indentedLine)) && decide (l.indent ≤ x.indent)
      have hpe : p e = false := by simp [p, he]
      obtain ⟨t1, t2⟩ := takeWhile_stop p (l :: Ls) rest hpe
      have hpl : p l = true := by simp [p, hl1]
      have hdw : (l :: Ls).dropWhile p = Ls.dropWhile p := by simp [hpl]
      have htw : (l :: Ls).takeWhile p = l :: Ls.takeWhile p := by simp [hpl]
      obtain ⟨gs, g1, g2, g3, g4⟩ := ih (Ls.dropWhile p) (by
          have := (List.dropWhile_sublist p (l := Ls)).length_le
          simp at hl
          omega) (fun x hx => hk x (List.mem_cons_of_mem _ ((List.dropWhile_sublist p).subset hx))) e rest he (f' + 1) (by omega)
      refine ⟨.leaf .line (l :: Ls.takeWhile p) gs, ?_, ?_, ⟨rfl, by simp, g3⟩, ?_⟩
      · have hr : recGroup (f' + 1) (l :: Ls ++ e :: rest) = .ok (.leaf .line (l :: Ls.takeWhile p) .nil, Ls.dropWhile p ++ e :: rest) := by
          simp only [List.cons_append, recGroup, hl1]
          rw [← htw, ← t1, ← hdw, ← t2]
          rfl
        have hne : ¬ l.kind = .blockClose := by rw [hl1]; decide
        show (if l.kind = .blockClose then _ else _) = _
        rw [if_neg hne]
        simp only [List.cons_append] at hr
        simp only [List.append_eq, hr, bind, Except.bind, g1]
        rfl
      · simp only [leafLines, g2, bind, Except.bind]
        rw [List.cons_append, List.takeWhile_append_dropWhile]
      · rfl

theorem rec_add {gk : GK} {ts : List Tok} (h : ∀ t ∈ ts, t.kind ∉ [TK.LeadingPlus, .LeadingNumber, .LeadingMinus, .TreeClock, .Minus]) :
    ∀ prev, recAddLine gk prev ts = .ok ts := by
  induction ts with
  | nil => intro prev; rfl
  | cons t ts ih =>
    intro prev
    have hk := h t List.mem_cons_self
    have := ih (fun x hx => h x (List.mem_cons_of_mem _ hx)) (some t)
    unfold recAddLine
    split
    all_goals first
      | (rename_i he; rw [he] at hk; exact absurd hk (by decide))
      | skip
    rw [this]
    rfl

theorem rec_adds {gk : GK} {ls : List Line} (h : ∀ l ∈ ls, ∀ t ∈ l.tokens, t.kind ∉ [TK.LeadingPlus, .LeadingNumber, .LeadingMinus, .TreeClock, .Minus]) :
    recAddLines gk ls = .ok (ls.map Line.tokens).flatten := by
  induction ls with
  | nil => rfl
  | cons l ls ih =>
    rw [recAddLines, rec_add (h l List.mem_cons_self), ih (fun x hx => h x (List.mem_cons_of_mem _ hx))]
    rfl

theorem pre_none {k : GK} {i : Nat} {prev : Prev} (hk : k ≠ .listItem) : preGroup k i prev [] = .ok ([], []) := by
  unfold preGroup
  rw [if_neg hk]
  rfl

theorem lined_tokens {gs : Groups} (h : Lined gs) : ∀ {ls : List Line} (prev : Prev), leafLines gs = .ok ls →
    (∀ l ∈ ls, ∀ t ∈ l.tokens, t.kind ∉ [TK.LeadingPlus, .LeadingNumber, .LeadingMinus, .TreeClock, .Minus]) →
    convertLoop gs prev [] = .ok (ls.map Line.tokens).flatten := by
  induction gs with
  | nil => intro ls prev h1 _; cases h1; rfl
  | leaf k ls' r ih =>
    obtain ⟨rfl, hne, hr⟩ := h
    intro ls prev h1 h2
    simp only [leafLines, bind, Except.bind] at h1
    cases hl : leafLines r with
    | error e => rw [hl] at h1; cases h1
    | ok rl =>
      rw [hl] at h1
      cases h1
      obtain ⟨f, fs, rfl⟩ := List.exists_cons_of_ne_nil hne
      have i1 := ih hr (some (.line, some (f :: fs))) hl (fun l hl => h2 l (List.mem_append_right _ hl))
      have i2 := rec_adds (gk := .line) (ls := f :: fs) (fun l hl => h2 l (List.mem_append_left _ hl))
      simp only [convertLoop, pre_none (show GK.line ≠ .listItem from by decide), bind, Except.bind, i1, i2]
      simp
  | nested => exact h.elim

/-! ## The shared indentation -/

theorem leading_blank {t r : Text} (h : r.head? ≠ some ' ') : leading (t ++ r) = leading t := by
  unfold leading
  induction t with
  | nil =>
    cases r with
    | nil => rfl
    | cons c r =>
      have : c ≠ ' ' := by simpa using h
      simp [this]
  | cons c t ih =>
    by_cases hc : c = ' '
    · simp [hc]
      simpa using ih
    · simp [hc]

/-- The first piece decides about the spaces at the start of the line. -/
theorem leading_line {s : Seg} {r : List Seg} (h : SegsValid (s :: r)) : leading (segsText (s :: r)) = match s with | .code t => leading t | _ => 0 := by
  cases s with
  | code t =>
    show leading (t ++ segsText r) = leading t
    refine leading_blank ?_
    cases r with
    | nil => simp [segsText]
    | cons s' r =>
      have := (h.2.2.1 s' rfl).1
      cases s' with
      | code t => cases this
      | ref n => simp [segsText, Seg.text]
      | left => simp [segsText, Seg.text]
      | right => simp [segsText, Seg.text]
  | ref n => simp [segsText, Seg.text, leading]
  | left => simp [segsText, Seg.text, leading]
  | right => simp [segsText, Seg.text, leading]

theorem indent_line {l : List Tok} {s : Seg} {r : List Seg} (hs : SegsValid (s :: r)) (h : raws l = lineRaw (s :: r) ++ [(.Newline, "\n".toList)]) :
    (lineOf l).indent = leading (segsText (s :: r)) ∧ isBlankSrc (lineOf l) = false := by
  rw [leading_line hs]
  obtain ⟨t, u, n, rfl, h1, h2, h3, -⟩ := line_tokens h
  have hraw : raws (t :: u) = s.raw ++ segsRaw r := h3
  have hb : ∀ ne : t.text ≠ [], isBlankSrc (lineOf (t :: u ++ [n])) = false := by
    intro ne
    show isBlankSrc ⟨t :: u ++ [n], _, _⟩ = false
    unfold isBlankSrc
    cases u with
    | nil => simp [ne]
    | cons v w =>
      cases w with
      | nil => rfl
      | cons x y => rfl
  cases s with
  | code x =>
    obtain ⟨t', u', he, k1, k2, -⟩ := raws_cons hraw
    cases he
    refine ⟨?_, hb (by rw [k2]; exact hs.2.1)⟩
    show indentOf t = leading x
    unfold indentOf
    rw [k1, k2]
    rfl
  | ref x =>
    obtain ⟨t', u', he, k1, k2, -⟩ := raws_cons hraw
    cases he
    refine ⟨?_, hb (by rw [k2]; decide)⟩
    show indentOf t = 0
    unfold indentOf
    rw [k1]
  | left =>
    obtain ⟨t', u', he, k1, k2, -⟩ := raws_cons hraw
    cases he
    refine ⟨?_, hb (by rw [k2]; decide)⟩
    show indentOf t = 0
    unfold indentOf
    rw [k1]
  | right =>
    obtain ⟨t', u', he, k1, k2, -⟩ := raws_cons hraw
    cases he
    refine ⟨?_, hb (by rw [k2]; decide)⟩
    show indentOf t = 0
    unfold indentOf
    rw [k1]

theorem blank_line {l : List Tok} (h : raws l = lineRaw [] ++ [(.Newline, "\n".toList)]) : isBlankSrc (lineOf l) = true := by
  obtain ⟨t, u, n, rfl, h1, h2, h3, -⟩ := line_tokens h
  obtain ⟨t', u', he, k1, k2, k3⟩ := raws_cons h3
  cases he
  cases raws_nil k3
  show isBlankSrc ⟨[t, n], _, _⟩ = true
  unfold isBlankSrc
  dsimp only
  rw [k2, h1]
  rfl

theorem segsText_ne {s : Seg} {r : List Seg} (h : SegsValid (s :: r)) : segsText (s :: r) ≠ [] := by
  intro he
  have : s.text = [] := by
    have : s.text ++ segsText r = [] := he
    exact (List.append_eq_nil_iff.mp this).1
  cases s with
  | code t => exact h.2.1 this
  | ref n => simp [Seg.text] at this
  | left => simp [Seg.text] at this
  | right => simp [Seg.text] at this

theorem min_indent {ls : List (List Tok)} {ss : List (List Seg)} (hv : ∀ l ∈ ss, SegsValid l)
    (h : ls.map raws = ss.map fun l => lineRaw l ++ [(.Newline, "\n".toList)]) (m i : Nat) :
    (ls.map lineOf).foldl (fun m l => if isBlankSrc l then m else min l.indent m) (min m i) = min m (shared i (ss.map segsText)) := by
  induction ls generalizing ss m with
  | nil =>
    cases ss with
    | nil => rfl
    | cons s ss => cases h
  | cons l ls ih =>
    cases ss with
    | nil => cases h
    | cons s ss =>
      rw [List.map_cons, List.map_cons] at h
      obtain ⟨h1, h2⟩ := List.cons.inj h
      have ih := ih (fun x hx => hv x (List.mem_cons_of_mem _ hx)) h2
      rw [List.map_cons, List.foldl_cons, List.map_cons]
      cases s with
      | nil =>
        rw [blank_line h1, if_pos rfl]
        exact ih m
      | cons s r =>
        obtain ⟨h3, h4⟩ := indent_line (hv _ List.mem_cons_self) h1
        rw [h4, if_neg (by decide), h3]
        obtain ⟨c, t, ht⟩ := List.exists_cons_of_ne_nil (segsText_ne (hv _ List.mem_cons_self))
        rw [ht]
        show _ = min m (min (leading (c :: t)) (shared i (ss.map segsText)))
        rw [← Nat.min_assoc, ← Nat.min_assoc, Nat.min_comm _ m]
        exact ih (min m (leading (c :: t)))

theorem shared_le (i : Nat) (ts : List Text) : shared i ts ≤ i := by
  induction ts with
  | nil => exact Nat.le_refl _
  | cons t ts ih =>
    cases t with
    | nil => exact ih
    | cons c t => exact Nat.le_trans (Nat.min_le_right _ _) ih

theorem shared_line {i : Nat} {ts : List Text} {t : Text} (h : t ∈ ts) (hne : t ≠ []) : shared i ts ≤ leading t := by
  induction ts with
  | nil => cases h
  | cons u ts ih =>
    rcases List.mem_cons.mp h with rfl | hm
    · obtain ⟨c, t, rfl⟩ := List.exists_cons_of_ne_nil hne
      exact Nat.min_le_left _ _
    · cases u with
      | nil => exact ih hm
      | cons c u => exact Nat.le_trans (Nat.min_le_right _ _) (ih hm)

theorem shift_eq {b : Block} (hb : b.Valid) {x : Toks} (h : Shape b x) {H : Line} (hi : H.indent = b.indent) :
    minIndent H (x.lines.map lineOf) = b.shift := by
  unfold minIndent Block.shift
  have := min_indent hb.lines h.lines b.indent b.indent
  rw [Nat.min_self] at this
  rw [hi, this]
  exact Nat.min_eq_right (shared_le _ _)

/-- The first piece of a line without the spaces. -/
theorem src_line {l : List Tok} {s : List Seg} {m : Nat} (hs : SegsValid s) (hm : s ≠ [] → m ≤ leading (segsText s))
    (h : raws l = lineRaw s ++ [(.Newline, "\n".toList)]) : ∃ o, srcLine m l = .ok o ∧ raws o = lineRaw (dedent m s) ++ [(.Newline, "\n".toList)] := by
  obtain ⟨t, u, n, rfl, h1, h2, h3, -⟩ := line_tokens h
  rw [List.cons_append]
  cases s with
  | nil =>
    obtain ⟨t', u', he, k1, k2, k3⟩ := raws_cons h3
    cases he
    refine ⟨t :: (u ++ [n]), by simp [srcLine, k2], h⟩
  | cons s r =>
    have hm := hm (by simp)
    rw [leading_line hs] at hm
    have hraw : raws (t :: u) = s.raw ++ segsRaw r := h3
    cases s with
    | code x =>
      obtain ⟨t', u', he, k1, k2, k3⟩ := raws_cons hraw
      cases he
      have hne : t.text.isEmpty = false := by rw [k2]; simpa using hs.2.1
      have hle : m ≤ t.text.length := by
        rw [k2]
        exact Nat.le_trans hm (List.takeWhile_sublist _).length_le
      refine ⟨{ t with text := t.text.drop m } :: (u ++ [n]), by simp only [srcLine, hne, hle]; rfl, ?_⟩
      show (t.kind, t.text.drop m) :: raws (u ++ [n]) = _
      rw [raws_append, k3, k1, k2]
      show _ = (.SrcContent, x.drop m) :: (segsRaw r ++ _)
      rw [show raws [n] = [(TK.Newline, "\n".toList)] from by simp [raws, h1, h2]]
      rfl
    | ref x =>
      cases Nat.le_zero.mp hm
      refine ⟨t :: (u ++ [n]), ?_, h⟩
      simp [srcLine]
    | left =>
      cases Nat.le_zero.mp hm
      refine ⟨t :: (u ++ [n]), ?_, h⟩
      simp [srcLine]
    | right =>
      cases Nat.le_zero.mp hm
      refine ⟨t :: (u ++ [n]), ?_, h⟩
      simp [srcLine]

theorem src_lines {ls : List (List Tok)} {ss : List (List Seg)} {m : Nat} (hv : ∀ l ∈ ss, SegsValid l) (hm : ∀ l ∈ ss, l ≠ [] → m ≤ leading (segsText l))
    (h : ls.map raws = ss.map fun l => lineRaw l ++ [(.Newline, "\n".toList)]) :
    ∃ o, srcLines m (ls.map lineOf) = .ok o ∧ raws o = linesRaw (ss.map (dedent m)) := by
  induction ls generalizing ss with
  | nil =>
    cases ss with
    | nil => exact ⟨[], rfl, rfl⟩
    | cons s ss => cases h
  | cons l ls ih =>
    cases ss with
    | nil => cases h
    | cons s ss =>
      rw [List.map_cons, List.map_cons] at h
      obtain ⟨h1, h2⟩ := List.cons.inj h
      obtain ⟨o, k1, k2⟩ := ih (fun x hx => hv x (List.mem_cons_of_mem _ hx)) (fun x hx => hm x (List.mem_cons_of_mem _ hx)) h2
      obtain ⟨o', k3, k4⟩ := src_line (hv s List.mem_cons_self) (hm s List.mem_cons_self) h1
      refine ⟨o' ++ o, ?_, ?_⟩
      · rw [List.map_cons, srcLines, k1]
        show (do let a ← srcLine m l; _) = _
        rw [k3]
        rfl
      · rw [raws_append, k2, k4]
        rfl

theorem dedent_zero (l : List Seg) : dedent 0 l = l := by
  cases l with
  | nil => rfl
  | cons s l => cases s <;> rfl

/-- The tokens of a block after the removal of the spaces. -/
def Block.groupRaw (b : Block) : Raw :=
  b.headRaw ++ ((.Newline, "\n".toList) :: (linesRaw (b.lines.map (dedent b.shift)) ++ ((.CmdSrcEnd, b.foot) :: afterRaw b.after)))

theorem block_body {b : Block} (hb : b.Valid) {x : Toks} (h : Shape b x) {H : Line} (hi : H.indent = b.indent) {gs : Groups} (h1 : Lined gs)
    (h2 : leafLines gs = .ok (x.lines.map lineOf)) (h3 : isSrc gs = firstSrc (x.lines.map lineOf)) :
    ∃ o, (if isSrc gs then srcBody H gs else convertLoop gs none []) = .ok o ∧ raws o = linesRaw (b.lines.map (dedent b.shift)) := by
  have hsl : ∀ l ∈ b.lines, l ≠ [] → b.shift ≤ leading (segsText l) := by
    intro l hl hne
    obtain ⟨s, r, rfl⟩ := List.exists_cons_of_ne_nil hne
    exact shared_line (List.mem_map_of_mem hl) (segsText_ne (hb.lines _ hl))
  obtain ⟨o, k1, k2⟩ := src_lines hb.lines hsl h.lines
  by_cases hs : isSrc gs = true
  · refine ⟨o, ?_, k2⟩
    rw [if_pos hs]
    unfold srcBody
    rw [h2]
    show srcLines (minIndent H (x.lines.map lineOf)) (x.lines.map lineOf) = _
    rw [shift_eq hb h hi, k1]
  · have hkinds : ∀ l ∈ x.lines.map lineOf, ∀ t ∈ l.tokens, t.kind ∉ [TK.LeadingPlus, .LeadingNumber, .LeadingMinus, .TreeClock, .Minus] := by
      intro l hl t ht
      obtain ⟨l, hl', rfl⟩ := List.mem_map.mp hl
      have hmem : raws l ∈ x.lines.map raws := List.mem_map_of_mem hl'
      rw [h.lines] at hmem
      obtain ⟨s, hs, he⟩ := List.mem_map.mp hmem
      have ht' := raws_mem (ts := l) ht
      rw [← he] at ht'
      rcases List.mem_append.mp ht' with ht' | ht'
      · have := line_kinds s _ ht'
        dsimp only at this
        revert this
        generalize t.kind = k
        revert k
        decide
      · have := congrArg Prod.fst (List.mem_singleton.mp ht')
        dsimp only at this
        rw [this]
        decide
    refine ⟨(x.lines.map lineOf |>.map Line.tokens).flatten, ?_, ?_⟩
    · rw [if_neg hs]
      exact lined_tokens h1 none h2 hkinds
    · have hz : b.lines = [] ∨ b.shift = 0 := by
        cases hl : b.lines with
        | nil => exact .inl rfl
        | cons s ss =>
          right
          have hsh := h.lines
          rw [hl] at hsh
          obtain ⟨l, ls, hx, he, -⟩ := List.map_eq_cons_iff.mp hsh
          rw [h3, hx] at hs
          obtain ⟨t, u, n, rfl, -, -, hraw, -⟩ := line_tokens he
          have hk : t.kind ≠ .SrcContent := by
            intro hk
            apply hs
            simp [firstSrc, lineOf, hk]
          cases s with
          | nil =>
            obtain ⟨t', u', he, k1, -⟩ := raws_cons hraw
            cases he
            exact absurd k1 hk
          | cons s r =>
            have hv := hb.lines (s :: r) (by rw [hl]; exact List.mem_cons_self)
            have hle := hsl (s :: r) (by rw [hl]; exact List.mem_cons_self) (by simp)
            rw [leading_line hv] at hle
            cases s with
            | code y =>
              obtain ⟨t', u', he, k1, -⟩ := raws_cons (show raws (t :: u) = (.SrcContent, y) :: segsRaw r from hraw)
              cases he
              exact absurd k1 hk
            | ref y => exact Nat.le_zero.mp hle
            | left => exact Nat.le_zero.mp hle
            | right => exact Nat.le_zero.mp hle
      have hded : b.lines.map (dedent b.shift) = b.lines := by
        rcases hz with hz | hz
        · rw [hz]; rfl
        · rw [hz]
          conv_rhs => rw [← List.map_id b.lines]
          exact List.map_congr_left fun l _ => dedent_zero l
      rw [hded]
      have : (x.lines.map lineOf).map Line.tokens = x.lines := by
        rw [List.map_map]
        exact List.map_id x.lines
      rw [this]
      unfold raws linesRaw
      rw [List.map_flatten]
      exact congrArg List.flatten h.lines

theorem head_calm {b : Block} (hb : b.Valid) {H : List Tok} (h : raws H = b.headRaw ++ [(.Newline, "\n".toList)]) :
    ∀ t ∈ H, t.kind ∉ [TK.LeadingPlus, .LeadingNumber, .LeadingMinus, .TreeClock, .Minus] := by
  intro t ht
  have hm := raws_mem ht
  rw [h] at hm
  have : t.kind ∈ [TK.LeadingSpace, .LineCommand, .CmdSrcBegin, .Newline, .Whitespace, .CmdRawArg, .CmdColonIdent] := by
    unfold Block.headRaw at hm
    rcases List.mem_append.mp hm with hm | hm
    · rcases List.mem_append.mp hm with hm | hm
      · split at hm
        · cases hm
        · have := congrArg Prod.fst (List.mem_singleton.mp hm)
          dsimp only at this
          rw [this]; decide
      · rcases List.mem_append.mp hm with hm | hm
        · simp only [List.mem_cons, List.not_mem_nil, or_false, Prod.mk.injEq] at hm
          rcases hm with hm | hm <;> rw [hm.1] <;> decide
        · have := words_kinds (words_ok hb) b.gap _ hm
          dsimp only at this
          revert this
          generalize t.kind = k
          revert k
          decide
    · have := congrArg Prod.fst (List.mem_singleton.mp hm)
      dsimp only at this
      rw [this]; decide
  revert this
  generalize t.kind = k
  revert k
  decide

theorem foot_calm {b : Block} {F : List Tok} (h : raws F = (.CmdSrcEnd, b.foot) :: afterRaw b.after) :
    ∀ t ∈ F, t.kind ∉ [TK.LeadingPlus, .LeadingNumber, .LeadingMinus, .TreeClock, .Minus] := by
  intro t ht
  have hm := raws_mem ht
  rw [h] at hm
  rcases List.mem_cons.mp hm with hm | hm
  · have := congrArg Prod.fst hm
    dsimp only at this
    rw [this]; decide
  · have hk : t.kind ∈ [TK.Newline, .MediumNewline, .LongNewline] := by
      cases ha : b.after with
      | zero => rw [ha] at hm; cases hm
      | succ n =>
        rw [ha] at hm
        have := congrArg Prod.fst (List.mem_singleton.mp hm)
        dsimp only at this
        rw [this]
        match n with
        | 0 => decide
        | 1 => decide
        | n + 2 => simp [breakKind]
    revert hk
    generalize t.kind = k
    revert k
    decide

theorem doc_groups {d : List Block} {xs : List Toks} (hd : DocValid d) (h : List.Forall₂ Shape d xs) : ∀ fuel,
    2 * (((xs.zip d).map fun p => p.1.tokLines p.2).flatten).length + 2 ≤ fuel →
    ∃ gs, toGroups fuel ((xs.zip d).map fun p => p.1.tokLines p.2).flatten = .ok gs ∧
      ∀ prev, ∃ o, convertLoop gs prev [] = .ok o ∧ raws o = (d.map Block.groupRaw).flatten := by
  induction h with
  | nil =>
    intro fuel hf
    obtain ⟨f, rfl⟩ : ∃ f, fuel = f + 1 := ⟨fuel - 1, by omega⟩
    exact ⟨.nil, rfl, fun prev => ⟨[], rfl, rfl⟩⟩
  | @cons b x d xs h1 h2 ih =>
    obtain ⟨hb, -, hd⟩ := hd
    intro fuel hf
    rw [List.zip_cons_cons, List.map_cons, List.flatten_cons] at hf ⊢
    generalize hR : ((xs.zip d).map fun p => p.1.tokLines p.2).flatten = R at hf ih ⊢
    dsimp only at hf ⊢
    unfold Toks.tokLines at hf ⊢
    simp only [List.length_append, List.length_cons, List.length_nil, List.length_map] at hf
    obtain ⟨f, rfl⟩ : ∃ f, fuel = f + 2 := ⟨fuel - 2, by omega⟩
    obtain ⟨gs, g1, g2⟩ := ih hd (f + 1) (by omega)
    obtain ⟨sub, s1, s2, s3, s4⟩ := block_lines x.lines.length (x.lines.map lineOf) (by simp) (fun l hl => by
      obtain ⟨l', -, rfl⟩ := List.mem_map.mp hl; rfl) ⟨x.foot, 0, .blockClose⟩ R rfl f (by omega)
    refine ⟨.nested .block ⟨x.head, b.indent, .blockOpen⟩ ⟨x.foot, 0, .blockClose⟩ sub gs, ?_, fun prev => ?_⟩
    · have hr : recGroup (f + 1) (⟨x.head, b.indent, .blockOpen⟩ :: (x.lines.map lineOf ++ [⟨x.foot, 0, .blockClose⟩]) ++ R) =
          .ok (.nested .block ⟨x.head, b.indent, .blockOpen⟩ ⟨x.foot, 0, .blockClose⟩ sub .nil, R) := by
        rw [List.cons_append, List.append_assoc, List.singleton_append]
        simp only [recGroup, s1, bind, Except.bind]
      rw [List.cons_append] at hr ⊢
      simp only [toGroups, hr, bind, Except.bind]
      rw [if_neg (by simp; omega), g1]
      rfl
    · obtain ⟨o, o1, o2⟩ := block_body hb h1 (H := ⟨x.head, b.indent, .blockOpen⟩) rfl s3 s2 s4
      obtain ⟨q, q1, q2⟩ := g2 (some (.block, none))
      refine ⟨x.head ++ o ++ x.foot ++ q, ?_, ?_⟩
      · simp only [convertLoop, pre_none (show GK.block ≠ .listItem from by decide), rec_add (head_calm hb h1.head), rec_add (foot_calm h1.foot), bind, Except.bind, q1]
        rw [o1]
        rfl
      · rw [raws_append, raws_append, raws_append, h1.head, o2, h1.foot, q2]
        simp [Block.groupRaw]

/-! ## Tokens of the parser -/

/-- The tokens which are read by the parser. -/
def Block.fin (b : Block) : Raw :=
  (if b.indent = 0 then [] else [(.LeadingSpace, blanks b.indent)]) ++ ([(.CmdPrefix, "#+".toList), (.CmdSrcBegin, beginWord b.upper)] ++
    ((wordsRaw b.words ++ gapRaw b.gap) ++ ((.CmdContentBegin, []) :: (linesRaw (b.lines.map (dedent b.shift)) ++
      ((.CmdPrefix, []) :: (.CmdSrcEnd, b.foot) :: afterRaw b.after)))))

def docFin (d : List Block) : Raw := (d.map Block.fin).flatten

/-- The tokens are changed to those of `out`. -/
def Conv (ts : List Tok) (out : Raw) : Prop := ∀ n prev, ts.length ≤ n → ∃ o, Recombine.loop (n + 1) ⟨prev, ts⟩ = .ok o ∧ raws o = out

theorem conv_nil : Conv [] [] := fun n prev _ => ⟨[], by simp [Recombine.loop], rfl⟩

theorem conv_step {t : Tok} {ts : List Tok} {os : List Tok} {out : Raw} (hk : t.kind ≠ .LineCommand ∧ t.kind ≠ .CmdRawArg)
    (ho : ∀ prev next, Recombine.mapOne prev t next = .ok os) (h : Conv ts out) : Conv (t :: ts) (raws os ++ out) := by
  intro n prev hn
  obtain ⟨m, rfl⟩ : ∃ m, n = m + 1 := ⟨n - 1, by simp at hn; omega⟩
  obtain ⟨o, h1, h2⟩ := h m (some t) (by simpa using hn)
  refine ⟨os ++ o, ?_, by rw [raws_append, h2]⟩
  rw [Recombine.loop]
  simp only [List.isEmpty_cons, Bool.false_eq_true, if_false]
  have hm : Recombine.mapTok ((t :: ts).length + 1) ⟨prev, t :: ts⟩ = .ok (os, ⟨some t, ts⟩) := by
    rw [Recombine.mapTok]
    dsimp only
    rw [if_neg hk.1, if_neg hk.2, ho]
  rw [hm]
  simp only [List.length_cons]
  rw [if_neg (by omega), h1]

def stillKinds : List TK := [.SrcContent, .DoubleAngleBegin, .DoubleAngleEnd, .Newline, .MediumNewline, .LongNewline, .LeadingSpace]

theorem conv_still {u ts : List Tok} {out : Raw} (hk : ∀ t ∈ u, t.kind ∈ stillKinds) (h : Conv ts out) : Conv (u ++ ts) (raws u ++ out) := by
  induction u with
  | nil => exact h
  | cons t u ih =>
    have ht := hk t List.mem_cons_self
    have ih := ih (fun x hx => hk x (List.mem_cons_of_mem _ hx))
    refine conv_step (os := [t]) ?_ (fun prev next => ?_) ih
    · revert ht
      generalize t.kind = k
      revert k
      decide
    · unfold Recombine.mapOne
      simp only [stillKinds, List.mem_cons, List.not_mem_nil, or_false] at ht
      rcases ht with h | h | h | h | h | h | h <;> rw [h] <;> rfl

theorem conv_close {e : Tok} {ts : List Tok} {out : Raw} {x : Text} (hk : e.kind = .CmdSrcEnd) (hx : e.text = x) (h : Conv ts out) :
    Conv (e :: ts) ((.CmdPrefix, []) :: (.CmdSrcEnd, x) :: out) := by
  have := conv_step (os := [⟨.CmdPrefix, [], e.loc⟩, e]) (by rw [hk]; decide) (fun prev next => by unfold Recombine.mapOne; rw [hk]) h
  simp only [raws, List.map_cons, List.map_nil, hk, hx] at this
  exact this

theorem conv_open {c m n : Tok} {as ts : List Tok} {out : Raw} (hc : c.kind = .LineCommand) (hm : m.kind = .CmdSrcBegin) (hn : n.kind = .Newline)
    (has : ∀ x ∈ as, x.kind ∈ [TK.Whitespace, .CmdRawArg, .CmdColonIdent]) (h : Conv ts out) :
    Conv (c :: m :: (as ++ n :: ts)) ((.CmdPrefix, c.text) :: (.CmdSrcBegin, m.text) :: (raws as ++ ((.CmdContentBegin, []) :: out))) := by
  intro k prev hk
  obtain ⟨j, rfl⟩ : ∃ j, k = j + 1 := ⟨k - 1, by simp at hk; omega⟩
  obtain ⟨o, h1, h2⟩ := h j (some n) (by simp at hk; omega)
  refine ⟨({ c with kind := .CmdPrefix } :: m :: (as ++ [.fake .CmdContentBegin])) ++ o, ?_, ?_⟩
  · rw [Recombine.loop]
    simp only [List.isEmpty_cons, Bool.false_eq_true, if_false]
    have hargs : (as ++ n :: ts).takeWhile (fun t : Tok => !decide (t.kind ∈ lineEnd)) = as ∧
        (as ++ n :: ts).dropWhile (fun t : Tok => !decide (t.kind ∈ lineEnd)) = n :: ts := by
      obtain ⟨t1, t2⟩ := takeWhile_stop (fun t : Tok => !decide (t.kind ∈ lineEnd)) as (e := n) ts (by rw [hn]; decide)
      rw [t1, t2]
      have hall : ∀ x ∈ as, (!decide (x.kind ∈ lineEnd)) = true := by
        intro x hx
        have := has x hx
        revert this
        generalize x.kind = k
        revert k
        decide
      rw [List.takeWhile_eq_self_iff.mpr hall, List.dropWhile_eq_nil_iff.mpr hall]
      exact ⟨rfl, rfl⟩
    have hmap : Recombine.mapTok ((c :: m :: (as ++ n :: ts)).length + 1) ⟨prev, c :: m :: (as ++ n :: ts)⟩ =
        .ok ({ c with kind := .CmdPrefix } :: m :: (as ++ [.fake .CmdContentBegin]), ⟨some n, ts⟩) := by
      rw [Recombine.mapTok]
      dsimp only
      rw [if_pos hc]
      unfold Recombine.lineCommand Recombine.commandName Recombine.commandRest Recombine.commandArgs
      simp only [hm, hargs.1, hargs.2, bind, Except.bind]
      unfold Recombine.skipLineEnd
      dsimp only
      rw [if_pos (by rw [hn]; decide)]
    rw [hmap]
    dsimp only
    rw [if_neg (by simp; omega), h1]
  · simp only [raws, List.map_cons, List.map_append, List.map_nil, hm] at h2 ⊢
    rw [h2]
    simp [Tok.fake]

theorem conv_block {b : Block} (hb : b.Valid) {ts : List Tok} {r : List Tok} {out : Raw} (h : raws ts = b.groupRaw) (hr : Conv r out) :
    Conv (ts ++ r) (b.fin ++ out) := by
  have e : b.groupRaw = (b.headRaw ++ [(.Newline, "\n".toList)]) ++ (linesRaw (b.lines.map (dedent b.shift)) ++ ((.CmdSrcEnd, b.foot) :: afterRaw b.after)) := by
    simp [Block.groupRaw]
  rw [e] at h
  obtain ⟨H, R, rfl, h1, h2⟩ := raws_split h
  obtain ⟨L, F, rfl, h3, h4⟩ := raws_split h2
  obtain ⟨f, A, rfl, h5, h6, h7⟩ := raws_cons h4
  have cA : Conv (A ++ r) (afterRaw b.after ++ out) := by
    rw [← h7]
    refine conv_still (fun t ht => ?_) hr
    have := raws_mem ht
    rw [h7] at this
    cases ha : b.after with
    | zero => rw [ha] at this; cases this
    | succ n =>
      rw [ha] at this
      have := congrArg Prod.fst (List.mem_singleton.mp this)
      dsimp only at this
      rw [this]
      match n with
      | 0 => decide
      | 1 => decide
      | n + 2 => simp [breakKind, stillKinds]
  have cF := conv_close h5 h6 cA
  have cL : Conv (L ++ (f :: (A ++ r))) (linesRaw (b.lines.map (dedent b.shift)) ++ ((.CmdPrefix, []) :: (.CmdSrcEnd, b.foot) :: (afterRaw b.after ++ out))) := by
    rw [← h3]
    refine conv_still (fun t ht => ?_) cF
    have := raws_mem ht
    rw [h3] at this
    obtain ⟨y, hy, hx⟩ := List.mem_flatten.mp this
    obtain ⟨l, -, rfl⟩ := List.mem_map.mp hy
    rcases List.mem_append.mp hx with hx | hx
    · have := line_kinds l _ hx
      dsimp only at this
      revert this
      generalize t.kind = k
      revert k
      decide
    · have := congrArg Prod.fst (List.mem_singleton.mp hx)
      dsimp only at this
      rw [this]; decide
  obtain ⟨c, m, as, n, hH, hs, k1, k2, k3, k4, k5, k6, k7, -⟩ := head_tokens hb h1
  have cH := conv_open k1 k3 k7 k6 cL
  rw [k2, k4, k5] at cH
  by_cases hi : b.indent = 0
  · rw [if_pos hi, List.nil_append] at hH
    subst hH
    have e1 : b.fin ++ out = (.CmdPrefix, "#+".toList) :: (.CmdSrcBegin, beginWord b.upper) :: ((wordsRaw b.words ++ gapRaw b.gap) ++ ((.CmdContentBegin, []) ::
        (linesRaw (b.lines.map (dedent b.shift)) ++ ((.CmdPrefix, []) :: (.CmdSrcEnd, b.foot) :: (afterRaw b.after ++ out))))) := by
      unfold Block.fin
      rw [if_pos hi]
      simp
    rw [e1]
    simpa using cH
  · obtain ⟨s, hs1, hs2, hs3⟩ := hs hi
    rw [if_neg hi, hs1, Option.getD_some] at hH
    subst hH
    have := conv_still (u := [s]) (fun t ht => by rw [List.mem_singleton.mp ht, hs2]; decide) cH
    have e1 : b.fin ++ out = raws [s] ++ ((.CmdPrefix, "#+".toList) :: (.CmdSrcBegin, beginWord b.upper) :: ((wordsRaw b.words ++ gapRaw b.gap) ++ ((.CmdContentBegin, []) ::
        (linesRaw (b.lines.map (dedent b.shift)) ++ ((.CmdPrefix, []) :: (.CmdSrcEnd, b.foot) :: (afterRaw b.after ++ out)))))) := by
      unfold Block.fin
      rw [if_neg hi]
      simp [raws, hs2, hs3]
    rw [e1]
    simpa using this

theorem conv_doc {d : List Block} (hd : DocValid d) {ts : List Tok} (h : raws ts = (d.map Block.groupRaw).flatten) : Conv ts (docFin d) := by
  induction d generalizing ts with
  | nil => cases raws_nil h; exact conv_nil
  | cons b d ih =>
    obtain ⟨u, v, rfl, h1, h2⟩ := raws_split (a := b.groupRaw) (b := (d.map Block.groupRaw).flatten) h
    exact conv_block hd.1 h1 (ih hd.2.2 h2)

/-- The tokens of a document. -/
theorem doc_tokens {d : List Block} (h : DocValid d) : ∃ toks, Pipeline.tokens BaseLexer.stdLex (render d) = .ok toks ∧ raws toks = docFin d := by
  obtain ⟨xs, hx, hs⟩ := split_doc (d := d) (raws_placed (docRaw d) 0)
  have h1 := doc_lines h hs
  obtain ⟨gs, g1, g2⟩ := doc_groups h hs _ (Nat.le_refl _)
  obtain ⟨o, o1, o2⟩ := g2 none
  obtain ⟨q, q1, q2⟩ := conv_doc h o2 o.length none (Nat.le_refl _)
  refine ⟨q, ?_, q2⟩
  unfold Pipeline.tokens
  rw [doc_lexed h]
  dsimp only
  unfold Recombine.convert regroup
  rw [hx, h1]
  simp only [bind, Except.bind, g1]
  rw [show convertGroups gs = .ok o from o1]
  dsimp only
  unfold Recombine.recombine
  rw [q1]

end Verif.Code
