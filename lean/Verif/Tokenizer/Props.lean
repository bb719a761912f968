import Verif.Tokenizer.ConvertLemmas

/-!
# Properties of the tokenizer front end (C18, C19, C20, C41)
-/

namespace Verif.Tokenizer
open Verif.Token

/-! ## C18 – line splitting -/

/-- Splitting into lines keeps every token exactly once and in order, no line is
empty, and every line except possibly the last ends at its only end-of-line
token; the last one may have none at all. -/
theorem lines_keep_tokens (ts : List Tok) (ls : List Line) (h : toLines ts = .ok ls) :
    (ls.map Line.tokens).flatten = ts ∧ (∀ l ∈ ls, l.tokens ≠ []) ∧
    ∃ full rest, ls = full ++ rest ∧
      (∀ l ∈ full, ∃ init last, l.tokens = init ++ [last] ∧
        (∀ t ∈ init, t.kind ∉ lineEnd) ∧ last.kind ∈ lineEnd) ∧
      (rest = [] ∨ ∃ l, rest = [l] ∧ ∀ t ∈ l.tokens, t.kind ∉ lineEnd) := by
  obtain ⟨h1, full, rest, h2, h3, h4⟩ := toLinesLoop_spec ts [] ls (by simp) h
  refine ⟨by simpa [lineTokens] using h1, ?_, full, rest, h2, h3, ?_⟩
  · intro l hl
    exact (toLinesLoop_groupable ts [] ls h l hl).1
  · rcases h4 with h4 | ⟨l, h5, _, h6⟩
    · exact .inl h4
    · exact .inr ⟨l, h5, h6⟩

theorem whichBlockLineKind_some {k : TK}
    (h : k ∈ cmdBlockLine ∨ k ∈ cmdBlockOpen ∨ k ∈ cmdBlockClose) :
    ∃ lk, whichBlockLineKind k = some lk := by
  unfold whichBlockLineKind
  split
  · exact ⟨_, rfl⟩
  · split
    · exact ⟨_, rfl⟩
    · split
      · exact ⟨_, rfl⟩
      · exact absurd h (by simp_all)

theorem setLineCommandKind_total {ts : List Tok} {n : Nat} (hc : CommandsKnown ts) {t : Tok}
    (ht : ts[n]? = some t) (hk : t.kind = .LineCommand) : ∃ lk, setLineCommandKind ts n = .ok lk := by
  obtain ⟨hn, ht'⟩ := List.getElem?_eq_some_iff.1 ht
  obtain ⟨nx, post', hp, hkn⟩ := hc (ts.take n) t (ts.drop (n + 1))
    (by rw [← ht', ← List.drop_eq_getElem_cons hn, List.take_append_drop]) hk
  have hnx : ts[n + 1]? = some nx := by
    have := congrArg (fun l => l[0]?) hp
    simpa [List.getElem?_drop] using this
  obtain ⟨lk, hlk⟩ := whichBlockLineKind_some hkn
  exact ⟨lk, by simp [setLineCommandKind, ht, hk, hnx, hlk]⟩

theorem mkLine_total {ts : List Tok} (hc : CommandsKnown ts) : ∃ l, mkLine ts = .ok l := by
  cases ts with
  | nil => exact ⟨_, rfl⟩
  | cons t ts =>
    have : ∃ lk, lineKindOf (t :: ts) t = .ok lk := by
      unfold lineKindOf
      split
      · unfold setLeadingSpaceKind
        split
        · exact ⟨_, rfl⟩
        · rename_i nx hnx
          split
          · exact ⟨_, rfl⟩
          · split
            · split <;> exact ⟨_, rfl⟩
            · exact ⟨_, rfl⟩
          · exact ⟨_, rfl⟩
          · exact ⟨_, rfl⟩
          · exact ⟨_, rfl⟩
          · exact ⟨_, rfl⟩
          · rename_i hk; exact setLineCommandKind_total hc hnx hk
          · split <;> exact ⟨_, rfl⟩
      · split
        · split <;> exact ⟨_, rfl⟩
        · exact ⟨_, rfl⟩
      · exact ⟨_, rfl⟩
      · exact ⟨_, rfl⟩
      · exact ⟨_, rfl⟩
      · rename_i hk; exact setLineCommandKind_total hc (by simp) hk
      · exact ⟨_, rfl⟩
      · split <;> exact ⟨_, rfl⟩
    obtain ⟨lk, hlk⟩ := this
    exact ⟨⟨t :: ts, indentOf t, lk⟩, by simp [mkLine, bind, Except.bind, hlk]⟩

/-- Line splitting returns normally whenever every command marker is followed by
a known command. -/
theorem lines_total (ts : List Tok) (hc : CommandsKnown ts) : ∃ ls, toLines ts = .ok ls := by
  suffices H : ∀ (ts cur : List Tok), CommandsKnown (cur ++ ts) → ∃ ls, toLinesLoop cur ts = .ok ls from
    H ts [] hc
  intro ts
  induction ts with
  | nil =>
    intro cur hc
    rw [List.append_nil] at hc
    obtain ⟨l, hl⟩ := mkLine_total hc
    simp only [toLinesLoop]
    split
    · exact ⟨_, rfl⟩
    · exact ⟨[l], by simp [bind, Except.bind, hl]⟩
  | cons t ts ih =>
    intro cur hc
    simp only [toLinesLoop]
    split
    · rename_i hk
      have h1 : CommandsKnown (cur ++ [t]) := by
        intro pre c post he hck
        obtain ⟨n, post', hp, hn⟩ := hc pre c (post ++ ts) (by
          have := congrArg (· ++ ts) he; simpa using this) hck
        cases post with
        | nil =>
          exfalso
          have : t = c := by
            have := congrArg List.getLast? he
            simpa using this
          subst this
          rw [hck] at hk
          simp [lineEnd] at hk
        | cons a b =>
          simp only [List.cons_append] at hp
          cases hp
          exact ⟨_, _, rfl, hn⟩
      have h2 : CommandsKnown ([] ++ ts) := by
        intro pre c post he hck
        exact hc (cur ++ t :: pre) c post (by simp at he; simp [he]) hck
      obtain ⟨l, hl⟩ := mkLine_total h1
      obtain ⟨ls, hls⟩ := ih [] h2
      exact ⟨l :: ls, by simp [bind, Except.bind, hl, hls]⟩
    · exact ih _ (by simpa using hc)

/-- A small document: a heading line, a list item and an unfinished last line. -/
def sampleTokens : List Tok :=
  [⟨.Word, ['t'], some 0⟩, ⟨.Newline, ['\n'], some 1⟩,
   ⟨.LeadingMinus, [' ', ' ', '-'], some 2⟩, ⟨.Whitespace, [' '], some 5⟩, ⟨.Word, ['a'], some 6⟩,
   ⟨.Newline, ['\n'], some 7⟩,
   ⟨.LeadingMinus, ['-'], some 8⟩, ⟨.Whitespace, [' '], some 9⟩, ⟨.Word, ['b'], some 10⟩]

example : ∃ ls, toLines sampleTokens = .ok ls ∧ ls.length = 3 := ⟨_, rfl, rfl⟩

/-! ## C19 – grouping of lines -/

/-- Grouping the lines of any token stream terminates without error, and the
lines of the groups read in order are exactly the input lines.  Blocks match like
brackets: a block is closed by the first closing line that belongs to no nested
block, and a block without closing line extends to the end of the document. -/
theorem groups_keep_lines (ts : List Tok) (ls : List Line) (h : toLines ts = .ok ls) :
    ∃ gs, toGroups (2 * ls.length + 2) ls = .ok gs ∧ gs.lines = ls ∧ gs.Matched false true :=
  toGroups_spec _ _ (toLinesLoop_groupable ts [] ls h) (by omega)

/-- The same for any lines, however they were obtained, that are not empty and
have one of the kinds the line splitter assigns; and with any larger bound on the
number of steps. -/
theorem groups_keep_any_lines (ls : List Line) (fuel : Nat) (hf : 2 * ls.length + 1 ≤ fuel)
    (hg : ∀ l ∈ ls, l.tokens ≠ [] ∧ l.kind ≠ .none ∧ l.kind ≠ .subtree) :
    ∃ gs, toGroups fuel ls = .ok gs ∧ gs.lines = ls ∧ gs.Matched false true :=
  toGroups_spec _ _ hg hf

/-- An unterminated block inside a block. -/
def sampleLines : List Line :=
  [⟨[⟨.LineCommand, ['#', '+'], some 0⟩], 0, .blockOpen⟩, ⟨[⟨.Word, ['a'], some 2⟩], 0, .line⟩,
   ⟨[⟨.LineCommand, ['#', '+'], some 3⟩], 0, .blockOpen⟩, ⟨[⟨.Word, ['b'], some 5⟩], 2, .listItem⟩,
   ⟨[⟨.CmdQuoteEnd, ['e'], some 6⟩], 0, .blockClose⟩, ⟨[⟨.Word, ['c'], some 7⟩], 0, .line⟩]

example : ∃ gs, toGroups 14 sampleLines = .ok gs ∧ gs.lines = sampleLines ∧ gs.Matched false true :=
  groups_keep_any_lines sampleLines 14 (by decide) (by simp [sampleLines])

/-! ## C20 – indentation tokens -/

/-- In the token stream produced from any list of groups every `Dedent` has an
earlier matching `Indent` and the stream ends at depth zero; deleting the made-up
tokens leaves the original tokens in order, except that tokens of source blocks may
have lost a prefix of their text (see `source_block_dedent`). -/
theorem indentation_balanced (gs : Groups) (out : List Tok)
    (hreal : ∀ t ∈ lineTokens gs.lines, t.Real) (h : convertGroups gs = .ok out) :
    indentWalk 0 out = some 0 ∧
    List.Forall₂ Tok.DropsPrefix (lineTokens gs.lines) (out.filter (fun t => !t.isFake)) := by
  obtain ⟨h1, h2⟩ := convertLoop_spec gs none [] out hreal h
  exact ⟨by simpa using h1 0, h2⟩

/-- The whole first half of the tokenizer: from base tokens to tokens with
indentation. -/
theorem regroup_balanced (ts out : List Tok) (hreal : ∀ t ∈ ts, t.Real) (h : regroup ts = .ok out) :
    indentWalk 0 out = some 0 ∧
    List.Forall₂ Tok.DropsPrefix ts (out.filter (fun t => !t.isFake)) := by
  simp only [regroup, bind, Except.bind] at h
  split at h
  · cases h
  · rename_i ls hls
    obtain ⟨gs, hg, hl, _⟩ := groups_keep_lines ts ls hls
    rw [hg] at h
    have ht : lineTokens gs.lines = ts := by rw [hl]; exact (lines_keep_tokens ts ls hls).1
    have := indentation_balanced gs out (by rw [ht]; exact hreal) h
    rwa [ht] at this

example : (∀ t ∈ sampleTokens, t.Real) ∧ ∃ out, regroup sampleTokens = .ok out ∧
    out.map (·.kind) = [.Word, .Newline, .Indent, .LeadingMinus, .Whitespace, .Word, .Newline, .Dedent,
      .LeadingMinus, .Whitespace, .Word] := by
  refine ⟨?_, _, rfl, rfl⟩
  simp [sampleTokens, Tok.Real, Tok.isFake]

/-! ### Source blocks lose exactly their common indentation -/

/-- Kinds with which a content line of a source or example block starts. -/
def srcStart : List TK := [.SrcContent, .CmdExampleLine, .DoubleAngleBegin, .DoubleAngleEnd]

theorem foldl_min_le (ls : List Line) : ∀ (a : Nat),
    ls.foldl (fun m l => if isBlankSrc l then m else min l.indent m) a ≤ a ∧
    (∀ l ∈ ls, isBlankSrc l = false →
      ls.foldl (fun m l => if isBlankSrc l then m else min l.indent m) a ≤ l.indent) ∧
    (ls.foldl (fun m l => if isBlankSrc l then m else min l.indent m) a = a ∨
      ∃ l ∈ ls, isBlankSrc l = false ∧
        ls.foldl (fun m l => if isBlankSrc l then m else min l.indent m) a = l.indent) := by
  induction ls with
  | nil => intro a; simp
  | cons l ls ih =>
    intro a
    simp only [List.foldl_cons]
    obtain ⟨h1, h2, h3⟩ := ih (if isBlankSrc l then a else min l.indent a)
    refine ⟨?_, ?_, ?_⟩
    · refine Nat.le_trans h1 ?_
      split <;> omega
    · intro x hx hb
      rcases List.mem_cons.1 hx with rfl | hx
      · refine Nat.le_trans h1 ?_
        rw [hb]; simp; omega
      · exact h2 x hx hb
    · rcases h3 with h3 | ⟨x, hx, hb, h3⟩
      · by_cases hb : isBlankSrc l = true
        · left; rw [h3, if_pos hb]
        · have hb' : isBlankSrc l = false := by simpa using hb
          rw [h3]
          simp only [hb', Bool.false_eq_true, if_false]
          by_cases hle : l.indent ≤ a
          · right; exact ⟨l, by simp, hb', by omega⟩
          · left; omega
      · right; exact ⟨x, by simp [hx], hb, h3⟩

theorem takeWhile_spaces (t : List Char) (m : Nat) (h : m ≤ (t.takeWhile (· = ' ')).length) :
    t = List.replicate m ' ' ++ t.drop m := by
  induction t generalizing m with
  | nil => simp at h; subst h; rfl
  | cons c t ih =>
    cases m with
    | zero => simp
    | succ m =>
      by_cases hc : c = ' '
      · subst hc
        rw [List.takeWhile_cons_of_pos (by simp)] at h
        simp only [List.length_cons, Nat.add_le_add_iff_right] at h
        have := ih m h
        rw [List.replicate_succ, List.drop_succ_cons, List.cons_append, ← this]
      · rw [List.takeWhile_cons_of_neg (by simpa using hc)] at h
        simp at h

/-- The content lines of a source block come out with the same number of leading
spaces removed everywhere; that number is the smallest indentation occurring among
the opening line and the non-blank content lines; only spaces are removed. -/
theorem source_block_dedent (b : Line) (sub : Groups) (lines : List Line)
    (hleaf : leafLines sub = .ok lines)
    (hmk : ∀ l ∈ lines, ∃ t ts, mkLine (t :: ts) = .ok l ∧ t.kind ∈ srcStart) :
    ∃ m, srcBody b sub = .ok ((lines.map (fun l => stripFirst m l.tokens)).flatten) ∧
      m ≤ b.indent ∧
      (∀ l ∈ lines, ∀ t ts, l.tokens = t :: ts → t.text ≠ [] →
        t.text = List.replicate m ' ' ++ t.text.drop m) ∧
      (m = b.indent ∨ ∃ l ∈ lines, isBlankSrc l = false ∧ m = l.indent) := by
  have hfold := foldl_min_le lines b.indent
  have hsp : ∀ l ∈ lines, ∀ t ts, l.tokens = t :: ts → t.text ≠ [] →
      minIndent b lines ≤ (t.text.takeWhile (· = ' ')).length := by
    intro l hl t ts htok hne
    obtain ⟨t', ts', hm, hk⟩ := hmk l hl
    have htoks := mkLine_tokens hm
    rw [htok] at htoks
    cases htoks
    have hind : l.indent = indentOf t := by
      simp only [mkLine, bind, Except.bind] at hm
      split at hm
      · cases hm
      · cases hm; rfl
    have hb : isBlankSrc l = false := by
      unfold isBlankSrc
      rw [htok]
      split
      · rename_i h; cases h; simp [hne]
      · rename_i h; cases h
        simp only [decide_eq_false_iff_not]
        intro hle
        simp [lineEnd] at hle
        simp [srcStart] at hk
        rcases hk with hk | hk | hk | hk <;> simp [hk] at hle
      · rename_i h; cases h
      · rfl
    have h2 := hfold.2.1 l hl hb
    have : indentOf t ≤ (t.text.takeWhile (· = ' ')).length := by
      simp [srcStart] at hk
      rcases hk with hk | hk | hk | hk <;> simp [indentOf, hk]
    unfold minIndent
    omega
  refine ⟨minIndent b lines, ?_, hfold.1, ?_, ?_⟩
  · simp only [srcBody, hleaf, bind, Except.bind]
    suffices H : ∀ ls : List Line, (∀ l ∈ ls, l ∈ lines) →
        srcLines (minIndent b lines) ls
          = .ok ((ls.map (fun l => stripFirst (minIndent b lines) l.tokens)).flatten) from
      H lines (fun _ h => h)
    intro ls hls
    induction ls with
    | nil => rfl
    | cons l ls ih =>
      have h1 : srcLine (minIndent b lines) l.tokens
          = .ok (stripFirst (minIndent b lines) l.tokens) := by
        cases htok : l.tokens with
        | nil => rfl
        | cons t ts =>
          simp only [srcLine, stripFirst]
          by_cases hne : t.text = []
          · simp [hne]
            cases t; simp_all
          · have := hsp l (hls l (by simp)) t ts htok hne
            have hlen := (List.takeWhile_sublist (l := t.text) (fun c => decide (c = ' '))).length_le
            rw [if_neg (by simpa using hne), if_pos (by omega)]
      simp only [srcLines, h1, ih (fun x hx => hls x (by simp [hx])), bind, Except.bind,
        List.map_cons, List.flatten_cons]
  · intro l hl t ts htok hne
    exact takeWhile_spaces _ _ (hsp l hl t ts htok hne)
  · exact hfold.2.2

/-- `"  #+begin_src"` followed by lines indented by four and three spaces and a
blank line. -/
def sampleSrcLines : List Line :=
  [⟨[⟨.SrcContent, [' ', ' ', ' ', ' ', 'x'], some 14⟩, ⟨.Newline, ['\n'], some 19⟩], 4, .line⟩,
   ⟨[⟨.SrcContent, [], some 20⟩, ⟨.Newline, ['\n'], some 20⟩], 0, .line⟩,
   ⟨[⟨.SrcContent, [' ', ' ', ' ', 'y'], some 21⟩, ⟨.Newline, ['\n'], some 25⟩], 3, .line⟩]

example : leafLines (.leaf .line sampleSrcLines .nil) = .ok sampleSrcLines ∧
    ∀ l ∈ sampleSrcLines, ∃ t ts, mkLine (t :: ts) = .ok l ∧ t.kind ∈ srcStart := by
  refine ⟨rfl, ?_⟩
  intro l hl
  simp only [sampleSrcLines, List.mem_cons, List.not_mem_nil, or_false] at hl
  rcases hl with rfl | rfl | rfl
  · exact ⟨⟨.SrcContent, [' ', ' ', ' ', ' ', 'x'], some 14⟩, [⟨.Newline, ['\n'], some 19⟩], rfl, by decide⟩
  · exact ⟨⟨.SrcContent, [], some 20⟩, [⟨.Newline, ['\n'], some 20⟩], rfl, by decide⟩
  · exact ⟨⟨.SrcContent, [' ', ' ', ' ', 'y'], some 21⟩, [⟨.Newline, ['\n'], some 25⟩], rfl, by decide⟩

/-! ## C41 – list items lie inside an open indentation level -/

/-- Every list item marker of the produced stream lies inside an open `Indent`. -/
def ListItemsEnclosedStatement : Prop :=
  ∀ ts out, (∀ t ∈ ts, t.Real) → regroup ts = .ok out →
    ∀ pre t post, out = pre ++ t :: post → t.kind = .LeadingMinus →
      ∃ d, indentWalk 0 pre = some (d + 1)

/-- False: an item indented less than the first item of its list closes the list
and is then emitted outside of any list (OrgTokenizer.cpp:1113-1135 pops every
entry and pushes none). -/
theorem listItems_enclosed_false : ¬ ListItemsEnclosedStatement := by
  intro h
  obtain ⟨d, hd⟩ := h sampleTokens _ (by simp [sampleTokens, Tok.Real, Tok.isFake]) rfl
    [⟨.Word, ['t'], some 0⟩, ⟨.Newline, ['\n'], some 1⟩, .fake .Indent,
     ⟨.LeadingMinus, [' ', ' ', '-'], some 2⟩, ⟨.Whitespace, [' '], some 5⟩, ⟨.Word, ['a'], some 6⟩,
     ⟨.Newline, ['\n'], some 7⟩, .fake .Dedent]
    ⟨.LeadingMinus, ['-'], some 8⟩ [⟨.Whitespace, [' '], some 9⟩, ⟨.Word, ['b'], some 10⟩] rfl rfl
  simp [indentWalk, Tok.fake] at hd

theorem dropWhile_keeps {i base : Nat} {ind : List Nat} (hb : base ∈ ind) (hi : base ≤ i) :
    base ∈ ind.dropWhile (fun x => decide (i < x)) := by
  induction ind with
  | nil => simp at hb
  | cons a l ih =>
    by_cases h : i < a
    · rw [List.dropWhile_cons_of_pos (by simpa using h)]
      rcases List.mem_cons.1 hb with rfl | hb
      · omega
      · exact ih hb
    · rw [List.dropWhile_cons_of_neg (by simpa using h)]; exact hb

theorem split_append {α} {a b pre post : List α} {t : α} (h : a ++ b = pre ++ t :: post) :
    (∃ r, a = pre ++ t :: r) ∨ (∃ p, pre = a ++ p ∧ b = p ++ t :: post) := by
  rcases List.append_eq_append_iff.1 h with ⟨c, h1, h2⟩ | ⟨c, h1, h2⟩
  · exact .inr ⟨c, h1, h2⟩
  · cases c with
    | nil =>
      simp at h1 h2
      exact .inr ⟨[], by simp [h1], by simp [h2]⟩
    | cons x xs =>
      simp only [List.cons_append, List.cons.injEq] at h2
      obtain ⟨h2, h3⟩ := h2
      subst h2
      exact .inl ⟨xs, h1⟩

theorem itemRun_enclosed (base : Nat) (items : List (List Line))
    (hb : ∀ ls ∈ items, ∀ l ls', ls = l :: ls' → base ≤ l.indent) :
    ∀ (prev : Prev) (ind : List Nat) (out : List Tok), (ind = [] ∨ base ∈ ind) →
    (ind = [] → ∀ ls rest, items = ls :: rest → ∀ l ls', ls = l :: ls' → l.indent = base) →
    (∀ ls ∈ items, ∀ t ∈ lineTokens ls, t.Real) →
    convertLoop (itemRun items) prev ind = .ok out →
    ∀ pre t post, out = pre ++ t :: post → t.isFake = false →
      ∃ d, indentWalk ind.length pre = some (d + 1) := by
  induction items with
  | nil =>
    intro prev ind out _ _ _ h pre t post he ht
    simp only [itemRun, convertLoop] at h
    cases h
    have : t ∈ List.replicate ind.length (Tok.fake .Dedent) := by rw [he]; simp
    rw [(List.mem_replicate.1 this).2] at ht
    simp [Tok.fake, Tok.isFake] at ht
  | cons ls rest ih =>
    intro prev ind out hind hfirst hreal h pre t post he ht
    cases ls with
    | nil => simp only [itemRun, convertLoop] at h; cases h
    | cons first tl =>
      simp only [itemRun, convertLoop, bind, Except.bind] at h
      split at h
      · cases h
      · rename_i pi hpre
        obtain ⟨p, ind'⟩ := pi
        simp only at h
        split at h
        · cases h
        · rename_i body hbody
          split at h
          · cases h
          · rename_i tail htail
            cases h
            obtain ⟨hw, hf⟩ := preGroup_spec hpre
            have hfb := hb (first :: tl) (by simp) first tl rfl
            have hmem : base ∈ ind' := by
              unfold preGroup at hpre
              rw [if_pos rfl] at hpre
              split at hpre
              · cases hpre
                have := hfirst rfl _ _ rfl first tl rfl
                simp [this]
              · rename_i top below
                have hbi : base ∈ top :: below := by
                  rcases hind with hind | hind
                  · cases hind
                  · exact hind
                split at hpre
                · cases hpre; exact List.mem_cons_of_mem _ hbi
                · split at hpre
                  · cases hpre
                    rw [drop_popCount]
                    exact dropWhile_keeps hbi hfb
                  · split at hpre
                    · split at hpre
                      · cases hpre
                      · split at hpre <;> cases hpre <;> exact hbi
                    · cases hpre; exact hbi
            have hpos : ∃ n, ind'.length = n + 1 := by
              cases ind' with
              | nil => simp at hmem
              | cons a b => exact ⟨_, rfl⟩
            have hbody' := recAddLines_ok _ _ _ hbody
            have hbr : ∀ x ∈ body, x.kind ≠ .Indent ∧ x.kind ≠ .Dedent := by
              rw [hbody']; exact fun x hx => (hreal _ (by simp) x hx).2
            obtain ⟨n, hn⟩ := hpos
            have hw0 := hw 0
            simp only [Nat.zero_add] at hw0
            rcases split_append he with ⟨r, hr⟩ | ⟨q, hq, hr⟩
            · rcases split_append hr with ⟨r', hr'⟩ | ⟨q, hq, hr'⟩
              · have : t ∈ p := by rw [hr']; simp
                rw [hf t this] at ht
                cases ht
              · rw [hq, indentWalk_append, hw0, Option.bind_some, hn,
                  indentWalk_plain (fun x hx => hbr x (by rw [hr']; simp [hx]))]
                exact ⟨n, rfl⟩
            · rw [hq, indentWalk_append, indentWalk_append, hw0, Option.bind_some,
                indentWalk_plain hbr, Option.bind_some]
              exact ih (fun ls hls => hb ls (by simp [hls])) _ _ _ (.inr hmem)
                (fun h0 => by rw [h0] at hmem; simp at hmem)
                (fun ls hls => hreal ls (by simp [hls])) htail q t post hr ht

/-- Every token of a list lies inside an open `Indent`, provided no item of the
list is indented less than its first item.  (Full statement:
`ListItemsEnclosedStatement`, which is false.) -/
theorem listItems_enclosed_partial (first : Line) (tl : List Line) (items : List (List Line))
    (out : List Tok)
    (hmin : ∀ ls ∈ items, ∀ l ls', ls = l :: ls' → first.indent ≤ l.indent)
    (hreal : ∀ ls ∈ (first :: tl) :: items, ∀ t ∈ lineTokens ls, t.Real)
    (h : convertGroups (itemRun ((first :: tl) :: items)) = .ok out) :
    ∀ pre t post, out = pre ++ t :: post → t.isFake = false →
      ∃ d, indentWalk 0 pre = some (d + 1) := by
  refine itemRun_enclosed first.indent ((first :: tl) :: items) ?_ none [] out (.inl rfl) ?_ hreal h
  · intro ls hls l ls' he
    rcases List.mem_cons.1 hls with rfl | hls
    · cases he; exact Nat.le_refl _
    · exact hmin ls hls l ls' he
  · intro _ ls rest he l ls' hl
    cases he; cases hl; rfl

example : ∃ out, convertGroups (itemRun
    [[⟨[⟨.LeadingMinus, ['-'], some 0⟩, ⟨.Whitespace, [' '], some 1⟩, ⟨.Newline, ['\n'], some 2⟩], 2, .listItem⟩],
     [⟨[⟨.LeadingMinus, [' ', ' ', '-'], some 3⟩, ⟨.Newline, ['\n'], some 6⟩], 4, .listItem⟩],
     [⟨[⟨.LeadingMinus, ['-'], some 7⟩, ⟨.Newline, ['\n'], some 8⟩], 2, .listItem⟩]]) = .ok out ∧
    out.map (·.kind) = [.Indent, .LeadingMinus, .Whitespace, .Newline, .Indent, .LeadingMinus, .Newline,
      .Dedent, .ListItemEnd, .LeadingMinus, .Newline, .Dedent] := ⟨_, rfl, rfl⟩

end Verif.Tokenizer
