import Verif.Sem.Convert
import Verif.Sem.Volume
import Verif.Pipeline.ProseProps

/-!
# Prose in sem trees
-/

namespace Verif.Sem
open Verif.Token Verif.NodeGroup Verif.NodeGroup.Spec
open Verif.Parser (NK role Closed Open Doc IsOpen IsClose lineBreaks)

/-- What is known of the tokens of prose. -/
structure Fit (k : TK) (t : List Char) : Prop where
  ne : t ≠ []
  mark : ∀ nk, role k = .opens nk ∨ role k = .closes nk ∨ role k = .either nk →
    leafKind nk = none ∧ ∃ bk c, branchKind nk = some bk ∧ mark bk = some c ∧ t = [c]
  plain : ∀ nk, role k = .plain nk → ∃ lk, leafKind nk = some lk ∧ leafText lk t = t ∧ (lk = .Newline → t = ['\n']) ∧
    (lk ≠ .Newline → '\n' ∉ t) ∧ (lk = .Space → ∀ c ∈ t, c = ' ')
  breaks : k ∈ lineBreaks → ∀ c ∈ t, c = '\n'

/-- The token exists, and is one of prose. -/
def Fitting (toks : List Tok) (p : Nat × TK) : Prop := ∃ t, Pipeline.tokAt toks p.1 = some t ∧ Fit p.2 t.text

/-- The text of tokens. -/
def textsOf (toks : List Tok) (r : List (Nat × TK)) : List Char := (r.map fun p => textAt toks p.1).flatten

theorem textsOf_append (toks : List Tok) (a b : List (Nat × TK)) : textsOf toks (a ++ b) = textsOf toks a ++ textsOf toks b := by
  simp [textsOf]

theorem textsOf_cons (toks : List Tok) (a : Nat × TK) (b : List (Nat × TK)) : textsOf toks (a :: b) = textAt toks a.1 ++ textsOf toks b := by
  simp [textsOf]

theorem semsOf_append (toks : List Tok) (f g : Forest NK Unit) : semsOf toks (f.append g) = semsOf toks f ++ semsOf toks g := by
  induction f with
  | nil => rfl
  | leaf k v r ih => cases v <;> simp [Forest.append, semsOf, ih]
  | tree k c r _ ih => simp [Forest.append, semsOf, ih]

theorem simple_append (toks : List Tok) (f g : Forest NK Unit) (hf : Simple toks f) (hg : Simple toks g) : Simple toks (f.append g) := by
  induction f with
  | nil => exact hg
  | leaf k v r ih => exact ⟨hf.1, ih hf.2⟩
  | tree k c r _ ih => exact ⟨hf.1, hf.2.1, ih hf.2.2⟩

theorem sources_append (a b : List Sem) : sources (a ++ b) = sources a ++ sources b := by
  induction a with
  | nil => rfl
  | cons s a ih => simp [sources, ih]

theorem sizes_append (a b : List Sem) : sizes (a ++ b) = sizes a + sizes b := by
  induction a with
  | nil => simp [sizes]
  | cons s a ih => simp [sizes, ih]; omega

theorem allInline_append {a b : List Sem} (ha : AllInline a) (hb : AllInline b) : AllInline (a ++ b) := by
  rw [allInline_iff] at *
  intro s hs
  rcases List.mem_append.mp hs with h | h
  · exact ha s h
  · exact hb s h

/-- Blank leaves are blank. -/
def BlanksBlank (ss : List Sem) : Prop := ∀ s ∈ ss, s.isBlank = true → visible (source s) = []

/-- The sem nodes of a text of tokens. -/
structure Reads (toks : List Tok) (r : List (Nat × TK)) (f : Forest NK Unit) : Prop where
  simple : Simple toks f
  inline : AllInline (semsOf toks f)
  source : sources (semsOf toks f) = textsOf toks r
  size : sizes (semsOf toks f) ≤ 3 * (textsOf toks r).length
  blank : BlanksBlank (semsOf toks f)
  full : ∀ s ∈ semsOf toks f, Sem.source s ≠ []

theorem Reads.nil (toks : List Tok) : Reads toks [] .nil :=
  ⟨trivial, trivial, rfl, by simp [semsOf, sizes], by simp [BlanksBlank, semsOf], by simp [semsOf]⟩

theorem Reads.leaf {toks : List Tok} {i : Nat} {k : TK} {nk : NK} {lk : LK} {t : Tok} {r : List (Nat × TK)} {f : Forest NK Unit}
    (h : Reads toks r f) (ht : Pipeline.tokAt toks i = some t) (hl : leafKind nk = some lk) (hs : leafText lk t.text = t.text)
    (hn : lk = .Newline → t.text = ['\n']) (hn' : lk ≠ .Newline → '\n' ∉ t.text) (hsp : lk = .Space → ∀ c ∈ t.text, c = ' ')
    (hne : t.text ≠ []) : Reads toks ((i, k) :: r) (.leaf nk (.tok i) f) := by
  have hta : textAt toks i = t.text := by simp [textAt, ht]
  have hlen : 1 ≤ t.text.length := by
    cases h : t.text with
    | nil => exact absurd h hne
    | cons => simp
  refine ⟨⟨⟨lk, i, t, hl, rfl, ht⟩, h.simple⟩, ?_, ?_, ?_, ?_, ?_⟩
  · refine ⟨?_, h.inline⟩
    rw [hl, hta]
    cases lk <;> simp_all [Inline]
  · simp only [semsOf, sources, textsOf_cons, Sem.source, hl, Option.getD_some, hta, hs, h.source]
  · have := h.size
    simp only [semsOf, sizes, Sem.size, textsOf_cons, hl, hta, List.length_append]
    omega
  · intro s hs' hb
    simp only [semsOf, hl, Option.getD_some, hta, List.mem_cons] at hs'
    rcases hs' with rfl | hs'
    · simp only [Sem.source, hs]
      cases lk <;> simp [Sem.isBlank] at hb
      · simpa [visible] using fun a ha hne => absurd (hsp rfl a ha) hne
      · simp [visible, hn rfl]
    · exact h.blank s hs' hb
  · intro s hs'
    simp only [semsOf, hl, Option.getD_some, hta, List.mem_cons] at hs'
    rcases hs' with rfl | hs'
    · simpa only [Sem.source, hs] using hne
    · exact h.full s hs'

theorem branch_mark {bk : BK} {c : Char} (h : mark bk = some c) (ss : List Sem) : branch bk ss = .tree bk ss := by
  cases bk <;> simp_all [mark, branch]

theorem closed_reads {toks : List Tok} {e : Option NK} {r : List (Nat × TK)} {f : Forest NK Unit} (h : Closed e r f) :
    (∀ p ∈ r, Fitting toks p) → Reads toks r f := by
  induction h with
  | nil => intro _; exact .nil toks
  | plain hr _ ih =>
    intro hf
    obtain ⟨t, ht, hfit⟩ := hf _ List.mem_cons_self
    obtain ⟨lk, h1, h2, h3, h4, h5⟩ := hfit.plain _ hr
    exact (ih fun p hp => hf p (List.mem_cons_of_mem _ hp)).leaf ht h1 h2 h3 h4 h5 hfit.ne
  | stray hr _ _ ih =>
    intro hf
    obtain ⟨t, ht, hfit⟩ := hf _ List.mem_cons_self
    obtain ⟨-, bk, c, -, hm, hc⟩ := hfit.mark _ (.inr (.inl hr))
    refine (ih fun p hp => hf p (List.mem_cons_of_mem _ hp)).leaf ht (lk := .Punctuation) rfl rfl (by simp) ?_ (by simp) hfit.ne
    intro _
    rw [hc]
    cases bk <;> simp_all [Sem.mark] <;> subst hm <;> decide
  | @pair e i k nk u c j k' r f ho _ hcl _ ih1 ih2 =>
    intro hf
    have h1 := ih1 fun p hp => hf p (by simp [hp])
    have h2 := ih2 fun p hp => hf p (by simp [hp])
    obtain ⟨t, ht, hfit⟩ := hf (i, k) List.mem_cons_self
    obtain ⟨t', ht', hfit'⟩ := hf (j, k') (by simp)
    obtain ⟨hl, bk, x, hb, hm, hx⟩ := hfit.mark nk (by rcases ho with h | h <;> simp [h])
    obtain ⟨-, bk', x', hb', hm', hx'⟩ := hfit'.mark nk (by rcases hcl with h | h <;> simp [h])
    rw [hb] at hb'
    obtain rfl := Option.some.inj hb'
    rw [hm] at hm'
    obtain rfl := Option.some.inj hm'
    have hta : textAt toks i = [x] := by simp [textAt, ht, hx]
    have hta' : textAt toks j = [x] := by simp [textAt, ht', hx']
    have hsem : semsOf toks (.tree nk c f) = .tree bk (semsOf toks c) :: semsOf toks f := by
      simp [semsOf, hb, branch_mark hm]
    refine ⟨⟨⟨hl, bk, hb⟩, h1.simple, h2.simple⟩, ?_, ?_, ?_, ?_, ?_⟩
    · rw [hsem]
      exact ⟨⟨by simp [hm], h1.inline⟩, h2.inline⟩
    · rw [hsem]
      simp [sources, Sem.source, hm, h1.source, h2.source, textsOf_cons, textsOf_append, hta, hta']
    · rw [hsem]
      have := h1.size
      have := h2.size
      simp only [sizes, Sem.size, textsOf_cons, textsOf_append, hta, hta', List.length_append, List.length_cons, List.length_nil]
      omega
    · rw [hsem]
      intro s hs hbl
      rcases List.mem_cons.mp hs with rfl | hs
      · simp [Sem.isBlank] at hbl
      · exact h2.blank s hs hbl
    · rw [hsem]
      intro s hs
      rcases List.mem_cons.mp hs with rfl | hs
      · simp [Sem.source, hm]
      · exact h2.full s hs

theorem Reads.append {toks : List Tok} {r r' : List (Nat × TK)} {f g : Forest NK Unit} (h : Reads toks r f) (h' : Reads toks r' g) :
    Reads toks (r ++ r') (f.append g) := by
  refine ⟨simple_append toks f g h.simple h'.simple, ?_, ?_, ?_, ?_, ?_⟩
  · rw [semsOf_append]; exact allInline_append h.inline h'.inline
  · rw [semsOf_append, sources_append, textsOf_append, h.source, h'.source]
  · have := h.size
    have := h'.size
    rw [semsOf_append, sizes_append, textsOf_append, List.length_append]
    omega
  · rw [semsOf_append]
    intro s hs hb
    rcases List.mem_append.mp hs with hs | hs
    · exact h.blank s hs hb
    · exact h'.blank s hs hb
  · rw [semsOf_append]
    intro s hs
    rcases List.mem_append.mp hs with hs | hs
    · exact h.full s hs
    · exact h'.full s hs

theorem mark_leaf {toks : List Tok} {i : Nat} {k : TK} {nk : NK} {r : List (Nat × TK)} {f : Forest NK Unit} (h : Reads toks r f)
    (hr : role k = .opens nk ∨ role k = .closes nk ∨ role k = .either nk) (hf : Fitting toks (i, k)) :
    Reads toks ((i, k) :: r) (.leaf .Punctuation (.tok i) f) := by
  obtain ⟨t, ht, hfit⟩ := hf
  obtain ⟨-, bk, c, -, hm, hc⟩ := hfit.mark _ hr
  refine h.leaf ht (lk := .Punctuation) rfl rfl (by simp) ?_ (by simp) hfit.ne
  intro _
  rw [hc]
  cases bk <;> simp_all [Sem.mark] <;> subst hm <;> decide

theorem open_reads {toks : List Tok} {e : Option NK} {r : List (Nat × TK)} {f : Forest NK Unit} (h : Open e r f) :
    (∀ p ∈ r, Fitting toks p) → Reads toks r f := by
  induction h with
  | closed h => exact closed_reads h
  | @unclosed e u f i k nk r g hc ho _ ih =>
    intro hf
    refine (closed_reads hc fun p hp => hf p (by simp [hp])).append
      (mark_leaf (nk := nk) (ih fun p hp => hf p (by simp [hp])) ?_ (hf _ (by simp)))
    rcases ho with h | h
    · exact .inl h
    · exact .inr (.inr h.1)

/-! ## Visible characters -/

theorem visible_append (a b : List Char) : visible (a ++ b) = visible a ++ visible b := by simp [visible]

theorem visible_mark (k : BK) : visible (mark k).toList = (mark k).toList := by cases k <;> rfl

mutual

theorem visible_flat (s : Sem) (h : Inline s) : visible (flat s) = visible (source s) := by
  match s with
  | .leaf k t =>
    cases k
    case Newline =>
      have h : t = ['\n'] := h
      subst h
      rfl
    all_goals rfl
  | .tree k subs =>
    have h : mark k ≠ none ∧ AllInline subs := h
    simp only [flat, source, visible_append, visible_flats subs h.2]
  | .item .. => exact h.elim
  | .head .. => exact h.elim

theorem visible_flats (ss : List Sem) (h : AllInline ss) : visible (flats ss) = visible (sources ss) := by
  match ss with
  | [] => rfl
  | s :: ss => simp only [flats, sources, visible_append, visible_flat s h.1, visible_flats ss h.2]

end

theorem chunks_flats : ∀ ss : List Sem, ((chunks ss).map flats).flatten = flats ss
  | [] => rfl
  | s :: r => by
    have ih := chunks_flats r
    unfold chunks
    split
    · next hn => simp [flats, flat_newline hn, ih]
    · split
      · next e => rw [e] at ih; simp [flats, ← ih]
      · next e => rw [e] at ih; simp [flats, ← ih]

theorem parLines_flats (ss : List Sem) : (parLines ss).flatten = flats ss := by
  rw [← chunks_flats, parLines]
  induction chunks ss with
  | nil => rfl
  | cons c cs ih =>
    cases c with
    | nil => simpa [flats] using ih
    | cons s c => simp [ih]

theorem trimmed_split (ss : List Sem) : ∃ z, ss = trimmed ss ++ z ∧ ∀ s ∈ z, s.isBlank = true := by
  refine ⟨(ss.reverse.takeWhile Sem.isBlank).reverse, ?_, ?_⟩
  · rw [trimmed, ← List.reverse_append, List.takeWhile_append_dropWhile, List.reverse_reverse]
  · intro s hs
    exact List.mem_takeWhile_imp (List.mem_reverse.mp hs)

theorem visible_trimmed (ss : List Sem) (h : BlanksBlank ss) : visible (sources (trimmed ss)) = visible (sources ss) := by
  obtain ⟨z, h1, h2⟩ := trimmed_split ss
  have : visible (sources z) = [] := by
    have hz : ∀ s ∈ z, visible (source s) = [] := fun s hs => h s (by rw [h1]; simp [hs]) (h2 s hs)
    clear h1 h2
    induction z with
    | nil => rfl
    | cons s z ih => rw [sources, visible_append, hz s (by simp), ih fun s hs => hz s (by simp [hs])]; rfl
  conv_rhs => rw [h1, sources_append, visible_append, this, List.append_nil]

theorem trimmed_mem {ss : List Sem} {s : Sem} (h : s ∈ trimmed ss) : s ∈ ss := by
  obtain ⟨z, h1, -⟩ := trimmed_split ss
  rw [h1]; simp [h]

theorem trimmed_inline {ss : List Sem} (h : AllInline ss) : AllInline (trimmed ss) := by
  rw [allInline_iff] at *
  exact fun s hs => h s (trimmed_mem hs)

theorem trimmed_size (ss : List Sem) : sizes (trimmed ss) ≤ sizes ss := by
  obtain ⟨z, h1, -⟩ := trimmed_split ss
  conv_rhs => rw [h1, sizes_append]
  omega

/-- The sem nodes of a document of tokens. -/
structure DocReads (toks : List Tok) (r : List (Nat × TK)) (f : Forest NK Unit) : Prop where
  simple : Simple toks f
  outline : AllOutline (semsOf toks f)
  size : sizes (semsOf toks f) ≤ 5 * (textsOf toks r).length
  visible : visible (linesAll (semsOf toks f)).flatten = visible (textsOf toks r)

theorem doc_reads {toks : List Tok} {r : List (Nat × TK)} {f : Forest NK Unit} (h : Doc r f) :
    (∀ p ∈ r, Fitting toks p) → DocReads toks r f := by
  induction h with
  | nil => intro _; exact ⟨trivial, trivial, by simp [semsOf, sizes], rfl⟩
  | @line i k r f hk _ ih =>
    intro hf
    obtain ⟨t, ht, hfit⟩ := hf _ List.mem_cons_self
    have h := ih fun p hp => hf p (List.mem_cons_of_mem _ hp)
    have hta : textAt toks i = t.text := by simp [textAt, ht]
    have hlen : 1 ≤ t.text.length := by
      cases h : t.text with
      | nil => exact absurd h hfit.ne
      | cons => simp
    refine ⟨⟨⟨.Newline, i, t, rfl, rfl, ht⟩, h.simple⟩, ⟨trivial, h.outline⟩, ?_, ?_⟩
    · have := h.size
      simp only [semsOf, sizes, Sem.size, textsOf_cons, hta, List.length_append]
      omega
    · rw [textsOf_cons, semsOf, linesAll, List.flatten_append, visible_append, visible_append, h.visible]
      congr 1
      simp only [leafKind, Option.getD_some, lines, hta]
      have : ∀ c ∈ t.text, c = '\n' := hfit.breaks hk
      rw [show (List.replicate (t.text.length - 1) ([] : List Char)).flatten = [] by simp]
      rw [eq_comm]
      simp only [Sem.visible, List.filter_nil, List.filter_eq_nil_iff]
      intro c hc
      simp [this c hc]
  | @space i r f _ ih =>
    intro hf
    obtain ⟨t, ht, hfit⟩ := hf _ List.mem_cons_self
    have h := ih fun p hp => hf p (List.mem_cons_of_mem _ hp)
    have hta : textAt toks i = t.text := by simp [textAt, ht]
    have hlen : 1 ≤ t.text.length := by
      cases h : t.text with
      | nil => exact absurd h hfit.ne
      | cons => simp
    obtain ⟨lk, h1, h2, h3, h4, h5⟩ := hfit.plain .Space rfl
    obtain rfl : LK.Space = lk := Option.some.inj h1
    refine ⟨⟨⟨.Space, i, t, rfl, rfl, ht⟩, h.simple⟩, ⟨?_, h.outline⟩, ?_, ?_⟩
    · simpa [Outline, leafKind, hta] using h4
    · have := h.size
      simp only [semsOf, sizes, Sem.size, textsOf_cons, hta, List.length_append]
      omega
    · rw [textsOf_cons, semsOf, linesAll, List.flatten_append, visible_append, visible_append, h.visible]
      congr 1
      simp [leafKind, lines, hta, leafText]
  | @par i k u r f g hk ho hr _ ih =>
    intro hf
    have hp := open_reads (toks := toks) ho fun p hp => hf p (by
      rcases List.mem_cons.mp hp with rfl | hp
      · simp
      · simp [hp])
    have h := ih fun p hp => hf p (by simp [hp])
    have hsem : semsOf toks (.tree .Paragraph g f) = .tree .Paragraph (trimmed (semsOf toks g)) :: semsOf toks f := rfl
    have htx : textsOf toks ((i, k) :: (u ++ r)) = textsOf toks ((i, k) :: u) ++ textsOf toks r := by
      rw [← List.cons_append, textsOf_append]
    have hlen : 1 ≤ (textsOf toks ((i, k) :: u)).length := by
      obtain ⟨t, ht, hfit⟩ := hf (i, k) List.mem_cons_self
      have hta : textAt toks i = t.text := by simp [textAt, ht]
      have := List.length_pos_iff.mpr hfit.ne
      rw [textsOf_cons, List.length_append, hta]
      omega
    refine ⟨⟨⟨rfl, .Paragraph, rfl⟩, hp.simple, h.simple⟩, ?_, ?_, ?_⟩
    · rw [hsem]
      exact ⟨trimmed_inline hp.inline, h.outline⟩
    · have := h.size
      have := hp.size
      have := trimmed_size (semsOf toks g)
      rw [hsem, htx, List.length_append]
      simp only [sizes, Sem.size]
      omega
    · rw [hsem, htx, linesAll, List.flatten_append, visible_append, visible_append, h.visible]
      congr 1
      rw [lines, parLines_flats, visible_flats _ (trimmed_inline hp.inline), visible_trimmed _ hp.blank, hp.source]

theorem visible_stripEnd (l : List Char) : visible (Layout.stripEnd l) = visible l := by
  have h := List.takeWhile_append_dropWhile (p := (· == ' ')) (l := l.reverse)
  have : l = Layout.stripEnd l ++ (l.reverse.takeWhile (· == ' ')).reverse := by
    rw [Layout.stripEnd, ← List.reverse_append, h, List.reverse_reverse]
  conv_rhs => rw [this, visible_append]
  have : visible (l.reverse.takeWhile (· == ' ')).reverse = [] := by
    rw [visible, List.filter_eq_nil_iff]
    intro c hc
    have h : (c == ' ') = true := List.mem_takeWhile_imp (p := (· == ' ')) (List.mem_reverse.mp hc)
    rw [eq_of_beq h]
    decide
  rw [this, List.append_nil]

theorem visible_textOf (ls : List (List Char)) : visible (textOf ls) = visible ls.flatten := by
  unfold textOf
  induction ls with
  | nil => rfl
  | cons l ls ih =>
    cases ls with
    | nil => simp [Layout.joinLines, visible_stripEnd]
    | cons l' ls' =>
      rw [List.map_cons, Layout.joinLines_cons _ _ (by simp), List.flatten_cons, visible_append, visible_append, visible_stripEnd, ← ih]
      rfl

/-! ## Tokens of prose -/

open Verif.Pipeline (Piece render Prose ProseFrom IsWord IsGlyph)
open Verif.BaseLexer (stdLex isAlnum isDigit isAlpha)

/-- A character of a word is not a space or a line break. -/
theorem stem_chars : ∀ {w : List Char}, Pipeline.Stem w → ∀ c ∈ w, isAlnum c = true ∨ c = '-' ∨ c = '_'
  | [], _, c, hc => by simp at hc
  | [a], h, c, hc => by
    obtain rfl := List.mem_singleton.mp hc
    exact .inl h
  | a :: b :: r, h, c, hc => by
    rcases List.mem_cons.mp hc with rfl | hc
    · rcases h.1 with h | ⟨h, -⟩
      · exact .inl h
      · exact .inr h
    · exact stem_chars h.2 c hc

theorem word_chars {w : List Char} (h : IsWord w) : w ≠ [] ∧ ∀ c ∈ w, c ≠ '\n' ∧ c ≠ ' ' := by
  obtain ⟨⟨c, hc, -⟩, ⟨stem, rest, rfl, hs, hr⟩, -⟩ := h
  have hal : ∀ c, isAlnum c = true → c ≠ '\n' ∧ c ≠ ' ' := by
    intro c hc
    constructor <;> rintro rfl <;> revert hc <;> decide
  refine ⟨by rintro h; simp [h] at hc, ?_⟩
  intro c hc
  rcases List.mem_append.mp hc with hc | hc
  · rcases stem_chars hs c hc with h | rfl | rfl
    · exact hal c h
    · decide
    · decide
  · rcases hr with rfl | ⟨r, rfl, hr⟩
    · simp at hc
    · rcases List.mem_cons.mp hc with rfl | hc
      · decide
      · exact hal c (hr c hc)

theorem glyph_chars {u : List Char} (h : IsGlyph u) : u ≠ [] ∧ ∀ c ∈ u, c ≠ '\n' ∧ c ≠ ' ' := by
  have hbig : ∀ c : Char, 0x80 ≤ c.toNat → c ≠ '\n' ∧ c ≠ ' ' := by
    intro c hc
    constructor <;> rintro rfl <;> revert hc <;> decide
  rcases h with ⟨x, rfl, hx⟩ | ⟨a, b, rfl, h1, -, h2⟩ | ⟨a, b, d, rfl, h1, -, h2, h3⟩
  · refine ⟨by simp, ?_⟩
    have : ∀ x ∈ Pipeline.marksTable.map (·.1), x ≠ '\n' ∧ x ≠ ' ' := by decide
    simpa using this x hx
  · refine ⟨by simp, ?_⟩
    intro c hc
    simp only [List.mem_cons, List.not_mem_nil, or_false] at hc
    rcases hc with rfl | rfl
    · exact hbig _ (by omega)
    · exact hbig _ h2
  · refine ⟨by simp, ?_⟩
    intro c hc
    simp only [List.mem_cons, List.not_mem_nil, or_false] at hc
    rcases hc with rfl | rfl | rfl
    · exact hbig _ (by omega)
    · exact hbig _ h2
    · exact hbig _ h3

/-- Kinds for pieces without blanks. -/
def InkKind (k : TK) : Prop := ∃ nk lk, role k = .plain nk ∧ leafKind nk = some lk ∧ lk ≠ .Newline ∧ lk ≠ .Space ∧
  ∀ t, leafText lk t = t

theorem InkKind.noBreak {k : TK} (h : InkKind k) : k ∉ lineBreaks := by
  obtain ⟨nk, lk, h1, h2, h3, -, -⟩ := h
  intro hk
  simp only [lineBreaks, List.mem_cons, List.not_mem_nil, or_false] at hk
  rcases hk with rfl | rfl | rfl
  · simp only [role, Parser.Role.plain.injEq] at h1
    subst h1
    exact h3 (Option.some.inj h2).symm
  · simp [role] at h1
  · simp [role] at h1

theorem InkKind.fit {k : TK} (h : InkKind k) {t : List Char} (hne : t ≠ []) (ht : ∀ c ∈ t, c ≠ '\n' ∧ c ≠ ' ') : Fit k t := by
  have h6 := h.noBreak
  obtain ⟨nk, lk, h1, h2, h3, h4, h5⟩ := h
  refine ⟨hne, ?_, ?_, fun h => absurd h h6⟩
  · intro nk' h
    rw [h1] at h
    simp at h
  · intro nk' h
    rw [h1] at h
    obtain rfl : nk = nk' := by simpa using h
    exact ⟨lk, h2, h5 t, fun h => absurd h h3, fun _ hm => (ht _ hm).1 rfl, fun h => absurd h h4⟩

theorem piece_fit {p : Piece} (hv : p.Valid) (b a : Option Tok) (pos : Nat) :
    Fit (Recombine.kindBetween b (p.tok pos) a) p.text := by
  cases p with
  | word w =>
    obtain ⟨h1, h2⟩ := word_chars hv
    refine InkKind.fit ?_ h1 h2
    have : Recombine.kindBetween b ((Piece.word w).tok pos) a = if ∀ c ∈ w, ('A' ≤ c ∧ c ≤ 'Z') ∨ c = '_' then .BigIdent else .Word :=
      Pipeline.word_kind w b a
    rw [this]
    split
    · exact ⟨.BigIdent, .BigIdent, rfl, rfl, by decide, by decide, fun _ => rfl⟩
    · exact ⟨.Word, .Word, rfl, rfl, by decide, by decide, fun _ => rfl⟩
  | number ds =>
    refine InkKind.fit ⟨.Word, .Word, rfl, rfl, by decide, by decide, fun _ => rfl⟩ hv.1 ?_
    intro c hc
    have := hv.2 c hc
    constructor <;> rintro rfl <;> revert this <;> decide
  | gap n =>
    refine ⟨by simp [Piece.text], ?_, ?_, ?_⟩
    · intro nk h
      rcases h with h | h | h <;> exact nomatch h
    · intro nk h
      obtain rfl : NK.Space = nk := by
        have h : role .Whitespace = .plain nk := h
        simpa [role] using h
      exact ⟨.Space, rfl, rfl, by simp, fun _ => by simp [Piece.text], fun _ => by simp [Piece.text]⟩
    · intro h
      have h : Token.TK.Whitespace ∈ lineBreaks := h
      exact absurd h (by decide)
  | brk n =>
    have hk := Pipeline.brk_kind n b a
    refine ⟨by simp [Piece.text], ?_, ?_, ?_⟩
    · intro nk h
      match n with
      | 0 => rcases h with h | h | h <;> exact nomatch h
      | 1 => rcases h with h | h | h <;> exact nomatch h
      | n + 2 => rcases h with h | h | h <;> exact nomatch h
    · intro nk h
      match n with
      | 0 =>
        obtain rfl : NK.Newline = nk := by
          have h : role .Newline = .plain nk := h
          simpa [role] using h
        exact ⟨.Newline, rfl, rfl, fun _ => rfl, by simp, by simp⟩
      | 1 => exact nomatch h
      | n + 2 => exact nomatch h
    · intro _ c hc
      simp [Piece.text] at hc
      exact hc
  | colon =>
    exact InkKind.fit ⟨.Colon, .Punctuation, rfl, rfl, by decide, by decide, fun _ => rfl⟩ (by simp [Piece.text]) (by simp [Piece.text])
  | star =>
    have hp : InkKind .Punctuation := ⟨.Punctuation, .Punctuation, rfl, rfl, by decide, by decide, fun _ => rfl⟩
    have hm : ∀ k, k = Token.TK.BoldBegin ∨ k = .BoldEnd ∨ k = .BoldUnknown → Fit k ['*'] := by
      intro k hk
      refine ⟨by simp, ?_, ?_, ?_⟩
      · intro nk h
        obtain rfl : NK.Bold = nk := by
          rcases hk with rfl | rfl | rfl <;> simpa [role] using h
        exact ⟨rfl, .Bold, '*', rfl, rfl, rfl⟩
      · intro nk h
        rcases hk with rfl | rfl | rfl <;> exact nomatch h
      · intro h
        rcases hk with rfl | rfl | rfl <;> exact absurd h (by decide)
    simp only [Recombine.kindBetween, Piece.tok, Piece.kind, Recombine.marks, reduceCtorEq, if_false, Piece.text, or_self]
    split
    · exact hm _ (by simp)
    · split
      · exact hm _ (by simp)
      · split
        · exact hm _ (by simp)
        · exact hp.fit (by simp) (by simp)
  | slash =>
    have hp : InkKind .Punctuation := ⟨.Punctuation, .Punctuation, rfl, rfl, by decide, by decide, fun _ => rfl⟩
    have hm : ∀ k, k = Token.TK.ItalicBegin ∨ k = .ItalicEnd ∨ k = .ItalicUnknown → Fit k ['/'] := by
      intro k hk
      refine ⟨by simp, ?_, ?_, ?_⟩
      · intro nk h
        obtain rfl : NK.Italic = nk := by
          rcases hk with rfl | rfl | rfl <;> simpa [role] using h
        exact ⟨rfl, .Italic, '/', rfl, rfl, rfl⟩
      · intro nk h
        rcases hk with rfl | rfl | rfl <;> exact nomatch h
      · intro h
        rcases hk with rfl | rfl | rfl <;> exact absurd h (by decide)
    simp only [Recombine.kindBetween, Piece.tok, Piece.kind, Recombine.marks, reduceCtorEq, if_false, Piece.text, or_self]
    split
    · exact hm _ (by simp)
    · split
      · exact hm _ (by simp)
      · split
        · exact hm _ (by simp)
        · exact hp.fit (by simp) (by simp)
  | glyph u =>
    obtain ⟨h1, h2⟩ := glyph_chars hv
    refine InkKind.fit ?_ h1 h2
    have hp : ∀ k : TK, role k = .plain .Punctuation → InkKind k :=
      fun k h => ⟨.Punctuation, .Punctuation, h, rfl, by decide, by decide, fun _ => rfl⟩
    rcases hv with ⟨x, rfl, hx⟩ | ⟨a, b, rfl, -⟩ | ⟨a, b, d, rfl, -⟩
    · simp only [Pipeline.marksTable, List.map_cons, List.map_nil, List.mem_cons, List.not_mem_nil, or_false] at hx
      rcases hx with h | h | h | h | h | h | h | h | h <;> subst h <;> exact hp _ rfl
    · exact hp _ rfl
    · exact hp _ rfl

theorem neighbours_fit {ps : List Piece} {bol : Bool} (h : ProseFrom bol ps) (b : Option Tok) (pos : Nat) :
    ∀ t ∈ Recombine.byNeighbours b (Pipeline.lexed pos ps), Fit t.kind t.text := by
  induction ps generalizing bol b pos with
  | nil => intro t ht; cases ht
  | cons p ps ih =>
    intro t ht
    simp only [Pipeline.lexed, Recombine.byNeighbours, Pipeline.becomes_prose (t := ⟨p.kind, p.text, some pos⟩) (Pipeline.kind_prose h.1),
      List.cons_append, List.nil_append, List.mem_cons] at ht
    rcases ht with rfl | ht
    · exact piece_fit h.1 _ _ pos
    · exact ih h.2.2 _ _ t ht

theorem mem_number {ks : List TK} {p : Nat × TK} (h : p ∈ Parser.number ks) : ∃ i, p.1 = i + 1 ∧ ks[i]? = some p.2 := by
  obtain ⟨j, hj, he⟩ := List.mem_iff_getElem.mp h
  simp only [Parser.number, List.length_zip, List.length_range'] at hj
  refine ⟨j, ?_, ?_⟩
  · rw [← he]; simp [Parser.number]; omega
  · rw [← he]; simp [Parser.number]

theorem number_fitting {toks : List Tok} (h : ∀ t ∈ toks, Fit t.kind t.text) :
    ∀ p ∈ Parser.number (toks.map (·.kind)), Fitting toks p := by
  intro p hp
  obtain ⟨i, h1, h2⟩ := mem_number hp
  rw [List.getElem?_map] at h2
  obtain ⟨t, ht, hk⟩ := Option.map_eq_some_iff.mp h2
  refine ⟨t, ?_, ?_⟩
  · simp [Pipeline.tokAt, h1, ht]
  · rw [← hk]; exact h t (List.mem_of_getElem? ht)

theorem number_texts (toks : List Tok) : textsOf toks (Parser.number (toks.map (·.kind))) = (toks.map (·.text)).flatten := by
  unfold textsOf
  congr 1
  refine List.ext_getElem (by simp [Parser.number]) ?_
  intro i h1 h2
  simp only [List.length_map] at h2
  simp [Parser.number, textAt, Pipeline.tokAt, Nat.add_comm 1 i, h2]

/-- Reading prose. -/
theorem load_prose (ps : List Piece) (h : Prose ps) (n : Nat) (hn : ps.length + 4 ≤ n) :
    ∃ toks f, load stdLex n (render ps) = .ok (semsOf toks f) ∧ toks = Recombine.byNeighbours none (Pipeline.lexed 0 ps) ∧
      Doc (Parser.number (toks.map (·.kind))) f ∧ (∀ p ∈ Parser.number (toks.map (·.kind)), Fitting toks p) ∧
      textsOf toks (Parser.number (toks.map (·.kind))) = render ps := by
  obtain ⟨toks, f, h1, h2, h3, h4⟩ := Pipeline.prose_tree ps h n hn
  have hf := number_fitting (toks := toks) (by rw [h2]; exact neighbours_fit h none 0)
  have hd := doc_reads h4 hf
  exact ⟨toks, f, load_simple h1 hd.simple, h2, h4, hf, by rw [number_texts, h3]; rfl⟩

end Verif.Sem
