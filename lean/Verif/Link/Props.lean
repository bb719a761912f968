import Verif.Link.Again

/-!
# Theorems about links
-/

namespace Verif.Link
open Verif.Pipeline (Piece fits)
open Verif.Stamp (Out)
open Verif.Drawer (Text)

instance (t : Text) : Decidable (Closed t) := inferInstanceAs (Decidable (∀ c ∈ t, c ≠ ']' ∧ c ≠ '\n'))

/-! ## C130 -/

/-- No link has a protocol which org itself does not know. -/
def Known (is : List Item) : Prop := ∀ name ps d, Item.link (.user name ps) d ∉ is

/-- C130: the links of a paragraph are read as they are written, with their targets and descriptions, and
with the text between them. -/
theorem links_read {is : List Item} (h : Linked is) (hk : Known is) {n : Nat} (hn : (paraText is).length + 4 ≤ n) :
    readParas n (paraText is) = .ok (.ok [is.map Item.part]) := by
  rw [read_para h hn]
  have : is.map Item.got = is.map Item.part := by
    refine List.map_congr_left fun i hi => ?_
    cases i with
    | link hd d =>
      cases hd with
      | user name ps => exact absurd hi (hk name ps d)
      | _ => rfl
    | _ => rfl
  rw [this]

/-- `See [[**Plan/Next][the plan]], [[./a b.txt]], https://x.org and [fn:1].` -/
def sample : List Item :=
  [.piece (.word "See".toList), .piece (.gap 0), .link (.title 1 0 ["Plan".toList, "Next".toList]) (some [.word "the".toList, .gap 0, .word "plan".toList]),
   .piece (.glyph [',']), .piece (.gap 0), .link (.path "./a b.txt".toList) none, .piece (.glyph [',']), .piece (.gap 0), .url true "//x.org".toList,
   .piece (.gap 0), .piece (.word "and".toList), .piece (.gap 0), .note ['1'], .piece (.glyph ['.'])]

theorem sample_words : Pipeline.IsWord "See".toList ∧ Pipeline.IsWord "the".toList ∧ Pipeline.IsWord "and".toList ∧ Pipeline.IsWord "plan".toList := by
  refine ⟨⟨⟨_, rfl, by decide⟩, ⟨"See".toList, [], by simp, ?_, .inl rfl⟩, by decide +kernel, by decide +kernel⟩,
    ⟨⟨_, rfl, by decide⟩, ⟨"the".toList, [], by simp, ?_, .inl rfl⟩, by decide +kernel, by decide +kernel⟩,
    ⟨⟨_, rfl, by decide⟩, ⟨"and".toList, [], by simp, ?_, .inl rfl⟩, by decide +kernel, by decide +kernel⟩,
    ⟨⟨_, rfl, by decide⟩, ⟨"plan".toList, [], by simp, ?_, .inl rfl⟩, by decide +kernel, by decide +kernel⟩⟩
  · exact ⟨.inl (by decide), .inl (by decide), (by decide : BaseLexer.isAlnum 'e' = true)⟩
  · exact ⟨.inl (by decide), .inl (by decide), (by decide : BaseLexer.isAlnum 'e' = true)⟩
  · exact ⟨.inl (by decide), .inl (by decide), (by decide : BaseLexer.isAlnum 'd' = true)⟩
  · exact ⟨.inl (by decide), .inl (by decide), .inl (by decide), (by decide : BaseLexer.isAlnum 'n' = true)⟩

theorem comma : Pipeline.IsGlyph [','] ∧ Pipeline.IsGlyph ['.'] ∧ Pipeline.IsGlyph ['('] ∧ Pipeline.IsGlyph [')'] := by
  have glyph : ∀ c, c ∈ Pipeline.marksTable.map (·.1) → Pipeline.IsGlyph [c] := fun c h => .inl ⟨c, rfl, h⟩
  exact ⟨glyph _ (by decide), glyph _ (by decide), glyph _ (by decide), glyph _ (by decide)⟩

theorem piece_step {b : Bool} {p : Piece} {r : List Item} (h1 : p.Valid) (h2 : p ≠ .star) (h3 : p ≠ .slash) (h4 : ∀ n, p ≠ .brk (n + 1))
    (h5 : fits b p (r.head?.map Item.like)) (h6 : LinkedFrom p.isBrk r) : LinkedFrom b (.piece p :: r) := ⟨h1, h2, h3, h4, h5, h6⟩

theorem sample_linked : Linked sample := by
  obtain ⟨w1, w2, w3, w4⟩ := sample_words
  obtain ⟨g1, g2, -, -⟩ := comma
  have hgap : ∀ {r : List Item}, (∀ n, r.head?.map Item.like ≠ some (.gap n)) → LinkedFrom false r → LinkedFrom false (.piece (.gap 0) :: r) :=
    fun h hr => piece_step trivial nofun nofun nofun ⟨rfl, h⟩ hr
  have hglyph : ∀ {c} {r : List Item}, Pipeline.IsGlyph [c] → LinkedFrom false r → LinkedFrom false (.piece (.glyph [c]) :: r) :=
    fun h hr => piece_step h nofun nofun nofun trivial hr
  refine ⟨?_, by simp [sample], by simp [sample], by intro i hi; cases hi; rfl⟩
  refine piece_step w1 nofun nofun nofun (by simp [fits, Item.like, Piece.Alnum]) ?_
  refine hgap (by simp [Item.like]) ?_
  refine ⟨⟨by simp, by decide +kernel, by decide +kernel, by decide +kernel⟩, ?_, ?_⟩
  · intro x hx
    cases hx
    exact ⟨⟨w2, nofun, nofun, nofun, by simp [fits, Piece.Alnum], trivial, nofun, nofun, nofun, by simp [fits], w4, nofun, nofun, nofun, by simp [fits, Piece.Alnum], trivial⟩,
      by simp, by simp⟩
  refine hglyph g1 (hgap (by simp [Item.like]) ⟨⟨by decide +kernel, .inl rfl⟩, by simp, ?_⟩)
  refine hglyph g1 (hgap (by simp [Item.like]) ⟨⟨by decide +kernel, by decide +kernel, by decide +kernel⟩, ⟨_, rfl, rfl⟩, ?_⟩)
  refine hgap (by simp [Item.like]) (piece_step w3 nofun nofun nofun (by simp [fits, Item.like, Piece.Alnum]) (hgap (by simp [Item.like]) ?_))
  refine ⟨by simp, by decide +kernel, hglyph g2 ?_⟩
  exact piece_step trivial nofun nofun nofun (by simp [fits]) trivial

example : Linked sample ∧ Known sample ∧ paraText sample = "See [[**Plan/Next][the plan]], [[./a b.txt]], https://x.org and [fn:1].\n".toList ∧
    sample.map Item.part = [.leaf .Word "See".toList, .leaf .Space [' '],
      .link (.title 2 ["Plan".toList, "Next".toList]) (some [(.Word, "the".toList), (.Space, [' ']), (.Word, "plan".toList)]),
      .leaf .Punctuation [','], .leaf .Space [' '], .link (.file "./a b.txt".toList) none, .leaf .Punctuation [','], .leaf .Space [' '],
      .link (.raw "https://x.org".toList) none, .leaf .Space [' '], .leaf .Word "and".toList, .leaf .Space [' '], .link (.footnote ['1']) none,
      .leaf .Punctuation ['.']] :=
  ⟨sample_linked, by intro name ps d; simp [sample], by decide +kernel, by decide +kernel⟩

/-! ## C131 -/

/-- A paragraph that was read is written so that it is read again. -/
def AgainStatement : Prop :=
  ∀ is, Linked is → ∀ n ps, (paraText is).length + 4 ≤ n → readParas n (paraText is) = .ok (.ok [ps]) →
    ∀ m, (showPara ps).length + 4 ≤ m → readParas m (showPara ps) = .ok (.ok [ps])

/-- C131, without links to titles with more than one star, and with blanks around the web addresses that
are in brackets without a description. -/
theorem links_again_partial {is : List Item} (h : Linked is) (ha : Apart true is) {n : Nat} {ps : List Part} (hn : (paraText is).length + 4 ≤ n)
    (hr : readParas n (paraText is) = .ok (.ok [ps])) {m : Nat} (hm : (showPara ps).length + 4 ≤ m) : readParas m (showPara ps) = .ok (.ok [ps]) := by
  rw [read_para h hn] at hr
  injection hr with hr
  injection hr with hr
  injection hr with hr _
  subst hr
  rw [show_para] at hm ⊢
  rw [read_para (again_para h ha) hm, apart_got ha]

/-- `[[**A]]` -/
def starred : List Item := [.link (.title 1 0 [['A']]) none]

/-- `([[http://x]])` -/
def inside : List Item := [.piece (.glyph ['(']), .link (.web false "//x".toList) none, .piece (.glyph [')'])]

theorem starred_linked : Linked starred :=
  ⟨⟨⟨by simp, by decide, by decide, by decide⟩, by simp, piece_step trivial nofun nofun nofun (by simp [fits]) trivial⟩, by simp [starred], by simp [starred], by
    intro i hi; cases hi; rfl⟩

theorem inside_linked : Linked inside :=
  ⟨piece_step comma.2.2.1 nofun nofun nofun trivial ⟨⟨by decide +kernel, by decide +kernel, by decide +kernel⟩, by simp,
    piece_step comma.2.2.2 nofun nofun nofun trivial (piece_step trivial nofun nofun nofun (by simp [fits]) trivial)⟩, by simp [inside], by simp [inside], by
    intro i hi; cases hi; rfl⟩

/-- The level of a title is not written. -/
theorem links_again_false : ¬ AgainStatement := by
  intro h
  have := h starred starred_linked 30 _ (by decide +kernel) (read_para starred_linked (by decide +kernel)) 30 (by decide +kernel)
  exact absurd this (by decide +kernel)

/-- Also without stars: a web address in brackets is written without them, and then it does not end where
it did. -/
theorem address_again_false : ¬ ∀ is, Linked is → (∀ m g ts d, Item.link (.title m g ts) d ∉ is) → ∀ n ps, (paraText is).length + 4 ≤ n →
    readParas n (paraText is) = .ok (.ok [ps]) → ∀ m, (showPara ps).length + 4 ≤ m → readParas m (showPara ps) = .ok (.ok [ps]) := by
  intro h
  have := h inside inside_linked (by intro m g ts d; simp [inside]) 30 _ (by decide +kernel) (read_para inside_linked (by decide +kernel)) 30 (by decide +kernel)
  exact absurd this (by decide +kernel)

/-- What becomes of these two. -/
theorem again_changed :
    readParas 30 "[[**A]]\n".toList = .ok (.ok [[.link (.title 2 [['A']]) none]]) ∧ showPara [.link (.title 2 [['A']]) none] = "[[*A]]\n".toList ∧
    readParas 30 "([[http://x]])\n".toList = .ok (.ok [[.leaf .Punctuation ['('], .link (.raw "http://x".toList) none, .leaf .Punctuation [')']]]) ∧
    readParas 30 (showPara [.leaf .Punctuation ['('], .link (.raw "http://x".toList) none, .leaf .Punctuation [')']]) =
      .ok (.ok [[.leaf .Punctuation ['('], .link (.raw "http://x)".toList) none]]) := by decide +kernel

theorem sample2_apart : Apart true [.link (.web true "//x.org".toList) none, .piece (.gap 0), .link (.path "/etc".toList) none] := by
  refine ⟨fun s u _ => ⟨rfl, ?_⟩, nofun, nofun, nofun, nofun, nofun, trivial⟩
  intro j hj
  cases hj
  rfl

example : Linked [.link (.web true "//x.org".toList) none, .piece (.gap 0), .link (.path "/etc".toList) none] ∧
    Apart true [.link (.web true "//x.org".toList) none, .piece (.gap 0), .link (.path "/etc".toList) none] ∧
    paraText [.link (.web true "//x.org".toList) none, .piece (.gap 0), .link (.path "/etc".toList) none] = "[[https://x.org]] [[/etc]]\n".toList ∧
    showPara [.link (.raw "https://x.org".toList) none, .leaf .Space [' '], .link (.file "/etc".toList) none] = "https://x.org [[file:/etc]]\n".toList :=
  ⟨⟨⟨⟨by decide +kernel, by decide +kernel, by decide +kernel⟩, by simp, piece_step trivial nofun nofun nofun ⟨rfl, by simp [Item.like]⟩
    ⟨⟨by decide +kernel, .inr rfl⟩, by simp, piece_step trivial nofun nofun nofun (by simp [fits]) trivial⟩⟩, by simp, by simp, by intro i hi; cases hi; rfl⟩,
    sample2_apart, by decide +kernel, by decide +kernel⟩

/-! ## C132 -/

/-- A link with a protocol which org itself does not know: `[[name:rest]]` or `[[name:rest][description]]`. -/
def userLink (name : Text) (ps : List Piece) (d : Option (List Piece)) : List Item := [.link (.user name ps) d]

/-- It leads to what is written after the name of the protocol. -/
def ProtocolStatement : Prop :=
  ∀ name ps d, Protocol name → RowFrom ps → (∀ x ∈ d, DescValid x) → ∀ n, (paraText (userLink name ps d)).length + 4 ≤ n →
    readParas n (paraText (userLink name ps d)) = .ok (.ok [[.link (.user name (rowText ps)) (d.map (·.map leaf))]])

theorem user_linked {name : Text} {ps : List Piece} {d : Option (List Piece)} (hn : Protocol name) (hp : RowFrom ps) (hd : ∀ x ∈ d, DescValid x) :
    Linked (userLink name ps d) :=
  ⟨⟨⟨hn, hp⟩, hd, piece_step trivial nofun nofun nofun (by simp [fits]) trivial⟩, by simp [userLink], by simp [userLink], by intro i hi; cases hi; rfl⟩

/-- C132, for the protocol and the description only: they are kept.  The target is always empty. -/
theorem protocol_partial {name : Text} {ps : List Piece} {d : Option (List Piece)} (hn : Protocol name) (hp : RowFrom ps) (hd : ∀ x ∈ d, DescValid x) {n : Nat}
    (h : (paraText (userLink name ps d)).length + 4 ≤ n) :
    readParas n (paraText (userLink name ps d)) = .ok (.ok [[.link (.user name []) (d.map (·.map leaf))]]) :=
  read_para (user_linked hn hp hd) h

theorem my_protocol : Protocol "my".toList := ⟨by simp, by decide +kernel, by decide +kernel, by decide +kernel⟩

theorem the_row : RowFrom [.word "the".toList] := ⟨sample_words.2.1, nofun, nofun, nofun, by simp [fits, Piece.Alnum], trivial⟩

/-- The target is lost. -/
theorem protocol_false : ¬ ProtocolStatement := by
  intro h
  have := h "my".toList [.word "the".toList] none my_protocol the_row (by simp) 30 (by decide +kernel)
  rw [protocol_partial my_protocol the_row (by simp) (by decide +kernel)] at this
  exact absurd this (by decide +kernel)

example : Protocol "my".toList ∧ RowFrom [.word "the".toList] ∧ paraText (userLink "my".toList [.word "the".toList] none) = "[[my:the]]\n".toList :=
  ⟨my_protocol, the_row, by decide +kernel⟩

/-- Protocols which start like a known one are read as that one, or lose their target too. -/
theorem protocol_prefix :
    readParas 30 "[[fileserver:x]]\n".toList = .ok (.ok [[.link (.file "server:x".toList) none]]) ∧
    readParas 30 "[[identity:x]]\n".toList = .ok (.ok [[.link (.user "identity".toList []) none]]) := by decide +kernel

end Verif.Link
