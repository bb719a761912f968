import Verif.Stamp.Parse

/-!
# Parsing of documents with timestamps
-/

namespace Verif.Stamp
open Verif.Lexer Verif.NodeGroup Verif.NodeGroup.Spec
open Verif.Parser hiding TK Does does_bind does_ret does_seq does_if_true does_if_false does_at does_finished does_next does_expect does_skip does_popAny does_popAs
  does_empty does_node does_sub does_while_stop does_while_step groupRest_eq
open Verif.Pipeline hiding render render_cons
open Verif.Token (TK)

/-! ## Is it a range? -/

theorem range_skip {a ks : List TK} (h : ∀ k ∈ a, k ∈ timeTokens ∧ k ≠ .AngleEnd ∧ k ≠ .BraceEnd) : isTimeRange (a ++ ks) = isTimeRange ks := by
  induction a with
  | nil => rfl
  | cons k a ih =>
    obtain ⟨h1, h2, h3⟩ := h k List.mem_cons_self
    have ih := ih fun x hx => h x (List.mem_cons_of_mem _ hx)
    rw [List.cons_append, isTimeRange, if_pos h1]
    · exact ih
    all_goals
      intro _ he
      first | exact absurd he h2 | exact absurd he h3

/-- All of a timestamp but the closing bracket. -/
theorem body_tokens (s : Stamp) : ∃ a, stampK s = a ++ [endK s] ∧ ∀ k ∈ a, k ∈ timeTokens ∧ k ≠ .AngleEnd ∧ k ≠ .BraceEnd := by
  refine ⟨beginK s :: .Date :: (nameK s ++ (clockK s ++ (zoneK s ++ (repsK s.reps ++ warnK s)))), by simp [stampK], ?_⟩
  have hg : ∀ n, ∀ k ∈ gapK n, k ∈ timeTokens ∧ k ≠ .AngleEnd ∧ k ≠ .BraceEnd := by
    intro n
    unfold gapK
    split
    · simp
    · decide
  have hr : ∀ rs, ∀ k ∈ repsK rs, k ∈ timeTokens ∧ k ≠ .AngleEnd ∧ k ≠ .BraceEnd := by
    intro rs
    induction rs with
    | nil => simp [repsK]
    | cons r rs ih =>
      intro k hk
      simp only [repsK, List.mem_append, List.mem_cons] at hk
      rcases hk with hk | rfl | rfl | hk
      · exact hg _ k hk
      · decide
      · decide
      · exact ih k hk
  intro k hk
  simp only [List.mem_cons, List.mem_append] at hk
  rcases hk with rfl | rfl | hk | hk | hk | hk | hk
  · unfold beginK; cases s.active <;> decide
  · decide
  · revert hk k
    unfold nameK
    cases s.dayName with
    | none => simp
    | some x => exact (by decide : ∀ k ∈ gapK 1 ++ [TK.Word], k ∈ timeTokens ∧ k ≠ TK.AngleEnd ∧ k ≠ TK.BraceEnd)
  · revert hk k
    unfold clockK
    cases s.clock with
    | none => simp
    | some x => exact (by decide : ∀ k ∈ gapK 1 ++ [TK.Time], k ∈ timeTokens ∧ k ≠ TK.AngleEnd ∧ k ≠ TK.BraceEnd)
  · revert hk k
    unfold zoneK
    cases s.zone with
    | none => simp
    | some x => exact (by decide : ∀ k ∈ gapK 1 ++ [TK.StrikeBegin, TK.Number], k ∈ timeTokens ∧ k ≠ TK.AngleEnd ∧ k ≠ TK.BraceEnd)
  · exact hr _ k hk
  · unfold warnK at hk
    cases hw : s.warning with
    | none => rw [hw] at hk; cases hk
    | some x =>
      rw [hw] at hk
      rcases List.mem_append.mp hk with hk | hk
      · exact hg _ k hk
      · rw [List.mem_singleton.mp hk]; decide

theorem range_yes {a b : Stamp} (h : a.active = b.active) (ks : List TK) : isTimeRange (stampK a ++ .DoubleDash :: (stampK b ++ ks)) = true := by
  obtain ⟨u, hu, hk⟩ := body_tokens a
  rw [hu, List.append_assoc, range_skip hk]
  unfold stampK endK beginK
  rw [h]
  cases b.active <;> simp [isTimeRange, timeTokens]

theorem range_past {s : Stamp} {ks : List TK} (h : ks.head? ≠ some .DoubleDash) : isTimeRange (stampK s ++ ks) = isTimeRange ks := by
  obtain ⟨u, hu, hk⟩ := body_tokens s
  rw [hu, List.append_assoc, range_skip hk]
  unfold endK
  cases ks with
  | nil => cases s.active <;> simp [isTimeRange, timeTokens]
  | cons k ks =>
    have hk : k ≠ .DoubleDash := by simpa using h
    have ht : (if s.active = true then TK.AngleEnd else .BraceEnd) ∈ timeTokens := by cases s.active <;> decide
    rw [List.singleton_append, isTimeRange, if_pos ht]
    all_goals
      intro _ _ he
      injection he with he _
      exact absurd he hk

/-! ## Pieces -/

theorem piece_role {p : Piece} (hv : p.Valid) (h1 : p ≠ .star) (h2 : p ≠ .slash) (h3 : ∀ n, p ≠ .brk (n + 1)) :
    role (finalKind p.kind p.text) = .plain p.leafKind := by
  cases p with
  | word w =>
    show role (if ∀ c ∈ w, ('A' ≤ c ∧ c ≤ 'Z') ∨ c = '_' then .BigIdent else .Word) = .plain (if ∀ c ∈ w, ('A' ≤ c ∧ c ≤ 'Z') ∨ c = '_' then .BigIdent else .Word)
    by_cases hw : ∀ c ∈ w, ('A' ≤ c ∧ c ≤ 'Z') ∨ c = '_'
    · rw [if_pos hw, if_pos hw]; rfl
    · rw [if_neg hw, if_neg hw]; rfl
  | number ds => rfl
  | gap n => rfl
  | brk n =>
    match n with
    | 0 => rfl
    | n + 1 => exact absurd rfl (h3 n)
  | colon => rfl
  | star => exact absurd rfl h1
  | slash => exact absurd rfl h2
  | glyph u =>
    rcases hv with ⟨x, rfl, hx⟩ | ⟨a, b, rfl, -⟩ | ⟨a, b, d, rfl, -⟩
    · simp only [marksTable, List.map_cons, List.map_nil, List.mem_cons, List.not_mem_nil, or_false] at hx
      rcases hx with h | h | h | h | h | h | h | h | h <;> subst h <;> rfl
    · rfl
    · rfl

/-- Pieces which are not words, numbers or spaces end the search for a range. -/
theorem piece_stops {p : Piece} (hv : p.Valid) (h1 : p ≠ .star) (h2 : p ≠ .slash) (h3 : ∀ n, p ≠ .brk (n + 1)) :
    (∃ w, p = .word w) ∨ (∃ w, p = .number w) ∨ (∃ w, p = .gap w) ∨ finalKind p.kind p.text ∉ timeTokens := by
  cases p with
  | word w => exact .inl ⟨w, rfl⟩
  | number w => exact .inr (.inl ⟨w, rfl⟩)
  | gap w => exact .inr (.inr (.inl ⟨w, rfl⟩))
  | brk n =>
    match n with
    | 0 => exact .inr (.inr (.inr (by decide)))
    | n + 1 => exact absurd rfl (h3 n)
  | colon => exact .inr (.inr (.inr (by decide)))
  | star => exact absurd rfl h1
  | slash => exact absurd rfl h2
  | glyph u =>
    refine .inr (.inr (.inr ?_))
    rcases hv with ⟨x, rfl, hx⟩ | ⟨a, b, rfl, -⟩ | ⟨a, b, d, rfl, -⟩
    · simp only [marksTable, List.map_cons, List.map_nil, List.mem_cons, List.not_mem_nil, or_false] at hx
      rcases hx with h | h | h | h | h | h | h | h | h <;> subst h <;> decide
    · simp [Piece.kind, glyphKind, finalKind, timeTokens]
    · simp [Piece.kind, glyphKind, finalKind, timeTokens]

/-! ## The documents -/

def itemF (i : Nat) : Item → Forest NK Unit
  | .piece p => .leaf p.leafKind (.tok i) .nil
  | .stamp s => stampF i s
  | .range a b => .tree .TimeRange ((stampF i a).append ((stampF (i + (stampK a).length + 1) b).append (.leaf .Empty (.mono ()) .nil))) .nil

def docF : Nat → List Item → Forest NK Unit
  | _, [] => .nil
  | i, it :: r => (itemF i it).append (docF (i + it.raw.length) r)

def docK (is : List Item) : List TK := kinds (docRaw is)

theorem docK_cons (i : Item) (r : List Item) : docK (i :: r) = kinds i.raw ++ docK r := by
  unfold docK docRaw
  rw [List.map_cons, List.flatten_cons, kinds_append]

theorem kinds_length (r : Raw) : (kinds r).length = r.length := by simp [kinds, final]

theorem kinds_range {a b : Stamp} (ha : a.Valid) (hb : b.Valid) : kinds (Item.raw (.range a b)) = stampK a ++ .DoubleDash :: stampK b := by
  rw [Item.raw, kinds_append, kinds_append, kinds_stamp ha, kinds_stamp hb]
  rfl

theorem role_plain_ne {k : TK} {nk : NK} (h : role k = .plain nk) {k' : TK} (h' : ∀ nk, role k' ≠ .plain nk) : k ≠ k' := by
  rintro rfl
  exact h' nk h

theorem final_calm {k : TK} (u : Drawer.Text) (h : k ∈ calmKinds) : finalKind k u = .BigIdent ∨ finalKind k u = k := by
  have hne : ∀ k ∈ calmKinds, k ≠ TK.Plus := by decide
  unfold finalKind
  by_cases hw : k = .Word
  · subst hw
    rw [if_pos rfl]
    split_ifs <;> simp
  · rw [if_neg hw, if_neg (hne k h)]
    exact .inr rfl

/-- All kinds of the document. -/
theorem docK_kinds {b : Bool} {is : List Item} (h : DatedFrom b is) : ∀ k ∈ docK is, k ∈ TK.BigIdent :: .StrikeBegin :: calmKinds := by
  have hc := calm_items h
  unfold docK
  clear h
  revert hc
  generalize docRaw is = raw
  intro hc
  induction hc with
  | nil => simp [kinds, final]
  | @one k u r hk _ ih =>
    intro x hx
    rcases List.mem_cons.mp (show x ∈ finalKind k u :: kinds r from hx) with rfl | hx
    · rcases final_calm u hk with he | he <;> rw [he]
      · exact List.mem_cons_self
      · exact List.mem_cons_of_mem _ (List.mem_cons_of_mem _ hk)
    · exact ih x hx
  | @zone g d r _ ih =>
    intro x hx
    have hx : x ∈ TK.Whitespace :: .StrikeBegin :: .Number :: kinds r := hx
    simp only [List.mem_cons] at hx
    rcases hx with rfl | rfl | rfl | hx
    · decide
    · decide
    · decide
    · exact ih x hx

/-- After a timestamp there is no dash. -/
theorem no_dash {b : Bool} {r : List Item} (h : DatedFrom b r) (hp : ∃ i ∈ r.head?, i.isPiece = true) : (docK r).head? ≠ some .DoubleDash := by
  obtain ⟨i, hi, hp⟩ := hp
  cases r with
  | nil => cases hi
  | cons j r =>
    cases hi
    cases i with
    | stamp s => cases hp
    | range x y => cases hp
    | piece p =>
      obtain ⟨h1, h2, h3, h4, -, -⟩ := h
      rw [docK_cons]
      show some (finalKind p.kind p.text) ≠ _
      intro he
      injection he with he
      cases p with
      | word w => simp only [Piece.kind, finalKind, if_true] at he; split_ifs at he
      | number w => cases he
      | gap w => cases he
      | colon => cases he
      | star => exact h2 rfl
      | slash => exact h3 rfl
      | brk n =>
        cases n with
        | zero => cases he
        | succ n => exact h4 n rfl
      | glyph u =>
        rcases h1 with ⟨x, rfl, hx⟩ | ⟨a, b, rfl, -⟩ | ⟨a, b, d, rfl, -⟩
        · simp only [marksTable, List.map_cons, List.map_nil, List.mem_cons, List.not_mem_nil, or_false] at hx
          rcases hx with h | h | h | h | h | h | h | h | h <;> subst h <;> cases he
        · cases he
        · cases he

theorem range_no {b : Bool} {r : List Item} (h : DatedFrom b r) (hr : rangeAhead r = false) : isTimeRange (docK r) = false := by
  induction r generalizing b with
  | nil => rfl
  | cons i r ih =>
    cases i with
    | piece p =>
      obtain ⟨h1, h2, h3, h4, h5, h6⟩ := h
      have e : docK (.piece p :: r) = finalKind p.kind p.text :: docK r := docK_cons _ _
      rw [e]
      have go : rangeAhead r = false → finalKind p.kind p.text ∈ [TK.BigIdent, .Word, .Number, .Whitespace] →
          isTimeRange (finalKind p.kind p.text :: docK r) = false := by
        intro hr hk
        have ih := ih h6 hr
        simp only [List.mem_cons, List.not_mem_nil, or_false] at hk
        rcases hk with hk | hk | hk | hk <;> rw [hk]
        · simp [isTimeRange, timeTokens]
        all_goals
          have := range_skip (a := [_]) (ks := docK r) (by
            intro k hk; rw [List.mem_singleton.mp hk]; first | exact (by decide : TK.Word ∈ timeTokens ∧ TK.Word ≠ .AngleEnd ∧ TK.Word ≠ .BraceEnd) | exact (by decide : TK.Number ∈ timeTokens ∧ TK.Number ≠ .AngleEnd ∧ TK.Number ≠ .BraceEnd) | exact (by decide : TK.Whitespace ∈ timeTokens ∧ TK.Whitespace ≠ .AngleEnd ∧ TK.Whitespace ≠ .BraceEnd))
          exact this.trans ih
      rcases piece_stops h1 h2 h3 h4 with ⟨w, rfl⟩ | ⟨w, rfl⟩ | ⟨w, rfl⟩ | hp
      · refine go hr ?_
        simp only [Piece.kind, finalKind, if_true]
        split_ifs <;> simp
      · exact go hr (by simp [Piece.kind, finalKind])
      · exact go hr (by simp [Piece.kind, finalKind])
      · unfold isTimeRange
        rw [if_neg hp]
    | stamp s =>
      obtain ⟨h1, h2, h3, h4⟩ := h
      rw [docK_cons, Item.raw, kinds_stamp h1, range_past (no_dash h4 h2)]
      exact ih h4 h3
    | range x y => cases hr

/-! ## Parsing -/

section
variable (t : Texts) {n : Nat}

theorem does_date {s : Stamp} {w : List (Nat × TK)} (i : Nat) :
    Does (atP [.Date] 1) true (numbered i (stampK s) ++ w) (numbered i (stampK s) ++ w) .nil := by
  have := does_at [.Date] 1 (numbered i (stampK s) ++ w)
  simpa [stampK, numbered_cons] using this

theorem does_single {s : Stamp} {w : List (Nat × TK)} (i : Nat) (hn : (stampK s).length + w.length ≤ n)
    (hr : isTimeRange (stampK s ++ w.map Prod.snd) = false) : Does (parseTimeRange t n) () (numbered i (stampK s) ++ w) w (stampF i s) := by
  refine does_if_false (does_ask fun l hc hs => ?_) (does_sub t (does_stamp t i hn))
  rw [groupRest_eq hc hs, List.map_append, numbered_snd, hr]

theorem does_range {a b : Stamp} {w : List (Nat × TK)} (i : Nat) (hn : (stampK a).length + (stampK b).length + 1 + w.length ≤ n)
    (hab : a.active = b.active) (hw : ∀ p ∈ w, p.2 ≠ .TimeArrow) :
    Does (parseTimeRange t n) () (numbered i (stampK a ++ .DoubleDash :: stampK b) ++ w) w (itemF i (.range a b)) := by
  have e : numbered i (stampK a ++ .DoubleDash :: stampK b) ++ w = numbered i (stampK a) ++
      ((i + (stampK a).length, TK.DoubleDash) :: (numbered (i + (stampK a).length + 1) (stampK b) ++ w)) := by
    rw [numbered_append, numbered_cons, List.append_assoc, List.cons_append]
  refine does_if_true (does_ask fun l hc hs => ?_) ?_
  · rw [groupRest_eq hc hs, List.map_append, numbered_snd]
    have := range_yes hab (w.map Prod.snd)
    rw [List.append_assoc, List.cons_append, this]
  · refine does_node _ ?_
    rw [e]
    refine does_bind (a := ()) (does_sub t (does_stamp t i (by simp [numbered_length]; omega))) (does_seq (a := ()) (does_skip t (List.mem_singleton.mpr rfl)) ?_)
    refine does_bind (a := ()) (does_sub t (does_stamp t _ (by omega))) (does_if_false (does_find_none (by omega) ?_) (does_empty _))
    intro p hp
    simpa using hw p hp

variable (par text : P Unit)

theorem does_fold {b : Bool} {is : List Item} (h : DatedFrom b is) : ∀ (i m : Nat), (docK is).length ≤ m → (docK is).length ≤ n →
    Does (foldAux t par text n m) () (numbered i (docK is)) [] (docF i is) := by
  induction is generalizing b with
  | nil =>
    intro i m _ _
    cases m <;> exact does_if_true (does_finished []) (does_ret _ _)
  | cons it r ih =>
    intro i m hm hn
    have hpos : 0 < (kinds it.raw).length := by
      cases it <;> simp [kinds, final, Item.raw, Stamp.raw]
    rw [docK_cons, List.length_append] at hm hn
    obtain ⟨m, rfl⟩ : ∃ j, m = j + 1 := ⟨m - 1, by omega⟩
    have step : ∀ {b'}, DatedFrom b' r → Does (foldSingle t par text n (foldAux t par text n m)) ()
        (numbered i (kinds it.raw) ++ numbered (i + it.raw.length) (docK r)) (numbered (i + it.raw.length) (docK r)) (itemF i it) →
        Does (foldAux t par text n (m + 1)) () (numbered i (docK (it :: r))) [] (docF i (it :: r)) := by
      intro b' hr hs
      rw [docK_cons, numbered_append, kinds_length]
      refine does_if_false ?_ (does_bind (a := ()) (does_ignore hs) (ih hr _ m (by omega) (by omega)))
      have := does_finished (numbered i (kinds it.raw) ++ numbered (i + it.raw.length) (docK r))
      rwa [show (numbered i (kinds it.raw) ++ numbered (i + it.raw.length) (docK r)).isEmpty = false from by
        cases hk : kinds it.raw with
        | nil => rw [hk] at hpos; cases hpos
        | cons x xs => rfl] at this
    -- a timestamp or a range
    have time : ∀ {s : Stamp} {u : List TK} {w : List (Nat × TK)} {f : Forest NK Unit}, Does (parseTimeRange t n) () (numbered i (stampK s ++ u) ++ w) w f →
        Does (foldSingle t par text n (foldAux t par text n m)) () (numbered i (stampK s ++ u) ++ w) w f := by
      intro s u w f hd
      have hcons : numbered i (stampK s ++ u) ++ w = (i, beginK s) :: (numbered (i + 1) ((stampK s).tail ++ u) ++ w) := by
        simp [stampK, numbered_cons]
      have hat : Does (atP [.Date] 1) true (numbered i (stampK s ++ u) ++ w) (numbered i (stampK s ++ u) ++ w) .nil := by
        have := does_at [.Date] 1 (numbered i (stampK s ++ u) ++ w)
        simpa [stampK, numbered_cons] using this
      rw [hcons] at hat hd ⊢
      refine does_seq (does_kind _ _ _) ?_
      have hgo := does_if_true (q := subP t parsePlaceholder) hat (does_sub t hd)
      have hgo' := does_if_true (q := popAny .Punctuation) hat (does_sub t hd)
      unfold beginK at hgo hgo' ⊢
      cases hs : s.active with
      | true => rw [hs] at hgo; exact hgo
      | false => rw [hs] at hgo'; exact hgo'
    cases it with
    | piece p =>
      obtain ⟨h1, h2, h3, h4, h5, h6⟩ := h
      refine step h6 ?_
      obtain ⟨k1, k2⟩ := role_plain (piece_role h1 h2 h3 h4) t par text n
      show Does _ () ((i, finalKind p.kind p.text) :: numbered (i + 1) (docK r)) (numbered (i + 1) (docK r)) (.leaf p.leafKind (.tok i) .nil)
      refine does_seq (does_kind _ _ _) ?_
      rw [k1]
      dsimp only
      rw [k2]
      exact does_popAny _ _ _ _
    | stamp s =>
      obtain ⟨h1, h2, h3, h4⟩ := h
      refine step h4 ?_
      have hk : kinds (Item.raw (.stamp s)) = stampK s := kinds_stamp h1
      rw [hk] at hn ⊢
      have hd : Does (parseTimeRange t n) () (numbered i (stampK s) ++ numbered (i + (Item.raw (.stamp s)).length) (docK r))
          (numbered (i + (Item.raw (.stamp s)).length) (docK r)) (stampF i s) := by
        refine does_single t i (by rw [numbered_length]; omega) ?_
        rw [numbered_snd, range_past (no_dash h4 h2)]
        exact range_no h4 h3
      have := time (s := s) (u := []) (f := stampF i s) (w := numbered (i + (Item.raw (.stamp s)).length) (docK r)) (by rw [List.append_nil]; exact hd)
      rwa [List.append_nil] at this
    | range x y =>
      obtain ⟨h1, h2, h3, h4, h5⟩ := h
      refine step h5 ?_
      rw [kinds_range h1 h2] at hn ⊢
      refine time (does_range t i (by simp [numbered_length] at hn ⊢; omega) h3 ?_)
      intro p hp
      have hm : p.2 ∈ docK r := by
        have := List.mem_map_of_mem (f := Prod.snd) hp
        rwa [numbered_snd] at this
      have := docK_kinds h5 _ hm
      rintro he
      rw [he] at this
      exact absurd this (by decide)

end

/-! ## The document -/

theorem does_paragraph (t : Texts) {is : List Item} {b : Bool} (h : DatedFrom b is) {n : Nat} (hn : (docK is).length + 2 ≤ n) :
    Does (parseParagraph t n) () (numbered 1 (docK is)) [] (.tree .Paragraph (docF 1 is) .nil) := by
  obtain ⟨n, rfl⟩ : ∃ m, n = m + 2 := ⟨n - 2, by omega⟩
  rw [parseParagraph]
  refine does_node _ ?_
  rw [parseText]
  intro s hv hs
  obtain ⟨l, h1, h2, h3⟩ := does_ignore (does_fold t (n := n) (parseParagraph t n) (parseText t n) h 1 n (by omega) (by omega)) s hv hs
  refine ⟨l, ?_, h2, h3⟩
  unfold checkedText
  rw [h1]
  simp

theorem docK_length (is : List Item) : (docK is).length = (docRaw is).length := kinds_length _

/-- The first token of a document starts a paragraph. -/
theorem first_kind {is : List Item} (h : Dated is) : ∃ k r, docK is = k :: r ∧ k ∈ [TK.Word, .BigIdent, .Comma, .Semicolon, .Exclamation, .ParBegin, .ParEnd,
    .DoubleQuote, .Percent, .Punctuation, .AnyPunct, .AngleBegin, .BraceBegin] := by
  obtain ⟨h1, h2, h3⟩ := h
  cases is with
  | nil => cases h3
  | cons i r =>
    rw [docK_cons]
    cases i with
    | stamp s => exact ⟨_, _, by rw [Item.raw, kinds_stamp h1.1]; rfl, by unfold beginK; cases s.active <;> decide⟩
    | range x y => exact ⟨_, _, by rw [kinds_range h1.1 h1.2.1]; rfl, by unfold beginK; cases x.active <;> decide⟩
    | piece p =>
      refine ⟨finalKind p.kind p.text, docK r, rfl, ?_⟩
      obtain ⟨k1, k2, k3, k4, k5, k6⟩ := h1
      cases p with
      | word w => simp only [Piece.kind, finalKind, if_true]; split_ifs <;> simp
      | number w => exact absurd k5.1 (by decide)
      | gap w => exact absurd k5.1 (by decide)
      | colon => exact absurd k5.1 (by decide)
      | star => exact absurd rfl k2
      | slash => exact absurd rfl k3
      | brk n =>
        cases n with
        | zero => exact absurd rfl h2
        | succ n => exact absurd rfl (k4 n)
      | glyph u =>
        rcases k1 with ⟨x, rfl, hx⟩ | ⟨a, b, rfl, -⟩ | ⟨a, b, d, rfl, -⟩
        · simp only [marksTable, List.map_cons, List.map_nil, List.mem_cons, List.not_mem_nil, or_false] at hx
          rcases hx with h | h | h | h | h | h | h | h | h <;> subst h <;> decide
        · simp [Piece.kind, glyphKind, finalKind]
        · simp [Piece.kind, glyphKind, finalKind]

theorem dated_parse (t : Texts) {is : List Item} (h : Dated is) {n : Nat} (hn : (docK is).length + 4 ≤ n) :
    ∃ l, parseTop t n (start (docK is)) = .ok (some (), ⟨l, ⟨(Forest.tree .StmtList (.tree .Paragraph (docF 1 is) .nil) .nil).flat, []⟩⟩) := by
  obtain ⟨k, r, hk, hm⟩ := first_kind h
  have hne : docK is ≠ [] := by rw [hk]; simp
  have hnum : number (docK is) = numbered 1 (docK is) := rfl
  have hcur := cur_main hne
  -- the statement
  have stmt : ∀ (n : Nat) (s : Parser.St), (docK is).length + 4 ≤ n → Cur s.lex (numbered 1 (docK is)) → s.lex.toks = docK is →
      ∃ l, parseStmt t n s = .ok (some (), ⟨l, ⟨s.g.nodes ++ (Forest.tree .Paragraph (docF 1 is) .nil).flat, s.g.pending⟩⟩) ∧ Cur l [] := by
    intro n s hn hv htoks
    obtain ⟨n, rfl⟩ : ∃ m, n = m + 1 := ⟨n - 1, by omega⟩
    have hv' : Cur s.lex ((1, k) :: numbered 2 r) := by rw [hk, numbered_cons] at hv; exact hv
    rw [parseStmt, bind_ok (kind_ok hv')]
    have e : k ≠ .SubtreeStars ∧ k ≠ .Indent ∧ k ≠ .Whitespace ∧ k ∉ newlineKinds ∧ k ≠ .TextSeparator ∧ k ∉ [TK.TableSeparator, .LeadingPipe] ∧
        k ≠ .ColonExampleLine ∧ k ≠ .CmdPrefix := by
      revert hm
      generalize k = x
      revert x
      decide
    obtain ⟨e1, e2, e3, e4, e5, e6, e7, e8⟩ := e
    rw [if_neg e1, if_neg e2, if_neg e3, if_neg e4, if_neg e5, if_neg e6, if_neg e7, if_neg e8]
    obtain ⟨l, h1, h2, h3⟩ := collect_text (u := numbered 1 (docK is)) (r := []) (kinds := paragraphTerminator)
      (fun p hp => by
        have : p.2 ∈ docK is := by
          have := List.mem_map_of_mem (f := Prod.snd) hp
          rwa [numbered_snd] at this
        have := docK_kinds h.from_ _ this
        revert this
        generalize p.2 = x
        revert x
        decide)
      (by simp) n (by rw [numbered_length]; omega) s (by rw [List.append_nil]; exact hv)
    unfold plainParagraph
    rw [bind_ok h1]
    have hval : Valid s.lex.toks (numbered 1 (docK is)) := cur_valid hv
    obtain ⟨l', q1, q2, q3⟩ := does_paragraph t h.from_ (n := n) (by omega)
      ⟨Lex.ofIds l.toks ((numbered 1 (docK is)).map Prod.fst), s.g⟩ (cur_sub (h3.1 ▸ hval)) ⟨0, by
        show numbered 1 (docK is) = numbered 1 (List.drop 0 l.toks)
        rw [h3.1, htoks, List.drop_zero]⟩
    refine ⟨l, ?_, h2⟩
    have hids : (numbered 1 (docK is)).map Prod.fst = 1 :: (numbered 2 r).map Prod.fst := by rw [hk, numbered_cons]; rfl
    rw [hids] at q1 ⊢
    dsimp only
    unfold withIds withLex
    dsimp only
    rw [q1]
  obtain ⟨n', rfl⟩ : ∃ m, n = m + 1 := ⟨n - 1, by omega⟩
  let s0 : Parser.St := ⟨Lex.main (docK is), ((start (docK is)).g.startTree ⟨.StmtList, .ext 0⟩).1⟩
  have hcur0 : Cur s0.lex (numbered 1 (docK is)) := hcur
  obtain ⟨l1, q1, q2⟩ := stmt (n' + 1) s0 hn hcur0 rfl
  have hcur1 : Cur s0.lex ((1, k) :: numbered 2 r) := by rw [hk, numbered_cons] at hcur0; exact hcur0
  have hround := loop_round (n := n') (m := n' + 1) hcur1 (by
      rintro rfl
      exact absurd hm (by decide)) q1
  have hend : ∀ (s : Parser.St), Cur s.lex [] → ∀ (c : Parser.P Unit) (m : Nat), whileP (notP finishedP) c m s = .ok (some (), s) := by
    intro s hs c m
    have h1 : notP finishedP s = .ok (some false, s) := bind_ok (finished_nil hs)
    cases m <;> exact ifP_false h1
  rw [hend ⟨l1, _⟩ q2] at hround
  refine ⟨l1, ?_⟩
  unfold parseTop node
  rw [show (⟨(start (docK is)).lex, ((start (docK is)).g.startTree ⟨.StmtList, .ext 0⟩).1⟩ : Parser.St) = s0 from rfl]
  erw [hround]
  have e := endTree_close ([] : List (Node NK Unit)) (Forest.tree .Paragraph (docF 1 is) .nil).flat (.StmtList : NK) []
  simp only [List.nil_append, List.length_nil, Nat.zero_add] at e
  have hg : guardEnd (start (docK is)).g.pending.length
      (⟨((start (docK is)).g.startTree ⟨.StmtList, .ext 0⟩).1.nodes ++ (Forest.tree .Paragraph (docF 1 is) .nil).flat,
        ((start (docK is)).g.startTree ⟨.StmtList, .ext 0⟩).1.pending⟩ : Group NK Unit)
      = .ok ⟨⟨.StmtList, .ext (Forest.tree .Paragraph (docF 1 is) .nil).flat.length⟩ :: (Forest.tree .Paragraph (docF 1 is) .nil).flat, []⟩ := by
    unfold guardEnd
    have : (⟨((start (docK is)).g.startTree ⟨.StmtList, .ext 0⟩).1.nodes ++ (Forest.tree .Paragraph (docF 1 is) .nil).flat,
        ((start (docK is)).g.startTree ⟨.StmtList, .ext 0⟩).1.pending⟩ : Group NK Unit)
        = ⟨⟨.StmtList, .ext 0⟩ :: (Forest.tree .Paragraph (docF 1 is) .nil).flat, [1]⟩ := by simp [start, Group.startTree]
    rw [this, e]
    rfl
  dsimp only at hg ⊢
  rw [hg]
  simp [Forest.flat, flat_length, Forest.count, Int.add_comm]

/-- From the text to the nodes. -/
theorem dated_nodes {is : List Item} (h : Dated is) {n : Nat} (hn : (docRaw is).length + 4 ≤ n) :
    parse BaseLexer.stdLex n (render is) =
      .ok (placed 0 (final (docRaw is)), (Forest.tree NK.StmtList (.tree .Paragraph (docF 1 is) .nil) .nil).flat) := by
  have hpk : ∀ (r : Raw) pos, (placed pos r).map (·.kind) = r.map Prod.fst := by
    intro r
    induction r with
    | nil => intro pos; rfl
    | cons x r ih => intro pos; simp [placed, ih]
  obtain ⟨l, hl⟩ := dated_parse (texts (placed 0 (final (docRaw is)))) h (n := n) (by rw [docK_length]; exact hn)
  unfold parse
  rw [dated_tokens h.from_]
  simp only
  rw [hpk]
  have hl' : parseTop (texts (placed 0 (final (docRaw is)))) n ⟨Lexer.Lex.main ((final (docRaw is)).map Prod.fst), {}⟩ = _ := hl
  rw [hl']

end Verif.Stamp
