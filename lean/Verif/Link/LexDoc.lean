import Verif.Link.Lex

/-!
# Lexing of documents with links
-/

namespace Verif.Link
open Verif.Token Verif.BaseLexer Verif.Pipeline
open Verif.Stamp (Raw placed placed_append rawText Unit1 Run Next next_begins run_piece)
open Verif.Drawer (Text)

def rowRaw (ps : List Piece) : Raw := ps.map fun p => (p.kind, p.text)

/-- The name of a person. -/
def Head.row : Head → List Piece
  | .person ps | .user _ ps => ps
  | _ => []

def descRaw : Option (List Piece) → Raw
  | none => []
  | some d => [(.LinkSplit, "][".toList)] ++ rowRaw d

def Item.raw : Item → Raw
  | .piece p => [(p.kind, p.text)]
  | .link h d => [(.LinkBegin, "[[".toList)] ++ h.raw ++ (rowRaw h.row ++ (descRaw d ++ [(.LinkEnd, "]]".toList)]))
  | .url s r => Head.raw (.web s r)
  | .note t => [(.FootnoteLinked, noteText t)]

def docRaw (is : List Item) : Raw := (is.map Item.raw).flatten

theorem render_cons (i : Item) (r : List Item) : render (i :: r) = i.text ++ render r := rfl

theorem docRaw_cons (i : Item) (r : List Item) : docRaw (i :: r) = i.raw ++ docRaw r := rfl

/-! ## What follows a piece -/

theorem next_glyph {c x : Char} {v : Text} (hx : x ∈ marksTable.map (·.1)) (h : c = '[' ∨ c = ']') : Next (some (.glyph [x])) (c :: v) := by
  have hne : ∀ y, y ≠ '[' → y ≠ ']' → (c :: v).head? ≠ some y := by
    intro y h1 h2 he
    simp only [List.head?_cons, Option.some.injEq] at he
    rcases h with rfl | rfl
    · exact h1 he.symm
    · exact h2 he.symm
  refine ⟨hne _ (by decide) (by decide), fun _ => hne _ (by decide) (by decide), fun _ => hne _ (by decide) (by decide),
    fun _ => hne _ (by decide) (by decide), fun _ => ?_, nofun⟩
  intro y hy
  cases hy
  rcases h with rfl | rfl <;> decide

theorem next_web (s : Bool) (r v : Text) : Next (some (.word ['h'])) (webText s r ++ v) := by
  obtain ⟨w, hw⟩ : ∃ w, webText s r ++ v = 'h' :: w := by cases s <;> exact ⟨_, rfl⟩
  rw [hw]
  refine ⟨by simp, fun _ => by simp, fun _ => by simp, fun _ => by simp, fun h => absurd trivial (h _ rfl), nofun⟩

theorem next_items {b : Bool} {r : List Item} (h : LinkedFrom b r) : Next (r.head?.map Item.like) (render r) := by
  cases r with
  | nil => exact next_begins (.inl ⟨rfl, rfl⟩)
  | cons i r =>
    rw [render_cons]
    cases i with
    | piece p => exact next_begins (.inr ⟨p, render r, rfl, h.1, rfl⟩)
    | link h d => exact next_glyph (x := '(') (by decide) (.inl rfl)
    | url s u => exact next_web s u _
    | note t => exact next_glyph (x := '(') (by decide) (.inl rfl)

/-! ## Rows of pieces -/

theorem run_row {ps : List Piece} (h : RowFrom ps) (v : Text) : Run false (rowText ps) (']' :: v) false (rowRaw ps) := by
  induction ps with
  | nil => exact Run.nil _ _
  | cons p r ih =>
    obtain ⟨h1, h2, h3, h4, h5, h6⟩ := h
    have hb : p.isBrk = false := by
      cases p with
      | brk n => exact absurd rfl (h4 n)
      | _ => rfl
    have hn : Next (some (r.head?.getD (.glyph [')']))) (rowText r ++ ']' :: v) := by
      cases r with
      | nil => exact next_glyph (by decide) (.inr rfl)
      | cons q r =>
        have : rowText (q :: r) ++ ']' :: v = q.text ++ (rowText r ++ ']' :: v) := by simp [rowText]
        rw [this]
        exact next_begins (.inr ⟨q, _, rfl, h6.1, rfl⟩)
    have := run_piece (v := rowText r ++ ']' :: v) h1 h2 h5 hn
    rw [hb] at this
    exact Run.append this (ih h6)

/-! ## Links -/

theorem run_web {b : Bool} {s : Bool} {r v : Text} (hr : Address r) (hv : ∀ c ∈ v.head?, c = ' ' ∨ c = ']' ∨ c = '\n') :
    Run b (webText s r) v false (Head.raw (.web s r)) := by
  obtain ⟨w, hw⟩ : ∃ w, webText s r ++ v = 'h' :: w := by cases s <;> exact ⟨_, rfl⟩
  have := Run.unit (b := b) (unit_url (secure := s) hr hv) (by cases s <;> exact nofun) (start_web s r) (fun _ => by
    rw [hw]
    exact lineStart_text (by decide) (by decide) (fun hp => by
      have : 'c' = toLower 'h' := (List.cons_prefix_cons.mp hp).1
      exact absurd this (by decide)))
  rwa [show decide ((webText s r).getLast? = some '\n') = false from by
    rw [decide_eq_false_iff_not]
    unfold webText
    rw [List.getLast?_append_of_ne_nil _ (by simp)]
    cases r with
    | nil => simp
    | cons c r =>
      rw [List.getLast?_cons_cons]
      intro hx
      exact (hr.1 _ (List.mem_of_getLast? hx)).2 rfl] at this

theorem run_brace {b : Bool} {u v : Text} {ts : Raw} (h : Unit1 ('[' :: u) v ts (charSwitch stdLex)) (he : rawText ts = '[' :: u) (hn : '\n' ∉ u) :
    Run b ('[' :: u) v false ts := by
  have := Run.unit (b := b) h (by simp) he (fun _ => lineStart_text (by decide) (by decide) (fun hp => by
    have : 'c' = toLower '[' := (List.cons_prefix_cons.mp hp).1
    exact absurd this (by decide)))
  rwa [show decide (('[' :: u).getLast? = some '\n') = false from by
    rw [decide_eq_false_iff_not]
    intro hx
    rcases List.mem_cons.mp (List.mem_of_getLast? hx) with hm | hm
    · exact absurd hm (by decide)
    · exact hn hm] at this

theorem closed_nl {t : Text} (h : Closed t) : '\n' ∉ t := fun hm => (h _ hm).2 rfl

theorem start_nl {h : Head} (hh : h.Valid) : '\n' ∉ h.start := by
  cases h with
  | person ps => exact (show '\n' ∉ "person:".toList by decide)
  | user n ps =>
    rw [start_user]
    intro hm
    rcases List.mem_append.mp hm with hm | hm
    · exact absurd (hh.1.2.1 _ hm) (by decide)
    · exact absurd (List.mem_singleton.mp hm) (by decide)
  | web s r =>
    rw [start_web]
    unfold webText
    intro hm
    rcases List.mem_append.mp hm with hm | hm
    · revert hm; cases s <;> decide
    · rcases List.mem_cons.mp hm with hm | hm
      · exact absurd hm (by decide)
      · exact closed_nl hh.1 hm
  | file p =>
    rw [start_text rfl]
    intro hm
    rcases List.mem_append.mp hm with hm | hm
    · revert hm; decide
    · exact closed_nl hh.1 hm
  | attachment p =>
    rw [start_text rfl]
    intro hm
    rcases List.mem_append.mp hm with hm | hm
    · revert hm; decide
    · exact closed_nl hh.1 hm
  | id p =>
    rw [start_text rfl]
    intro hm
    rcases List.mem_append.mp hm with hm | hm
    · revert hm; decide
    · exact closed_nl hh.1 hm
  | custom t =>
    rw [start_text rfl]
    intro hm
    rcases List.mem_cons.mp hm with hm | hm
    · exact absurd hm (by decide)
    · exact closed_nl hh.1 hm
  | title m g ts =>
    rw [start_text rfl]
    exact closed_nl (closed_append (closed_append (closed_replicate (by decide)) (closed_replicate (by decide))) (closed_join (fun t ht => (hh.2.1 t ht).1)))
  | path p =>
    rw [start_text rfl]
    exact closed_nl hh.1
  | internal t =>
    rw [start_text rfl]
    exact closed_nl hh.1

theorem start_row (h : Head) : h.start ++ rowText h.row = h.text := by
  cases h with
  | person ps => rfl
  | user n ps => rw [start_user]; exact List.append_assoc _ _ _
  | _ => rw [start_text rfl]; exact List.append_nil _

theorem run_desc {d : Option (List Piece)} (hd : ∀ x ∈ d, DescValid x) (v : Text) :
    Run false (descText d ++ "]]".toList) v false (descRaw d ++ [(.LinkEnd, "]]".toList)]) := by
  have he : Run false "]]".toList v false [(.LinkEnd, "]]".toList)] := Run.inner unit_end nofun rfl (by decide)
  cases d with
  | none => exact he
  | some d =>
    have h1 : Run false "][".toList ((rowText d ++ "]]".toList) ++ v) false [(.LinkSplit, "][".toList)] :=
      Run.inner unit_split nofun rfl (by decide)
    have h2 := run_row (hd d rfl).1 (']' :: v)
    have h3 := Run.append h1 (Run.append (u' := "]]".toList) (v := v) h2 he)
    rw [descText, descRaw, List.append_assoc, List.append_assoc]
    exact h3

theorem desc_shut (d : Option (List Piece)) (v : Text) : Shut (descText d ++ "]]".toList ++ v) := by
  cases d with
  | none => exact ⟨']', v, rfl, .inl rfl⟩
  | some d => exact ⟨'[', _, rfl, .inr rfl⟩

theorem run_link {b : Bool} {h : Head} {d : Option (List Piece)} (hh : h.Valid) (hd : ∀ x ∈ d, DescValid x) (v : Text) :
    Run b (Item.text (.link h d)) v false (Item.raw (.link h d)) := by
  have h3 := run_desc hd v
  have hrow : RowFrom h.row := by
    cases h with
    | person ps => exact hh
    | user n ps => exact hh.2
    | _ => trivial
  obtain ⟨x, w, hw, hx⟩ := desc_shut d v
  have h2 : Run false (rowText h.row) (descText d ++ "]]".toList ++ v) false (rowRaw h.row) := by
    rw [hw]; exact run_row hrow _
  have h1 : Run b ("[[".toList ++ h.start) ((rowText h.row ++ (descText d ++ "]]".toList)) ++ v) false ([(.LinkBegin, "[[".toList)] ++ h.raw) := by
    refine run_brace (u := '[' :: h.start) (unit_head hh ?_) ?_ ?_
    · intro hp
      have : rowText h.row = [] := by
        cases h with
        | person ps => cases hp
        | user n ps => cases hp
        | _ => rfl
      rw [this]
      exact desc_shut d v
    · show rawText ((TK.LinkBegin, ['[', '[']) :: h.raw) = _
      simp [rawText, Head.start]
    · intro hm
      rcases List.mem_cons.mp hm with hm | hm
      · exact absurd hm (by decide)
      · exact start_nl hh hm
  have h4 := Run.append h1 (Run.append h2 h3)
  have e : Item.text (.link h d) = "[[".toList ++ h.start ++ (rowText h.row ++ (descText d ++ "]]".toList)) := by
    show "[[".toList ++ h.text ++ descText d ++ "]]".toList = _
    rw [← start_row h]
    simp only [List.append_assoc]
  rw [e]
  exact h4

theorem run_note {b : Bool} {t : Text} (hne : t ≠ []) (ht : ∀ c ∈ t, nameChar c = true) (v : Text) :
    Run b (Item.text (.note t)) v false (Item.raw (.note t)) := by
  refine run_brace (u := "fn:".toList ++ t ++ "]".toList) (unit_note hne ht) (List.append_nil _) ?_
  intro hm
  rcases List.mem_append.mp hm with hm | hm
  · rcases List.mem_append.mp hm with hm | hm
    · exact absurd hm (by decide)
    · exact absurd (ht _ hm) (by decide)
  · exact absurd hm (by decide)

theorem blank_head {r : List Item} {b : Bool} (h : LinkedFrom b r) (hb : ∃ i ∈ r.head?, i.isBlank = true) :
    ∀ c ∈ (render r).head?, c = ' ' ∨ c = ']' ∨ c = '\n' := by
  obtain ⟨i, hi, hb⟩ := hb
  cases r with
  | nil => cases hi
  | cons j r =>
    cases hi
    rw [render_cons]
    cases i with
    | piece p =>
      cases p with
      | gap n =>
        intro c hc
        simp only [Item.text, Piece.text, List.replicate_succ, List.cons_append, List.head?_cons] at hc
        cases hc
        exact .inl rfl
      | brk n =>
        intro c hc
        simp only [Item.text, Piece.text, List.replicate_succ, List.cons_append, List.head?_cons] at hc
        cases hc
        exact .inr (.inr rfl)
      | _ => cases hb
    | _ => cases hb

theorem run_items {b : Bool} {is : List Item} (h : LinkedFrom b is) : ∃ b', Run b (render is) [] b' (docRaw is) := by
  induction is generalizing b with
  | nil => exact ⟨b, Run.nil _ _⟩
  | cons i r ih =>
    cases i with
    | piece p =>
      obtain ⟨h1, h2, h3, h4, h5, h6⟩ := h
      obtain ⟨b', hr⟩ := ih h6
      exact ⟨b', Run.append (run_piece h1 h2 h5 (by rw [List.append_nil]; exact next_items h6)) hr⟩
    | link hd d =>
      obtain ⟨h1, h2, h3⟩ := h
      obtain ⟨b', hr⟩ := ih h3
      exact ⟨b', Run.append (run_link h1 h2 _) hr⟩
    | url s u =>
      obtain ⟨h1, h2, h3⟩ := h
      obtain ⟨b', hr⟩ := ih h3
      exact ⟨b', Run.append (run_web h1 (by rw [List.append_nil]; exact blank_head h3 h2)) hr⟩
    | note t =>
      obtain ⟨h1, h2, h3⟩ := h
      obtain ⟨b', hr⟩ := ih h3
      exact ⟨b', Run.append (run_note h1 h2 _) hr⟩

theorem linked_lexed {is : List Item} (h : LinkedFrom true is) : tokenize stdLex (render is) = .ok (placed 0 (docRaw is)) := by
  obtain ⟨b', -, hr⟩ := run_items h
  obtain ⟨j, col', prev', h1, -, h3⟩ := hr (render is).length 0 0 none [] (by simp)
  have := h3 ((render is).length + 1 - j)
  rw [show j + ((render is).length + 1 - j) = (render is).length + 1 by omega, List.append_nil] at this
  unfold tokenize tokenizeSt
  rw [this]
  obtain ⟨k, hk⟩ : ∃ k, (render is).length + 1 - j = k + 1 := ⟨(render is).length - j, by omega⟩
  rw [hk]
  simp [loop]

/-! ## Recombination -/

/-- The kinds of tokens in such documents. -/
def calmKinds : List TK :=
  [.Number, .Whitespace, .Newline, .Colon, .Comma, .Semicolon, .Exclamation, .ParBegin, .ParEnd, .DoubleQuote, .Percent, .Punctuation, .AnyPunct,
   .Word, .LinkBegin, .LinkEnd, .LinkSplit, .LinkProtocolHttp, .LinkProtocolFile, .LinkProtocolAttachment, .LinkProtocolId, .LinkProtocolCustomId,
   .LinkProtocolTitle, .LinkTargetFile, .LinkProtocolInternal, .LinkProtocol, .LinkTarget, .FootnoteLinked]

def Calm (r : Raw) : Prop := ∀ t ∈ r, t.1 ∈ calmKinds

theorem Calm.append {a b : Raw} (ha : Calm a) (hb : Calm b) : Calm (a ++ b) := by
  intro t ht
  rcases List.mem_append.mp ht with ht | ht
  · exact ha t ht
  · exact hb t ht

/-- The final kind of a token. -/
def finalKind (k : TK) (u : Text) : TK :=
  if k = .Word then (if ∀ c ∈ u, ('A' ≤ c ∧ c ≤ 'Z') ∨ c = '_' then .BigIdent else .Word) else k

/-- The final text of a token. -/
def finalText (k : TK) (u : Text) : Text :=
  if k = .FootnoteLinked then Recombine.dropSuffix "]".toList (Recombine.dropPrefix "[fn:".toList u) else u

/-- The tokens of the parser, which have the places of the tokens of the lexer. -/
def placedF : Nat → Raw → List Tok
  | _, [] => []
  | pos, (k, u) :: ts => ⟨finalKind k u, finalText k u, some pos⟩ :: placedF (pos + u.length) ts

theorem becomes_calm {b a : Option Tok} {k : TK} {u : Text} {l : Option Nat} (h : k ∈ calmKinds) :
    Recombine.becomes b ⟨k, u, l⟩ a = [⟨finalKind k u, finalText k u, l⟩] := by
  simp only [calmKinds, List.mem_cons, List.not_mem_nil, or_false] at h
  rcases h with h | h | h | h | h | h | h | h | h | h | h | h | h | h | h | h | h | h | h | h | h | h | h | h | h | h | h | h <;> subst h <;> rfl

theorem neighbours_calm {r : Raw} (h : Calm r) : ∀ (b : Option Tok) (pos : Nat), Recombine.byNeighbours b (placed pos r) = placedF pos r := by
  induction r with
  | nil => intro b pos; rfl
  | cons t r ih =>
    obtain ⟨k, u⟩ := t
    intro b pos
    simp only [placed, Recombine.byNeighbours, becomes_calm (h (k, u) List.mem_cons_self), ih (fun x hx => h x (List.mem_cons_of_mem _ hx)), placedF,
      List.singleton_append]

theorem calm_piece {p : Piece} (h1 : p.Valid) (h2 : p ≠ .star) (h3 : p ≠ .slash) (h4 : ∀ n, p ≠ .brk (n + 1)) : p.kind ∈ calmKinds := by
  have h7 : ∀ k ∈ proseKinds, k ∈ calmKinds ∨ k ∈ [TK.MediumNewline, .LongNewline, .Asterisk, .ForwardSlash] := by decide
  rcases h7 _ (kind_prose h1) with h8 | h8
  · exact h8
  · cases p with
    | star => exact absurd rfl h2
    | slash => exact absurd rfl h3
    | brk n =>
      cases n with
      | zero => decide
      | succ n => exact absurd rfl (h4 n)
    | word w => simp [Piece.kind] at h8
    | number w => simp [Piece.kind] at h8
    | gap w => simp [Piece.kind] at h8
    | colon => simp [Piece.kind] at h8
    | glyph u =>
      rcases h1 with ⟨x, rfl, hx⟩ | ⟨a, b, rfl, -⟩ | ⟨a, b, d, rfl, -⟩
      · have : ∀ x ∈ marksTable.map (·.1), (Piece.glyph [x]).kind ∈ calmKinds := by decide
        exact this x hx
      · simp [Piece.kind, glyphKind] at h8
      · simp [Piece.kind, glyphKind] at h8

theorem calm_row {ps : List Piece} (h : RowFrom ps) : Calm (rowRaw ps) := by
  induction ps with
  | nil => intro t ht; cases ht
  | cons p r ih =>
    obtain ⟨h1, h2, h3, h4, h5, h6⟩ := h
    intro t ht
    rcases List.mem_cons.mp ht with rfl | ht
    · exact calm_piece h1 h2 h3 (fun n => h4 (n + 1))
    · exact ih h6 t ht

theorem calm_of {a : Raw} (h : (∀ t ∈ a.map Prod.fst, t ∈ calmKinds)) : Calm a := fun _ ht => h _ (List.mem_map_of_mem ht)

theorem calm_head (h : Head) : Calm h.raw := by
  apply calm_of
  cases h with
  | web s r => exact (show ∀ t ∈ [TK.LinkProtocolHttp, .LinkTarget], t ∈ calmKinds by decide)
  | file p => exact (show ∀ t ∈ [TK.LinkProtocolFile, .LinkTarget], t ∈ calmKinds by decide)
  | attachment p => exact (show ∀ t ∈ [TK.LinkProtocolAttachment, .LinkTarget], t ∈ calmKinds by decide)
  | id t => exact (show ∀ t ∈ [TK.LinkProtocolId, .LinkTarget], t ∈ calmKinds by decide)
  | custom t => exact (show ∀ t ∈ [TK.LinkProtocolCustomId, .LinkTarget], t ∈ calmKinds by decide)
  | title m g ts => exact (show ∀ t ∈ [TK.LinkProtocolTitle], t ∈ calmKinds by decide)
  | path p => exact (show ∀ t ∈ [TK.LinkTargetFile], t ∈ calmKinds by decide)
  | internal t => exact (show ∀ t ∈ [TK.LinkProtocolInternal], t ∈ calmKinds by decide)
  | person ps => exact (show ∀ t ∈ [TK.LinkProtocol], t ∈ calmKinds by decide)
  | user n ps => exact (show ∀ t ∈ [TK.LinkProtocol], t ∈ calmKinds by decide)

theorem calm_items {b : Bool} {is : List Item} (h : LinkedFrom b is) : Calm (docRaw is) := by
  induction is generalizing b with
  | nil => intro t ht; cases ht
  | cons i r ih =>
    rw [docRaw_cons]
    cases i with
    | piece p =>
      obtain ⟨h1, h2, h3, h4, h5, h6⟩ := h
      refine Calm.append (fun t ht => ?_) (ih h6)
      cases List.mem_singleton.mp ht
      exact calm_piece h1 h2 h3 h4
    | link hd d =>
      obtain ⟨h1, h2, h3⟩ := h
      have hrow : RowFrom hd.row := by
        cases hd with
        | person ps => exact h1
        | user n ps => exact h1.2
        | _ => trivial
      have hdesc : Calm (descRaw d) := by
        cases d with
        | none => intro t ht; cases ht
        | some d => exact Calm.append (calm_of (by simp; decide)) (calm_row (h2 d rfl).1)
      exact Calm.append (Calm.append (Calm.append (calm_of (by simp; decide)) (calm_head hd))
        (Calm.append (calm_row hrow) (Calm.append hdesc (calm_of (by simp; decide))))) (ih h3)
    | url s u =>
      obtain ⟨h1, h2, h3⟩ := h
      exact Calm.append (calm_head (.web s u)) (ih h3)
    | note t =>
      obtain ⟨h1, h2, h3⟩ := h
      exact Calm.append (calm_of (by simp [Item.raw]; decide)) (ih h3)

theorem placed_kinds {r : Raw} (h : Calm r) : ∀ pos, ∀ t ∈ placed pos r, t.kind ∈ calmKinds := by
  induction r with
  | nil => intro pos t ht; cases ht
  | cons x r ih =>
    intro pos t ht
    rcases List.mem_cons.mp ht with rfl | ht
    · exact h x List.mem_cons_self
    · exact ih (fun y hy => h y (List.mem_cons_of_mem _ hy)) _ t ht

/-- The tokens of the parser. -/
theorem linked_tokens {is : List Item} (h : LinkedFrom true is) : tokens stdLex (render is) = .ok (placedF 0 (docRaw is)) := by
  have hk := placed_kinds (calm_items h) 0
  unfold tokens
  rw [linked_lexed h]
  simp only [Recombine.convert]
  have h1 : ∀ k ∈ calmKinds, k ∉ structural := by decide
  have h2 : ∀ k ∈ calmKinds, k ≠ .LineCommand ∧ k ≠ .CmdRawArg := by decide
  have h3 : ∀ k ∈ calmKinds, Recombine.leastLength k = 0 := by decide
  rw [regroup_calm _ (fun t ht => h1 _ (hk t ht))]
  simp only [bind, Except.bind]
  rw [Recombine.recombine_local _ (fun t ht => h2 _ (hk t ht)) (fun t ht => by rw [h3 _ (hk t ht)]; omega), neighbours_calm (calm_items h)]

end Verif.Link
