import Verif.Link.Does
import Verif.Link.LexDoc
import Verif.Stamp.ParseDoc

/-!
# Parsing of documents with links
-/

namespace Verif.Link
open Verif.Lexer Verif.NodeGroup Verif.NodeGroup.Spec
open Verif.Parser hiding TK Does does_bind does_ret does_seq does_if_true does_if_false does_at does_finished does_next does_expect does_skip does_popAny does_popAs
  does_empty does_node does_sub does_while_stop does_while_step groupRest_eq
open Verif.Pipeline hiding render render_cons
open Verif.Stamp (Raw numbered_fst numbered_snd numbered_length)
open Verif.Token (TK)

/-! ## Kinds -/

def kinds (r : Raw) : List TK := r.map fun t => finalKind t.1 t.2

theorem kinds_append (a b : Raw) : kinds (a ++ b) = kinds a ++ kinds b := List.map_append

theorem kinds_length (r : Raw) : (kinds r).length = r.length := List.length_map _

/-- Pieces of paragraphs. -/
def Easy (p : Piece) : Prop := p.Valid ∧ p ≠ .star ∧ p ≠ .slash ∧ ∀ n, p ≠ .brk (n + 1)

theorem piece_role {p : Piece} (h : Easy p) : role (finalKind p.kind p.text) = .plain p.leafKind := by
  obtain ⟨h1, h2, h3, h4⟩ := h
  have hc := calm_piece h1 h2 h3 h4
  have hp : p.kind ≠ .Plus := fun he => by rw [he] at hc; exact absurd hc (by decide)
  have : finalKind p.kind p.text = Stamp.finalKind p.kind p.text := by
    unfold finalKind Stamp.finalKind
    rw [if_neg hp]
  rw [this]
  exact Stamp.piece_role h1 h2 h3 h4

theorem row_easy {ps : List Piece} (h : RowFrom ps) : ∀ p ∈ ps, Easy p := by
  induction ps with
  | nil => simp
  | cons p r ih =>
    obtain ⟨h1, h2, h3, h4, h5, h6⟩ := h
    intro q hq
    rcases List.mem_cons.mp hq with rfl | hq
    · exact ⟨h1, h2, h3, fun n => h4 (n + 1)⟩
    · exact ih h6 q hq

/-! ## Nodes -/

def rowF : Nat → List Piece → Forest NK Unit
  | _, [] => .nil
  | i, p :: r => .leaf p.leafKind (.tok i) (rowF (i + 1) r)

/-- Nothing, or a paragraph. -/
def idsF (i : Nat) (ps : List Piece) : Forest NK Unit := if ps = [] then .leaf .Empty (.mono ()) .nil else .tree .Paragraph (rowF i ps) .nil

def headF (i : Nat) : Head → Forest NK Unit
  | .title _ _ _ | .path _ | .internal _ => .leaf .Empty (.mono ()) (.leaf .RawText (.tok i) .nil)
  | .person ps | .user _ ps => .leaf .Word (.tok i) (idsF (i + 1) ps)
  | _ => .leaf .Word (.tok i) (.leaf .RawText (.tok (i + 1)) .nil)

def descF (i : Nat) : Option (List Piece) → Forest NK Unit
  | none => .leaf .Empty (.mono ()) .nil
  | some d => idsF (i + 1) d

def itemF (i : Nat) : Item → Forest NK Unit
  | .piece p => .leaf p.leafKind (.tok i) .nil
  | .link h d => .tree .Link ((headF (i + 1) h).append (descF (i + 1 + h.raw.length + h.row.length) d)) .nil
  | .url _ _ => .tree .Link (.leaf .Word (.tok i) (.leaf .RawText (.tok (i + 1)) (.leaf .Empty (.mono ()) .nil))) .nil
  | .note _ => .tree .Footnote (.leaf .Empty (.mono ()) (.leaf .RawText (.tok i) .nil)) .nil

def docF : Nat → List Item → Forest NK Unit
  | _, [] => .nil
  | i, it :: r => (itemF i it).append (docF (i + it.raw.length) r)

def docK (is : List Item) : List TK := kinds (docRaw is)

theorem docK_cons (i : Item) (r : List Item) : docK (i :: r) = kinds i.raw ++ docK r := by
  unfold docK
  rw [docRaw_cons, kinds_append]

theorem docF_row (i : Nat) (ps : List Piece) : docF i (ps.map Item.piece) = rowF i ps := by
  induction ps generalizing i with
  | nil => rfl
  | cons p r ih =>
    show (Forest.leaf p.leafKind (.tok i) .nil).append (docF (i + 1) (r.map Item.piece)) = _
    rw [ih]
    rfl

theorem docRaw_row (ps : List Piece) : docRaw (ps.map Item.piece) = rowRaw ps := by
  induction ps with
  | nil => rfl
  | cons p r ih =>
    rw [List.map_cons, docRaw_cons, ih]
    rfl

/-- What the parser needs of an item. -/
def Item.Easy : Item → Prop
  | .piece p => Link.Easy p
  | .link h d => (∀ p ∈ h.row, Link.Easy p) ∧ ∀ x ∈ d, x ≠ [] ∧ ∀ p ∈ x, Link.Easy p
  | _ => True

theorem items_easy {b : Bool} {is : List Item} (h : LinkedFrom b is) : ∀ i ∈ is, i.Easy := by
  induction is generalizing b with
  | nil => simp
  | cons i r ih =>
    cases i with
    | piece p =>
      obtain ⟨h1, h2, h3, h4, h5, h6⟩ := h
      intro j hj
      rcases List.mem_cons.mp hj with rfl | hj
      · exact ⟨h1, h2, h3, h4⟩
      · exact ih h6 j hj
    | link hd d =>
      obtain ⟨h1, h2, h3⟩ := h
      have hrow : RowFrom hd.row := by
        cases hd with
        | person ps => exact h1
        | user n ps => exact h1.2
        | _ => trivial
      intro j hj
      rcases List.mem_cons.mp hj with rfl | hj
      · exact ⟨row_easy hrow, fun x hx => ⟨(h2 x hx).2.1, row_easy (h2 x hx).1⟩⟩
      · exact ih h3 j hj
    | url s u =>
      intro j hj
      rcases List.mem_cons.mp hj with rfl | hj
      · trivial
      · exact ih h.2.2 j hj
    | note t =>
      intro j hj
      rcases List.mem_cons.mp hj with rfl | hj
      · trivial
      · exact ih h.2.2 j hj

/-! ## Links -/

theorem P_assoc {α β γ : Type} (p : P α) (f : α → P β) (g : β → P γ) (s) : P.bind (P.bind p f) g s = P.bind p (fun a => P.bind (f a) g) s := by
  unfold P.bind
  rcases p s with e | ⟨_ | a, s'⟩ <;> rfl

section
variable (t : Texts) (par text : P Unit) {n : Nat}

/-- Rows are read by the function for paragraphs. -/
def ReadsRows (par : P Unit) (n : Nat) : Prop :=
  ∀ i ps, (∀ p ∈ ps, Link.Easy p) → ps ≠ [] → (rowRaw ps).length + 2 ≤ n →
    Does par () (numbered i (kinds (rowRaw ps))) [] (.tree .Paragraph (rowF i ps) .nil)

theorem row_kinds {ps : List Piece} (h : ∀ p ∈ ps, Link.Easy p) : ∀ k ∈ kinds (rowRaw ps), ∃ nk, role k = .plain nk := by
  intro k hk
  obtain ⟨x, hx, rfl⟩ := List.mem_map.mp hk
  obtain ⟨p, hp, rfl⟩ := List.mem_map.mp hx
  exact ⟨_, piece_role (h p hp)⟩

theorem not_end {k : TK} {nk : NK} (h : role k = .plain nk) : k ∉ [TK.LinkSplit, .LinkEnd] := by
  intro hk
  simp only [List.mem_cons, List.not_mem_nil, or_false] at hk
  rcases hk with rfl | rfl <;> cases h

theorem mem_numbered {i : Nat} {ks : List TK} {p : Nat × TK} (h : p ∈ numbered i ks) : p.2 ∈ ks := by
  have := List.mem_map_of_mem (f := Prod.snd) h
  rwa [numbered_snd] at this

theorem does_row {c : P Bool} {ps : List Piece} (hp : ReadsRows par n) (h : ∀ p ∈ ps, Link.Easy p) {i : Nat} {w : List (Nat × TK)}
    (hn : (rowRaw ps).length + 2 ≤ n) (hc : ∀ p : Nat × TK, p.2 ∉ [TK.LinkSplit, .LinkEnd] → ∀ w, Does c true (p :: w) (p :: w) .nil)
    (hw : Does c false w w .nil) :
    Does (P.bind (collect c n) fun ids => idsOrEmpty t ids par) () (numbered i (kinds (rowRaw ps)) ++ w) w (idsF i ps) := by
  have hlen : (numbered i (kinds (rowRaw ps))).length = (rowRaw ps).length := by rw [numbered_length, kinds_length]
  refine does_inner t (does_collect ?_ hw (by omega)) (fun hne => ?_) (fun he => ?_)
  · intro p hp' w
    obtain ⟨nk, hr⟩ := row_kinds h _ (mem_numbered hp')
    exact hc p (not_end hr) w
  · have : ps ≠ [] := by rintro rfl; exact hne rfl
    unfold idsF
    rw [if_neg this]
    exact hp i ps h this hn
  · have : ps = [] := by
      cases ps with
      | nil => rfl
      | cons p r => cases he
    unfold idsF
    rw [if_pos this]

theorem kinds_head (h : Head) : kinds h.raw = h.raw.map Prod.fst := by
  cases h <;> rfl

theorem does_target {h : Head} {i : Nat} {k : TK} {w : List (Nat × TK)} (hp : ReadsRows par n) (he : ∀ p ∈ h.row, Link.Easy p)
    (hn : (rowRaw h.row).length + 2 ≤ n) (hk : k = .LinkSplit ∨ k = .LinkEnd) :
    Does (P.bind kindP fun k => linkTarget t par n k) () (numbered i (kinds h.raw ++ kinds (rowRaw h.row)) ++ ((i + h.raw.length + h.row.length, k) :: w))
      ((i + h.raw.length + h.row.length, k) :: w) (headF i h) := by
  rw [kinds_head]
  have two : ∀ a : TK, ∀ v : List (Nat × TK), Does (P.bind (popAs t .Word [a]) fun _ => popAs t .RawText [TK.LinkTarget]) () ((i, a) :: (i + 1, TK.LinkTarget) :: v) v
      (.leaf .Word (.tok i) (.leaf .RawText (.tok (i + 1)) .nil)) := fun a v =>
    does_bind (a := ()) (does_popAs t _ (List.mem_singleton.mpr rfl)) (does_popAs t _ (List.mem_singleton.mpr rfl))
  have one : ∀ a : TK, ∀ v : List (Nat × TK), Does (P.bind emptyP fun _ => popAs t .RawText [a]) () ((i, a) :: v) v
      (.leaf .Empty (.mono ()) (.leaf .RawText (.tok i) .nil)) := fun a v =>
    does_bind (a := ()) (does_empty _) (does_popAs t _ (List.mem_singleton.mpr rfl))
  cases h with
  | web s r => exact does_seq (does_kind _ _ _) (two .LinkProtocolHttp _)
  | file p => exact does_seq (does_kind _ _ _) (two .LinkProtocolFile _)
  | attachment p => exact does_seq (does_kind _ _ _) (two .LinkProtocolAttachment _)
  | id p => exact does_seq (does_kind _ _ _) (two .LinkProtocolId _)
  | custom p => exact does_seq (does_kind _ _ _) (two .LinkProtocolCustomId _)
  | title m g ts => exact does_seq (does_kind _ _ _) (one .LinkProtocolTitle _)
  | path p => exact does_seq (does_kind _ _ _) (one .LinkTargetFile _)
  | internal p => exact does_seq (does_kind _ _ _) (one .LinkProtocolInternal _)
  | person ps | user _ ps =>
    show Does _ () ((i, TK.LinkProtocol) :: (numbered (i + 1) (kinds (rowRaw ps)) ++ ((i + 1 + ps.length, k) :: w))) _ _
    refine does_seq (does_kind _ _ _) ?_
    refine does_bind (a := ()) (f := .leaf .Word (.tok i) .nil) (does_popAs t _ (List.mem_singleton.mpr rfl)) ?_
    refine does_row t par hp he hn (fun p hp w => ?_) ?_
    · exact does_not (b := false) (does_at_false (by simpa using hp))
    · exact does_not (b := true) (does_at_true (by rcases hk with rfl | rfl <;> decide))

/-- Number of tokens of a description. -/
theorem does_desc {d : Option (List Piece)} {i : Nat} {w : List (Nat × TK)} (hp : ReadsRows par n) (he : ∀ x ∈ d, x ≠ [] ∧ ∀ p ∈ x, Link.Easy p)
    (hn : (descRaw d).length + 2 ≤ n) :
    Does (ifP (atP [.LinkSplit]) (P.bind (skipP t [.LinkSplit]) fun _ => P.bind (collect (canSearch [.LinkEnd]) n) fun ids => idsOrEmpty t ids par) emptyP) ()
      (numbered i (kinds (descRaw d)) ++ ((i + (descRaw d).length, .LinkEnd) :: w)) ((i + (descRaw d).length, .LinkEnd) :: w) (descF i d) := by
  cases d with
  | none => exact does_if_false (does_at_false (by simp [numbered, kinds, descRaw])) (does_empty _)
  | some d =>
    obtain ⟨hne, he⟩ := he d rfl
    show Does _ () ((i, TK.LinkSplit) :: (numbered (i + 1) (kinds (rowRaw d)) ++ ((i + (descRaw (some d)).length, .LinkEnd) :: w))) _ _
    refine does_if_true (does_at_true (List.mem_singleton.mpr rfl)) (does_seq (does_skip t (List.mem_singleton.mpr rfl)) ?_)
    refine does_row t par hp he (by simp [descRaw] at hn; omega) (fun p hp w => ?_) ?_
    · exact does_canSearch_true (fun hm => hp (by rw [List.mem_singleton.mp hm]; decide))
    · exact does_canSearch_false (List.mem_singleton.mpr rfl)

theorem numbered_app (i : Nat) (a b : List TK) : numbered i (a ++ b) = numbered i a ++ numbered (i + a.length) b := numbered_append i a b

theorem does_link {h : Head} {d : Option (List Piece)} {i : Nat} {w : List (Nat × TK)} (hp : ReadsRows par n) (he : Item.Easy (.link h d))
    (hn : (Item.raw (.link h d)).length ≤ n) :
    Does (parseLink t par n) () (numbered i (kinds (Item.raw (.link h d))) ++ w) w (itemF i (.link h d)) := by
  have hrow : (rowRaw h.row).length = h.row.length := List.length_map _
  have hlen : (Item.raw (.link h d)).length = 1 + h.raw.length + (h.row.length + ((descRaw d).length + 1)) := by
    simp only [Item.raw, List.length_append, List.length_cons, List.length_nil, hrow]
    try omega
  have hpos : 0 < h.raw.length := by cases h <;> exact Nat.succ_pos _
  have e : numbered i (kinds (Item.raw (.link h d))) ++ w = (i, TK.LinkBegin) :: (numbered (i + 1) (kinds h.raw ++ kinds (rowRaw h.row)) ++
      (numbered (i + 1 + h.raw.length + h.row.length) (kinds (descRaw d)) ++ ((i + 1 + h.raw.length + h.row.length + (descRaw d).length, TK.LinkEnd) :: w))) := by
    have e1 : kinds (Item.raw (.link h d)) = TK.LinkBegin :: ((kinds h.raw ++ kinds (rowRaw h.row)) ++ (kinds (descRaw d) ++ [TK.LinkEnd])) := by
      simp only [Item.raw, kinds_append, List.append_assoc]
      rfl
    rw [e1, numbered_cons, numbered_app (i + 1), numbered_app _ (kinds (descRaw d))]
    simp only [List.cons_append, List.append_assoc, List.length_append, kinds_length, hrow, Nat.add_assoc]
    rfl
  rw [e]
  refine does_if_false (does_at_false (by simp)) (does_node _ ?_)
  refine does_seq (a := ()) (does_skip t (List.mem_singleton.mpr rfl)) ?_
  obtain ⟨k, v, hkv, hk⟩ : ∃ k v, numbered (i + 1 + h.raw.length + h.row.length) (kinds (descRaw d)) ++
      ((i + 1 + h.raw.length + h.row.length + (descRaw d).length, TK.LinkEnd) :: w) = (i + 1 + h.raw.length + h.row.length, k) :: v ∧ (k = .LinkSplit ∨ k = .LinkEnd) := by
    cases d with
    | none => exact ⟨_, _, rfl, .inr rfl⟩
    | some d => exact ⟨_, _, rfl, .inl rfl⟩
  have h1 := does_target t par (i := i + 1) (w := v) hp he.1 (by omega) hk
  rw [← hkv] at h1
  have h2 := does_desc t par (i := i + 1 + h.raw.length + h.row.length) (w := w) hp he.2 (by omega)
  have h3 : Does (skipP t [.LinkEnd]) () ((i + 1 + h.raw.length + h.row.length + (descRaw d).length, TK.LinkEnd) :: w) w .nil :=
    does_skip t (List.mem_singleton.mpr rfl)
  have h4 := does_bind h1 (q := fun _ => _) (does_then h2 (q := fun _ => _) h3)
  intro s hv hs
  obtain ⟨l, k1, k2⟩ := h4 s hv hs
  refine ⟨l, ?_, k2⟩
  rw [← k1]
  exact (P_assoc _ _ _ s).symm

end

/-! ## The documents -/

section
variable (t : Texts) (par text : P Unit) {n : Nat}

theorem does_fold {is : List Item} (h : ∀ i ∈ is, i.Easy) (hp : (∃ h d, Item.link h d ∈ is) → ReadsRows par n) : ∀ (i m : Nat), (docK is).length ≤ m → (docK is).length ≤ n →
    Does (foldAux t par text n m) () (numbered i (docK is)) [] (docF i is) := by
  induction is with
  | nil =>
    intro i m _ _
    cases m <;> exact does_if_true (does_finished []) (does_ret _ _)
  | cons it r ih =>
    intro i m hm hn
    have hpos : 0 < (kinds it.raw).length := by
      rw [kinds_length]
      cases it <;> exact Nat.succ_pos _
    rw [docK_cons, List.length_append] at hm hn
    obtain ⟨m, rfl⟩ : ∃ j, m = j + 1 := ⟨m - 1, by omega⟩
    have ih := ih (fun i hi => h i (List.mem_cons_of_mem _ hi)) (fun ⟨h, d, hm⟩ => hp ⟨h, d, List.mem_cons_of_mem _ hm⟩)
    have step : Does (foldSingle t par text n (foldAux t par text n m)) ()
        (numbered i (kinds it.raw) ++ numbered (i + it.raw.length) (docK r)) (numbered (i + it.raw.length) (docK r)) (itemF i it) →
        Does (foldAux t par text n (m + 1)) () (numbered i (docK (it :: r))) [] (docF i (it :: r)) := by
      intro hs
      rw [docK_cons, numbered_append, kinds_length]
      refine does_if_false ?_ (does_bind (a := ()) (does_ignore hs) (ih _ m (by omega) (by omega)))
      have := does_finished (numbered i (kinds it.raw) ++ numbered (i + it.raw.length) (docK r))
      rwa [show (numbered i (kinds it.raw) ++ numbered (i + it.raw.length) (docK r)).isEmpty = false from by
        cases hk : kinds it.raw with
        | nil => rw [hk] at hpos; cases hpos
        | cons x xs => rfl] at this
    refine step ?_
    have he := h it List.mem_cons_self
    cases it with
    | piece p =>
      obtain ⟨k1, k2⟩ := role_plain (piece_role he) t par text n
      show Does _ () ((i, finalKind p.kind p.text) :: numbered (i + 1) (docK r)) (numbered (i + 1) (docK r)) (.leaf p.leafKind (.tok i) .nil)
      refine does_seq (does_kind _ _ _) ?_
      rw [k1]
      dsimp only
      rw [k2]
      exact does_popAny _ _ _ _
    | link hd d =>
      rw [kinds_length] at hn
      have hl := does_link t par (i := i) (w := numbered (i + (Item.raw (.link hd d)).length) (docK r)) (hp ⟨hd, d, List.mem_cons_self⟩) he (by omega)
      have hc : ∃ v, numbered i (kinds (Item.raw (.link hd d))) ++ numbered (i + (Item.raw (.link hd d)).length) (docK r) = (i, TK.LinkBegin) :: v := ⟨_, rfl⟩
      obtain ⟨v, hc⟩ := hc
      rw [hc] at hl ⊢
      exact does_seq (does_kind _ _ _) (does_sub t hl)
    | url s u =>
      show Does _ () ((i, TK.LinkProtocolHttp) :: (i + 1, TK.LinkTarget) :: numbered (i + 2) (docK r)) (numbered (i + 2) (docK r)) _
      refine does_seq (does_kind _ _ _) (does_sub t (does_if_true (does_at_true (List.mem_singleton.mpr rfl)) (does_node _ ?_)))
      exact does_bind (a := ()) (f := .leaf .Word (.tok i) .nil) (does_popAs t _ (List.mem_singleton.mpr rfl))
        (does_bind (a := ()) (f := .leaf .RawText (.tok (i + 1)) .nil) (does_popAs t _ (List.mem_singleton.mpr rfl)) (does_empty _))
    | note u =>
      show Does _ () ((i, TK.FootnoteLinked) :: numbered (i + 1) (docK r)) (numbered (i + 1) (docK r)) _
      refine does_seq (does_kind _ _ _) (does_sub t (does_if_true (does_at_true (List.mem_singleton.mpr rfl)) (does_node _ ?_)))
      exact does_bind (a := ()) (f := .leaf .Empty (.mono ()) .nil) (does_empty _) (does_popAny _ _ _ _)

theorem does_par {is : List Item} (h : ∀ i ∈ is, i.Easy) (i : Nat) (hp : (∃ h d, Item.link h d ∈ is) → ReadsRows (parseParagraph t n) n)
    (hn : (docK is).length ≤ n) : Does (parseParagraph t (n + 2)) () (numbered i (docK is)) [] (.tree .Paragraph (docF i is) .nil) := by
  rw [parseParagraph]
  refine does_node _ ?_
  rw [parseText]
  intro s hv hs
  obtain ⟨l, h1, h2, h3⟩ := does_ignore (does_fold t (n := n) (parseParagraph t n) (parseText t n) h hp i n hn hn) s hv hs
  refine ⟨l, ?_, h2, h3⟩
  unfold checkedText
  rw [h1]
  simp

theorem reads_rows : ReadsRows (parseParagraph t n) n := by
  intro i ps h _ hn
  obtain ⟨n, rfl⟩ : ∃ m, n = m + 2 := ⟨n - 2, by omega⟩
  have := does_par t (n := n) (is := ps.map Item.piece) (fun j hj => by
      obtain ⟨p, hp, rfl⟩ := List.mem_map.mp hj
      exact h p hp) i (fun ⟨a, d, hm⟩ => by
      obtain ⟨p, -, hp⟩ := List.mem_map.mp hm
      cases hp) (by unfold docK; rw [docRaw_row, kinds_length]; omega)
  rw [docF_row] at this
  unfold docK at this
  rw [docRaw_row] at this
  exact this

end

theorem does_paragraph (t : Texts) {is : List Item} {b : Bool} (h : LinkedFrom b is) {n : Nat} (hn : (docK is).length + 2 ≤ n) :
    Does (parseParagraph t n) () (numbered 1 (docK is)) [] (.tree .Paragraph (docF 1 is) .nil) := by
  obtain ⟨n, rfl⟩ : ∃ m, n = m + 2 := ⟨n - 2, by omega⟩
  exact does_par t (items_easy h) 1 (fun _ => reads_rows t) (by omega)

theorem docK_length (is : List Item) : (docK is).length = (docRaw is).length := kinds_length _

/-- All kinds of the document. -/
theorem docK_kinds {b : Bool} {is : List Item} (h : LinkedFrom b is) : ∀ k ∈ docK is, k ∈ TK.BigIdent :: calmKinds := by
  have hc := calm_items h
  intro k hk
  obtain ⟨x, hx, rfl⟩ := List.mem_map.mp hk
  have hx := hc x hx
  unfold finalKind
  split_ifs
  · exact List.mem_cons_self
  · exact List.mem_cons_of_mem _ (by decide)
  · exact List.mem_cons_of_mem _ hx

/-- The first token of a document starts a paragraph. -/
theorem first_kind {is : List Item} (h : LinkedFrom true is) (hf : is.head? ≠ some (.piece (.brk 0))) (hne : is ≠ []) :
    ∃ k r, docK is = k :: r ∧ k ∈ [TK.Word, .BigIdent, .Comma, .Semicolon, .Exclamation, .ParBegin, .ParEnd,
    .DoubleQuote, .Percent, .Punctuation, .AnyPunct, .LinkBegin, .LinkProtocolHttp, .FootnoteLinked] := by
  cases is with
  | nil => exact absurd rfl hne
  | cons i r =>
    rw [docK_cons]
    cases i with
    | link hd d => exact ⟨_, _, rfl, by decide⟩
    | url s u => exact ⟨.LinkProtocolHttp, _, rfl, by decide⟩
    | note u => exact ⟨.FootnoteLinked, _, rfl, by decide⟩
    | piece p =>
      refine ⟨finalKind p.kind p.text, docK r, rfl, ?_⟩
      obtain ⟨k1, k2, k3, k4, k5, k6⟩ := h
      cases p with
      | word w => simp only [Piece.kind, finalKind, if_true]; split_ifs <;> simp
      | number w => exact absurd k5.1 (by decide)
      | gap w => exact absurd k5.1 (by decide)
      | colon => exact absurd k5.1 (by decide)
      | star => exact absurd rfl k2
      | slash => exact absurd rfl k3
      | brk n =>
        cases n with
        | zero => exact absurd rfl hf
        | succ n => exact absurd rfl (k4 n)
      | glyph u =>
        rcases k1 with ⟨x, rfl, hx⟩ | ⟨a, b, rfl, -⟩ | ⟨a, b, d, rfl, -⟩
        · simp only [marksTable, List.map_cons, List.map_nil, List.mem_cons, List.not_mem_nil, or_false] at hx
          rcases hx with h | h | h | h | h | h | h | h | h <;> subst h <;> decide
        · simp [Piece.kind, glyphKind, finalKind]
        · simp [Piece.kind, glyphKind, finalKind]

theorem linked_parse (t : Texts) {is : List Item} (h : LinkedFrom true is) (hf : is.head? ≠ some (.piece (.brk 0))) (hne : is ≠ []) {n : Nat} (hn : (docK is).length + 4 ≤ n) :
    ∃ l, parseTop t n (start (docK is)) = .ok (some (), ⟨l, ⟨(Forest.tree .StmtList (.tree .Paragraph (docF 1 is) .nil) .nil).flat, []⟩⟩) := by
  obtain ⟨k, r, hk, hm⟩ := first_kind h hf hne
  have hne : docK is ≠ [] := by rw [hk]; simp
  have hnum : number (docK is) = numbered 1 (docK is) := rfl
  have hcur := cur_main hne
  -- the statement
  have stmt : ∀ (n : Nat) (s : Parser.St), (docK is).length + 4 ≤ n → Cur s.lex (numbered 1 (docK is)) → s.lex.toks = docK is →
      ∃ l, parseStmt t n s = .ok (some (), ⟨l, ⟨s.g.nodes ++ (Forest.tree .Paragraph (docF 1 is) .nil).flat, s.g.pending⟩⟩) ∧ Cur l [] := by
    intro n s hn hv htoks
    obtain ⟨n, rfl⟩ : ∃ m, n = m + 1 := ⟨n - 1, by omega⟩
    have hv' : Cur s.lex ((1, k) :: numbered 2 r) := by rw [hk, numbered_cons] at hv; exact hv
    rw [parseStmt, bind_ok (kind_ok hv')]
    have e : k ≠ .SubtreeStars ∧ k ≠ .Indent ∧ k ≠ .Whitespace ∧ k ∉ newlineKinds ∧ k ≠ .TextSeparator ∧ k ∉ [TK.TableSeparator, .LeadingPipe] ∧
        k ≠ .ColonExampleLine ∧ k ≠ .CmdPrefix := by
      revert hm
      generalize k = x
      revert x
      decide
    obtain ⟨e1, e2, e3, e4, e5, e6, e7, e8⟩ := e
    rw [if_neg e1, if_neg e2, if_neg e3, if_neg e4, if_neg e5, if_neg e6, if_neg e7, if_neg e8]
    obtain ⟨l, h1, h2, h3⟩ := collect_text (u := numbered 1 (docK is)) (r := []) (kinds := paragraphTerminator)
      (fun p hp => by
        have := docK_kinds h _ (mem_numbered hp)
        revert this
        generalize p.2 = x
        revert x
        decide)
      (by simp) n (by rw [numbered_length]; omega) s (by rw [List.append_nil]; exact hv)
    unfold plainParagraph
    rw [bind_ok h1]
    have hval : Valid s.lex.toks (numbered 1 (docK is)) := cur_valid hv
    obtain ⟨l', q1, q2, q3⟩ := does_paragraph t h (n := n) (by omega)
      ⟨Lex.ofIds l.toks ((numbered 1 (docK is)).map Prod.fst), s.g⟩ (cur_sub (h3.1 ▸ hval)) (contig_numbered _ _)
    refine ⟨l, ?_, h2⟩
    have hids : (numbered 1 (docK is)).map Prod.fst = 1 :: (numbered 2 r).map Prod.fst := by rw [hk, numbered_cons]; rfl
    rw [hids] at q1 ⊢
    dsimp only
    unfold withIds withLex
    dsimp only
    rw [q1]
  obtain ⟨n', rfl⟩ : ∃ m, n = m + 1 := ⟨n - 1, by omega⟩
  let s0 : Parser.St := ⟨Lex.main (docK is), ((start (docK is)).g.startTree ⟨.StmtList, .ext 0⟩).1⟩
  have hcur0 : Cur s0.lex (numbered 1 (docK is)) := hcur
  obtain ⟨l1, q1, q2⟩ := stmt (n' + 1) s0 hn hcur0 rfl
  have hcur1 : Cur s0.lex ((1, k) :: numbered 2 r) := by rw [hk, numbered_cons] at hcur0; exact hcur0
  have hround := loop_round (n := n') (m := n' + 1) hcur1 (by
      rintro rfl
      exact absurd hm (by decide)) q1
  have hend : ∀ (s : Parser.St), Cur s.lex [] → ∀ (c : Parser.P Unit) (m : Nat), whileP (notP finishedP) c m s = .ok (some (), s) := by
    intro s hs c m
    have h1 : notP finishedP s = .ok (some false, s) := bind_ok (finished_nil hs)
    cases m <;> exact ifP_false h1
  rw [hend ⟨l1, _⟩ q2] at hround
  refine ⟨l1, ?_⟩
  unfold parseTop node
  rw [show (⟨(start (docK is)).lex, ((start (docK is)).g.startTree ⟨.StmtList, .ext 0⟩).1⟩ : Parser.St) = s0 from rfl]
  erw [hround]
  have e := endTree_close ([] : List (Node NK Unit)) (Forest.tree .Paragraph (docF 1 is) .nil).flat (.StmtList : NK) []
  simp only [List.nil_append, List.length_nil, Nat.zero_add] at e
  have hg : guardEnd (start (docK is)).g.pending.length
      (⟨((start (docK is)).g.startTree ⟨.StmtList, .ext 0⟩).1.nodes ++ (Forest.tree .Paragraph (docF 1 is) .nil).flat,
        ((start (docK is)).g.startTree ⟨.StmtList, .ext 0⟩).1.pending⟩ : Group NK Unit)
      = .ok ⟨⟨.StmtList, .ext (Forest.tree .Paragraph (docF 1 is) .nil).flat.length⟩ :: (Forest.tree .Paragraph (docF 1 is) .nil).flat, []⟩ := by
    unfold guardEnd
    have : (⟨((start (docK is)).g.startTree ⟨.StmtList, .ext 0⟩).1.nodes ++ (Forest.tree .Paragraph (docF 1 is) .nil).flat,
        ((start (docK is)).g.startTree ⟨.StmtList, .ext 0⟩).1.pending⟩ : Group NK Unit)
        = ⟨⟨.StmtList, .ext 0⟩ :: (Forest.tree .Paragraph (docF 1 is) .nil).flat, [1]⟩ := by simp [start, Group.startTree]
    rw [this, e]
    rfl
  dsimp only at hg ⊢
  rw [hg]
  simp [Forest.flat, flat_length, Forest.count, Int.add_comm]

theorem placedF_kinds (r : Raw) (pos : Nat) : (placedF pos r).map (·.kind) = kinds r := by
  induction r generalizing pos with
  | nil => rfl
  | cons x r ih =>
    rw [placedF, List.map_cons, ih]
    rfl

/-- From the text to the nodes. -/
theorem linked_nodes {is : List Item} (h : LinkedFrom true is) (hf : is.head? ≠ some (.piece (.brk 0))) (hne : is ≠ []) {n : Nat} (hn : (docRaw is).length + 4 ≤ n) :
    parse BaseLexer.stdLex n (render is) =
      .ok (placedF 0 (docRaw is), (Forest.tree NK.StmtList (.tree .Paragraph (docF 1 is) .nil) .nil).flat) := by
  obtain ⟨l, hl⟩ := linked_parse (texts (placedF 0 (docRaw is))) h hf hne (n := n) (by rw [docK_length]; exact hn)
  unfold parse
  rw [linked_tokens h]
  simp only
  rw [placedF_kinds]
  have hl' : parseTop (texts (placedF 0 (docRaw is))) n ⟨Lexer.Lex.main (kinds (docRaw is)), {}⟩ = _ := hl
  rw [hl']

end Verif.Link
