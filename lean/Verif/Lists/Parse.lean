import Verif.Lists.Lex
import Verif.Grid.Parse

/-!
# Parsing of lists
-/

namespace Verif.Lists
open Verif.Lexer Verif.NodeGroup Verif.NodeGroup.Spec
open Verif.Parser hiding TK Does does_bind does_ret does_seq does_if_true does_if_false does_at does_finished does_next does_expect does_skip does_popAny does_popAs
  does_empty does_node does_sub does_while_stop does_while_step does_not does_and groupRest_eq
open Verif.Pipeline (numbered numbered_cons numbered_append texts tokAt)
open Verif.Link (Does does_bind does_ret does_seq does_then does_if_true does_if_false does_and_true does_and_false does_ask does_at does_at_true does_at_false
  does_finished does_kind does_next does_expect does_skip does_popAny does_popAs does_empty does_node does_sub does_ignore does_while_stop does_while_step does_not
  does_and does_canSearch_true does_canSearch_false does_collect Contig contig_numbered valid_left kinds kinds_append kinds_length docF docRaw docK Item LinkedFrom
  calmKinds)
open Verif.Stamp (Raw numbered_fst numbered_length gapRaw)
open Verif.Token (TK Tok)
open Verif.Drawer (Text)
open Verif.Code (breakKind does_at_head does_break does_rounds forest_assoc does_plain)
open Verif.Grid (OneLine mem_snd calm_kinds break_kind break_newline raw_ne item_white linked_valid linked_left blanks)

/-! ## Looking ahead -/

theorem ahead {toks : List TK} : ∀ (v : List (Nat × TK)) (a : Nat), 1 ≤ a → v.map Prod.fst = List.range' a v.length → (∀ p ∈ v, toks[p.1 - 1]? = some p.2) → v ≠ [] →
    ∃ r, toks.drop (a - 1) = v.map Prod.snd ++ r := by
  intro v
  induction v with
  | nil => intro a _ _ _ h; exact absurd rfl h
  | cons p v ih =>
    intro a ha hc ht _
    rw [List.map_cons, List.length_cons, List.range'_succ] at hc
    obtain ⟨h1, h2⟩ := List.cons.inj hc
    have hp := ht p List.mem_cons_self
    rw [h1] at hp
    have hlt : a - 1 < toks.length := by
      by_contra hn
      rw [List.getElem?_eq_none (by omega)] at hp
      cases hp
    rw [List.getElem?_eq_getElem hlt] at hp
    have hd : toks.drop (a - 1) = p.2 :: toks.drop a := by
      rw [List.drop_eq_getElem_cons hlt, Option.some.inj hp, show a - 1 + 1 = a by omega]
    rw [hd]
    by_cases hv : v = []
    · subst hv
      exact ⟨_, rfl⟩
    · obtain ⟨r, hr⟩ := ih (a + 1) (by omega) h2 (fun p hp => ht p (List.mem_cons_of_mem _ hp)) hv
      refine ⟨r, ?_⟩
      rw [show a + 1 - 1 = a by omega] at hr
      rw [hr]
      rfl

/-- The tokens of the group start with those of the view. -/
theorem rest_ahead {l : Lexer.Lex TK} {v : List (Nat × TK)} (hv : Cur l v) (hs : Contig v) (hne : v ≠ []) : ∃ r, groupRest l = v.map Prod.snd ++ r := by
  obtain ⟨p, v, rfl⟩ := List.exists_cons_of_ne_nil hne
  obtain ⟨-, -, g3, -⟩ := cur_next_cons hv
  obtain ⟨-, hval⟩ := cur_valid hv
  obtain ⟨h1, -⟩ := hval p List.mem_cons_self
  obtain ⟨a, ha⟩ := hs
  have hpa : p.1 = a := by
    rw [List.map_cons, List.length_cons, List.range'_succ] at ha
    exact (List.cons.inj ha).1
  unfold groupRest
  rw [g3, if_neg (by omega), hpa]
  exact ahead (p :: v) a (by omega) ha (fun p hp => (hval p hp).2) (by simp)

theorem tag_line {u r : List TK} {nl : TK} (hu : ∀ k ∈ u, k ≠ .DoubleColon) (hn : nl ∈ newlineKinds) : hasTag (u ++ nl :: r) = false := by
  have hn2 : nl ≠ .DoubleColon ∧ nl ≠ .Whitespace := by
    revert hn
    generalize nl = x
    revert x
    decide
  induction u with
  | nil =>
    rw [List.nil_append, hasTag, if_neg, if_pos hn]
    simp only [colonPattern, List.isPrefixOf, Bool.and_eq_true, beq_iff_eq]
    rintro ⟨h, -⟩
    exact hn2.2 h.symm
  | cons k u ih =>
    have ih := ih fun k hk => hu k (List.mem_cons_of_mem _ hk)
    rw [List.cons_append, hasTag, if_neg]
    · split_ifs
      · rfl
      · exact ih
    · cases u with
      | nil =>
        simp only [colonPattern, List.nil_append, List.isPrefixOf, Bool.and_eq_true, beq_iff_eq]
        rintro ⟨-, h, -⟩
        exact hn2.1 h.symm
      | cons k' u =>
        simp only [colonPattern, List.cons_append, List.isPrefixOf, Bool.and_eq_true, beq_iff_eq]
        rintro ⟨-, h, -⟩
        exact hu k' (by simp) h.symm

theorem does_tag (t : Texts) {par : P Unit} {n : Nat} {u w : List (Nat × TK)} {x : Nat × TK} (hu : ∀ p ∈ u, p.2 ≠ .DoubleColon) (hx : x.2 ∈ newlineKinds) :
    Does (listTag t par n) () (u ++ x :: w) (u ++ x :: w) (.leaf .Empty (.mono ()) .nil) := by
  refine does_if_false (does_ask fun l hv hs => ?_) (does_empty _)
  obtain ⟨r, hr⟩ := rest_ahead hv hs (by simp)
  rw [hr, List.map_append, List.map_cons, List.append_assoc, List.cons_append, tag_line (fun k hk => ?_) hx]
  obtain ⟨p, hp, rfl⟩ := List.mem_map.mp hk
  exact hu p hp

theorem does_space {n i : Nat} {v : List (Nat × TK)} (hn : 1 ≤ n) (hv : ∀ p ∈ v.head?, p.2 ∉ [TK.Whitespace, .LeadingSpace]) :
    Does (spaceP n) () ((i, .Whitespace) :: v) v .nil := by
  obtain ⟨n, rfl⟩ : ∃ m, n = m + 1 := ⟨n - 1, by omega⟩
  exact does_while_step (f := .nil) (g := .nil) (does_at_true (by decide)) (does_next _ _) (does_while_stop n (does_at_false hv))

theorem does_or_true {p q : P Bool} {v : List (Nat × TK)} (hp : Does p true v v .nil) : Does (orP p q) true v v .nil := does_seq hp (does_ret _ _)

theorem does_or_false {p q : P Bool} {v : List (Nat × TK)} {b : Bool} (hp : Does p false v v .nil) (hq : Does q b v v .nil) : Does (orP p q) b v v .nil := does_seq hp hq

/-! ## The words of an item -/

theorem final_quiet {k : TK} {u : Text} (h : k ∉ Tokenizer.lineEnd) : Link.finalKind k u ∉ newlineKinds := by
  unfold Link.finalKind
  split_ifs
  · show TK.BigIdent ∉ _; decide
  · decide
  · intro hn
    apply h
    revert hn
    generalize k = x
    revert x
    decide

theorem words_kinds {e : Entry} (h : e.Valid) : ∀ k ∈ docK e.words, k ∈ TK.BigIdent :: calmKinds ∧ k ∉ newlineKinds := by
  intro k hk
  refine ⟨calm_kinds (linked_left h.from_) k hk, ?_⟩
  obtain ⟨x, hx, rfl⟩ := List.mem_map.mp hk
  exact final_quiet (quiet_items h.from_ h.line x hx)

theorem words_head {e : Entry} (h : e.Valid) : ∃ k r, docK e.words = k :: r ∧ k ≠ .Whitespace := by
  cases hw : e.words with
  | nil => exact absurd hw h.ne
  | cons i r =>
    rw [Link.docK_cons]
    have hb := h.first i (by rw [hw]; rfl)
    have hv := linked_valid h.from_ i (by rw [hw]; simp)
    cases hj : kinds i.raw with
    | nil => exact absurd (List.eq_nil_of_length_eq_zero (by rw [← kinds_length, hj]; rfl)) (raw_ne i)
    | cons x xs => exact ⟨x, _, rfl, (item_white hb hv).1 x (by rw [hj]; rfl)⟩

def Entry.paraItems (e : Entry) : List Item := if e.loose then e.words else e.words ++ [.piece (.brk 0)]

theorem words_brk (is : List Item) : docK (is ++ [.piece (.brk 0)]) = docK is ++ [.Newline] := by
  unfold docK docRaw
  rw [List.map_append, List.flatten_append, kinds_append]
  rfl

theorem docRaw_brk (is : List Item) : docRaw (is ++ [.piece (.brk 0)]) = docRaw is ++ [(TK.Newline, ['\n'])] := by
  unfold docRaw
  rw [List.map_append, List.flatten_append]
  rfl

/-- The paragraph of an item. -/
theorem does_words (t : Texts) {e : Entry} (h : e.Valid) {n i : Nat} {w : List (Nat × TK)}
    (hw : ∃ p ∈ w.head?, p.2 ∈ paragraphTerminator) (hn : (docRaw e.paraItems).length + 2 ≤ n) :
    Does (parseStmt t (n + 1)) () (numbered i (docK e.paraItems) ++ w) w (.tree .Paragraph (docF i e.paraItems) .nil) := by
  obtain ⟨k, r, hk, hm⟩ := words_head h
  have hkk := words_kinds h k (by rw [hk]; simp)
  have hcalm : Link.Calm (docRaw e.paraItems) := by
    unfold Entry.paraItems
    split_ifs
    · exact linked_left h.from_
    · exact Link.calm_items h.from_
  have heasy : ∀ i ∈ e.paraItems, i.Easy := by
    unfold Entry.paraItems
    split_ifs
    · exact fun i hi => Link.items_easy h.from_ i (List.mem_append_left _ hi)
    · exact Link.items_easy h.from_
  obtain ⟨r', hk'⟩ : ∃ r', docK e.paraItems = k :: r' := by
    unfold Entry.paraItems
    split_ifs
    · exact ⟨r, hk⟩
    · refine ⟨r ++ [.Newline], ?_⟩
      rw [words_brk, hk]
      rfl
  have hpar : Does (parseParagraph t n) () (numbered i (docK e.paraItems)) [] (.tree .Paragraph (docF i e.paraItems) .nil) := by
    obtain ⟨n, rfl⟩ : ∃ m, n = m + 2 := ⟨n - 2, by omega⟩
    exact Link.does_par t heasy i (fun _ => Link.reads_rows t) (by rw [Link.docK_length]; omega)
  have hcol : Does (collect (canSearch paragraphTerminator) n) ((numbered i (docK e.paraItems)).map Prod.fst) (numbered i (docK e.paraItems) ++ w) w .nil := by
    refine does_collect (fun p hp w => does_canSearch_true ?_) ?_ (by rw [numbered_length, Link.docK_length]; omega)
    · have := calm_kinds hcalm p.2 (mem_snd hp)
      revert this
      generalize p.2 = x
      revert x
      decide
    · obtain ⟨p, hp, hpt⟩ := hw
      cases w with
      | nil => cases hp
      | cons q w => cases hp; exact does_canSearch_false hpt
  have hne : numbered i (docK e.paraItems) ≠ [] := by rw [hk']; nofun
  have hplain := does_plain hne hcol hpar
  rw [hk'] at hplain ⊢
  rw [numbered_cons, List.cons_append] at hplain ⊢
  rw [parseStmt]
  have e : k ≠ .SubtreeStars ∧ k ≠ .Indent ∧ k ∉ newlineKinds ∧ k ≠ .TextSeparator ∧ k ∉ [TK.TableSeparator, .LeadingPipe] ∧
      k ≠ .ColonExampleLine ∧ k ≠ .CmdPrefix := by
    obtain ⟨hc, hnl⟩ := hkk
    refine ⟨?_, ?_, hnl, ?_⟩
    · rintro rfl; exact absurd hc (by decide)
    · rintro rfl; exact absurd hc (by decide)
    · revert hc
      generalize k = x
      revert x
      decide
  obtain ⟨e1, e2, e4, e5, e6, e7, e8⟩ := e
  refine does_seq (does_kind _ _ _) ?_
  rw [if_neg e1, if_neg e2, if_neg hm, if_neg e4, if_neg e5, if_neg e6, if_neg e7, if_neg e8]
  exact hplain

/-! ## Items -/

/-- Where the words of the item at `p` start. -/
def Entry.at_ (p : Nat) (e : Entry) : Nat := p + 2 + (boxRaw e.box).length

def boxF (p : Nat) : Option Box → Forest NK Unit
  | none => .leaf .Empty (.mono ()) .nil
  | some _ => .leaf .Checkbox (.tok p) .nil

/-- The line break after the words, if it is not part of the paragraph. -/
def Entry.breakF (p : Nat) (e : Entry) : Forest NK Unit := if e.loose then .leaf .Newline (.tok (e.at_ p + (docRaw e.words).length)) .nil else .nil

def Entry.forest (p : Nat) (e : Entry) (below : Forest NK Unit) : Forest NK Unit :=
  .tree .ListItem (.leaf .RawText (.tok p) (.leaf .Empty (.mono ()) ((boxF (p + 2) e.box).append (.leaf .Empty (.mono ())
    (.tree .StmtList (.tree .Paragraph (docF (e.at_ p) e.paraItems) ((e.breakF p).append below)) .nil))))) .nil

theorem entry_length (e : Entry) (i : Nat) : (e.raw i).length = 2 + (boxRaw e.box).length + (docRaw e.words).length + 1 := by
  simp [Entry.raw, Entry.rest, gapRaw]
  omega

theorem entry_kinds (e : Entry) (i p : Nat) (w : List (Nat × TK)) : numbered p (kinds (e.raw i)) ++ w =
    (p, e.mark.kind) :: (p + 1, .Whitespace) :: (numbered (p + 2) (kinds (boxRaw e.box)) ++ (numbered (e.at_ p) (docK e.words) ++
      (e.at_ p + (docRaw e.words).length, breakKind e.empty) :: w)) := by
  have h1 : kinds (e.raw i) = e.mark.kind :: .Whitespace :: (kinds (boxRaw e.box) ++ (docK e.words ++ [breakKind e.empty])) := by
    have hm : Link.finalKind e.mark.kind (blanks i ++ e.mark.text) = e.mark.kind := by cases e.mark <;> rfl
    show Link.finalKind _ _ :: kinds (gapRaw (e.gap + 1) ++ (boxRaw e.box ++ (docRaw e.words ++ [(breakKind e.empty, e.breaks)]))) = _
    rw [hm, kinds_append, kinds_append, kinds_append]
    show _ :: TK.Whitespace :: (_ ++ (_ ++ [Link.finalKind _ _])) = _
    rw [break_kind]
    rfl
  rw [h1, numbered_cons, numbered_cons, numbered_append, numbered_append, kinds_length, Link.docK_length]
  simp only [List.cons_append, List.append_assoc]
  rfl

/-- The statements of an item. -/
theorem does_body (t : Texts) {e : Entry} (h : e.Valid) {n m p : Nat} {w w' : List (Nat × TK)} {f : Forest NK Unit}
    (hw : ∃ x ∈ w.head?, x.2 ∈ [TK.Indent, .SameIndent, .Dedent]) (hn : (docRaw e.words).length + 4 ≤ n)
    (hr : ∀ m', m ≤ m' → Does (whileP (canSearch [.Dedent, .SameIndent, .ListItemEnd]) (subP t (parseStmt t n)) m') () w w' f) :
    Does (whileP (canSearch [.Dedent, .SameIndent, .ListItemEnd]) (subP t (parseStmt t n)) (m + 2)) ()
      (numbered (e.at_ p) (docK e.words) ++ (e.at_ p + (docRaw e.words).length, breakKind e.empty) :: w) w'
      (.tree .Paragraph (docF (e.at_ p) e.paraItems) ((e.breakF p).append f)) := by
  obtain ⟨n, rfl⟩ : ∃ x, n = x + 1 := ⟨n - 1, by omega⟩
  obtain ⟨k, r, hk, hm⟩ := words_head h
  have hkk := (words_kinds h k (by rw [hk]; simp)).1
  have hks : k ∉ [TK.Dedent, .SameIndent, .ListItemEnd] := by
    revert hkk
    generalize k = x
    revert x
    decide
  have hgo : ∀ w, Does (canSearch [.Dedent, .SameIndent, .ListItemEnd]) true (numbered (e.at_ p) (docK e.words) ++ w) (numbered (e.at_ p) (docK e.words) ++ w) .nil := by
    intro w
    rw [hk]
    exact does_canSearch_true hks
  by_cases hl : e.loose = true
  · have hp : e.paraItems = e.words := if_pos hl
    have hb : breakKind e.empty = .MediumNewline := by simp [Entry.empty, hl, breakKind]
    have hd := does_words t h (n := n) (i := e.at_ p) (w := (e.at_ p + (docRaw e.words).length, breakKind e.empty) :: w)
      ⟨_, rfl, by show breakKind e.empty ∈ _; rw [hb]; decide⟩ (by rw [hp]; omega)
    rw [hp] at hd ⊢
    refine does_while_step (f := .tree .Paragraph _ .nil) (hgo _) (does_sub t hd) ?_
    have e2 : e.breakF p = .leaf .Newline (.tok (e.at_ p + (docRaw e.words).length)) .nil := if_pos hl
    rw [e2, hb]
    exact does_while_step (f := .leaf .Newline _ .nil) (does_canSearch_true (by show TK.MediumNewline ∉ _; decide)) (does_sub t (does_break t (by decide))) (hr m (le_refl _))
  · have hp : e.paraItems = e.words ++ [.piece (.brk 0)] := if_neg hl
    have hb : breakKind e.empty = .Newline := by simp [Entry.empty, hl, breakKind]
    have hd := does_words t h (n := n) (i := e.at_ p) (w := w) (by
      obtain ⟨x, hx, hxk⟩ := hw
      refine ⟨x, hx, ?_⟩
      revert hxk
      generalize x.2 = y
      revert y
      decide) (by rw [hp, docRaw_brk]; simp; omega)
    have he : numbered (e.at_ p) (docK e.paraItems) ++ w = numbered (e.at_ p) (docK e.words) ++ (e.at_ p + (docRaw e.words).length, breakKind e.empty) :: w := by
      rw [hp, words_brk, numbered_append, hb, Link.docK_length, List.append_assoc]
      rfl
    rw [he] at hd
    have e2 : e.breakF p = .nil := if_neg hl
    rw [e2]
    exact does_while_step (f := .tree .Paragraph _ .nil) (hgo _) (does_sub t hd) (hr (m + 1) (by omega))

/-- What follows an item; a mark that ends it is dropped. -/
def dropEnd : List (Nat × TK) → List (Nat × TK)
  | [] => []
  | x :: w => if x.2 = .ListItemEnd then w else x :: w

theorem does_entry (t : Texts) {e : Entry} (h : e.Valid) {n i p : Nat} {v w : List (Nat × TK)} {f : Forest NK Unit}
    (hv : ∃ x ∈ v.head?, x.2 ∈ [TK.Indent, .SameIndent, .Dedent]) (hw : ∃ x ∈ w.head?, x.2 ∈ [TK.Dedent, .SameIndent, .ListItemEnd]) (hn : (e.raw i).length + 4 ≤ n)
    (hf : v = w ∧ f = .nil ∨ (∃ x ∈ v.head?, x.2 = .Indent) ∧ Does (parseStmt t n) () v w f) :
    Does (parseListItem t (parseParagraph t n) (parseStmt t n) n) () (numbered p (kinds (e.raw i)) ++ v) (dropEnd w) (e.forest p f) := by
  have hlen := entry_length e i
  have hstop : ∀ m, Does (whileP (canSearch [.Dedent, .SameIndent, .ListItemEnd]) (subP t (parseStmt t n)) m) () w w .nil := by
    intro m
    obtain ⟨x, hx, hxk⟩ := hw
    cases w with
    | nil => cases hx
    | cons y w => cases hx; exact does_while_stop m (does_canSearch_false hxk)
  have hr : ∀ m', 1 ≤ m' → Does (whileP (canSearch [.Dedent, .SameIndent, .ListItemEnd]) (subP t (parseStmt t n)) m') () v w f := by
    intro m' hm'
    obtain ⟨m', rfl⟩ : ∃ x, m' = x + 1 := ⟨m' - 1, by omega⟩
    rcases hf with ⟨rfl, rfl⟩ | ⟨⟨x, hx, hxk⟩, hd⟩
    · exact hstop _
    · cases v with
      | nil => cases hx
      | cons y v =>
        cases hx
        have := does_while_step (does_canSearch_true (kinds := [.Dedent, .SameIndent, .ListItemEnd]) (v := v) (by rw [hxk]; decide)) (does_sub t hd) (hstop m')
        rwa [append_nil] at this
  obtain ⟨m, rfl⟩ : ∃ x, n = x + 2 := ⟨n - 2, by omega⟩
  have hbody := does_body t h (n := m + 2) (m := m) (p := p) hv (by omega) (fun m' hm' => hr m' (by omega))
  have hend : Does (ifP (atP [.ListItemEnd]) nextP (P.ret ())) () w (dropEnd w) .nil := by
    obtain ⟨x, hx, -⟩ := hw
    cases w with
    | nil => cases hx
    | cons y w =>
      show Does _ () (y :: w) (if y.2 = .ListItemEnd then w else y :: w) _
      split_ifs with hy
      · exact does_if_true (does_at_true (i := y.1) (by rw [hy]; decide)) (does_next _ _)
      · exact does_if_false (does_at_false (by simpa using hy)) (does_ret _ _)
  have hstmts := does_node .StmtList (does_then (q := fun _ => _) hbody hend)
  have hq : ∀ x ∈ numbered (e.at_ p) (docK e.words), x.2 ≠ .DoubleColon := by
    intro x hx
    have := (words_kinds h x.2 (mem_snd hx)).1
    revert this
    generalize x.2 = y
    revert y
    decide
  have hbn : breakKind e.empty ∈ newlineKinds := break_newline _
  have htag := does_tag t (par := parseParagraph t (m + 2)) (n := m + 2) (u := numbered (e.at_ p) (docK e.words))
    (x := (e.at_ p + (docRaw e.words).length, breakKind e.empty)) (w := v) hq hbn
  have hlast := does_bind (q := fun _ => _) htag hstmts
  obtain ⟨k, r, hk, hm⟩ := words_head h
  have hkk := (words_kinds h k (by rw [hk]; simp)).1
  have hspace : ∀ v : List (Nat × TK), ∀ x ∈ (numbered (e.at_ p) (docK e.words) ++ v).head?, x.2 ∉ [TK.Whitespace, .LeadingSpace] ∧ x.2 ∉ [TK.Checkbox] := by
    intro v x hx
    rw [hk] at hx
    cases hx
    show k ∉ _ ∧ k ∉ _
    refine ⟨fun hh => ?_, fun hh => ?_⟩
    · rcases List.mem_cons.mp hh with hh | hh
      · exact hm hh
      · rw [List.mem_singleton.mp hh] at hkk
        exact absurd hkk (by decide)
    · rw [List.mem_singleton.mp hh] at hkk
      exact absurd hkk (by decide)
  have hmk : e.mark.kind ∈ listStarts := by
    cases e.mark with
    | minus => decide
    | plus => decide
    | number ds p => show TK.LeadingNumber ∈ _; decide
  rw [entry_kinds]
  refine does_node .ListItem (does_bind (f := .leaf .RawText (.tok p) .nil) (does_popAs t _ hmk) (does_seq (does_space (by omega) ?_)
    (does_bind (f := .leaf .Empty (.mono ()) .nil) (does_empty _) (does_bind (a := ()) (f := boxF (p + 2) e.box) (v' := numbered (e.at_ p) (docK e.words) ++ (e.at_ p + (docRaw e.words).length, breakKind e.empty) :: v) ?_ hlast))))
  · cases e.box with
    | none => exact fun x hx => (hspace _ x hx).1
    | some b => intro x hx; cases hx; show TK.Checkbox ∉ _; decide
  · cases hb : e.box with
    | none => exact does_if_false (does_at_false fun x hx => (hspace _ x hx).2) (does_empty _)
    | some b =>
      refine does_if_true (does_at_true (i := p + 2) (k := .Checkbox) (by decide)) (does_then (does_popAs t _ (by show TK.Checkbox ∈ _; decide)) ?_)
      exact does_space (i := p + 3) (by omega) fun x hx => (hspace _ x hx).1

/-! ## Lists -/

/-- The list at `p`, if there are items. -/
def wrapF (t : Tree) (items : Forest NK Unit) : Forest NK Unit :=
  match t with
  | .nil => .nil
  | .cons _ _ _ _ => .tree .List items .nil

def Tree.itemsF (i p : Nat) : Tree → Forest NK Unit
  | .nil => .nil
  | .cons e d sub next =>
    (e.forest p (wrapF sub (sub.itemsF (i + (d + 1)) (p + (e.raw i).length + 1)))).append
      (next.itemsF i (p + (e.raw i).length + (wrap sub (sub.items (i + (d + 1)))).length + 1))

theorem does_dedent (t : Texts) {q : P Unit} {j : Nat} {v w : List (Nat × TK)} {f : Forest NK Unit} (h : Does q () v ((j, .Dedent) :: w) f) : Does (thenDedent t q) () v w f := by
  intro s hv hs
  obtain ⟨l, h1, h2, h3, h4⟩ := h s hv hs
  obtain ⟨l', k1, k2, k3, k4⟩ := does_skip t (kinds := [.Dedent]) (i := j) (k := .Dedent) (v := w) (by decide) ⟨l, ⟨s.g.nodes ++ f.flat, s.g.pending⟩⟩ h2 h3
  refine ⟨l', ?_, k2, k3, k4.trans h4⟩
  unfold thenDedent
  rw [h1]
  dsimp only
  rw [k1]
  simp [Forest.flat]

theorem does_list (t : Texts) {n p j : Nat} {x : Nat × TK} {v w : List (Nat × TK)} {f : Forest NK Unit}
    (h : Does (whileP (orP (atP listStarts) (andP (atP [.LeadingSpace]) (atP listStarts 1)))
      (do
        subP t (parseListItem t (parseParagraph t n) (parseStmt t n) n)
        ifP (atP [.SameIndent]) nextP (P.ret ())) n) () (x :: v) ((j, .Dedent) :: w) f) :
    Does (parseStmt t (n + 1)) () ((p, .Indent) :: x :: v) w (.tree .List f .nil) := by
  rw [parseStmt]
  refine does_seq (does_kind _ _ _) ?_
  rw [if_neg (by decide), if_pos rfl]
  exact does_seq (does_skip t (by decide)) (does_dedent t (does_node .List (does_seq (does_kind x.1 x.2 v) h)))

theorem items_head (e : Entry) (d : Nat) (sub next : Tree) (i : Nat) : ∃ r, kinds ((Tree.cons e d sub next).items i) = e.mark.kind :: r := by
  have hm : Link.finalKind e.mark.kind (blanks i ++ e.mark.text) = e.mark.kind := by cases e.mark <;> rfl
  refine ⟨kinds (e.rest ++ (wrap sub (sub.items (i + (d + 1))) ++ after sub next (next.items i))), ?_⟩
  show Link.finalKind _ _ :: _ = _
  rw [hm]
  rfl

theorem does_items (t : Texts) {l : Tree} (h : l.Valid) : ∀ {n m i p j : Nat} {w : List (Nat × TK)}, (l.items i).length ≤ m → (l.items i).length + 4 ≤ n →
    Does (whileP (orP (atP listStarts) (andP (atP [.LeadingSpace]) (atP listStarts 1)))
      (do
        subP t (parseListItem t (parseParagraph t n) (parseStmt t n) n)
        ifP (atP [.SameIndent]) nextP (P.ret ())) m) () (numbered p (kinds (l.items i)) ++ (j, .Dedent) :: w) ((j, .Dedent) :: w) (l.itemsF i p) := by
  induction l with
  | nil =>
    intro n m i p j w _ _
    exact does_while_stop m (does_or_false (does_at_head (by decide)) (does_and_false (does_at_head (by decide))))
  | cons e d sub next ih1 ih2 =>
    intro n m i p j w hm hn
    obtain ⟨h1, h2, h3⟩ := h
    have hlen : ((Tree.cons e d sub next).items i).length = (e.raw i).length + ((wrap sub (sub.items (i + (d + 1)))).length + (after sub next (next.items i)).length) := by
      simp [Tree.items]
    have hel := entry_length e i
    rw [hlen] at hm hn
    obtain ⟨m, rfl⟩ : ∃ x, m = x + 1 := ⟨m - 1, by omega⟩
    have ek : ∀ w, numbered p (kinds ((Tree.cons e d sub next).items i)) ++ w = numbered p (kinds (e.raw i)) ++
        (numbered (p + (e.raw i).length) (kinds (wrap sub (sub.items (i + (d + 1))))) ++
        (numbered (p + (e.raw i).length + (wrap sub (sub.items (i + (d + 1)))).length) (kinds (after sub next (next.items i))) ++ w)) := by
      intro w
      show numbered p (kinds (e.raw i ++ (wrap sub _ ++ after sub next _))) ++ w = _
      rw [kinds_append, kinds_append, numbered_append, numbered_append, kinds_length, kinds_length]
      simp only [List.append_assoc]
    rw [ek]
    -- the list below
    have hsub : ∀ W : List (Nat × TK), sub ≠ .nil → Does (parseStmt t n) ()
        (numbered (p + (e.raw i).length) (kinds (wrap sub (sub.items (i + (d + 1))))) ++ W) W (wrapF sub (sub.itemsF (i + (d + 1)) (p + (e.raw i).length + 1))) ∧
        ∃ x ∈ (numbered (p + (e.raw i).length) (kinds (wrap sub (sub.items (i + (d + 1))))) ++ W).head?, x.2 = .Indent := by
      intro W hs
      cases sub with
      | nil => exact absurd rfl hs
      | cons e' d' s' n' =>
        refine ⟨?_, ⟨_, rfl, rfl⟩⟩
        have hw : (wrap (Tree.cons e' d' s' n') ((Tree.cons e' d' s' n').items (i + (d + 1)))).length = ((Tree.cons e' d' s' n').items (i + (d + 1))).length + 2 := by
          simp [wrap]
        rw [hw] at hn
        obtain ⟨n, rfl⟩ : ∃ x, n = x + 1 := ⟨n - 1, by omega⟩
        have := ih1 h2 (n := n) (m := n) (i := i + (d + 1)) (p := p + (e.raw i).length + 1)
          (j := p + (e.raw i).length + 1 + ((Tree.cons e' d' s' n').items (i + (d + 1))).length) (w := W) (by omega) (by omega)
        obtain ⟨r, hr⟩ := items_head e' d' s' n' (i + (d + 1))
        have he : numbered (p + (e.raw i).length) (kinds (wrap (Tree.cons e' d' s' n') ((Tree.cons e' d' s' n').items (i + (d + 1))))) ++ W =
            (p + (e.raw i).length, .Indent) :: (numbered (p + (e.raw i).length + 1) (kinds ((Tree.cons e' d' s' n').items (i + (d + 1)))) ++
              (p + (e.raw i).length + 1 + ((Tree.cons e' d' s' n').items (i + (d + 1))).length, .Dedent) :: W) := by
          show numbered _ (kinds ((TK.Indent, []) :: (_ ++ [(TK.Dedent, [])]))) ++ W = _
          show numbered _ (TK.Indent :: kinds (_ ++ [(TK.Dedent, [])])) ++ W = _
          rw [numbered_cons, kinds_append, numbered_append, kinds_length]
          simp only [List.cons_append, List.append_assoc]
          rfl
        rw [he]
        rw [hr, numbered_cons, List.cons_append] at this ⊢
        exact does_list t this
    have hcond : ∀ w : List (Nat × TK), Does (orP (atP listStarts) (andP (atP [.LeadingSpace]) (atP listStarts 1))) true (numbered p (kinds (e.raw i)) ++ w) (numbered p (kinds (e.raw i)) ++ w) .nil := by
      intro w
      rw [entry_kinds]
      refine does_or_true (does_at_true ?_)
      cases e.mark with
      | minus => decide
      | plus => decide
      | number ds p => show TK.LeadingNumber ∈ _; decide
    -- the item
    have hitem : ∀ W : List (Nat × TK), (∃ x ∈ W.head?, x.2 ∈ [TK.Dedent, .SameIndent, .ListItemEnd]) → (sub = .nil → ∃ x ∈ W.head?, x.2 ∈ [TK.Indent, .SameIndent, .Dedent]) →
        Does (parseListItem t (parseParagraph t n) (parseStmt t n) n) () (numbered p (kinds (e.raw i)) ++
          (numbered (p + (e.raw i).length) (kinds (wrap sub (sub.items (i + (d + 1))))) ++ W)) (dropEnd W)
          (e.forest p (wrapF sub (sub.itemsF (i + (d + 1)) (p + (e.raw i).length + 1)))) := by
      intro W hW hW'
      by_cases hs : sub = .nil
      · subst hs
        exact does_entry t h1 (hW' rfl) hW (by omega) (.inl ⟨rfl, rfl⟩)
      · obtain ⟨g1, g2⟩ := hsub W hs
        refine does_entry t h1 ?_ hW (by omega) (.inr ⟨g2, g1⟩)
        obtain ⟨x, hx, hxk⟩ := g2
        exact ⟨x, hx, by rw [hxk]; decide⟩
    cases next with
    | nil =>
      have := hitem ((j, .Dedent) :: w) ⟨_, rfl, by show TK.Dedent ∈ _; decide⟩ (fun _ => ⟨_, rfl, by show TK.Dedent ∈ _; decide⟩)
      refine does_while_step (hcond _) (does_then (does_sub t this) (does_if_false (does_at_head (by decide)) (does_ret _ _))) ?_
      exact does_while_stop m (does_or_false (does_at_head (by decide)) (does_and_false (does_at_head (by decide))))
    | cons e' d' s' n' =>
      have hal : (after sub (Tree.cons e' d' s' n') ((Tree.cons e' d' s' n').items i)).length = ((Tree.cons e' d' s' n').items i).length + 1 := by simp [after]
      rw [hal] at hm hn
      have ih := ih2 h3 (n := n) (m := m) (i := i) (p := p + (e.raw i).length + (wrap sub (sub.items (i + (d + 1)))).length + 1) (j := j) (w := w) (by omega) (by omega)
      obtain ⟨r, hr⟩ := items_head e' d' s' n' i
      have hmk : e'.mark.kind ≠ .SameIndent := by cases e'.mark <;> exact nofun
      have ea : ∀ k : TK, k ≠ .Word → kinds ((k, []) :: (Tree.cons e' d' s' n').items i) = Link.finalKind k [] :: kinds ((Tree.cons e' d' s' n').items i) := fun _ _ => rfl
      cases sub with
      | nil =>
        refine does_while_step (v' := numbered (p + (e.raw i).length + (wrap .nil (Tree.nil.items (i + (d + 1)))).length + 1) (kinds ((Tree.cons e' d' s' n').items i)) ++ (j, .Dedent) :: w)
          (hcond _) (does_then (does_sub t (hitem _ ⟨_, rfl, by show TK.SameIndent ∈ _; decide⟩ (fun _ => ⟨_, rfl, by show TK.SameIndent ∈ _; decide⟩))) ?_) ih
        exact does_if_true (does_at_true (i := p + (e.raw i).length + (wrap .nil (Tree.nil.items (i + (d + 1)))).length) (k := .SameIndent) (by decide)) (does_next _ _)
      | cons e2 d2 s2 n2 =>
        refine does_while_step (v' := numbered (p + (e.raw i).length + (wrap (Tree.cons e2 d2 s2 n2) ((Tree.cons e2 d2 s2 n2).items (i + (d + 1)))).length + 1) (kinds ((Tree.cons e' d' s' n').items i)) ++ (j, .Dedent) :: w)
          (hcond _) (does_then (does_sub t (hitem _ ⟨_, rfl, by show TK.ListItemEnd ∈ _; decide⟩ (fun h => by cases h))) ?_) ih
        show Does _ () (numbered _ (kinds ((Tree.cons e' d' s' n').items i)) ++ _) _ _
        rw [hr, numbered_cons, List.cons_append]
        exact does_if_false (does_at_head (by simpa using hmk)) (does_ret _ _)

/-! ## Documents -/

/-- From the text to the nodes. -/
theorem tree_nodes {l : Tree} (h : l.Valid) (hne : l ≠ .nil) (i : Nat) {n : Nat} (hn : (l.stream i).length + 5 ≤ n) :
    ∃ toks, Pipeline.parse BaseLexer.stdLex n (l.text i) = .ok (toks, (Forest.tree NK.StmtList (.tree .List (l.itemsF i 2) .nil) .nil).flat) ∧
      toks.map (·.kind) = kinds (l.stream i) ∧ toks.map (·.text) = (l.stream i).map fun x => Link.finalText x.1 x.2 := by
  obtain ⟨toks, ht, hk, hx⟩ := tree_tokens h i
  refine ⟨toks, ?_, hk, hx⟩
  unfold Pipeline.parse
  rw [ht]
  dsimp only
  rw [hk]
  obtain ⟨n, rfl⟩ : ∃ x, n = x + 1 := ⟨n - 1, by omega⟩
  cases l with
  | nil => exact absurd rfl hne
  | cons e d sub next =>
    have hl : ((Tree.cons e d sub next).stream i).length = ((Tree.cons e d sub next).items i).length + 2 := by simp [Tree.stream, wrap]
    rw [hl] at hn
    have hd := does_items (texts toks) h (n := n) (m := n) (i := i) (p := 2) (j := 2 + ((Tree.cons e d sub next).items i).length) (w := []) (by omega) (by omega)
    obtain ⟨r, hr⟩ := items_head e d sub next i
    have he : numbered 1 (kinds ((Tree.cons e d sub next).stream i)) = (1, .Indent) :: (numbered 2 (kinds ((Tree.cons e d sub next).items i)) ++ [(2 + ((Tree.cons e d sub next).items i).length, .Dedent)]) := by
      show numbered _ (TK.Indent :: kinds (_ ++ [(TK.Dedent, [])])) = _
      rw [numbered_cons, kinds_append, numbered_append, kinds_length]
      rfl
    rw [hr, numbered_cons, List.cons_append] at hd he
    have hstmt := does_rounds (texts toks) (p := (1, .Indent)) (m := n) (by nofun) (does_list (texts toks) (p := 1) hd) (does_while_stop n (does_not (b := true) (does_finished _)))
    have hd := does_node .StmtList hstmt
    have hne : kinds ((Tree.cons e d sub next).stream i) ≠ [] := by nofun
    obtain ⟨l, q1, -⟩ := hd ⟨Lex.main (kinds ((Tree.cons e d sub next).stream i)), {}⟩ (by rw [← he]; exact cur_main hne) (by rw [← he]; exact contig_numbered _ _)
    unfold parseTop
    rw [q1]
    simp [Forest.append]

end Verif.Lists
