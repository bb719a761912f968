import Verif.Link.Parse
import Verif.Stamp.Convert

/-!
# From the nodes of a paragraph to its links
-/

namespace Verif.Link
open Verif.NodeGroup Verif.NodeGroup.Spec
open Verif.Parser (NK)
open Verif.Token (TK Tok)
open Verif.Pipeline (tokAt Piece)
open Verif.Sem (LK children groupsF children_tree groupsF_append)
open Verif.Stamp (Out Shows Raw)
open Verif.Drawer (Text)

def said (r : Raw) : List Text := r.map fun t => finalText t.1 t.2

theorem said_append (a b : Raw) : said (a ++ b) = said a ++ said b := List.map_append

theorem said_length (r : Raw) : (said r).length = r.length := List.length_map _

theorem text_at {toks : List Tok} {i : Nat} {u : Text} {us : List Text} (h : Shows toks i (u :: us)) (k : NK) (r : List (Node NK Unit)) :
    getText toks (⟨k, .tok i⟩ :: r) = .ok u := by
  obtain ⟨t, h1, h2⟩ := h 0 u rfl
  simp only [Nat.add_zero] at h1
  simp only [getText, h1, h2]

theorem shows_placed (r : Raw) : Shows (placedF 0 r) 1 (said r) := by
  have key : ∀ (r : Raw) (pos j : Nat) (u : Text), (said r)[j]? = some u → ∃ t, (placedF pos r)[j]? = some t ∧ t.text = u := by
    intro r
    induction r with
    | nil => intro pos j u h; simp [said] at h
    | cons x r ih =>
      obtain ⟨k, v⟩ := x
      intro pos j u h
      cases j with
      | zero => exact ⟨⟨finalKind k v, finalText k v, some pos⟩, rfl, by simpa [said] using h⟩
      | succ j =>
        obtain ⟨t, h1, h2⟩ := ih (pos + v.length) j u (by simpa [said] using h)
        exact ⟨t, by simpa [placedF] using h1, h2⟩
  intro j u h
  obtain ⟨t, h1, h2⟩ := key r 0 j u h
  refine ⟨t, ?_, h2⟩
  unfold tokAt
  rw [if_neg (by omega), show 1 + j - 1 = j by omega]
  exact h1

/-! ## Rows -/

theorem text_piece {p : Piece} (h : Easy p) : finalText p.kind p.text = p.text := by
  have : p.kind ≠ .FootnoteLinked := by
    intro he
    have hc := calm_piece h.1 h.2.1 h.2.2.1 h.2.2.2
    have hr := piece_role h
    rw [he] at hr
    cases hr
  unfold finalText
  rw [if_neg this]

theorem said_row {ps : List Piece} (h : ∀ p ∈ ps, Easy p) : said (rowRaw ps) = ps.map Piece.text := by
  induction ps with
  | nil => rfl
  | cons p r ih =>
    have ih := ih fun q hq => h q (List.mem_cons_of_mem _ hq)
    show finalText p.kind p.text :: said (rowRaw r) = _
    rw [ih, text_piece (h p List.mem_cons_self)]
    rfl

theorem row_leaves {toks : List Tok} : ∀ (ps : List Piece) (i : Nat), Shows toks i (ps.map Piece.text) → leavesOf toks (groupsF (rowF i ps)) = .ok (ps.map leaf) := by
  intro ps
  induction ps with
  | nil => intro i _; rfl
  | cons p r ih =>
    intro i h
    have h1 := text_at h p.leafKind []
    simp only [rowF, groupsF, leavesOf, leafOf, Sem.leaf_sem, h1, Out.bind, ih (i + 1) h.tail]
    rfl

theorem row_texts {toks : List Tok} : ∀ (ps : List Piece) (i : Nat), Shows toks i (ps.map Piece.text) → textsOf toks (groupsF (rowF i ps)) = .ok (rowText ps) := by
  intro ps
  induction ps with
  | nil => intro i _; rfl
  | cons p r ih =>
    intro i h
    have h1 := text_at h p.leafKind []
    simp only [rowF, groupsF, textsOf, h1, Out.bind, ih (i + 1) h.tail]
    rfl

theorem ids_group (i : Nat) (ps : List Piece) : ∃ a, groupsF (idsF i ps) = [a] ∧ Sem.isError a = false ∧ children a = groupsF (rowF i ps) ∧
    (Sem.kindOf a = .Paragraph ↔ ps ≠ []) := by
  unfold idsF
  by_cases h : ps = []
  · subst h
    exact ⟨_, rfl, rfl, rfl, by simp [Sem.kindOf]⟩
  · rw [if_neg h]
    exact ⟨_, rfl, rfl, children_tree _ _, by simp [Sem.kindOf, h]⟩

/-! ## Descriptions -/

theorem blank_piece {p : Piece} (h : ∀ n, p ≠ .brk n) (hg : ∀ n, p ≠ .gap n) : blank p.semKind = false := by
  cases p with
  | gap n => exact absurd rfl (hg n)
  | brk n => exact absurd rfl (h n)
  | word w => simp only [Piece.semKind]; split_ifs <;> rfl
  | _ => rfl

theorem no_breaks {ps : List Piece} (h : RowFrom ps) : ∀ p ∈ ps, ∀ n, p ≠ .brk n := by
  induction ps with
  | nil => simp
  | cons p r ih =>
    intro q hq
    rcases List.mem_cons.mp hq with rfl | hq
    · exact h.2.2.2.1
    · exact ih h.2.2.2.2.2 q hq

theorem desc_group {toks : List Tok} {d : Option (List Piece)} {i : Nat} (hv : ∀ x ∈ d, DescValid x) (hs : Shows toks i (said (descRaw d))) :
    ∃ a, groupsF (descF i d) = [a] ∧ Sem.isError a = false ∧ descField toks a = .ok (d.map (·.map leaf)) := by
  cases d with
  | none => exact ⟨_, rfl, rfl, rfl⟩
  | some d =>
    obtain ⟨h1, h2, h3⟩ := hv d rfl
    obtain ⟨a, ha, he, hc, hk⟩ := ids_group (i + 1) d
    refine ⟨a, ha, he, ?_⟩
    have hs' : Shows toks (i + 1) (d.map Piece.text) := by
      have : said (descRaw (some d)) = "][".toList :: said (rowRaw d) := rfl
      rw [this] at hs
      rw [← said_row (row_easy h1)]
      exact hs.tail
    have hlast : ((d.map leaf).reverse.dropWhile fun l => blank l.1).reverse = d.map leaf := by
      rcases List.eq_nil_or_concat d with rfl | ⟨u, p, rfl⟩
      · exact absurd rfl h2
      · have hb : blank p.semKind = false := blank_piece (no_breaks h1 p (by simp)) (fun n hn => h3 n (by simp [hn]))
        simp [leaf, hb]
    unfold descField
    rw [if_pos (hk.mpr h2), descOf, hc, row_leaves d _ hs']
    show Out.ok (some _) = _
    rw [hlast]
    rfl

/-! ## Targets -/

/-- What the converter finds: the target of an unknown protocol is lost. -/
def Head.got : Head → Target
  | .user name _ => .user name []
  | h => h.target

def Item.got : Item → Part
  | .link h d => .link h.got (d.map (·.map leaf))
  | i => i.part


theorem strip_colon {t : Text} (h : t.head? ≠ some ':') : stripColons (':' :: t) = t := by
  unfold stripColons
  rw [List.dropWhile_cons_of_pos (by decide)]
  cases t with
  | nil => rfl
  | cons c r =>
    have : c ≠ ':' := by simpa using h
    rw [List.dropWhile_cons_of_neg (by simpa using this)]

theorem strip_none {t : Text} (h : t.head? ≠ some ':') : stripColons t = t := by
  unfold stripColons
  cases t with
  | nil => rfl
  | cons c r =>
    have : c ≠ ':' := by simpa using h
    rw [List.dropWhile_cons_of_neg (by simpa using this)]

theorem strip_spaces {t : Text} (h1 : t.head? ≠ some ' ') (h2 : t.getLast? ≠ some ' ') : stripSpaces t = t := by
  unfold stripSpaces Sem.stripSets
  have e1 : t.dropWhile (fun c => decide (c = ' ')) = t := by
    cases t with
    | nil => rfl
    | cons c r =>
      have : c ≠ ' ' := by simpa using h1
      rw [List.dropWhile_cons_of_neg (by simpa using this)]
  rw [e1]
  rcases List.eq_nil_or_concat t with rfl | ⟨u, c, rfl⟩
  · rfl
  · have : c ≠ ' ' := by simpa using h2
    rw [List.concat_eq_append, List.reverse_append, List.reverse_singleton, List.singleton_append, List.dropWhile_cons_of_neg (by simpa using this)]
    simp

theorem split_text {t : Text} (h : '/' ∉ t) : splitSlash t = [t] := by
  induction t with
  | nil => rfl
  | cons c r ih =>
    simp only [List.mem_cons, not_or] at h
    rw [splitSlash, if_neg (fun e => h.1 e.symm), ih h.2]

theorem split_app {t : Text} (h : '/' ∉ t) (u : Text) : splitSlash (t ++ '/' :: u) = t :: splitSlash u := by
  induction t with
  | nil => rw [List.nil_append, splitSlash, if_pos rfl]
  | cons c r ih =>
    simp only [List.mem_cons, not_or] at h
    rw [List.cons_append, splitSlash, if_neg (fun e => h.1 e.symm), ih h.2]

theorem split_join {ts : List Text} (hne : ts ≠ []) (h : ∀ t ∈ ts, '/' ∉ t) : splitSlash (joinSlash ts) = ts := by
  induction ts with
  | nil => exact absurd rfl hne
  | cons t r ih =>
    cases r with
    | nil => exact split_text (h t List.mem_cons_self)
    | cons u r =>
      show splitSlash (t ++ '/' :: joinSlash (u :: r)) = _
      rw [split_app (h t List.mem_cons_self), ih (by simp) fun x hx => h x (List.mem_cons_of_mem _ hx)]

theorem take_stars (n g : Nat) {t : Text} (h : t.head? ≠ some '*') :
    ((List.replicate n '*' ++ List.replicate g ' ' ++ t).takeWhile (· = '*')).length = n := by
  rw [List.append_assoc, List.takeWhile_append_of_pos (by simp)]
  have : (List.replicate g ' ' ++ t).takeWhile (fun c => decide (c = '*')) = [] := by
    cases g with
    | zero =>
      cases t with
      | nil => rfl
      | cons c r =>
        have : c ≠ '*' := by simpa using h
        simp [this]
    | succ g => rw [List.replicate_succ]; rfl
  rw [this]
  simp

theorem drop_stars (n g : Nat) {t : Text} (h : t.head? ≠ some '*') (h' : t.head? ≠ some ' ') :
    (List.replicate n '*' ++ List.replicate g ' ' ++ t).dropWhile (fun c => c = '*' || c = ' ') = t := by
  rw [List.append_assoc, List.dropWhile_append_of_pos (by simp), List.dropWhile_append_of_pos (by simp)]
  cases t with
  | nil => rfl
  | cons c r =>
    have h1 : c ≠ '*' := by simpa using h
    have h2 : c ≠ ' ' := by simpa using h'
    rw [List.dropWhile_cons_of_neg (by simp [h1, h2])]

/-! Protocols by their names. -/

theorem proto_web {toks : List Tok} {l : Sem.Adapter} {u t : Text} (s : Bool) (h : getText toks l = .ok u) (ht : stripColons u = t) :
    protocolTarget toks (if s then "https" else "http").toList l = .ok (.raw (webText s t)) := by
  subst ht
  unfold protocolTarget
  have e : BaseLexer.normalize (if s then "https" else "http").toList = (if s then "https" else "http").toList := by cases s <;> decide +kernel
  have c : (if s then "https" else "http").toList = "http".toList ∨ (if s then "https" else "http").toList = "https".toList := by cases s <;> decide +kernel
  simp only [e]
  rw [if_pos c, h]
  rfl

theorem proto_id {toks : List Tok} {l : Sem.Adapter} {u t : Text} (h : getText toks l = .ok u) (ht : stripColons u = t) :
    protocolTarget toks "id".toList l = .ok (.id (stripSpaces t)) := by
  subst ht
  unfold protocolTarget
  have e : BaseLexer.normalize "id".toList = "id".toList := by decide +kernel
  simp only [e]
  rw [if_neg (by decide +kernel), if_pos (by decide +kernel), h]
  rfl

theorem proto_person {toks : List Tok} {l : Sem.Adapter} {u : Text} (h : textsOf toks (children l) = .ok u) :
    protocolTarget toks "person:".toList l = .ok (.person u) := by
  unfold protocolTarget
  have e : BaseLexer.normalize "person:".toList = "person".toList := by decide +kernel
  simp only [e]
  rw [if_neg (by decide +kernel), if_neg (by decide +kernel), if_pos (by decide +kernel), h]
  rfl

theorem proto_file {toks : List Tok} {l : Sem.Adapter} {u t : Text} (h : getText toks l = .ok u) (ht : stripColons u = t) :
    protocolTarget toks "file".toList l = .ok (.file t) := by
  subst ht
  unfold protocolTarget
  have e : BaseLexer.normalize "file".toList = "file".toList := by decide +kernel
  simp only [e]
  rw [if_neg (by decide +kernel), if_neg (by decide +kernel), if_neg (by decide +kernel), if_pos (by decide +kernel), h]
  rfl

theorem proto_attachment {toks : List Tok} {l : Sem.Adapter} {u t : Text} (h : getText toks l = .ok u) (ht : stripColons u = t) :
    protocolTarget toks "attachment".toList l = .ok (.attachment t) := by
  subst ht
  unfold protocolTarget
  have e : BaseLexer.normalize "attachment".toList = "attachment".toList := by decide +kernel
  simp only [e]
  rw [if_neg (by decide +kernel), if_neg (by decide +kernel), if_neg (by decide +kernel), if_neg (by decide +kernel), if_pos (by decide +kernel), h]
  rfl

theorem proto_custom {toks : List Tok} {l : Sem.Adapter} {u t : Text} (h : getText toks l = .ok u) (ht : stripColons u = t) :
    protocolTarget toks ['#'] l = .ok (.customId t) := by
  subst ht
  unfold protocolTarget
  have e : BaseLexer.normalize ['#'] = [] := by decide +kernel
  simp only [e]
  rw [if_neg (by decide +kernel), if_neg (by decide +kernel), if_neg (by decide +kernel), if_neg (by decide +kernel), if_neg (by decide +kernel), if_pos (by decide +kernel), h]
  rfl

theorem normal_name {name : Text} (h : ∀ c ∈ name, BaseLexer.isLower c || BaseLexer.isDigit c) : BaseLexer.normalize (name ++ [':']) = name := by
  unfold BaseLexer.normalize
  rw [List.filterMap_append, show List.filterMap _ [':'] = [] from rfl, List.append_nil]
  induction name with
  | nil => rfl
  | cons c r ih =>
    have hc := h c List.mem_cons_self
    have h1 : c ≠ '_' ∧ c ≠ '-' := ⟨by rintro rfl; revert hc; decide, by rintro rfl; revert hc; decide⟩
    rw [List.filterMap_cons_some (b := c), ih fun d hd => h d (List.mem_cons_of_mem _ hd)]
    rw [if_neg (by simp [h1.1, h1.2]), if_pos hc]

theorem proto_user {toks : List Tok} {l : Sem.Adapter} {name : Text} (h : Protocol name) :
    protocolTarget toks (name ++ [':']) l = .ok (.user name []) := by
  obtain ⟨h1, h2, h3, h4⟩ := h
  have hne : ∀ x ∈ ["http", "file", "attachment", "id"], name ≠ x.toList := fun x hx e => h4 x hx (e ▸ List.prefix_refl _)
  unfold protocolTarget
  simp only [normal_name h2]
  have hs : name ≠ "https".toList := fun e => h4 "http" (by simp) (by rw [e]; decide +kernel)
  have hh : name ++ [':'] ≠ "#".toList := by
    intro e
    have := congrArg List.getLast? e
    rw [List.getLast?_concat] at this
    exact absurd this (by decide +kernel)
  rw [if_neg (fun h => h.elim (hne "http" (by simp)) hs), if_neg (hne "id" (by simp)), if_neg h3, if_neg (hne "file" (by simp)),
    if_neg (hne "attachment" (by simp)), if_neg hh]

/-- The first two subnodes of a link. -/
theorem head_group {toks : List Tok} {h : Head} {i : Nat} (hv : h.Valid) (hs : Shows toks i (said (h.raw ++ rowRaw h.row))) :
    ∃ p l, groupsF (headF i h) = [p, l] ∧ Sem.isError p = false ∧ Sem.isError l = false ∧
      (if Sem.kindOf p = .Empty then (getText toks l).bind fun t => .ok (plainTarget (stripColons t))
        else (getText toks p).bind fun p => protocolTarget toks p l) = .ok h.got := by
  have two : ∀ u v : Text, said h.raw = [u, v] → Shows toks i (said (h.raw ++ rowRaw h.row)) →
      getText toks [⟨NK.Word, .tok i⟩] = .ok u ∧ getText toks [⟨NK.RawText, .tok (i + 1)⟩] = .ok v := by
    intro u v e hs
    rw [said_append, e] at hs
    exact ⟨text_at hs _ _, text_at hs.tail _ _⟩
  have one : ∀ u : Text, said h.raw = [u] → Shows toks i (said (h.raw ++ rowRaw h.row)) →
      getText toks [⟨NK.RawText, .tok i⟩] = .ok u ∧ getText toks [⟨NK.Word, .tok i⟩] = .ok u := by
    intro u e hs
    rw [said_append, e] at hs
    exact ⟨text_at hs _ _, text_at hs _ _⟩
  have word : ∀ i, ¬ Sem.kindOf [⟨NK.Word, .tok i⟩] = .Empty := fun i h => by cases h
  cases h with
  | web s r =>
    obtain ⟨g1, g2⟩ := two (if s then "https" else "http").toList (':' :: r) rfl hs
    refine ⟨_, _, rfl, rfl, rfl, ?_⟩
    rw [if_neg (word _), g1]
    exact proto_web s g2 (strip_colon hv.2.2)
  | file p =>
    obtain ⟨g1, g2⟩ := two "file".toList (':' :: p) rfl hs
    refine ⟨_, _, rfl, rfl, rfl, ?_⟩
    rw [if_neg (word _), g1]
    exact proto_file g2 (strip_colon hv.2)
  | attachment p =>
    obtain ⟨g1, g2⟩ := two "attachment".toList (':' :: p) rfl hs
    refine ⟨_, _, rfl, rfl, rfl, ?_⟩
    rw [if_neg (word _), g1]
    exact proto_attachment g2 (strip_colon hv.2)
  | id t =>
    obtain ⟨g1, g2⟩ := two "id".toList (':' :: t) rfl hs
    refine ⟨_, _, rfl, rfl, rfl, ?_⟩
    rw [if_neg (word _), g1]
    have := proto_id g2 (strip_colon hv.2.1)
    rw [strip_spaces hv.2.2.1 hv.2.2.2] at this
    exact this
  | custom t =>
    obtain ⟨g1, g2⟩ := two ['#'] t rfl hs
    refine ⟨_, _, rfl, rfl, rfl, ?_⟩
    rw [if_neg (word _), g1]
    exact proto_custom g2 (strip_none hv.2.1)
  | title m g ts =>
    obtain ⟨g1, -⟩ := one (Head.text (.title m g ts)) rfl hs
    refine ⟨_, _, rfl, rfl, rfl, ?_⟩
    rw [if_pos (show Sem.kindOf [⟨NK.Empty, .mono ()⟩] = .Empty from rfl), g1]
    have e : Head.text (.title m g ts) = List.replicate (m + 1) '*' ++ List.replicate g ' ' ++ joinSlash ts := rfl
    rw [e]
    have e2 : stripColons (List.replicate (m + 1) '*' ++ List.replicate g ' ' ++ joinSlash ts) = List.replicate (m + 1) '*' ++ List.replicate g ' ' ++ joinSlash ts :=
      strip_none (by simp [List.replicate_succ])
    simp only [Out.bind, e2]
    obtain ⟨v1, v2, v3, v4⟩ := hv
    have e3 : ∀ t : Text, t.head? = some '*' → plainTarget t = .title (t.takeWhile (· = '*')).length (splitSlash (t.dropWhile fun c => c = '*' || c = ' ')) := by
      intro t ht
      cases t with
      | nil => cases ht
      | cons c r =>
        simp only [List.head?_cons, Option.some.injEq] at ht
        subst ht
        rfl
    rw [e3 _ (by simp [List.replicate_succ]), take_stars _ _ v3, drop_stars _ _ v3 v4, split_join v1 fun t ht => (v2 t ht).2]
    rfl
  | path p =>
    obtain ⟨g1, -⟩ := one p rfl hs
    refine ⟨_, _, rfl, rfl, rfl, ?_⟩
    rw [if_pos (show Sem.kindOf [⟨NK.Empty, .mono ()⟩] = .Empty from rfl), g1]
    have e : stripColons p = p := strip_none (by rcases hv.2 with h | h <;> rw [h] <;> decide)
    simp only [Out.bind, e]
    cases p with
    | nil => rcases hv.2 with h | h <;> cases h
    | cons c r =>
      rcases hv.2 with h | h <;> (simp only [List.head?_cons, Option.some.injEq] at h; subst h; rfl)
  | internal t =>
    obtain ⟨g1, -⟩ := one t rfl hs
    refine ⟨_, _, rfl, rfl, rfl, ?_⟩
    rw [if_pos (show Sem.kindOf [⟨NK.Empty, .mono ()⟩] = .Empty from rfl), g1]
    obtain ⟨v1, v2, c, hc, v3⟩ := hv
    cases t with
    | nil => cases hc
    | cons c' r =>
      cases hc
      have hn : c ≠ ':' ∧ c ≠ '.' ∧ c ≠ '/' ∧ c ≠ '*' := by
        refine ⟨?_, ?_, ?_, ?_⟩ <;> (rintro rfl; revert v3; decide)
      have e : stripColons (c :: r) = c :: r := strip_none (by simpa using hn.1)
      simp only [Out.bind, e]
      unfold plainTarget
      split
      · rename_i h; injection h with h _; exact absurd h hn.2.1
      · rename_i h; injection h with h _; exact absurd h hn.2.2.1
      · rename_i h; injection h with h _; exact absurd h hn.2.2.2
      · rfl
  | person ps =>
    obtain ⟨-, g1⟩ := one "person:".toList rfl hs
    obtain ⟨a, ha, he, hc, hk⟩ := ids_group (i + 1) ps
    refine ⟨[⟨.Word, .tok i⟩], a, ?_, rfl, he, ?_⟩
    · show groupsF (.leaf .Word (.tok i) (idsF (i + 1) ps)) = _
      rw [groupsF, ha]
    rw [if_neg (word _), g1]
    have hrow : Shows toks (i + 1) (ps.map Piece.text) := by
      rw [← said_row (row_easy hv)]
      have : said ((Head.person ps).raw ++ rowRaw (Head.person ps).row) = "person:".toList :: said (rowRaw ps) := rfl
      rw [this] at hs
      exact hs.tail
    have e := row_texts ps _ hrow
    rw [← hc] at e
    exact proto_person e
  | user name ps =>
    obtain ⟨-, g1⟩ := one (name ++ [':']) rfl hs
    obtain ⟨a, ha, he, hc, hk⟩ := ids_group (i + 1) ps
    refine ⟨[⟨.Word, .tok i⟩], a, ?_, rfl, he, ?_⟩
    · show groupsF (.leaf .Word (.tok i) (idsF (i + 1) ps)) = _
      rw [groupsF, ha]
    rw [if_neg (word _), g1]
    exact proto_user hv.1

/-! ## Items -/

theorem note_final (t : Text) : finalText .FootnoteLinked (noteText t) = t := by
  unfold finalText noteText
  rw [if_pos rfl]
  have h1 : Recombine.dropPrefix "[fn:".toList ("[fn:".toList ++ t ++ "]".toList) = t ++ "]".toList := by
    unfold Recombine.dropPrefix
    rw [List.append_assoc, if_pos (List.isPrefixOf_iff_prefix.mpr (List.prefix_append _ _)), List.drop_left]
  have h2 : Recombine.dropSuffix "]".toList (t ++ "]".toList) = t := by
    unfold Recombine.dropSuffix
    rw [if_pos (List.isSuffixOf_iff_suffix.mpr (List.suffix_append _ _)), List.length_append, Nat.add_sub_cancel, List.take_left]
  rw [h1, h2]


theorem part_link {toks : List Tok} {p l d : Sem.Adapter} {f : Forest NK Unit} {t : Target} {ds : Option (List Leaf)} (hg : groupsF f = [p, l, d])
    (hp : Sem.isError p = false) (hl : Sem.isError l = false) (hd : Sem.isError d = false)
    (ht : (if Sem.kindOf p = .Empty then (getText toks l).bind fun t => .ok (plainTarget (stripColons t))
        else (getText toks p).bind fun p => protocolTarget toks p l) = .ok t) (hds : descField toks d = .ok ds) :
    partOf toks (⟨.Link, .ext f.count⟩ :: f.flat) = .ok (.link t ds) := by
  have hc : children (⟨.Link, .ext f.count⟩ :: f.flat) = [p, l, d] := by rw [children_tree, hg]
  unfold partOf
  simp only [hc, List.any_cons, hp, hl, hd, List.any_nil, Bool.or_self, Bool.false_eq_true, if_false, true_or, if_true]
  unfold convertLink
  rw [if_neg (by simp [Sem.kindOf]), hc]
  dsimp only
  rw [ht, hds]
  rfl

theorem item_part {toks : List Tok} {it : Item} {b : Bool} {r : List Item} (h : LinkedFrom b (it :: r)) {i : Nat} (hs : Shows toks i (said it.raw)) :
    ∃ a, groupsF (itemF i it) = [a] ∧ partOf toks a = .ok it.got := by
  cases it with
  | piece p =>
    refine ⟨_, rfl, ?_⟩
    have he : Easy p := items_easy h _ List.mem_cons_self
    have hs' : Shows toks i [p.text] := by
      have : said (Item.raw (.piece p)) = [finalText p.kind p.text] := rfl
      rw [this, text_piece he] at hs
      exact hs
    have h1 := text_at hs' p.leafKind []
    have hk : ¬ (p.leafKind = .Link ∨ p.leafKind = .Footnote) := by
      intro hk
      have := Sem.leaf_sem p
      rcases hk with hk | hk <;> rw [hk] at this <;> cases this
    have hch : children [⟨p.leafKind, .tok i⟩] = [] := rfl
    unfold partOf
    simp only [hch, List.any_nil, Bool.false_eq_true, if_false, if_neg hk, Sem.leaf_sem, h1]
    rfl
  | link hd d =>
    obtain ⟨h1, h2, -⟩ := h
    have e : said (Item.raw (.link hd d)) = "[[".toList :: (said (hd.raw ++ rowRaw hd.row) ++ (said (descRaw d) ++ ["]]".toList])) := by
      show said ([(TK.LinkBegin, "[[".toList)] ++ hd.raw ++ (rowRaw hd.row ++ (descRaw d ++ [(TK.LinkEnd, "]]".toList)]))) = _
      simp only [said_append, List.append_assoc]
      rfl
    rw [e] at hs
    have hs := hs.tail
    obtain ⟨p, l, g1, g2, g3, g4⟩ := head_group h1 hs.left
    have hs2 := hs.right.left
    rw [said_length, List.length_append, show (rowRaw hd.row).length = hd.row.length from List.length_map _, ← Nat.add_assoc] at hs2
    obtain ⟨x, x1, x2, x3⟩ := desc_group h2 hs2
    refine ⟨_, rfl, part_link (p := p) (l := l) (d := x) ?_ g2 g3 x2 g4 x3⟩
    rw [groupsF_append, g1, x1]
    rfl
  | url s u =>
    have h1 : Head.Valid (.web s u) := h.1
    obtain ⟨p, l, g1, g2, g3, g4⟩ := head_group (toks := toks) (i := i) h1 (by
      rw [show (Head.web s u).raw ++ rowRaw (Head.web s u).row = Item.raw (.url s u) from List.append_nil _]
      exact hs)
    refine ⟨_, rfl, part_link (p := p) (l := l) (d := [⟨.Empty, .mono ()⟩]) ?_ g2 g3 rfl g4 rfl⟩
    have : groupsF (headF i (.web s u)) = [[⟨NK.Word, .tok i⟩], [⟨NK.RawText, .tok (i + 1)⟩]] := rfl
    rw [this] at g1
    cases g1
    rfl
  | note t =>
    refine ⟨_, rfl, ?_⟩
    have ht : finalText .FootnoteLinked (noteText t) = t := note_final t
    have hs' : Shows toks i [t] := by
      have : said (Item.raw (.note t)) = [finalText .FootnoteLinked (noteText t)] := rfl
      rw [this, ht] at hs
      exact hs
    have h1 := text_at hs' .RawText []
    have hch := children_tree (k := NK.Footnote) (.leaf .Empty (.mono ()) (.leaf .RawText (.tok i) .nil) : Forest NK Unit)
    unfold partOf convertLink
    simp only [hch]
    simp only [groupsF, List.any_cons, Sem.isError, List.any_nil, Bool.or_self, Bool.false_eq_true, if_false, or_true, if_true, Sem.kindOf, h1]
    rfl

theorem parts_items {toks : List Tok} {is : List Item} {b : Bool} (h : LinkedFrom b is) :
    ∀ i, Shows toks i (said (docRaw is)) → partsOf toks (groupsF (docF i is)) = .ok (is.map Item.got) := by
  induction is generalizing b with
  | nil => intro i _; rfl
  | cons it r ih =>
    intro i hs
    rw [docRaw_cons, said_append] at hs
    have h2 := hs.right
    rw [said_length] at h2
    obtain ⟨a, g1, g2⟩ := item_part h hs.left
    have hr : ∃ b, LinkedFrom b r := by
      cases it with
      | piece p => exact ⟨_, h.2.2.2.2.2⟩
      | link hd d => exact ⟨_, h.2.2⟩
      | url s u => exact ⟨_, h.2.2⟩
      | note u => exact ⟨_, h.2.2⟩
    obtain ⟨b', hr⟩ := hr
    rw [docF, groupsF_append, g1, List.singleton_append, partsOf, g2]
    simp only [Out.bind, ih hr _ h2]
    rfl

/-- From the text to the paragraph. -/
theorem read_items {is : List Item} (h : LinkedFrom true is) (hf : is.head? ≠ some (.piece (.brk 0))) (hne : is ≠ []) {n : Nat} (hn : (docRaw is).length + 4 ≤ n) :
    readParas n (render is) = .ok (.ok [((is.map Item.got).reverse.dropWhile Part.isBlank).reverse]) := by
  unfold readParas
  rw [linked_nodes h hf hne hn]
  simp only
  have e : children ((Forest.tree NK.StmtList (.tree .Paragraph (docF 1 is) .nil) .nil : Forest NK Unit).flat) =
      [⟨.Paragraph, .ext (docF 1 is).count⟩ :: (docF 1 is).flat] := by
    have : (Forest.tree NK.StmtList (.tree .Paragraph (docF 1 is) .nil) .nil : Forest NK Unit).flat =
        ⟨.StmtList, .ext (Forest.tree NK.Paragraph (docF 1 is) .nil : Forest NK Unit).count⟩ :: (Forest.tree NK.Paragraph (docF 1 is) .nil : Forest NK Unit).flat := by
      simp [Forest.flat]
    rw [this, children_tree]
    rfl
  have he : ∀ (is : List Item) (i : Nat), (groupsF (docF i is)).any Sem.isError = false := by
    intro is
    induction is with
    | nil => intro i; rfl
    | cons it r ih =>
      intro i
      rw [docF, groupsF_append, List.any_append, ih, Bool.or_false]
      cases it with
      | piece p =>
        show (Sem.isError [⟨p.leafKind, .tok i⟩] || false) = false
        generalize p.leafKind = k
        cases k <;> rfl
      | _ => rfl
  rw [e]
  unfold parasOf
  rw [if_pos ⟨rfl, by rw [children_tree]; exact he is 1⟩]
  unfold paraOf
  rw [children_tree, parts_items h 1 (shows_placed (docRaw is))]
  rfl

end Verif.Link
