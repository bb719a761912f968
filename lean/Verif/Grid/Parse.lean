import Verif.Grid.Lex
import Verif.Link.Parse
import Verif.Code.ParseDoc
import Verif.Raw.Parse

/-!
# Parsing of tables
-/

namespace Verif.Grid
open Verif.Lexer Verif.NodeGroup Verif.NodeGroup.Spec
open Verif.Parser hiding TK Does does_bind does_ret does_seq does_if_true does_if_false does_at does_finished does_next does_expect does_skip does_popAny does_popAs
  does_empty does_node does_sub does_while_stop does_while_step does_not does_and
open Verif.Pipeline (numbered numbered_cons numbered_append texts tokAt)
open Verif.Link (Does does_bind does_ret does_seq does_then does_if_true does_if_false does_and_true does_and_false does_ask does_at does_at_true does_at_false
  does_finished does_kind does_next does_expect does_skip does_popAny does_popAs does_empty does_node does_sub does_ignore does_while_stop does_while_step does_not
  does_and does_canSearch_true does_canSearch_false does_collect Contig contig_numbered valid_left kinds kinds_append kinds_length docF docRaw docK Item LinkedFrom Linked
  calmKinds)
open Verif.Stamp (Raw numbered_fst numbered_length gapRaw)
open Verif.Token (TK Tok)
open Verif.Drawer (Text)
open Verif.Code (breakKind does_at_head does_break does_rounds forest_assoc does_plain)

/-! ## Looking back -/

/-- The token before the cursor. -/
def Back (l : Lex TK) (k : TK) : Prop := ∀ ks, l.at ks (-1) = .ok (decide (k ∈ ks))

theorem back_next {l : Lex TK} {p x : Nat × TK} {v : List (Nat × TK)} (h : Cur l (p :: x :: v)) (hc : Contig (p :: x :: v)) : Back l.next p.2 := by
  obtain ⟨h1, h2, h3, h4, -⟩ := cur_next_cons h
  obtain ⟨-, -, k3, -⟩ := cur_next_cons h1
  obtain ⟨hv1, hv2⟩ := (cur_valid h).2 p List.mem_cons_self
  have hx : x.1 = p.1 + 1 := by
    obtain ⟨a, ha⟩ := hc
    simp only [List.map_cons, List.length_cons, List.range'_succ, List.cons.injEq] at ha
    omega
  have hget : l.next.get (-1) = p.1 := by
    unfold Lex.get
    rw [k3, hx]
    omega
  intro ks
  have hlt : p.1 - 1 < l.toks.length := by
    by_contra hn
    rw [List.getElem?_eq_none (by omega)] at hv2
    cases hv2
  have hn1 : l.hasNext 1 = true := by
    have := (lookahead_partial l _ h.1 1).1
    simpa using this
  have hhas : l.next.hasNext (-1) = true := by
    unfold Lex.hasNext
    cases hs : l.sub with
    | none =>
      have hns : l.next.sub = none := by
        unfold Lex.next
        rw [hs]
        simp [hn1, hs]
      rw [hns]
      simp only [decide_eq_true_eq]
      rw [hget, k3, h2.1]
      exact ⟨by omega, by omega, hlt⟩
    | some q =>
      obtain ⟨ids, sp⟩ := q
      have hns : l.next.sub = some (ids, sp + 1) := by
        unfold Lex.next
        rw [hs]
        simp [hn1]
      rw [hns]
      simp only [decide_eq_true_eq]
      have hr := h.1
      unfold Reads at hr
      rw [hs] at hr
      obtain ⟨-, hr⟩ := hr
      rcases hr with ⟨hr, -⟩ | ⟨n, rfl, hn, -⟩
      · cases hr
      · exact ⟨by rw [k3]; omega, by omega, by omega⟩
  unfold Lex.at
  rw [hhas, if_pos rfl]
  unfold Lex.kind Lex.tokAt
  rw [hget, h2.1, if_neg (by omega), hv2]
  rfl

/-! ## Cells -/

/-- The tokens of a cell that are kept; `q` is the kind of the token before. -/
def keep : TK → List (Nat × TK) → List Nat
  | _, [] => []
  | q, p :: u => if p.2 = .Whitespace ∧ (u = [] ∨ q ∈ [TK.Pipe, .LeadingPipe]) then keep p.2 u else p.1 :: keep p.2 u

theorem does_run {p : P α} {a : α} {v v' : List (Nat × TK)} {f : Forest NK Unit} (h : Does p a v v' f) {s : St} (hv : Cur s.lex v) (hs : Contig v) :
    ∃ l, p s = .ok (some a, ⟨l, ⟨s.g.nodes ++ f.flat, s.g.pending⟩⟩) ∧ Cur l v' ∧ Contig v' ∧ l.toks = s.lex.toks := h s hv hs

theorem same_state {s : St} : (⟨s.lex, ⟨s.g.nodes ++ (Forest.nil : Forest NK Unit).flat, s.g.pending⟩⟩ : St) = s := by simp [Forest.flat]

/-- A question about the cursor does not move it. -/
theorem ask_run {f : Lex TK → Except Lexer.Err α} {s : St} {a : α} (h : f s.lex = .ok a) : ask f s = .ok (some a, s) := by
  unfold ask
  rw [h]

theorem at_run {ks : List TK} {s : St} {v : List (Nat × TK)} (hv : Cur s.lex v) (hs : Contig v) (n : Nat) :
    atP ks (n : Int) s = .ok (some (match v[n]? with | some p => decide (p.2 ∈ ks) | none => false), s) :=
  ask_run (by
    rw [at_reads _ v hv.1 (.inr hs) ks n]
    cases v[n]? <;> rfl)

theorem search_run {ks : List TK} {s : St} {p : Nat × TK} {v : List (Nat × TK)} (hv : Cur s.lex (p :: v)) (hs : Contig (p :: v)) :
    canSearch ks s = .ok (some (!decide (p.2 ∈ ks)), s) := by
  have h1 : notP finishedP s = .ok (some true, s) := bind_ok (finished_cons hv)
  have h2 : notP (atP ks) s = .ok (some (!decide (p.2 ∈ ks)), s) := bind_ok (at_run (ks := ks) hv hs 0)
  unfold canSearch andP
  rw [bind_ok h1]
  exact h2

theorem does_cellTokens {u r : List (Nat × TK)} {n : Nat} (hn : u.length ≤ n) (hu : ∀ p ∈ u, p.2 ∉ [TK.Pipe, .TrailingPipe, .LeadingPipe])
    (hr : ∃ x ∈ r.head?, x.2 ∈ [TK.Pipe, .TrailingPipe]) : ∀ (q : TK) (s : St), Cur s.lex (u ++ r) → Contig (u ++ r) → (u ≠ [] → Back s.lex q) →
      ∃ l, cellTokens n s = .ok (some (keep q u), ⟨l, s.g⟩) ∧ Cur l r ∧ Contig r ∧ l.toks = s.lex.toks := by
  obtain ⟨x, hx, hxk⟩ := hr
  obtain ⟨r, rfl⟩ : ∃ w, r = x :: w := by
    cases r with
    | nil => cases hx
    | cons y w => cases hx; exact ⟨_, rfl⟩
  induction u generalizing n with
  | nil =>
    intro q s hv hs _
    refine ⟨s.lex, ?_, hv, hs, rfl⟩
    have h0 := search_run (ks := [.Pipe, .TrailingPipe]) hv hs
    rw [show decide (x.2 ∈ [TK.Pipe, TK.TrailingPipe]) = true from decide_eq_true hxk] at h0
    cases n <;> (unfold cellTokens; exact ifP_false h0)
  | cons p u ih =>
    intro q s hv hs hb
    obtain ⟨n, rfl⟩ : ∃ m, n = m + 1 := ⟨n - 1, by simp at hn; omega⟩
    have hp := hu p List.mem_cons_self
    have h0 := search_run (ks := [.Pipe, .TrailingPipe]) hv hs
    have hpn : p.2 ∉ [TK.Pipe, TK.TrailingPipe] := fun h => hp (by
      rcases List.mem_cons.mp h with h | h
      · rw [h]; decide
      · rw [List.mem_singleton.mp h]; decide)
    rw [show decide (p.2 ∈ [TK.Pipe, TK.TrailingPipe]) = false from decide_eq_false hpn] at h0
    obtain ⟨y, w, hyw⟩ : ∃ y w, u ++ x :: r = y :: w := by cases u <;> exact ⟨_, _, rfl⟩
    have hback : Back s.lex.next p.2 := by
      rw [List.cons_append, hyw] at hv hs
      exact back_next hv hs
    obtain ⟨g1, g2, g3, -⟩ := cur_next_cons hv
    have ih := ih (n := n) (by simpa using hn) (fun p hp => hu p (List.mem_cons_of_mem _ hp)) p.2 ⟨s.lex.next, s.g⟩ g1 hs.tail (fun _ => hback)
    obtain ⟨l, k1, k2, k3, k4⟩ := ih
    -- the condition
    have hcond : andP (atP [.Whitespace]) (orP (atP [.Pipe, .TrailingPipe] 1) (atP [.Pipe, .LeadingPipe] (-1))) s =
        .ok (some (decide (p.2 = .Whitespace ∧ (u = [] ∨ q ∈ [TK.Pipe, .LeadingPipe]))), s) := by
      have a1 := at_run (ks := [.Whitespace]) hv hs 0
      have a2 := at_run (ks := [.Pipe, .TrailingPipe]) hv hs 1
      have a3 : atP [.Pipe, .LeadingPipe] (-1) s = .ok (some (decide (q ∈ [TK.Pipe, .LeadingPipe])), s) := ask_run (hb (by simp) _)
      unfold andP
      have a1 : atP [.Whitespace] 0 s = _ := a1
      have a2 : atP [.Pipe, .TrailingPipe] 1 s = _ := a2
      rw [bind_ok a1]
      by_cases hw : p.2 = .Whitespace
      · have : (match ((p :: u) ++ x :: r)[0]? with | some p => decide (p.2 ∈ [TK.Whitespace]) | none => false) = true := by simp [hw]
        rw [this]
        dsimp only
        unfold orP
        rw [bind_ok a2]
        cases u with
        | nil =>
          have : (match (([p] : List (Nat × TK)) ++ x :: r)[1]? with | some p => decide (p.2 ∈ [TK.Pipe, .TrailingPipe]) | none => false) = true := by
            simp only [List.cons_append, List.nil_append, List.getElem?_cons_succ, List.getElem?_cons_zero]
            exact decide_eq_true hxk
          rw [this]
          simp [P.ret, hw]
        | cons z u =>
          have hz : z.2 ∉ [TK.Pipe, .TrailingPipe] := fun h => hu z (by simp) (by
            rcases List.mem_cons.mp h with h | h
            · rw [h]; decide
            · rw [List.mem_singleton.mp h]; decide)
          have : (match ((p :: z :: u) ++ x :: r)[1]? with | some p => decide (p.2 ∈ [TK.Pipe, .TrailingPipe]) | none => false) = false := by
            simp only [List.cons_append, List.getElem?_cons_succ, List.getElem?_cons_zero]
            exact decide_eq_false hz
          rw [this]
          dsimp only
          rw [a3]
          simp [hw]
      · have : (match ((p :: u) ++ x :: r)[0]? with | some p => decide (p.2 ∈ [TK.Whitespace]) | none => false) = false := by simp [hw]
        rw [this]
        simp [P.ret, hw]
    refine ⟨l, ?_, k2, k3, k4.trans g2.1⟩
    unfold cellTokens
    rw [ifP_true h0]
    by_cases hc : p.2 = .Whitespace ∧ (u = [] ∨ q ∈ [TK.Pipe, .LeadingPipe])
    · rw [decide_eq_true hc] at hcond
      rw [ifP_true hcond]
      have hnx : nextP s = .ok (some (), ⟨s.lex.next, s.g⟩) := rfl
      rw [bind_ok hnx, k1]
      simp only [keep, if_pos hc]
    · rw [decide_eq_false hc] at hcond
      rw [ifP_false hcond]
      have hnx : popP s = .ok (some p.1, ⟨s.lex.next, s.g⟩) := by simp [popP, g3]
      rw [bind_ok hnx, bind_ok k1]
      simp only [keep, if_neg hc]
      rfl

theorem keep_plain {q : TK} {u : List (Nat × TK)} (h1 : ∀ p ∈ u.head?, p.2 ≠ .Whitespace) (h2 : ∀ p ∈ u, p.2 ∉ [TK.Pipe, .TrailingPipe, .LeadingPipe]) {w : List (Nat × TK)}
    (hw : w = [] ∧ (∀ p ∈ u.getLast?, p.2 ≠ .Whitespace) ∨ u ≠ [] ∧ ∃ i, w = [(i, .Whitespace)]) : keep q (u ++ w) = u.map Prod.fst := by
  -- inside of the cell
  have key : ∀ (u : List (Nat × TK)) (q : TK), q ∉ [TK.Pipe, .LeadingPipe] → (∀ p ∈ u, p.2 ∉ [TK.Pipe, .TrailingPipe, .LeadingPipe]) →
      (w = [] ∧ (∀ p ∈ u.getLast?, p.2 ≠ .Whitespace) ∨ ∃ i, w = [(i, .Whitespace)]) → keep q (u ++ w) = u.map Prod.fst := by
    intro u
    induction u with
    | nil =>
      intro q hq _ hw
      rcases hw with ⟨rfl, -⟩ | ⟨i, rfl⟩
      · rfl
      · simp [keep]
    | cons p u ih =>
      intro q hq hu hw
      have hpq : p.2 ∉ [TK.Pipe, .LeadingPipe] := fun h => hu p List.mem_cons_self (by
        rcases List.mem_cons.mp h with h | h
        · rw [h]; decide
        · rw [List.mem_singleton.mp h]; decide)
      rw [List.cons_append, keep, if_neg, List.map_cons, ih p.2 hpq (fun x hx => hu x (List.mem_cons_of_mem _ hx))]
      · rcases hw with ⟨h, h'⟩ | h
        · refine .inl ⟨h, fun x hx => ?_⟩
          cases u with
          | nil => cases hx
          | cons y u => exact h' x (by rw [List.getLast?_cons_cons]; exact hx)
        · exact .inr h
      · rintro ⟨h3, h4 | h4⟩
        · rcases hw with ⟨h5, h6⟩ | ⟨i, rfl⟩
          · rw [h5, List.append_nil] at h4
            subst h4
            exact h6 p rfl h3
          · simp at h4
        · exact hq h4
  cases u with
  | nil =>
    rcases hw with ⟨rfl, -⟩ | ⟨h, -⟩
    · rfl
    · exact absurd rfl h
  | cons p u =>
    have hpq : p.2 ∉ [TK.Pipe, .LeadingPipe] := fun h => h2 p List.mem_cons_self (by
        rcases List.mem_cons.mp h with h | h
        · rw [h]; decide
        · rw [List.mem_singleton.mp h]; decide)
    rw [List.cons_append, keep, if_neg (fun h => h1 p rfl h.1), List.map_cons, key u p.2 hpq (fun x hx => h2 x (List.mem_cons_of_mem _ hx))]
    rcases hw with ⟨h, h'⟩ | ⟨-, h⟩
    · refine .inl ⟨h, fun x hx => ?_⟩
      cases u with
      | nil => cases hx
      | cons y u => exact h' x (by rw [List.getLast?_cons_cons]; exact hx)
    · exact .inr h

/-- The kinds of the words and links of a cell. -/
structure CellK (ks : List TK) (after : Nat) : Prop where
  first : ∀ k ∈ ks.head?, k ≠ .Whitespace
  last : ∀ k ∈ ks.getLast?, k ≠ .Whitespace
  bars : ∀ k ∈ ks, k ∉ [TK.Pipe, .TrailingPipe, .LeadingPipe]
  empty : ks = [] → after = 0

theorem gap_kinds (n : Nat) : kinds (gapRaw n) = if n = 0 then [] else [.Whitespace] := by
  unfold gapRaw
  split_ifs <;> rfl

theorem numbered_head {i : Nat} {ks : List TK} {P : TK → Prop} (h : ∀ k ∈ ks.head?, P k) : ∀ p ∈ (numbered i ks).head?, P p.2 := by
  cases ks with
  | nil => intro p hp; cases hp
  | cons k ks => intro p hp; cases hp; exact h k rfl

theorem numbered_last {i : Nat} {ks : List TK} {P : TK → Prop} (h : ∀ k ∈ ks.getLast?, P k) : ∀ p ∈ (numbered i ks).getLast?, P p.2 := by
  intro p hp
  refine h p.2 ?_
  have : (numbered i ks).map Prod.snd = ks := Stamp.numbered_snd i ks
  rw [← this, List.getLast?_map]
  simp only [Option.mem_def] at hp ⊢
  rw [hp]
  rfl

theorem mem_snd {i : Nat} {ks : List TK} {p : Nat × TK} (h : p ∈ numbered i ks) : p.2 ∈ ks := Link.mem_numbered h

theorem keep_cell {q : TK} (hq : q ∈ [TK.Pipe, .LeadingPipe]) {ks : List TK} {before after : Nat} (h : CellK ks after) (i : Nat) :
    keep q (numbered i (kinds (gapRaw before) ++ (ks ++ kinds (gapRaw after)))) = (numbered (i + (gapRaw before).length) ks).map Prod.fst := by
  have inner : ∀ (q : TK) (i : Nat), keep q (numbered i (ks ++ kinds (gapRaw after))) = (numbered i ks).map Prod.fst := by
    intro q i
    rw [numbered_append]
    refine keep_plain (numbered_head h.first) (fun p hp => h.bars _ (mem_snd hp)) ?_
    rw [gap_kinds]
    split_ifs with ha
    · exact .inl ⟨rfl, numbered_last h.last⟩
    · refine .inr ⟨fun h0 => ha (h.empty ?_), _, rfl⟩
      cases ks with
      | nil => rfl
      | cons k ks => cases h0
  rw [numbered_append, kinds_length]
  by_cases hb : before = 0
  · have : gapRaw before = [] := by simp [gapRaw, hb]
    rw [this]
    exact inner q _
  · have : gapRaw before = [(.Whitespace, List.replicate before ' ')] := by simp [gapRaw, hb]
    rw [this]
    show keep q ((i, TK.Whitespace) :: numbered (i + 1) _) = _
    rw [keep, if_pos ⟨rfl, .inr hq⟩]
    exact inner _ _

/-- A cell with the bar before it. -/
def cellF (i : Nat) (c : Cell) : Forest NK Unit :=
  .tree .TableCell (.leaf .Empty (.mono ()) (.tree .StmtList (.tree .Paragraph (docF (i + 1 + (gapRaw c.before).length) c.items) .nil) .nil)) .nil

theorem does_cell (t : Texts) {par : P Unit} {c : Cell} {n i : Nat} {q : TK} {r : List (Nat × TK)} (hq : q ∈ [TK.Pipe, .LeadingPipe])
    (hk : CellK (docK c.items) c.after) (hn : c.raw.length ≤ n) (hr : ∃ x ∈ r.head?, x.2 ∈ [TK.Pipe, .TrailingPipe])
    (hp : c.items ≠ [] → ∀ i, Does par () (numbered i (docK c.items)) [] (.tree .Paragraph (docF i c.items) .nil)) (hne : c.items ≠ [] → docK c.items ≠ []) :
    Does (node .TableCell do
          emptyP
          node .StmtList do
            nextP
            let ids ← cellTokens n
            idsOrParagraph t ids par) () ((i, q) :: (numbered (i + 1) (kinds c.raw) ++ r)) r (cellF i c) := by
  refine does_node _ (does_bind (f := .leaf .Empty (.mono ()) .nil) (does_empty _) (does_node _ ?_))
  intro s hv hs
  have hnx : nextP s = .ok (some (), ⟨s.lex.next, s.g⟩) := rfl
  obtain ⟨g1, g2, g3, -⟩ := cur_next_cons hv
  have hkinds : kinds c.raw = kinds (gapRaw c.before) ++ (docK c.items ++ kinds (gapRaw c.after)) := by
    unfold Cell.raw docK
    rw [kinds_append, kinds_append]
  have hback : numbered (i + 1) (kinds c.raw) ≠ [] → Back s.lex.next q := by
    intro h
    obtain ⟨y, w, hy⟩ := List.exists_cons_of_ne_nil h
    rw [hy] at hv hs
    exact back_next (p := (i, q)) hv hs
  obtain ⟨l, k1, k2, k3, k4⟩ := does_cellTokens (u := numbered (i + 1) (kinds c.raw)) (r := r) (n := n) (by rw [numbered_length, kinds_length]; exact hn) (fun p hp => by
    have := mem_snd hp
    rw [hkinds] at this
    rcases List.mem_append.mp this with h | h
    · rw [gap_kinds] at h
      split_ifs at h
      · cases h
      · rw [List.mem_singleton.mp h]; decide
    · rcases List.mem_append.mp h with h | h
      · exact hk.bars _ h
      · rw [gap_kinds] at h
        split_ifs at h
        · cases h
        · rw [List.mem_singleton.mp h]; decide) hr q ⟨s.lex.next, s.g⟩ g1 hs.tail hback
  rw [hkinds, keep_cell hq hk] at k1
  show ∃ l, P.bind nextP (fun _ => P.bind (cellTokens n) fun ids => idsOrParagraph t ids par) s = _ ∧ _
  rw [bind_ok hnx, bind_ok k1]
  by_cases h0 : c.items = []
  · rw [h0]
    obtain ⟨l', q1, q2, q3, q4⟩ := does_node .Paragraph (does_ret () r) ⟨l, s.g⟩ k2 k3
    exact ⟨l', q1, q2, q3, q4.trans (k4.trans g2.1)⟩
  · refine ⟨l, ?_, k2, k3, k4.trans g2.1⟩
    have hne := hne h0
    have hval : Valid l.toks (numbered (i + 1 + (gapRaw c.before).length) (docK c.items)) := by
      have hv1 := cur_valid g1
      rw [hkinds, numbered_append, List.append_assoc, numbered_append, kinds_length] at hv1
      obtain ⟨a1, a2⟩ := hv1
      rw [List.map_append] at a1
      have hv2 : Valid s.lex.next.toks _ := ⟨(List.pairwise_append.mp a1).2.1, fun p hp => a2 p (List.mem_append_right _ hp)⟩
      rw [List.append_assoc] at hv2
      have := valid_left hv2
      rw [k4]
      exact this
    obtain ⟨l', q1, q2, q3, q4⟩ := hp h0 (i + 1 + (gapRaw c.before).length) ⟨Lex.ofIds l.toks ((numbered (i + 1 + (gapRaw c.before).length) (docK c.items)).map Prod.fst), s.g⟩
      (cur_sub hval) (contig_numbered _ _)
    obtain ⟨y, ys, hy⟩ : ∃ y ys, (numbered (i + 1 + (gapRaw c.before).length) (docK c.items)).map Prod.fst = y :: ys := by
      cases hd : docK c.items with
      | nil => exact absurd hd hne
      | cons k ks => exact ⟨_, _, rfl⟩
    rw [hy] at q1 ⊢
    unfold idsOrParagraph subP withIds withLex
    dsimp only at q1 ⊢
    rw [q1]

/-! ## Rows -/

def cellsF : Nat → List Cell → Forest NK Unit
  | _, [] => .nil
  | i, c :: cs => (cellF i c).append (cellsF (i + 1 + c.raw.length) cs)

/-- What the parser needs of a cell. -/
structure CellOk (c : Cell) : Prop where
  kinds : CellK (docK c.items) c.after
  easy : ∀ i ∈ c.items, i.Easy
  ne : c.items ≠ [] → docK c.items ≠ []

/-- The tokens of a row from a bar on. -/
theorem cells_kinds (q : TK) (i : Nat) (c d : Cell) (r : List Cell) (w : List (Nat × TK)) :
    numbered i (q :: kinds (cellsRaw (c :: d :: r))) ++ w =
      (i, q) :: (numbered (i + 1) (kinds c.raw) ++ (numbered (i + 1 + c.raw.length) (.Pipe :: kinds (cellsRaw (d :: r))) ++ w)) := by
  have : kinds (cellsRaw (c :: d :: r)) = kinds c.raw ++ (TK.Pipe :: kinds (cellsRaw (d :: r))) := by
    show kinds (c.raw ++ ((TK.Pipe, ['|']) :: cellsRaw (d :: r))) = _
    rw [kinds_append]
    rfl
  rw [this, numbered_cons, numbered_append, kinds_length]
  simp

theorem does_cells (t : Texts) {n : Nat} {cs : List Cell} (hne : cs ≠ []) (h : ∀ c ∈ cs, CellOk c) {w : List (Nat × TK)} : ∀ {m i : Nat} {q : TK}, q ∈ [TK.Pipe, .LeadingPipe] →
    cs.length ≤ m → (cellsRaw cs).length + 2 ≤ n →
    ∃ j, Does (whileP (atP [.LeadingPipe, .Pipe])
        (node .TableCell do
          emptyP
          node .StmtList do
            nextP
            let ids ← cellTokens n
            idsOrParagraph t ids (parseParagraph t n)) m) () (numbered i (q :: kinds (cellsRaw cs)) ++ w) ((j, .TrailingPipe) :: w) (cellsF i cs) := by
  induction cs with
  | nil => exact absurd rfl hne
  | cons c r ih =>
    intro m i q hq hm hn
    obtain ⟨m, rfl⟩ : ∃ x, m = x + 1 := ⟨m - 1, by simp at hm; omega⟩
    have hq' : q ∈ [TK.LeadingPipe, .Pipe] := by
      rcases List.mem_cons.mp hq with h | h
      · rw [h]; decide
      · rw [List.mem_singleton.mp h]; decide
    have hc := h c List.mem_cons_self
    have hcn : c.raw.length + 2 + 1 ≤ n := by
      cases r <;> simp only [cellsRaw, List.length_append, List.length_cons, List.length_nil] at hn <;> omega
    have hlen : (docK c.items).length ≤ c.raw.length := by
      unfold Cell.raw docK
      simp only [kinds_length, List.length_append]
      omega
    have hp : c.items ≠ [] → ∀ i, Does (parseParagraph t n) () (numbered i (docK c.items)) [] (.tree .Paragraph (docF i c.items) .nil) := by
      intro _ i
      obtain ⟨n, rfl⟩ : ∃ m, n = m + 2 := ⟨n - 2, by omega⟩
      exact Link.does_par t hc.easy i (fun _ => Link.reads_rows t) (by omega)
    cases r with
    | nil =>
      refine ⟨i + 1 + c.raw.length, ?_⟩
      have : numbered i (q :: kinds (cellsRaw [c])) ++ w = (i, q) :: (numbered (i + 1) (kinds c.raw) ++ (i + 1 + c.raw.length, TK.TrailingPipe) :: w) := by
        show numbered i (q :: kinds (c.raw ++ [(TK.TrailingPipe, ['|'])])) ++ w = _
        rw [kinds_append, numbered_cons, numbered_append, kinds_length]
        simp only [List.cons_append, List.append_assoc]
        rfl
      rw [this]
      exact does_while_step (does_at_true hq') (does_cell t hq hc.kinds (by omega) ⟨_, rfl, by show TK.TrailingPipe ∈ _; decide⟩ hp hc.ne)
        (does_while_stop m (does_at_head (by decide)))
    | cons d r =>
      obtain ⟨j, ih⟩ := ih (by simp) (fun x hx => h x (List.mem_cons_of_mem _ hx)) (m := m) (i := i + 1 + c.raw.length) (q := .Pipe) (by decide) (by simpa using hm) (by
        simp only [cellsRaw, List.length_append, List.length_cons] at hn ⊢
        omega)
      refine ⟨j, ?_⟩
      rw [cells_kinds]
      exact does_while_step (does_at_true hq') (does_cell t hq hc.kinds (by omega) ⟨_, rfl, by show TK.Pipe ∈ _; decide⟩ hp hc.ne) ih

def rowF (i : Nat) (cs : List Cell) : Forest NK Unit :=
  .tree .TableRow (.leaf .Empty (.mono ()) (.leaf .Empty (.mono ()) (.tree .StmtList (cellsF i cs) .nil))) .nil

theorem cells_length (cs : List Cell) : cs.length ≤ (cellsRaw cs).length := by
  induction cs with
  | nil => simp
  | cons c r ih =>
    cases r with
    | nil => simp [cellsRaw]
    | cons d r =>
      simp only [cellsRaw, List.length_append, List.length_cons] at ih ⊢
      omega

theorem break_newline (n : Nat) : breakKind n ∈ newlineKinds := by
  match n with
  | 0 | 1 | n + 2 => simp [breakKind, newlineKinds]

theorem does_row (t : Texts) {n i j e : Nat} {cs : List Cell} (hne : cs ≠ []) (h : ∀ c ∈ cs, CellOk c) {w : List (Nat × TK)} (hn : (cellsRaw cs).length + 2 ≤ n) :
    Does (parseTablePipeRow t (parseParagraph t n) n) () (numbered i (.LeadingPipe :: kinds (cellsRaw cs)) ++ (j, breakKind e) :: w) w (rowF i cs) := by
  have hl := cells_length cs
  obtain ⟨x, hx⟩ := does_cells t (n := n) hne h (w := (j, breakKind e) :: w) (m := n) (i := i) (q := .LeadingPipe) (by decide) (by omega) hn
  refine does_node _ (does_bind (f := .leaf .Empty (.mono ()) .nil) (does_empty _) (does_bind (f := .leaf .Empty (.mono ()) .nil) (does_empty _) (does_node _ ?_)))
  exact does_then hx (does_seq (does_skip t (by decide)) (does_if_true (does_at_true (break_newline e)) (does_next _ _)))

/-! ## Tables -/

def linesF : Nat → List (Line × Nat) → Forest NK Unit
  | _, [] => .nil
  | i, l :: ls =>
    match l.1 with
    | .row _ cs => (rowF i cs).append (linesF (i + 1 + (cellsRaw cs).length + 1) ls)
    | .rule _ _ => linesF (i + 2) ls

/-- What the parser needs of a line. -/
def Line.Ok : Line → Prop
  | .row _ cs => cs ≠ [] ∧ ∀ c ∈ cs, CellOk c
  | .rule _ _ => True

theorem lines_cons (l : Line × Nat) (ls : List (Line × Nat)) : linesRaw (l :: ls) = l.1.raw ++ ((breakKind l.2, breaks l.2) :: linesRaw ls) := by
  simp [linesRaw]

theorem break_kind (n : Nat) (u : Text) : Link.finalKind (breakKind n) u = breakKind n := by
  match n with
  | 0 | 1 | n + 2 => simp [breakKind, Link.finalKind]

theorem line_numbered (i : Nat) (l : Line × Nat) (ls : List (Line × Nat)) (w : List (Nat × TK)) :
    numbered i (kinds (linesRaw (l :: ls))) ++ w = numbered i (kinds l.1.raw) ++ ((i + l.1.raw.length, breakKind l.2) ::
      (numbered (i + l.1.raw.length + 1) (kinds (linesRaw ls)) ++ w)) := by
  rw [lines_cons, kinds_append, numbered_append, kinds_length]
  have : kinds ((breakKind l.2, breaks l.2) :: linesRaw ls) = breakKind l.2 :: kinds (linesRaw ls) := by
    show Link.finalKind _ _ :: kinds (linesRaw ls) = _
    rw [break_kind]
  rw [this, numbered_cons]
  simp

theorem lines_head (i : Nat) (ls : List (Line × Nat)) (w : List (Nat × TK)) (hw : ∀ p ∈ w.head?, p.2 ∉ newlineKinds) :
    ∀ p ∈ (numbered i (kinds (linesRaw ls)) ++ w).head?, p.2 ∉ newlineKinds := by
  cases ls with
  | nil => exact hw
  | cons l ls =>
    rw [line_numbered]
    obtain ⟨l, e⟩ := l
    cases l with
    | row n cs => intro p hp; cases hp; show TK.LeadingPipe ∉ _; decide
    | rule n ms => intro p hp; cases hp; show TK.TableSeparator ∉ _; decide

theorem does_breaks {n i e : Nat} {v : List (Nat × TK)} (hn : 1 ≤ n) (hv : ∀ p ∈ v.head?, p.2 ∉ newlineKinds) : Does (newlineP n) () ((i, breakKind e) :: v) v .nil := by
  obtain ⟨n, rfl⟩ : ∃ m, n = m + 1 := ⟨n - 1, by omega⟩
  exact does_while_step (f := .nil) (g := .nil) (does_at_true (break_newline e)) (does_next _ _) (does_while_stop n (does_at_false hv))

theorem does_lines (t : Texts) {n : Nat} {ls : List (Line × Nat)} (h : ∀ l ∈ ls, l.1.Ok) {w : List (Nat × TK)}
    (hw : ∀ p ∈ w.head?, p.2 ∉ [TK.LeadingPipe, .TableSeparator] ∧ p.2 ∉ newlineKinds) : ∀ {m i : Nat}, ls.length ≤ m → (linesRaw ls).length ≤ n →
    Does (whileP (atP [.LeadingPipe, .TableSeparator])
        (ifP (atP [.LeadingPipe]) (subP t (parseTablePipeRow t (parseParagraph t n) n)) (do nextP; newlineP n)) m) ()
      (numbered i (kinds (linesRaw ls)) ++ w) w (linesF i ls) := by
  induction ls with
  | nil =>
    intro m i _ _
    exact does_while_stop m (does_at_false (fun p hp => (hw p hp).1))
  | cons l ls ih =>
    intro m i hm hn
    obtain ⟨m, rfl⟩ : ∃ x, m = x + 1 := ⟨m - 1, by simp at hm; omega⟩
    rw [line_numbered]
    rw [lines_cons, List.length_append, List.length_cons] at hn
    have ih := fun i => ih (fun x hx => h x (List.mem_cons_of_mem _ hx)) (m := m) (i := i) (by simpa using hm) (by omega)
    have hl := h l List.mem_cons_self
    obtain ⟨l, e⟩ := l
    cases l with
    | row k cs =>
      have hlen : (Line.raw (.row k cs)).length = 1 + (cellsRaw cs).length := by simp [Line.raw]; omega
      have hr := does_row t (n := n) (i := i) (j := i + (Line.raw (.row k cs)).length) (e := e) hl.1 hl.2
        (w := numbered (i + (Line.raw (.row k cs)).length + 1) (kinds (linesRaw ls)) ++ w) (by dsimp only at hn; omega)
      have hi := ih (i + (Line.raw (.row k cs)).length + 1)
      have e2 : linesF i ((.row k cs, e) :: ls) = (rowF i cs).append (linesF (i + (Line.raw (.row k cs)).length + 1) ls) := by
        rw [hlen]
        show (rowF i cs).append (linesF (i + 1 + (cellsRaw cs).length + 1) ls) = _
        rw [Nat.add_assoc i 1]
      rw [e2]
      exact does_while_step (does_at_true (k := .LeadingPipe) (by decide)) (does_if_true (does_at_true (by show TK.LeadingPipe ∈ _; decide)) (does_sub t hr)) hi
    | rule k ms =>
      have hi := ih (i + (Line.raw (.rule k ms)).length + 1)
      have hh := lines_head (i + (Line.raw (.rule k ms)).length + 1) ls w (fun p hp => (hw p hp).2)
      have hnl : 1 ≤ n := by
        have : (Line.raw (.rule k ms)).length = 1 := rfl
        dsimp only at hn
        omega
      exact does_while_step (f := .nil) (does_at_true (k := .TableSeparator) (by decide)) (does_if_false (does_at_head (by show TK.TableSeparator ∉ _; decide))
        (does_seq (does_next _ _) (does_breaks hnl hh))) hi

def tableF (i : Nat) (ls : List (Line × Nat)) : Forest NK Unit := .tree .Table (.leaf .Empty (.mono ()) (linesF i ls)) .nil

theorem lines_length (ls : List (Line × Nat)) : ls.length ≤ (linesRaw ls).length := by
  induction ls with
  | nil => simp
  | cons l ls ih =>
    rw [lines_cons, List.length_append, List.length_cons, List.length_cons]
    omega

theorem does_table (t : Texts) {n i : Nat} {ls : List (Line × Nat)} (hne : ls ≠ []) (h : ∀ l ∈ ls, l.1.Ok) {w : List (Nat × TK)}
    (hw : ∀ p ∈ w.head?, p.2 ∉ [TK.LeadingPipe, .TableSeparator] ∧ p.2 ∉ newlineKinds) (hn : (linesRaw ls).length ≤ n) :
    ∃ p v, numbered i (kinds (linesRaw ls)) ++ w = p :: v ∧ p.2 ≠ .Comment ∧ Does (parseStmt t (n + 1)) () (p :: v) w (tableF i ls) := by
  have hl := lines_length ls
  have hd := does_node .Table (does_bind (q := fun _ => _) (f := .leaf .Empty (.mono ()) .nil) (does_empty _) (does_lines t (n := n) h hw (m := n) (i := i) (by omega) hn))
  have key : ∀ k v, k ∈ [TK.TableSeparator, .LeadingPipe] → numbered i (kinds (linesRaw ls)) ++ w = (i, k) :: v → 
      ∃ p v, numbered i (kinds (linesRaw ls)) ++ w = p :: v ∧ p.2 ≠ .Comment ∧ Does (parseStmt t (n + 1)) () (p :: v) w (tableF i ls) := by
    intro k v hk he
    have hk' : k ∈ [TK.LeadingPipe, .TableSeparator] := by
      rcases List.mem_cons.mp hk with h | h
      · rw [h]; decide
      · rw [List.mem_singleton.mp h]; decide
    refine ⟨_, v, he, ?_, ?_⟩
    · show k ≠ _
      rintro rfl
      exact absurd hk (by decide)
    rw [he] at hd
    have hq : k ≠ .SubtreeStars ∧ k ≠ .Indent ∧ k ≠ .Whitespace ∧ k ∉ newlineKinds ∧ k ≠ .TextSeparator := by
      revert hk
      generalize k = x
      revert x
      decide
    obtain ⟨e1, e2, e3, e4, e5⟩ := hq
    rw [parseStmt]
    refine does_seq (does_kind _ _ _) ?_
    rw [if_neg e1, if_neg e2, if_neg e3, if_neg e4, if_neg e5, if_pos hk]
    exact does_if_true (does_at_true hk') hd
  cases ls with
  | nil => exact absurd rfl hne
  | cons l ls =>
    rw [line_numbered] at key ⊢
    obtain ⟨l, e⟩ := l
    cases l with
    | row m cs => exact key .LeadingPipe _ (by decide) rfl
    | rule m ms => exact key .TableSeparator _ (by decide) rfl

/-! ## Documents -/

def Chunk.forest (i : Nat) : Chunk → Forest NK Unit
  | .table ls => tableF i ls
  | .para is n => if n = 0 then .tree .Paragraph (docF i (is ++ [.piece (.brk 0)])) .nil
      else .tree .Paragraph (docF i is) (.leaf .Newline (.tok (i + (docRaw is).length)) .nil)

def gridF : Nat → List Chunk → Forest NK Unit
  | _, [] => .nil
  | i, c :: d => (c.forest i).append (gridF (i + c.raw.length) d)

theorem calm_kinds {r : Raw} (h : Link.Calm r) : ∀ k ∈ kinds r, k ∈ TK.BigIdent :: calmKinds := by
  intro k hk
  obtain ⟨x, hx, rfl⟩ := List.mem_map.mp hk
  have hx := h x hx
  unfold Link.finalKind
  split_ifs
  · exact List.mem_cons_self
  · exact List.mem_cons_of_mem _ (by decide)
  · exact List.mem_cons_of_mem _ hx

theorem raw_ne (i : Item) : i.raw ≠ [] := by
  cases i with
  | piece p => simp [Item.raw]
  | link h d => simp [Item.raw]
  | url s u => simp [Item.raw, Link.Head.raw]
  | note t => simp [Item.raw]

theorem final_white {k : TK} {u : Text} (h : Link.finalKind k u = .Whitespace) : k = .Whitespace := by
  unfold Link.finalKind at h
  split_ifs at h
  exact h

/-- The tokens of an item that is not blank do not start or end with a space. -/
theorem item_white {i : Item} (h : i.isBlank = false) (hv : ∀ p, i = .piece p → p.Valid) : (∀ k ∈ (kinds i.raw).head?, k ≠ .Whitespace) ∧ ∀ k ∈ (kinds i.raw).getLast?, k ≠ .Whitespace := by
  cases i with
  | piece p =>
    have : Link.finalKind p.kind p.text ≠ .Whitespace := by
      intro he
      have he := final_white he
      cases p with
      | gap n => cases h
      | brk n => cases h
      | word w => cases he
      | number w => cases he
      | colon => cases he
      | star => cases he
      | slash => cases he
      | glyph u =>
        rcases hv _ rfl with ⟨x, rfl, hx⟩ | ⟨a, b, rfl, -⟩ | ⟨a, b, d, rfl, -⟩
        · have : ∀ x ∈ Pipeline.marksTable.map (·.1), (Pipeline.Piece.glyph [x]).kind ≠ .Whitespace := by decide
          exact this x hx he
        · cases he
        · cases he
    exact ⟨fun k hk => by cases hk; exact this, fun k hk => by cases hk; exact this⟩
  | link hd d =>
    refine ⟨fun k hk => by cases hk; exact nofun, fun k hk => ?_⟩
    have : kinds (Item.raw (.link hd d)) = (kinds ([(.LinkBegin, "[[".toList)] ++ hd.raw ++ (Link.rowRaw hd.row ++ Link.descRaw d))) ++ [TK.LinkEnd] := by
      show kinds ([(.LinkBegin, "[[".toList)] ++ hd.raw ++ (Link.rowRaw hd.row ++ (Link.descRaw d ++ [(.LinkEnd, "]]".toList)]))) = _
      rw [← List.append_assoc (Link.rowRaw _), ← List.append_assoc, kinds_append]
      rfl
    rw [this, List.getLast?_append_of_ne_nil _ (by simp)] at hk
    cases hk
    exact nofun
  | url s u =>
    exact ⟨fun k hk => by cases hk; exact nofun, fun k hk => by cases hk; exact nofun⟩
  | note t => exact ⟨fun k hk => by cases hk; exact nofun, fun k hk => by cases hk; exact nofun⟩

theorem linked_valid {b : Bool} {is : List Item} (h : LinkedFrom b is) : ∀ i ∈ is, ∀ p, i = .piece p → p.Valid := by
  intro i hi p he
  subst he
  exact (Link.items_easy h _ hi).1

theorem cell_ok {c : Cell} (h : c.Valid) : CellOk c := by
  obtain ⟨h1, h2, h3, h4, h5⟩ := h
  have hv := fun i hi => linked_valid h1 i (List.mem_append_left _ hi)
  have hne : c.items ≠ [] → docK c.items ≠ [] := by
    intro h0 he
    cases hi : c.items with
    | nil => exact h0 hi
    | cons i r =>
      rw [hi, Link.docK_cons] at he
      have h6 := (List.append_eq_nil_iff.mp he).1
      have := congrArg List.length h6
      rw [kinds_length] at this
      exact raw_ne i (List.eq_nil_of_length_eq_zero this)
  refine ⟨⟨?_, ?_, ?_, ?_⟩, fun i hi => Link.items_easy h1 i (List.mem_append_left _ hi), hne⟩
  · intro k hk
    cases hi : c.items with
    | nil => rw [hi] at hk; cases hk
    | cons i r =>
      rw [hi, Link.docK_cons] at hk
      have hn : kinds i.raw ≠ [] := fun h0 => raw_ne i (List.eq_nil_of_length_eq_zero (by rw [← kinds_length, h0]; rfl))
      rw [List.head?_append_of_ne_nil _ hn] at hk
      exact (item_white (h3 i (by rw [hi]; rfl)) (hv i (by rw [hi]; simp))).1 k hk
  · intro k hk
    cases hi : c.items.getLast? with
    | none =>
      rw [List.getLast?_eq_none_iff] at hi
      rw [hi] at hk; cases hk
    | some i =>
      obtain ⟨r, hr⟩ := List.getLast?_eq_some_iff.mp hi
      have e : docK c.items = docK r ++ kinds i.raw := by
        rw [hr]
        unfold docK docRaw
        rw [List.map_append, List.flatten_append, kinds_append]
        simp
      have hn : kinds i.raw ≠ [] := fun h0 => raw_ne i (List.eq_nil_of_length_eq_zero (by rw [← kinds_length, h0]; rfl))
      rw [e, List.getLast?_append_of_ne_nil _ hn] at hk
      exact (item_white (h4 i (by rw [hi]; rfl)) (hv i (by rw [hr]; simp))).2 k hk
  · intro k hk
    have := calm_kinds (linked_left h1) k hk
    revert this
    generalize k = x
    revert x
    decide
  · intro h0
    refine h5 ?_
    by_contra hi
    exact hne hi h0

theorem line_ok {l : Line} (h : l.Valid) : l.Ok := by
  cases l with
  | row n cs => exact ⟨h.1, fun c hc => cell_ok (h.2.1 c hc)⟩
  | rule n ms => trivial

theorem grid_cons (c : Chunk) (d : List Chunk) : gridRaw (c :: d) = c.raw ++ gridRaw d := rfl

/-- What may follow a table. -/
theorem grid_head {d : List Chunk} (h : DocValid d) (hd : ∀ ls, d.head? ≠ some (.table ls)) (i : Nat) :
    ∀ p ∈ (numbered i (kinds (gridRaw d))).head?, p.2 ∉ [TK.LeadingPipe, .TableSeparator] ∧ p.2 ∉ newlineKinds := by
  cases d with
  | nil => intro p hp; cases hp
  | cons c d =>
    cases c with
    | table ls => exact absurd rfl (hd ls)
    | para is n =>
      obtain ⟨⟨hl, ho⟩, -, -⟩ := h
      obtain ⟨k, r, hk, hm⟩ := Link.first_kind hl.from_ (by
        cases is with
        | nil => exact absurd rfl hl.ne
        | cons i r => exact hl.first) (by simp)
      have hk2 : ∃ r', docK is = k :: r' := by
        cases is with
        | nil => exact absurd rfl hl.ne
        | cons j r2 =>
          rw [List.cons_append, Link.docK_cons] at hk
          rw [Link.docK_cons]
          cases hj : kinds j.raw with
          | nil => exact absurd (List.eq_nil_of_length_eq_zero (by rw [← kinds_length, hj]; rfl)) (raw_ne j)
          | cons x xs =>
            rw [hj] at hk
            cases hk
            exact ⟨_, rfl⟩
      obtain ⟨r', hk2⟩ := hk2
      have e : kinds (gridRaw (.para is n :: d)) = docK is ++ kinds ((breakKind n, breaks n) :: gridRaw d) := by
        rw [grid_cons]
        show kinds ((docRaw is ++ [_]) ++ _) = _
        rw [List.append_assoc, kinds_append]
        rfl
      rw [e, hk2]
      intro p hp
      cases hp
      show k ∉ _ ∧ k ∉ _
      revert hm
      generalize k = x
      revert x
      decide

theorem doc_linked {is : List Item} (h : Linked is) : ∃ k r, docK is = k :: r ∧ k ∈ [TK.Word, .BigIdent, .Comma, .Semicolon, .Exclamation, .ParBegin, .ParEnd,
    .DoubleQuote, .Percent, .Punctuation, .AnyPunct, .LinkBegin, .LinkProtocolHttp, .FootnoteLinked] := by
  obtain ⟨k, r, hk, hm⟩ := Link.first_kind h.from_ (by
    cases is with
    | nil => exact absurd rfl h.ne
    | cons i r => exact h.first) (by simp)
  cases is with
  | nil => exact absurd rfl h.ne
  | cons j r2 =>
    rw [List.cons_append, Link.docK_cons] at hk
    rw [Link.docK_cons]
    cases hj : kinds j.raw with
    | nil => exact absurd (List.eq_nil_of_length_eq_zero (by rw [← kinds_length, hj]; rfl)) (raw_ne j)
    | cons x xs =>
      rw [hj] at hk
      cases hk
      exact ⟨_, _, rfl, hm⟩

/-- A paragraph: its tokens up to where it ends. -/
theorem does_para (t : Texts) {is js : List Item} (h : Linked is) (hj : js = is ∨ js = is ++ [.piece (.brk 0)]) {n i : Nat} {w : List (Nat × TK)}
    (hw : ∀ p ∈ w.head?, p.2 ∈ paragraphTerminator) (hn : (docRaw js).length + 2 ≤ n) :
    ∃ p v, numbered i (docK js) ++ w = p :: v ∧ p.2 ≠ .Comment ∧ Does (parseStmt t (n + 1)) () (p :: v) w (.tree .Paragraph (docF i js) .nil) := by
  obtain ⟨k, r, hk, hm⟩ := doc_linked h
  have hcalm : Link.Calm (docRaw js) := by
    rcases hj with rfl | rfl
    · exact linked_left h.from_
    · exact Link.calm_items h.from_
  have heasy : ∀ i ∈ js, i.Easy := by
    rcases hj with rfl | rfl
    · exact fun i hi => Link.items_easy h.from_ i (List.mem_append_left _ hi)
    · exact Link.items_easy h.from_
  obtain ⟨r', hk'⟩ : ∃ r', docK js = k :: r' := by
    rcases hj with rfl | rfl
    · exact ⟨r, hk⟩
    · refine ⟨r ++ [.Newline], ?_⟩
      have : docK (is ++ [.piece (.brk 0)]) = docK is ++ [.Newline] := by
        unfold docK docRaw
        rw [List.map_append, List.flatten_append, kinds_append]
        rfl
      rw [this, hk]
      rfl
  have hpar : Does (parseParagraph t n) () (numbered i (docK js)) [] (.tree .Paragraph (docF i js) .nil) := by
    obtain ⟨n, rfl⟩ : ∃ m, n = m + 2 := ⟨n - 2, by omega⟩
    exact Link.does_par t heasy i (fun _ => Link.reads_rows t) (by rw [Link.docK_length]; omega)
  have hcol : Does (collect (canSearch paragraphTerminator) n) ((numbered i (docK js)).map Prod.fst) (numbered i (docK js) ++ w) w .nil := by
    refine does_collect (fun p hp w => does_canSearch_true ?_) ?_ (by rw [numbered_length, Link.docK_length]; omega)
    · have := calm_kinds hcalm p.2 (mem_snd hp)
      revert this
      generalize p.2 = x
      revert x
      decide
    · cases w with
      | nil => exact does_and_false (does_not (b := true) (does_finished _))
      | cons p w => exact does_canSearch_false (hw p rfl)
  have hne : numbered i (docK js) ≠ [] := by rw [hk']; nofun
  have hplain := does_plain hne hcol hpar
  refine ⟨(i, k), numbered (i + 1) r' ++ w, by rw [hk']; rfl, ?_, ?_⟩
  · show k ≠ _
    rintro rfl
    exact absurd hm (by decide)
  rw [hk'] at hplain
  rw [parseStmt]
  have e : k ≠ .SubtreeStars ∧ k ≠ .Indent ∧ k ≠ .Whitespace ∧ k ∉ newlineKinds ∧ k ≠ .TextSeparator ∧ k ∉ [TK.TableSeparator, .LeadingPipe] ∧
      k ≠ .ColonExampleLine ∧ k ≠ .CmdPrefix := by
    revert hm
    generalize k = x
    revert x
    decide
  obtain ⟨e1, e2, e3, e4, e5, e6, e7, e8⟩ := e
  refine does_seq (does_kind _ _ _) ?_
  rw [if_neg e1, if_neg e2, if_neg e3, if_neg e4, if_neg e5, if_neg e6, if_neg e7, if_neg e8]
  exact hplain

theorem does_grid (t : Texts) {d : List Chunk} (h : DocValid d) {n m : Nat} (i : Nat) (hm : (gridRaw d).length ≤ m) (hn : (gridRaw d).length + 5 ≤ n) :
    Does (whileP (notP finishedP) (ifP (atP [.Comment]) nextP (recover (parseStmt t n) n)) m) () (numbered i (kinds (gridRaw d))) [] (gridF i d) := by
  induction d generalizing i m with
  | nil => exact does_while_stop m (does_not (b := true) (does_finished _))
  | cons c d ih =>
    obtain ⟨h1, h2, h3⟩ := h
    rw [grid_cons, List.length_append] at hm hn
    rw [grid_cons, kinds_append, numbered_append, kinds_length]
    have ih := fun m hm => ih h3 (m := m) (i + c.raw.length) hm (by omega)
    obtain ⟨n, rfl⟩ : ∃ x, n = x + 1 := ⟨n - 1, by omega⟩
    cases c with
    | table ls =>
      have hne : ls ≠ [] := by
        obtain ⟨-, l, hl, -⟩ := h1
        rintro rfl
        cases hl
      have hlen : 1 ≤ (linesRaw ls).length := by
        have := lines_length ls
        have : ls.length ≠ 0 := by simpa using hne
        omega
      have hhd : ∀ ls', d.head? ≠ some (.table ls') := fun ls' h0 => h2 _ h0
      have hraw : (Chunk.table ls).raw = linesRaw ls := rfl
      rw [hraw] at hm hn ih ⊢
      obtain ⟨p, v, e1, e2, e3⟩ := does_table t (n := n) (i := i) hne (fun l hl => line_ok (h1.1 l hl)) (grid_head h3 hhd (i + (linesRaw ls).length)) (by omega)
      rw [e1]
      obtain ⟨m, rfl⟩ : ∃ x, m = x + 1 := ⟨m - 1, by omega⟩
      exact does_rounds t e2 e3 (ih m (by omega))
    | para is e =>
      obtain ⟨hl, ho⟩ := h1
      have hraw : (Chunk.para is e).raw.length = (docRaw is).length + 1 := by
        show (docRaw is ++ [_]).length = _
        simp
      have hpos : 1 ≤ (docRaw is).length := by
        obtain ⟨k, r, hk, -⟩ := doc_linked hl
        have := congrArg List.length hk
        rw [Link.docK_length] at this
        simp at this
        omega
      have hkr : kinds (Chunk.para is e).raw = docK is ++ [breakKind e] := by
        show kinds (docRaw is ++ [_]) = _
        rw [kinds_append]
        show _ ++ [Link.finalKind _ _] = _
        rw [break_kind]
        rfl
      rw [gridF]
      by_cases h0 : e = 0
      · subst h0
        -- the line break is part of the paragraph
        have hjs : docRaw (is ++ [.piece (.brk 0)]) = docRaw is ++ [(TK.Newline, ['\n'])] := by
          unfold docRaw
          rw [List.map_append, List.flatten_append]
          rfl
        have hkj : docK (is ++ [.piece (.brk 0)]) = kinds (Chunk.para is 0).raw := by
          unfold docK
          rw [hjs]
          rfl
        obtain ⟨p, v, e1, e2, e3⟩ := does_para t (js := is ++ [.piece (.brk 0)]) hl (.inr rfl) (n := n) (i := i)
          (w := numbered (i + (Chunk.para is 0).raw.length) (kinds (gridRaw d))) (by
            intro p hp
            cases d with
            | nil => cases hp
            | cons c d =>
              have hf := h2 c rfl
              cases c with
              | para js m => exact absurd rfl hf
              | table ls =>
                have hf : ∀ l ∈ ls.head?, l.1.isRow = true := hf rfl
                cases ls with
                | nil =>
                  obtain ⟨⟨-, l, hl, -⟩, -⟩ := h3
                  cases hl
                | cons l ls =>
                  have hr := hf l rfl
                  obtain ⟨l, x⟩ := l
                  cases l with
                  | rule _ _ => cases hr
                  | row k cs =>
                    cases hp
                    show TK.LeadingPipe ∈ _
                    decide) (by rw [hjs, List.length_append, List.length_cons, List.length_nil]; omega)
        rw [hkj] at e1
        rw [e1]
        obtain ⟨m, rfl⟩ : ∃ x, m = x + 1 := ⟨m - 1, by omega⟩
        exact does_rounds t e2 e3 (ih m (by omega))
      · have hnum : numbered i (kinds (Chunk.para is e).raw) ++ numbered (i + (Chunk.para is e).raw.length) (kinds (gridRaw d)) =
            numbered i (docK is) ++ (i + (docRaw is).length, breakKind e) :: numbered (i + (Chunk.para is e).raw.length) (kinds (gridRaw d)) := by
          rw [hkr, numbered_append, Link.docK_length, List.append_assoc]
          rfl
        obtain ⟨p, v, e1, e2, e3⟩ := does_para t (js := is) hl (.inl rfl) (n := n) (i := i)
          (w := (i + (docRaw is).length, breakKind e) :: numbered (i + (Chunk.para is e).raw.length) (kinds (gridRaw d))) (by
            intro p hp
            cases hp
            show breakKind e ∈ _
            match e with
            | 0 => exact absurd rfl h0
            | 1 => decide
            | e + 2 => show TK.LongNewline ∈ _; decide) (by omega)
        rw [hnum, e1]
        obtain ⟨m, rfl⟩ : ∃ x, m = x + 2 := ⟨m - 2, by omega⟩
        have hb := does_rounds t (p := (i + (docRaw is).length, breakKind e)) (by
          show breakKind e ≠ .Comment
          intro h
          have := break_newline e
          rw [h] at this
          exact absurd this (by decide)) (does_break t (n := n) (break_newline e)) (ih m (by omega))
        have := does_rounds t e2 e3 hb
        have he : (Chunk.para is e).forest i = .tree .Paragraph (docF i is) (.leaf .Newline (.tok (i + (docRaw is).length)) .nil) := if_neg h0
        rw [he]
        exact this

/-- From the text to the nodes. -/
theorem grid_nodes {d : List Chunk} (h : DocValid d) {n : Nat} (hn : (gridRaw d).length + 5 ≤ n) :
    Pipeline.parse BaseLexer.stdLex n (docText d) = .ok (Link.placedF 0 (gridRaw d), (Forest.tree NK.StmtList (gridF 1 d) .nil).flat) := by
  unfold Pipeline.parse
  rw [grid_tokens h]
  dsimp only
  rw [Link.placedF_kinds]
  have hd := does_node .StmtList (does_grid (texts (Link.placedF 0 (gridRaw d))) h (n := n) (m := n) 1 (by omega) hn)
  by_cases he : d = []
  · subst he
    obtain ⟨n, rfl⟩ : ∃ x, n = x + 1 := ⟨n - 1, by omega⟩
    rfl
  · have hne : kinds (gridRaw d) ≠ [] := by
      cases d with
      | nil => exact absurd rfl he
      | cons c d =>
        intro h0
        have := congrArg List.length h0
        rw [kinds_length, grid_cons, List.length_append] at this
        cases c with
        | table ls =>
          have h1 := lines_length ls
          have h2 : (Chunk.table ls).raw = linesRaw ls := rfl
          rw [h2] at this
          obtain ⟨⟨-, l, hl, -⟩, -⟩ := h
          cases ls with
          | nil => cases hl
          | cons l ls =>
            rw [List.length_cons] at h1
            simp only [List.length_nil] at this
            omega
        | para is e =>
          have h2 : (Chunk.para is e).raw.length = (docRaw is).length + 1 := by
            show (docRaw is ++ [_]).length = _
            simp
          rw [h2] at this
          simp at this
    obtain ⟨l, q1, -⟩ := hd ⟨Lex.main (kinds (gridRaw d)), {}⟩ (cur_main hne) (contig_numbered _ _)
    unfold parseTop
    rw [q1]
    simp

end Verif.Grid
