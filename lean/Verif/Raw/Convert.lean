import Verif.Raw.Parse
import Verif.Code.Convert
import Verif.Sem.Exact

/-!
# From the nodes of a document to its example and export blocks
-/

namespace Verif.Raw
open Verif.NodeGroup Verif.NodeGroup.Spec
open Verif.Parser (NK)
open Verif.Token (TK Tok)
open Verif.Sem (children groupsF children_tree groupsF_append)
open Verif.Stamp (Out Raw)
open Verif.Drawer (Text)
open Verif.Link (getText)
open Verif.Layout (joinLines)
open Verif.Code (Says each each_append each_cons wordsRaw gapRaw afterRaw breakKind blanks raws shows_toks)

theorem raw_text {toks : List Tok} {i : Nat} {k : TK} {u : Text} {r : Raw} (h : Says toks i ((k, u) :: r)) :
    rawOf toks [⟨.RawText, .tok i⟩] = .ok u := by
  unfold rawOf
  rw [if_pos (by rfl), h.text]

theorem sample_texts {toks : List Tok} {ls : List Text} {i : Nat} (h : Says toks i (linesRaw .sample ls)) :
    each (rawOf toks) (groupsF (sampleF i ls)) = .ok (ls.intersperse "\n".toList) := by
  induction ls generalizing i with
  | nil => rfl
  | cons l ls ih =>
    rw [lines_cons] at h
    cases ls with
    | nil => exact each_cons (raw_text h) rfl
    | cons l' ls => exact each_cons (raw_text h) (each_cons (raw_text h.tail) (ih h.tail.tail))

theorem foreign_texts {toks : List Tok} {g : Nat} {e : Text} {ls : List Text} {i : Nat} (h : Says toks i (linesRaw (.foreign g e) ls)) :
    ∃ ts, each (getText toks) (groupsF (foreignF i ls)).dropLast = .ok ts ∧ ts.flatten = joinLines ls := by
  induction ls generalizing i with
  | nil => exact ⟨[], rfl, rfl⟩
  | cons l ls ih =>
    rw [lines_cons] at h
    obtain ⟨ts, h1, h2⟩ := ih h.tail.tail
    cases ls with
    | nil => exact ⟨[l], each_cons (h.text _ _) rfl, by simp [joinLines]⟩
    | cons l' ls =>
      refine ⟨l :: "\n".toList :: ts, ?_, ?_⟩
      · exact each_cons (h.text _ _) (each_cons (h.tail.text _ _) h1)
      · rw [Layout.joinLines_cons _ _ (by simp)]
        simp [h2]

theorem left_sample {b : Block} (hk : b.kind = .sample) : b.left = b.dedented := by
  unfold Block.left
  rw [hk]

theorem left_foreign {b : Block} {g : Nat} {e : Text} (hk : b.kind = .foreign g e) : b.left = b.lines := by
  unfold Block.left
  rw [hk]

theorem block_node {toks : List Tok} {b : Block} (hb : b.Valid) {i : Nat}
    (h : Says toks (i + 2) ((wordsRaw b.kind.words ++ gapRaw b.gap) ++ ((.Newline, "\n".toList) :: linesRaw b.kind b.left))) :
    each (nodeOf toks) (groupsF (b.tree i)) = .ok [b.node] := by
  have h3 : Says toks (i + 2 + b.headSize + 1) (linesRaw b.kind b.left) := h.right.tail
  unfold Block.tree Block.node
  cases hk : b.kind with
  | sample =>
    rw [hk] at h3
    have hs := sample_texts h3
    rw [left_sample hk] at hs ⊢
    have hne : b.dedented ≠ [] := by
      have := hb.filled hk
      simp [Block.dedented, this]
    refine each_cons ?_ rfl
    unfold nodeOf
    rw [children_tree]
    have hno : (groupsF (.tree NK.InlineStmtList .nil (sampleF (i + 2 + b.headSize + 1) b.dedented))).any Sem.isError = false := by
      rw [groupsF]
      have : ∀ (ls : List Text) i, (groupsF (sampleF i ls)).any Sem.isError = false := by
        intro ls
        induction ls with
        | nil => intro i; rfl
        | cons l ls ih =>
          intro i
          cases ls with
          | nil => rfl
          | cons l' ls =>
            simp only [sampleF, groupsF, List.any_cons, ih]
            rfl
      rw [List.any_cons, this]
      rfl
    rw [if_neg (by rw [hno]; decide), if_pos (show Sem.kindOf _ = NK.BlockExample from rfl)]
    unfold sampleOf
    rw [children_tree, groupsF]
    obtain ⟨l, ls, hl⟩ := List.exists_cons_of_ne_nil hne
    rw [hl] at hs ⊢
    cases ls with
    | nil =>
      simp only [sampleF, groupsF] at hs ⊢
      rw [hs]
      rfl
    | cons l' ls =>
      simp only [sampleF, groupsF] at hs ⊢
      rw [hs]
      rfl
  | foreign g e =>
    rw [hk] at h3 h
    obtain ⟨ts, h4, h5⟩ := foreign_texts h3
    rw [left_foreign hk] at h4 h5 ⊢
    have hw : Says toks (i + 2) ((TK.Whitespace, blanks (g + 1)) :: (.CmdRawArg, e) :: []) := h.left.left
    refine each_cons ?_ rfl
    unfold nodeOf
    rw [children_tree]
    have hno : (groupsF (.leaf NK.Word (.tok (i + 3)) (.tree NK.InlineStmtList .nil (.tree NK.StmtList (foreignF (i + 2 + b.headSize + 1) b.lines) .nil)))).any Sem.isError = false := rfl
    rw [if_neg (by rw [hno]; decide), if_neg (by simp [Sem.kindOf]), if_pos (show Sem.kindOf _ = NK.BlockExport from rfl)]
    unfold foreignOf
    rw [children_tree]
    simp only [groupsF]
    have hat : attrsOf toks (⟨.InlineStmtList, .ext (Forest.nil : Forest NK Unit).count⟩ :: (Forest.nil : Forest NK Unit).flat) = .ok [] := rfl
    rw [hat]
    simp only [Out.bind]
    rw [hw.tail.text]
    simp only
    rw [children_tree, h4]
    simp only [h5]

theorem doc_read {toks : List Tok} {d : List Block} (hd : DocValid d) {i : Nat} (h : Says toks i (docFin d)) :
    each (nodeOf toks) (groupsF (docF i d)) = .ok (d.map Block.nodes).flatten := by
  induction d generalizing i with
  | nil => rfl
  | cons b d ih =>
    rw [docFin_cons] at h
    rw [docF, groupsF_append, List.map_cons, List.flatten_cons]
    refine each_append ?_ (ih hd.2.2 h.right)
    have hb := h.left
    have hl := fin_length b
    unfold Block.forest Block.nodes
    rw [groupsF_append]
    have hfin : b.fin = (if b.indent = 0 then [] else [(TK.LeadingSpace, blanks b.indent)]) ++ ([(.CmdPrefix, "#+".toList), (b.kind.beginTok, beginWord b.kind b.upper)] ++
        (((wordsRaw b.kind.words ++ gapRaw b.gap) ++ ((.Newline, "\n".toList) :: linesRaw b.kind b.left)) ++ ((.CmdPrefix, []) :: (b.kind.endTok, b.last) :: afterRaw b.after))) := by
      unfold Block.fin
      simp only [List.append_assoc, List.cons_append]
    have hafter : each (nodeOf toks) (groupsF (if b.after = 0 then .nil else .leaf .Newline (.tok (i + b.fin.length - 1)) .nil : Forest NK Unit)) =
        .ok (if b.after = 0 then [] else [Node.newline (List.replicate b.after '\n')]) := by
      split_ifs with h0
      · rfl
      · obtain ⟨m, hm⟩ : ∃ m, b.after = m + 1 := ⟨b.after - 1, by omega⟩
        have hx := hb
        obtain ⟨X, hX⟩ : ∃ X, b.fin = X ++ [(breakKind m, List.replicate (m + 1) '\n')] :=
          ⟨(if b.indent = 0 then [] else [(TK.LeadingSpace, blanks b.indent)]) ++ ([(.CmdPrefix, "#+".toList), (b.kind.beginTok, beginWord b.kind b.upper)] ++
            (((wordsRaw b.kind.words ++ gapRaw b.gap) ++ ((.Newline, "\n".toList) :: linesRaw b.kind b.left)) ++ [(.CmdPrefix, []), (b.kind.endTok, b.last)])), by
            rw [hfin, hm]
            simp [afterRaw]⟩
        rw [hX] at hx
        have hx := hx.right
        have hlen := congrArg List.length hX
        rw [List.length_append, List.length_singleton] at hlen
        rw [show i + X.length = i + b.fin.length - 1 from by omega] at hx
        refine each_cons ?_ rfl
        unfold nodeOf
        rw [if_neg (by simp [children, Sem.groups]), if_neg (by simp [Sem.kindOf]), if_neg (by simp [Sem.kindOf]), if_pos (by simp [Sem.kindOf]), hx.text, hm]
        rfl
    refine each_append ?_ hafter
    rw [hfin] at hb
    by_cases hi : b.indent = 0
    · rw [if_pos hi] at hb ⊢
      rw [if_pos hi]
      exact block_node hd.1 (Says.left (Says.right (a := [(TK.CmdPrefix, "#+".toList), (b.kind.beginTok, beginWord b.kind b.upper)]) hb))
    · rw [if_neg hi] at hb ⊢
      rw [if_neg hi]
      exact each_cons rfl (block_node hd.1 (Says.left (Says.right (a := [(TK.CmdPrefix, "#+".toList), (b.kind.beginTok, beginWord b.kind b.upper)]) hb.tail)))

/-- Reading of a document. -/
theorem read_doc {d : List Block} (h : DocValid d) {n : Nat} (hn : (docFin d).length + 5 ≤ n) :
    readRaw n (render d) = .ok (.ok (d.map Block.nodes).flatten) := by
  obtain ⟨toks, h1, h2⟩ := doc_nodes h hn
  unfold readRaw
  rw [h1]
  dsimp only
  have e : (Forest.tree NK.StmtList (docF 1 d) .nil : Forest NK Unit).flat = ⟨.StmtList, .ext (docF 1 d).count⟩ :: (docF 1 d).flat := by simp [Forest.flat]
  rw [e, children_tree, doc_read h (h2 ▸ shows_toks toks)]

end Verif.Raw
