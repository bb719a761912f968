import Verif.Code.ParseDoc
import Verif.Link.Convert

/-!
# From the nodes of a document to its source blocks
-/

namespace Verif.Code
open Verif.NodeGroup Verif.NodeGroup.Spec
open Verif.Parser (NK)
open Verif.Token (TK Tok)
open Verif.Pipeline (tokAt)
open Verif.Sem (children groupsF children_tree groupsF_append)
open Verif.Stamp (Out Shows Raw)
open Verif.Drawer (Text)
open Verif.Link (getText text_at)

/-- The texts of tokens. -/
def spoken (r : Raw) : List Text := r.map Prod.snd

theorem spoken_append (a b : Raw) : spoken (a ++ b) = spoken a ++ spoken b := List.map_append

theorem spoken_length (r : Raw) : (spoken r).length = r.length := List.length_map _

theorem shows_toks (toks : List Tok) : Shows toks 1 (spoken (raws toks)) := by
  intro j u h
  unfold spoken raws at h
  rw [List.map_map, List.getElem?_map] at h
  unfold tokAt
  rw [if_neg (by omega), show 1 + j - 1 = j by omega]
  cases ht : toks[j]? with
  | none => rw [ht] at h; cases h
  | some t =>
    rw [ht] at h
    exact ⟨t, rfl, Option.some.inj h⟩

/-- The texts of the tokens are those of `r`. -/
abbrev Says (toks : List Tok) (i : Nat) (r : Raw) : Prop := Shows toks i (spoken r)

theorem Says.tail {toks : List Tok} {i : Nat} {x : TK × Text} {r : Raw} (h : Says toks i (x :: r)) : Says toks (i + 1) r :=
  Shows.right (a := [x.2]) h

theorem Says.left {toks : List Tok} {i : Nat} {a b : Raw} (h : Says toks i (a ++ b)) : Says toks i a := by
  unfold Says at h
  rw [spoken_append] at h
  exact Shows.left h

theorem Says.right {toks : List Tok} {i : Nat} {a b : Raw} (h : Says toks i (a ++ b)) : Says toks (i + a.length) b := by
  unfold Says at h
  rw [spoken_append] at h
  have := Shows.right h
  rwa [spoken_length] at this

theorem Says.text {toks : List Tok} {i : Nat} {k : TK} {u : Text} {r : Raw} (h : Says toks i ((k, u) :: r)) (nk : NK) (ns : List (NodeGroup.Node NK Unit)) :
    getText toks (⟨nk, .tok i⟩ :: ns) = .ok u := text_at h nk ns

theorem each_append {α β : Type} {f : α → Out β} {a b : List α} {x y : List β} (h1 : each f a = .ok x) (h2 : each f b = .ok y) : each f (a ++ b) = .ok (x ++ y) := by
  induction a generalizing x with
  | nil =>
    cases h1
    exact h2
  | cons c a ih =>
    rw [each] at h1
    rw [List.cons_append, each]
    cases hc : f c with
    | ok z =>
      rw [hc] at h1
      simp only [Out.bind] at h1 ⊢
      cases ha : each f a with
      | ok zs =>
        rw [ha] at h1
        simp only [Out.bind] at h1
        cases h1
        rw [ih ha]
        rfl
      | _ => rw [ha] at h1; cases h1
    | _ => rw [hc] at h1; cases h1

theorem each_cons {α β : Type} {f : α → Out β} {a : α} {as : List α} {x : β} {xs : List β} (h1 : f a = .ok x) (h2 : each f as = .ok xs) :
    each f (a :: as) = .ok (x :: xs) := by
  rw [each, h1]
  simp only [Out.bind, h2]

/-! ## Lines -/

theorem part_text {toks : List Tok} {i : Nat} {k : TK} {u : Text} {r : Raw} (h : Says toks i ((k, u) :: r)) :
    partOf toks [⟨.CodeText, .tok i⟩] = .ok (.raw u) := by
  show (getText toks [⟨.CodeText, .tok i⟩]).bind _ = _
  rw [h.text]
  rfl

theorem segs_parts {toks : List Tok} {l : List Seg} {i : Nat} (h : Says toks i (segsRaw l)) :
    each (partOf toks) (groupsF (segsF i l)) = .ok (l.map Seg.part) := by
  induction l generalizing i with
  | nil => rfl
  | cons s l ih =>
    rw [segsRaw_cons] at h
    have ih := ih h.right
    cases s with
    | code t => exact each_cons (part_text h) ih
    | left => exact each_cons (part_text h) ih
    | right => exact each_cons (part_text h) ih
    | ref t =>
      refine each_cons ?_ ih
      unfold partOf
      rw [if_neg (by simp [Sem.kindOf]), if_pos (by simp [Sem.kindOf]), children_tree]
      show (getText toks [⟨.Word, .tok (i + 1)⟩]).bind _ = _
      rw [Says.text (Says.tail (h : Says toks i (_ :: _)))]
      rfl

theorem line_parts {toks : List Tok} {l : List Seg} {i : Nat} (h : Says toks i (lineRaw l)) :
    each (partOf toks) (groupsF (lineF i l)) = .ok (lineParts l) := by
  cases l with
  | nil => exact each_cons (part_text h) rfl
  | cons s l => exact segs_parts (l := s :: l) h

theorem lines_parts {toks : List Tok} {ls : List (List Seg)} {i : Nat} (h : Says toks i (linesRaw ls)) :
    each (fun line => each (partOf toks) (children line)) (groupsF (linesF i ls)) = .ok (ls.map lineParts) := by
  induction ls generalizing i with
  | nil => rfl
  | cons l ls ih =>
    rw [linesRaw_cons] at h
    refine each_cons ?_ (ih h.right.tail)
    rw [children_tree]
    exact line_parts h.left

/-! ## Arguments -/

theorem split_none {t : Text} (h : ':' ∉ t) : splitColon t = [t] := by
  induction t with
  | nil => rfl
  | cons c t ih =>
    rw [splitColon, if_neg (fun e => h (by simp [e])), ih (fun e => h (List.mem_cons_of_mem _ e))]

theorem value_arg {t : Text} (h : ArgText t) : valueOf t = (false, .text t) := by
  have hc : ':' ∉ t := fun hm => absurd (h.2 _ hm) (by decide)
  have hq : t.head? ≠ some '"' := by
    intro hm
    exact absurd (h.2 _ (List.mem_of_mem_head? hm)) (by decide)
  unfold valueOf
  rw [if_neg (fun hx => hq hx.1), split_none hc]

theorem name_arg {n : Text} (h : ArgName n) : (':' :: n).dropWhile (fun c => decide (c = ':')) = n := by
  rw [List.dropWhile_cons_of_pos (by decide)]
  cases n with
  | nil => rfl
  | cons c n =>
    obtain ⟨⟨x, hx, ha⟩, -⟩ := h
    cases hx
    rw [List.dropWhile_cons_of_neg]
    intro hc
    have : c = ':' := by simpa using hc
    subst this
    exact absurd ha (by decide)

theorem args_attrs {toks : List Tok} {as : List (Nat × Arg)} {i : Nat} (hv : ArgsValid as) (h : Says toks i (wordsRaw (argsWords as))) :
    each (attrOf toks) (groupsF (argsF i as)) = .ok (as.map fun a => a.2.attr) := by
  induction as generalizing i with
  | nil => rfl
  | cons a as ih =>
    obtain ⟨g, a⟩ := a
    obtain ⟨h1, -, h3⟩ := hv
    have e : wordsRaw (argsWords ((g, a) :: as)) = wordsRaw (a.words g) ++ wordsRaw (argsWords as) := by simp [argsWords, wordsRaw]
    rw [e] at h
    have hlen : (wordsRaw (a.words g)).length = a.size := by cases a <;> rfl
    have hr := h.right
    rw [hlen] at hr
    have ih := ih h3 hr
    cases a with
    | pair n g' v =>
      have hs : Says toks i ((TK.Whitespace, blanks (g + 1)) :: (.CmdColonIdent, ':' :: n) :: (.Whitespace, blanks (g' + 1)) :: (.CmdRawArg, v) :: []) := h.left
      refine each_cons ?_ ih
      unfold attrOf
      rw [children_tree]
      show ((getText toks [⟨.Word, .tok (i + 1)⟩]).bind _).bind _ = _
      rw [hs.tail.text]
      show ((getText toks [⟨.RawText, .tok (i + 3)⟩]).bind _).bind _ = _
      rw [hs.tail.tail.tail.text]
      show (Out.ok (valueOf v)).bind _ = _
      rw [value_arg h1.2]
      show Out.ok (Attr.mk (some ((':' :: n).dropWhile _)) none false (.text v)) = _
      rw [name_arg h1.1]
      rfl
    | key n =>
      have hs : Says toks i ((TK.Whitespace, blanks (g + 1)) :: (.CmdColonIdent, ':' :: n) :: []) := h.left
      refine each_cons ?_ ih
      unfold attrOf
      rw [children_tree]
      show ((getText toks [⟨.Word, .tok (i + 1)⟩]).bind _).bind _ = _
      rw [hs.tail.text]
      show Out.ok (Attr.mk (some ((':' :: n).dropWhile _)) none false (.text [])) = _
      rw [name_arg h1]
      rfl
    | word v =>
      have hs : Says toks i ((TK.Whitespace, blanks (g + 1)) :: (.CmdRawArg, v) :: []) := h.left
      refine each_cons ?_ ih
      unfold attrOf
      rw [children_tree]
      show ((getText toks [⟨.RawText, .tok (i + 1)⟩]).bind _).bind _ = _
      rw [hs.tail.text]
      show (Out.ok (valueOf v)).bind _ = _
      rw [value_arg h1]
      rfl

/-! ## Blocks -/

theorem lang_text {toks : List Tok} {l : Option (Nat × Text)} {i : Nat} (h : Says toks i (wordsRaw (langWords l))) :
    ∃ a, groupsF (langF i l) = [a] ∧ Sem.isError a = false ∧ optText toks a = .ok (l.map Prod.snd) := by
  cases l with
  | none => exact ⟨_, rfl, rfl, rfl⟩
  | some l =>
    obtain ⟨g, l⟩ := l
    refine ⟨_, rfl, rfl, ?_⟩
    show (getText toks [⟨.Word, .tok (i + 1)⟩]).bind _ = _
    rw [Says.text (Says.tail (h : Says toks i (_ :: _)))]
    rfl

theorem named_last (last : Option Text) (as : List Attr) :
    named last as = as.mapIdx fun i a => { a with name := (last.toList ++ (as.take (i + 1)).filterMap Attr.name).getLast? } := by
  induction as generalizing last with
  | nil => rfl
  | cons a as ih =>
    rw [named, List.mapIdx_cons]
    cases ha : a.name with
    | some n =>
      dsimp only
      rw [ih (some n)]
      congr 1
      · have : (last.toList ++ ((a :: as).take (0 + 1)).filterMap Attr.name).getLast? = a.name := by
          rw [List.take_succ_cons, List.filterMap_cons_some ha, List.getLast?_append, ha]
          simp
        rw [this]
      · refine List.mapIdx_eq_mapIdx_iff.mpr fun i hi => ?_
        congr 1
        rw [List.take_succ_cons, List.filterMap_cons_some ha]
        rw [List.getLast?_append_of_ne_nil _ (List.cons_ne_nil _ _)]
        rfl
    | none =>
      dsimp only
      rw [ih last]
      congr 1
      · cases last <;> simp [ha]
      · refine List.mapIdx_eq_mapIdx_iff.mpr fun i hi => ?_
        congr 1
        rw [List.take_succ_cons, List.filterMap_cons_none ha]

theorem named_owned (as : List Attr) : named none as = owned as := by
  rw [named_last]
  rfl

theorem block_node {toks : List Tok} {b : Block} (hb : b.Valid) {i : Nat}
    (h : Says toks (i + 2) ((wordsRaw b.words ++ gapRaw b.gap) ++ ((.CmdContentBegin, []) :: linesRaw b.shifted))) :
    each (nodeOf toks) (groupsF (b.tree i)) = .ok [.code b.code] := by
  have hw : wordsRaw b.words = wordsRaw (langWords b.lang) ++ wordsRaw (argsWords b.args) := by simp [Block.words, wordsRaw]
  have h1 : Says toks (i + 2) (wordsRaw (langWords b.lang)) := by
    rw [hw] at h
    exact h.left.left.left
  have h2 : Says toks (i + 2 + langSize b.lang) (wordsRaw (argsWords b.args)) := by
    rw [hw] at h
    have := h.left.left.right
    rwa [show (wordsRaw (langWords b.lang)).length = langSize b.lang from by cases b.lang <;> rfl] at this
  have h3 : Says toks (i + 2 + b.headSize + 1) (linesRaw b.shifted) := h.right.tail
  obtain ⟨a, ha, he, hl⟩ := lang_text h1
  have hargs := args_attrs hb.args h2
  have hlines := lines_parts h3
  refine each_cons ?_ rfl
  have hc : children (⟨.BlockCode, .ext ((langF (i + 2) b.lang).append
    (.tree .Attrs (.tree .InlineStmtList .nil (.tree .InlineStmtList (argsF (i + 2 + langSize b.lang) b.args) .nil))
      (.tree .StmtList (linesF (i + 2 + b.headSize + 1) b.shifted) (.leaf .Empty (.mono ()) .nil)))).count⟩ :: ((langF (i + 2) b.lang).append
    (.tree .Attrs (.tree .InlineStmtList .nil (.tree .InlineStmtList (argsF (i + 2 + langSize b.lang) b.args) .nil))
      (.tree .StmtList (linesF (i + 2 + b.headSize + 1) b.shifted) (.leaf .Empty (.mono ()) .nil)))).flat) = a :: groupsF
    (.tree .Attrs (.tree .InlineStmtList .nil (.tree .InlineStmtList (argsF (i + 2 + langSize b.lang) b.args) .nil))
      (.tree .StmtList (linesF (i + 2 + b.headSize + 1) b.shifted) (.leaf .Empty (.mono ()) .nil))) := by
    rw [children_tree, groupsF_append, ha]
    rfl
  unfold nodeOf
  rw [hc]
  simp only [groupsF, List.any_cons, he, List.any_nil]
  rw [if_neg (by simp [Sem.isError]), if_pos (show Sem.kindOf _ = NK.BlockCode from rfl)]
  unfold sourceOf
  rw [hc]
  simp only [groupsF]
  rw [hl]
  simp only [Out.bind]
  have hat : attrsOf toks (⟨.Attrs, .ext (Forest.tree NK.InlineStmtList .nil (.tree .InlineStmtList (argsF (i + 2 + langSize b.lang) b.args) .nil) : Forest NK Unit).count⟩ ::
      (Forest.tree NK.InlineStmtList .nil (.tree .InlineStmtList (argsF (i + 2 + langSize b.lang) b.args) .nil) : Forest NK Unit).flat) =
      .ok (owned (b.args.map fun a => a.2.attr)) := by
    rw [← named_owned]
    unfold attrsOf
    rw [if_neg (by simp [Sem.kindOf]), if_pos (by simp [Sem.kindOf]), children_tree]
    simp only [groupsF]
    rw [children_tree, hargs]
    rfl
  rw [hat]
  simp only
  rw [children_tree, hlines]
  simp only
  rw [if_pos (by rfl)]
  simp [Block.code, Block.shifted]

theorem doc_read {toks : List Tok} {d : List Block} (hd : DocValid d) {i : Nat} (h : Says toks i (docFin d)) :
    each (nodeOf toks) (groupsF (docF i d)) = .ok (d.map Block.nodes).flatten := by
  induction d generalizing i with
  | nil => rfl
  | cons b d ih =>
    rw [docFin_cons] at h
    rw [docF, groupsF_append, List.map_cons, List.flatten_cons]
    refine each_append ?_ (ih hd.2.2 h.right)
    have hb := h.left
    have hl := fin_length b
    unfold Block.forest Block.nodes
    rw [groupsF_append]
    have hfin : b.fin = (if b.indent = 0 then [] else [(TK.LeadingSpace, blanks b.indent)]) ++ ([(.CmdPrefix, "#+".toList), (.CmdSrcBegin, beginWord b.upper)] ++
        (((wordsRaw b.words ++ gapRaw b.gap) ++ ((.CmdContentBegin, []) :: linesRaw b.shifted)) ++ ((.CmdPrefix, []) :: (.CmdSrcEnd, b.foot) :: afterRaw b.after))) := by
      unfold Block.fin Block.shifted
      simp only [List.append_assoc, List.cons_append]
    have hafter : each (nodeOf toks) (groupsF (if b.after = 0 then .nil else .leaf .Newline (.tok (i + b.fin.length - 1)) .nil : Forest NK Unit)) =
        .ok (if b.after = 0 then [] else [Node.newline (List.replicate b.after '\n')]) := by
      split_ifs with h0
      · rfl
      · obtain ⟨m, hm⟩ : ∃ m, b.after = m + 1 := ⟨b.after - 1, by omega⟩
        have hx := hb
        obtain ⟨X, hX⟩ : ∃ X, b.fin = X ++ [(breakKind m, List.replicate (m + 1) '\n')] :=
          ⟨(if b.indent = 0 then [] else [(TK.LeadingSpace, blanks b.indent)]) ++ ([(.CmdPrefix, "#+".toList), (.CmdSrcBegin, beginWord b.upper)] ++
            (((wordsRaw b.words ++ gapRaw b.gap) ++ ((.CmdContentBegin, []) :: linesRaw b.shifted)) ++ [(.CmdPrefix, []), (.CmdSrcEnd, b.foot)])), by
            rw [hfin, hm]
            simp [afterRaw]⟩
        rw [hX] at hx
        have hx := hx.right
        have hlen := congrArg List.length hX
        rw [List.length_append, List.length_singleton] at hlen
        rw [show i + X.length = i + b.fin.length - 1 from by omega] at hx
        refine each_cons ?_ rfl
        unfold nodeOf
        rw [if_neg (by simp [children, Sem.groups]), if_neg (by simp [Sem.kindOf]), if_pos (by simp [Sem.kindOf]), hx.text, hm]
        rfl
    refine each_append ?_ hafter
    rw [hfin] at hb
    by_cases hi : b.indent = 0
    · rw [if_pos hi] at hb ⊢
      rw [if_pos hi]
      exact block_node hd.1 (Says.left (Says.right (a := [(TK.CmdPrefix, "#+".toList), (.CmdSrcBegin, beginWord b.upper)]) hb))
    · rw [if_neg hi] at hb ⊢
      rw [if_neg hi]
      exact each_cons rfl (block_node hd.1 (Says.left (Says.right (a := [(TK.CmdPrefix, "#+".toList), (.CmdSrcBegin, beginWord b.upper)]) hb.tail)))

/-- Reading of a document. -/
theorem read_doc {d : List Block} (h : DocValid d) {n : Nat} (hn : (docFin d).length + 5 ≤ n) :
    readCode n (render d) = .ok (.ok (d.map Block.nodes).flatten) := by
  obtain ⟨toks, h1, h2⟩ := doc_nodes h hn
  unfold readCode
  rw [h1]
  dsimp only
  have e : (Forest.tree NK.StmtList (docF 1 d) .nil : Forest NK Unit).flat = ⟨.StmtList, .ext (docF 1 d).count⟩ :: (docF 1 d).flat := by simp [Forest.flat]
  rw [e, children_tree, doc_read h (h2 ▸ shows_toks toks)]

end Verif.Code
