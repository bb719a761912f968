import Verif.Raw.Convert
import Verif.Code.Again

/-!
# The text of example and export blocks is read again
-/

namespace Verif.Raw
open Verif.Token
open Verif.Stamp (Raw)
open Verif.Drawer (Text)
open Verif.Sem (Single Singles ShowsLines AllLines str stack added box textOf)
open Verif.Layout (joinLines splitLines stripEnd volume volumes)
open Verif.Code (blanks leading shared sameText ArgText wordsRaw gapRaw afterRaw wordsText words_le all_single all_append flat_single total total_append join_lines join_breaks
  join_rest shared_line shared_le)

/-! ## The number of tokens -/

theorem linesText_le (k : Kind) (ls : List Text) : (linesRaw k ls).length ≤ 2 * ((ls.map fun l => l ++ "\n".toList).flatten).length := by
  rw [lines_length]
  induction ls with
  | nil => simp
  | cons l ls ih =>
    simp only [List.map_cons, List.flatten_cons, List.length_append, List.length_cons]
    have : "\n".toList.length = 1 := rfl
    omega

theorem left_length (b : Block) : b.left.length = b.lines.length := by
  unfold Block.left Block.dedented
  cases b.kind <;> simp

theorem fin_le {b : Block} (h : b.Valid) : b.fin.length ≤ 2 * b.text.length := by
  rw [fin_length]
  have h1 := linesText_le b.kind b.lines
  rw [lines_length, ← left_length, ← lines_length b.kind] at h1
  have h2 := words_le (words_ok h)
  rw [words_text] at h2
  have h3 : (gapRaw b.gap).length ≤ b.gap := by
    unfold gapRaw
    split_ifs <;> simp
    omega
  have h4 : (afterRaw b.after).length ≤ b.after := by
    cases b.after <;> simp [afterRaw]
  have h5 : lead b ≤ b.indent := by
    unfold lead
    split_ifs <;> omega
  have h6 : b.headSize = (wordsRaw b.kind.words).length + (gapRaw b.gap).length := List.length_append
  have h7 : 8 ≤ ((if b.upper then "#+BEGIN_".toList ++ b.kind.capital else "#+begin_".toList ++ b.kind.word)).length := by cases b.upper <;> simp
  have h9 : b.text.length = b.indent + ((if b.upper then "#+BEGIN_".toList ++ b.kind.capital else "#+begin_".toList ++ b.kind.word)).length + b.kind.tail.length + b.gap + 1 +
      ((b.lines.map fun l => l ++ "\n".toList).flatten).length + b.last.length + b.after := by
    unfold Block.text Block.first
    simp only [List.length_append, blanks, List.length_replicate]
    rfl
  omega

theorem doc_le {d : List Block} (h : DocValid d) : (docFin d).length ≤ 2 * (render d).length := by
  induction d with
  | nil => exact Nat.le_refl _
  | cons b d ih =>
    have h1 := ih h.2.2
    have h2 := fin_le h.1
    have e : render (b :: d) = b.text ++ render d := rfl
    rw [docFin_cons, e, List.length_append, List.length_append]
    omega

/-! ## Writing -/

/-- The texts which are written for a node; some of them are several lines. -/
def Node.shown : Node → List Text
  | .sample ts => "#+begin_example".toList :: (ts ++ ["#+end_example".toList])
  | .foreign e => [("#+begin_export ".toList ++ e.exporter), e.content, "#+end_export".toList]
  | .newline t => List.replicate (t.length - 1) []
  | .nothing => []

theorem node_lines (x : Node) : ShowsLines x.fmt x.shown := by
  cases x with
  | sample ts =>
    have h := AllLines.cons (Sem.single_str "#+begin_example".toList).lines (all_append (all_single Sem.single_str ts) (.cons (Sem.single_str "#+end_example".toList).lines .nil))
    have := h.stack (by simp +contextual [or_imp, forall_and])
    have hid : ts.map (fun a => a) = ts := List.map_id ts
    simpa [Node.fmt, fmtSample, Node.shown, flat_single, hid] using this
  | foreign e =>
    have h0 := (Singles.cons (Sem.single_str ("#+begin_export ".toList ++ e.exporter)) .nil).line (by simp)
    have h := AllLines.cons h0.lines (.cons (Sem.single_str e.content).lines (.cons (Sem.single_str "#+end_export".toList).lines .nil))
    have := h.stack (by simp)
    simpa [Node.fmt, Export.fmt, Node.shown] using this
  | newline t =>
    have hS : ∀ n, AllLines (List.replicate n (str [])) (List.replicate n [[]]) := by
      intro n
      induction n with
      | zero => exact .nil
      | succ n ih => exact .cons (Sem.single_str []).lines ih
    have := (hS (t.length - 1)).addedStack
    simpa [Node.fmt, Node.shown] using this
  | nothing => exact AllLines.nil.stack (by simp)

theorem nodes_lines (ns : List Node) : AllLines (ns.map Node.fmt) (ns.map Node.shown) := by
  induction ns with
  | nil => exact .nil
  | cons x ns ih => exact .cons (node_lines x) ih

theorem strs_volume (ts : List Text) : volumes (ts.map str) = total ts := by
  induction ts with
  | nil => rfl
  | cons t ts ih => simp [volumes, Sem.volume_str, ih, total]

theorem node_volume (x : Node) : volume x.fmt ≤ total x.shown := by
  cases x with
  | sample ts =>
    simp only [Node.fmt, fmtSample, stack, volume, volumes, Sem.volumes_append, strs_volume, Sem.volume_str, Node.shown]
    simp [total]
  | foreign e =>
    simp only [Node.fmt, Export.fmt, stack, volume, volumes, Sem.volume_str, Node.shown]
    simp [total]
  | newline t =>
    show volumes _ ≤ _
    refine Nat.le_trans (Sem.volumes_added _) ?_
    rw [Sem.volumes_replicate]
    exact Nat.zero_le _
  | nothing => exact Nat.zero_le _

theorem nodes_volume (ns : List Node) : volumes (ns.map Node.fmt) ≤ total (ns.map Node.shown).flatten := by
  induction ns with
  | nil => exact Nat.le_refl _
  | cons x ns ih =>
    have := node_volume x
    simp only [List.map_cons, volumes, List.flatten_cons, total_append]
    omega

theorem split_join_all (t : Text) : joinLines (splitLines t) = t ∧ splitLines t ≠ [] ∧ ∀ l ∈ splitLines t, '\n' ∉ l := by
  induction t with
  | nil => exact ⟨rfl, by simp [splitLines], by simp [splitLines]⟩
  | cons c t ih =>
    obtain ⟨h1, h2, h3⟩ := ih
    rw [splitLines]
    split_ifs with hc
    · exact ⟨by rw [Layout.joinLines_cons _ _ h2, h1, hc]; rfl, by simp, by simpa using h3⟩
    · cases hs : splitLines t with
      | nil => exact absurd hs h2
      | cons l ls =>
        rw [hs] at h1 h3
        refine ⟨?_, by simp, ?_⟩
        · dsimp only
          cases ls with
          | nil => rw [← h1]; rfl
          | cons l' ls =>
            rw [Layout.joinLines_cons _ _ (by simp), List.cons_append, ← Layout.joinLines_cons _ _ (by simp), h1]
        · intro x hx
          rcases List.mem_cons.mp hx with rfl | hx
          · simp only [List.mem_cons, not_or]
            exact ⟨fun e => hc e.symm, h3 l List.mem_cons_self⟩
          · exact h3 x (List.mem_cons_of_mem _ hx)

theorem join_split (ls : List Text) : joinLines (ls.map splitLines).flatten = joinLines ls := by
  induction ls with
  | nil => rfl
  | cons l ls ih =>
    rw [List.map_cons, List.flatten_cons]
    obtain ⟨h1, h2, -⟩ := split_join_all l
    cases ls with
    | nil => simp [h1, joinLines]
    | cons l' ls =>
      rw [join_rest _ _ h2 (by simp [(split_join_all l').2.1]), ih, h1, Layout.joinLines_cons l (l' :: ls) (by simp)]

theorem printed_split (ls : List Text) : Layout.printed (box ls) = textOf (ls.map splitLines).flatten := by
  cases ls with
  | nil => rfl
  | cons l r =>
    show joinLines ((splitLines (joinLines (l :: r))).map stripEnd) = _
    rw [← join_split (l :: r), Sem.splitLines_join _ (by simp [(split_join_all l).2.1]) ?_, textOf]
    intro x hx
    obtain ⟨y, hy, hx⟩ := List.mem_flatten.mp hx
    obtain ⟨t, -, rfl⟩ := List.mem_map.mp hy
    exact (split_join_all t).2.2 x hx

/-- The lines which are written for a node. -/
def Node.lines (x : Node) : List Text := (x.shown.map splitLines).flatten

theorem lines_flat (ns : List Node) : ((ns.map Node.shown).flatten.map splitLines).flatten = (ns.map Node.lines).flatten := by
  induction ns with
  | nil => rfl
  | cons x ns ih =>
    rw [List.map_cons, List.flatten_cons, List.map_append, List.flatten_append, ih]
    rfl

/-- What is written: the lines, without spaces at their ends. -/
theorem write_lines (o : Layout.Options Rat) (ho : Layout.Sane o) (ns : List Node) (hp : ns.all Node.plain = true)
    (hsize : total (ns.map Node.shown).flatten < 1000000000) (fuel : Nat) (hf : 4097 ≤ fuel) :
    write Layout.exact o fuel ns = some (.ok (textOf (ns.map Node.lines).flatten)) := by
  have h3 := (nodes_lines ns).addedStack
  have h4 := nodes_volume ns
  have h5 := Sem.volumes_added (ns.map Node.fmt)
  unfold write
  rw [if_pos hp]
  congr 1
  unfold fmtDocument
  split
  · next e =>
    rw [e] at h3
    have hnil : (ns.map Node.shown).flatten = [] := h3.solid.mp rfl
    rw [← lines_flat, hnil, Layout.toString_returns_partial o ho _ ?_ ?_ fuel hf]
    · simp [stack, Layout.picture, Layout.columnPicture, str, Layout.shownText, Sem.chars_str, Layout.aboveO, Layout.printed, joinLines,
        Layout.splitLines, textOf, stripEnd]
    · exact ⟨by decide, ⟨trivial, trivial⟩, by simp [str, Layout.picture]⟩
    · simp [stack, volume, volumes, Sem.volume_str]
  · rw [Layout.toString_returns_partial o ho _ h3.filled (by simp only [stack, volume]; omega) fuel hf, h3.shows, printed_split, lines_flat]

/-! ## The document which is written -/

theorem split_lines_of {ls : List Text} (h : ∀ l ∈ ls, '\n' ∉ l) : ((ls.intersperse "\n".toList).map splitLines).flatten = spread ls := by
  induction ls with
  | nil => rfl
  | cons l ls ih =>
    have ih := ih fun x hx => h x (List.mem_cons_of_mem _ hx)
    have hl := Sem.splitLines_line l (h l List.mem_cons_self)
    cases ls with
    | nil => simp [hl, spread]
    | cons l' ls =>
      rw [List.intersperse_cons_cons, List.map_cons, List.map_cons, List.flatten_cons, List.flatten_cons, ih, hl]
      rfl

/-- The lines between the first and the last. -/
def Block.inside (b : Block) : List Text :=
  match b.kind with
  | .sample => spread b.dedented
  | .foreign _ _ => if b.lines = [] then [[]] else b.lines

theorem canon_lines (b : Block) (k : Nat) : (b.canon k).lines = b.inside.map stripEnd := by
  unfold Block.canon Block.inside
  cases b.kind <;> rfl

theorem canon_first {b : Block} (k : Nat) : (b.canon k).first = match b.kind with
    | .sample => "#+begin_example".toList
    | .foreign _ e => "#+begin_export ".toList ++ e := by
  unfold Block.canon Block.first
  cases b.kind with
  | sample => rfl
  | foreign g e =>
    show blanks 0 ++ ("#+begin_".toList ++ "export".toList) ++ (blanks 1 ++ e) ++ blanks 0 = _
    simp [blanks]

theorem canon_last {b : Block} (k : Nat) : (b.canon k).last = match b.kind with
    | .sample => "#+end_example".toList
    | .foreign _ _ => "#+end_export".toList := by
  unfold Block.canon Block.last
  cases b.kind <;> rfl

theorem drop_mem {l : Text} {m : Nat} (h : '\n' ∉ l) : '\n' ∉ l.drop m := fun hx => h (List.drop_subset _ _ hx)

theorem strip_exporter {e : Text} (h : ArgText e) : stripEnd ("#+begin_export ".toList ++ e) = "#+begin_export ".toList ++ e := by
  refine Sem.stripEnd_id ?_
  have h2 : e.getLast? ≠ some ' ' := fun hx => (Code.argChar_spec (h.2 _ (List.mem_of_getLast? hx))).2.1 rfl
  obtain ⟨c, u, hu⟩ := List.exists_cons_of_ne_nil h.1
  rw [List.getLast?_append]
  cases hg : e.getLast? with
  | none => rw [List.getLast?_eq_none_iff] at hg; exact absurd hg h.1
  | some c => rw [hg] at h2; simpa using h2

theorem node_stripped {b : Block} (h : b.Valid) (k : Nat) : b.node.lines.map stripEnd = (b.canon k).first :: ((b.canon k).lines ++ [(b.canon k).last]) := by
  rw [canon_lines, canon_first, canon_last]
  unfold Block.node Node.lines Block.inside
  cases hk : b.kind with
  | sample =>
    have hd : ∀ l ∈ b.dedented, '\n' ∉ l := by
      intro l hl
      obtain ⟨t, ht, rfl⟩ := List.mem_map.mp hl
      exact drop_mem (h.lines t ht).1
    simp only [Node.shown, List.map_cons, List.map_append, List.flatten_cons, List.flatten_append, split_lines_of hd]
    rw [Sem.splitLines_line _ (by decide), Sem.splitLines_line _ (by decide)]
    simp only [List.map_nil, List.flatten_cons, List.flatten_nil, List.append_nil, List.singleton_append, List.map_cons, List.map_append]
    rw [Sem.stripEnd_id (by decide), Sem.stripEnd_id (by decide)]
  | foreign g e =>
    have he := h.exporter g e hk
    have hen : '\n' ∉ "#+begin_export ".toList ++ e := by
      rw [List.mem_append, not_or]
      exact ⟨by decide, fun hx => (Code.argChar_spec (he.2 _ hx)).2.2.1 rfl⟩
    have hs : splitLines (joinLines b.lines) = if b.lines = [] then [[]] else b.lines := by
      split_ifs with h0
      · rw [h0]; rfl
      · exact Sem.splitLines_join _ h0 fun l hl => (h.lines l hl).1
    simp only [Node.shown, List.map_cons, List.map_nil, List.flatten_cons, List.flatten_nil, List.append_nil, hs]
    rw [Sem.splitLines_line _ hen, Sem.splitLines_line _ (by decide)]
    simp only [List.singleton_append, List.map_cons, List.map_append, List.map_nil]
    rw [strip_exporter he, Sem.stripEnd_id (by decide)]

theorem canon_text {b : Block} (h : b.Valid) (k : Nat) : (b.canon k).text = joinLines (b.node.lines.map stripEnd) ++ List.replicate k '\n' := by
  rw [node_stripped h k, join_lines]
  have h5 : (b.canon k).after = k := by unfold Block.canon; cases b.kind <;> rfl
  unfold Block.text
  rw [h5]

theorem split_empty (n : Nat) : ((List.replicate n ([] : Text)).map splitLines).flatten = List.replicate n [] := by
  induction n with
  | zero => rfl
  | succ n ih =>
    rw [List.replicate_succ, List.map_cons, List.flatten_cons, ih]
    rfl

theorem block_lines (b : Block) : (b.nodes.map Node.lines).flatten = b.node.lines ++ List.replicate (b.after - 1) [] := by
  have h : ∀ n, (Node.newline (List.replicate n '\n')).lines = List.replicate (n - 1) [] := by
    intro n
    unfold Node.lines Node.shown
    rw [split_empty, List.length_replicate]
  have h' : Node.nothing.lines = [] := rfl
  unfold Block.nodes
  split_ifs with h1 h2 h2
  · simp [h2]
  · simp [h]
  · simp [h2, h']
  · simp [h, h']

theorem lines_ne {b : Block} : b.node.lines ≠ [] := by
  unfold Block.node Node.lines
  cases b.kind <;> simp [Node.shown, (split_join_all _).2.1]

theorem strip_empty (n : Nat) : (List.replicate n ([] : Text)).map stripEnd = List.replicate n [] := by simp [stripEnd]

theorem doc_text {d : List Block} (h : DocValid d) : textOf ((d.map Block.nodes).flatten.map Node.lines).flatten = render (canonDoc d) := by
  unfold textOf
  induction d with
  | nil => rfl
  | cons b d ih =>
    rw [List.map_cons, List.flatten_cons, List.map_append, List.flatten_append, block_lines, List.map_append, List.map_append, strip_empty]
    have hne : b.node.lines.map stripEnd ≠ [] := by simp [lines_ne]
    cases d with
    | nil =>
      simp only [List.map_nil, List.flatten_nil, List.append_nil]
      rw [join_breaks _ hne, ← canon_text h.1]
      simp [canonDoc, render]
    | cons c d =>
      have h1 := ih h.2.2
      rw [join_rest _ _ (by simp [lines_ne]) (by
        rw [List.map_cons, List.flatten_cons, List.map_append, List.flatten_append, block_lines]
        simp [lines_ne]), h1, join_breaks _ hne]
      have h2 : render (canonDoc (b :: c :: d)) = (b.canon b.after).text ++ render (canonDoc (c :: d)) := rfl
      rw [h2, canon_text h.1]
      obtain ⟨k, hk⟩ : ∃ k, b.after = k + 1 := ⟨b.after - 1, by have := h.2.1 (by simp); omega⟩
      rw [hk, Nat.add_sub_cancel, List.replicate_succ', List.append_assoc, List.append_assoc, List.append_assoc]
      rfl

/-! ## It can be read -/

theorem strip_prefix (l : Text) : ∃ n, l = stripEnd l ++ blanks n := by
  have : ∀ r : Text, ∃ n, r = List.replicate n ' ' ++ r.dropWhile (· == ' ') := by
    intro r
    induction r with
    | nil => exact ⟨0, rfl⟩
    | cons c r ih =>
      obtain ⟨n, hn⟩ := ih
      by_cases hc : c = ' '
      · subst hc
        refine ⟨n + 1, ?_⟩
        rw [List.dropWhile_cons_of_pos (by decide), List.replicate_succ, List.cons_append, ← hn]
      · exact ⟨0, by rw [List.dropWhile_cons_of_neg (by simpa using hc)]; rfl⟩
  obtain ⟨n, hn⟩ := this l.reverse
  refine ⟨n, ?_⟩
  have := congrArg List.reverse hn
  rw [List.reverse_reverse, List.reverse_append, List.reverse_replicate] at this
  exact this

theorem ends_strip {w l : Text} (h : Ends w (stripEnd l)) : Ends w l := by
  obtain ⟨m, hm⟩ := strip_prefix l
  obtain ⟨n, u, v, h1, h2⟩ := h
  refine ⟨n, u, v ++ blanks m, ?_, h2⟩
  rw [hm, h1]
  simp

theorem ends_blank {w t : Text} {m : Nat} (hm : m ≤ leading t) (h : Ends w (t.drop m)) : Ends w t := by
  obtain ⟨n, u, v, h1, h2⟩ := h
  refine ⟨m + n, u, v, ?_, h2⟩
  have h3 : ∀ (t : Text) (m : Nat), m ≤ leading t → t.take m = List.replicate m ' ' := by
    intro t
    induction t with
    | nil => intro m hm; have : m = 0 := by simpa [leading] using hm
             subst this; rfl
    | cons c t ih =>
      intro m hm
      cases m with
      | zero => rfl
      | succ m =>
        by_cases hc : c = ' '
        · subst hc
          rw [List.take_succ_cons, ih m (by simp [leading] at hm ⊢; omega), List.replicate_succ]
        · simp [leading, hc] at hm
  have := (List.take_append_drop m t).symm
  rw [h3 t m hm, h1] at this
  unfold blanks at this ⊢
  rw [this, ← List.append_assoc, ← List.append_assoc, List.replicate_append_replicate]

theorem ends_nil (w : Text) : ¬ Ends w [] := by
  rintro ⟨n, u, v, h1, h2⟩
  have : u = [] := by
    have := congrArg List.length h1
    simp only [List.length_nil, List.length_append] at this
    exact List.length_eq_zero_iff.mp (by omega)
  subst this
  unfold sameText at h2
  rcases h2 with h2 | h2 <;> simp at h2

theorem strip_mem {l : Text} {c : Char} (h : c ∈ stripEnd l) : c ∈ l := by
  obtain ⟨m, hm⟩ := strip_prefix l
  rw [hm]
  exact List.mem_append_left _ h

theorem spread_mem {ls : List Text} {l : Text} (h : l ∈ spread ls) : l = [] ∨ l ∈ ls := by
  induction ls with
  | nil => cases h
  | cons x ls ih =>
    cases ls with
    | nil => exact .inr h
    | cons y ls =>
      rw [spread] at h
      rcases List.mem_cons.mp h with rfl | h
      · exact .inr List.mem_cons_self
      rcases List.mem_cons.mp h with rfl | h
      · exact .inl rfl
      rcases List.mem_cons.mp h with rfl | h
      · exact .inl rfl
      rcases ih h with h | h
      · exact .inl h
      · exact .inr (List.mem_cons_of_mem _ h)

theorem spread_nil {ls : List Text} : spread ls = [] ↔ ls = [] := by
  cases ls with
  | nil => simp [spread]
  | cons x ls => cases ls <;> simp [spread]

theorem inside_mem {b : Block} (h : b.Valid) : ∀ l ∈ b.inside, '\n' ∉ l ∧ ¬ Ends b.kind.word l := by
  unfold Block.inside
  have hnil : ∀ l : Text, l = [] → '\n' ∉ l ∧ ¬ Ends b.kind.word l := by
    rintro l rfl
    exact ⟨by simp, ends_nil _⟩
  cases hk : b.kind with
  | sample =>
    intro l hl
    rw [← hk]
    rcases spread_mem hl with rfl | hl
    · exact hnil _ rfl
    · obtain ⟨t, ht, rfl⟩ := List.mem_map.mp hl
      obtain ⟨h1, h2⟩ := h.lines t ht
      refine ⟨drop_mem h1, ?_⟩
      by_cases h0 : t = []
      · subst h0
        rw [List.drop_nil]
        exact ends_nil _
      · exact fun hx => h2 (ends_blank (shared_line ht h0) hx)
  | foreign g e =>
    intro l hl
    rw [← hk]
    dsimp only at hl
    split_ifs at hl with h0
    · exact hnil l (List.mem_singleton.mp hl)
    · exact h.lines l hl

theorem canon_word (b : Block) (k : Nat) : (b.canon k).kind.word = b.kind.word := by
  unfold Block.canon
  cases b.kind <;> rfl

theorem canon_valid {b : Block} (h : b.Valid) (k : Nat) : (b.canon k).Valid where
  exporter := by
    intro g e hg
    unfold Block.canon at hg
    cases hk : b.kind with
    | sample => rw [hk] at hg; cases hg
    | foreign g' e' =>
      rw [hk] at hg
      cases hg
      exact h.exporter g' _ hk
  lines := by
    intro l hl
    rw [canon_lines] at hl
    obtain ⟨t, ht, rfl⟩ := List.mem_map.mp hl
    obtain ⟨h1, h2⟩ := inside_mem h t ht
    rw [canon_word]
    exact ⟨fun hx => h1 (strip_mem hx), fun hx => h2 (ends_strip hx)⟩
  filled := by
    intro hk
    rw [canon_lines]
    unfold Block.canon at hk
    unfold Block.inside
    cases hb : b.kind with
    | sample =>
      have := h.filled hb
      simp [spread_nil, Block.dedented, this]
    | foreign g e => rw [hb] at hk; cases hk

theorem doc_valid {d : List Block} (h : DocValid d) : DocValid (canonDoc d) := by
  induction d with
  | nil => trivial
  | cons b d ih =>
    cases d with
    | nil => exact ⟨canon_valid h.1 _, fun hx => absurd rfl hx, trivial⟩
    | cons c d =>
      refine ⟨canon_valid h.1 _, fun _ => ?_, ih h.2.2⟩
      have := h.2.1 (by simp)
      unfold Block.canon
      cases b.kind <;> exact this

/-! ## What is read again -/

theorem blocks_nodes (b : Block) : blocks b.nodes = [b.node] := by
  unfold Block.nodes blocks Block.node
  cases b.kind <;> split_ifs <;> simp

theorem blocks_append (a b : List Node) : blocks (a ++ b) = blocks a ++ blocks b := List.filter_append ..

theorem blocks_doc (d : List Block) : blocks (d.map Block.nodes).flatten = d.map Block.node := by
  induction d with
  | nil => rfl
  | cons b d ih => rw [List.map_cons, List.flatten_cons, blocks_append, blocks_nodes, ih]; rfl

theorem canon_after (b : Block) (k m : Nat) : (b.canon k).node = (b.canon m).node := by
  unfold Block.canon Block.node
  cases b.kind <;> rfl

theorem canonDoc_map (d : List Block) : (canonDoc d).map Block.node = d.map fun b => (b.canon 0).node := by
  induction d with
  | nil => rfl
  | cons b d ih =>
    cases d with
    | nil => simp [canonDoc, canon_after b _ 0]
    | cons c d =>
      have e : canonDoc (b :: c :: d) = b.canon b.after :: canonDoc (c :: d) := rfl
      rw [e, List.map_cons, ih, canon_after b _ 0]
      rfl

/-- The node which is read again. -/
theorem canon_node (b : Block) (k : Nat) : (b.canon k).node = match b.kind with
    | .sample => .sample (((spread b.dedented).map stripEnd).intersperse "\n".toList)
    | .foreign _ e => .foreign ⟨e, [], joinLines (b.lines.map stripEnd)⟩ := by
  unfold Block.node
  cases hk : b.kind with
  | sample =>
    have h1 : (b.canon k).kind = .sample := by unfold Block.canon; rw [hk]
    have h2 : (b.canon k).indent = 0 := by unfold Block.canon; rw [hk]
    rw [h1]
    show Node.sample _ = Node.sample _
    congr 2
    have hz : shared (b.canon k).indent (b.canon k).lines = 0 := by rw [h2]; exact Nat.eq_zero_of_le_zero (shared_le _ _)
    unfold Block.dedented at hz ⊢
    rw [hz, canon_lines]
    unfold Block.inside
    rw [hk]
    simp [Block.dedented]
  | foreign g e =>
    have h1 : (b.canon k).kind = .foreign 0 e := by unfold Block.canon; rw [hk]
    rw [h1]
    show Node.foreign _ = Node.foreign _
    congr 2
    rw [canon_lines]
    unfold Block.inside
    rw [hk]
    dsimp only
    split_ifs with h0
    · rw [h0]; rfl
    · rfl

end Verif.Raw
