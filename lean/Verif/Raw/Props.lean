import Verif.Raw.Again
import Verif.Code.Props

/-!
# Theorems about example and export blocks
-/

namespace Verif.Raw
open Verif.Stamp (Out)
open Verif.Drawer (Text)
open Verif.Code (blanks ArgText total total_append sameText)
open Verif.Layout (joinLines stripEnd)

/-! ## C136 -/

/-- Every block with a word for its exporter and lines which do not end it is read, whatever is in the lines. -/
def ReadStatement : Prop :=
  ∀ b : Block, (∀ g e, b.kind = .foreign g e → ArgText e) → (∀ l ∈ b.lines, '\n' ∉ l ∧ ¬ Ends b.kind.word l) →
    ∀ n, 2 * b.text.length + 5 ≤ n → readRaw n b.text = .ok (.ok b.nodes)

/-- C136, when no example is empty: the blocks of a document are read as they are written; nothing in the lines of an
export block is changed, and the lines of an example lose only the indentation shared by the block and all of them. -/
theorem raw_read_partial {d : List Block} (h : DocValid d) {n : Nat} (hn : 2 * (render d).length + 5 ≤ n) :
    readRaw n (render d) = .ok (.ok (d.map Block.nodes).flatten) :=
  read_doc h (Nat.le_trans (Nat.add_le_add_right (doc_le h) 5) hn)

/-- An example without lines ends the reading of the document with an exception. -/
theorem raw_read_false : ¬ ReadStatement := by
  intro h
  have h1 := h ⟨.sample, false, 0, 0, [], 0, 0⟩ nofun (by simp) 100 (by decide +kernel)
  have e : readRaw 100 (Block.text ⟨.sample, false, 0, 0, [], 0, 0⟩) = .ok .throws := by decide +kernel
  rw [e] at h1
  cases h1

/-- An export block without an exporter ends the parsing of the document. -/
theorem bare_export_fatal : readRaw 100 "#+begin_export\na\n#+end_export".toList = .error (.parser .fatal) := by decide +kernel

/-- Arguments of an example are not kept. -/
theorem sample_args_lost : readRaw 100 "#+begin_example -n\na\n#+end_example".toList = .ok (.ok [.sample ["a".toList]]) := by decide +kernel

theorem not_ends {w t : Text} (h : (t.dropWhile (· = ' ')).head? ≠ some '#') : ¬ Ends w t := by
  rintro ⟨n, u, v, rfl, hu⟩
  have h1 : (blanks n ++ u ++ v).dropWhile (· = ' ') = (u ++ v).dropWhile (· = ' ') := by
    rw [List.append_assoc]
    exact List.dropWhile_append_of_pos (by simp +contextual [blanks, List.mem_replicate])
  rw [h1] at h
  obtain ⟨c, u', rfl, hc⟩ : ∃ c u', u = c :: u' ∧ BaseLexer.toLower c = '#' := by
    unfold sameText at hu
    cases u with
    | nil => rcases hu with hu | hu <;> cases hu
    | cons c u' =>
      refine ⟨c, u', rfl, ?_⟩
      rcases hu with hu | hu
      · exact (List.cons.injEq _ _ _ _ ▸ hu : _ ∧ _).1
      · exact (List.cons.injEq _ _ _ _ ▸ hu : _ ∧ _).1
  have : c = '#' := by
    by_contra hne
    unfold BaseLexer.toLower at hc
    split_ifs at hc with hu
    · unfold BaseLexer.isUpper at hu
      simp only [Bool.and_eq_true, decide_eq_true_eq] at hu
      have h1 : 65 ≤ c.toNat := hu.1
      have h2 : c.toNat ≤ 90 := hu.2
      have h3 : (Char.ofNat (c.toNat + 32)).toNat = c.toNat + 32 := by
        rw [Char.ofNat, dif_pos (by left; omega)]
        rfl
      rw [hc] at h3
      have h5 : '#'.toNat = 35 := rfl
      omega
    · exact hne hc
  subst this
  simp at h

/-- ```
  #+BEGIN_EXAMPLE
    * not a heading

   @not_a_tag [[
  #+END_EXAMPLE

#+begin_export  latex
 \frac{a}{b} #+end_export

#+end_export
```; the line before the last are two spaces. -/
def sample : List Block :=
  [⟨.sample, true, 2, 0, ["    * not a heading".toList, [], "   @not_a_tag [[".toList], 2, 2⟩,
    ⟨.foreign 1 "latex".toList, false, 0, 1, [" \\frac{a}{b} #+end_export".toList, "  ".toList], 0, 0⟩]

theorem sample_valid : DocValid sample := by
  refine ⟨⟨nofun, ?_, by decide⟩, fun _ => by decide, ⟨?_, ?_, nofun⟩, fun h => absurd rfl h, trivial⟩
  · intro l hl
    simp only [List.mem_cons, List.not_mem_nil, or_false] at hl
    rcases hl with rfl | rfl | rfl <;> exact ⟨by decide, not_ends (by decide)⟩
  · intro g e h
    cases h
    exact ⟨by decide, by decide⟩
  · intro l hl
    simp only [List.mem_cons, List.not_mem_nil, or_false] at hl
    rcases hl with rfl | rfl <;> exact ⟨by decide, not_ends (by decide)⟩

example : DocValid sample ∧ readRaw 400 (render sample) = .ok (.ok [.nothing,
    .sample ["  * not a heading".toList, "\n".toList, [], "\n".toList, " @not_a_tag [[".toList], .newline "\n\n".toList,
    .foreign ⟨"latex".toList, [], " \\frac{a}{b} #+end_export\n  ".toList⟩]) :=
  ⟨sample_valid, (raw_read_partial sample_valid (by decide +kernel)).trans (by decide +kernel)⟩

/-! ## What is written -/

theorem nodes_plain (d : List Block) : (d.map Block.nodes).flatten.all Node.plain = true := by
  rw [List.all_eq_true]
  intro x hx
  obtain ⟨l, hl, hx⟩ := List.mem_flatten.mp hx
  obtain ⟨b, -, rfl⟩ := List.mem_map.mp hl
  have : b.node.plain = true := by unfold Block.node; cases b.kind <;> rfl
  unfold Block.nodes at hx
  split_ifs at hx <;> simp at hx
  · exact hx ▸ this
  · rcases hx with rfl | rfl
    · exact this
    · rfl
  · rcases hx with rfl | rfl
    · rfl
    · exact this
  · rcases hx with rfl | rfl | rfl
    · rfl
    · exact this
    · rfl

theorem join_length (ls : List Text) : (joinLines ls).length ≤ ((ls.map fun l => l ++ "\n".toList).flatten).length := by
  induction ls with
  | nil => exact Nat.le_refl _
  | cons l ls ih =>
    cases ls with
    | nil => simp [joinLines]
    | cons l' ls =>
      rw [Layout.joinLines_cons _ _ (by simp), List.map_cons, List.flatten_cons]
      simp only [List.length_append, List.length_cons] at ih ⊢
      have : "\n".toList.length = 1 := rfl
      omega

theorem sep_total (ls : List Text) : total (ls.intersperse "\n".toList) ≤ ((ls.map fun l => l ++ "\n".toList).flatten).length := by
  induction ls with
  | nil => exact Nat.le_refl _
  | cons l ls ih =>
    cases ls with
    | nil => simp [total]
    | cons l' ls =>
      rw [List.intersperse_cons_cons, List.map_cons, List.flatten_cons]
      have e : total (l :: "\n".toList :: (l' :: ls).intersperse "\n".toList) = l.length + (1 + total ((l' :: ls).intersperse "\n".toList)) := by simp [total]
      rw [e, List.length_append, List.length_append]
      have : "\n".toList.length = 1 := rfl
      omega

theorem drop_total (m : Nat) (ls : List Text) : (((ls.map (·.drop m)).map fun l => l ++ "\n".toList).flatten).length ≤ ((ls.map fun l => l ++ "\n".toList).flatten).length := by
  induction ls with
  | nil => exact Nat.le_refl _
  | cons l ls ih =>
    simp only [List.map_cons, List.flatten_cons, List.length_append, List.length_drop] at ih ⊢
    omega

theorem shown_total (b : Block) : total b.node.shown ≤ b.text.length := by
  have hw : b.text.length = b.first.length + 1 + ((b.lines.map fun l => l ++ "\n".toList).flatten).length + b.last.length + b.after := by
    unfold Block.text
    simp only [List.length_append, List.length_replicate]
    rfl
  rw [hw]
  unfold Block.node
  cases hk : b.kind with
  | sample =>
    have h1 : 15 ≤ b.first.length := by
      unfold Block.first
      rw [hk]
      cases b.upper <;> simp [Kind.capital, Kind.word, Kind.tail] <;> omega
    have h2 : 13 ≤ b.last.length := by
      unfold Block.last
      rw [hk]
      cases b.upper <;> simp [Kind.capital, Kind.word]
    have h4 := sep_total b.dedented
    have h5 := drop_total (Code.shared b.indent b.lines) b.lines
    have e : total (Node.sample (b.dedented.intersperse "\n".toList)).shown = 15 + (total (b.dedented.intersperse "\n".toList) + 13) := by
      simp [Node.shown, total]
    rw [e]
    unfold Block.dedented at h4 ⊢
    omega
  | foreign g x =>
    have h1 : 15 + x.length ≤ b.first.length := by
      unfold Block.first
      rw [hk]
      cases b.upper <;> simp [Kind.capital, Kind.word, Kind.tail, blanks] <;> omega
    have h2 : 12 ≤ b.last.length := by
      unfold Block.last
      rw [hk]
      cases b.upper <;> simp [Kind.capital, Kind.word]
    have h4 := join_length b.lines
    have e : total (Node.foreign ⟨x, [], joinLines b.lines⟩).shown = 15 + x.length + ((joinLines b.lines).length + 12) := by
      simp [Node.shown, total]
      omega
    rw [e]
    omega

theorem block_total (b : Block) : total (b.nodes.map Node.shown).flatten ≤ b.text.length := by
  have h1 := shown_total b
  have h2 : ∀ n, total (Node.newline (List.replicate n '\n')).shown = 0 := by simp [total, Node.shown]
  have h3 : total Node.nothing.shown = 0 := rfl
  unfold Block.nodes
  split_ifs <;> simp [total_append, h2, h3, h1]

theorem doc_total (d : List Block) : total ((d.map Block.nodes).flatten.map Node.shown).flatten ≤ (render d).length := by
  induction d with
  | nil => exact Nat.le_refl _
  | cons b d ih =>
    rw [List.map_cons, List.flatten_cons, List.map_append, List.flatten_append, total_append]
    have h1 := block_total b
    have e : render (b :: d) = b.text ++ render d := rfl
    rw [e, List.length_append]
    omega

/-- What is written for a document: its blocks in lower case, without indentation and without spaces at the ends of lines. -/
theorem raw_written {d : List Block} (h : DocValid d) (hsize : (render d).length < 1000000000) (o : Layout.Options Rat) (ho : Layout.Sane o) {fuel : Nat} (hf : 4097 ≤ fuel) :
    write Layout.exact o fuel (d.map Block.nodes).flatten = some (.ok (render (canonDoc d))) := by
  rw [write_lines o ho _ (nodes_plain d) (Nat.lt_of_le_of_lt (doc_total d) hsize) fuel hf, doc_text h]

/-- The text is read, with the nodes `ns`, however much the parser may look ahead. -/
def Reads (text : Text) (ns : List Node) : Prop := ∀ n, 2 * text.length + 5 ≤ n → readRaw n text = .ok (.ok ns)

/-- The nodes are written as `text`, with any options. -/
def Writes (ns : List Node) (text : Text) : Prop := ∀ o, Layout.Sane o → ∀ fuel, 4097 ≤ fuel → write Layout.exact o fuel ns = some (.ok text)

theorem Reads.only {text : Text} {a b : List Node} (h : Reads text a) (h' : Reads text b) : a = b := by
  have h1 := h _ (Nat.le_refl _)
  rw [h' _ (Nat.le_refl _)] at h1
  injection h1 with h1
  injection h1 with h1
  exact h1.symm

theorem Writes.only {ns : List Node} {a b : Text} (h : Writes ns a) (h' : Writes ns b) : a = b := by
  have h1 := h _ Sem.sane_defaults 4097 (Nat.le_refl _)
  rw [h' _ Sem.sane_defaults 4097 (Nat.le_refl _)] at h1
  injection h1 with h1
  injection h1 with h1
  exact h1.symm

theorem raw_reads {d : List Block} (h : DocValid d) : Reads (render d) (d.map Block.nodes).flatten := fun _ hn => raw_read_partial h hn

/-- After saving, the same number of blocks is read, each as `canon` describes. -/
theorem raw_again {d : List Block} (h : DocValid d) (hsize : (render d).length < 1000000000) {ns : List Node} (hr : Reads (render d) ns) :
    ∃ text, Writes ns text ∧ ∃ ns', Reads text ns' ∧ blocks ns' = d.map fun b => match b.kind with
      | .sample => .sample (((spread b.dedented).map stripEnd).intersperse "\n".toList)
      | .foreign _ e => .foreign ⟨e, [], joinLines (b.lines.map stripEnd)⟩ := by
  cases hr.only (raw_reads h)
  refine ⟨_, fun o ho fuel hf => raw_written h hsize o ho hf, _, raw_reads (doc_valid h), ?_⟩
  rw [blocks_doc, canonDoc_map]
  exact List.map_congr_left fun b _ => canon_node b 0

/-! ## C137 -/

/-- The export blocks of a document are kept when it is saved and read again. -/
def ExportStatement : Prop :=
  ∀ d, DocValid d → (∀ b ∈ d, b.isExport = true) → (render d).length < 1000000000 → ∀ ns, Reads (render d) ns →
    ∃ text, Writes ns text ∧ ∃ ns', Reads text ns' ∧ blocks ns' = blocks ns

/-- C137, for blocks with no spaces at the ends of their lines. -/
theorem export_again_partial {d : List Block} (h : DocValid d) (he : ∀ b ∈ d, b.isExport = true) (ht : ∀ b ∈ d, b.Tidy) (hsize : (render d).length < 1000000000)
    {ns : List Node} (hr : Reads (render d) ns) : ∃ text, Writes ns text ∧ ∃ ns', Reads text ns' ∧ blocks ns' = blocks ns := by
  obtain ⟨text, h1, ns', h2, h3⟩ := raw_again h hsize hr
  refine ⟨text, h1, ns', h2, ?_⟩
  cases hr.only (raw_reads h)
  rw [h3, blocks_doc]
  refine List.map_congr_left fun b hb => ?_
  have hx := he b hb
  unfold Block.node
  cases hk : b.kind with
  | sample => simp [Block.isExport, hk] at hx
  | foreign g e =>
    dsimp only
    rw [(List.map_congr_left fun l hl => Sem.stripEnd_id (ht b hb l hl)).trans (List.map_id' b.lines)]

/-- `a` with a space after it. -/
def trailing : List Block := [⟨.foreign 0 "html".toList, false, 0, 0, ["a ".toList], 0, 0⟩]

theorem trailing_valid : DocValid trailing :=
  ⟨⟨fun g e h => by cases h; exact ⟨by decide, by decide⟩, fun l hl => by
    rw [List.mem_singleton.mp hl]
    exact ⟨by decide, not_ends (by decide)⟩, nofun⟩, fun h => absurd rfl h, trivial⟩

/-- Spaces at the ends of the lines of an export block are lost. -/
theorem export_again_false : ¬ ExportStatement := by
  intro h
  have hr := raw_reads trailing_valid
  obtain ⟨text, h1, ns', h2, h3⟩ := h trailing trailing_valid (by decide) (by decide +kernel) _ hr
  obtain ⟨text', k1, ns'', k2, k3⟩ := raw_again trailing_valid (by decide +kernel) hr
  cases h1.only k1
  cases h2.only k2
  rw [h3] at k3
  revert k3
  decide +kernel

/-- ```
 #+begin_export html
   <b>

 </b>
#+end_export
#+begin_export latex
#+end_export
``` -/
def sample2 : List Block :=
  [⟨.foreign 0 "html".toList, false, 1, 0, ["  <b>".toList, [], "</b>".toList], 0, 1⟩, ⟨.foreign 0 "latex".toList, true, 0, 0, [], 0, 1⟩]

theorem sample2_valid : DocValid sample2 := by
  refine ⟨⟨?_, ?_, nofun⟩, fun _ => by decide, ⟨?_, by simp, nofun⟩, fun h => absurd rfl h, trivial⟩
  · intro g e h; cases h; exact ⟨by decide, by decide⟩
  · intro l hl
    simp only [List.mem_cons, List.not_mem_nil, or_false] at hl
    rcases hl with rfl | rfl | rfl <;> exact ⟨by decide, not_ends (by decide)⟩
  · intro g e h; cases h; exact ⟨by decide, by decide⟩

example : DocValid sample2 ∧ (∀ b ∈ sample2, b.isExport = true) ∧ (∀ b ∈ sample2, b.Tidy) ∧
    render (canonDoc sample2) = "#+begin_export html\n  <b>\n\n</b>\n#+end_export\n#+begin_export latex\n\n#+end_export".toList :=
  ⟨sample2_valid, by decide, by unfold Block.Tidy; decide +kernel, by decide +kernel⟩

/-! ## C138 -/

/-- The examples of a document are kept when it is saved and read again. -/
def SampleStatement : Prop :=
  ∀ d, DocValid d → (∀ b ∈ d, b.isExport = false) → (∀ b ∈ d, b.Tidy) → (render d).length < 1000000000 → ∀ ns, Reads (render d) ns →
    ∃ text, Writes ns text ∧ ∃ ns', Reads text ns' ∧ blocks ns' = blocks ns

/-- C138, for examples with one line. -/
theorem sample_again_partial {d : List Block} (h : DocValid d) (he : ∀ b ∈ d, b.isExport = false ∧ b.lines.length = 1) (ht : ∀ b ∈ d, b.Tidy)
    (hsize : (render d).length < 1000000000) {ns : List Node} (hr : Reads (render d) ns) :
    ∃ text, Writes ns text ∧ ∃ ns', Reads text ns' ∧ blocks ns' = blocks ns := by
  obtain ⟨text, h1, ns', h2, h3⟩ := raw_again h hsize hr
  refine ⟨text, h1, ns', h2, ?_⟩
  cases hr.only (raw_reads h)
  rw [h3, blocks_doc]
  refine List.map_congr_left fun b hb => ?_
  obtain ⟨hx, hl⟩ := he b hb
  obtain ⟨l, hl⟩ := List.length_eq_one_iff.mp hl
  unfold Block.node
  cases hk : b.kind with
  | foreign g e => simp [Block.isExport, hk] at hx
  | sample =>
    dsimp only
    have hd : b.dedented = [l.drop (Code.shared b.indent [l])] := by simp [Block.dedented, hl]
    have hs : stripEnd (l.drop (Code.shared b.indent [l])) = l.drop (Code.shared b.indent [l]) := by
      refine Sem.stripEnd_id ?_
      rw [List.getLast?_drop]
      split_ifs
      · simp
      · exact ht b hb l (by simp [hl])
    rw [hd]
    simp [spread, hs]

/-- Two lines. -/
def two : List Block := [⟨.sample, false, 0, 0, ["a".toList, "b".toList], 0, 0⟩]

theorem two_valid : DocValid two :=
  ⟨⟨nofun, fun l hl => by
    simp only [List.mem_cons, List.not_mem_nil, or_false] at hl
    rcases hl with rfl | rfl <;> exact ⟨by decide, not_ends (by decide)⟩, by decide⟩, fun h => absurd rfl h, trivial⟩

/-- Examples get more lines when they are saved. -/
theorem sample_again_false : ¬ SampleStatement := by
  intro h
  have hr := raw_reads two_valid
  obtain ⟨text, h1, ns', h2, h3⟩ := h two two_valid (by decide) (by unfold Block.Tidy; decide +kernel) (by decide +kernel) _ hr
  obtain ⟨text', k1, ns'', k2, k3⟩ := raw_again two_valid (by decide +kernel) hr
  cases h1.only k1
  cases h2.only k2
  rw [h3] at k3
  revert k3
  decide +kernel

/-- The document is read and saved. -/
def Saved (text text' : Text) : Prop := ∃ ns, Reads text ns ∧ Writes ns text'

theorem saved_canon {d : List Block} (h : DocValid d) (hsize : (render d).length < 1000000000) {text : Text} (hs : Saved (render d) text) : text = render (canonDoc d) := by
  obtain ⟨ns, h1, h2⟩ := hs
  cases h1.only (raw_reads h)
  exact h2.only fun o ho fuel hf => raw_written h hsize o ho hf

theorem spread_length (l : Text) (ls : List Text) : (spread (l :: ls)).length = 3 * ls.length + 1 := by
  induction ls generalizing l with
  | nil => rfl
  | cons m ls ih =>
    rw [spread]
    simp only [List.length_cons, ih]
    omega

theorem sep_filter {ls : List Text} (h : ∀ l ∈ ls, '\n' ∉ l) : (ls.intersperse "\n".toList).filter (· ≠ "\n".toList) = ls := by
  induction ls with
  | nil => rfl
  | cons l ls ih =>
    have ih := ih fun x hx => h x (List.mem_cons_of_mem _ hx)
    have hl : l ≠ "\n".toList := by
      rintro rfl
      exact h _ List.mem_cons_self (by simp)
    cases ls with
    | nil => exact List.filter_cons_of_pos (by simpa using hl)
    | cons m ls =>
      rw [List.intersperse_cons_cons, List.filter_cons_of_pos (by simpa using hl), List.filter_cons_of_neg (by simp), ih]

theorem canon_sample {b : Block} (hk : b.kind = .sample) (k : Nat) : (b.canon k).kind = .sample ∧ (b.canon k).lines = (spread b.dedented).map stripEnd := by
  unfold Block.canon
  rw [hk]
  exact ⟨rfl, rfl⟩

/-- An example of `k + 1` lines has `3 ^ n * k + 1` lines after it was saved `n` times. -/
theorem sample_grows {b : Block} (h : b.Valid) (hk : b.kind = .sample) {k : Nat} (hl : b.lines.length = k + 1) {n : Nat} {t : Nat → Text} (h0 : t 0 = b.text)
    (hs : ∀ i < n, Saved (t i) (t (i + 1)) ∧ (t i).length < 1000000000) :
    ∃ ns ts, Reads (t n) ns ∧ blocks ns = [.sample ts] ∧ (ts.filter (· ≠ "\n".toList)).length = 3 ^ n * k + 1 := by
  have key : ∃ c : Block, c.Valid ∧ c.kind = .sample ∧ c.lines.length = 3 ^ n * k + 1 ∧ t n = render [c] := by
    induction n with
    | zero => exact ⟨b, h, hk, by simp [hl], by simp [h0, render]⟩
    | succ n ih =>
      obtain ⟨c, h1, h2, h3, h4⟩ := ih fun i hi => hs i (by omega)
      obtain ⟨h5, h6⟩ := hs n (by omega)
      rw [h4] at h5 h6
      have h7 := saved_canon (d := [c]) ⟨h1, fun h => absurd rfl h, trivial⟩ h6 h5
      obtain ⟨k1, k2⟩ := canon_sample h2 (c.after - 1)
      refine ⟨c.canon (c.after - 1), canon_valid h1 _, k1, ?_, h7⟩
      rw [k2, List.length_map]
      have hd : c.dedented.length = 3 ^ n * k + 1 := by simp [Block.dedented, h3]
      obtain ⟨x, xs, hx⟩ := List.exists_cons_of_length_eq_add_one hd
      rw [hx] at hd ⊢
      rw [spread_length]
      simp only [List.length_cons] at hd
      have : xs.length = 3 ^ n * k := by omega
      rw [this, Nat.pow_succ]
      ring_nf
  obtain ⟨c, h1, h2, h3, h4⟩ := key
  refine ⟨_, c.dedented.intersperse "\n".toList, h4 ▸ raw_reads (d := [c]) ⟨h1, fun h => absurd rfl h, trivial⟩, ?_, ?_⟩
  · rw [blocks_doc]
    simp [Block.node, h2]
  · rw [sep_filter]
    · simp [Block.dedented, h3]
    · intro l hl
      obtain ⟨x, hx, rfl⟩ := List.mem_map.mp hl
      exact drop_mem (h1.lines x hx).1

/-- Two lines become four. -/
example : Saved (render two) "#+begin_example\na\n\n\nb\n#+end_example".toList := by
  refine ⟨_, raw_reads two_valid, fun o ho fuel hf => ?_⟩
  rw [raw_written two_valid (by decide +kernel) o ho hf]
  congr 2

end Verif.Raw
