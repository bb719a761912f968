import Verif.Grid.Convert
import Verif.Raw.Again

/-!
# The text of tables is read again
-/

namespace Verif.Grid
open Verif.Token
open Verif.Pipeline (Piece)
open Verif.Stamp (Raw gapRaw)
open Verif.Drawer (Text)
open Verif.Link (Item LinkedFrom Linked Part Apart RowFrom DescValid leaf rowText showLeaves showLink showTarget Target Leaf render docRaw)
open Verif.Sem (Single Singles ShowsLines AllLines str stack added lineOf box textOf)
open Verif.Layout (joinLines splitLines stripEnd volume volumes)
open Verif.Code (total total_append join_rest join_breaks)

/-! ## The number of tokens -/

theorem gap_le (n : Nat) : (gapRaw n).length ≤ n := by
  unfold gapRaw
  split_ifs with h
  · simp
  · simp only [List.length_singleton]
    omega

theorem raw_append (is js : List Item) : docRaw (is ++ js) = docRaw is ++ docRaw js := by
  unfold docRaw
  rw [List.map_append, List.flatten_append]

theorem render_append (is js : List Item) : render (is ++ js) = render is ++ render js := by
  unfold render
  rw [List.map_append, List.flatten_append]

theorem cell_le {c : Cell} (h : c.Valid) : c.raw.length ≤ c.text.length := by
  have h1 := gap_le c.before
  have h2 := Link.items_le h.from_
  rw [raw_append, render_append, List.length_append, List.length_append] at h2
  unfold Cell.raw Cell.text blanks
  simp only [List.length_append, List.length_replicate]
  cases ha : c.after with
  | zero =>
    rw [ha] at h2
    have e1 : (docRaw [tail 0]).length = 1 := rfl
    have e2 : (render [tail 0]).length = 1 := rfl
    have e3 : (gapRaw 0).length = 0 := rfl
    omega
  | succ n =>
    rw [ha] at h2
    have e1 : (docRaw [tail (n + 1)]).length = 1 := rfl
    have e2 : (render [tail (n + 1)]).length = n + 1 := by simp [render, tail, Item.text, Pipeline.Piece.text]
    have e3 : (gapRaw (n + 1)).length = 1 := rfl
    omega

theorem cells_le {cs : List Cell} (h : ∀ c ∈ cs, c.Valid) : (cellsRaw cs).length ≤ ((cs.map fun c => c.text ++ ['|']).flatten).length := by
  induction cs with
  | nil => exact Nat.le_refl _
  | cons c r ih =>
    have h1 := cell_le (h c List.mem_cons_self)
    have h2 := ih fun x hx => h x (List.mem_cons_of_mem _ hx)
    rw [List.map_cons, List.flatten_cons, List.length_append, List.length_append, List.length_singleton]
    cases r with
    | nil =>
      show (c.raw ++ [_]).length ≤ _
      rw [List.length_append, List.length_singleton]
      simp only [List.map_nil, List.flatten_nil, List.length_nil]
      omega
    | cons d r =>
      show (c.raw ++ (_ :: cellsRaw (d :: r))).length ≤ _
      rw [List.length_append, List.length_cons]
      omega

theorem line_le {l : Line} (h : l.Valid) : l.raw.length ≤ l.text.length := by
  cases l with
  | row n cs =>
    have := cells_le h.2.1
    show (_ :: cellsRaw cs).length ≤ (blanks n ++ '|' :: _).length
    rw [List.length_append, List.length_cons, List.length_cons]
    omega
  | rule n ms =>
    show 1 ≤ ('|' :: dashes n ++ _).length
    rw [List.length_append, List.length_cons]
    omega

theorem breaks_length (n : Nat) : (breaks n).length = n + 1 := List.length_replicate

theorem lines_le {ls : List (Line × Nat)} (h : ∀ l ∈ ls, l.1.Valid) : (linesRaw ls).length ≤ (Chunk.text (.table ls)).length := by
  induction ls with
  | nil => exact Nat.le_refl _
  | cons l ls ih =>
    have h1 := line_le (h l List.mem_cons_self)
    have h2 := ih fun x hx => h x (List.mem_cons_of_mem _ hx)
    have h3 : Chunk.text (.table (l :: ls)) = (l.1.text ++ breaks l.2) ++ Chunk.text (.table ls) := rfl
    rw [lines_cons, h3, List.length_append, List.length_cons, List.length_append, List.length_append, breaks_length]
    omega

theorem chunk_le {c : Chunk} (h : c.Valid) : c.raw.length ≤ c.text.length := by
  cases c with
  | table ls => exact lines_le h.1
  | para is n =>
    have h2 := Link.items_le h.1.from_
    rw [raw_append, render_append, List.length_append, List.length_append] at h2
    have e1 : (docRaw [Item.piece (.brk 0)]).length = 1 := rfl
    have e2 : (render [Item.piece (.brk 0)]).length = 1 := rfl
    show (docRaw is ++ [_]).length ≤ (render is ++ breaks n).length
    rw [List.length_append, List.length_append, List.length_singleton, breaks_length]
    omega

theorem grid_le {d : List Chunk} (h : DocValid d) : (gridRaw d).length ≤ (docText d).length := by
  induction d with
  | nil => exact Nat.le_refl _
  | cons c d ih =>
    have h1 := ih h.2.2
    have h2 := chunk_le h.1
    have e : docText (c :: d) = c.text ++ docText d := rfl
    rw [grid_cons, e, List.length_append, List.length_append]
    omega

theorem read_doc {d : List Chunk} (h : DocValid d) {n : Nat} (hn : (docText d).length + 5 ≤ n) : readGrid n (docText d) = .ok (.ok (d.map Chunk.got).flatten) :=
  read_grid h (by have := grid_le h; omega)

/-! ## The characters -/

theorem alnum_fine {c : Char} (h : BaseLexer.isAlnum c = true) : c ≠ ' ' ∧ c ≠ '\n' := by
  constructor <;> (rintro rfl; revert h; decide)

theorem stem_fine {w : Text} (h : Pipeline.Stem w) : ∀ c ∈ w, c ≠ ' ' ∧ c ≠ '\n' := by
  induction w with
  | nil => simp
  | cons a r ih =>
    cases r with
    | nil =>
      intro c hc
      rw [List.mem_singleton.mp hc]
      exact alnum_fine h
    | cons b r =>
      intro c hc
      rcases List.mem_cons.mp hc with rfl | hc
      · rcases h.1 with h | ⟨rfl | rfl, -⟩
        · exact alnum_fine h
        · decide
        · decide
      · exact ih h.2 c hc

/-- There are no blanks in what is not a blank. -/
theorem piece_fine {p : Piece} (h : p.Valid) (hg : ∀ n, p ≠ .gap n) (hb : ∀ n, p ≠ .brk n) : ∀ c ∈ p.text, c ≠ ' ' ∧ c ≠ '\n' := by
  cases p with
  | word w =>
    obtain ⟨-, ⟨s, r, rfl, hs, hr⟩, -⟩ := h
    intro c hc
    rcases List.mem_append.mp hc with hc | hc
    · exact stem_fine hs c hc
    · rcases hr with rfl | ⟨r, rfl, hr⟩
      · cases hc
      · rcases List.mem_cons.mp hc with rfl | hc
        · decide
        · exact alnum_fine (hr c hc)
  | number ds =>
    intro c hc
    have := h.2 c hc
    constructor <;> (rintro rfl; revert this; decide)
  | gap n => exact absurd rfl (hg n)
  | brk n => exact absurd rfl (hb n)
  | colon => intro c hc; rw [List.mem_singleton.mp hc]; decide
  | star => intro c hc; rw [List.mem_singleton.mp hc]; decide
  | slash => intro c hc; rw [List.mem_singleton.mp hc]; decide
  | glyph u =>
    have big : ∀ {c : Char}, 0x80 ≤ c.toNat → c ≠ ' ' ∧ c ≠ '\n' := by
      intro c hc
      constructor <;> (rintro rfl; revert hc; decide)
    intro c hc
    rcases h with ⟨x, rfl, hx⟩ | ⟨a, b, rfl, h1, -, h2⟩ | ⟨a, b, d, rfl, h1, -, h2, h3⟩
    · have hall : ∀ x ∈ Pipeline.marksTable.map (·.1), x ≠ ' ' ∧ x ≠ '\n' := by decide
      rw [List.mem_singleton.mp hc]
      exact hall x hx
    · simp only [Pipeline.Piece.text, List.mem_cons, List.not_mem_nil, or_false] at hc
      rcases hc with rfl | rfl
      · exact big (by omega)
      · exact big h2
    · simp only [Pipeline.Piece.text, List.mem_cons, List.not_mem_nil, or_false] at hc
      rcases hc with rfl | rfl | rfl
      · exact big (by omega)
      · exact big h2
      · exact big h3

theorem piece_line {p : Piece} (h : p.Valid) (hb : ∀ n, p ≠ .brk n) : '\n' ∉ p.text := by
  by_cases hg : ∃ n, p = .gap n
  · obtain ⟨n, rfl⟩ := hg
    intro hc
    exact absurd (List.eq_of_mem_replicate hc) (by decide)
  · exact fun hc => (piece_fine h (fun n e => hg ⟨n, e⟩) hb _ hc).2 rfl

theorem row_line {ps : List Piece} (h : RowFrom ps) : '\n' ∉ rowText ps := by
  induction ps with
  | nil => simp [rowText]
  | cons p r ih =>
    obtain ⟨h1, -, -, h4, -, h6⟩ := h
    have e : rowText (p :: r) = p.text ++ rowText r := by simp [rowText]
    rw [e, List.mem_append, not_or]
    exact ⟨piece_line h1 h4, ih h6⟩

/-- What is not a blank has no line break in it and does not end with a space. -/
theorem item_line {b : Bool} {i : Item} {r : List Item} (h : LinkedFrom b (i :: r)) (hb : ∀ n, i ≠ .piece (.brk n)) : '\n' ∉ i.text ∧ (i.isBlank = false → i.text.getLast? ≠ some ' ') := by
  cases i with
  | piece p =>
    refine ⟨piece_line h.1 fun n e => hb n (by rw [e]), fun hi hl => ?_⟩
    exact (piece_fine h.1 (by rintro n rfl; cases hi) (by rintro n rfl; cases hi) _ (List.mem_of_getLast? hl)).1 rfl
  | link hd d =>
    obtain ⟨h1, h2, -⟩ := h
    have hrow : RowFrom hd.row := by
      cases hd with
      | person ps => exact h1
      | user n ps => exact h1.2
      | _ => trivial
    constructor
    · show '\n' ∉ "[[".toList ++ hd.text ++ Link.descText d ++ "]]".toList
      rw [← Link.start_row]
      simp only [List.mem_append, not_or]
      refine ⟨⟨⟨by decide, Link.start_nl h1, row_line hrow⟩, ?_⟩, by decide⟩
      cases d with
      | none => simp [Link.descText]
      | some d =>
        show '\n' ∉ "][".toList ++ rowText d
        rw [List.mem_append, not_or]
        exact ⟨by decide, row_line (h2 d rfl).1⟩
    · intro _
      show ("[[".toList ++ hd.text ++ Link.descText d ++ "]]".toList).getLast? ≠ _
      rw [List.getLast?_append_of_ne_nil _ (by simp)]
      decide
  | url s u =>
    obtain ⟨h1, -, -⟩ := h
    have hn := Link.start_nl (h := .web s u) h1
    rw [Link.start_web] at hn
    refine ⟨hn, fun _ hl => ?_⟩
    have : ' ' ∉ Link.webText s u := by
      unfold Link.webText
      intro hm
      rcases List.mem_append.mp hm with hm | hm
      · revert hm; cases s <;> decide
      · rcases List.mem_cons.mp hm with hm | hm
        · exact absurd hm (by decide)
        · exact h1.2.1 hm
    exact this (List.mem_of_getLast? hl)
  | note t =>
    obtain ⟨-, h2, -⟩ := h
    constructor
    · show '\n' ∉ "[fn:".toList ++ t ++ "]".toList
      simp only [List.mem_append, not_or]
      exact ⟨⟨by decide, fun hm => absurd (h2 _ hm) (by decide)⟩, by decide⟩
    · intro _
      show ("[fn:".toList ++ t ++ "]".toList).getLast? ≠ _
      rw [List.getLast?_append_of_ne_nil _ (by simp)]
      decide

theorem linked_rest {b : Bool} {i : Item} {r : List Item} (h : LinkedFrom b (i :: r)) : ∃ b', LinkedFrom b' r := by
  cases i with
  | piece p => exact ⟨_, h.2.2.2.2.2⟩
  | link hd d => exact ⟨_, h.2.2⟩
  | url s u => exact ⟨_, h.2.2⟩
  | note u => exact ⟨_, h.2.2⟩

theorem linked_each {b : Bool} {is : List Item} (h : LinkedFrom b is) : ∀ i ∈ is, ∃ b' r, LinkedFrom b' (i :: r) := by
  induction is generalizing b with
  | nil => simp
  | cons i r ih =>
    intro j hj
    rcases List.mem_cons.mp hj with rfl | hj
    · exact ⟨b, r, h⟩
    · obtain ⟨b', hr⟩ := linked_rest h
      exact ih hr j hj

theorem items_line {b : Bool} {is js : List Item} (h : LinkedFrom b (is ++ js)) (ho : OneLine is) (hl : ∀ i ∈ is.getLast?, i.isBlank = false) :
    '\n' ∉ render is ∧ (render is).getLast? ≠ some ' ' := by
  have hall : ∀ i ∈ is, '\n' ∉ i.text ∧ (i.isBlank = false → i.text.getLast? ≠ some ' ') ∧ i.text ≠ [] := by
    intro i hi
    obtain ⟨b', r, hr⟩ := linked_each h i (List.mem_append_left _ hi)
    obtain ⟨h1, h2⟩ := item_line hr (fun n e => ho n (e ▸ hi))
    refine ⟨h1, h2, ?_⟩
    cases i with
    | piece p => exact Link.piece_ne hr.1
    | link hd d => simp [Item.text]
    | url s u => simp [Item.text, Link.webText]
    | note t => simp [Item.text]
  constructor
  · unfold render
    intro hc
    obtain ⟨t, ht, hc⟩ := List.mem_flatten.mp hc
    obtain ⟨i, hi, rfl⟩ := List.mem_map.mp ht
    exact (hall i hi).1 hc
  · cases hx : is.getLast? with
    | none =>
      rw [List.getLast?_eq_none_iff] at hx
      rw [hx]
      nofun
    | some i =>
      obtain ⟨r, hr⟩ := List.getLast?_eq_some_iff.mp hx
      have hi := hall i (by rw [hr]; simp)
      rw [hr, render_append, List.getLast?_append_of_ne_nil _ (by simpa [render] using hi.2.2)]
      simpa [render] using hi.2.1 (hl i (by rw [hx]; rfl))

/-! ## Lines which are written -/

/-- The block is one line with the given text, and not larger than it. -/
structure Fine (b : Layout.Block) (t : Text) : Prop where
  single : Single b t
  small : volume b ≤ t.length

abbrev Fines : List Layout.Block → List Text → Prop := List.Forall₂ Fine

theorem fine_str (s : Text) : Fine (str s) s := ⟨Sem.single_str s, by rw [Sem.volume_str]⟩

theorem fines_singles {bs : List Layout.Block} {ts : List Text} (h : Fines bs ts) : Singles bs ts := by
  induction h with
  | nil => exact .nil
  | cons h _ ih => exact .cons h.single ih

theorem fines_small {bs : List Layout.Block} {ts : List Text} (h : Fines bs ts) : volumes bs ≤ ts.flatten.length := by
  induction h with
  | nil => exact Nat.le_refl _
  | cons h _ ih =>
    have := h.small
    rw [volumes, List.flatten_cons, List.length_append]
    omega

theorem fine_line {bs : List Layout.Block} {ts : List Text} (h : Fines bs ts) (hne : bs ≠ []) : Fine (.line bs) ts.flatten :=
  ⟨(fines_singles h).line hne, by rw [volume]; exact fines_small h⟩

theorem fine_stack {b : Layout.Block} {t : Text} (h : Fine b t) : Fine (stack (added [b])) t := by
  have hs : added [b] = [b] := (Singles.cons h.single .nil).added
  rw [hs]
  have h1 := (AllLines.cons h.single.lines .nil).stack (by simp)
  refine ⟨⟨h1.filled, by simpa [box] using h1.shows, rfl⟩, ?_⟩
  have := h.small
  simp only [stack, volume, volumes]
  omega

theorem split_all {bs : List (Bool × Layout.Block)} (h : ∀ b ∈ bs, b.1 = false) : splitBreaks bs = [bs.map Prod.snd] := by
  induction bs with
  | nil => rfl
  | cons b bs ih =>
    obtain ⟨x, b⟩ := b
    have hx : x = false := h _ List.mem_cons_self
    subst hx
    rw [splitBreaks, ih fun c hc => h c (List.mem_cons_of_mem _ hc)]
    rfl

theorem fine_par {bs : List (Bool × Layout.Block)} {ts : List Text} (h : ∀ b ∈ bs, b.1 = false) (hf : Fines (bs.map Prod.snd) ts) (hne : bs ≠ []) :
    Fine (parFmt bs) ts.flatten := by
  unfold parFmt
  rw [split_all h]
  refine fine_stack ?_
  unfold lineOf
  rw [(fines_singles hf).added]
  exact fine_line hf (by simpa using hne)

theorem fine_leaf {p : Piece} (hb : ∀ n, p ≠ .brk n) : Fine (leafFmt (leaf p)) p.text ∧ ((leaf p).1 == .Newline) = false := by
  have key : ∀ k, p.semKind = k → k ≠ .Newline → k ≠ .Escaped → k ≠ .Placeholder → k ≠ .AtMention → Fine (leafFmt (leaf p)) p.text ∧ ((leaf p).1 == .Newline) = false := by
    intro k hk h1 h2 h3 h4
    have : leafFmt (leaf p) = str p.text := by
      unfold leafFmt leaf
      dsimp only
      rw [hk]
      cases k <;> first | rfl | exact absurd rfl h1 | exact absurd rfl h2 | exact absurd rfl h3 | exact absurd rfl h4
    refine ⟨by rw [this]; exact fine_str _, ?_⟩
    show (p.semKind == .Newline) = false
    rw [hk]
    cases k <;> first | rfl | exact absurd rfl h1
  cases p with
  | brk n => exact absurd rfl (hb n)
  | word w =>
    refine key _ rfl ?_ ?_ ?_ ?_ <;> (simp only [Pipeline.Piece.semKind]; split_ifs <;> decide)
  | number ds => exact key _ rfl nofun nofun nofun nofun
  | gap n => exact key _ rfl nofun nofun nofun nofun
  | colon => exact key _ rfl (by decide) (by decide) (by decide) (by decide)
  | star => exact key _ rfl (by decide) (by decide) (by decide) (by decide)
  | slash => exact key _ rfl (by decide) (by decide) (by decide) (by decide)
  | glyph u => exact key _ rfl nofun nofun nofun nofun

theorem fine_leaves {d : List Piece} (hne : d ≠ []) (hb : ∀ p ∈ d, ∀ n, p ≠ .brk n) : Fine (leavesFmt (d.map leaf)) (showLeaves (d.map leaf)) := by
  unfold leavesFmt showLeaves
  refine fine_par ?_ ?_ (by simpa using hne)
  · intro b hb'
    rw [List.map_map] at hb'
    obtain ⟨p, hp, rfl⟩ := List.mem_map.mp hb'
    exact (fine_leaf (hb p hp)).2
  · clear hne
    induction d with
    | nil => exact .nil
    | cons p d ih => exact .cons (fine_leaf (hb p List.mem_cons_self)).1 (ih fun q hq => hb q (List.mem_cons_of_mem _ hq))

theorem fine_link (t : Target) {d : Option (List Piece)} (hd : ∀ x ∈ d, x ≠ [] ∧ ∀ p ∈ x, ∀ n, p ≠ .brk n) :
    Fine (linkFmt t (d.map (·.map leaf))) (showLink t (d.map (·.map leaf))) := by
  cases d with
  | some d =>
    obtain ⟨h1, h2⟩ := hd d rfl
    have := fine_line (.cons (fine_str "[[".toList) (.cons (fine_str (showTarget t)) (.cons (fine_str "][".toList) (.cons (fine_leaves h1 h2) (.cons (fine_str "]]".toList) .nil))))) (by simp)
    cases t <;> simpa [linkFmt, showLink] using this
  | none =>
    have h3 := fine_line (.cons (fine_str "[[".toList) (.cons (fine_str (showTarget t)) (.cons (fine_str "]]".toList) .nil))) (by simp)
    have h4 := fine_line (.cons (fine_str ['[']) (.cons (fine_str (showTarget t)) (.cons (fine_str [']']) .nil))) (by simp)
    cases t with
    | raw u => exact fine_str u
    | footnote n => simpa [linkFmt, showLink] using h4
    | _ => simpa [linkFmt, showLink] using h3

theorem fine_item {b : Bool} {i : Item} {r : List Item} (h : LinkedFrom b (i :: r)) (hb : ∀ n, i ≠ .piece (.brk n)) :
    Fine (partFmt i.got) i.again.text ∧ isBreak i.got = false ∧ i.got ≠ .other := by
  rw [← Link.show_item]
  cases i with
  | piece p =>
    obtain ⟨h1, h2⟩ := fine_leaf (p := p) (fun n e => hb n (by rw [e]))
    refine ⟨h1, ?_, nofun⟩
    show isBreak (.leaf p.semKind p.text) = false
    have h2 : (p.semKind == .Newline) = false := h2
    cases hk : p.semKind <;> first | rfl | (rw [hk] at h2; cases h2)
  | link hd d =>
    refine ⟨fine_link _ ?_, rfl, nofun⟩
    intro x hx
    obtain ⟨k1, k2, -⟩ := h.2.1 x hx
    exact ⟨k2, Link.no_breaks k1⟩
  | url s u => exact ⟨fine_link (d := none) (.raw (Link.webText s u)) (by simp), rfl, nofun⟩
  | note t => exact ⟨fine_link (d := none) (.footnote t) (by simp), rfl, nofun⟩

theorem fine_para {b : Bool} {is js : List Item} (h : LinkedFrom b (is ++ js)) (ho : OneLine is) (hne : is ≠ []) :
    Fine (paraFmt (is.map Item.got)) (render (is.map Item.again)) := by
  have hall : ∀ i ∈ is, Fine (partFmt i.got) i.again.text ∧ isBreak i.got = false ∧ i.got ≠ .other := by
    intro i hi
    obtain ⟨b', r, hr⟩ := linked_each h i (List.mem_append_left _ hi)
    exact fine_item hr (fun n e => ho n (e ▸ hi))
  unfold paraFmt render
  refine fine_par ?_ ?_ (by simpa using hne)
  · intro b hb'
    rw [List.map_map] at hb'
    obtain ⟨p, hp, rfl⟩ := List.mem_map.mp hb'
    exact (hall p hp).2.1
  · clear h ho hne
    induction is with
    | nil => exact .nil
    | cons i is ih => exact .cons (hall i List.mem_cons_self).1 (ih fun j hj => hall j (List.mem_cons_of_mem _ hj))

theorem known_items {b : Bool} {is js : List Item} (h : LinkedFrom b (is ++ js)) (ho : OneLine is) : known (is.map Item.got) = true := by
  unfold known
  rw [List.all_eq_true]
  intro p hp
  obtain ⟨i, hi, rfl⟩ := List.mem_map.mp hp
  obtain ⟨b', r, hr⟩ := linked_each h i (List.mem_append_left _ hi)
  simpa using (fine_item hr (fun n e => ho n (e ▸ hi))).2.2

/-- How a cell is written, after `k` spaces. -/
def Cell.canon (k : Nat) (c : Cell) : Cell := if c.items = [] then ⟨k + 2, [], 0⟩ else ⟨k + 1, c.items.map Item.again, 1⟩

theorem fine_cell {c : Cell} (h : c.Valid) : Fine (cellFmt [c.items.map Item.got]) (c.canon 0).text := by
  unfold cellFmt Cell.canon
  simp only [List.map_cons, List.map_nil, List.flatten_cons, List.flatten_nil, List.append_nil]
  split_ifs with h0
  · rw [h0]
    exact fine_line (bs := [str [' '], str [' ']]) (.cons (fine_str [' ']) (.cons (fine_str [' ']) .nil)) (by simp)
  · have hf := fine_para h.from_ h.line h0
    have hs := (List.Forall₂.cons (fine_str [' ']) (.cons hf (.cons (fine_str [' ']) .nil)) : Fines [str [' '], paraFmt (c.items.map Item.got), str [' ']] _)
    rw [(fines_singles hs).added]
    have := fine_line hs (by simp)
    simpa [Cell.text, blanks] using this

/-- How the cells of a row are written. -/
def canonCells : List Cell → List Cell
  | [] => []
  | c :: r => c.canon 1 :: r.map (Cell.canon 0)

theorem canon_more (c : Cell) : (c.canon 1).text = ' ' :: (c.canon 0).text := by
  unfold Cell.canon
  split_ifs <;> rfl

theorem fine_row {cs : List Cell} (hne : cs ≠ []) (h : ∀ c ∈ cs, c.Valid) : Fine (rowFmt (cs.map fun c => [c.items.map Item.got])) (Line.row 0 (canonCells cs)).text := by
  have key : ∀ cs : List Cell, (∀ c ∈ cs, c.Valid) → Fines ((cs.map fun c => [c.items.map Item.got]).map fun c => [cellFmt c, str ['|']]).flatten
      (cs.map fun c => [(c.canon 0).text, ['|']]).flatten := by
    intro cs h
    induction cs with
    | nil => exact .nil
    | cons c r ih => exact .cons (fine_cell (h c List.mem_cons_self)) (.cons (fine_str ['|']) (ih fun x hx => h x (List.mem_cons_of_mem _ hx)))
  have hk := key cs h
  unfold rowFmt
  rw [(fines_singles hk).added]
  have hf := fine_line (.cons (fine_str "| ".toList) hk) (by simp)
  have hfl : ∀ cs : List Cell, (cs.map fun c => [(c.canon 0).text, ['|']]).flatten.flatten = ((cs.map (Cell.canon 0)).map fun c => c.text ++ ['|']).flatten := by
    intro cs
    induction cs with
    | nil => rfl
    | cons c r ih =>
      rw [List.map_cons, List.flatten_cons, List.flatten_append, ih]
      simp
  rw [List.flatten_cons, hfl] at hf
  cases cs with
  | nil => exact absurd rfl hne
  | cons c r =>
    have e : (Line.row 0 (canonCells (c :: r))).text = "| ".toList ++ (((c :: r).map (Cell.canon 0)).map fun c => c.text ++ ['|']).flatten := by
      show '|' :: ((c.canon 1).text ++ ['|'] ++ ((r.map (Cell.canon 0)).map fun c => c.text ++ ['|']).flatten) = _
      rw [canon_more]
      simp
    rw [e]
    exact hf

/-! ## The document which is written -/

def Line.canon : Line → Option (Line × Nat)
  | .row _ cs => some (.row 0 (canonCells cs), 0)
  | .rule _ _ => none

/-- How a part of a document is written: without rules, and without empty lines after the rows. -/
def Chunk.canon : Chunk → Chunk
  | .table ls => .table (ls.filterMap fun l => l.1.canon)
  | .para is n => .para (is.map Item.again) n

/-- The lines which are written. -/
def Chunk.lines : Chunk → List Text
  | .table ls => (ls.filterMap fun l => l.1.canon).map fun l => l.1.text
  | .para is n => render (is.map Item.again) :: List.replicate n []

/-- The node shows these lines. -/
structure Shown (x : Node) (ls : List Text) : Prop where
  lines : ShowsLines x.fmt ls
  small : volume x.fmt ≤ total ls
  plain : x.plain = true

theorem shown_table {ls : List (Line × Nat)} (h : ∀ l ∈ ls, l.1.Valid) : Shown (.table (ls.filterMap fun l => l.1.got)) (Chunk.table ls).lines := by
  have key : AllLines ((ls.filterMap fun l => l.1.got).map rowFmt) (((ls.filterMap fun l => l.1.canon).map fun l => l.1.text).map fun t => [t]) ∧
      volumes ((ls.filterMap fun l => l.1.got).map rowFmt) ≤ total ((ls.filterMap fun l => l.1.canon).map fun l => l.1.text) ∧
      (ls.filterMap fun l => l.1.got).all (fun r => r.all fun c => c.all known) = true := by
    induction ls with
    | nil => exact ⟨.nil, Nat.le_refl _, rfl⟩
    | cons l ls ih =>
      obtain ⟨k1, k2, k3⟩ := ih fun x hx => h x (List.mem_cons_of_mem _ hx)
      have hl := h l List.mem_cons_self
      obtain ⟨l, e⟩ := l
      cases l with
      | rule n ms => exact ⟨k1, k2, k3⟩
      | row n cs =>
        have hf := fine_row hl.1 hl.2.1
        have e1 : (((Line.row n cs, e) :: ls).filterMap fun l => l.1.got) = (cs.map fun c => [c.items.map Item.got]) :: ls.filterMap fun l => l.1.got := rfl
        have e2 : (((Line.row n cs, e) :: ls).filterMap fun l => l.1.canon) = (Line.row 0 (canonCells cs), 0) :: ls.filterMap fun l => l.1.canon := rfl
        rw [e1, e2]
        refine ⟨.cons hf.single.lines k1, ?_, ?_⟩
        · have h1 := hf.small
          have e3 : ∀ (t : Text) (ts : List Text), total (t :: ts) = t.length + total ts := fun t ts => by simp [total]
          rw [List.map_cons, volumes, List.map_cons, e3]
          exact Nat.add_le_add h1 k2
        · rw [List.all_cons, k3, Bool.and_true, List.all_eq_true]
          intro c hc
          obtain ⟨x, hx, rfl⟩ := List.mem_map.mp hc
          have hv := hl.2.1 x hx
          simpa using known_items hv.from_ hv.line
  obtain ⟨k1, k2, k3⟩ := key
  have hs := k1.addedStack
  have hfl : ∀ ts : List Text, (ts.map fun t => [t]).flatten = ts := by
    intro ts
    induction ts with
    | nil => rfl
    | cons t ts ih => rw [List.map_cons, List.flatten_cons, ih]; rfl
  rw [hfl] at hs
  refine ⟨hs, ?_, k3⟩
  show volumes _ ≤ _
  exact Nat.le_trans (Sem.volumes_added _) k2

theorem shown_newline (n : Nat) : Shown (.newline (breaks n)) (List.replicate n []) := by
  have hS : ∀ n, AllLines (List.replicate n (str [])) (List.replicate n [[]]) := by
    intro n
    induction n with
    | zero => exact .nil
    | succ n ih => exact .cons (Sem.single_str []).lines ih
  have h := (hS n).addedStack
  have hb : (breaks n).length - 1 = n := by rw [breaks_length]; rfl
  refine ⟨?_, ?_, rfl⟩
  · show ShowsLines (stack (added (List.replicate ((breaks n).length - 1) (str [])))) _
    rw [hb]
    simpa using h
  · show volumes (added (List.replicate ((breaks n).length - 1) (str []))) ≤ _
    refine Nat.le_trans (Sem.volumes_added _) ?_
    rw [Sem.volumes_replicate]
    exact Nat.zero_le _

theorem shown_para {is : List Item} (h : Linked is) (ho : OneLine is) : Shown (.para (is.map Item.got)) [render (is.map Item.again)] := by
  have hf := fine_para h.from_ ho h.ne
  exact ⟨hf.single.lines, (by show volume (paraFmt (is.map Item.got)) ≤ _; simpa [total] using hf.small), known_items h.from_ ho⟩

theorem shown_chunks {d : List Chunk} (h : ∀ c ∈ d, c.Valid) : ∃ ls, AllLines ((d.map Chunk.got).flatten.map Node.fmt) ls ∧ ls.flatten = (d.map Chunk.lines).flatten ∧
    volumes ((d.map Chunk.got).flatten.map Node.fmt) ≤ total (d.map Chunk.lines).flatten ∧ (d.map Chunk.got).flatten.all Node.plain = true := by
  induction d with
  | nil => exact ⟨[], .nil, rfl, Nat.le_refl _, rfl⟩
  | cons c d ih =>
    obtain ⟨ls, k1, k2, k3, k4⟩ := ih fun x hx => h x (List.mem_cons_of_mem _ hx)
    have hc := h c List.mem_cons_self
    rw [List.map_cons, List.flatten_cons, List.map_cons, List.flatten_cons, total_append]
    cases c with
    | table rs =>
      obtain ⟨s1, s2, s3⟩ := shown_table hc.1
      refine ⟨_, .cons s1 k1, by rw [List.flatten_cons, k2], ?_, ?_⟩
      · exact Nat.add_le_add s2 k3
      · show (Node.plain _ && _) = true
        rw [s3, Bool.true_and]
        exact k4
    | para is n =>
      obtain ⟨s1, s2, s3⟩ := shown_para hc.1 hc.2
      have e3 : total (Chunk.para is n).lines = total [render (is.map Item.again)] := by
        simp [Chunk.lines, total]
      by_cases h0 : n = 0
      · subst h0
        refine ⟨_, .cons s1 k1, by rw [List.flatten_cons, k2]; rfl, ?_, ?_⟩
        · rw [e3]
          exact Nat.add_le_add s2 k3
        · show (Node.plain _ && _) = true
          rw [s3, Bool.true_and]
          exact k4
      · obtain ⟨n1, n2, n3⟩ := shown_newline n
        have hg : (Chunk.para is n).got = [.para (is.map Item.got), .newline (breaks n)] := by
          show _ :: (if n = 0 then [] else _) = _
          rw [if_neg h0]
        have e4 : total (List.replicate n ([] : Text)) = 0 := by simp [total]
        rw [hg]
        refine ⟨_, .cons s1 (.cons n1 k1), by rw [List.flatten_cons, List.flatten_cons, k2]; rfl, ?_, ?_⟩
        · rw [e3]
          refine Nat.add_le_add s2 (Nat.le_trans (Nat.add_le_add n2 k3) ?_)
          rw [e4, Nat.zero_add]
        · show (Node.plain _ && (Node.plain _ && _)) = true
          rw [s3, n3, Bool.true_and, Bool.true_and]
          exact k4

/-- A line which is written is what it was. -/
def Clean (l : Text) : Prop := '\n' ∉ l ∧ l.getLast? ≠ some ' '

theorem clean_text {ls : List Text} (h : ∀ l ∈ ls, Clean l) : Layout.printed (box ls) = joinLines ls := by
  rw [Raw.printed_split]
  have : (ls.map splitLines).flatten = ls := by
    induction ls with
    | nil => rfl
    | cons l ls ih =>
      rw [List.map_cons, List.flatten_cons, ih fun x hx => h x (List.mem_cons_of_mem _ hx), Sem.splitLines_line l (h l List.mem_cons_self).1]
      rfl
  rw [this, textOf]
  congr 1
  exact (List.map_congr_left fun l hl => Sem.stripEnd_id (h l hl).2).trans (List.map_id' ls)

theorem write_lines (o : Layout.Options Rat) (ho : Layout.Sane o) {d : List Chunk} (h : ∀ c ∈ d, c.Valid) (hl : ∀ l ∈ (d.map Chunk.lines).flatten, Clean l)
    (hsize : total (d.map Chunk.lines).flatten < 1000000000) (fuel : Nat) (hf : 4097 ≤ fuel) :
    write Layout.exact o fuel (d.map Chunk.got).flatten = some (.ok (joinLines (d.map Chunk.lines).flatten)) := by
  obtain ⟨ls, k1, k2, k3, k4⟩ := shown_chunks h
  have h3 := k1.addedStack
  rw [k2] at h3
  have h5 := Sem.volumes_added ((d.map Chunk.got).flatten.map Node.fmt)
  unfold write
  rw [if_pos k4]
  congr 1
  unfold fmtDocument
  split
  · next e =>
    rw [e] at h3
    have hnil : (d.map Chunk.lines).flatten = [] := h3.solid.mp rfl
    rw [hnil, Layout.toString_returns_partial o ho _ ?_ ?_ fuel hf]
    · simp [stack, Layout.picture, Layout.columnPicture, str, Layout.shownText, Sem.chars_str, Layout.aboveO, Layout.printed, joinLines,
        Layout.splitLines, stripEnd]
    · exact ⟨by decide, ⟨trivial, trivial⟩, by simp [str, Layout.picture]⟩
    · simp [stack, volume, volumes, Sem.volume_str]
  · rw [Layout.toString_returns_partial o ho _ h3.filled (by simp only [stack, volume]; omega) fuel hf, h3.shows, clean_text hl]

/-! ## It is a document -/

theorem again_line (is : List Item) (h : OneLine is) : OneLine (is.map Item.again) := by
  intro n hn
  obtain ⟨i, hi, he⟩ := List.mem_map.mp hn
  have : i = .piece (.brk n) := by
    cases i with
    | piece p => exact he
    | link hd d => cases hd <;> first | cases he | (cases d <;> cases he)
    | url s u => cases he
    | note t => cases he
  exact h n (this ▸ hi)

/-- What follows a text that does not end with a blank may be another blank. -/
theorem relast {is : List Item} {x y : Item} (hy : y = .piece (.brk 0) ∨ y = .piece (.gap 0)) (hl : ∀ i ∈ is.getLast?, i.isBlank = false) :
    ∀ {b : Bool}, (is ≠ [] ∨ LinkedFrom b [y]) → LinkedFrom b (is ++ [x]) → LinkedFrom b (is ++ [y]) := by
  induction is with
  | nil =>
    intro b h _
    rcases h with h | h
    · exact absurd rfl h
    · exact h
  | cons i r ih =>
    intro b _ h
    have hlr : ∀ j ∈ r.getLast?, j.isBlank = false := by
      intro j hj
      cases r with
      | nil => cases hj
      | cons k r => exact hl j (by rw [List.getLast?_cons_cons]; exact hj)
    have hy' : LinkedFrom false [y] := by
      rcases hy with rfl | rfl
      · exact ⟨trivial, nofun, nofun, nofun, by simp [Pipeline.fits], trivial⟩
      · exact ⟨trivial, nofun, nofun, nofun, by simp [Pipeline.fits], trivial⟩
    have hyb : y.isBlank = true := by rcases hy with rfl | rfl <;> rfl
    have hr : ∀ b', (r = [] → b' = false) → LinkedFrom b' (r ++ [x]) → LinkedFrom b' (r ++ [y]) := by
      intro b' hb' h'
      refine ih hlr ?_ h'
      by_cases hr : r = []
      · right
        rw [hb' hr]
        exact hy'
      · exact .inl hr
    have hhead : r ≠ [] → (r ++ [y]).head? = (r ++ [x]).head? := by
      intro hne
      cases r with
      | nil => exact absurd rfl hne
      | cons j r => rfl
    cases i with
    | piece p =>
      obtain ⟨h1, h2, h3, h4, h5, h6⟩ := h
      have hpb : r = [] → p.isBrk = false := by
        intro hr
        subst hr
        have := hl (.piece p) rfl
        cases p <;> first | rfl | cases this
      refine ⟨h1, h2, h3, h4, ?_, hr _ hpb h6⟩
      by_cases hne : r = []
      · subst hne
        have hb := hl (.piece p) rfl
        show Pipeline.fits b p (some y.like)
        rcases hy with rfl | rfl <;>
        · cases p with
          | gap n => cases hb
          | brk n => cases hb
          | star => exact absurd rfl h2
          | slash => exact absurd rfl h3
          | colon => exact ⟨h5.1, nofun⟩
          | word w => exact ⟨nofun, (fun q hq => by cases hq; exact nofun), nofun⟩
          | number w => exact ⟨h5.1, (fun q hq => by cases hq; exact nofun), nofun⟩
          | glyph u => trivial
      · have := hhead hne
        show Pipeline.fits b p ((r ++ [y]).head?.map Item.like)
        rw [this]
        exact h5
    | link hd d => exact ⟨h.1, h.2.1, hr _ (fun _ => rfl) h.2.2⟩
    | url s u =>
      refine ⟨h.1, ?_, hr _ (fun _ => rfl) h.2.2⟩
      by_cases hne : r = []
      · subst hne
        exact ⟨y, rfl, hyb⟩
      · show ∃ i ∈ (r ++ [y]).head?, _
        rw [hhead hne]
        exact h.2.1
    | note t => exact ⟨h.1, h.2.1, hr _ (fun _ => rfl) h.2.2⟩

/-- Web links in brackets without a description stand between spaces, and links to titles have one star. -/
def Chunk.Apart : Chunk → Prop
  | .table ls => ∀ l ∈ ls, match l.1 with
    | .row _ cs => ∀ c ∈ cs, Link.Apart true c.items
    | .rule _ _ => True
  | .para is _ => Link.Apart true is

theorem again_ne {is : List Item} (h : is ≠ []) : is.map Item.again ≠ [] := by simpa using h

theorem again_last {is : List Item} (h : ∀ i ∈ is.getLast?, i.isBlank = false) : ∀ i ∈ (is.map Item.again).getLast?, i.isBlank = false := by
  intro i hi
  rw [List.getLast?_map] at hi
  obtain ⟨j, hj, rfl⟩ := Option.map_eq_some_iff.mp hi
  rw [Link.again_blank]
  exact h j hj

theorem again_first {is : List Item} (h : ∀ i ∈ is.head?, i.isBlank = false) : ∀ i ∈ (is.map Item.again).head?, i.isBlank = false := by
  intro i hi
  rw [List.head?_map] at hi
  obtain ⟨j, hj, rfl⟩ := Option.map_eq_some_iff.mp hi
  rw [Link.again_blank]
  exact h j hj

theorem canon_cell {c : Cell} (k : Nat) (h : c.Valid) (ha : Link.Apart true c.items) : (c.canon k).Valid := by
  unfold Cell.canon
  split_ifs with h0
  · exact ⟨⟨.inl ⟨')', rfl, by decide⟩, nofun, nofun, nofun, trivial, trivial⟩, (fun n hn => by cases hn), by simp, by simp, fun _ => rfl⟩
  · have h1 : LinkedFrom false (c.items ++ [.piece (.brk 0)]) := relast (.inl rfl) h.last (.inl h0) h.from_
    have h2 := Link.again_linked h1 ha
    exact ⟨relast (.inr rfl) (again_last h.last) (.inl (again_ne h0)) h2, again_line _ h.line, again_first h.first, again_last h.last,
      fun he => absurd he (again_ne h0)⟩

theorem canon_first {c : Cell} : (c.canon 1).before ≠ 0 := by
  unfold Cell.canon
  split_ifs <;> nofun

theorem canon_row {n : Nat} {cs : List Cell} (h : (Line.row n cs).Valid) (ha : ∀ c ∈ cs, Link.Apart true c.items) : (Line.row 0 (canonCells cs)).Valid := by
  obtain ⟨h1, h2, -⟩ := h
  cases cs with
  | nil => exact absurd rfl h1
  | cons c r =>
    refine ⟨nofun, ?_, ?_⟩
    · intro x hx
      rcases List.mem_cons.mp hx with rfl | hx
      · exact canon_cell 1 (h2 c List.mem_cons_self) (ha c List.mem_cons_self)
      · obtain ⟨y, hy, rfl⟩ := List.mem_map.mp hx
        exact canon_cell 0 (h2 y (List.mem_cons_of_mem _ hy)) (ha y (List.mem_cons_of_mem _ hy))
    · intro x hx
      cases hx
      exact canon_first

theorem canon_lines {ls : List (Line × Nat)} {l : Line × Nat} (hl : l ∈ ls.filterMap fun l => l.1.canon) : ∃ n cs e, (Line.row n cs, e) ∈ ls ∧ l = (.row 0 (canonCells cs), 0) := by
  obtain ⟨⟨x, e⟩, hx, he⟩ := List.mem_filterMap.mp hl
  cases x with
  | rule n ms => cases he
  | row n cs => exact ⟨n, cs, e, hx, (Option.some.inj he).symm⟩

theorem canon_chunk {c : Chunk} (h : c.Valid) (ha : c.Apart) : c.canon.Valid := by
  cases c with
  | table ls =>
    refine ⟨?_, ?_⟩
    · intro l hl
      obtain ⟨n, cs, e, hm, rfl⟩ := canon_lines hl
      exact canon_row (h.1 _ hm) (ha _ hm)
    · obtain ⟨⟨l, e⟩, hl, hr⟩ := h.2
      cases l with
      | rule n ms => cases hr
      | row n cs => exact ⟨(.row 0 (canonCells cs), 0), List.mem_filterMap.mpr ⟨_, hl, rfl⟩, rfl⟩
  | para is n => exact ⟨Link.again_para h.1 ha, again_line _ h.2⟩

theorem canon_follows {c d : Chunk} (h : Follows c d) : Follows c.canon d.canon := by
  cases c with
  | table ls =>
    cases d with
    | table ms => exact h
    | para is n => trivial
  | para is n =>
    cases d with
    | para js m => exact h
    | table ms =>
      intro _ l hl
      obtain ⟨_, _, _, _, rfl⟩ := canon_lines (List.mem_of_head? hl)
      rfl

theorem canon_doc {d : List Chunk} (h : DocValid d) (ha : ∀ c ∈ d, c.Apart) : DocValid (d.map Chunk.canon) := by
  induction d with
  | nil => trivial
  | cons c d ih =>
    refine ⟨canon_chunk h.1 (ha c List.mem_cons_self), ?_, ih h.2.2 fun x hx => ha x (List.mem_cons_of_mem _ hx)⟩
    intro x hx
    rw [List.head?_map] at hx
    obtain ⟨y, hy, rfl⟩ := Option.map_eq_some_iff.mp hx
    exact canon_follows (h.2.1 y hy)

/-! ## It says the same -/

theorem got_cell {c : Cell} (k : Nat) (ha : Link.Apart true c.items) : (c.canon k).items.map Item.got = c.items.map Item.got := by
  unfold Cell.canon
  split_ifs with h0
  · rw [h0]
  · exact Link.apart_got ha

theorem got_row {cs : List Cell} (ha : ∀ c ∈ cs, Link.Apart true c.items) : ((canonCells cs).map fun c => [c.items.map Item.got]) = cs.map fun c => [c.items.map Item.got] := by
  cases cs with
  | nil => rfl
  | cons c r =>
    show [(c.canon 1).items.map Item.got] :: _ = [c.items.map Item.got] :: _
    rw [got_cell 1 (ha c List.mem_cons_self), List.map_map]
    congr 1
    exact List.map_congr_left fun x hx => by rw [Function.comp_apply, got_cell 0 (ha x (List.mem_cons_of_mem _ hx))]

theorem got_chunk {c : Chunk} (ha : c.Apart) : c.canon.got = c.got := by
  cases c with
  | para is n =>
    show Node.para ((is.map Item.again).map Item.got) :: _ = Node.para (is.map Item.got) :: _
    rw [Link.apart_got ha]
  | table ls =>
    show [Node.table ((ls.filterMap fun l => l.1.canon).filterMap fun l => l.1.got)] = [Node.table (ls.filterMap fun l => l.1.got)]
    congr 2
    induction ls with
    | nil => rfl
    | cons l ls ih =>
      have hr := ih fun x hx => ha x (List.mem_cons_of_mem _ hx)
      have hl := ha l List.mem_cons_self
      obtain ⟨l, e⟩ := l
      cases l with
      | rule n ms => exact hr
      | row n cs =>
        show ((canonCells cs).map fun c => [c.items.map Item.got]) :: _ = (cs.map fun c => [c.items.map Item.got]) :: _
        rw [got_row hl, hr]

theorem got_doc {d : List Chunk} (ha : ∀ c ∈ d, c.Apart) : ((d.map Chunk.canon).map Chunk.got).flatten = (d.map Chunk.got).flatten := by
  rw [List.map_map]
  congr 1
  exact List.map_congr_left fun c hc => got_chunk (ha c hc)

/-! ## It is the text -/

theorem lines_chunk (c : Chunk) : c.canon.text = (c.lines.map fun l => l ++ ['\n']).flatten := by
  cases c with
  | table ls =>
    show ((ls.filterMap fun l => l.1.canon).map fun l => l.1.text ++ breaks l.2).flatten = (((ls.filterMap fun l => l.1.canon).map fun l => l.1.text).map fun l => l ++ ['\n']).flatten
    rw [List.map_map]
    congr 1
    refine List.map_congr_left fun l hl => ?_
    obtain ⟨_, _, _, _, rfl⟩ := canon_lines hl
    rfl
  | para is n =>
    show render (is.map Item.again) ++ breaks n = (render (is.map Item.again) ++ ['\n']) ++ ((List.replicate n []).map fun l => l ++ ['\n']).flatten
    rw [List.map_replicate, List.append_assoc]
    congr 1
    have : ∀ n, (List.replicate n (([] : Text) ++ ['\n'])).flatten = List.replicate n '\n' := by
      intro n
      induction n with
      | zero => rfl
      | succ n ih => rw [List.replicate_succ, List.flatten_cons, ih]; rfl
    rw [this]
    rfl

theorem lines_doc (d : List Chunk) : docText (d.map Chunk.canon) = ((d.map Chunk.lines).flatten.map fun l => l ++ ['\n']).flatten := by
  induction d with
  | nil => rfl
  | cons c d ih =>
    show c.canon.text ++ docText (d.map Chunk.canon) = _
    rw [lines_chunk, ih, List.map_cons, List.flatten_cons, List.map_append, List.flatten_append]

theorem join_ends : ∀ {ls : List Text}, ls ≠ [] → joinLines ls ++ ['\n'] = (ls.map fun l => l ++ ['\n']).flatten := by
  intro ls hne
  induction ls with
  | nil => exact absurd rfl hne
  | cons l ls ih =>
    cases ls with
    | nil => simp [joinLines]
    | cons m ls =>
      have e : joinLines (l :: m :: ls) = l ++ '\n' :: joinLines (m :: ls) := rfl
      rw [e, List.append_assoc, List.cons_append, ih (by simp)]
      simp

theorem clean_row {cs : List Cell} (hne : cs ≠ []) (h : ∀ c ∈ cs, c.Valid) : Clean (Line.row 0 cs).text := by
  have hall : ∀ c ∈ cs, '\n' ∉ c.text := by
    intro c hc
    have hv := h c hc
    have := (items_line hv.from_ hv.line hv.last).1
    unfold Cell.text blanks
    simp only [List.mem_append, not_or]
    exact ⟨fun hx => absurd (List.eq_of_mem_replicate hx) (by decide), this, fun hx => absurd (List.eq_of_mem_replicate hx) (by decide)⟩
  constructor
  · show '\n' ∉ '|' :: _
    rw [List.mem_cons, not_or]
    refine ⟨by decide, fun hc => ?_⟩
    obtain ⟨t, ht, hc⟩ := List.mem_flatten.mp hc
    obtain ⟨c, hc', rfl⟩ := List.mem_map.mp ht
    rcases List.mem_append.mp hc with hc | hc
    · exact hall c hc' hc
    · exact absurd (List.mem_singleton.mp hc) (by decide)
  · obtain ⟨c, r, rfl⟩ : ∃ r c, cs = r ++ [c] := ⟨cs.dropLast, cs.getLast hne, (List.dropLast_append_getLast hne).symm⟩
    show ('|' :: ((c ++ [r]).map fun c => c.text ++ ['|']).flatten).getLast? ≠ _
    rw [List.map_append, List.flatten_append]
    have : ([r].map fun c => c.text ++ ['|']).flatten = r.text ++ ['|'] := by simp
    rw [this, ← List.append_assoc, ← List.cons_append, List.getLast?_append_of_ne_nil _ (by simp)]
    decide

theorem clean_doc {d : List Chunk} (h : ∀ c ∈ d, c.Valid) (ha : ∀ c ∈ d, c.Apart) : ∀ l ∈ (d.map Chunk.lines).flatten, Clean l := by
  intro l hl
  obtain ⟨ls, hls, hl⟩ := List.mem_flatten.mp hl
  obtain ⟨c, hc, rfl⟩ := List.mem_map.mp hls
  have hv := canon_chunk (h c hc) (ha c hc)
  cases c with
  | table ls =>
    obtain ⟨x, hx, rfl⟩ := List.mem_map.mp hl
    have hr := hv.1 x hx
    obtain ⟨_, _, _, _, rfl⟩ := canon_lines hx
    exact clean_row hr.1 hr.2.1
  | para is n =>
    rcases List.mem_cons.mp hl with rfl | hl
    · exact items_line hv.1.from_ hv.2 hv.1.last
    · rw [List.eq_of_mem_replicate hl]
      exact ⟨by simp, nofun⟩

theorem chunks_valid {d : List Chunk} (h : DocValid d) : ∀ c ∈ d, c.Valid := by
  induction d with
  | nil => simp
  | cons c d ih =>
    intro x hx
    rcases List.mem_cons.mp hx with rfl | hx
    · exact h.1
    · exact ih h.2.2 x hx

theorem lines_ne {d : List Chunk} (h : DocValid d) (hne : d ≠ []) : (d.map Chunk.lines).flatten ≠ [] := by
  cases d with
  | nil => exact absurd rfl hne
  | cons c d =>
    rw [List.map_cons, List.flatten_cons]
    intro he
    have he := (List.append_eq_nil_iff.mp he).1
    cases c with
    | para is n => cases he
    | table ls =>
      obtain ⟨⟨l, e⟩, hl, hr⟩ := h.1.2
      have he := List.map_eq_nil_iff.mp he
      cases l with
      | rule n ms => cases hr
      | row n cs =>
        have : (Line.row 0 (canonCells cs), 0) ∈ ls.filterMap fun l => l.1.canon := List.mem_filterMap.mpr ⟨_, hl, rfl⟩
        rw [he] at this
        cases this

theorem lines_total (ls : List Text) : total ls ≤ ((ls.map fun l => l ++ ['\n']).flatten).length := by
  induction ls with
  | nil => exact Nat.le_refl _
  | cons l ls ih =>
    have e : total (l :: ls) = l.length + total ls := by simp [total]
    rw [List.map_cons, List.flatten_cons, List.length_append, List.length_append, e]
    omega

/-- The document is written as the text of its canonical form, without the last line end. -/
theorem write_doc (o : Layout.Options Rat) (ho : Layout.Sane o) {d : List Chunk} (h : DocValid d) (hne : d ≠ []) (ha : ∀ c ∈ d, c.Apart)
    (hsize : (docText (d.map Chunk.canon)).length ≤ 1000000000) (fuel : Nat) (hf : 4097 ≤ fuel) :
    ∃ t, write Layout.exact o fuel (d.map Chunk.got).flatten = some (.ok t) ∧ t ++ ['\n'] = docText (d.map Chunk.canon) := by
  have hl := lines_ne h hne
  refine ⟨_, write_lines o ho (chunks_valid h) (clean_doc (chunks_valid h) ha) ?_ fuel hf, ?_⟩
  · rw [lines_doc] at hsize
    have h1 : ∀ ls : List Text, ls ≠ [] → total ls < ((ls.map fun l => l ++ ['\n']).flatten).length := by
      intro ls hne
      cases ls with
      | nil => exact absurd rfl hne
      | cons l ls =>
        have := lines_total ls
        have e : total (l :: ls) = l.length + total ls := by simp [total]
        rw [List.map_cons, List.flatten_cons, List.length_append, List.length_append, e, List.length_singleton]
        omega
    have := h1 _ hl
    omega
  · rw [join_ends hl, lines_doc]

end Verif.Grid
