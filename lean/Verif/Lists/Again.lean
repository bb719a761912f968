import Verif.Lists.Convert
import Verif.Grid.Again

/-!
# Lists, written and read again

A list is written with an item on each line; what is below an item is moved to the right by as much as the item's
mark and box are wide.
-/

namespace Verif.Lists
open Verif.Link (Item LinkedFrom render)
open Verif.Drawer (Text)
open Verif.Grid (blanks Fine fine_str)
open Verif.Sem (str stack added box hang ShowsLines AllLines Checkbox hollow)
open Verif.Layout (volume volumes joinLines stripEnd splitLines)
open Verif.Code (total total_append)

/-! ## The picture of a list -/

/-- What is before the words of an item. -/
def Entry.lead (e : Entry) : Text := Lists.lead (some e.mark.text) (boxState e.box)

/-- The lines of the words of an item. -/
def Entry.lines (e : Entry) : List Text := render (e.words.map Item.again) :: (if e.loose then [[]] else [])

def Tree.pic : Tree → List Text
  | .nil => []
  | .cons e _ sub next => hang e.lead (e.lines ++ sub.pic) ++ next.pic

theorem pic_ne {t : Tree} (h : t ≠ .nil) : t.pic ≠ [] := by
  cases t with
  | nil => exact absurd rfl h
  | cons e d sub next => simp [Tree.pic, Sem.hang_ne]

theorem lead_ne (e : Entry) : e.lead.length ≠ 0 := by
  simp [Entry.lead, Lists.lead]

/-- The lines, when the list is moved to the right by `i`. -/
def Tree.lined (i : Nat) : Tree → List Text
  | .nil => []
  | .cons e _ sub next =>
    (blanks i ++ (e.lead ++ render (e.words.map Item.again))) :: ((if e.loose then [[]] else []) ++ (sub.lined (i + e.lead.length) ++ next.lined i))

theorem words_line {e : Entry} (h : e.Valid) (ha : Link.Apart true e.words) :
    '\n' ∉ render (e.words.map Item.again) ∧ (render (e.words.map Item.again)).getLast? ≠ some ' ' ∧ render (e.words.map Item.again) ≠ [] := by
  have h2 := Link.again_linked h.from_ ha
  have h3 := Grid.items_line h2 (Grid.again_line _ h.line) (Grid.again_last h.last)
  refine ⟨h3.1, h3.2, ?_⟩
  obtain ⟨i, r, hr⟩ := List.exists_cons_of_ne_nil (Grid.again_ne h.ne)
  rw [hr] at h2 ⊢
  intro he
  rw [Link.render_cons] at he
  have he := (List.append_eq_nil_iff.mp he).1
  cases i with
  | piece p => exact Link.piece_ne h2.1 he
  | link hd d => simp [Item.text] at he
  | url s u => simp [Item.text, Link.webText] at he
  | note t => simp [Item.text] at he

def Tree.Apart : Tree → Prop
  | .nil => True
  | .cons e _ sub next => Link.Apart true e.words ∧ sub.Apart ∧ next.Apart

theorem blanks_add (i k : Nat) (l : Text) : blanks i ++ (Layout.blanks k ++ l) = blanks (i + k) ++ l := by
  rw [← List.append_assoc]
  congr 1
  show List.replicate i ' ' ++ List.replicate k ' ' = List.replicate (i + k) ' '
  rw [List.replicate_append_replicate]

theorem strip_blanks (i : Nat) : stripEnd (blanks i) = [] := by
  unfold stripEnd Grid.blanks
  rw [List.reverse_replicate, List.dropWhile_replicate]
  simp

theorem pic_lined {t : Tree} (h : t.Valid) (ha : t.Apart) : ∀ i, (t.pic.map (blanks i ++ ·)).map stripEnd = t.lined i := by
  induction t with
  | nil => intro i; rfl
  | cons e d sub next ih1 ih2 =>
    intro i
    obtain ⟨h1, h2, h3⟩ := h
    obtain ⟨a1, a2, a3⟩ := ha
    have hw := words_line h1 a1
    have hfirst : stripEnd (blanks i ++ (e.lead ++ render (e.words.map Item.again))) = blanks i ++ (e.lead ++ render (e.words.map Item.again)) := by
      refine Sem.stripEnd_id ?_
      rw [List.getLast?_append_of_ne_nil _ (by simp [hw.2.2]), List.getLast?_append_of_ne_nil _ hw.2.2]
      exact hw.2.1
    have hsub : ((sub.pic.map (Layout.blanks e.lead.length ++ ·)).map (blanks i ++ ·)).map stripEnd = sub.lined (i + e.lead.length) := by
      rw [← ih1 h2 a2 (i + e.lead.length), List.map_map, List.map_map, List.map_map]
      refine List.map_congr_left fun l _ => ?_
      simp only [Function.comp_apply]
      rw [blanks_add]
    have hempty : (((if e.loose then [[]] else [] : List Text).map (Layout.blanks e.lead.length ++ ·)).map (blanks i ++ ·)).map stripEnd = if e.loose then [[]] else [] := by
      split_ifs
      · simp only [List.map_cons, List.map_nil]
        rw [blanks_add, List.append_nil, strip_blanks]
      · rfl
    show ((hang e.lead (e.lines ++ sub.pic) ++ next.pic).map _).map _ = _
    rw [Entry.lines, List.cons_append, hang, List.map_append, List.map_append, ih2 h3 a3 i, List.map_cons, List.map_cons, hfirst, List.map_append,
      List.map_append, List.map_append, hsub, hempty]
    simp [Tree.lined]

theorem mark_lines {m : Mark} (h : m.Valid) : '\n' ∉ m.text := by
  cases m with
  | minus => decide
  | plus => decide
  | number ds p =>
    show '\n' ∉ ds ++ _
    rw [List.mem_append, not_or]
    refine ⟨fun hc => absurd (h.2 _ hc) (by decide), by cases p <;> decide⟩

theorem lead_line {e : Entry} (h : e.Valid) : '\n' ∉ e.lead := by
  show '\n' ∉ (e.mark.text ++ [' ']) ++ _
  simp only [List.mem_append, not_or]
  refine ⟨⟨mark_lines h.mark, by decide⟩, ?_⟩
  cases boxState e.box <;> decide

theorem pic_line {t : Tree} (h : t.Valid) (ha : t.Apart) : ∀ l ∈ t.pic, '\n' ∉ l := by
  induction t with
  | nil => nofun
  | cons e d sub next ih1 ih2 =>
    obtain ⟨h1, h2, h3⟩ := h
    obtain ⟨a1, a2, a3⟩ := ha
    intro l hl
    have hb : ∀ k, '\n' ∉ Layout.blanks k := fun k hc => absurd (List.eq_of_mem_replicate hc) (by decide)
    rcases List.mem_append.mp hl with hl | hl
    · rw [Entry.lines, List.cons_append, hang] at hl
      rcases List.mem_cons.mp hl with rfl | hl
      · rw [List.mem_append, not_or]
        exact ⟨lead_line h1, (words_line h1 a1).1⟩
      · obtain ⟨x, hx, rfl⟩ := List.mem_map.mp hl
        rw [List.mem_append, not_or]
        refine ⟨hb _, ?_⟩
        rcases List.mem_append.mp hx with hx | hx
        · split_ifs at hx
          · rw [List.mem_singleton.mp hx]; nofun
          · cases hx
        · exact ih1 h2 a2 x hx
    · exact ih2 h3 a3 l hl

theorem printed_lined {t : Tree} (h : t.Valid) (ha : t.Apart) : Layout.printed (box t.pic) = joinLines (t.lined 0) := by
  rw [Raw.printed_split]
  have : (t.pic.map splitLines).flatten = t.pic := by
    have hl := pic_line h ha
    generalize t.pic = ls at hl
    induction ls with
    | nil => rfl
    | cons l ls ih =>
      rw [List.map_cons, List.flatten_cons, ih fun x hx => hl x (List.mem_cons_of_mem _ hx), Sem.splitLines_line l (hl l List.mem_cons_self)]
      rfl
  rw [this, Sem.textOf]
  congr 1
  rw [← pic_lined h ha 0]
  congr 1
  exact (List.map_id' t.pic).symm

/-! ## What is shown -/

theorem known_tree {t : Tree} (h : t.Valid) : t.got.plain = true := by
  induction t with
  | nil => rfl
  | cons e d sub next ih1 ih2 =>
    obtain ⟨h1, h2, h3⟩ := h
    have hk := Grid.known_items h1.from_ h1.line
    have hb : (below sub sub.got).plain = true := by
      cases sub with
      | nil => rfl
      | cons e' d' s n =>
        show (_ && true) = true
        rw [ih1 h2]
        rfl
    show ((_ && _) && _) = true
    rw [ih2 h3, hk]
    split_ifs
    · exact congrArg (fun x => (true && x) && true) hb
    · exact congrArg (fun x => (true && x) && true) hb

theorem empty_line : ShowsLines (stack (added (List.replicate ("\n\n".toList.length - 1) (str [])))) [[]] :=
  (AllLines.cons (Sem.single_str []).lines .nil).addedStack

theorem volume_stack (bs : List Layout.Block) : volume (stack (added bs)) ≤ volumes bs := Sem.volumes_added bs

theorem total_cons (t : Text) (ts : List Text) : total (t :: ts) = t.length + total ts := by simp [total]

theorem tree_shown {t : Tree} (h : t.Valid) : (∃ ls, AllLines t.got.fmt ls ∧ ls.flatten = t.pic) ∧ ∀ i, volumes t.got.fmt ≤ total (t.lined i) := by
  induction t with
  | nil => exact ⟨⟨[], .nil, rfl⟩, fun _ => Nat.le_refl _⟩
  | cons e d sub next ih1 ih2 =>
    obtain ⟨h1, h2, h3⟩ := h
    obtain ⟨⟨ls, k1, k2⟩, k3⟩ := ih2 h3
    obtain ⟨⟨ms, s1, s2⟩, s3⟩ := ih1 h2
    have hp := Grid.fine_para h1.from_ h1.line h1.ne
    have hbelow : ∃ ns, AllLines (below sub sub.got).fmt ns ∧ ns.flatten = sub.pic ∧ ∀ i, volumes (below sub sub.got).fmt ≤ total (sub.lined i) := by
      cases sub with
      | nil => exact ⟨[], .nil, rfl, fun _ => Nat.le_refl _⟩
      | cons e' d' s n =>
        refine ⟨[ms.flatten], .cons s1.addedStack .nil, by rw [← s2]; simp, fun i => ?_⟩
        show volume (stack (added _)) + 0 ≤ _
        exact Nat.le_trans (volume_stack _) (s3 i)
    obtain ⟨ns, n1, n2, n3⟩ := hbelow
    have hbody : ∃ bs, AllLines (e.gotBody (below sub sub.got)).fmt bs ∧ bs.flatten = e.lines ++ sub.pic ∧
        ∀ i, volumes (e.gotBody (below sub sub.got)).fmt ≤ (render (e.words.map Item.again)).length + total (sub.lined i) := by
      cases hl : e.loose with
      | false =>
        have he : e.gotBody (below sub sub.got) = .para (e.words.map Item.got) (below sub sub.got) := by simp [Entry.gotBody, hl]
        rw [he]
        refine ⟨_, .cons hp.single.lines n1, by simp [Entry.lines, hl, n2], fun i => ?_⟩
        exact Nat.add_le_add hp.small (n3 i)
      | true =>
        have he : e.gotBody (below sub sub.got) = .para (e.words.map Item.got) (.newline "\n\n".toList (below sub sub.got)) := by simp [Entry.gotBody, hl]
        rw [he]
        refine ⟨_, .cons hp.single.lines (.cons empty_line n1), by simp [Entry.lines, hl, n2], fun i => ?_⟩
        refine Nat.add_le_add hp.small ?_
        have hv : volume (stack (added (List.replicate ("\n\n".toList.length - 1) (str [])))) = 0 := by decide
        show volume (stack (added (List.replicate ("\n\n".toList.length - 1) (str [])))) + _ ≤ _
        rw [hv, Nat.zero_add]
        exact n3 i
    obtain ⟨bs, b1, b2, b3⟩ := hbody
    have hitem := Sem.hang_lines (Sem.single_str e.lead) b1.addedStack
    rw [b2] at hitem
    refine ⟨⟨_, .cons hitem k1, by rw [List.flatten_cons, k2]; rfl⟩, fun i => ?_⟩
    have e1 : total ((Tree.cons e d sub next).lined i) = (blanks i ++ (e.lead ++ render (e.words.map Item.again))).length + (total (sub.lined (i + e.lead.length)) + total (next.lined i)) := by
      rw [Tree.lined, total_cons, total_append, total_append]
      have : total (if e.loose then [[]] else [] : List Text) = 0 := by split_ifs <;> rfl
      rw [this, Nat.zero_add]
    have h4 : volume (.line [str e.lead, stack (added (e.gotBody (below sub sub.got)).fmt)]) ≤ e.lead.length + ((render (e.words.map Item.again)).length + total (sub.lined (i + e.lead.length))) := by
      simp only [volume, volumes, Sem.volume_str, Nat.add_zero]
      have := Nat.le_trans (volume_stack (e.gotBody (below sub sub.got)).fmt) (b3 (i + e.lead.length))
      omega
    have h5 := k3 i
    show volume _ + volumes _ ≤ _
    rw [e1, List.length_append, List.length_append]
    have h4 : volume (.line [str (lead (some e.mark.text) (boxState e.box)), stack (added (e.gotBody (below sub sub.got)).fmt)]) ≤ _ := h4
    omega

theorem write_lined (o : Layout.Options Rat) (ho : Layout.Sane o) {t : Tree} (h : t.Valid) (hne : t ≠ .nil) (ha : t.Apart)
    (hsize : total (t.lined 0) < 1000000000) (fuel : Nat) (hf : 4097 ≤ fuel) :
    write Layout.exact o fuel (.list t.got .nil) = some (.ok (joinLines (t.lined 0))) := by
  obtain ⟨⟨ls, k1, k2⟩, k3⟩ := tree_shown h
  have h2 := k1.addedStack
  have h3 := (AllLines.cons h2 .nil).addedStack
  rw [List.flatten_cons, List.flatten_nil, List.append_nil, k2] at h3
  have h3 : ShowsLines (stack (added (Nodes.list t.got .nil).fmt)) t.pic := h3
  have hv : volume (stack (added (Nodes.list t.got .nil).fmt)) ≤ total (t.lined 0) := by
    refine Nat.le_trans (volume_stack _) ?_
    show volume (stack (added _)) + 0 ≤ _
    exact Nat.le_trans (volume_stack _) (k3 0)
  unfold write
  rw [if_pos (by show (_ && true) = true; rw [known_tree h]; rfl)]
  congr 1
  unfold fmtDocument
  split
  · next e =>
    rw [e] at h3
    exact absurd (h3.solid.mp rfl) (pic_ne hne)
  · rw [Layout.toString_returns_partial o ho _ h3.filled (Nat.lt_of_le_of_lt hv hsize) fuel hf, h3.shows, printed_lined h ha]

/-! ## It is a list again -/

def canonBox : Option Box → Option Box
  | some (.done _) => some (.done false)
  | b => b

/-- How an item is written. -/
def Entry.canon (e : Entry) : Entry := ⟨e.mark, 0, canonBox e.box, e.words.map Item.again, e.loose⟩

def Tree.canon : Tree → Tree
  | .nil => .nil
  | .cons e _ sub next => .cons e.canon (e.lead.length - 1) sub.canon next.canon

theorem canon_valid {t : Tree} (h : t.Valid) (ha : t.Apart) : t.canon.Valid := by
  induction t with
  | nil => trivial
  | cons e d sub next ih1 ih2 =>
    obtain ⟨h1, h2, h3⟩ := h
    obtain ⟨a1, a2, a3⟩ := ha
    exact ⟨⟨h1.mark, Link.again_linked h1.from_ a1, Grid.again_line _ h1.line, Grid.again_ne h1.ne, Grid.again_first h1.first, Grid.again_last h1.last⟩,
      ih1 h2 a2, ih2 h3 a3⟩

theorem canon_state (b : Option Box) : boxState (canonBox b) = boxState b := by
  rcases b with _ | b
  · rfl
  · cases b <;> rfl

theorem canon_got {t : Tree} (ha : t.Apart) : t.canon.got = t.got := by
  induction t with
  | nil => rfl
  | cons e d sub next ih1 ih2 =>
    obtain ⟨a1, a2, a3⟩ := ha
    have hb : below sub.canon sub.canon.got = below sub sub.got := by
      rw [ih1 a2]
      cases sub <;> rfl
    show Nodes.item _ (boxState (canonBox e.box)) (e.canon.gotBody (below sub.canon sub.canon.got)) next.canon.got = _
    rw [ih2 a3, hb, canon_state]
    have : e.canon.gotBody (below sub sub.got) = e.gotBody (below sub sub.got) := by
      show Nodes.para ((e.words.map Item.again).map Item.got) _ = Nodes.para (e.words.map Item.got) _
      rw [Link.apart_got a1]
      rfl
    rw [this]
    rfl

theorem lead_text (e : Entry) : e.lead = e.mark.text ++ (blanks 1 ++ boxText (canonBox e.box)) := by
  obtain ⟨m, g, b, w, l⟩ := e
  show (m.text ++ [' ']) ++ _ = m.text ++ ([' '] ++ boxText (canonBox b))
  rw [List.append_assoc]
  congr 2
  rcases b with _ | b
  · rfl
  · cases b <;> rfl

theorem canon_text (t : Tree) : ∀ i, t.canon.text i = ((t.lined i).map fun l => l ++ ['\n']).flatten := by
  induction t with
  | nil => intro i; rfl
  | cons e d sub next ih1 ih2 =>
    intro i
    have hk : i + (e.lead.length - 1 + 1) = i + e.lead.length := by have := lead_ne e; omega
    show blanks i ++ (e.canon.text ++ (sub.canon.text (i + (e.lead.length - 1 + 1)) ++ next.canon.text i)) = _
    rw [hk, ih1, ih2, Tree.lined, List.map_cons, List.flatten_cons, List.map_append, List.map_append, List.flatten_append, List.flatten_append, lead_text]
    have he : e.canon.text = e.mark.text ++ (blanks 1 ++ (boxText (canonBox e.box) ++ (render (e.words.map Item.again) ++ e.breaks))) := rfl
    have hb : e.breaks = ['\n'] ++ ((if e.loose then [[]] else [] : List Text).map fun l => l ++ ['\n']).flatten := by
      unfold Entry.breaks
      split_ifs <;> rfl
    rw [he, hb]
    simp only [List.append_assoc]

theorem lined_ne {t : Tree} (h : t ≠ .nil) (i : Nat) : t.lined i ≠ [] := by
  cases t with
  | nil => exact absurd rfl h
  | cons e d sub next => nofun

/-- The list is written as the text of its canonical form, without the last line end. -/
theorem write_tree (o : Layout.Options Rat) (ho : Layout.Sane o) {t : Tree} (h : t.Valid) (hne : t ≠ .nil) (ha : t.Apart)
    (hsize : (joinLines (t.lined 0)).length < 1000000000) (fuel : Nat) (hf : 4097 ≤ fuel) :
    write Layout.exact o fuel (.list t.got .nil) = some (.ok (joinLines (t.lined 0))) := by
  refine write_lined o ho h hne ha ?_ fuel hf
  have key : ∀ ls : List Text, total ls ≤ (joinLines ls).length := by
    intro ls
    induction ls with
    | nil => exact Nat.le_refl _
    | cons l ls ih =>
      rw [total_cons]
      cases ls with
      | nil => simp [joinLines, total]
      | cons m ls =>
        have e : joinLines (l :: m :: ls) = l ++ '\n' :: joinLines (m :: ls) := rfl
        rw [e, List.length_append, List.length_cons]
        omega
  have := key (t.lined 0)
  omega

end Verif.Lists
