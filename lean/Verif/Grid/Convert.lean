import Verif.Grid.Parse
import Verif.Link.Again
import Verif.Code.Convert

/-!
# From the nodes of a document to its tables
-/

namespace Verif.Grid
open Verif.NodeGroup Verif.NodeGroup.Spec
open Verif.Parser (NK)
open Verif.Token (TK Tok)
open Verif.Sem (children groupsF children_tree groupsF_append)
open Verif.Stamp (Out Shows Raw gapRaw)
open Verif.Drawer (Text)
open Verif.Link (getText text_at said said_append said_length docF docRaw Item LinkedFrom Linked Part parts_items)
open Verif.Code (each each_append each_cons breakKind)

theorem shows_left {toks : List Tok} {i : Nat} {a b : Raw} (h : Shows toks i (said (a ++ b))) : Shows toks i (said a) := by
  rw [said_append] at h
  exact h.left

theorem shows_right {toks : List Tok} {i : Nat} {a b : Raw} (h : Shows toks i (said (a ++ b))) : Shows toks (i + a.length) (said b) := by
  rw [said_append] at h
  have := h.right
  rwa [said_length] at this

theorem shows_tail {toks : List Tok} {i : Nat} {x : TK × Text} {r : Raw} (h : Shows toks i (said (x :: r))) : Shows toks (i + 1) (said r) :=
  shows_right (a := [x]) h

/-- No item is an error. -/
theorem items_fine (is : List Item) (i : Nat) : (groupsF (docF i is)).any Sem.isError = false := by
  induction is generalizing i with
  | nil => rfl
  | cons it r ih =>
    rw [docF, groupsF_append, List.any_append, ih, Bool.or_false]
    cases it with
    | piece p =>
      show (Sem.isError [⟨p.leafKind, .tok i⟩] || false) = false
      generalize p.leafKind = k
      cases k <;> rfl
    | _ => rfl

theorem got_blank {i : Item} (h : i.isBlank = false) : i.got.isBlank = false := by
  cases i with
  | piece p => refine Link.blank_piece ?_ ?_ <;> (rintro k rfl; cases h)
  | _ => rfl

/-- Of what is at the end of a paragraph, blanks are dropped. -/
theorem para_trim {is : List Item} (h : ∀ i ∈ is.getLast?, i.got.isBlank = false) (ws : List Part) (hw : ∀ p ∈ ws, p.isBlank = true) :
    ((is.map Item.got ++ ws).reverse.dropWhile Part.isBlank).reverse = is.map Item.got := by
  have key : ∀ (l m : List Part), (∀ p ∈ l, p.isBlank = true) → (l ++ m).dropWhile Part.isBlank = m.dropWhile Part.isBlank := by
    intro l m hl
    induction l with
    | nil => rfl
    | cons p l ih =>
      rw [List.cons_append, List.dropWhile_cons_of_pos (hl p List.mem_cons_self), ih (fun q hq => hl q (List.mem_cons_of_mem _ hq))]
  rw [List.reverse_append, key _ _ (fun p hp => hw p (List.mem_reverse.mp hp))]
  cases hl : is.getLast? with
  | none =>
    rw [List.getLast?_eq_none_iff] at hl
    rw [hl]
    rfl
  | some i =>
    obtain ⟨r, hr⟩ := List.getLast?_eq_some_iff.mp hl
    have hi := h i (by rw [hl]; rfl)
    rw [hr, List.map_append, List.reverse_append]
    show (((i.got :: (r.map Item.got).reverse)).dropWhile Part.isBlank).reverse = _
    rw [List.dropWhile_cons_of_neg (by rw [hi]; decide)]
    simp

theorem linked_parts {toks : List Tok} {is js : List Item} {b : Bool} (h : LinkedFrom b (is ++ js)) : ∀ i, Shows toks i (said (docRaw is)) →
    Link.partsOf toks (groupsF (docF i is)) = .ok (is.map Item.got) := by
  induction is generalizing b with
  | nil => intro i _; rfl
  | cons it r ih =>
    intro i hs
    rw [Link.docRaw_cons] at hs
    obtain ⟨a, g1, g2⟩ := Link.item_part h (shows_left hs)
    have hr : ∃ b, LinkedFrom b (r ++ js) := by
      cases it with
      | piece p => exact ⟨_, h.2.2.2.2.2⟩
      | link hd d => exact ⟨_, h.2.2⟩
      | url s u => exact ⟨_, h.2.2⟩
      | note u => exact ⟨_, h.2.2⟩
    obtain ⟨b', hr⟩ := hr
    rw [docF, groupsF_append, g1, List.singleton_append, Link.partsOf, g2]
    simp only [Out.bind, ih hr _ (shows_right hs)]
    rfl

theorem cell_parts {toks : List Tok} {c : Cell} (hc : c.Valid) {i : Nat} (h : Shows toks (i + 1) (said c.raw)) :
    each (cellOf toks) (groupsF (cellF i c)) = .ok [[c.items.map Item.got]] := by
  refine each_cons ?_ rfl
  unfold cellOf
  rw [if_neg (by simp [Sem.kindOf]), children_tree]
  simp only [groupsF]
  rw [if_neg (by simp [Sem.kindOf]), children_tree]
  refine each_cons ?_ rfl
  unfold parOf Link.paraOf
  rw [children_tree, if_pos ⟨rfl, items_fine _ _⟩, linked_parts hc.from_ _ (shows_left (shows_right h))]
  simp only [Out.bind]
  have := para_trim (is := c.items) (fun i hi => got_blank (hc.last i hi)) [] (by simp)
  rw [List.append_nil] at this
  rw [this]

theorem cells_parts {toks : List Tok} {cs : List Cell} (hc : ∀ c ∈ cs, c.Valid) {i : Nat} (h : Shows toks (i + 1) (said (cellsRaw cs))) :
    each (cellOf toks) (groupsF (cellsF i cs)) = .ok (cs.map fun c => [c.items.map Item.got]) := by
  induction cs generalizing i with
  | nil => rfl
  | cons c r ih =>
    have hv := hc c List.mem_cons_self
    have ih := fun {i} => ih (fun x hx => hc x (List.mem_cons_of_mem _ hx)) (i := i)
    rw [cellsF, groupsF_append, List.map_cons]
    cases r with
    | nil => exact each_append (cell_parts hv (shows_left (b := [(TK.TrailingPipe, ['|'])]) h)) rfl
    | cons d r =>
      have h : Shows toks (i + 1) (said (c.raw ++ ((TK.Pipe, ['|']) :: cellsRaw (d :: r)))) := h
      refine each_append (cell_parts hv (shows_left h)) (ih ?_)
      have := shows_tail (shows_right h)
      rwa [show i + 1 + c.raw.length + 1 = i + 1 + c.raw.length + 1 from rfl] at this

/-- What is found in a line. -/
def Line.got : Line → Option (List (List (List Part)))
  | .row _ cells => some (cells.map fun c => [c.items.map Item.got])
  | .rule _ _ => none

theorem lines_parts {toks : List Tok} {ls : List (Line × Nat)} (hl : ∀ l ∈ ls, l.1.Valid) {i : Nat} (h : Shows toks i (said (linesRaw ls))) :
    each (rowOf toks) (groupsF (linesF i ls)) = .ok (ls.filterMap fun l => l.1.got) := by
  induction ls generalizing i with
  | nil => rfl
  | cons l ls ih =>
    rw [lines_cons] at h
    have hv := hl l List.mem_cons_self
    have ih := fun {i} => ih (fun x hx => hl x (List.mem_cons_of_mem _ hx)) (i := i)
    have h2 := shows_tail (shows_right h)
    obtain ⟨l, e⟩ := l
    cases l with
    | row n cs =>
      have hlen : (Line.raw (.row n cs)).length = 1 + (cellsRaw cs).length := by simp [Line.raw]; omega
      have hf : (((Line.row n cs, e) :: ls).filterMap fun l => l.1.got) = [cs.map fun c => [c.items.map Item.got]] ++ ls.filterMap fun l => l.1.got := rfl
      have e2 : linesF i ((.row n cs, e) :: ls) = (rowF i cs).append (linesF (i + (Line.raw (.row n cs)).length + 1) ls) := by
        rw [hlen]
        show (rowF i cs).append (linesF (i + 1 + (cellsRaw cs).length + 1) ls) = _
        rw [Nat.add_assoc i 1]
      rw [hf, e2, groupsF_append]
      refine each_append (each_cons ?_ rfl) (ih h2)
      unfold rowOf
      rw [if_neg (by simp [Sem.kindOf]), children_tree]
      simp only [groupsF]
      rw [if_neg (by simp [Sem.kindOf]), children_tree]
      exact cells_parts hv.2.1 (shows_tail (shows_left h))
    | rule n ms => exact ih h2

theorem rows_fine (i : Nat) (ls : List (Line × Nat)) : (groupsF (linesF i ls)).any Sem.isError = false := by
  induction ls generalizing i with
  | nil => rfl
  | cons l ls ih =>
    obtain ⟨l, e⟩ := l
    cases l with
    | row n cs =>
      show (groupsF ((rowF i cs).append (linesF _ ls))).any _ = _
      rw [groupsF_append, List.any_append, ih]
      rfl
    | rule n ms => exact ih _

theorem rows_ne {i : Nat} {ls : List (Line × Nat)} (h : ∃ l ∈ ls, l.1.isRow = true) : ∃ a as, groupsF (linesF i ls) = a :: as := by
  induction ls generalizing i with
  | nil =>
    obtain ⟨l, hl, -⟩ := h
    cases hl
  | cons l ls ih =>
    obtain ⟨l, e⟩ := l
    cases l with
    | row n cs =>
      show ∃ a as, groupsF ((rowF i cs).append (linesF _ ls)) = a :: as
      rw [groupsF_append]
      exact ⟨_, _, rfl⟩
    | rule n ms =>
      obtain ⟨x, hx, hr⟩ := h
      rcases List.mem_cons.mp hx with rfl | hx
      · cases hr
      · exact ih ⟨x, hx, hr⟩

/-- What is found of a part of a document. -/
def Chunk.got : Chunk → List Node
  | .table lines => [.table (lines.filterMap fun l => l.1.got)]
  | .para items n => .para (items.map Item.got) :: (if n = 0 then [] else [.newline (breaks n)])

theorem para_node {toks : List Tok} {is : List Item} (h : Linked is) {i : Nat} {js : List Item} (hj : js = is ∨ js = is ++ [.piece (.brk 0)]) (hs : Shows toks i (said (docRaw js))) :
    nodeOf toks (⟨.Paragraph, .ext (docF i js).count⟩ :: (docF i js).flat) = .ok (.para (is.map Item.got)) := by
  have hp : Link.partsOf toks (groupsF (docF i js)) = .ok (js.map Item.got) := by
    rcases hj with rfl | rfl
    · exact linked_parts h.from_ i hs
    · exact parts_items h.from_ i hs
  have ht : ((js.map Item.got).reverse.dropWhile Part.isBlank).reverse = is.map Item.got := by
    have hl : ∀ x ∈ is.getLast?, x.got.isBlank = false := fun x hx => got_blank (h.last x hx)
    rcases hj with rfl | rfl
    · have := para_trim hl [] (by simp)
      rwa [List.append_nil] at this
    · rw [List.map_append]
      refine para_trim hl _ ?_
      intro p hp
      rw [List.map_cons, List.map_nil, List.mem_singleton] at hp
      subst hp
      rfl
  unfold nodeOf
  rw [children_tree, if_neg (by rw [items_fine]; decide), if_neg (by simp [Sem.kindOf]), if_pos (by simp [Sem.kindOf])]
  unfold Link.paraOf
  rw [children_tree, hp]
  simp only [Out.bind, ht]

theorem chunk_nodes {toks : List Tok} {c : Chunk} (hc : c.Valid) {i : Nat} (h : Shows toks i (said c.raw)) :
    each (nodeOf toks) (groupsF (c.forest i)) = .ok c.got := by
  cases c with
  | table ls =>
    have h : Shows toks i (said (linesRaw ls)) := h
    refine each_cons ?_ rfl
    obtain ⟨a, as, ha⟩ := rows_ne (i := i) hc.2
    have hp := lines_parts hc.1 h
    have hf := rows_fine i ls
    unfold nodeOf
    rw [children_tree]
    have hf : (groupsF (.leaf NK.Empty (.mono ()) (linesF i ls))).any Sem.isError = false := by
      show (_ :: groupsF (linesF i ls)).any _ = _
      rw [List.any_cons, hf]
      rfl
    rw [ha] at hp
    rw [if_neg (by rw [hf]; decide), if_pos (by simp [Sem.kindOf])]
    unfold tableOf
    rw [children_tree]
    simp only [groupsF]
    rw [ha]
    simp only
    rw [if_neg (by simp [Sem.kindOf]), hp]
    rfl
  | para is n =>
    have h : Shows toks i (said (docRaw is ++ [(breakKind n, breaks n)])) := h
    obtain ⟨hl, -⟩ := hc
    by_cases h0 : n = 0
    · subst h0
      have hjs : docRaw (is ++ [.piece (.brk 0)]) = docRaw is ++ [(breakKind 0, breaks 0)] := by
        unfold docRaw
        rw [List.map_append, List.flatten_append]
        rfl
      exact each_cons (para_node hl (.inr rfl) (by rw [hjs]; exact h)) rfl
    · have he : (Chunk.para is n).forest i = .tree .Paragraph (docF i is) (.leaf .Newline (.tok (i + (docRaw is).length)) .nil) := if_neg h0
      have hg : (Chunk.para is n).got = [.para (is.map Item.got), .newline (breaks n)] := by
        show _ :: (if n = 0 then [] else _) = _
        rw [if_neg h0]
      rw [he, hg]
      refine each_cons (para_node hl (.inl rfl) (shows_left h)) (each_cons ?_ rfl)
      have h2 := shows_right h
      have ht : getText toks (⟨.Newline, .tok (i + (docRaw is).length)⟩ :: []) = .ok (breaks n) := by
        have hfin : Link.finalText (breakKind n) (breaks n) = breaks n := by
          match n with
          | 0 | 1 | n + 2 => rfl
        have := text_at h2 .Newline []
        exact this.trans (congrArg Out.ok hfin)
      unfold nodeOf
      rw [if_neg (by simp [children, Sem.groups]), if_neg (by simp [Sem.kindOf]), if_neg (by simp [Sem.kindOf]), if_pos (by simp [Sem.kindOf]), ht]
      rfl

theorem grid_read {toks : List Tok} {d : List Chunk} (hd : DocValid d) {i : Nat} (h : Shows toks i (said (gridRaw d))) :
    each (nodeOf toks) (groupsF (gridF i d)) = .ok (d.map Chunk.got).flatten := by
  induction d generalizing i with
  | nil => rfl
  | cons c d ih =>
    rw [grid_cons] at h
    rw [gridF, groupsF_append, List.map_cons, List.flatten_cons]
    exact each_append (chunk_nodes hd.1 (shows_left h)) (ih hd.2.2 (shows_right h))

/-- Reading of a document. -/
theorem read_grid {d : List Chunk} (h : DocValid d) {n : Nat} (hn : (gridRaw d).length + 5 ≤ n) : readGrid n (docText d) = .ok (.ok (d.map Chunk.got).flatten) := by
  unfold readGrid
  rw [grid_nodes h hn]
  dsimp only
  have e : (Forest.tree NK.StmtList (gridF 1 d) .nil : Forest NK Unit).flat = ⟨.StmtList, .ext (gridF 1 d).count⟩ :: (gridF 1 d).flat := by simp [Forest.flat]
  rw [e, children_tree, grid_read h (Link.shows_placed (gridRaw d))]

end Verif.Grid
