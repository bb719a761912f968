import Verif.Lists.Parse
import Verif.Grid.Props

/-!
# From the nodes of a list to its items
-/

namespace Verif.Lists
open Verif.NodeGroup Verif.NodeGroup.Spec
open Verif.Parser (NK)
open Verif.Token (TK Tok)
open Verif.Sem (children groupsF children_tree groupsF_append)
open Verif.Stamp (Out Shows Raw gapRaw)
open Verif.Drawer (Text)
open Verif.Link (getText text_at said said_append said_length docF docRaw Item LinkedFrom Part parts_items)
open Verif.Code (breakKind)
open Verif.Grid (shows_left shows_right shows_tail items_fine got_blank para_trim linked_parts blanks known_part)

/-- The words of an item are read. -/
theorem words_para {toks : List Tok} {e : Entry} (h : e.Valid) {i : Nat} (hs : Shows toks i (said (docRaw e.paraItems))) :
    Link.paraOf toks (⟨.Paragraph, .ext (docF i e.paraItems).count⟩ :: (docF i e.paraItems).flat) = .ok (e.words.map Item.got) := by
  have hj : e.paraItems = e.words ∨ e.paraItems = e.words ++ [.piece (.brk 0)] := by
    unfold Entry.paraItems
    split_ifs
    · exact .inl rfl
    · exact .inr rfl
  generalize e.paraItems = js at hj hs
  have hp : Link.partsOf toks (groupsF (docF i js)) = .ok (js.map Item.got) := by
    rcases hj with rfl | rfl
    · exact linked_parts h.from_ i hs
    · exact linked_parts (js := []) (by rw [List.append_nil]; exact h.from_) i hs
  have ht : ((js.map Item.got).reverse.dropWhile Part.isBlank).reverse = e.words.map Item.got := by
    have hl : ∀ x ∈ e.words.getLast?, x.got.isBlank = false := fun x hx => got_blank (h.last x hx)
    rcases hj with rfl | rfl
    · have := para_trim hl [] (by simp)
      rwa [List.append_nil] at this
    · rw [List.map_append]
      refine para_trim hl _ ?_
      intro p hp
      rw [List.map_cons, List.map_nil, List.mem_singleton] at hp
      subst hp
      rfl
  unfold Link.paraOf
  rw [children_tree, hp]
  simp only [Out.bind, ht]

theorem strip_mark {m : Mark} (h : m.Valid) (i : Nat) : Sem.stripSets (blanks i ++ m.text) (fun c => decide (c = ' ')) (fun c => decide (c = ' ')) = m.text := by
  obtain ⟨c, u, hc, hs, -⟩ := mark_first h
  have h1 : (blanks i ++ m.text).dropWhile (fun c => decide (c = ' ')) = m.text := by
    induction i with
    | zero =>
      show m.text.dropWhile _ = _
      rw [hc, List.dropWhile_cons_of_neg (by simpa using hs)]
    | succ i ih =>
      show (' ' :: (blanks i ++ m.text)).dropWhile _ = _
      rw [List.dropWhile_cons_of_pos (by decide), ih]
  have h2 : m.text.getLast? ≠ some ' ' := by
    cases m with
    | minus => decide
    | plus => decide
    | number ds p =>
      rw [Mark.text, List.getLast?_append_of_ne_nil _ (by simp)]
      cases p <;> decide
  have h3 := Link.strip_spaces (t := m.text) (by rw [hc]; simpa using hs) h2
  unfold Link.stripSpaces Sem.stripSets at h3
  unfold Sem.stripSets
  have h4 : m.text.dropWhile (fun c => decide (c = ' ')) = m.text := by
    rw [hc, List.dropWhile_cons_of_neg (by simpa using hs)]
  rw [h4] at h3
  rw [h1, h3]

theorem mark_read {toks : List Tok} {e : Entry} (h : e.Valid) {i p : Nat} (hs : Shows toks p (said (e.raw i))) :
    bulletOf toks [⟨.RawText, .tok p⟩] = .ok (some e.mark.text) := by
  have ht : getText toks [⟨NK.RawText, .tok p⟩] = .ok (blanks i ++ e.mark.text) := by
    have := text_at hs .RawText []
    have hf : Link.finalText e.mark.kind (blanks i ++ e.mark.text) = blanks i ++ e.mark.text := by cases e.mark <;> rfl
    exact this.trans (congrArg Out.ok hf)
  unfold bulletOf
  rw [if_neg (by simp [Sem.kindOf]), ht]
  simp only [Out.bind]
  rw [strip_mark h.mark i]

theorem box_read {toks : List Tok} {b : Box} {p : Nat} {r : Raw} (hs : Shows toks p (said ((TK.Checkbox, b.text) :: r))) :
    boxOf toks [⟨.Checkbox, .tok p⟩] = .ok (boxState (some b)) := by
  have ht : getText toks [⟨NK.Checkbox, .tok p⟩] = .ok b.text := text_at hs .Checkbox []
  unfold boxOf
  rw [if_neg (by simp [Sem.kindOf]), ht]
  cases b with
  | empty => rfl
  | done c => cases c <;> rfl
  | partly => rfl

/-! ## Items -/

/-- What is found of a list. -/
def below (sub : Tree) (items : Nodes) : Nodes :=
  match sub with
  | .nil => .nil
  | .cons _ _ _ _ => .list items .nil

def Entry.gotBody (e : Entry) (b : Nodes) : Nodes := .para (e.words.map Item.got) (if e.loose then .newline "\n\n".toList b else b)

def Tree.got : Tree → Nodes
  | .nil => .nil
  | .cons e _ sub next => .item (some e.mark.text) (boxState e.box) (e.gotBody (below sub sub.got)) next.got

theorem known_got {t : Tree} (hk : Link.Known t.words) : t.got = t.nodes := by
  induction t with
  | nil => rfl
  | cons e d sub next ih1 ih2 =>
    have h1 : Link.Known e.words := fun name ps d hm => hk name ps d (List.mem_append_left _ hm)
    have h2 : Link.Known sub.words := fun name ps d hm => hk name ps d (List.mem_append_right _ (List.mem_append_left _ hm))
    have h3 : Link.Known next.words := fun name ps d hm => hk name ps d (List.mem_append_right _ (List.mem_append_right _ hm))
    show Nodes.item _ _ (.para (e.words.map Item.got) (if e.loose then .newline _ (below sub sub.got) else below sub sub.got)) next.got = _
    rw [known_part h1, ih1 h2, ih2 h3]
    cases sub <;> rfl

/-- How deep the conversion goes. -/
def Tree.cost : Tree → Nat
  | .nil => 0
  | .cons _ _ sub next => sub.cost + next.cost + 6

theorem items_any (t : Tree) : ∀ i p, (groupsF (t.itemsF i p)).any Sem.isError = false := by
  induction t with
  | nil => intro i p; rfl
  | cons e d sub next ih1 ih2 =>
    intro i p
    rw [Tree.itemsF, groupsF_append, List.any_append, ih2]
    rfl

theorem entry_raw_split (e : Entry) (i : Nat) : e.raw i = ((e.mark.kind, blanks i ++ e.mark.text) :: gapRaw (e.gap + 1) ++ boxRaw e.box) ++ (docRaw e.words ++ [(breakKind e.empty, e.breaks)]) := by
  simp [Entry.raw, Entry.rest]

theorem shows_words {toks : List Tok} {e : Entry} {i p : Nat} (hs : Shows toks p (said (e.raw i))) : Shows toks (e.at_ p) (said (docRaw e.words ++ [(breakKind e.empty, e.breaks)])) := by
  rw [entry_raw_split] at hs
  have := shows_right hs
  have hl : p + ((e.mark.kind, blanks i ++ e.mark.text) :: gapRaw (e.gap + 1) ++ boxRaw e.box).length = e.at_ p := by
    simp [Entry.at_, gapRaw]
    omega
  rwa [hl] at this

theorem shows_para {toks : List Tok} {e : Entry} {i p : Nat} (hs : Shows toks p (said (e.raw i))) : Shows toks (e.at_ p) (said (docRaw e.paraItems)) := by
  have := shows_words hs
  unfold Entry.paraItems
  split_ifs with hl
  · exact shows_left this
  · have hb : (breakKind e.empty, e.breaks) = (TK.Newline, ['\n']) := by simp [Entry.empty, Entry.breaks, hl, breakKind]
    rw [hb] at this
    rw [docRaw_brk]
    exact this

theorem break_read {toks : List Tok} {e : Entry} {i p : Nat} (hl : e.loose = true) (hs : Shows toks p (said (e.raw i))) :
    getText toks [⟨.Newline, .tok (e.at_ p + (docRaw e.words).length)⟩] = .ok "\n\n".toList := by
  have := shows_right (shows_words hs)
  have hb : (breakKind e.empty, e.breaks) = (TK.MediumNewline, "\n\n".toList) := by simp [Entry.empty, Entry.breaks, hl, breakKind]
  rw [hb] at this
  exact text_at this .Newline []

/-- The body of an item. -/
theorem body_read {toks : List Tok} {e : Entry} (h : e.Valid) {i p d : Nat} (hs : Shows toks p (said (e.raw i))) {f : Forest NK Unit} {b : Nodes}
    (hb : ∀ d', d ≤ d' → nodesOf toks d' (groupsF f) = .ok b) :
    nodesOf toks (d + 2) (groupsF (.tree .Paragraph (docF (e.at_ p) e.paraItems) ((e.breakF p).append f))) = .ok (e.gotBody b) := by
  rw [groupsF, nodesOf, children_tree, if_neg (by rw [items_fine]; decide), if_neg (by simp [Sem.kindOf]), if_neg (by simp [Sem.kindOf]), if_pos (by simp [Sem.kindOf]),
    words_para h (shows_para hs)]
  simp only [Out.bind]
  unfold Entry.breakF Entry.gotBody
  by_cases hl : e.loose = true
  · rw [if_pos hl, if_pos hl]
    have hg : groupsF ((Forest.leaf NK.Newline (.tok (e.at_ p + (docRaw e.words).length)) .nil : Forest NK Unit).append f) =
        [⟨.Newline, .tok (e.at_ p + (docRaw e.words).length)⟩] :: groupsF f := rfl
    rw [hg, nodesOf, if_neg (by simp [children, Sem.groups]), if_neg (by simp [Sem.kindOf]), if_neg (by simp [Sem.kindOf]), if_neg (by simp [Sem.kindOf]), if_pos (by simp [Sem.kindOf]),
      break_read hl hs]
    simp only [Out.bind, hb d (le_refl _)]
  · rw [if_neg hl, if_neg hl]
    have hg : (Forest.nil : Forest NK Unit).append f = f := rfl
    rw [hg, hb (d + 1) (by omega)]

theorem items_read {toks : List Tok} {t : Tree} (h : t.Valid) : ∀ {i p d : Nat}, Shows toks p (said (t.items i)) → t.cost + 1 ≤ d →
    nodesOf toks d (groupsF (t.itemsF i p)) = .ok t.got := by
  induction t with
  | nil =>
    intro i p d _ hd
    obtain ⟨d, rfl⟩ : ∃ x, d = x + 1 := ⟨d - 1, by omega⟩
    rfl
  | cons e dd sub next ih1 ih2 =>
    intro i p d hs hd
    obtain ⟨h1, h2, h3⟩ := h
    have hcost : (Tree.cons e dd sub next).cost = sub.cost + next.cost + 6 := rfl
    rw [hcost] at hd
    have hs : Shows toks p (said (e.raw i ++ (wrap sub (sub.items (i + (dd + 1))) ++ after sub next (next.items i)))) := hs
    have hse := shows_left hs
    have hsr := shows_right hs
    have hsn : Shows toks (p + (e.raw i).length + (wrap sub (sub.items (i + (dd + 1)))).length + 1) (said (next.items i)) := by
      cases next with
      | nil => intro j u hu; cases hu
      | cons _ _ _ _ => exact shows_tail (shows_right hsr)
    have hbelow : ∀ d', sub.cost + 2 ≤ d' → nodesOf toks d' (groupsF (wrapF sub (sub.itemsF (i + (dd + 1)) (p + (e.raw i).length + 1)))) = .ok (below sub sub.got) := by
      intro d' hd'
      obtain ⟨d', rfl⟩ : ∃ x, d' = x + 1 := ⟨d' - 1, by omega⟩
      cases sub with
      | nil => rfl
      | cons a b c d2 =>
        have hss : Shows toks (p + (e.raw i).length + 1) (said ((Tree.cons a b c d2).items (i + (dd + 1)))) := shows_left (b := [(TK.Dedent, [])]) (shows_tail (shows_left hsr))
        show nodesOf toks (d' + 1) (groupsF (.tree .List _ .nil)) = _
        rw [groupsF, nodesOf, children_tree, if_neg (by rw [items_any]; decide), if_pos (by simp [Sem.kindOf]), ih1 h2 hss (by omega)]
        obtain ⟨d', rfl⟩ : ∃ x, d' = x + 1 := ⟨d' - 1, by omega⟩
        rfl
    obtain ⟨d, rfl⟩ : ∃ x, d = x + 3 := ⟨d - 3, by omega⟩
    have hbody := body_read h1 (d := d) hse (f := wrapF sub (sub.itemsF (i + (dd + 1)) (p + (e.raw i).length + 1))) (b := below sub sub.got) (fun d' hd' => hbelow d' (by omega))
    have hnext := ih2 h3 (i := i) (d := d + 2) hsn (by omega)
    have hbox : ∃ A, groupsF (boxF (p + 2) e.box) = [A] ∧ boxOf toks A = .ok (boxState e.box) ∧ Sem.isError A = false := by
      cases hb : e.box with
      | none => exact ⟨[⟨.Empty, .mono ()⟩], rfl, rfl, rfl⟩
      | some b =>
        refine ⟨[⟨.Checkbox, .tok (p + 2)⟩], rfl, ?_, rfl⟩
        have : Shows toks (p + 2) (said (boxRaw e.box)) := by
          rw [entry_raw_split] at hse
          have := shows_right (shows_left hse)
          have hl : p + ((e.mark.kind, blanks i ++ e.mark.text) :: gapRaw (e.gap + 1)).length = p + 2 := by simp [gapRaw]
          rwa [hl] at this
        rw [hb] at this
        exact box_read this
    obtain ⟨A, hA, hbx, herr⟩ := hbox
    rw [Tree.itemsF, groupsF_append]
    unfold Entry.forest
    rw [groupsF, groupsF, List.singleton_append, nodesOf, children_tree]
    have hch : groupsF (.leaf NK.RawText (.tok p) (.leaf .Empty (.mono ()) ((boxF (p + 2) e.box).append (.leaf .Empty (.mono ())
        (.tree .StmtList (.tree .Paragraph (docF (e.at_ p) e.paraItems) ((e.breakF p).append (wrapF sub (sub.itemsF (i + (dd + 1)) (p + (e.raw i).length + 1))))) .nil))))) =
        [⟨.RawText, .tok p⟩] :: [⟨.Empty, .mono ()⟩] :: A :: [⟨.Empty, .mono ()⟩] ::
          [⟨.StmtList, .ext (Forest.tree .Paragraph (docF (e.at_ p) e.paraItems) ((e.breakF p).append (wrapF sub (sub.itemsF (i + (dd + 1)) (p + (e.raw i).length + 1))))).count⟩ ::
            (Forest.tree .Paragraph (docF (e.at_ p) e.paraItems) ((e.breakF p).append (wrapF sub (sub.itemsF (i + (dd + 1)) (p + (e.raw i).length + 1))))).flat] := by
      rw [groupsF, groupsF, groupsF_append, hA]
      rfl
    rw [hch, if_neg (by simp [Sem.isError] at herr ⊢; exact herr), if_neg (by simp [Sem.kindOf]), if_pos (by simp [Sem.kindOf])]
    dsimp only
    rw [if_neg (by simp [Sem.kindOf]), mark_read h1 hse, hbx, children_tree, hbody]
    simp only [Out.bind]
    rw [hnext]
    rfl

theorem cost_le (t : Tree) : ∀ i p, t.cost ≤ (t.itemsF i p).flat.length := by
  induction t with
  | nil => intro i p; simp [Tree.cost]
  | cons e d sub next ih1 ih2 =>
    intro i p
    have h1 := ih1 (i + (d + 1)) (p + (e.raw i).length + 1)
    have h2 := ih2 i (p + (e.raw i).length + (wrap sub (sub.items (i + (d + 1)))).length + 1)
    have h3 : sub.cost ≤ (wrapF sub (sub.itemsF (i + (d + 1)) (p + (e.raw i).length + 1))).flat.length := by
      cases sub with
      | nil => simp [Tree.cost]
      | cons _ _ _ _ =>
        simp only [wrapF, Forest.flat, List.length_cons, List.length_append]
        omega
    rw [Tree.itemsF, flat_append]
    unfold Entry.forest
    simp only [Forest.flat, flat_append, List.length_cons, List.length_append, Tree.cost]
    have h4 : 1 ≤ (boxF (p + 2) e.box).flat.length := by cases e.box <;> simp [boxF, Forest.flat]
    omega

/-! ## The number of tokens -/

theorem words_le {e : Entry} (h : e.Valid) : (docRaw e.words).length ≤ (Link.render e.words).length := by
  have h1 := Link.items_le h.from_
  rw [docRaw_brk] at h1
  have h2 : Link.render (e.words ++ [.piece (.brk 0)]) = Link.render e.words ++ ['\n'] := by
    simp [Link.render, Item.text, Pipeline.Piece.text]
  rw [h2, List.length_append, List.length_append] at h1
  simpa using h1

theorem entry_le {e : Entry} (h : e.Valid) (i : Nat) : (e.raw i).length + 3 ≤ 2 * e.text.length := by
  have hl := entry_length e i
  have h1 := words_le h
  have h2 : 1 ≤ (Link.render e.words).length := by
    obtain ⟨c, u, hc, -⟩ := words_first h
    rw [hc]
    simp
  have h3 : 1 ≤ e.mark.text.length := by
    obtain ⟨c, u, hc, -⟩ := mark_first h.mark
    rw [hc]
    simp
  have h4 : (boxRaw e.box).length ≤ (boxText e.box).length := by
    cases e.box with
    | none => simp [boxRaw]
    | some b => simp [boxRaw, boxText, gapRaw, Box.text]; cases b <;> simp
  have h5 : 1 ≤ e.breaks.length := by unfold Entry.breaks; split_ifs <;> simp
  have : e.text.length = e.mark.text.length + (e.gap + 1) + (boxText e.box).length + (Link.render e.words).length + e.breaks.length := by
    simp [Entry.text, blanks]
    omega
  omega

theorem items_le {t : Tree} (h : t.Valid) : ∀ i, (wrap t (t.items i)).length ≤ 2 * (t.text i).length := by
  induction t with
  | nil => intro i; simp [wrap]
  | cons e d sub next ih1 ih2 =>
    intro i
    have h1 := entry_le h.1 i
    have h2 := ih1 h.2.1 (i + (d + 1))
    have h3 := ih2 h.2.2 i
    have h4 : (after sub next (next.items i)).length ≤ (wrap next (next.items i)).length := by
      cases next <;> simp [after, wrap]
    have h5 : ((Tree.cons e d sub next).text i).length = i + e.text.length + (sub.text (i + (d + 1))).length + (next.text i).length := by
      simp [Tree.text, blanks]
      omega
    have h6 : (wrap (Tree.cons e d sub next) ((Tree.cons e d sub next).items i)).length = (e.raw i).length + (wrap sub (sub.items (i + (d + 1)))).length + (after sub next (next.items i)).length + 2 := by
      simp [wrap, Tree.items]
      omega
    rw [h6, h5]
    omega

/-- Reading of a list. -/
theorem read_tree {t : Tree} (h : t.Valid) (hne : t ≠ .nil) (i : Nat) {n : Nat} (hn : 2 * (t.text i).length + 5 ≤ n) : readLists n (t.text i) = .ok (.ok (.list t.got .nil)) := by
  have hle := items_le h i
  obtain ⟨toks, hp, -, hx⟩ := tree_nodes h hne i (n := n) (by
    show (wrap t (t.items i)).length + 5 ≤ n
    omega)
  unfold readLists
  rw [hp]
  dsimp only
  have hshow : Shows toks 1 (said (t.stream i)) := by
    intro j u hu
    have : (toks.map (·.text))[j]? = some u := by rw [hx]; exact hu
    rw [List.getElem?_map] at this
    cases hj : toks[j]? with
    | none => rw [hj] at this; cases this
    | some x =>
      rw [hj] at this
      refine ⟨x, ?_, Option.some.inj this⟩
      unfold Pipeline.tokAt
      rw [if_neg (by omega), show 1 + j - 1 = j by omega, hj]
  have e : (Forest.tree NK.StmtList (.tree .List (t.itemsF i 2) .nil) .nil : Forest NK Unit).flat =
      ⟨.StmtList, .ext (Forest.tree NK.List (t.itemsF i 2) .nil : Forest NK Unit).count⟩ :: (Forest.tree NK.List (t.itemsF i 2) .nil : Forest NK Unit).flat := by simp [Forest.flat]
  have hc := cost_le t i 2
  have hlen : t.cost + 1 + 1 ≤ (Forest.tree NK.StmtList (.tree .List (t.itemsF i 2) .nil) .nil : Forest NK Unit).flat.length := by
    simp only [Forest.flat, List.length_cons, List.length_append]
    omega
  generalize (Forest.tree NK.StmtList (.tree .List (t.itemsF i 2) .nil) .nil : Forest NK Unit).flat.length = d at hlen
  obtain ⟨d, rfl⟩ : ∃ x, d = x + 2 := ⟨d - 2, by omega⟩
  rw [e, children_tree, groupsF, nodesOf, children_tree, if_neg (by rw [items_any]; decide), if_pos (by simp [Sem.kindOf])]
  have hit : Shows toks 2 (said (t.items i)) := by
    cases t with
    | nil => exact absurd rfl hne
    | cons _ _ _ _ => exact shows_left (b := [(TK.Dedent, [])]) (shows_tail hshow)
  rw [items_read h hit (by omega)]
  rfl

end Verif.Lists
