import Verif.Lists.Again
import Verif.Grid.Props

/-!
# Theorems about lists
-/

namespace Verif.Lists
open Verif.Stamp (Out)
open Verif.Pipeline (Piece fits)
open Verif.Drawer (Text)
open Verif.Layout (joinLines)
open Verif.Link (Item LinkedFrom Part render piece_step)
open Verif.Grid (blanks word_the word_plan)
open Verif.Sem (str stack added box ShowsLines AllLines Checkbox)

/-! ## C142 -/

/-- The marks of all the items, in their order. -/
def Nodes.marks : Nodes → List (Option Text)
  | .nil => []
  | .para _ r => r.marks
  | .newline _ r => r.marks
  | .list s r => s.marks ++ r.marks
  | .item m _ s r => m :: (s.marks ++ r.marks)

/-- Every line of a text with a mark at its start, however it is indented, is an item with that mark. -/
def ReadStatement : Prop :=
  ∀ ls : List (Nat × Entry), (∀ l ∈ ls, l.2.Valid) → (∀ l ∈ ls, Link.Known l.2.words) →
    ∀ n ns, readLists n (ls.map fun l => blanks l.1 ++ l.2.text).flatten = .ok (.ok ns) → ns.marks = ls.map fun l => some l.2.mark.text

/-- C142, when no item is indented less than the first item of a list it follows, unless it is indented like an
item above: the items are read with their marks, boxes, words and the lists below them. -/
theorem lists_read_partial {t : Tree} (h : t.Valid) (hne : t ≠ .nil) (hk : Link.Known t.words) (i : Nat) {n : Nat} (hn : 2 * (t.text i).length + 5 ≤ n) :
    readLists n (t.text i) = .ok (.ok (.list t.nodes .nil)) := by
  rw [read_tree h hne i hn, known_got hk]

/-- An item with a word. -/
def plain (w : Text) : Entry := ⟨.minus, 0, none, [.piece (.word w)], false⟩

theorem line_the : LinkedFrom false [.piece (.word "the".toList), .piece (.brk 0)] :=
  piece_step word_the nofun nofun nofun (by simp [fits, Item.like, Piece.Alnum]) (piece_step trivial nofun nofun nofun (by simp [fits]) trivial)

theorem line_plan : LinkedFrom false [.piece (.word "plan".toList), .piece (.brk 0)] :=
  piece_step word_plan nofun nofun nofun (by simp [fits, Item.like, Piece.Alnum]) (piece_step trivial nofun nofun nofun (by simp [fits]) trivial)

theorem plain_valid {w : Text} (h : LinkedFrom false [.piece (.word w), .piece (.brk 0)]) : (plain w).Valid :=
  ⟨trivial, h, by simp [plain, Grid.OneLine], by simp [plain], by intro i hi; cases hi; rfl, by intro i hi; cases hi; rfl⟩

/-- An item that is indented less than the one before it, but not like an item above, is words. -/
theorem lists_read_false : ¬ ReadStatement := by
  intro h
  have := h [(2, plain "the".toList), (0, plain "plan".toList)]
    (by
      intro l hl
      simp only [List.mem_cons, List.not_mem_nil, or_false] at hl
      rcases hl with rfl | rfl
      · exact plain_valid line_the
      · exact plain_valid line_plan)
    (by
      intro l hl
      simp only [List.mem_cons, List.not_mem_nil, or_false] at hl
      rcases hl with rfl | rfl <;> simp [plain, Link.Known])
    60 (.list (.item (some ['-']) .none (.para [.leaf .Word "the".toList] .nil) .nil)
      (.para [.leaf .Punctuation ['-'], .leaf .Space [' '], .leaf .Word "plan".toList] .nil)) (by decide +kernel)
  revert this
  decide +kernel

/-- The same below an item. -/
theorem dedent_words : readLists 120 "- a\n    - b\n  - c\n".toList =
    .ok (.ok (.list (.item (some ['-']) .none (.para [.leaf .Word ['a']] (.list (.item (some ['-']) .none (.para [.leaf .Word ['b']] .nil) .nil)
      (.para [.leaf .Punctuation "  -".toList, .leaf .Space [' '], .leaf .Word ['c']] .nil))) .nil) .nil)) := by
  decide +kernel

/-- Two empty lines end a list. -/
theorem gap_ends : readLists 120 "- a\n\n\n- b\n".toList =
    .ok (.ok (.list (.item (some ['-']) .none (.para [.leaf .Word ['a']] (.newline "\n\n\n".toList .nil)) .nil)
      (.list (.item (some ['-']) .none (.para [.leaf .Word ['b']] .nil) .nil) .nil))) := by
  decide +kernel

/-- ```
 -  [X] the

    12) plan
 + the [[id:plan]]
``` -/
def sample : Tree :=
  .cons ⟨.minus, 1, some (.done true), [.piece (.word "the".toList)], true⟩ 2
    (.cons ⟨.number "12".toList true, 0, none, [.piece (.word "plan".toList)], false⟩ 0 .nil .nil)
    (.cons ⟨.plus, 0, none, [.piece (.word "the".toList), .piece (.gap 0), .link (.id "plan".toList) none], false⟩ 0 .nil .nil)

theorem sample_valid : sample.Valid := by
  have hbrk : LinkedFrom false [.piece (.brk 0)] := piece_step trivial nofun nofun nofun (by simp [fits]) trivial
  have hlink : LinkedFrom false [.piece (.word "the".toList), .piece (.gap 0), .link (.id "plan".toList) none, .piece (.brk 0)] :=
    piece_step word_the nofun nofun nofun (by simp [fits, Item.like, Piece.Alnum])
      (piece_step trivial nofun nofun nofun ⟨rfl, by simp [Item.like]⟩
        ⟨⟨by decide +kernel, by decide +kernel, by decide +kernel, by decide +kernel⟩, by simp, hbrk⟩)
  refine ⟨⟨trivial, line_the, by simp [Grid.OneLine], by simp, by intro i hi; cases hi; rfl, by intro i hi; cases hi; rfl⟩,
    ⟨⟨⟨by simp, by decide⟩, line_plan, by simp [Grid.OneLine], by simp, by intro i hi; cases hi; rfl, by intro i hi; cases hi; rfl⟩, trivial, trivial⟩,
    ⟨trivial, hlink, by simp [Grid.OneLine], by simp, by intro i hi; cases hi; rfl, by intro i hi; cases hi; rfl⟩, trivial, trivial⟩

theorem sample_known : Link.Known sample.words := by
  intro name ps d
  simp [sample, Tree.words]

example : sample.Valid ∧ sample.text 1 = " -  [X] the\n\n    12) plan\n + the [[id:plan]]\n".toList ∧
    readLists 200 (sample.text 1) = .ok (.ok (.list
      (.item (some ['-']) .done (.para [.leaf .Word "the".toList] (.newline "\n\n".toList
        (.list (.item (some "12)".toList) .none (.para [.leaf .Word "plan".toList] .nil) .nil) .nil)))
      (.item (some ['+']) .none (.para [.leaf .Word "the".toList, .leaf .Space [' '], .link (.id "plan".toList) none] .nil) .nil)) .nil)) :=
  ⟨sample_valid, by decide +kernel, (lists_read_partial sample_valid nofun sample_known 1 (by decide +kernel)).trans (by decide +kernel)⟩

/-! ## C143 -/

/-- The text with the default options of the writer. -/
def Writes (ns : Nodes) (t : Text) : Prop := ∀ fuel, 4097 ≤ fuel → write Layout.exact Layout.defaults fuel ns = some (.ok t)

/-- The box of an item, with a space after it. -/
def shownBox : Option Box → Text
  | none => []
  | some .empty => "[ ] ".toList
  | some (.done _) => "[x] ".toList
  | some .partly => "[-] ".toList

/-- What is before the words of an item: the mark, a space, and the box. -/
def Entry.before (e : Entry) : Text := e.mark.text ++ ' ' :: shownBox e.box

/-- The lines of a list that is indented by `i`: what is before the words of an item, and its words; the empty
line after it; the list below, its items indented so that they start where the words of the item start; the
other items. -/
def Tree.shown (i : Nat) : Tree → List Text
  | .nil => []
  | .cons e _ sub next =>
    (List.replicate i ' ' ++ e.before ++ render (e.words.map Item.again)) :: ((if e.loose then [[]] else []) ++ sub.shown (i + e.before.length) ++ next.shown i)

theorem before_lead (e : Entry) : e.before = e.lead := by
  rw [lead_text]
  obtain ⟨m, g, b, w, l⟩ := e
  rcases b with _ | b
  · rfl
  · cases b <;> rfl

theorem lined_shown (t : Tree) : ∀ i, t.lined i = t.shown i := by
  induction t with
  | nil => intro i; rfl
  | cons e d sub next ih1 ih2 =>
    intro i
    rw [Tree.lined, Tree.shown, before_lead, ih1, ih2, List.append_assoc, List.append_assoc]
    rfl

/-- C143: what is written for a list that was read, line by line. -/
theorem lists_written {t : Tree} (h : t.Valid) (hne : t ≠ .nil) (ha : t.Apart) (hk : Link.Known t.words)
    (hsize : (joinLines (t.shown 0)).length < 1000000000) : Writes (.list t.nodes .nil) (joinLines (t.shown 0)) := by
  intro fuel hf
  rw [← lined_shown] at hsize ⊢
  rw [← known_got hk]
  exact write_tree _ Sem.sane_defaults h hne ha hsize fuel hf

theorem sample_apart : sample.Apart :=
  ⟨⟨nofun, nofun, trivial⟩, ⟨⟨nofun, nofun, trivial⟩, trivial, trivial⟩, ⟨nofun, nofun, nofun, nofun, nofun, nofun, trivial⟩, trivial, trivial⟩

example : sample.Apart ∧ Writes (.list sample.nodes .nil) "- [x] the\n\n      12) plan\n+ the [[id:plan]]".toList :=
  ⟨sample_apart, by
    have := lists_written sample_valid nofun sample_apart sample_known (by decide +kernel)
    have e : joinLines (sample.shown 0) = "- [x] the\n\n      12) plan\n+ the [[id:plan]]".toList := by decide +kernel
    rwa [e] at this⟩

/-! ## C144 -/

/-- The lists of a text are written so that they are read again. -/
def AgainStatement : Prop :=
  ∀ text n ns, readLists n text = .ok (.ok ns) → ∀ t, Writes ns t → ∀ m, 2 * (t ++ ['\n']).length + 5 ≤ m → readLists m (t ++ ['\n']) = .ok (.ok ns)

/-- C144, for lists that are indented as in C142 and with links that are read again: so are the lists. -/
theorem lists_again_partial {t : Tree} (h : t.Valid) (hne : t ≠ .nil) (ha : t.Apart) (hk : Link.Known t.words)
    (hsize : (joinLines (t.shown 0)).length < 1000000000) :
    ∃ ns u, (∀ i n, 2 * (t.text i).length + 5 ≤ n → readLists n (t.text i) = .ok (.ok ns)) ∧ Writes ns u ∧
      ∀ m, 2 * (u ++ ['\n']).length + 5 ≤ m → readLists m (u ++ ['\n']) = .ok (.ok ns) := by
  refine ⟨.list t.nodes .nil, _, fun i n hn => lists_read_partial h hne hk i hn, lists_written h hne ha hk hsize, ?_⟩
  have e : joinLines (t.shown 0) ++ ['\n'] = t.canon.text 0 := by
    rw [← lined_shown, Grid.join_ends (lined_ne hne 0), canon_text]
  intro m hm
  rw [e] at hm ⊢
  have hne' : t.canon ≠ .nil := by
    cases t with
    | nil => exact absurd rfl hne
    | cons _ _ _ _ => nofun
  rw [read_tree (canon_valid h ha) hne' 0 hm, canon_got ha, known_got hk]

/-- A list with spaces on the empty line between its items. -/
def spaced : Nodes :=
  .list (.item (some ['-']) .none (.para [.leaf .Word "the".toList] (.newline "\n  \n".toList .nil))
    (.item (some ['-']) .none (.para [.leaf .Word "plan".toList] .nil) .nil)) .nil

theorem spaced_written : Writes spaced "- the\n\n\n\n- plan".toList := by
  have p1 := (Grid.fine_para (is := [.piece (.word "the".toList)]) line_the (by simp [Grid.OneLine]) (by simp)).single.lines
  have p2 := (Grid.fine_para (is := [.piece (.word "plan".toList)]) line_plan (by simp [Grid.OneLine]) (by simp)).single.lines
  have hn := (AllLines.cons (Sem.single_str []).lines (.cons (Sem.single_str []).lines (.cons (Sem.single_str []).lines .nil))).addedStack
  have i1 := Sem.hang_lines (Sem.single_str "- ".toList) (AllLines.cons p1 (.cons hn .nil)).addedStack
  have i2 := Sem.hang_lines (Sem.single_str "- ".toList) (AllLines.cons p2 .nil).addedStack
  have hl := (AllLines.cons (AllLines.cons i1 (.cons i2 .nil)).addedStack .nil).addedStack
  have hl : ShowsLines (fmtDocument spaced) ["- the".toList, "  ".toList, "  ".toList, "  ".toList, "- plan".toList] := hl
  intro fuel hf
  unfold write
  rw [if_pos (by decide +kernel), Layout.toString_returns_partial _ Sem.sane_defaults _ hl.filled (by decide +kernel) fuel hf, hl.shows]
  decide +kernel

/-- With spaces on an empty line, the list is written with three empty lines, and read as two lists. -/
theorem lists_again_false : ¬ AgainStatement := by
  intro h
  have := h "- the\n  \n- plan\n".toList 100 spaced (by decide +kernel) _ spaced_written 100 (by decide +kernel)
  revert this
  decide +kernel

example : sample.Valid ∧ sample.Apart ∧ Link.Known sample.words ∧ (joinLines (sample.shown 0)).length < 1000000000 :=
  ⟨sample_valid, sample_apart, sample_known, by decide +kernel⟩

end Verif.Lists
