import Verif.Code.Cut
import Verif.Sem.Props

/-!
# Theorems about source blocks
-/

namespace Verif.Code
open Verif.Stamp (Out)
open Verif.Drawer (Text)

/-! ## C133 -/

/-- C133: the source blocks of a document are read as they are written: with their languages, their arguments in order, and
their lines without the indentation shared by the block and all of them. -/
theorem code_read {d : List Block} (h : DocValid d) {n : Nat} (hn : 2 * (render d).length + 5 ≤ n) :
    readCode n (render d) = .ok (.ok (d.map Block.nodes).flatten) :=
  read_doc h (Nat.le_trans (Nat.add_le_add_right (doc_le h) 5) hn)

/-- ```
  #+BEGIN_SRC py x :dir tmp :cache
    f(a)
      g <<rest>> >
  #+END_SRC

#+begin_src
#+end_src
``` -/
def sample : List Block :=
  [⟨true, 2, some (0, "py".toList), [(0, .word "x".toList), (0, .pair "dir".toList 0 "tmp".toList), (0, .key "cache".toList)], 0,
    [[.code "    f(a)".toList], [], [.code "      g ".toList, .ref "rest".toList, .code " >".toList]], 2, 2⟩, ⟨false, 0, none, [], 0, [], 0, 0⟩]

theorem not_infix {a : Char} {t : Text} (h : ∀ i < t.length, ¬ (t[i]? = some a ∧ t[i + 1]? = some a)) : ¬ [a, a] <:+: t := by
  rintro ⟨u, v, rfl⟩
  refine h u.length (by simp) ⟨?_, ?_⟩
  · simp
  · rw [List.append_assoc, List.getElem?_append_right (by omega)]
    simp

/-- Text whose first character that is not a space is not `#`. -/
theorem not_ends {t : Text} (h : (t.dropWhile (· = ' ')).head? ≠ some '#') : ¬ Ends t := by
  rintro ⟨n, u, v, rfl, hu⟩
  have h1 : (List.replicate n ' ' ++ u ++ v).dropWhile (· = ' ') = (u ++ v).dropWhile (· = ' ') := by
    rw [List.append_assoc]
    exact List.dropWhile_append_of_pos (by simp +contextual [List.mem_replicate])
  rw [h1] at h
  obtain ⟨c, u', rfl, hc⟩ : ∃ c u', u = c :: u' ∧ BaseLexer.toLower c = '#' := by
    unfold sameText at hu
    cases u with
    | nil => rcases hu with hu | hu <;> cases hu
    | cons c u' =>
      refine ⟨c, u', rfl, ?_⟩
      rcases hu with hu | hu
      · exact (List.cons.injEq _ _ _ _ ▸ hu : _ ∧ _).1
      · exact (List.cons.injEq _ _ _ _ ▸ hu : _ ∧ _).1
  have : c = '#' := by
    by_contra hne
    unfold BaseLexer.toLower at hc
    split_ifs at hc with hu
    · unfold BaseLexer.isUpper at hu
      simp only [Bool.and_eq_true, decide_eq_true_eq] at hu
      have h1 : 65 ≤ c.toNat := hu.1
      have h2 : c.toNat ≤ 90 := hu.2
      have h3 : (Char.ofNat (c.toNat + 32)).toNat = c.toNat + 32 := by
        rw [Char.ofNat, dif_pos (by left; omega)]
        rfl
      rw [hc] at h3
      have h5 : '#'.toNat = 35 := rfl
      omega
    · exact hne hc
  subst this
  simp at h

theorem plain_of {t : Text} (h1 : '\n' ∉ t) (h2 : '<' ∉ t) (h3 : ∀ i < t.length, ¬ (t[i]? = some '>' ∧ t[i + 1]? = some '>'))
    (h4 : (t.dropWhile (· = ' ')).head? ≠ some '#') : Plain t where
  line := h1
  left := fun h => h2 (h.subset List.mem_cons_self)
  right := not_infix (a := '>') h3
  stays := not_ends h4

theorem sample_valid : DocValid sample := by
  refine ⟨⟨?_, ?_, ?_, ?_⟩, fun _ => by decide, ⟨?_, trivial, fun _ a ha => (by cases ha), ?_⟩, fun h => absurd rfl h, trivial⟩
  · intro l hl; cases hl; exact ⟨by decide, by decide⟩
  · exact ⟨⟨by decide, by decide⟩, nofun, ⟨⟨⟨'d', rfl, by decide⟩, by decide⟩, by decide, by decide⟩, nofun, ⟨⟨'c', rfl, by decide⟩, by decide⟩, nofun, trivial⟩
  · intro h; cases h
  · intro l hl
    rcases List.mem_cons.mp hl with rfl | hl
    · exact ⟨plain_of (by decide) (by decide) (by decide) (by decide), by decide, nofun, trivial⟩
    · rcases List.mem_cons.mp hl with rfl | hl
      · trivial
      · rcases List.mem_cons.mp hl with rfl | hl
        · refine ⟨plain_of (by decide) (by decide) (by decide) (by decide), by decide, ?_, plain_of (by decide) (by decide) (by decide) (by decide),
            by decide, by decide, plain_of (by decide) (by decide) (by decide) (by decide), by decide, nofun, trivial⟩
          intro s hs
          cases hs
          exact ⟨rfl, fun _ => by decide, nofun⟩
        · cases hl
  · intro l hl; cases hl
  · intro l hl; cases hl

example : DocValid sample ∧ readCode 300 (render sample) = .ok (.ok [.nothing,
    .code ⟨some "py".toList, [⟨none, none, false, .text "x".toList⟩, ⟨some "dir".toList, none, false, .text "tmp".toList⟩, ⟨some "cache".toList, none, false, .text []⟩],
      [[.raw "  f(a)".toList], [.raw []], [.raw "    g ".toList, .tangle "rest".toList, .raw " >".toList]]⟩,
    .newline "\n\n".toList, .code ⟨none, [], []⟩]) :=
  ⟨sample_valid, (code_read sample_valid (by decide +kernel)).trans (by decide +kernel)⟩

/-! ## C134 -/

/-- The blocks of a document without arguments that was read are written so that the same blocks are read again. -/
def AgainStatement : Prop :=
  ∀ d, DocValid d → (∀ b ∈ d, b.args = []) → (render d).length < 1000000000 →
    ∀ n ns, 2 * (render d).length + 5 ≤ n → readCode n (render d) = .ok (.ok ns) →
    ∀ o, Layout.Sane o → ∀ fuel, 4097 ≤ fuel → ∃ text, write Layout.exact o fuel ns = some (.ok text) ∧
      ∀ m, 2 * text.length + 5 ≤ m → ∃ ns', readCode m text = .ok (.ok ns') ∧ (sources ns').map Source.solid = (sources ns).map Source.solid

theorem nodes_plain {d : List Block} (ha : ∀ b ∈ d, b.args = []) : (d.map Block.nodes).flatten.all Node.plain = true := by
  rw [List.all_eq_true]
  intro x hx
  obtain ⟨l, hl, hx⟩ := List.mem_flatten.mp hx
  obtain ⟨b, hb, rfl⟩ := List.mem_map.mp hl
  unfold Block.nodes at hx
  have : (Node.code b.code).plain = true := by
    show (owned (b.args.map _)).isEmpty = true
    rw [ha b hb]
    rfl
  split_ifs at hx <;> simp at hx
  · exact hx ▸ this
  · rcases hx with rfl | rfl
    · exact this
    · rfl
  · rcases hx with rfl | rfl
    · rfl
    · exact this
  · rcases hx with rfl | rfl | rfl
    · rfl
    · exact this
    · rfl

theorem valid_line {l : List Seg} (h : SegsValid l) : '\n' ∉ segsText l := by
  induction l with
  | nil => simp [segsText]
  | cons s r ih =>
    have e : segsText (s :: r) = s.text ++ segsText r := rfl
    rw [e, List.mem_append, not_or]
    cases s with
    | code t => exact ⟨h.1.line, ih h.2.2.2⟩
    | ref n =>
      refine ⟨?_, ih h.2.2.2⟩
      have := h.1.line
      simp [Seg.text, this]
    | left => exact ⟨by simp [Seg.text], ih h.2⟩
    | right => exact ⟨by simp [Seg.text], ih h⟩

theorem lang_text_ok {l : Text} (h : ArgText l) : '\n' ∉ l ∧ l.getLast? ≠ some ' ' := by
  refine ⟨fun hx => (argChar_spec (h.2 _ hx)).2.2.1 rfl, fun hx => ?_⟩
  exact (argChar_spec (h.2 _ (List.mem_of_getLast? hx))).2.1 rfl

theorem shown_lines {b : Block} (h : b.Valid) : ∀ l ∈ b.code.shown, '\n' ∉ l ∧ (b.Tidy → l.getLast? ≠ some ' ') := by
  intro l hl
  rcases List.mem_cons.mp hl with rfl | hl
  · unfold headText Block.code
    cases hb : b.lang with
    | none =>
      show '\n' ∉ "#+begin_src".toList ++ [] ∧ (_ → ("#+begin_src".toList ++ []).getLast? ≠ some ' ')
      exact ⟨by decide, fun _ => by decide⟩
    | some x =>
      obtain ⟨h1, h2⟩ := lang_text_ok (h.lang x hb)
      have hne := (h.lang x hb).1
      refine ⟨by simp [h1], fun _ => ?_⟩
      show ("#+begin_src".toList ++ ' ' :: x.2).getLast? ≠ _
      obtain ⟨c, u, hu⟩ := List.exists_cons_of_ne_nil hne
      rw [List.getLast?_append, hu, List.getLast?_cons_cons, ← hu]
      cases hg : x.2.getLast? with
      | none => rw [List.getLast?_eq_none_iff] at hg; exact absurd hg hne
      | some c => rw [hg] at h2; simpa using h2
  · rcases List.mem_append.mp hl with hl | hl
    · obtain ⟨ps, hps, rfl⟩ := List.mem_map.mp hl
      obtain ⟨s, hs, rfl⟩ := List.mem_map.mp hps
      have hv := (canon_valid h 0).lines (clean (dedent b.shift s)) (List.mem_map_of_mem (f := fun l => clean (dedent b.shift l)) hs)
      have := valid_line hv
      rw [segs_clean] at this
      rw [parts_line]
      exact ⟨this, fun ht => ht s hs⟩
    · rw [List.mem_singleton.mp hl]
      exact ⟨by decide, fun _ => by decide⟩

theorem doc_shown {d : List Block} (h : DocValid d) : ∀ l ∈ ((d.map Block.nodes).flatten.map Node.shown).flatten, '\n' ∉ l ∧ ((∀ b ∈ d, b.Tidy) → l.getLast? ≠ some ' ') := by
  induction d with
  | nil => intro l hl; cases hl
  | cons b d ih =>
    rw [List.map_cons, List.flatten_cons, List.map_append, List.flatten_append, block_shown]
    intro l hl
    rcases List.mem_append.mp hl with hl | hl
    · rcases List.mem_append.mp hl with hl | hl
      · obtain ⟨h1, h2⟩ := shown_lines h.1 l hl
        exact ⟨h1, fun ht => h2 (ht b List.mem_cons_self)⟩
      · rw [(List.mem_replicate.mp hl).2]
        exact ⟨by simp, fun _ => by simp⟩
    · obtain ⟨h1, h2⟩ := ih h.2.2 l hl
      exact ⟨h1, fun ht => h2 fun b hb => ht b (List.mem_cons_of_mem _ hb)⟩

theorem dedent_le (m : Nat) (l : List Seg) : (segsText (dedent m l)).length ≤ (segsText l).length := by
  cases l with
  | nil => exact Nat.le_refl _
  | cons s r =>
    cases s with
    | code t =>
      show ((t.drop m) ++ segsText r).length ≤ (t ++ segsText r).length
      simp
    | _ => exact Nat.le_refl _

theorem shown_total (b : Block) : total b.code.shown ≤ b.text.length := by
  have h1 : (headText b.code.lang).length ≤ b.head.length := by
    unfold headText Block.code Block.head
    cases b.lang with
    | none => cases b.upper <;> simp
    | some l => cases b.upper <;> simp [langText, blanks] <;> omega
  have h2 : total (b.code.lines.map partsText) ≤ ((b.lines.map fun l => segsText l ++ "\n".toList).flatten).length := by
    unfold Block.code
    generalize b.lines = ls
    simp only [List.map_map]
    induction ls with
    | nil => exact Nat.le_refl _
    | cons l ls ih =>
      have := dedent_le b.shift l
      simp only [List.map_cons, List.flatten_cons, List.length_append, total, List.sum_cons, Function.comp, parts_line] at ih ⊢
      omega
  have h3 : 9 ≤ b.foot.length := by
    unfold Block.foot
    cases b.upper <;> simp
  have h4 : total b.code.shown = (headText b.code.lang).length + (total (b.code.lines.map partsText) + 9) := by
    unfold Source.shown
    simp [total]
  rw [h4]
  unfold Block.text
  simp only [List.length_append] at h2 ⊢
  omega

theorem doc_total (d : List Block) : total ((d.map Block.nodes).flatten.map Node.shown).flatten ≤ (render d).length := by
  induction d with
  | nil => exact Nat.le_refl _
  | cons b d ih =>
    rw [List.map_cons, List.flatten_cons, List.map_append, List.flatten_append, block_shown, total_append, total_append]
    have h1 := shown_total b
    have h2 : ∀ n, total (List.replicate n ([] : Text)) = 0 := by simp [total]
    have e : render (b :: d) = b.text ++ render d := rfl
    rw [h2, e, List.length_append]
    omega

/-- What is written for a document without arguments: its blocks in lower case and without the indentation, one after
the other; spaces at the ends of lines are missing. -/
theorem code_written {d : List Block} (h : DocValid d) (ha : ∀ b ∈ d, b.args = []) (ht : ∀ b ∈ d, b.Tidy) (hsize : (render d).length < 1000000000)
    (o : Layout.Options Rat) (ho : Layout.Sane o) {fuel : Nat} (hf : 4097 ≤ fuel) :
    write Layout.exact o fuel (d.map Block.nodes).flatten = some (.ok (render (canonDoc d))) := by
  rw [write_lines o ho _ (nodes_plain ha) (fun l hl => (doc_shown h l hl).1) (Nat.lt_of_le_of_lt (doc_total d) hsize) fuel hf, ← doc_text h, Sem.textOf]
  congr 3
  refine (List.map_congr_left fun l hl => ?_).trans (List.map_id _)
  exact Sem.stripEnd_id ((doc_shown h l hl).2 ht)

/-- C134, for blocks with no spaces at the ends of their lines. -/
theorem code_again_partial {d : List Block} (h : DocValid d) (ha : ∀ b ∈ d, b.args = []) (ht : ∀ b ∈ d, b.Tidy) (hsize : (render d).length < 1000000000)
    {n : Nat} {ns : List Node} (hn : 2 * (render d).length + 5 ≤ n) (hr : readCode n (render d) = .ok (.ok ns))
    (o : Layout.Options Rat) (ho : Layout.Sane o) {fuel : Nat} (hf : 4097 ≤ fuel) :
    ∃ text, write Layout.exact o fuel ns = some (.ok text) ∧
      ∀ m, 2 * text.length + 5 ≤ m → ∃ ns', readCode m text = .ok (.ok ns') ∧ (sources ns').map Source.solid = (sources ns).map Source.solid := by
  rw [code_read h hn] at hr
  injection hr with hr
  injection hr with hr
  subst hr
  exact ⟨_, code_written h ha ht hsize o ho hf, fun m hm => ⟨_, code_read (doc_valid h) hm, doc_codes ha⟩⟩

/-- `a` with a space after it. -/
def trailing : List Block := [⟨false, 0, none, [], 0, [[.code "a ".toList]], 0, 0⟩]

theorem trailing_valid : DocValid trailing :=
  ⟨⟨nofun, trivial, fun _ a ha => (by cases ha), fun l hl => by
    rw [List.mem_singleton.mp hl]
    exact ⟨plain_of (by decide) (by decide) (by decide) (by decide), by decide, nofun, trivial⟩⟩, fun h => absurd rfl h, trivial⟩

/-- A space at the end of a line of code is lost. -/
theorem code_again_false : ¬ AgainStatement := by
  intro h
  obtain ⟨text, h1, h2⟩ := h trailing trailing_valid (by decide) (by decide +kernel) 100 _ (by decide +kernel) (code_read trailing_valid (by decide +kernel))
    Layout.defaults Sem.sane_defaults 5000 (by decide)
  rw [write_lines Layout.defaults Sem.sane_defaults _ (nodes_plain (by decide)) (fun l hl => (doc_shown trailing_valid l hl).1)
    (Nat.lt_of_le_of_lt (doc_total trailing) (by decide +kernel)) 5000 (by decide)] at h1
  injection h1 with h1
  injection h1 with h1
  have e : text = "#+begin_src\na\n#+end_src".toList := h1.symm.trans (by decide +kernel)
  subst e
  obtain ⟨ns, h3, h4⟩ := h2 100 (by decide +kernel)
  have e2 : readCode 100 "#+begin_src\na\n#+end_src".toList = .ok (.ok [.code ⟨none, [], [[.raw "a".toList]]⟩]) := by decide +kernel
  rw [e2] at h3
  injection h3 with h3
  injection h3 with h3
  subst h3
  revert h4
  decide +kernel

/-- ```
   #+begin_src c
     if (a)
       <<body>>
   #+end_src
``` and a line break. -/
def sample2 : List Block :=
  [⟨false, 3, some (0, "c".toList), [], 0, [[.code "     if (a)".toList], [], [.code "       ".toList, .ref "body".toList]], 3, 1⟩]

theorem sample2_valid : DocValid sample2 := by
  refine ⟨⟨?_, trivial, fun _ a ha => (by cases ha), ?_⟩, fun h => absurd rfl h, trivial⟩
  · intro l hl; cases hl; exact ⟨by decide, by decide⟩
  · intro l hl
    rcases List.mem_cons.mp hl with rfl | hl
    · exact ⟨plain_of (by decide) (by decide) (by decide) (by decide), by decide, nofun, trivial⟩
    · rcases List.mem_cons.mp hl with rfl | hl
      · trivial
      · rw [List.mem_singleton.mp hl]
        refine ⟨plain_of (by decide) (by decide) (by decide) (by decide), by decide, ?_, plain_of (by decide) (by decide) (by decide) (by decide),
            by decide, by decide, trivial⟩
        intro s hs
        cases hs
        exact ⟨rfl, fun _ => by decide, nofun⟩

example : DocValid sample2 ∧ (∀ b ∈ sample2, b.args = []) ∧ (∀ b ∈ sample2, b.Tidy) ∧
    render (canonDoc sample2) = "#+begin_src c\n  if (a)\n\n    <<body>>\n#+end_src".toList :=
  ⟨sample2_valid, by decide, by unfold Block.Tidy; decide +kernel, by decide +kernel⟩

/-! ## C135 -/

/-- The text of a block of code in the given language. -/
def inBlock (lang : Text) (ls : List Text) : Text :=
  "#+begin_src ".toList ++ lang ++ "\n".toList ++ (ls.map fun l => l ++ "\n".toList).flatten ++ "#+end_src".toList

/-- Lines of code which do not end the block are kept in a block. -/
def KeptStatement : Prop :=
  ∀ lang, ArgText lang → ∀ ls : List Text, (∀ l ∈ ls, '\n' ∉ l ∧ ¬ Ends l) → ∀ n, 2 * (inBlock lang ls).length + 5 ≤ n →
    ∃ s, readCode n (inBlock lang ls) = .ok (.ok [.code s]) ∧ s.lang = some lang ∧ s.lines.map partsText = ls

theorem in_block (lang : Text) (ls : List Text) : inBlock lang ls = render [⟨false, 0, some (0, lang), [], 0, ls.map cut, 0, 0⟩] := by
  unfold inBlock render Block.text Block.head Block.foot
  have : ((ls.map cut).map fun l => segsText l ++ "\n".toList) = ls.map fun l => l ++ "\n".toList := by
    rw [List.map_map]
    exact List.map_congr_left fun l _ => by simp only [Function.comp, cut_text]
  simp only [List.map_cons, List.map_nil, this]
  simp [blanks, langText, argsText]

/-- C135, for lines without `<<` and a `>>` behind it, and with no end of a block after such angles. -/
theorem code_kept_partial {lang : Text} (hl : ArgText lang) {ls : List Text} (h : ∀ l ∈ ls, Free l) {n : Nat} (hn : 2 * (inBlock lang ls).length + 5 ≤ n) :
    ∃ s, readCode n (inBlock lang ls) = .ok (.ok [.code s]) ∧ s.lang = some lang ∧ s.lines.map partsText = ls := by
  have hv : DocValid [⟨false, 0, some (0, lang), [], 0, ls.map cut, 0, 0⟩] := by
    refine ⟨⟨?_, trivial, fun _ a ha => (by cases ha), ?_⟩, fun h => absurd rfl h, trivial⟩
    · intro l hl'; cases hl'; exact hl
    · intro l hl'
      obtain ⟨t, ht, rfl⟩ := List.mem_map.mp hl'
      exact cut_valid (h t ht)
  rw [in_block] at hn ⊢
  refine ⟨_, code_read hv hn, rfl, ?_⟩
  have hs : Block.shift ⟨false, 0, some (0, lang), [], 0, ls.map cut, 0, 0⟩ = 0 := Nat.eq_zero_of_le_zero (shared_le _ _)
  simp only [Block.code, hs, List.map_map]
  refine (List.map_congr_left fun l _ => ?_).trans (List.map_id _)
  simp only [Function.comp, dedent_zero, parts_line, cut_text, id]

/-- Code with shifts to both sides stops the parser. -/
theorem code_kept_false : ¬ KeptStatement := by
  intro h
  obtain ⟨s, h1, -⟩ := h "c".toList ⟨by decide, by decide⟩ ["a << b << c >> d".toList] (by
    intro l hl
    rw [List.mem_singleton.mp hl]
    exact ⟨by decide, not_ends (by decide)⟩) 100 (by decide +kernel)
  have e : readCode 100 (inBlock "c".toList ["a << b << c >> d".toList]) = .error (.parser .fatal) := by decide +kernel
  rw [e] at h1
  cases h1

theorem free_of {t : Text} (h1 : '\n' ∉ t) (h2 : (t.dropWhile (· = ' ')).head? ≠ some '#')
    (h3 : ∀ i < t.length, ∀ j < t.length, i + 2 ≤ j → ¬ ((t.drop i).take 2 = ['<', '<'] ∧ (t.drop j).take 2 = ['>', '>']))
    (h4 : ∀ i < t.length, ((t.drop i).take 2 = ['<', '<'] ∨ (t.drop i).take 2 = ['>', '>']) → ((t.drop (i + 2)).dropWhile (· = ' ')).head? ≠ some '#') : Free t where
  line := h1
  stays := not_ends h2
  angles := by
    rintro ⟨a, b, c, rfl⟩
    refine h3 a.length (by simp) (a.length + 2 + b.length) (by simp; omega) (by omega) ⟨?_, ?_⟩
    · simp
    · have : a ++ "<<".toList ++ b ++ ">>".toList ++ c = (a ++ "<<".toList ++ b) ++ (">>".toList ++ c) := by simp
      rw [this, List.drop_left' (by simp; omega)]
      rfl
  after := by
    intro a s h
    have h5 := h4 a.length (by rcases h with rfl | rfl <;> simp)
    rcases h with rfl | rfl
    · refine not_ends ?_
      have := h5 (.inl (by simp))
      rwa [List.drop_left' (by simp)] at this
    · refine not_ends ?_
      have := h5 (.inr (by simp))
      rwa [List.drop_left' (by simp)] at this

example : ∀ l ∈ ["if (a << 2) {".toList, [], "  b = c >> 1 << 3 << x; // #+end_src".toList, "}  ".toList], Free l := by
  intro l hl
  simp only [List.mem_cons, List.not_mem_nil, or_false] at hl
  rcases hl with rfl | rfl | rfl | rfl <;> exact free_of (by decide) (by decide) (by decide +kernel) (by decide +kernel)

end Verif.Code
