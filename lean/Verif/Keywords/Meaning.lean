import Verif.Keywords.Parse
import Verif.Drawer.Shape

/-!
# What the lines say
-/

namespace Verif.Keywords
open Verif.Drawer (Text stripSpace splitChar splitStr Trimmed stripSpace_pad splitChar_append splitChar_one splitStr_char splitStr_one)
open Verif.BaseLexer (normalize isAlnum isDigit)
open Verif.Stamp (Out)
open Verif.Code (blanks)

/-! ## `#+startup` -/

/-- Restrictions of what is proved about `#+startup`: five levels are not read, and `indent` is the second word, after one space. -/
structure Startup.Plain (s : Startup) : Prop where
  five : s.meaning ≠ some .show5
  indent : ∀ w ∈ s.more, normalize w.2 = "indent".toList → s.more.head? = some w ∧ w.1 = 0

theorem words_trimmed {w : Text} (h : Word w) {more : List (Nat × Text)} (hm : ∀ x ∈ more, Word x.2) :
    Trimmed (w ++ (more.map fun w => blanks (w.1 + 1) ++ w.2).flatten) := by
  refine ⟨?_, ?_, ?_⟩
  · intro hx
    rcases List.mem_append.mp hx with hx | hx
    · exact h.2.2 hx
    · obtain ⟨y, hy, hx⟩ := List.mem_flatten.mp hx
      obtain ⟨x, hx', rfl⟩ := List.mem_map.mp hy
      rcases List.mem_append.mp hx with hx | hx
      · exact absurd (List.mem_replicate.mp hx).2 (by decide)
      · exact (hm x hx').2.2 hx
  · obtain ⟨c, r, rfl⟩ := List.exists_cons_of_ne_nil h.1
    intro hc
    simp only [List.cons_append, List.head?_cons, Option.some.injEq] at hc
    exact h.2.1 (by rw [hc]; exact List.mem_cons_self)
  · induction more generalizing w with
    | nil =>
      simp only [List.map_nil, List.flatten_nil, List.append_nil]
      exact fun hl => h.2.1 (List.mem_of_getLast? hl)
    | cons x more ih =>
      have := ih (hm x List.mem_cons_self) (fun y hy => hm y (List.mem_cons_of_mem _ hy))
      rw [List.map_cons, List.flatten_cons, List.append_assoc, ← List.append_assoc, List.getLast?_append_of_ne_nil]
      · exact this
      · have := (hm x List.mem_cons_self).1
        simp [this]

theorem split_words {w : Text} (h : Word w) {more : List (Nat × Text)} (hm : ∀ x ∈ more, Word x.2) :
    ∃ ws, splitStr " ".toList (w ++ (more.map fun w => blanks (w.1 + 1) ++ w.2).flatten) = w :: ws ∧
      ws.head? = more.head?.map fun x => if x.1 = 0 then x.2 else [] := by
  have hone : ∀ (w : Text) s, ' ' ∉ w → splitStr " ".toList (w ++ ' ' :: s) = w :: splitStr " ".toList s := fun w s hw => splitStr_char hw
  have hend : ∀ (w : Text), ' ' ∉ w → splitStr " ".toList w = [w] := by
    intro w hw
    refine splitStr_one ?_
    rintro ⟨a, b, hab⟩
    exact hw (by rw [← hab]; simp)
  induction more generalizing w with
  | nil => exact ⟨[], by simpa using hend w h.2.1, rfl⟩
  | cons x more ih =>
    obtain ⟨ws, h1, -⟩ := ih (hm x List.mem_cons_self) (fun y hy => hm y (List.mem_cons_of_mem _ hy))
    rw [List.map_cons, List.flatten_cons, List.append_assoc]
    obtain ⟨g, y⟩ := x
    dsimp only at h1 ⊢
    have e : ∀ g r, blanks (g + 1) ++ r = ' ' :: (blanks g ++ r) := fun g r => by simp [blanks, List.replicate_succ]
    rw [e, hone _ _ h.2.1]
    cases g with
    | zero =>
      refine ⟨_, rfl, ?_⟩
      rw [show blanks 0 ++ _ = _ from List.nil_append _, h1]
      rfl
    | succ g =>
      refine ⟨_, rfl, ?_⟩
      rw [e]
      have := hone [] (blanks g ++ (y ++ (more.map fun w => blanks (w.1 + 1) ++ w.2).flatten)) (by simp)
      rw [List.nil_append] at this
      rw [this]
      rfl

theorem meaning_visibility {w : Text} {v : Visibility} (h : (startupWords.find? fun x => x.1 = w).map Prod.snd = some v) (hv : v ≠ .show5) : visibilityOf w = some v := by
  obtain ⟨e, he, rfl⟩ := Option.map_eq_some_iff.mp h
  have h1 := List.find?_some he
  have h2 := List.mem_of_find?_eq_some he
  have h3 : e.1 = w := by simpa using h1
  subst h3
  simp only [startupWords, List.mem_cons, List.not_mem_nil, or_false] at h2
  rcases h2 with rfl | rfl | rfl | rfl | rfl | rfl | rfl | rfl
  all_goals first | exact absurd rfl hv | decide

theorem startup_said {s : Startup} (h : s.Valid) (hp : s.Plain) (o : Opts) : ∃ v, s.meaning = some v ∧
    startupLine s.text o = .ok { o with visibility := v, indented := if s.indent then some true else o.indented } := by
  obtain ⟨v, hv⟩ := Option.ne_none_iff_exists'.mp h.known
  refine ⟨v, hv, ?_⟩
  have hv5 : v ≠ .show5 := by
    rintro rfl
    exact hp.five hv
  have hvis := meaning_visibility hv hv5
  obtain ⟨ws, h1, h2⟩ := split_words h.word h.more
  unfold startupLine Startup.text
  have ht := words_trimmed h.word h.more
  have hst : stripSpace (blanks s.gap ++ (s.word ++ (s.more.map fun w => blanks (w.1 + 1) ++ w.2).flatten) ++ blanks s.tail) = _ := stripSpace_pad ht s.gap s.tail
  rw [hst, h1]
  dsimp only
  rw [hvis]
  dsimp only
  cases hm : s.more with
  | nil =>
    rw [hm] at h2
    have : ws = [] := by simpa using h2
    subst this
    simp [Startup.indent, hm]
  | cons x more =>
    rw [hm] at h2
    obtain ⟨y, ws, rfl⟩ : ∃ y r, ws = y :: r := by
      cases ws with
      | nil => cases h2
      | cons y r => exact ⟨y, r, rfl⟩
    have h2 : y = if x.1 = 0 then x.2 else [] := by simpa using h2
    dsimp only
    have hsame : same y "indent" = s.indent := by
      have hn : normalize "indent".toList = "indent".toList := by decide
      unfold same Startup.indent
      rw [hn, Bool.eq_iff_iff, List.any_eq_true]
      simp only [beq_iff_eq, decide_eq_true_eq]
      constructor
      · intro hy
        by_cases h0 : x.1 = 0
        · rw [if_pos h0] at h2
          exact ⟨x, by rw [hm]; exact List.mem_cons_self, by rw [← h2, hy]⟩
        · rw [if_neg h0] at h2
          rw [h2] at hy
          exact absurd hy (by decide)
      · rintro ⟨z, hz, hn⟩
        obtain ⟨k1, k2⟩ := hp.indent z hz hn
        rw [hm] at k1
        have : x = z := by simpa using k1
        subst this
        rw [if_pos k2] at h2
        rw [h2, hn]
    rw [hsame]
    cases s.indent <;> rfl

/-! ## `#+options` -/

/-- Restrictions of what is proved about `#+options`: the switches whose keys are signs, and the tasks which are done. -/
def Item.Plain (i : Item) : Prop :=
  i.key ∉ ["-".toList, "'".toList, ":".toList, "<".toList, "^".toList, "|".toList] ∧ ¬ (i.key = "tasks".toList ∧ i.value = "done".toList)

/-- The options are changed as it is said. -/
structure Change (is : List Item) (o o' : Opts) : Prop where
  switch : ∀ s : Switch, o'.switch s = (last s.key flagOf is).or (o.switch s)
  broken : o'.broken = (last "broken-links".toList brokenOf is).getD o.broken
  tags : o'.tags = (last "tags".toList tagsOf is).getD o.tags
  tasks : o'.tasks = (last "tasks".toList tasksOf is).getD o.tasks
  arch : o'.arch = (last "arch".toList archOf is).getD o.arch
  levels : o'.levels = (last "H".toList numberOf is).or o.levels
  toc : o'.toc = (last "toc".toList tocOf is).getD o.toc
  errors : o'.errors = o.errors
  visibility : o'.visibility = o.visibility
  indented : o'.indented = o.indented

theorem last_append {α : Type} (key : Text) (f : Text → Option α) (a b : List Item) : last key f (a ++ b) = (last key f b).or (last key f a) := by
  unfold last
  rw [List.filterMap_append, List.getLast?_append]

theorem or_getD {α : Type} (a b : Option α) (d : α) : (a.or b).getD d = a.getD (b.getD d) := by cases a <;> rfl

theorem Change.nil (o : Opts) : Change [] o o := ⟨fun _ => rfl, rfl, rfl, rfl, rfl, rfl, rfl, rfl, rfl, rfl⟩

theorem Change.append {a b : List Item} {o o' o'' : Opts} (h : Change a o o') (k : Change b o' o'') : Change (a ++ b) o o'' where
  switch s := by rw [last_append, k.switch, h.switch, Option.or_assoc]
  broken := by rw [last_append, k.broken, h.broken, or_getD]
  tags := by rw [last_append, k.tags, h.tags, or_getD]
  tasks := by rw [last_append, k.tasks, h.tasks, or_getD]
  arch := by rw [last_append, k.arch, h.arch, or_getD]
  levels := by rw [last_append, k.levels, h.levels, Option.or_assoc]
  toc := by rw [last_append, k.toc, h.toc, or_getD]
  errors := k.errors.trans h.errors
  visibility := k.visibility.trans h.visibility
  indented := k.indented.trans h.indented

theorem Change.fixed (o : Opts) (b : Option Bool) : Change [] o { o with fixedSections := b } := ⟨fun _ => rfl, rfl, rfl, rfl, rfl, rfl, rfl, rfl, rfl, rfl⟩

theorem last_one {α : Type} {key : Text} {f : Text → Option α} {i : Item} (h : i.key = key) : last key f [i] = f i.value := by
  unfold last
  rw [List.filterMap_cons, if_pos h]
  cases f i.value <;> rfl

theorem last_other {α : Type} {key : Text} {f : Text → Option α} {i : Item} (h : i.key ≠ key) : last key f [i] = none := by
  unfold last
  rw [List.filterMap_cons, if_neg h]
  rfl

theorem key_inj {s t : Switch} (h : s.key = t.key) : s = t := by
  revert s t
  intro s t
  cases s <;> cases t <;> first | (intro _; rfl) | (intro h; exact absurd h (by decide))

theorem setting_switch {s : Switch} (hs : s.key ∉ ["-".toList, "'".toList, ":".toList, "<".toList, "^".toList, "|".toList]) (value v : Text) (o : Opts) :
    setting value s.key v o = .ok (o.turn s (parseBool v)) := by
  cases s <;> first | rfl | exact absurd hs (by decide)

theorem flag_bool {v : Text} (h : flagOf v ≠ none) : flagOf v = some (parseBool v) := by
  unfold flagOf parseBool at *
  split_ifs at h ⊢ with h1 h2
  · rw [h1]; rfl
  · rw [h2]; rfl
  · exact absurd rfl h

theorem digits_norm {t : Text} (h : ∀ c ∈ t, BaseLexer.isDigit c = true) : normalize t = t := by
  unfold normalize
  induction t with
  | nil => rfl
  | cons c t ih =>
    have hc := h c List.mem_cons_self
    have h1 : ¬ (c = '_' ∨ c = '-') := by
      rintro (rfl | rfl) <;> exact absurd hc (by decide)
    rw [List.filterMap_cons, if_neg h1, if_pos (by rw [hc]; simp), ih (fun c hc => h c (List.mem_cons_of_mem _ hc))]

theorem number_digits {t : Text} {n : Int} (h : numberOf t = some n) : (t ≠ [] ∧ ∀ c ∈ t, BaseLexer.isDigit c = true) ∧ number t = .ok n := by
  unfold numberOf at h
  split_ifs at h with hc
  cases h
  refine ⟨⟨hc.1, hc.2.1⟩, ?_⟩
  obtain ⟨c, r, rfl⟩ := List.exists_cons_of_ne_nil hc.1
  have hd := hc.2.1 c List.mem_cons_self
  have h1 : Drawer.isSpace c = false := by
    unfold BaseLexer.isDigit at hd
    simp only [Bool.and_eq_true, decide_eq_true_eq] at hd
    have h1 : '0'.toNat ≤ c.toNat := hd.1
    have : '0'.toNat = 48 := rfl
    unfold Drawer.isSpace
    have h2 : c ≠ ' ' := by
      rintro rfl
      have : ' '.toNat = 32 := rfl
      omega
    simp [h2]
    omega
  have h2 : c ≠ '-' := by rintro rfl; exact absurd hd (by decide)
  have h3 : c ≠ '+' := by rintro rfl; exact absurd hd (by decide)
  have h4 : (c :: r).takeWhile BaseLexer.isDigit = c :: r := List.takeWhile_eq_self_iff.mpr hc.2.1
  unfold number Drawer.stoi
  rw [List.dropWhile_cons_of_neg (by simp [h1])]
  simp only [List.head?_cons, Option.some.injEq, h2, h3, or_self, if_false]
  have h5 : List.takeWhile isDigit (c :: r) = c :: r := h4
  rw [h5, if_neg (by simp)]
  have := hc.2.2
  rw [if_pos ⟨by omega, by omega⟩]

theorem item_said {i : Item} (h : i.Known) (hp : i.Plain) (value : Text) (o : Opts) : ∃ o', setting value i.key i.value o = .ok o' ∧ Change [i] o o' := by
  have hk : ∀ {a b : Text}, i.key = a → a ≠ b → i.key ≠ b := fun h hab => h ▸ hab
  rcases h with ⟨s, he, hf⟩ | ⟨he, hf⟩ | ⟨he, hf⟩ | ⟨he, hf⟩ | ⟨he, hf⟩ | ⟨he, hf⟩ | ⟨he, hf⟩
  · refine ⟨o.turn s (parseBool i.value), ?_, ?_⟩
    · rw [he]
      exact setting_switch (he ▸ hp.1) value i.value o
    · have hw : ∀ k, (∀ s : Switch, s.key ≠ k) → i.key ≠ k := fun k hk => he ▸ hk s
      refine ⟨fun x => ?_, ?_, ?_, ?_, ?_, ?_, ?_, rfl, rfl, rfl⟩
      · by_cases hx : x = s
        · subst hx
          rw [last_one he, flag_bool hf]
          simp [Opts.turn]
        · rw [last_other (fun h => hx (key_inj (he ▸ h).symm))]
          simp [Opts.turn, hx]
      all_goals
        rw [last_other (hw _ (by intro s; cases s <;> decide))]
        rfl
  · obtain ⟨b, hb⟩ := Option.ne_none_iff_exists'.mp hf
    refine ⟨{ o with broken := b }, ?_, ?_⟩
    · rw [he]
      unfold brokenOf at hb
      split_ifs at hb with h1 h2 <;> cases hb
      · rw [h1]; rfl
      · rw [h2]; rfl
    · refine ⟨fun x => ?_, ?_, ?_, ?_, ?_, ?_, ?_, rfl, rfl, rfl⟩
      · rw [last_other (hk he (by cases x <;> decide))]; rfl
      · rw [last_one he, hb]; rfl
      all_goals
        rw [last_other (hk he (by decide))]
        rfl
  · obtain ⟨b, hb⟩ := Option.ne_none_iff_exists'.mp hf
    refine ⟨{ o with tags := b }, ?_, ?_⟩
    · rw [he]
      unfold tagsOf at hb
      split_ifs at hb with h1 h2 h3 <;> cases hb
      · rw [h1]; rfl
      · rw [h2]; rfl
      · rw [h3]; rfl
    · refine ⟨fun x => ?_, ?_, ?_, ?_, ?_, ?_, ?_, rfl, rfl, rfl⟩
      · rw [last_other (hk he (by cases x <;> decide))]; rfl
      · rw [last_other (hk he (by decide))]; rfl
      · rw [last_one he, hb]; rfl
      all_goals
        rw [last_other (hk he (by decide))]
        rfl
  · obtain ⟨b, hb⟩ := Option.ne_none_iff_exists'.mp hf
    refine ⟨{ o with tasks := b }, ?_, ?_⟩
    · rw [he]
      unfold tasksOf at hb
      split_ifs at hb with h1 h2 h3 <;> cases hb
      · rw [h1]; rfl
      · rw [h2]; rfl
      · exact absurd ⟨he, h3⟩ hp.2
    · refine ⟨fun x => ?_, ?_, ?_, ?_, ?_, ?_, ?_, rfl, rfl, rfl⟩
      · rw [last_other (hk he (by cases x <;> decide))]; rfl
      · rw [last_other (hk he (by decide))]; rfl
      · rw [last_other (hk he (by decide))]; rfl
      · rw [last_one he, hb]; rfl
      all_goals
        rw [last_other (hk he (by decide))]
        rfl
  · obtain ⟨b, hb⟩ := Option.ne_none_iff_exists'.mp hf
    refine ⟨{ o with arch := b }, ?_, ?_⟩
    · rw [he]
      unfold archOf at hb
      split_ifs at hb with h1 h2 h3 <;> cases hb
      · rw [h1]; rfl
      · rw [h2]; rfl
      · rw [h3]; rfl
    · refine ⟨fun x => ?_, ?_, ?_, ?_, ?_, ?_, ?_, rfl, rfl, rfl⟩
      · rw [last_other (hk he (by cases x <;> decide))]; rfl
      · rw [last_other (hk he (by decide))]; rfl
      · rw [last_other (hk he (by decide))]; rfl
      · rw [last_other (hk he (by decide))]; rfl
      · rw [last_one he, hb]; rfl
      all_goals
        rw [last_other (hk he (by decide))]
        rfl
  · obtain ⟨b, hb⟩ := Option.ne_none_iff_exists'.mp hf
    obtain ⟨-, hn⟩ := number_digits hb
    refine ⟨{ o with levels := some b }, ?_, ?_⟩
    · rw [he]
      show (number i.value).bind _ = _
      rw [hn]
      rfl
    · refine ⟨fun x => ?_, ?_, ?_, ?_, ?_, ?_, ?_, rfl, rfl, rfl⟩
      · rw [last_other (hk he (by cases x <;> decide))]; rfl
      · rw [last_other (hk he (by decide))]; rfl
      · rw [last_other (hk he (by decide))]; rfl
      · rw [last_other (hk he (by decide))]; rfl
      · rw [last_other (hk he (by decide))]; rfl
      · rw [last_one he, hb]; rfl
      · rw [last_other (hk he (by decide))]; rfl
  · obtain ⟨b, hb⟩ := Option.ne_none_iff_exists'.mp hf
    refine ⟨{ o with toc := b }, ?_, ?_⟩
    · rw [he]
      unfold tocOf at hb
      split_ifs at hb with h1 h2
      · cases hb; rw [h1]; rfl
      · cases hb; rw [h2]; rfl
      · obtain ⟨n, hn, rfl⟩ := Option.map_eq_some_iff.mp hb
        obtain ⟨⟨g1, g2⟩, g3⟩ := number_digits hn
        have e1 : ∀ w : String, normalize w.toList = w.toList → (∃ c ∈ w.toList, BaseLexer.isDigit c = false) → same i.value w = false := by
          intro w hw ⟨c, hc, hd⟩
          unfold same
          rw [digits_norm g2, hw]
          refine beq_false_of_ne ?_
          intro he
          rw [he] at g2
          rw [g2 c hc] at hd
          cases hd
        obtain ⟨c, r, hv⟩ := List.exists_cons_of_ne_nil g1
        unfold setting
        rw [if_neg (by decide), if_pos (by decide), e1 "t" (by decide) ⟨'t', by decide, by decide⟩, e1 "nil" (by decide) ⟨'n', by decide, by decide⟩]
        simp only [Bool.false_eq_true, if_false]
        have hc := g2 c (by rw [hv]; exact List.mem_cons_self)
        rw [hv] at g3 ⊢
        simp only [hc, if_true, g3]
        rfl
    · refine ⟨fun x => ?_, ?_, ?_, ?_, ?_, ?_, ?_, rfl, rfl, rfl⟩
      · rw [last_other (hk he (by cases x <;> decide))]; rfl
      · rw [last_other (hk he (by decide))]; rfl
      · rw [last_other (hk he (by decide))]; rfl
      · rw [last_other (hk he (by decide))]; rfl
      · rw [last_other (hk he (by decide))]; rfl
      · rw [last_other (hk he (by decide))]; rfl
      · rw [last_one he, hb]; rfl

theorem digits_no {v : Text} {c : Char} (hc : isDigit c = false) (h : numberOf v ≠ none) : c ∉ v := by
  obtain ⟨b, hb⟩ := Option.ne_none_iff_exists'.mp h
  intro hx
  have := (number_digits hb).1.2 c hx
  rw [hc] at this
  cases this

/-- In a value which is known there is neither a space, nor a colon, nor a line break. -/
theorem known_value {i : Item} (h : i.Known) : i.value ≠ [] ∧ ∀ c ∈ [' ', ':', '\n'], c ∉ i.value := by
  have hn : numberOf i.value ≠ none → i.value ≠ [] ∧ ∀ c ∈ [' ', ':', '\n'], c ∉ i.value := by
    intro h
    refine ⟨?_, ?_⟩
    · obtain ⟨b, hb⟩ := Option.ne_none_iff_exists'.mp h
      exact (number_digits hb).1.1
    · intro c hc
      refine digits_no ?_ h
      revert c
      decide
  rcases h with ⟨s, he, hf⟩ | ⟨he, hf⟩ | ⟨he, hf⟩ | ⟨he, hf⟩ | ⟨he, hf⟩ | ⟨he, hf⟩ | ⟨he, hf⟩
  · unfold flagOf at hf
    split_ifs at hf with h1 h2
    · rw [h1]; decide
    · rw [h2]; decide
    · exact absurd rfl hf
  · unfold brokenOf at hf
    split_ifs at hf with h1 h2
    · rw [h1]; decide
    · rw [h2]; decide
    · exact absurd rfl hf
  · unfold tagsOf at hf
    split_ifs at hf with h1 h2 h3
    · rw [h1]; decide
    · rw [h2]; decide
    · rw [h3]; decide
    · exact absurd rfl hf
  · unfold tasksOf at hf
    split_ifs at hf with h1 h2 h3
    · rw [h1]; decide
    · rw [h2]; decide
    · rw [h3]; decide
    · exact absurd rfl hf
  · unfold archOf at hf
    split_ifs at hf with h1 h2 h3
    · rw [h1]; decide
    · rw [h2]; decide
    · rw [h3]; decide
    · exact absurd rfl hf
  · exact hn hf
  · unfold tocOf at hf
    split_ifs at hf with h1 h2
    · rw [h1]; decide
    · rw [h2]; decide
    · exact hn (by rintro h; rw [h] at hf; exact hf rfl)

theorem known_key {i : Item} (h : i.Known) : ∀ c ∈ [' ', '\n'], c ∉ i.key := by
  rcases h with ⟨s, he, hf⟩ | ⟨he, hf⟩ | ⟨he, hf⟩ | ⟨he, hf⟩ | ⟨he, hf⟩ | ⟨he, hf⟩ | ⟨he, hf⟩
  · rw [he]; cases s <;> decide
  all_goals rw [he]; decide

theorem plain_key {i : Item} (h : i.Known) (hp : i.Plain) : ':' ∉ i.key := by
  rcases h with ⟨s, he, hf⟩ | ⟨he, hf⟩ | ⟨he, hf⟩ | ⟨he, hf⟩ | ⟨he, hf⟩ | ⟨he, hf⟩ | ⟨he, hf⟩
  · have h1 := hp.1
    rw [he] at h1 ⊢
    revert h1
    cases s <;> decide
  all_goals rw [he]; decide

/-- The item without the spaces before it. -/
def Item.piece (i : Item) : Text := i.key ++ ":".toList ++ i.value

theorem piece_no {i : Item} (h : i.Known) {c : Char} (hc : c ∈ [' ', '\n']) : c ∉ i.piece := by
  unfold Item.piece
  rw [List.mem_append, List.mem_append, not_or, not_or]
  refine ⟨⟨known_key h c hc, ?_⟩, (known_value h).2 c ?_⟩
  · revert c; decide
  · revert c; decide

theorem piece_said {i : Item} (h : i.Known) (hp : i.Plain) (o : Opts) : ∃ o', item i.piece o = .ok o' ∧ Change [i] o o' := by
  obtain ⟨o', h1, h2⟩ := item_said h hp i.piece o
  refine ⟨o', ?_, h2⟩
  have e : i.piece = i.key ++ ':' :: i.value := by simp [Item.piece]
  unfold item
  rw [if_pos (by rw [e]; simp)]
  have hs : splitChar ':' i.piece = [i.key, i.value] := by
    rw [e, splitChar_append (plain_key h hp), splitChar_one ((known_value h).2 ':' (by decide)) (known_value h).1]
  rw [hs]
  exact h1

theorem split_blanks (g : Nat) (s : Text) : splitChar ' ' (blanks g ++ s) = List.replicate g [] ++ splitChar ' ' s := by
  induction g with
  | zero => rfl
  | succ g ih =>
    have e : blanks (g + 1) ++ s = ([] : Text) ++ ' ' :: (blanks g ++ s) := by simp [blanks, List.replicate_succ]
    rw [e, splitChar_append (by simp), ih]
    rfl

theorem items_empty (g : Nat) (ps : List Text) (o : Opts) : ∃ o', items (List.replicate g [] ++ ps) o = items ps o' ∧ Change [] o o' := by
  induction g generalizing o with
  | zero => exact ⟨o, rfl, Change.nil o⟩
  | succ g ih =>
    obtain ⟨o', h1, h2⟩ := ih { o with fixedSections := some true }
    exact ⟨o', h1, by simpa using (Change.fixed o (some true)).append h2⟩

theorem items_one {p : Text} {ps : List Text} {o o' : Opts} (h : item p o = .ok o') : items (p :: ps) o = items ps o' := by
  rw [items, h]
  rfl

theorem items_said {is : List Item} (h : ItemsValid is) (hp : ∀ i ∈ is, i.Plain) (tail : Nat) (o : Opts) :
    ∃ o', optionsLine (itemsText is tail) o = .ok o' ∧ Change is o o' := by
  unfold optionsLine
  have hend : ∀ (tail : Nat) (o : Opts), ∃ o', items (splitChar ' ' (blanks tail)) o = .ok o' ∧ Change [] o o' := by
    intro tail o
    have e := split_blanks tail []
    rw [List.append_nil] at e
    rw [e]
    obtain ⟨o', h1, h2⟩ := items_empty tail (splitChar ' ' []) o
    rw [h1]
    exact ⟨_, rfl, h2⟩
  cases is with
  | nil => exact hend tail o
  | cons i r =>
    induction r generalizing i o with
    | nil =>
      have e : itemsText [i] tail = blanks i.gap ++ (i.piece ++ blanks tail) := by simp [itemsText, Item.text, Item.piece]
      rw [e, split_blanks]
      obtain ⟨o1, h1, h2⟩ := items_empty i.gap (splitChar ' ' (i.piece ++ blanks tail)) o
      obtain ⟨o2, h3, h4⟩ := piece_said h.1 (hp i List.mem_cons_self) o1
      rw [h1]
      have hno := piece_no h.1 (c := ' ') (by decide)
      cases tail with
      | zero =>
        rw [show i.piece ++ blanks 0 = i.piece from List.append_nil _, splitChar_one hno (by simp [Item.piece]), items_one h3]
        exact ⟨o2, rfl, by simpa using h2.append h4⟩
      | succ tail =>
        rw [show i.piece ++ blanks (tail + 1) = i.piece ++ ' ' :: blanks tail from rfl, splitChar_append hno, items_one h3]
        obtain ⟨o3, h5, h6⟩ := hend tail o2
        exact ⟨o3, h5, by simpa using (h2.append h4).append h6⟩
    | cons j r ih =>
      obtain ⟨g, hg⟩ : ∃ g, j.gap = g + 1 := ⟨j.gap - 1, by have := h.2.1 j List.mem_cons_self; omega⟩
      have e : itemsText (i :: j :: r) tail = blanks i.gap ++ (i.piece ++ ' ' :: itemsText ({ j with gap := g } :: r) tail) := by
        simp [itemsText, Item.text, Item.piece, hg, blanks, List.replicate_succ]
      rw [e, split_blanks]
      obtain ⟨o1, h1, h2⟩ := items_empty i.gap (splitChar ' ' (i.piece ++ ' ' :: itemsText ({ j with gap := g } :: r) tail)) o
      obtain ⟨o2, h3, h4⟩ := piece_said h.1 (hp i List.mem_cons_self) o1
      rw [h1, splitChar_append (piece_no h.1 (by decide)), items_one h3]
      obtain ⟨hj, hr1, hr2⟩ := h.2.2
      obtain ⟨o3, h5, h6⟩ := ih o2 { j with gap := g } ⟨hj, hr1, hr2⟩ (by
        intro x hx
        rcases List.mem_cons.mp hx with rfl | hx
        · exact hp j (by simp)
        · exact hp x (by simp [hx]))
      refine ⟨o3, h5, ?_⟩
      have h7 : Change (j :: r) o2 o3 := by
        have hl : ∀ {α : Type} (key : Text) (f : Text → Option α), last key f ({ j with gap := g } :: r) = last key f (j :: r) := fun key f => rfl
        exact ⟨h6.switch, h6.broken, h6.tags, h6.tasks, h6.arch, h6.levels, h6.toc, h6.errors, h6.visibility, h6.indented⟩
      simpa using (h2.append h4).append h7

/-- A space after the colon is an empty item, which is taken for `:`. -/
theorem first_space {is : List Item} {tail : Nat} {o o' : Opts} (s : Text) (hs : itemsText is tail = ' ' :: s) (h : optionsLine (itemsText is tail) o = .ok o') :
    optionsLine s { o with fixedSections := some true } = .ok o' := by
  unfold optionsLine at h ⊢
  rw [hs, show ' ' :: s = ([] : Text) ++ ' ' :: s from rfl, splitChar_append (by simp), items_one (o' := { o with fixedSections := some true }) rfl] at h
  exact h

/-! ## Documents -/

theorem text_no {x : Said} (h : x.Valid) : '\n' ∉ x.text := by
  cases x with
  | keywords t => exact h
  | email t => exact h
  | custom t => exact h
  | startup s =>
    have h1 := (words_trimmed h.word h.more).1
    show '\n' ∉ blanks s.gap ++ (s.word ++ _) ++ blanks s.tail
    rw [List.mem_append, List.mem_append, not_or, not_or]
    exact ⟨⟨fun hx => absurd (List.mem_replicate.mp hx).2 (by decide), h1⟩, fun hx => absurd (List.mem_replicate.mp hx).2 (by decide)⟩
  | options is tail =>
    show '\n' ∉ (is.map Item.text).flatten ++ blanks tail
    have hall : ∀ i ∈ is, i.Known := by
      replace h : ItemsValid is := h
      induction is with
      | nil => simp
      | cons i is ih =>
        intro x hx
        rcases List.mem_cons.mp hx with rfl | hx
        · exact h.1
        · exact ih h.2.2 x hx
    rw [List.mem_append, not_or]
    refine ⟨?_, fun hx => absurd (List.mem_replicate.mp hx).2 (by decide)⟩
    intro hx
    obtain ⟨y, hy, hx⟩ := List.mem_flatten.mp hx
    obtain ⟨i, hi, rfl⟩ := List.mem_map.mp hy
    rcases List.mem_append.mp hx with hx | hx
    · exact absurd (List.mem_replicate.mp hx).2 (by decide)
    · exact piece_no (hall i hi) (c := '\n') (by decide) hx

theorem entry_line {e : Entry} (h : e.Valid) : e.line.Valid := ⟨h.name, text_no h.said, by
  show roleOf (normalize e.name) ≠ none
  rw [h.role]
  simp⟩

theorem entries_lines {d : List Entry} (h : EntriesValid d) : DocValid (d.map Entry.line) := by
  induction d with
  | nil => trivial
  | cons e d ih => exact ⟨entry_line h.1, fun hr => h.2.1 (by rintro rfl; exact hr rfl), ih h.2.2⟩

/-- The restrictions for a document. -/
structure Plain (d : List Entry) : Prop where
  startup : ∀ s ∈ startups d, s.Plain
  items : ∀ i ∈ itemsOf d, i.Plain

/-- The nodes as they are read: the name of a custom command has its colon. -/
def nodesRead (d : List Entry) : List Node := d.filterMap fun e =>
  match e.said with
  | .email t => some (.email (stripSpace t))
  | .custom t => some (.custom (e.name ++ ":".toList) t)
  | _ => none

/-- What is changed in a document. -/
structure Changed (d : List Entry) (x y : Doc) : Prop where
  visibility : y.opts.visibility = ((startups d).getLast?.bind Startup.meaning).getD x.opts.visibility
  indented : y.opts.indented = if (startups d).any Startup.indent then some true else x.opts.indented
  opts : ∃ o, Change (itemsOf d) x.opts o ∧ y.opts = { o with visibility := y.opts.visibility, indented := y.opts.indented }
  nodes : y.nodes = x.nodes ++ nodesRead d

theorem effects_said {d : List Entry} (h : EntriesValid d) (hp : Plain d) (x : Doc) : ∃ y, effects (d.map Entry.line) x = .ok y ∧ Changed d x y := by
  induction d generalizing x with
  | nil => exact ⟨x, rfl, rfl, rfl, ⟨x.opts, Change.nil _, rfl⟩, by simp [nodesRead]⟩
  | cons e d ih =>
    have hrest : Plain d := by
      refine ⟨fun s hs => hp.startup s ?_, fun i hi => hp.items i ?_⟩
      · obtain ⟨a, ha, hs⟩ := List.mem_filterMap.mp hs
        exact List.mem_filterMap.mpr ⟨a, List.mem_cons_of_mem _ ha, hs⟩
      · obtain ⟨a, ha, hi⟩ := List.mem_flatten.mp hi
        exact List.mem_flatten.mpr ⟨a, by rw [List.map_cons]; exact List.mem_cons_of_mem _ ha, hi⟩
    have hr : e.line.role = some e.said.role := h.1.role
    obtain ⟨name, said, after⟩ := e
    have hok : ∀ x1, Line.effect (Entry.line ⟨name, said, after⟩) x = .ok x1 → ∃ y, effects ((⟨name, said, after⟩ :: d).map Entry.line) x = .ok y ∧ Changed d x1 y := by
      intro x1 h1
      obtain ⟨y, h2, h3⟩ := ih h.2.2 hrest x1
      refine ⟨y, ?_, h3⟩
      rw [List.map_cons, effects, h1]
      exact h2
    have hsame : ∀ x1 x2 : Opts, x1 = { x2 with visibility := x1.visibility, indented := x1.indented } → ∀ is o, Change is x1 o →
        ∃ o', Change is x2 o' ∧ o = { o' with visibility := o.visibility, indented := o.indented } := by
      intro x1 x2 he is o hc
      refine ⟨{ o with visibility := x2.visibility, indented := x2.indented }, ?_, rfl⟩
      rw [he] at hc
      exact ⟨hc.switch, hc.broken, hc.tags, hc.tasks, hc.arch, hc.levels, hc.toc, hc.errors, rfl, rfl⟩
    cases said with
    | startup s =>
      have hs : startups (⟨name, .startup s, after⟩ :: d) = s :: startups d := rfl
      have hi : itemsOf (⟨name, .startup s, after⟩ :: d) = itemsOf d := rfl
      have hn : nodesRead (⟨name, .startup s, after⟩ :: d) = nodesRead d := rfl
      obtain ⟨v, h1, h2⟩ := startup_said h.1.said (hp.startup s (by rw [hs]; exact List.mem_cons_self)) x.opts
      obtain ⟨y, h3, h4⟩ := hok _ (by
        unfold Line.effect
        rw [hr]
        show (startupLine s.text x.opts).bind _ = _
        rw [h2]
        rfl)
      refine ⟨y, h3, ?_, ?_, ?_, by rw [hn]; exact h4.nodes⟩
      · rw [hs, h4.visibility]
        cases hl : startups d with
        | nil => simp [h1]
        | cons t ts =>
          have hv : ∀ t, t ∈ startups d → t.Valid := by
            intro t ht
            obtain ⟨a, ha, ht⟩ := List.mem_filterMap.mp ht
            have hav : a.Valid := by
              have h := h.2.2
              clear * - h ha
              induction d with
              | nil => cases ha
              | cons b d ih =>
                rcases List.mem_cons.mp ha with rfl | ha
                · exact h.1
                · exact ih ha h.2.2
            have hs := hav.said
            cases hsa : a.said with
            | startup u =>
              rw [hsa] at ht hs
              cases ht
              exact hs
            | _ => rw [hsa] at ht; cases ht
          rw [List.getLast?_cons_cons]
          have hne : (t :: ts).getLast? ≠ none := by simp
          obtain ⟨u, hu⟩ := Option.ne_none_iff_exists'.mp hne
          obtain ⟨w, hw⟩ := Option.ne_none_iff_exists'.mp (hv u (by rw [hl]; exact List.mem_of_getLast? hu)).known
          rw [hu]
          simp [hw]
      · rw [hs, h4.indented]
        simp only [List.any_cons]
        by_cases k1 : s.indent = true <;> by_cases k2 : (startups d).any Startup.indent = true <;> simp [k1, k2]
      · rw [hi]
        obtain ⟨o, k1, k2⟩ := h4.opts
        obtain ⟨o', k3, k4⟩ := hsame _ x.opts rfl _ _ k1
        refine ⟨o', k3, ?_⟩
        rw [k4] at k2
        exact k2
    | options is tail =>
      have hs : startups (⟨name, .options is tail, after⟩ :: d) = startups d := rfl
      have hi : itemsOf (⟨name, .options is tail, after⟩ :: d) = is ++ itemsOf d := rfl
      have hn : nodesRead (⟨name, .options is tail, after⟩ :: d) = nodesRead d := rfl
      obtain ⟨o, h1, h2⟩ := items_said h.1.said (fun i hm => hp.items i (by rw [hi]; exact List.mem_append_left _ hm)) tail x.opts
      obtain ⟨y, h3, h4⟩ := hok _ (by
        unfold Line.effect
        rw [hr]
        show (optionsLine (itemsText is tail) x.opts).bind _ = _
        rw [h1]
        rfl)
      refine ⟨y, h3, ?_, ?_, ?_, by rw [hn]; exact h4.nodes⟩
      · rw [hs, h4.visibility]
        show _ = Option.getD _ _
        dsimp only
        rw [h2.visibility]
      · rw [hs, h4.indented]
        dsimp only
        rw [h2.indented]
      · rw [hi]
        obtain ⟨o', k1, k2⟩ := h4.opts
        exact ⟨o', h2.append k1, k2⟩
    | keywords t =>
      obtain ⟨y, h3, h4⟩ := hok x (by
        unfold Line.effect
        rw [hr]
        rfl)
      exact ⟨y, h3, h4.visibility, h4.indented, h4.opts, h4.nodes⟩
    | email t =>
      obtain ⟨y, h3, h4⟩ := hok { x with nodes := x.nodes ++ [.email (stripSpace t)] } (by
        unfold Line.effect
        rw [hr]
        rfl)
      refine ⟨y, h3, h4.visibility, h4.indented, h4.opts, ?_⟩
      rw [h4.nodes, List.append_assoc]
      rfl
    | custom t =>
      obtain ⟨y, h3, h4⟩ := hok { x with nodes := x.nodes ++ [.custom (name ++ ":".toList) t] } (by
        unfold Line.effect
        rw [hr]
        rfl)
      refine ⟨y, h3, h4.visibility, h4.indented, h4.opts, ?_⟩
      rw [h4.nodes, List.append_assoc]
      rfl

/-- What is read from a document. -/
structure ReadAs (d : List Entry) (y : Doc) : Prop where
  visibility : y.opts.visibility = visibilityIn d
  indented : y.opts.indented = indentedIn d
  shown : Shown (itemsOf d) y.opts
  nodes : y.nodes = nodesRead d

theorem read_said {d : List Entry} (h : EntriesValid d) (hp : Plain d) {n : Nat} (hn : 4 * d.length + 5 ≤ n) :
    ∃ y, read n (docText d) = .ok (.ok y) ∧ ReadAs d y := by
  obtain ⟨y, h1, h2⟩ := effects_said h hp {}
  have hl := docFin_le (d.map Entry.line)
  rw [List.length_map] at hl
  refine ⟨y, ?_, h2.visibility, h2.indented, ?_, h2.nodes⟩
  · unfold docText
    rw [read_doc (entries_lines h) (by omega), h1]
  · obtain ⟨o, k1, k2⟩ := h2.opts
    rw [k2]
    refine ⟨fun s => ?_, k1.broken, k1.tags, k1.tasks, k1.arch, ?_, k1.toc, k1.errors⟩
    · show o.switch s = _
      rw [k1.switch]
      cases last s.key flagOf (itemsOf d) <;> rfl
    · show o.levels = _
      rw [k1.levels]
      cases last "H".toList numberOf (itemsOf d) <;> rfl

end Verif.Keywords
