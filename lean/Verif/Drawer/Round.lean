import Verif.Drawer.Line
import Verif.Drawer.Text

/-!
# One property, written and read
-/

namespace Verif.Drawer

open Verif.BaseLexer

variable {T : Type} (lib : Lib T)

theorem readLine_name {name v : Text} (hn : IsName name) (hv : v = [] ∨ ∃ u, v = ' ' :: u) :
    readLine lib (':' :: name ++ ':' :: v) = readRaw lib (':' :: name ++ [':']) v := by
  unfold readLine
  rw [lineStart_name hn hv]
  simp only
  have : ':' :: name ++ ':' :: v = (':' :: name ++ [':']) ++ v := by simp
  rw [this, show name.length + 2 = (':' :: name ++ [':']).length by simp, List.take_left, List.drop_left]

theorem readLine_inv {line : Text} {r : Read T} (h : readLine lib line = .ok r) :
    ∃ name v, line = ':' :: name ++ ':' :: v ∧ IsName name ∧ readRaw lib (':' :: name ++ [':']) v = .ok r := by
  unfold readLine at h
  cases hl : lineStart stdLex line 0 with
  | litProp n =>
    rw [hl] at h
    obtain ⟨name, v, rfl, hn, rfl⟩ := lineStart_inv hl
    refine ⟨name, v, rfl, hn, ?_⟩
    simp only at h
    have : ':' :: name ++ ':' :: v = (':' :: name ++ [':']) ++ v := by simp
    rw [this, show name.length + 2 = (':' :: name ++ [':']).length by simp, List.take_left, List.drop_left] at h
    exact h
  | _ => rw [hl] at h; cases h

theorem IsName.mem {name : Text} (h : IsName name) : ∀ c ∈ name, c ≠ '\n' ∧ c ≠ ' ' := by
  intro c hc
  cases h with
  | one hw _ => exact ⟨fun he => hw.newline (he ▸ hc), fun he => hw.space (he ▸ hc)⟩
  | two hw _ hs =>
    rcases List.mem_append.mp hc with hc | hc
    · exact ⟨fun he => hw.newline (he ▸ hc), fun he => hw.space (he ▸ hc)⟩
    · rcases List.mem_cons.mp hc with rfl | hc
      · decide
      · exact ⟨fun he => hs.newline (he ▸ hc), fun he => hs.space (he ▸ hc)⟩

theorem ident_ends {w : Text} (h : Ident w) : (∃ a t, w = a :: t ∧ oident a = true) ∧ ∃ t a, w = t ++ [a] ∧ oident a = true := by
  constructor
  · cases w with
    | nil => exact absurd rfl h.1
    | cons a t => exact ⟨a, t, rfl, h.oident a List.mem_cons_self⟩
  · refine ⟨w.dropLast, w.getLast h.1, (List.dropLast_concat_getLast h.1).symm, h.oident _ (List.getLast_mem h.1)⟩

theorem IsName.ends {name : Text} (h : IsName name) :
    (∃ a t, name = a :: t ∧ oident a = true) ∧ ∃ t a, name = t ++ [a] ∧ oident a = true := by
  cases h with
  | one hw _ => exact ident_ends hw
  | two hw _ hs =>
    obtain ⟨a, t, rfl, ha⟩ := (ident_ends hw).1
    obtain ⟨t', a', rfl, ha'⟩ := (ident_ends hs).2
    exact ⟨⟨a, t ++ ':' :: (t' ++ [a']), by simp, ha⟩, ⟨a :: t ++ ':' :: t', a', by simp, ha'⟩⟩

theorem base_name {name : Text} (h : IsName name) : strip (':' :: name ++ [':']) (fun c => c = ' ' || c = ':') (· = ':') = name := by
  obtain ⟨⟨a, t, he, ha⟩, ⟨t', a', he', ha'⟩⟩ := h.ends
  have hna : a ≠ ' ' ∧ a ≠ ':' := by constructor <;> rintro rfl <;> revert ha <;> decide
  have hna' : a' ≠ ':' := by rintro rfl; revert ha'; decide
  unfold strip
  rw [List.cons_append, List.dropWhile_cons, if_pos (by decide)]
  rw [dropWhile_head (s := name ++ [':'])]
  · rw [List.reverse_append, List.reverse_singleton, List.singleton_append, List.dropWhile_cons, if_pos (by decide),
      dropWhile_head, List.reverse_reverse]
    intro c hc
    rw [he'] at hc
    simp at hc
    subst hc
    simpa using hna'
  · intro c hc
    rw [he] at hc
    simp at hc
    subst hc
    simpa using hna

theorem ident_dec {w : Text} (h : w ≠ [] ∧ w.all (fun c => decide (isAlnum c ∨ c = '_' ∨ c = '-')) = true) : Ident w := by
  refine ⟨h.1, fun c hc => ?_⟩
  simpa using List.all_eq_true.mp h.2 c hc

theorem name_dec {w : Text} (h : w ≠ [] ∧ w.all (fun c => decide (isAlnum c ∨ c = '_' ∨ c = '-')) = true)
    (hs : decide (w.map toLower ∈ specialNames) = false) : IsName w :=
  .one (ident_dec h) (by simpa [Special] using hs)

section names
theorem name_custom_id : IsName "custom_id".toList := name_dec (by decide) (by decide)
theorem name_id : IsName "ID".toList := name_dec (by decide) (by decide)
theorem name_archive_file : IsName "archive_file".toList := name_dec (by decide) (by decide)
theorem name_archive_category : IsName "archive_category".toList := name_dec (by decide) (by decide)
theorem name_archive_todo : IsName "archive_todo".toList := name_dec (by decide) (by decide)
theorem name_archive_olpath : IsName "archive_olpath".toList := name_dec (by decide) (by decide)
theorem name_archive_time : IsName "archive_time".toList := name_dec (by decide) (by decide)
theorem name_archive : IsName "archive".toList := name_dec (by decide) (by decide)
theorem name_visibility : IsName "visibility".toList := name_dec (by decide) (by decide)
theorem name_effort : IsName "EFFORT".toList := name_dec (by decide) (by decide)
theorem name_radio_id : IsName "radio_id".toList := name_dec (by decide) (by decide)
end names

theorem readRaw_customId (v : Text) : readRaw lib ":custom_id:".toList v = .ok (.prop (.customId (stripSpace v))) := rfl
theorem readRaw_id (v : Text) : readRaw lib ":ID:".toList v = .ok (.treeId (stripSpace v)) := rfl
theorem readRaw_archiveFile (v : Text) : readRaw lib ":archive_file:".toList v = .ok (.prop (.archiveFile (stripSpace v))) := rfl
theorem readRaw_archiveCategory (v : Text) : readRaw lib ":archive_category:".toList v = .ok (.prop (.archiveCategory (stripSpace v))) := rfl
theorem readRaw_archiveTodo (v : Text) : readRaw lib ":archive_todo:".toList v = .ok (.prop (.archiveTodo (stripSpace v))) := rfl
theorem readRaw_archiveOlpath (v : Text) : readRaw lib ":archive_olpath:".toList v = .ok (.prop (.archiveOlpath (readPath (stripSpace v)))) := rfl
theorem readRaw_archive (v : Text) : readRaw lib ":archive:".toList v = (readTarget (stripSpace v)).map .prop := rfl
theorem readRaw_archiveTime (v : Text) : readRaw lib ":archive_time:".toList v =
    match lib.readTime (stripSpace v) with
    | some t => .ok (.prop (.archiveTime t))
    | none => .error .exception := rfl
theorem readRaw_visibility (v : Text) : readRaw lib ":visibility:".toList v =
    match parseLevel v with
    | some l => .ok (.prop (.visibility l))
    | none => .error .exception := rfl
theorem readRaw_effort (v : Text) : readRaw lib ":EFFORT:".toList v = (readEffort (stripSpace v)).map .prop := rfl
theorem readRaw_radioId (v : Text) : readRaw lib ":radio_id:".toList v = .ok (.prop (.radioId (splitChar ' ' (stripSpace v)))) := rfl

/-- Reading a name without a meaning of its own. -/
theorem readRaw_unknown {name v : Text} (hn : IsName name) (hu : Unknown name) :
    readRaw lib (':' :: name ++ [':']) v = .ok (.prop (.customRaw name (stripSpace v))) := by
  unfold readRaw
  rw [base_name hn]
  obtain ⟨h1, h2, h3⟩ := hu
  simp only [builtinNames, List.map_cons, List.map_nil, List.mem_cons, List.not_mem_nil, or_false, not_or] at h1
  obtain ⟨a1, a2, a3, a4, a5, a6, a7, a8, a9, a10, a11, a12, a13, a14, a15⟩ := h1
  simp only [a1, a2, a3, a4, a5, a6, a7, a8, a9, a10, a11, a12, a13, a14, a15, if_false]
  rw [if_neg (by rw [List.isPrefixOf_iff_prefix]; exact h2), if_neg (by rw [List.isPrefixOf_iff_prefix]; exact h3)]

theorem normalize_append (a b : Text) : normalize (a ++ b) = normalize a ++ normalize b := by
  simp [normalize, List.filterMap_append]

theorem readRaw_json {name v : Text} (hn : Ident name) :
    readRaw lib (':' :: ("prop_json".toList ++ ':' :: name) ++ [':']) v =
      match lib.readJson (stripSpace v) with
      | some j => .ok (.prop (.customJson (normalize name) j))
      | none => .error .exception := by
  have hn2 : IsName ("prop_json".toList ++ ':' :: name) :=
    .two (ident_dec (by decide)) (by simp only [Special]; decide) hn
  unfold readRaw
  rw [base_name hn2]
  have hno : normalize ("prop_json".toList ++ ':' :: name) = "propjson".toList ++ normalize name := by
    rw [normalize_append]
    have : normalize (':' :: name) = normalize name := rfl
    rw [this]
    rfl
  simp only [hno]
  have hne : ∀ s : Text, ¬ "propjson".toList <+: s → "propjson".toList ++ normalize name ≠ s := by
    intro s h he
    exact h ⟨_, he⟩
  have hneq : ∀ s : Text, ("propjson".toList.isPrefixOf s) = false → "propjson".toList ++ normalize name ≠ s := by
    intro s h
    apply hne
    rw [← List.isPrefixOf_iff_prefix, h]
    simp
  rw [if_neg (hneq _ (by decide)), if_neg (hneq _ (by decide)), if_neg (hneq _ (by decide)), if_neg (hneq _ (by decide)),
    if_neg (hneq _ (by decide)), if_neg (hneq _ (by decide)), if_neg (hneq _ (by decide)), if_neg (hneq _ (by decide)),
    if_neg (hneq _ (by decide)), if_neg (hneq _ (by decide)), if_neg (hneq _ (by decide)), if_neg (hneq _ (by decide)),
    if_neg (hneq _ (by decide)), if_neg (hneq _ (by decide)), if_neg (hneq _ (by decide)),
    if_pos (by rw [List.isPrefixOf_iff_prefix]; exact ⟨_, rfl⟩)]
  unfold readJsonProp
  cases lib.readJson (stripSpace v) with
  | none => rfl
  | some j =>
    have hs : strip ("prop_json".toList ++ ':' :: name) (· = ':') (· = ':') = "prop_json".toList ++ ':' :: name := by
      apply strip_same
      · intro c hc
        have : c = 'p' := by simpa using hc.symm
        subst this; decide
      · intro c hc
        obtain ⟨t, a, rfl, ha⟩ := (ident_ends hn).2
        have : c = a := by
          rw [show "prop_json".toList ++ ':' :: (t ++ [a]) = ("prop_json".toList ++ ':' :: t) ++ [a] by simp] at hc
          rw [List.getLast?_append] at hc
          simpa using hc.symm
        subst this
        have := oident_not_colon ha
        simpa using this
    simp only [hs]
    rw [splitChar_append (by decide), splitChar_one hn.colon hn.1]
    rfl

/-! ## Kept properties -/

theorem parseLevel_name (l : Level) : parseLevel (' ' :: l.name) = some l := by cases l <;> decide

theorem join_no_newline {ch : Char} {l : List Text} (hc : ch ≠ '\n') (h : ∀ w ∈ l, '\n' ∉ w) : '\n' ∉ join [ch] l := by
  induction l with
  | nil => simp [join]
  | cons a l ih =>
    cases l with
    | nil => rw [join]; exact h a List.mem_cons_self
    | cons b l =>
      rw [join]
      simp only [List.mem_append, List.mem_singleton, not_or]
      exact ⟨⟨h a List.mem_cons_self, Ne.symm hc⟩, ih (fun w hw => h w (List.mem_cons_of_mem _ hw))⟩

/-- The first and the last character of a joined text. -/
theorem join_head {ch : Char} {l : List Text} {c : Char} (h : (join [ch] l).head? = some c) :
    c = ch ∧ l.head? = some [] ∨ ∃ w, l.head? = some w ∧ w.head? = some c := by
  cases l with
  | nil => cases h
  | cons a l =>
    cases a with
    | nil =>
      cases l with
      | nil => cases h
      | cons b l => simp [join] at h; exact .inl ⟨h.symm, rfl⟩
    | cons x a =>
      refine .inr ⟨x :: a, rfl, ?_⟩
      cases l with
      | nil => exact h
      | cons b l => simpa [join] using h

theorem join_last {ch : Char} {l : List Text} {c : Char} (h : (join [ch] l).getLast? = some c) :
    c = ch ∧ l.getLast? = some [] ∨ ∃ w, l.getLast? = some w ∧ w.getLast? = some c := by
  induction l with
  | nil => cases h
  | cons a l ih =>
    cases l with
    | nil => exact .inr ⟨a, rfl, h⟩
    | cons b l =>
      rw [join, List.getLast?_append] at h
      cases hj : (join [ch] (b :: l)).getLast? with
      | some d =>
        rw [hj] at h
        cases h
        have := ih hj
        simpa using this
      | none =>
        rw [List.getLast?_eq_none_iff] at hj
        have hl : b :: l = [[]] := by
          cases l with
          | nil => simp [join] at hj; simp [hj]
          | cons x l => simp [join] at hj
        rw [hl] at h ⊢
        simp [join] at h
        exact .inl ⟨h.symm, by simp⟩

theorem IsPath.trimmed {path : List Text} (h : IsPath path) : Trimmed (join ['/'] path) := by
  obtain ⟨hne, he, -⟩ := h
  refine ⟨join_no_newline (by decide) (fun w hw => (he w hw).2.1), fun hh => ?_, fun hh => ?_⟩
  · rcases join_head hh with ⟨h, -⟩ | ⟨w, hw, h⟩
    · revert h; decide
    · exact (he w (List.mem_of_mem_head? (by simpa using hw))).2.2.1 h
  · rcases join_last hh with ⟨h, -⟩ | ⟨w, hw, h⟩
    · revert h; decide
    · exact (he w (List.mem_of_getLast? hw)).2.2.2 h

theorem IsPath.head {path : List Text} (h : IsPath path) : (join ['/'] path).head? ≠ some '*' := by
  intro hh
  rcases join_head hh with ⟨h, -⟩ | ⟨w, hw, hc⟩
  · revert h; decide
  · exact h.2.2 w hw hc

theorem readPath_join {path : List Text} (h : IsPath path) : readPath (join ['/'] path) = path := by
  unfold readPath
  have ht := h.trimmed
  rw [strip_same, splitStr_join h.1 (fun w hw => (h.2.1 w hw).1)]
  · have : ∀ w ∈ path, stripSpace w = w := fun w hw => (h.2.1 w hw).2.stripSpace
    exact List.map_congr_left this |>.trans (List.map_id _)
  · intro c hc
    have h1 : c ≠ '*' := fun he => h.head (he ▸ hc)
    have h2 : c ≠ ' ' := fun he => ht.2.1 (he ▸ hc)
    simp [h1, h2]
  · intro c hc
    have h2 : c ≠ ' ' := fun he => ht.2.2 (he ▸ hc)
    simpa using h2

theorem trimmed_pair {a b : Text} (ha : ∀ c ∈ a, c ≠ ' ' ∧ c ≠ '\n') (hb : ∀ c ∈ b, c ≠ ' ' ∧ c ≠ '\n') : Trimmed (a ++ ':' :: b) := by
  have hall : ∀ c ∈ a ++ ':' :: b, c ≠ ' ' ∧ c ≠ '\n' := by
    intro c hc
    rcases List.mem_append.mp hc with hc | hc
    · exact ha c hc
    · rcases List.mem_cons.mp hc with rfl | hc
      · decide
      · exact hb c hc
  refine ⟨fun h => (hall _ h).2 rfl, fun h => ?_, fun h => ?_⟩
  · exact (hall _ (List.mem_of_mem_head? (by simpa using h))).1 rfl
  · exact (hall _ (List.mem_of_getLast? h)).1 rfl

theorem readEffort_show {h m : Int} (hh : IsInt h) (hm : IsInt m) :
    readEffort (T := T) (stripSpace (' ' :: (showInt h ++ ':' :: showInt m))) = .ok (.effort h m) := by
  have ht : Trimmed (showInt h ++ ':' :: showInt m) :=
    trimmed_pair (fun c hc => (showInt_plain hc).2) (fun c hc => (showInt_plain hc).2)
  rw [stripSpace_cons, ht.stripSpace]
  unfold readEffort
  rw [splitStr_char (fun hc => (showInt_plain hc).1 rfl), splitStr_one (fun hi => (showInt_plain (infix_char.mp hi)).1 rfl)]
  simp only [stoi_show hh, stoi_show hm]
  rfl

theorem readTarget_write {pattern : Text} {path : List Text} (h1 : '\n' ∉ pattern) (h2 : pattern.head? ≠ some ' ')
    (h3 : ¬ "::".toList <:+: pattern) (h4 : pattern.getLast? ≠ some ':') (h5 : path ≠ []) (h6 : ∀ e ∈ path, '/' ∉ e)
    (h7 : Trimmed (join ['/'] path)) (h8 : (join ['/'] path).head? ≠ some '*') (h9 : ¬ "::".toList <:+: join ['/'] path) :
    readTarget (T := T) (stripSpace (' ' :: (pattern ++ "::* ".toList ++ join ['/'] path))) = .ok (.archiveTarget pattern path) := by
  have hl : lstrip (('*' :: ' ' :: join ['/'] path)) (fun c => c = '*' || c = ' ') = join ['/'] path := by
    unfold lstrip
    rw [strip_cons (by decide), strip_cons (by decide)]
    apply strip_same
    · intro c hc
      have a1 : c ≠ '*' := fun he => h8 (he ▸ hc)
      have a2 : c ≠ ' ' := fun he => h7.2.1 (he ▸ hc)
      simp [a1, a2]
    · intro c _; rfl
  have hl2 : lstrip ['*'] (fun c => c = '*' || c = ' ') = [] := by decide
  have hsplit : ∀ x : Text, ¬ "::".toList <:+: x → splitStr "::".toList (pattern ++ "::".toList ++ x) = [pattern, x] := by
    intro x hx
    rw [splitStr_colons h3 h4, splitStr_one hx]
  have hstar : ∀ x : Text, ¬ "::".toList <:+: x → ¬ "::".toList <:+: '*' :: ' ' :: x := by
    intro x hx
    rw [colons_infix] at hx ⊢
    rintro ⟨a, b, he⟩
    cases a with
    | nil => simp at he
    | cons p a =>
      cases a with
      | nil => simp at he
      | cons q a =>
        simp only [List.cons_append, List.cons.injEq] at he
        exact hx ⟨a, b, he.2.2⟩
  rw [stripSpace_cons]
  by_cases hj : join ['/'] path = []
  · have hp : path = [[]] := by
      cases path with
      | nil => exact absurd rfl h5
      | cons a l =>
        cases l with
        | nil => simp [join] at hj; rw [hj]
        | cons b l => simp [join] at hj
    rw [hj]
    have hs : stripSpace (pattern ++ "::* ".toList ++ []) = pattern ++ "::".toList ++ ['*'] := by
      rw [List.append_nil, show pattern ++ "::* ".toList = (pattern ++ "::*".toList) ++ [' '] by simp]
      unfold stripSpace strip
      rw [dropWhile_head (s := pattern ++ "::*".toList ++ [' '])]
      · rw [List.reverse_append, List.reverse_singleton, List.singleton_append, List.dropWhile_cons, if_pos (by decide),
          dropWhile_head, List.reverse_reverse]
        · simp
        · intro c hc
          simp at hc
          subst hc; decide
      · intro c hc
        by_cases he : c = ' '
        · exfalso
          subst he
          cases pattern with
          | nil => simp at hc
          | cons a p => exact h2 (by simpa using hc)
        · simpa using he
    rw [hs]
    unfold readTarget
    rw [hsplit ['*'] (by rw [colons_infix]; rintro ⟨a, b, he⟩; cases a <;> simp at he)]
    simp only [hl2, hp]
    rfl
  · have hs : stripSpace (pattern ++ "::* ".toList ++ join ['/'] path) = pattern ++ "::".toList ++ ('*' :: ' ' :: join ['/'] path) := by
      unfold stripSpace
      rw [strip_same]
      · simp
      · intro c hc
        by_cases he : c = ' '
        · exfalso
          subst he
          cases pattern with
          | nil => simp at hc
          | cons a p => exact h2 (by simpa using hc)
        · simpa using he
      · intro c hc
        rw [List.getLast?_append] at hc
        cases hq : (join ['/'] path).getLast? with
        | none => rw [List.getLast?_eq_none_iff] at hq; exact absurd hq hj
        | some d =>
          rw [hq] at hc
          have : d = c := by simpa using hc
          subst this
          by_cases he : d = ' '
          · exact absurd (he ▸ hq) h7.2.2
          · simpa using he
    rw [hs]
    unfold readTarget
    rw [hsplit _ (hstar _ h9)]
    simp only [hl]
    rw [splitStr_join h5 h6]

/-- A kept property is one line, which is read as the property. -/
theorem Kept.read {p : NamedProp T} (h : Kept lib p) : readLine lib (p.write lib) = .ok (.prop p) ∧ '\n' ∉ p.write lib := by
  have sp : ∀ u : Text, (' ' :: u : Text) = [] ∨ ∃ v, (' ' :: u : Text) = ' ' :: v := fun u => .inr ⟨u, rfl⟩
  have nl : ∀ (n u : Text), n.all (· ≠ '\n') = true → '\n' ∉ u → '\n' ∉ n ++ u := by
    intro n u hn hu hm
    rcases List.mem_append.mp hm with hm | hm
    · have := List.all_eq_true.mp hn _ hm
      simp at this
    · exact hu hm
  cases h with
  | @customId v h =>
    refine ⟨?_, nl _ _ (by decide) h.1⟩
    have := readLine_name lib name_custom_id (sp v)
    refine this.trans ((readRaw_customId lib _).trans ?_)
    rw [stripSpace_cons, h.stripSpace]
  | @archiveFile v h =>
    refine ⟨?_, nl _ _ (by decide) h.1⟩
    refine (readLine_name lib name_archive_file (sp v)).trans ((readRaw_archiveFile lib _).trans ?_)
    rw [stripSpace_cons, h.stripSpace]
  | @archiveCategory v h =>
    refine ⟨?_, nl _ _ (by decide) h.1⟩
    refine (readLine_name lib name_archive_category (sp v)).trans ((readRaw_archiveCategory lib _).trans ?_)
    rw [stripSpace_cons, h.stripSpace]
  | @archiveTodo v h =>
    refine ⟨?_, nl _ _ (by decide) h.1⟩
    refine (readLine_name lib name_archive_todo (sp v)).trans ((readRaw_archiveTodo lib _).trans ?_)
    rw [stripSpace_cons, h.stripSpace]
  | visibility l =>
    refine ⟨?_, nl _ _ (by decide) (by cases l <;> decide)⟩
    refine (readLine_name lib name_visibility (sp l.name)).trans ((readRaw_visibility lib _).trans ?_)
    rw [parseLevel_name]
  | @effort h m hh hm =>
    refine ⟨?_, nl _ _ (by decide) ?_⟩
    · refine (readLine_name lib name_effort (sp (showInt h ++ ':' :: showInt m))).trans ((readRaw_effort lib _).trans ?_)
      rw [readEffort_show hh hm]
      rfl
    · exact (trimmed_pair (fun c hc => (showInt_plain hc).2) (fun c hc => (showInt_plain hc).2)).1
  | @radioId words h1 h2 h3 =>
    have ht : Trimmed (join [' '] words) := by
      refine ⟨join_no_newline (by decide) (fun w hw => (h1 w hw).2), fun hh => ?_, fun hh => ?_⟩
      · rcases join_head hh with ⟨-, h⟩ | ⟨w, hw, h⟩
        · exact h2 h
        · exact (h1 w (List.mem_of_mem_head? (by simpa using hw))).1 (List.mem_of_mem_head? (by simpa using h))
      · rcases join_last hh with ⟨-, h⟩ | ⟨w, hw, h⟩
        · exact h3 h
        · exact (h1 w (List.mem_of_getLast? hw)).1 (List.mem_of_getLast? h)
    refine ⟨?_, nl _ _ (by decide) ht.1⟩
    refine (readLine_name lib name_radio_id (sp (join [' '] words))).trans ((readRaw_radioId lib _).trans ?_)
    rw [stripSpace_cons, ht.stripSpace, splitChar_join (fun w hw => (h1 w hw).1) h3]
  | @archiveOlpath path h =>
    refine ⟨?_, nl _ _ (by decide) h.trimmed.1⟩
    refine (readLine_name lib name_archive_olpath (sp (join ['/'] path))).trans ((readRaw_archiveOlpath lib _).trans ?_)
    rw [stripSpace_cons, h.trimmed.stripSpace, readPath_join h]
  | @archiveTarget pattern path h1 h2 h3 h4 h5 h6 h7 h8 h9 =>
    constructor
    · have := readLine_name lib name_archive (sp (pattern ++ "::* ".toList ++ join ['/'] path))
      have he : NamedProp.write lib (.archiveTarget pattern path) =
          ':' :: "archive".toList ++ ':' :: (' ' :: (pattern ++ "::* ".toList ++ join ['/'] path)) := by
        show ":archive: ".toList ++ pattern ++ "::* ".toList ++ join ['/'] path =
          ":archive: ".toList ++ (pattern ++ "::* ".toList ++ join ['/'] path)
        simp only [List.append_assoc]
      rw [he]
      refine this.trans ((readRaw_archive lib _).trans ?_)
      rw [readTarget_write h1 h2 h3 h4 h5 h6 h7 h8 h9]
      rfl
    · show '\n' ∉ ":archive: ".toList ++ pattern ++ "::* ".toList ++ join ['/'] path
      rw [List.mem_append, List.mem_append, List.mem_append, not_or, not_or, not_or]
      exact ⟨⟨⟨by decide, h1⟩, by decide⟩, h7.1⟩
  | @customRaw name v hn hu h =>
    constructor
    · have := readLine_name lib hn (sp v)
      have he : NamedProp.write lib (.customRaw name v) = ':' :: name ++ ':' :: (' ' :: v) := by
        show ':' :: name ++ ": ".toList ++ v = ':' :: name ++ (": ".toList ++ v)
        simp only [List.append_assoc]
      rw [he]
      refine this.trans ((readRaw_unknown lib hn hu).trans ?_)
      rw [stripSpace_cons, h.stripSpace]
    · show '\n' ∉ [':'] ++ name ++ ": ".toList ++ v
      rw [List.mem_append, List.mem_append, List.mem_append, not_or, not_or, not_or]
      exact ⟨⟨⟨by decide, fun hm => (hn.mem _ hm).1 rfl⟩, by decide⟩, h.1⟩
  | @customJson name v hn hno h hj =>
    have hn2 : IsName ("prop_json".toList ++ ':' :: name) :=
      .two (ident_dec (by decide)) (by simp only [Special]; decide) hn
    constructor
    · have := readLine_name lib hn2 (sp v.dump)
      have he : NamedProp.write lib (.customJson name v) = ':' :: ("prop_json".toList ++ ':' :: name) ++ ':' :: (' ' :: v.dump) := by
        show ":prop_json:".toList ++ name ++ ": ".toList ++ v.dump = ":prop_json:".toList ++ name ++ (": ".toList ++ v.dump)
        simp only [List.append_assoc]
      rw [he]
      refine this.trans ((readRaw_json lib hn).trans ?_)
      rw [stripSpace_cons, h.stripSpace, hj, hno]
    · show '\n' ∉ ":prop_json:".toList ++ name ++ ": ".toList ++ v.dump
      rw [List.mem_append, List.mem_append, List.mem_append, not_or, not_or, not_or]
      exact ⟨⟨⟨by decide, hn.newline⟩, by decide⟩, h.1⟩

theorem id_read {v : Text} (h : Trimmed v) : readLine lib (":ID: ".toList ++ v) = .ok (.treeId v) ∧ '\n' ∉ ":ID: ".toList ++ v := by
  constructor
  · refine (readLine_name lib name_id (.inr ⟨v, rfl⟩)).trans ((readRaw_id lib _).trans ?_)
    rw [stripSpace_cons, h.stripSpace]
  · simp only [List.mem_append, not_or]
    exact ⟨by decide, h.1⟩

/-! ## Lines -/

theorem linesOf_append {a s : Text} (ha : '\n' ∉ a) : linesOf (a ++ '\n' :: s) = a :: linesOf s := by
  induction a with
  | nil => simp [linesOf]
  | cons c a ih =>
    have hc : c ≠ '\n' := fun h => ha (by rw [h]; exact List.mem_cons_self)
    rw [List.cons_append, linesOf, if_neg hc, ih (fun h => ha (List.mem_cons_of_mem _ h))]
    rfl

theorem linesOf_one {a : Text} (ha : '\n' ∉ a) : linesOf a = [a] := by
  induction a with
  | nil => rfl
  | cons c a ih =>
    have hc : c ≠ '\n' := fun h => ha (by rw [h]; exact List.mem_cons_self)
    rw [linesOf, if_neg hc, ih (fun h => ha (List.mem_cons_of_mem _ h))]
    rfl

theorem linesOf_join {l : List Text} (hne : l ≠ []) (h : ∀ w ∈ l, '\n' ∉ w) : linesOf (join ['\n'] l) = l := by
  induction l with
  | nil => exact absurd rfl hne
  | cons a l ih =>
    cases l with
    | nil => exact linesOf_one (h a List.mem_cons_self)
    | cons b l =>
      rw [join, show a ++ ['\n'] ++ join ['\n'] (b :: l) = a ++ '\n' :: join ['\n'] (b :: l) by simp,
        linesOf_append (h a List.mem_cons_self), ih (by simp) (fun w hw => h w (List.mem_cons_of_mem _ hw))]

theorem linesOf_mem {s : Text} : ∀ w ∈ linesOf s, '\n' ∉ w := by
  induction s with
  | nil => intro w hw; simp [linesOf] at hw; simp [hw]
  | cons a s ih =>
    intro w hw
    rw [linesOf] at hw
    split at hw
    · rcases List.mem_cons.mp hw with rfl | hw
      · simp
      · exact ih w hw
    · rename_i ha
      cases hq : linesOf s with
      | nil => rw [hq] at hw; simp only [consHead, List.mem_singleton] at hw; subst hw; simpa using Ne.symm ha
      | cons b l =>
        rw [hq] at hw ih
        simp only [consHead] at hw
        rcases List.mem_cons.mp hw with rfl | hw
        · simp only [List.mem_cons, not_or]
          exact ⟨Ne.symm ha, ih b List.mem_cons_self⟩
        · exact ih w (List.mem_cons_of_mem _ hw)

theorem readLines_props {ps : List (NamedProp T)} (h : ∀ p ∈ ps, Kept lib p) (t : Tree T) :
    readLines lib t (ps.map (·.write lib)) = .ok { t with properties := t.properties ++ ps } := by
  induction ps generalizing t with
  | nil => simp [readLines]
  | cons p ps ih =>
    rw [List.map_cons, readLines, (Kept.read lib (h p List.mem_cons_self)).1]
    simp only
    rw [ih (fun q hq => h q (List.mem_cons_of_mem _ hq))]
    simp [Tree.take]

theorem readBody_write {treeId : Option Text} {ps : List (NamedProp T)} (hne : (treeId, ps) ≠ (none, []))
    (hid : ∀ v, treeId = some v → Trimmed v) (hps : ∀ p ∈ ps, Kept lib p) :
    readBody lib (writeBody lib treeId ps) = .ok { treeId := treeId, properties := ps } := by
  unfold readBody writeBody
  rw [linesOf_join]
  · unfold writeLines
    cases treeId with
    | none =>
      simp only [idLines, List.nil_append]
      rw [readLines_props lib hps]
      rfl
    | some v =>
      simp only [idLines, List.singleton_append]
      rw [readLines, (id_read lib (hid v rfl)).1]
      simp only
      rw [readLines_props lib hps]
      rfl
  · unfold writeLines
    cases treeId with
    | none =>
      cases ps with
      | nil => exact absurd rfl hne
      | cons p ps => simp
    | some v => simp [idLines]
  · intro w hw
    unfold writeLines at hw
    rcases List.mem_append.mp hw with hw | hw
    · cases treeId with
      | none => cases hw
      | some v =>
        simp only [idLines, List.mem_singleton] at hw
        subst hw
        exact (id_read lib (hid v rfl)).2
    · obtain ⟨p, hp, rfl⟩ := List.mem_map.mp hw
      exact (Kept.read lib (hps p hp)).2

end Verif.Drawer
