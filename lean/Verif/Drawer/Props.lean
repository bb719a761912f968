import Verif.Drawer.Shape

/-!
# Theorems about property drawers (C115, C116, C117)
-/

namespace Verif.Drawer

open Verif.BaseLexer

/-! ## C115: written, then read -/

/-- What survives. -/
theorem drawer_partial {T : Type} (lib : Lib T) (treeId : Option Text) (ps : List (NamedProp T))
    (hne : (treeId, ps) ≠ (none, [])) (hid : ∀ v, treeId = some v → Trimmed v) (hps : ∀ p ∈ ps, Kept lib p) :
    readBody lib (writeBody lib treeId ps) = .ok { treeId := treeId, properties := ps } :=
  readBody_write lib hne hid hps

/-- Parameters for examples. -/
def sampleLib : Lib Nat where
  readTime := fun _ => none
  showTime := fun _ => "2024-01-01".toList
  readJson := fun t => if t = "1".toList then some (.atom "1".toList) else none
  showList := fun _ => []

/-- A subtree that is not numbered is numbered after it was written and read. -/
theorem drawer_false : ¬ DrawerStatement := by
  intro h
  have := h Nat sampleLib none [.unnumbered] (by simp)
  rw [show readBody sampleLib (writeBody sampleLib none [.unnumbered]) =
    .ok { properties := [.customRaw "unnumbered".toList []] } from rfl] at this
  simp at this

/-- Ten kinds of properties are never read, whatever is written for them. -/
theorem drawer_lost {T : Type} (lib : Lib T) (body : Text) (t : Tree T) (h : readBody lib body = .ok t) (p : NamedProp T)
    (hp : Lost p) : p ∉ t.properties := by
  intro hm
  rcases (readLines_from lib h).1 p hm with hc | ⟨l, -, hl⟩
  · cases hc
  · obtain ⟨name, v, -, -, hs⟩ := readLine_shape lib hl
    cases hs <;> cases hp

/-- The time of archiving is written in brackets; if no time starts with a bracket, reading ends with an
exception, whatever other properties there are. -/
theorem drawer_time_lost {T : Type} (lib : Lib T) (hlib : ∀ s, lib.readTime ('[' :: s) = none)
    (treeId : Option Text) (hid : ∀ v, treeId = some v → Trimmed v)
    (before after : List (NamedProp T)) (hb : ∀ p ∈ before, Kept lib p) (time : T) (hshow : '\n' ∉ lib.showTime time) :
    readBody lib (writeBody lib treeId (before ++ .archiveTime time :: after)) = .error .exception := by
  refine readBody_bad lib hid hb (line := ":archive_time: [".toList ++ lib.showTime time ++ [']']) (rest := []) ?_ ?_ (.inl rfl) ?_
  · rw [List.append_nil]; rfl
  · rw [List.mem_append, List.mem_append, not_or, not_or]
    exact ⟨⟨by decide, hshow⟩, by decide⟩
  · refine (readLine_name lib name_archive_time (v := ' ' :: ('[' :: (lib.showTime time ++ [']']))) (.inr ⟨_, rfl⟩)).trans ?_
    refine (readRaw_archiveTime lib _).trans ?_
    rw [stripSpace_cons]
    unfold stripSpace
    rw [strip_same, hlib]
    · intro c hc
      cases hc; decide
    · intro c hc
      rw [show '[' :: (lib.showTime time ++ [']']) = ('[' :: lib.showTime time) ++ [']'] by simp, List.getLast?_append] at hc
      cases hc; decide

/-- Empty arrays and objects survive, if they are read as what they are. -/
theorem drawer_json_empty {T : Type} (lib : Lib T) (hlib : lib.readJson "[]".toList = some (.arr []) ∧ lib.readJson "{}".toList = some (.obj []))
    (name : Text) (hn : Ident name) (hnn : normalize name = name) :
    Kept lib (.customJson name (.arr [])) ∧ Kept lib (.customJson name (.obj [])) :=
  ⟨.customJson hn hnn (by rw [Json.dump]; unfold Trimmed; decide) hlib.1, .customJson hn hnn (by rw [Json.dump]; unfold Trimmed; decide) hlib.2⟩

/-- JSON with elements is written on several lines; if an opening bracket alone is no JSON, reading ends with an
exception. -/
theorem drawer_json_lost {T : Type} (lib : Lib T) (hlib : lib.readJson ['['] = none ∧ lib.readJson ['{'] = none)
    (treeId : Option Text) (hid : ∀ v, treeId = some v → Trimmed v)
    (before after : List (NamedProp T)) (hb : ∀ p ∈ before, Kept lib p) (name : Text) (hn : Ident name) (j : Json)
    (hj : (∃ e l, j = .arr (e :: l)) ∨ ∃ f l, j = .obj (f :: l)) :
    readBody lib (writeBody lib treeId (before ++ .customJson name j :: after)) = .error .exception := by
  have hn2 : IsName ("prop_json".toList ++ ':' :: name) :=
    .two (ident_dec (by decide)) (by simp only [Special]; decide) hn
  have key : ∀ (c : Char) (rest : Text), c ≠ '\n' → c ≠ ' ' → lib.readJson [c] = none → j.dump = c :: '\n' :: rest →
      readBody lib (writeBody lib treeId (before ++ .customJson name j :: after)) = .error .exception := by
    intro c rest hc hsp hread hd
    refine readBody_bad lib hid hb (line := ":prop_json:".toList ++ name ++ ": ".toList ++ [c]) (rest := '\n' :: rest)
      ?_ ?_ (.inr ⟨_, rfl⟩) ?_
    · show ":prop_json:".toList ++ name ++ ": ".toList ++ j.dump = _
      rw [hd]
      simp only [List.append_assoc, List.singleton_append]
    · rw [List.mem_append, List.mem_append, List.mem_append, not_or, not_or, not_or]
      exact ⟨⟨⟨by decide, hn.newline⟩, by decide⟩, by simpa using Ne.symm hc⟩
    · have he : ":prop_json:".toList ++ name ++ ": ".toList ++ [c] =
          ':' :: ("prop_json".toList ++ ':' :: name) ++ ':' :: (' ' :: [c]) := by
        show _ = ":prop_json:".toList ++ name ++ (": ".toList ++ [c])
        simp only [List.append_assoc]
      rw [he, readLine_name lib hn2 (.inr ⟨[c], rfl⟩), readRaw_json lib hn, stripSpace_cons]
      unfold stripSpace
      rw [strip_same, hread]
      · intro d hd; cases hd; exact decide_eq_false hsp
      · intro d hd; cases hd; exact decide_eq_false hsp
  rcases hj with ⟨e, l, rfl⟩ | ⟨⟨k, f⟩, l, rfl⟩
  · exact key '[' (e.dump ++ dumpElems l ++ "\n]".toList) (by decide) (by decide) hlib.1 (by
      rw [Json.dump, show "[\n".toList = ['[', '\n'] from rfl]
      simp only [List.append_assoc, List.cons_append, List.nil_append])
  · exact key '{' (k ++ ": ".toList ++ f.dump ++ dumpFields l ++ "\n}".toList) (by decide) (by decide) hlib.2 (by
      rw [Json.dump, show "{\n".toList = ['{', '\n'] from rfl]
      simp only [List.append_assoc, List.cons_append, List.nil_append])

/-! ## C116: read, then written -/

/-- The flag of cookie data is written under another name. -/
theorem rewrite_false : ¬ RewriteStatement := by
  intro h
  have h1 : readBody sampleLib ":cookie_data: todo".toList = .ok { properties := [.cookieData none (some .Todo)] } := rfl
  have := h Nat sampleLib _ _ h1 rfl (by simp)
  rw [show readBody sampleLib (writeBody sampleLib none [.cookieData none (some .Todo)]) =
    .ok { properties := [.customRaw "cookie".toList "Todo".toList] } from rfl] at this
  simp at this

/-- Properties read from a drawer are the same after being written and read again, if there is no cookie data, no
time of archiving, no path of an archive that ends with a space, and JSON is on one line under a name and
readable. -/
theorem rewrite_partial {T : Type} (lib : Lib T) (body : Text) (t : Tree T) (h : readBody lib body = .ok t)
    (hd : t.diagnostics = 0) (hne : (t.treeId, t.properties) ≠ (none, []))
    (hcookie : ∀ r s, .cookieData r s ∉ t.properties) (htime : ∀ x, .archiveTime x ∉ t.properties)
    (htarget : ∀ pattern path, .archiveTarget pattern path ∈ t.properties → (join ['/'] path).getLast? ≠ some ' ')
    (hjson : ∀ n j, .customJson n j ∈ t.properties → Ident n ∧ Trimmed j.dump ∧ lib.readJson j.dump = some j) :
    readBody lib (writeBody lib t.treeId t.properties) = .ok t := by
  obtain ⟨h1, h2⟩ := readLines_from lib h
  rw [readBody_write lib hne]
  · cases t; simp only at hd; subst hd; rfl
  · intro v hv
    rcases h2 v hv with hc | ⟨l, hl, hr⟩
    · cases hc
    · exact read_id lib (linesOf_mem l hl) hr
  · intro p hp
    rcases h1 p hp with hc | ⟨l, hl, hr⟩
    · cases hc
    · rcases read_kept lib (linesOf_mem l hl) hr with hk | hk
      · exact hk
      · cases hk with
        | cookieData r s => exact absurd hp (hcookie r s)
        | archiveTime x => exact absurd hp (htime x)
        | customJson n j =>
          obtain ⟨a1, a2, a3⟩ := hjson n j hp
          obtain ⟨name, v, -, -, hs⟩ := readLine_shape lib hr
          cases hs with
          | customJson hn => exact .customJson a1 hn a2 a3
        | archiveTarget hx => exact absurd hx (htarget _ _ hp)

/-! ## C117: which property a line is -/

/-- Names are compared without case, `_` and `-`: every spelling of a known name sets the same thing, to the
value without the surrounding spaces. -/
theorem name_known {T : Type} (lib : Lib T) (key : Text) (f : Text → Read T) (hk : (key, f) ∈ plainMeaning T)
    (name : Text) (hn : Ident name) (hname : normalize name = key) (v : Text) (hv : Trimmed v) (a b : Nat) :
    readLine lib (lineFor name a v b) = .ok (f v) := by
  have hname' : IsName name := by
    refine .one hn (fun hs => ?_)
    have := special_normalize hs
    rw [hname] at this
    revert this
    simp only [plainMeaning, List.mem_cons, List.not_mem_nil, or_false, Prod.mk.injEq] at hk
    rcases hk with ⟨rfl, -⟩ | ⟨rfl, -⟩ | ⟨rfl, -⟩ | ⟨rfl, -⟩ | ⟨rfl, -⟩ <;> decide
  rw [lineFor_read lib hname']
  unfold readRaw
  rw [base_name hname']
  simp only [hname, stripSpace_pad hv]
  simp only [plainMeaning, List.mem_cons, List.not_mem_nil, or_false, Prod.mk.injEq] at hk
  rcases hk with ⟨rfl, rfl⟩ | ⟨rfl, rfl⟩ | ⟨rfl, rfl⟩ | ⟨rfl, rfl⟩ | ⟨rfl, rfl⟩ <;> rfl

/-- A name that is not special. -/
theorem plain_name {name key : Text} (hn : Ident name) (hname : normalize name = key)
    (hk : decide (key ∈ specialNames.map normalize) = false) : IsName name := by
  refine .one hn (fun hs => ?_)
  have := special_normalize hs
  rw [hname] at this
  simp [this] at hk

/-- The effort is hours and minutes, or minutes alone. -/
theorem name_effort_known {T : Type} (lib : Lib T) (name : Text) (hn : Ident name) (hname : normalize name = "effort".toList)
    (h m : Int) (hh : IsInt h) (hm : IsInt m) (a b : Nat) :
    readLine lib (lineFor name a (showInt h ++ ':' :: showInt m) b) = .ok (.prop (.effort h m)) ∧
    readLine lib (lineFor name a (showInt m) b) = .ok (.prop (.effort 0 m)) := by
  have hname' := plain_name hn hname (by decide)
  have ht : Trimmed (showInt h ++ ':' :: showInt m) :=
    trimmed_pair (fun c hc => (showInt_plain hc).2) (fun c hc => (showInt_plain hc).2)
  have ht2 : Trimmed (showInt m) := by
    refine ⟨fun h => (showInt_plain h).2.2 rfl, fun h => ?_, fun h => ?_⟩
    · exact (showInt_plain (List.mem_of_mem_head? (by simpa using h))).2.1 rfl
    · exact (showInt_plain (List.mem_of_getLast? h)).2.1 rfl
  constructor
  · rw [lineFor_read lib hname']
    unfold readRaw
    rw [base_name hname']
    simp only [hname, stripSpace_pad ht]
    have := readEffort_show (T := T) hh hm
    rw [stripSpace_cons, ht.stripSpace] at this
    show (readEffort (showInt h ++ ':' :: showInt m)).map Read.prop = _
    rw [this]
    rfl
  · rw [lineFor_read lib hname']
    unfold readRaw
    rw [base_name hname']
    simp only [hname, stripSpace_pad ht2]
    show (readEffort (showInt m)).map Read.prop = _
    unfold readEffort
    rw [splitStr_one (fun hi => (showInt_plain (infix_char.mp hi)).1 rfl)]
    simp only [stoi_show hm]
    rfl

theorem normalize_pad (v : Text) (a b : Nat) :
    normalize (List.replicate (a + 1) ' ' ++ v ++ List.replicate b ' ') = normalize v := by
  have hr : ∀ n, normalize (List.replicate n ' ') = [] := by
    intro n
    induction n with
    | zero => rfl
    | succ n ih => exact ih
  rw [normalize_append, normalize_append, hr, hr, List.nil_append, List.append_nil]

/-- The visibility is found by the name of the level in any spelling, and any other level is an exception. -/
theorem name_visibility_known {T : Type} (lib : Lib T) (name : Text) (hn : Ident name) (hname : normalize name = "visibility".toList)
    (v : Text) (a b : Nat) :
    (∀ l : Level, normalize v = levelWord l → readLine lib (lineFor name a v b) = .ok (.prop (.visibility l))) ∧
    ((∀ l : Level, normalize v ≠ levelWord l) → readLine lib (lineFor name a v b) = .error .exception) := by
  have hname' := plain_name hn hname (by decide)
  have hpad := normalize_pad v a b
  have hread : readLine lib (lineFor name a v b) =
      match parseLevel (List.replicate (a + 1) ' ' ++ v ++ List.replicate b ' ') with
      | some l => .ok (.prop (.visibility l))
      | none => .error .exception := by
    rw [lineFor_read lib hname']
    unfold readRaw
    rw [base_name hname']
    simp only [hname]
    rfl
  rw [hread]
  unfold parseLevel
  rw [hpad]
  refine ⟨fun l hl => ?_, fun hl => ?_⟩
  · rw [hl]
    cases l <;> rfl
  · rw [List.find?_eq_none.mpr]
    intro l _
    have hw : normalize l.name = levelWord l := by cases l <;> decide
    rw [hw]
    simpa using fun h => hl l h.symm

/-- For a name with a meaning of its own neither the spelling nor the spaces around the value matter. -/
theorem name_spelling {T : Type} (lib : Lib T) (name name' : Text) (hn : IsName name) (hn' : IsName name')
    (hsame : normalize name = normalize name') (hb : normalize name ∈ builtinNames) (v : Text) (hv : Trimmed v) (a b a' b' : Nat) :
    readLine lib (lineFor name a v b) = readLine lib (lineFor name' a' v b') := by
  rw [lineFor_read lib hn, lineFor_read lib hn']
  have hlevel : parseLevel (List.replicate (a + 1) ' ' ++ v ++ List.replicate b ' ') =
      parseLevel (List.replicate (a' + 1) ' ' ++ v ++ List.replicate b' ' ') := by
    unfold parseLevel
    rw [normalize_pad, normalize_pad]
  unfold readRaw
  rw [base_name hn, base_name hn']
  simp only [← hsame, stripSpace_pad hv, hlevel]
  simp only [builtinNames, List.map_cons, List.map_nil, List.mem_cons, List.not_mem_nil, or_false] at hb
  rcases hb with h | h | h | h | h | h | h | h | h | h | h | h | h | h | h <;> rw [h] <;> rfl

/-- Any other name is kept with its value. -/
theorem name_unknown {T : Type} (lib : Lib T) (name : Text) (hn : IsName name) (hu : Unknown name) (v : Text) (hv : Trimmed v)
    (a b : Nat) : readLine lib (lineFor name a v b) = .ok (.prop (.customRaw name v)) := by
  rw [lineFor_read lib hn, readRaw_unknown lib hn hu, stripSpace_pad hv]

/-- A drawer sets the last id, and the properties in the order of their lines. -/
theorem drawer_order {T : Type} (lib : Lib T) (lines : List Text) (hne : lines ≠ []) (hnl : ∀ l ∈ lines, '\n' ∉ l)
    (rs : List (Read T)) (h : List.Forall₂ (fun l r => readLine lib l = .ok r) lines rs) :
    readBody lib (join ['\n'] lines) =
      .ok { treeId := lastId rs, properties := allProps rs, diagnostics := allDiagnostics rs } := by
  unfold readBody
  rw [linesOf_join hne hnl, readLines_all lib {} h]
  simp

/-! ## Examples -/

def sampleProps : List (NamedProp Nat) :=
  [.customId "a b".toList, .effort (-1) 30, .visibility .Children, .radioId ["x".toList, "y z".toList.take 1],
   .archiveOlpath ["top".toList, "sub tree".toList], .archiveTarget "file.org".toList ["a".toList, "b c".toList],
   .customRaw "my-name:sub".toList "some value".toList, .customJson "data".toList (.atom "1".toList)]

theorem trimmed_dec {v : Text} (h : (!v.contains '\n' && v.head? != some ' ' && v.getLast? != some ' ') = true) : Trimmed v := by
  simp only [Bool.and_eq_true, Bool.not_eq_true', bne_iff_ne] at h
  refine ⟨fun hm => ?_, h.1.2, h.2⟩
  have := h.1.1
  rw [List.contains_iff_mem.mpr hm] at this
  cases this

theorem sample_kept : ∀ p ∈ sampleProps, Kept sampleLib p := by
  intro p hp
  simp only [sampleProps, List.mem_cons, List.not_mem_nil, or_false] at hp
  have two : ∀ (l : Text), (∀ i < l.length, ¬ ("::".toList.isPrefixOf (l.drop i) = true)) → ¬ "::".toList <:+: l := by
    rintro l h ⟨x, y, rfl⟩
    apply h x.length (by simp)
    rw [List.append_assoc, List.drop_left, List.isPrefixOf_iff_prefix]
    exact ⟨y, rfl⟩
  rcases hp with rfl | rfl | rfl | rfl | rfl | rfl | rfl | rfl
  · exact .customId (trimmed_dec (by decide))
  · exact .effort ⟨by decide, by decide⟩ ⟨by decide, by decide⟩
  · exact .visibility _
  · exact .radioId (by decide) (by decide) (by decide)
  · refine .archiveOlpath ⟨by decide, ?_, by decide⟩
    intro e he
    simp only [List.mem_cons, List.not_mem_nil, or_false] at he
    rcases he with rfl | rfl
    · exact ⟨by decide, trimmed_dec (by decide)⟩
    · exact ⟨by decide, trimmed_dec (by decide)⟩
  · exact .archiveTarget (by decide) (by decide) (two _ (by decide)) (by decide) (by decide) (by decide) (trimmed_dec (by decide))
      (by decide) (two _ (by decide))
  · refine .customRaw (.two (w := "my-name".toList) (s := "sub".toList) (ident_dec (by decide)) (by simp only [Special]; decide)
      (ident_dec (by decide))) ⟨by decide, ?_, ?_⟩ (trimmed_dec (by decide))
    · rw [← List.isPrefixOf_iff_prefix]; decide
    · rw [← List.isPrefixOf_iff_prefix]; decide
  · exact .customJson (ident_dec (by decide)) (by decide) (trimmed_dec (by decide)) rfl

example : readBody sampleLib (writeBody sampleLib (some "id".toList) sampleProps) =
    .ok { treeId := some "id".toList, properties := sampleProps } :=
  drawer_partial sampleLib _ _ (by simp) (fun v hv => by cases hv; exact trimmed_dec (by decide)) sample_kept

example : readLine sampleLib (lineFor "Radio-ID".toList 4 "a b".toList 0) =
    readLine sampleLib (lineFor "radio_id".toList 0 "a b".toList 2) :=
  name_spelling sampleLib _ _ (.one (ident_dec (by decide)) (by simp only [Special]; decide))
    (.one (ident_dec (by decide)) (by simp only [Special]; decide)) (by decide) (by decide) _ (trimmed_dec (by decide)) _ _ _ _

/-- Reading a drawer with several spellings. -/
example : readBody sampleLib ":Custom-ID:  x y \n:EFFORT: 1:30\n:other: v\n:id: first\n:ID: second".toList =
    .ok { treeId := some "second".toList,
          properties := [.customId "x y".toList, .effort 1 30, .customRaw "other".toList "v".toList] } := rfl

example : readLine sampleLib (lineFor "CuSTOM_id".toList 1 "v".toList 2) = .ok (.prop (.customId "v".toList)) :=
  name_known sampleLib "customid".toList (fun v => .prop (.customId v)) (by simp [plainMeaning]) _ (ident_dec (by decide)) (by decide) _
    (trimmed_dec (by decide)) 1 2

example : readBody sampleLib (writeBody sampleLib none ([.customId ['a']] ++ .customJson "data".toList (.arr [.atom "1".toList]) :: [])) =
    .error .exception :=
  drawer_json_lost sampleLib ⟨by decide, by decide⟩ none (by simp) _ _ (by
    intro p hp; simp only [List.mem_singleton] at hp; subst hp; exact .customId (trimmed_dec (by decide))) _ (ident_dec (by decide)) _
    (.inl ⟨_, _, rfl⟩)

example : readBody sampleLib (writeBody sampleLib none ([] ++ .archiveTime 3 :: [])) = .error .exception :=
  drawer_time_lost sampleLib (fun _ => rfl) none (by simp) [] [] (by simp) 3 (by decide)

example : readLine sampleLib (lineFor "EFFORT".toList 0 "-1:05".toList 0) = .ok (.prop (.effort (-1) 5)) ∧
    readLine sampleLib (lineFor "eff_ort".toList 3 (showInt 90) 1) = .ok (.prop (.effort 0 90)) :=
  ⟨rfl, (name_effort_known sampleLib "eff_ort".toList (ident_dec (by decide)) (by decide) 0 90 ⟨by decide, by decide⟩
    ⟨by decide, by decide⟩ 3 1).2⟩

example : readLine sampleLib (lineFor "Visibility".toList 0 "fol-DED".toList 0) = .ok (.prop (.visibility .Folded)) :=
  (name_visibility_known sampleLib "Visibility".toList (ident_dec (by decide)) (by decide) _ 0 0).1 .Folded (by decide)

end Verif.Drawer
