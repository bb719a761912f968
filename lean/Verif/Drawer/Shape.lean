import Verif.Drawer.Round
import Mathlib.Data.List.Forall2

/-!
# What a line can be read as
-/

namespace Verif.Drawer

open Verif.BaseLexer

/-- The outcomes of reading a line. -/
inductive Shape {T : Type} (base v : Text) : Read T → Prop
  | treeId : Shape base v (.treeId (stripSpace v))
  | customId : Shape base v (.prop (.customId (stripSpace v)))
  | radioId : Shape base v (.prop (.radioId (splitChar ' ' (stripSpace v))))
  | visibility (l) : Shape base v (.prop (.visibility l))
  | cookieData (r s) : Shape base v (.prop (.cookieData r s))
  | diagnostic : Shape base v .diagnostic
  | effort {h m} : IsInt h → IsInt m → Shape base v (.prop (.effort h m))
  | archiveFile : Shape base v (.prop (.archiveFile (stripSpace v)))
  | archiveTime (t) : Shape base v (.prop (.archiveTime t))
  | archiveCategory : Shape base v (.prop (.archiveCategory (stripSpace v)))
  | archiveTodo : Shape base v (.prop (.archiveTodo (stripSpace v)))
  | archiveTarget {pattern path rest} : splitStr "::".toList (stripSpace v) = pattern :: path :: rest →
      Shape base v (.prop (.archiveTarget pattern (splitStr ['/'] (lstrip path (fun c => c = '*' || c = ' ')))))
  | archiveOlpath : Shape base v (.prop (.archiveOlpath (readPath (stripSpace v))))
  | customJson {n j} : normalize n = n → Shape base v (.prop (.customJson n j))
  | customRaw : Unknown base → Shape base v (.prop (.customRaw base (stripSpace v)))

theorem normalize_idem (s : Text) : normalize (normalize s) = normalize s := by
  unfold normalize
  rw [List.filterMap_filterMap]
  apply List.filterMap_congr
  intro c _
  by_cases h1 : c = '_' ∨ c = '-'
  · simp [h1]
  · by_cases h2 : (isLower c || isDigit c) = true
    · simp only [h1, h2, if_false, if_true, Option.bind_some]
    · by_cases h3 : isUpper c = true
      · simp only [h1, h2, h3, if_false, if_true, Option.bind_some]
        have hlow : isLower (toLower c) = true := by
          unfold toLower
          rw [if_pos h3]
          unfold isUpper at h3
          simp only [Bool.and_eq_true, decide_eq_true_eq] at h3
          have h1' : 65 ≤ c.toNat := h3.1
          have h2' : c.toNat ≤ 90 := h3.2
          have h3 : (Char.ofNat (c.toNat + 32)).toNat = c.toNat + 32 := by
            rw [Char.ofNat, dif_pos (by left; omega)]
            rfl
          unfold isLower
          simp only [Bool.and_eq_true, decide_eq_true_eq]
          have ha : ('a' : Char).toNat = 97 := by decide
          have hz : ('z' : Char).toNat = 122 := by decide
          constructor
          · show ('a' : Char).toNat ≤ (Char.ofNat (c.toNat + 32)).toNat
            omega
          · show (Char.ofNat (c.toNat + 32)).toNat ≤ ('z' : Char).toNat
            omega
        have hne : ¬ (toLower c = '_' ∨ toLower c = '-') := by
          rintro (h | h) <;> rw [h] at hlow <;> revert hlow <;> decide
        simp [hne, hlow]
      · simp [h1, h2, h3]

theorem readRaw_shape {T : Type} (lib : Lib T) {n v base : Text} {r : Read T}
    (hb : strip n (fun c => c = ' ' || c = ':') (· = ':') = base) (h : readRaw lib n v = .ok r) : Shape base v r := by
  unfold readRaw at h
  rw [hb] at h
  simp only at h
  generalize hk : normalize base = k at h
  have hmap : ∀ {x : Except Fail (NamedProp T)}, x.map Read.prop = .ok r → ∃ q, x = .ok q ∧ r = .prop q := by
    intro x hx
    cases x with
    | error e => cases hx
    | ok q => cases hx; exact ⟨q, rfl, rfl⟩
  by_cases h1 : k = "exportoptions".toList
  · rw [if_pos h1] at h; cases h
  rw [if_neg h1] at h
  by_cases h2 : k = "id".toList
  · rw [if_pos h2] at h; cases h; exact .treeId
  rw [if_neg h2] at h
  by_cases h3 : k = "customid".toList
  · rw [if_pos h3] at h; cases h; exact .customId
  rw [if_neg h3] at h
  by_cases h4 : k = "radioid".toList
  · rw [if_pos h4] at h; cases h; exact .radioId
  rw [if_neg h4] at h
  by_cases h5 : k = "hashtagdef".toList
  · rw [if_pos h5] at h; cases h
  rw [if_neg h5] at h
  by_cases h6 : k = "created".toList
  · rw [if_pos h6] at h; cases h
  rw [if_neg h6] at h
  by_cases h7 : k = "visibility".toList
  · rw [if_pos h7] at h
    split at h
    · cases h; exact .visibility _
    · cases h
  rw [if_neg h7] at h
  by_cases h8 : k = "cookiedata".toList
  · rw [if_pos h8] at h
    split at h
    · cases h; exact .cookieData _ _
    · cases h; exact .diagnostic
  rw [if_neg h8] at h
  by_cases h9 : k = "effort".toList
  · rw [if_pos h9] at h
    obtain ⟨q, this, rfl⟩ := hmap h
    have h0 : IsInt 0 := ⟨by decide, by decide⟩
    unfold readEffort at this
    split at this
    · rename_i m _
      cases hm : stoi m with
      | error e => rw [hm] at this; cases this
      | ok i => rw [hm] at this; cases this; exact .effort h0 (stoi_int hm)
    · rename_i x m _
      cases hm : stoi m with
      | error e => rw [hm] at this; cases this
      | ok i =>
        rw [hm] at this
        cases hx : stoi x with
        | error e => simp only [hx] at this; cases this
        | ok j => simp only [hx] at this; cases this; exact .effort (stoi_int hx) (stoi_int hm)
    · cases this; exact .effort h0 h0
  rw [if_neg h9] at h
  by_cases h10 : k = "archivefile".toList
  · rw [if_pos h10] at h; cases h; exact .archiveFile
  rw [if_neg h10] at h
  by_cases h11 : k = "archivetime".toList
  · rw [if_pos h11] at h
    split at h
    · cases h; exact .archiveTime _
    · cases h
  rw [if_neg h11] at h
  by_cases h12 : k = "archivecategory".toList
  · rw [if_pos h12] at h; cases h; exact .archiveCategory
  rw [if_neg h12] at h
  by_cases h13 : k = "archivetodo".toList
  · rw [if_pos h13] at h; cases h; exact .archiveTodo
  rw [if_neg h13] at h
  by_cases h14 : k = "archive".toList
  · rw [if_pos h14] at h
    obtain ⟨q, this, rfl⟩ := hmap h
    unfold readTarget at this
    split at this
    · rename_i hs
      cases this; exact .archiveTarget hs
    · cases this
  rw [if_neg h14] at h
  by_cases h15 : k = "archiveolpath".toList
  · rw [if_pos h15] at h; cases h; exact .archiveOlpath
  rw [if_neg h15] at h
  by_cases h16 : "propjson".toList.isPrefixOf k = true
  · rw [if_pos h16] at h
    obtain ⟨q, this, rfl⟩ := hmap h
    unfold readJsonProp at this
    split at this
    · cases this
      refine .customJson ?_
      split
      · exact normalize_idem _
      · rfl
    · cases this
  rw [if_neg h16] at h
  by_cases h17 : "propargs".toList.isPrefixOf k = true
  · rw [if_pos h17] at h; cases h
  rw [if_neg h17] at h
  cases h
  refine .customRaw ⟨?_, ?_, ?_⟩
  · rw [hk]
    simp only [builtinNames, List.map_cons, List.map_nil, List.mem_cons, List.not_mem_nil, or_false, not_or]
    exact ⟨h1, h2, h3, h4, h5, h6, h7, h8, h9, h10, h11, h12, h13, h14, h15⟩
  · rw [hk, ← List.isPrefixOf_iff_prefix]; exact h16
  · rw [hk, ← List.isPrefixOf_iff_prefix]; exact h17

theorem readLine_shape {T : Type} (lib : Lib T) {line : Text} {r : Read T} (h : readLine lib line = .ok r) :
    ∃ name v, line = ':' :: name ++ ':' :: v ∧ IsName name ∧ Shape name v r := by
  obtain ⟨name, v, rfl, hn, h⟩ := readLine_inv lib h
  exact ⟨name, v, rfl, hn, readRaw_shape lib (base_name hn) h⟩

/-! ## What was read can be written -/

/-- Properties that need a condition of their own. -/
inductive Delicate {T : Type} : NamedProp T → Prop
  | cookieData (r s) : Delicate (.cookieData r s)
  | archiveTime (t) : Delicate (.archiveTime t)
  | customJson (n j) : Delicate (.customJson n j)
  | archiveTarget {pattern path} : (join ['/'] path).getLast? = some ' ' → Delicate (.archiveTarget pattern path)

theorem readPath_isPath {v : Text} (h : '\n' ∉ v) : IsPath (readPath v) := by
  unfold readPath
  refine ⟨?_, ?_, ?_⟩
  · intro he
    rw [List.map_eq_nil_iff] at he
    exact splitStr_ne _ _ he
  · intro e he
    obtain ⟨w, hw, rfl⟩ := List.mem_map.mp he
    obtain ⟨h1, h2⟩ := splitStr_mem w hw
    exact ⟨fun hm => h1 (strip_sub hm), stripSpace_trimmed (fun hm => h (strip_sub (h2 _ hm)))⟩
  · intro e he hs
    rw [List.head?_map] at he
    cases hq : splitStr ['/'] (strip v (fun c => decide (c = '*') || decide (c = ' ')) fun x => decide (x = ' ')) with
    | nil => exact splitStr_ne _ _ hq
    | cons w ws =>
      rw [hq] at he
      simp only [List.head?_cons, Option.map_some, Option.some.injEq] at he
      subst he
      have hnosp : w.head? ≠ some ' ' := fun hc => by simpa using strip_head (splitStr_head hq hc)
      have hw : w.head? = some '*' := by
        cases w with
        | nil => cases hs
        | cons a w =>
          have ha : a ≠ ' ' := fun he => hnosp (by rw [he]; rfl)
          obtain ⟨q, hq⟩ := rev_dropWhile_prefix (a :: w) (fun x => decide (x = ' '))
          unfold stripSpace strip at hs
          rw [dropWhile_head (s := a :: w) (fun c hc => by simp at hc; subst hc; simpa using ha)] at hs
          cases hz : (List.dropWhile (fun x => decide (x = ' ')) (a :: w).reverse).reverse with
          | nil => rw [hz] at hs; cases hs
          | cons b z =>
            rw [hz] at hs hq
            cases hq
            exact hs
      simpa using strip_head (splitStr_head hq hw)

theorem lstrip_sub {s : Text} {p : Char → Bool} {c : Char} (h : c ∈ lstrip s p) : c ∈ s := strip_sub h

theorem lstrip_suffix (s : Text) (p : Char → Bool) : lstrip s p <:+ s := by
  unfold lstrip strip
  have : ∀ x : Text, (x.reverse.dropWhile (fun _ => false)).reverse = x := by
    intro x
    rw [dropWhile_head (fun c _ => rfl), List.reverse_reverse]
  rw [this]
  exact List.dropWhile_suffix _

/-- A property read from a line is kept, apart from the delicate ones. -/
theorem read_kept {T : Type} (lib : Lib T) {line : Text} {p : NamedProp T} (hnl : '\n' ∉ line) (h : readLine lib line = .ok (.prop p)) :
    Kept lib p ∨ Delicate p := by
  obtain ⟨name, v, rfl, hn, hs⟩ := readLine_shape lib h
  have hv : '\n' ∉ v := fun hm => hnl (by simp [hm])
  have ht := stripSpace_trimmed hv
  cases hs with
  | customId => exact .inl (.customId ht)
  | radioId =>
    refine .inl (.radioId ?_ (splitChar_head ht.2.1) (splitChar_last ht.2.2))
    intro w hw
    obtain ⟨h1, h2⟩ := splitChar_mem w hw
    exact ⟨h1, fun hm => ht.1 (h2 _ hm)⟩
  | visibility l => exact .inl (.visibility l)
  | cookieData r s => exact .inr (.cookieData r s)
  | effort h1 h2 => exact .inl (.effort h1 h2)
  | archiveFile => exact .inl (.archiveFile ht)
  | archiveTime t => exact .inr (.archiveTime t)
  | archiveCategory => exact .inl (.archiveCategory ht)
  | archiveTodo => exact .inl (.archiveTodo ht)
  | @archiveTarget pattern path rest hsp =>
    by_cases hd : (join ['/'] (splitStr ['/'] (lstrip path (fun c => c = '*' || c = ' ')))).getLast? = some ' '
    · exact .inr (.archiveTarget hd)
    · left
      obtain ⟨h1, h2⟩ := splitStr_colons_inv hsp
      rcases h2 with ⟨h2, -⟩ | ⟨t, h2, h3, h4⟩
      · cases h2
      · obtain ⟨h5, h6⟩ := splitStr_colons_inv h3.symm
        have hsub : ∀ c ∈ path, c ∈ stripSpace v := by
          intro c hc
          rw [h2]
          apply List.mem_append_right
          rcases h6 with ⟨-, rfl⟩ | ⟨u, rfl, -⟩
          · exact hc
          · simp [hc]
        refine .archiveTarget ?_ ?_ h1 h4 (splitStr_ne _ _) (fun e he => (splitStr_mem e he).1) ⟨?_, ?_, hd⟩ ?_ ?_
        · exact fun hm => ht.1 (by rw [h2]; simp [hm])
        · intro hh
          apply ht.2.1
          rw [h2]
          cases pattern with
          | nil => cases hh
          | cons a q => exact hh
        · rw [join_splitStr]
          exact fun hm => ht.1 (hsub _ (lstrip_sub hm))
        · rw [join_splitStr]
          exact fun hh => by simpa using strip_head hh
        · rw [join_splitStr]
          exact fun hh => by simpa using strip_head hh
        · rw [join_splitStr]
          exact fun hi => h5 (hi.trans (lstrip_suffix _ _).isInfix)
  | archiveOlpath => exact .inl (.archiveOlpath (readPath_isPath ht.1))
  | customJson h => exact .inr (.customJson _ _)
  | customRaw hu => exact .inl (.customRaw hn hu ht)

theorem read_id {T : Type} (lib : Lib T) {line v : Text} (hnl : '\n' ∉ line) (h : readLine lib line = .ok (.treeId v)) : Trimmed v := by
  obtain ⟨name, u, rfl, hn, hs⟩ := readLine_shape lib h
  have hv : '\n' ∉ u := fun hm => hnl (by simp [hm])
  cases hs
  exact stripSpace_trimmed hv

/-- Everything a drawer sets comes from one of its lines. -/
theorem readLines_from {T : Type} (lib : Lib T) {ls : List Text} {t t' : Tree T} (h : readLines lib t ls = .ok t') :
    (∀ p ∈ t'.properties, p ∈ t.properties ∨ ∃ l ∈ ls, readLine lib l = .ok (.prop p)) ∧
    (∀ v, t'.treeId = some v → t.treeId = some v ∨ ∃ l ∈ ls, readLine lib l = .ok (.treeId v)) := by
  induction ls generalizing t with
  | nil => cases h; exact ⟨fun p hp => .inl hp, fun v hv => .inl hv⟩
  | cons l ls ih =>
    rw [readLines] at h
    cases hr : readLine lib l with
    | error e => rw [hr] at h; cases h
    | ok r =>
      rw [hr] at h
      obtain ⟨h1, h2⟩ := ih h
      refine ⟨fun p hp => ?_, fun v hv => ?_⟩
      · rcases h1 p hp with hp | ⟨l', hl', he⟩
        · cases r with
          | treeId v => exact .inl hp
          | prop q =>
            rcases List.mem_append.mp hp with hp | hp
            · exact .inl hp
            · rw [List.mem_singleton] at hp
              subst hp
              exact .inr ⟨l, List.mem_cons_self, hr⟩
          | diagnostic => exact .inl hp
        · exact .inr ⟨l', List.mem_cons_of_mem _ hl', he⟩
      · rcases h2 v hv with hv | ⟨l', hl', he⟩
        · cases r with
          | treeId w =>
            cases hv
            exact .inr ⟨l, List.mem_cons_self, hr⟩
          | prop q => exact .inl hv
          | diagnostic => exact .inl hv
        · exact .inr ⟨l', List.mem_cons_of_mem _ hl', he⟩

/-- The lines in order. -/
theorem readLines_all {T : Type} (lib : Lib T) (t : Tree T) {ls : List Text} {rs : List (Read T)}
    (h : List.Forall₂ (fun l r => readLine lib l = .ok r) ls rs) :
    readLines lib t ls = .ok { treeId := (lastId rs).or t.treeId, properties := t.properties ++ allProps rs,
                               diagnostics := t.diagnostics + allDiagnostics rs } := by
  induction h generalizing t with
  | nil => simp [readLines, lastId, allProps, allDiagnostics]
  | @cons l r ls rs h hs ih =>
    rw [readLines, h]
    simp only
    rw [ih]
    cases r with
    | treeId v =>
      simp only [Tree.take, lastId, allProps, allDiagnostics]
      cases lastId rs <;> simp
    | prop p => simp [Tree.take, lastId, allProps, allDiagnostics]
    | diagnostic => simp [Tree.take, lastId, allProps, allDiagnostics]; omega

/-! ## A bad line -/

theorem readLines_append {T : Type} (lib : Lib T) {a b : List Text} {t t' : Tree T} (h : readLines lib t a = .ok t') :
    readLines lib t (a ++ b) = readLines lib t' b := by
  induction a generalizing t with
  | nil => cases h; rfl
  | cons l a ih =>
    rw [List.cons_append, readLines]
    rw [readLines] at h
    cases hr : readLine lib l with
    | error e => rw [hr] at h; cases h
    | ok r => rw [hr] at h; exact ih h

theorem linesOf_join_append {a : List Text} (h : ∀ w ∈ a, '\n' ∉ w) {c : List Text} (hc : c ≠ []) :
    linesOf (join ['\n'] (a ++ c)) = a ++ linesOf (join ['\n'] c) := by
  induction a with
  | nil => rfl
  | cons x a ih =>
    have hne : a ++ c ≠ [] := by simp [hc]
    cases hq : a ++ c with
    | nil => exact absurd hq hne
    | cons y z =>
      rw [List.cons_append, hq, join, show x ++ ['\n'] ++ join ['\n'] (y :: z) = x ++ '\n' :: join ['\n'] (y :: z) by simp,
        linesOf_append (h x List.mem_cons_self), ← hq, ih (fun w hw => h w (List.mem_cons_of_mem _ hw))]
      rfl

theorem linesOf_first {line rest : Text} (h : '\n' ∉ line) (hr : rest = [] ∨ ∃ u, rest = '\n' :: u) :
    ∃ more, linesOf (line ++ rest) = line :: more := by
  rcases hr with rfl | ⟨u, rfl⟩
  · exact ⟨[], by rw [List.append_nil, linesOf_one h]⟩
  · exact ⟨linesOf u, linesOf_append h⟩

theorem join_first {line rest : Text} {l : List Text} (hr : rest = [] ∨ ∃ u, rest = '\n' :: u) :
    ∃ rest', join ['\n'] ((line ++ rest) :: l) = line ++ rest' ∧ (rest' = [] ∨ ∃ u, rest' = '\n' :: u) := by
  cases l with
  | nil => exact ⟨rest, by rw [join], hr⟩
  | cons b l =>
    refine ⟨rest ++ '\n' :: join ['\n'] (b :: l), by rw [join]; simp, ?_⟩
    rcases hr with rfl | ⟨u, rfl⟩
    · exact .inr ⟨_, rfl⟩
    · exact .inr ⟨_, rfl⟩

/-- Properties in front of one whose first line cannot be read do not help. -/
theorem readBody_bad {T : Type} (lib : Lib T) {treeId : Option Text} (hid : ∀ v, treeId = some v → Trimmed v)
    {before after : List (NamedProp T)} (hb : ∀ p ∈ before, Kept lib p) {p : NamedProp T} {line rest : Text}
    (hp : p.write lib = line ++ rest) (hl : '\n' ∉ line) (hr : rest = [] ∨ ∃ u, rest = '\n' :: u) {e : Fail}
    (he : readLine lib line = .error e) : readBody lib (writeBody lib treeId (before ++ p :: after)) = .error e := by
  unfold readBody writeBody writeLines
  rw [List.map_append, List.map_cons, hp, ← List.append_assoc, linesOf_join_append _ (by simp)]
  · obtain ⟨rest', hj, hr'⟩ := join_first (line := line) (l := after.map (·.write lib)) hr
    obtain ⟨more, hm⟩ := linesOf_first hl hr'
    rw [hj, hm]
    have hpre : ∃ t, readLines lib ({} : Tree T) (idLines treeId ++ before.map (·.write lib)) = .ok t := by
      cases treeId with
      | none => exact ⟨_, readLines_props lib hb {}⟩
      | some v =>
        rw [idLines, List.singleton_append, readLines, (id_read lib (hid v rfl)).1]
        exact ⟨_, readLines_props lib hb _⟩
    obtain ⟨t, ht⟩ := hpre
    rw [readLines_append lib ht, readLines, he]
  · intro w hw
    rcases List.mem_append.mp hw with hw | hw
    · cases treeId with
      | none => cases hw
      | some v =>
        simp only [idLines, List.mem_singleton] at hw
        subst hw
        exact (id_read lib (hid v rfl)).2
    · obtain ⟨p, hp, rfl⟩ := List.mem_map.mp hw
      exact (Kept.read lib (hb p hp)).2

/-! ## Spellings of a name -/

theorem normalize_lower (w : Text) : normalize (w.map toLower) = normalize w := by
  unfold normalize
  rw [List.filterMap_map]
  apply List.filterMap_congr
  intro c _
  simp only [Function.comp]
  by_cases h3 : isUpper c = true
  · have h := normalize_idem [c]
    have h1 : ¬ (c = '_' ∨ c = '-') := by
      rintro (rfl | rfl) <;> revert h3 <;> decide
    have h2 : (isLower c || isDigit c) = false := by
      unfold isUpper at h3
      unfold isLower isDigit
      simp only [Bool.and_eq_true, decide_eq_true_eq] at h3
      have ha : c.toNat ≤ 90 := h3.2
      have hb : 65 ≤ c.toNat := h3.1
      simp only [Bool.or_eq_false_iff, Bool.and_eq_false_iff, decide_eq_false_iff_not]
      constructor
      · left
        show ¬ (97 ≤ c.toNat)
        omega
      · right
        show ¬ (c.toNat ≤ 57)
        omega
    have hn : normalize [c] = [toLower c] := by
      unfold normalize
      rw [List.filterMap_cons_some (b := toLower c) (by rw [if_neg h1, h2, h3]; rfl)]
      rfl
    rw [hn] at h
    have : (if toLower c = '_' ∨ toLower c = '-' then none else if (isLower (toLower c) || isDigit (toLower c)) = true then some (toLower c)
        else if isUpper (toLower c) = true then some (toLower (toLower c)) else none) = some (toLower c) := by
      unfold normalize at h
      rw [List.filterMap_cons] at h
      split at h
      · cases h
      · rename_i d hd
        simp only [List.filterMap_nil, List.cons.injEq, and_true] at h
        rw [h] at hd
        exact hd
    rw [this, if_neg h1, h2, h3]
    rfl
  · have : toLower c = c := by unfold toLower; rw [if_neg h3]
    simp only [this]

theorem special_normalize {w : Text} (h : Special w) : normalize w ∈ specialNames.map normalize := by
  rw [← normalize_lower]
  exact List.mem_map_of_mem h

theorem stripSpace_pad {v : Text} (h : Trimmed v) (a b : Nat) :
    stripSpace (List.replicate a ' ' ++ v ++ List.replicate b ' ') = v := by
  induction a with
  | succ a ih => rw [List.replicate_succ, List.cons_append, List.cons_append, stripSpace_cons, ih]
  | zero =>
    simp only [List.replicate_zero, List.nil_append]
    cases v with
    | nil =>
      unfold stripSpace strip
      have : (List.replicate b ' ').dropWhile (fun x => decide (x = ' ')) = [] := by
        clear h
        induction b with
        | zero => rfl
        | succ b ih => rw [List.replicate_succ, List.dropWhile_cons, if_pos (by decide), ih]
      rw [List.nil_append, this]
      rfl
    | cons x v =>
      have hx : x ≠ ' ' := fun he => h.2.1 (by rw [he]; rfl)
      unfold stripSpace strip
      rw [dropWhile_head (s := x :: v ++ List.replicate b ' ')]
      · rw [List.reverse_append, List.reverse_replicate]
        have hd : ∀ (n : Nat) (q : Text), (List.replicate n ' ' ++ q).dropWhile (fun x => decide (x = ' ')) = q.dropWhile (fun x => decide (x = ' ')) := by
          intro n q
          induction n with
          | zero => rfl
          | succ n ih => rw [List.replicate_succ, List.cons_append, List.dropWhile_cons, if_pos (by decide), ih]
        rw [hd, dropWhile_head, List.reverse_reverse]
        intro c hc
        rw [List.head?_reverse] at hc
        by_cases he : c = ' '
        · exact absurd (he ▸ hc) h.2.2
        · simpa using he
      · intro c hc
        simp at hc
        subst hc
        simpa using hx

theorem lineFor_read {T : Type} (lib : Lib T) {name v : Text} (hn : IsName name) (a b : Nat) :
    readLine lib (lineFor name a v b) =
      readRaw lib (':' :: name ++ [':']) (List.replicate (a + 1) ' ' ++ v ++ List.replicate b ' ') := by
  unfold lineFor
  exact readLine_name lib hn (.inr ⟨_, by rw [List.replicate_succ]; rfl⟩)

end Verif.Drawer
