import Verif.Eval.Model
import Mathlib.Data.List.Nodup
import Mathlib.Data.List.Perm.Basic
import Mathlib.Order.Basic

/-!
# What a block is evaluated with: C113
-/

namespace Verif.Eval

/-! ## The code -/

/-- the text of a line without its callouts -/
def rawText (line : List Part) : List Char := line.flatMap fun p => match p with | .raw c => c | _ => []

/-- is the part a reference to another block -/
def isTangle : Part → Bool
  | .tangle _ => true
  | _ => false

theorem lineText_eq (line : List Part) :
    lineText line = if line.any isTangle then .error .todo else .ok (rawText line) := by
  induction line with
  | nil => rfl
  | cons p ps ih =>
    cases p with
    | raw c =>
      rw [lineText, ih]
      by_cases h : ps.any isTangle = true
      · simp [h, isTangle, Except.map]
      · simp [h, isTangle, Except.map, rawText]
    | callout n =>
      rw [lineText, ih]
      by_cases h : ps.any isTangle = true
      · simp [h, isTangle]
      · simp [h, isTangle, rawText]
    | tangle t => rw [lineText]; simp [isTangle]

theorem joinLines_eq (ls : List (List Char)) : joinLines ls = ['\n'].intercalate ls := by
  match ls with
  | [] => rfl
  | [l] => simp [joinLines]
  | l :: m :: ls =>
    rw [joinLines, joinLines_eq (m :: ls)]
    · rfl
    · simp

/-- **C113** the code is that of the lines, one after the other; a reference to another block ends with an exception. -/
theorem code_text (lines : List (List Part)) :
    tangledCode lines = if lines.any (·.any isTangle) then .error .todo else .ok (['\n'].intercalate (lines.map rawText)) := by
  unfold tangledCode
  have : lines.mapM lineText = if lines.any (·.any isTangle) then .error .todo else .ok (lines.map rawText) := by
    induction lines with
    | nil => rfl
    | cons l ls ih =>
      rw [List.mapM_cons, ih, lineText_eq]
      by_cases h1 : l.any isTangle = true
      · simp [h1, bind, Except.bind]
      · by_cases h2 : ls.any (·.any isTangle) = true
        · simp [h1, h2, bind, Except.bind]
        · simp [h1, h2, bind, Except.bind, pure, Except.pure]
  rw [this]
  by_cases h : lines.any (·.any isTangle) = true
  · simp only [h, if_true]; rfl
  · rw [if_neg h, if_neg h]
    simp only [Except.map]
    rw [joinLines_eq]

/-- two lines, a callout in the first -/
example : tangledCode [[.raw ['a'], .callout ['x'], .raw ['b']], [.raw ['c']]] = .ok ['a', 'b', '\n', 'c'] := rfl

/-! ## The words of `:results` -/

/-- the words for the kind of value -/
def typeWord (w : String) : Option ResultType :=
  if w = "table" ∨ w = "vector" then some .table
  else if w = "list" then some .list
  else if w = "scalar" ∨ w = "verbatim" then some .scalar
  else if w = "file" then some .saveFile
  else none

/-- the words for the form in which the value is written -/
def formatWord (w : String) : Option ResultFormat :=
  if w = "raw" then some .raw
  else if w = "code" ∨ w = "org" ∨ w = "pp" then some .code
  else if w = "drawer" then some .drawer
  else if w = "html" ∨ w = "latex" then some .exportType
  else if w = "link" ∨ w = "graphics" then some .link
  else none

/-- the words for what is done with older results -/
def handlingWord (w : String) : Option Handling :=
  if w = "replace" then some .replace
  else if w = "silent" then some .silent
  else if w = "none" then some .none
  else if w = "discard" then some .discard
  else if w = "append" then some .append
  else if w = "prepend" then some .prepend
  else none

/-- the words that name a language -/
def exportWord (w : String) : Option String :=
  if w = "html" then some "html" else if w = "latex" then some "latex" else if w = "org" then some "org" else none

/-- the last of the given ones, or a default -/
def lastOr {X : Type} (l : List X) (d : X) : X := l.getLast?.getD d

theorem flagStep_eq (f : Flags) (w : String) : flagStep f w =
    ⟨(typeWord w).getD f.type, (formatWord w).getD f.format, (handlingWord w).getD f.handling,
      match exportWord w with | some s => some s | none => f.exportType⟩ := by
  by_cases h0 : w = "table"
  · subst h0; rfl
  by_cases h1 : w = "vector"
  · subst h1; rfl
  by_cases h2 : w = "list"
  · subst h2; rfl
  by_cases h3 : w = "scalar"
  · subst h3; rfl
  by_cases h4 : w = "verbatim"
  · subst h4; rfl
  by_cases h5 : w = "file"
  · subst h5; rfl
  by_cases h6 : w = "raw"
  · subst h6; rfl
  by_cases h7 : w = "code"
  · subst h7; rfl
  by_cases h8 : w = "drawer"
  · subst h8; rfl
  by_cases h9 : w = "html"
  · subst h9; rfl
  by_cases h10 : w = "latex"
  · subst h10; rfl
  by_cases h11 : w = "link"
  · subst h11; rfl
  by_cases h12 : w = "graphics"
  · subst h12; rfl
  by_cases h13 : w = "org"
  · subst h13; rfl
  by_cases h14 : w = "pp"
  · subst h14; rfl
  by_cases h15 : w = "replace"
  · subst h15; rfl
  by_cases h16 : w = "silent"
  · subst h16; rfl
  by_cases h17 : w = "none"
  · subst h17; rfl
  by_cases h18 : w = "discard"
  · subst h18; rfl
  by_cases h19 : w = "append"
  · subst h19; rfl
  by_cases h20 : w = "prepend"
  · subst h20; rfl
  simp only [flagStep, typeWord, formatWord, handlingWord, exportWord, h0, h1, h2, h3, h4, h5, h6, h7, h8, h9, h10, h11, h12, h13, h14, h15, h16, h17, h18, h19, h20, or_self, if_false, Option.getD_none]

theorem lastOr_cons {X Y : Type} (g : Y → Option X) (w : Y) (ws : List Y) (d : X) :
    lastOr ((w :: ws).filterMap g) d = lastOr (ws.filterMap g) ((g w).getD d) := by
  rw [List.filterMap_cons]
  cases g w with
  | none => rfl
  | some x =>
    simp only [lastOr, Option.getD_some]
    rw [List.getLast?_cons]
    rfl

theorem foldl_flags (words : List String) : ∀ f : Flags, words.foldl flagStep f =
    ⟨lastOr (words.filterMap typeWord) f.type, lastOr (words.filterMap formatWord) f.format,
      lastOr (words.filterMap handlingWord) f.handling, lastOr ((words.filterMap exportWord).map some) f.exportType⟩ := by
  induction words with
  | nil => intro f; rfl
  | cons w ws ih =>
    intro f
    rw [List.foldl_cons, ih, flagStep_eq, lastOr_cons, lastOr_cons, lastOr_cons]
    congr 1
    rw [List.filterMap_cons]
    cases exportWord w with
    | none => rfl
    | some x =>
      simp only [lastOr, List.map_cons]
      rw [List.getLast?_cons]
      rfl

/-- **C113** of the words of `:results`, the last one of each class counts; without one, the output is a scalar that
replaces the older results.  The language given by its own attribute goes before those words. -/
theorem flags_last (words : List String) (exportLang codeLang : Option String) :
    flags words exportLang codeLang =
      ⟨lastOr (words.filterMap typeWord) .scalar, lastOr (words.filterMap formatWord) .none,
        lastOr (words.filterMap handlingWord) .replace,
        match codeLang, exportLang, (words.filterMap exportWord).getLast? with
        | some s, _, _ => some s
        | none, some s, _ => some s
        | none, none, o => o⟩ := by
  unfold flags
  simp only
  rw [foldl_flags]
  have : lastOr ((words.filterMap exportWord).map some) none = (words.filterMap exportWord).getLast? := by
    unfold lastOr
    rw [List.getLast?_map]
    cases (words.filterMap exportWord).getLast? <;> rfl
  rw [this]
  cases exportLang <;> cases codeLang <;> rfl

example : flags ["table", "drawer", "list", "append"] none none = ⟨.list, .drawer, .append, none⟩ := by
  decide +kernel

/-! ## The variables -/

section
variable {N A V : Type} [LinearOrder N]

/-- the variable that gives the value of a name: the last one with this name -/
def lastNamed (varname : A → Option N) (vars : List A) (k : N) : Option A :=
  (vars.filter (fun a => decide (varname a = some k))).getLast?

/-- the value in a map -/
def get (m : List (N × A)) (k : N) : Option A := (m.find? (fun e => decide (e.1 = k))).map (·.2)

theorem get_map (m : List (N × A)) (k k' : N) (a : A) :
    get (m.map (fun e => if e.1 = k then (k, a) else e)) k' =
      if k' = k then (if k ∈ m.map (·.1) then some a else none) else get m k' := by
  induction m with
  | nil => simp [get]
  | cons e m ih =>
    unfold get at ih ⊢
    rw [List.map_cons, List.find?_cons]
    by_cases h : e.1 = k
    · rw [if_pos h]
      by_cases hk : k' = k
      · subst hk; simp [h]
      · have hk' : k ≠ k' := fun he => hk he.symm
        simp only [hk', decide_false]
        rw [ih, if_neg hk, if_neg hk, List.find?_cons]
        simp [h, hk']
    · rw [if_neg h]
      by_cases he : e.1 = k'
      · have hk : k' ≠ k := fun hc => h (by rw [he, hc])
        simp [he, hk]
      · simp only [he, decide_false]
        rw [ih, List.find?_cons]
        have : ¬ k = e.1 := fun hc => h hc.symm
        have hm : k ∈ (e :: m).map (·.1) ↔ k ∈ m.map (·.1) := by
          rw [List.map_cons, List.mem_cons]
          simp [this]
        have hd : decide (e.1 = k') = false := decide_eq_false he
        rw [hd]
        by_cases hk : k' = k
        · rw [if_pos hk, if_pos hk]
          by_cases hi : k ∈ m.map (·.1)
          · rw [if_pos hi, if_pos (hm.2 hi)]
          · rw [if_neg hi, if_neg (fun hc => hi (hm.1 hc))]
        · rw [if_neg hk, if_neg hk]

theorem get_assign (m : List (N × A)) (k k' : N) (a : A) : get (assign m k a) k' = if k' = k then some a else get m k' := by
  unfold assign
  split
  · rename_i h
    rw [get_map]
    have : k ∈ m.map (·.1) := by simpa using h
    rw [if_pos this]
  · rename_i h
    have hn : k ∉ m.map (·.1) := by simpa using h
    unfold get
    rw [List.find?_append]
    by_cases hk : k' = k
    · subst hk
      have : m.find? (fun e => decide (e.1 = k')) = none := by
        rw [List.find?_eq_none]
        intro e he hc
        simp only [decide_eq_true_eq] at hc
        exact hn (List.mem_map.2 ⟨e, he, hc⟩)
      simp [this]
    · have hk' : k ≠ k' := fun hc => hk hc.symm
      rw [if_neg hk]
      cases m.find? (fun e => decide (e.1 = k')) <;> simp [hk']

theorem assign_keys {m : List (N × A)} (h : (m.map (·.1)).Nodup) (k : N) (a : A) : ((assign m k a).map (·.1)).Nodup := by
  unfold assign
  split
  · have : (m.map (fun e => if e.1 = k then (k, a) else e)).map (·.1) = m.map (·.1) := by
      rw [List.map_map]
      apply List.map_congr_left
      intro e _
      simp only [Function.comp]
      split
      · rename_i he; exact he.symm
      · rfl
    rw [this]
    exact h
  · rename_i hc
    rw [List.map_append, List.nodup_append]
    refine ⟨h, by simp, ?_⟩
    intro x hx y hy he
    simp only [List.map_cons, List.map_nil, List.mem_singleton] at hy
    rw [he, hy] at hx
    exact hc (by simpa using hx)

theorem lastNamed_cons (varname : A → Option N) (a : A) (as : List A) (k : N) :
    lastNamed varname (a :: as) k = match lastNamed varname as k with
      | some x => some x
      | none => if varname a = some k then some a else none := by
  unfold lastNamed
  rw [List.filter_cons]
  by_cases h : varname a = some k
  · simp only [h, decide_true, if_true]
    rw [List.getLast?_cons]
    cases (as.filter (fun a => decide (varname a = some k))).getLast? <;> rfl
  · have hd : decide (varname a = some k) = false := decide_eq_false h
    rw [hd, if_neg (by simp)]
    cases (as.filter (fun a => decide (varname a = some k))).getLast? <;> simp [h]

/-- the first of two -/
def orElse' {X : Type} : Option X → Option X → Option X
  | some x, _ => some x
  | none, y => y

theorem callsite_get (varname : A → Option N) (as : List A) : ∀ (m : List (N × A)), (m.map (·.1)).Nodup →
    ((callsite varname as m).map (·.1)).Nodup ∧
    ∀ k, get (callsite varname as m) k = orElse' (lastNamed varname as k) (get m k) := by
  induction as with
  | nil => intro m hm; exact ⟨hm, fun k => rfl⟩
  | cons a as ih =>
    intro m hm
    rw [callsite]
    cases ha : varname a with
    | none =>
      obtain ⟨h1, h2⟩ := ih m hm
      refine ⟨h1, fun k => ?_⟩
      rw [h2, lastNamed_cons]
      cases lastNamed varname as k with
      | some x => rfl
      | none => simp [ha]
    | some x =>
      obtain ⟨h1, h2⟩ := ih (assign m x a) (assign_keys hm x a)
      refine ⟨h1, fun k => ?_⟩
      simp only
      rw [h2, lastNamed_cons, get_assign]
      cases lastNamed varname as k with
      | some y => rfl
      | none =>
        simp only [orElse', ha, Option.some.injEq]
        by_cases hk : k = x
        · simp [hk]
        · have : ¬ x = k := fun hc => hk hc.symm
          simp [hk, this]

theorem defaults_get (varname : A → Option N) (as : List A) : ∀ (m : List (N × A)), (m.map (·.1)).Nodup →
    (∀ a ∈ as, varname a ≠ none) →
    ∃ m', defaults varname as m = .ok m' ∧ (m'.map (·.1)).Nodup ∧
      ∀ k, get m' k = orElse' (lastNamed varname as k) (get m k) := by
  induction as with
  | nil => intro m hm _; exact ⟨m, rfl, hm, fun k => rfl⟩
  | cons a as ih =>
    intro m hm hn
    rw [defaults]
    cases ha : varname a with
    | none => exact absurd ha (hn a (by simp))
    | some x =>
      obtain ⟨m', h0, h1, h2⟩ := ih (assign m x a) (assign_keys hm x a) (fun b hb => hn b (by simp [hb]))
      refine ⟨m', h0, h1, fun k => ?_⟩
      rw [h2, lastNamed_cons, get_assign]
      cases lastNamed varname as k with
      | some y => rfl
      | none =>
        simp only [orElse', ha, Option.some.injEq]
        by_cases hk : k = x
        · simp [hk]
        · have : ¬ x = k := fun hc => hk hc.symm
          simp [hk, this]

theorem lastNamed_append (varname : A → Option N) (as bs : List A) (k : N) :
    lastNamed varname (as ++ bs) k = orElse' (lastNamed varname bs k) (lastNamed varname as k) := by
  induction as with
  | nil => rw [List.nil_append]; cases h : lastNamed varname bs k <;> simp [orElse', lastNamed]
  | cons a as ih =>
    rw [List.cons_append, lastNamed_cons, ih, lastNamed_cons]
    cases lastNamed varname bs k <;> rfl

theorem defaults_error (varname : A → Option N) (as : List A) : ∀ (m : List (N × A)), (∃ a ∈ as, varname a = none) →
    defaults varname as m = .error .badOptional := by
  induction as with
  | nil => rintro m ⟨a, h, _⟩; cases h
  | cons a as ih =>
    rintro m ⟨b, hb, hn⟩
    rw [defaults]
    cases ha : varname a with
    | none => rfl
    | some x =>
      rcases List.mem_cons.1 hb with rfl | hb
      · rw [ha] at hn; cases hn
      · exact ih _ ⟨b, hb, hn⟩

theorem lastNamed_mem {varname : A → Option N} {vars : List A} {k : N} {a : A} (h : lastNamed varname vars k = some a) :
    a ∈ vars ∧ varname a = some k := by
  have := List.mem_of_getLast? h
  rw [List.mem_filter] at this
  simpa using this

/-- the arguments one expects: sorted by name, each name once, the last variable of a name counts -/
structure Args (varname : A → Option N) (val : A → V) (vars : List A) (l : List (N × V)) : Prop where
  sorted : (l.map (·.1)).Pairwise (· < ·)
  holds : ∀ k v, (k, v) ∈ l ↔ ∃ a, lastNamed varname vars k = some a ∧ val a = v

/-- **C113** the arguments of a block: the default variables, then those of the call, which override them -/
def ArgsStatement (N A V : Type) [LinearOrder N] : Prop :=
  ∀ (varname : A → Option N) (value : A → Except IErr V) (val : A → V) (defs call : List A),
    (∀ a ∈ defs ++ call, value a = .ok (val a)) →
    ∃ l, argList varname value defs call = .ok l ∧ Args varname val (defs ++ call) l

theorem values_ok {value : A → Except IErr V} {val : A → V} (m : List (N × A)) (hm : (m.map (·.1)).Nodup)
    (hv : ∀ k a, get m k = some a → value a = .ok (val a)) :
    ∃ l, values value m = .ok l ∧ (l.map (·.1)).Pairwise (· < ·) ∧
      ∀ k v, (k, v) ∈ l ↔ ∃ a, get m k = some a ∧ val a = v := by
  have key : ∀ ks : List N, (∀ k ∈ ks, ∃ a, get m k = some a) →
      ∃ l, ks.mapM (fun k => match m.find? (fun e => decide (e.1 = k)) with
        | none => (.error .badOptional : Except IErr (N × V))
        | some e => (value e.2).map fun v => (k, v)) = .ok l ∧ l.map (·.1) = ks ∧
        ∀ k v, (k, v) ∈ l ↔ k ∈ ks ∧ ∃ a, get m k = some a ∧ val a = v := by
    intro ks
    induction ks with
    | nil => intro _; exact ⟨[], rfl, rfl, by simp⟩
    | cons k ks ih =>
      intro h
      obtain ⟨l, h1, h2, h3⟩ := ih (fun x hx => h x (by simp [hx]))
      obtain ⟨a, ha⟩ := h k (by simp)
      have hva := hv k a ha
      obtain ⟨e, he, hea⟩ := Option.map_eq_some_iff.1 ha
      refine ⟨(k, val a) :: l, ?_, by simp [h2], ?_⟩
      · rw [List.mapM_cons, h1]
        simp only [he, hea, hva, Except.map, bind, Except.bind, pure, Except.pure]
      · intro k' v
        rw [List.mem_cons, h3]
        constructor
        · rintro (h4 | ⟨h4, h5⟩)
          · injection h4 with e1 e2
            subst e1 e2
            exact ⟨by simp, a, ha, rfl⟩
          · exact ⟨by simp [h4], h5⟩
        · rintro ⟨h4, b, h5, h6⟩
          rcases List.mem_cons.1 h4 with rfl | h4
          · left
            rw [ha] at h5
            injection h5 with h5
            rw [← h6, h5]
          · exact .inr ⟨h4, b, h5, h6⟩
  have hperm := List.perm_insertionSort (· ≤ · : N → N → Prop) (m.map (·.1))
  have hget : ∀ k, k ∈ m.map (·.1) ↔ ∃ a, get m k = some a := by
    intro k
    constructor
    · intro hk
      cases hf : m.find? (fun e => decide (e.1 = k)) with
      | some e => exact ⟨e.2, by rw [get, hf]; rfl⟩
      | none =>
        rw [List.find?_eq_none] at hf
        obtain ⟨e, he, hek⟩ := List.mem_map.1 hk
        exact absurd (hf e he) (by simp [hek])
    · rintro ⟨a, ha⟩
      obtain ⟨e, he, _⟩ := Option.map_eq_some_iff.1 ha
      have h1 := List.mem_of_find?_eq_some he
      have h2 := List.find?_some he
      simp only [decide_eq_true_eq] at h2
      exact List.mem_map.2 ⟨e, h1, h2⟩
  obtain ⟨l, h1, h2, h3⟩ := key ((m.map (·.1)).insertionSort (· ≤ ·)) (fun k hk => (hget k).1 (hperm.mem_iff.1 hk))
  refine ⟨l, h1, ?_, ?_⟩
  · rw [h2]
    have hsorted : ((m.map (·.1)).insertionSort (· ≤ ·)).Pairwise (· ≤ ·) := List.pairwise_insertionSort _ _
    have hnd : ((m.map (·.1)).insertionSort (· ≤ ·)).Nodup := hperm.nodup_iff.2 hm
    exact (hsorted.and hnd).imp (fun h => lt_of_le_of_ne h.1 h.2)
  · intro k v
    rw [h3]
    constructor
    · rintro ⟨_, h⟩; exact h
    · rintro ⟨a, ha, hv⟩
      exact ⟨hperm.mem_iff.2 ((hget k).2 ⟨a, ha⟩), a, ha, hv⟩

/-- **C113** when all default variables have names, the arguments are sorted by name, each name comes once, and its value
is that of the last variable with that name, where those of the call come after the defaults.  Missing: default
variables without a name (`args_false`). -/
theorem args_partial (varname : A → Option N) (value : A → Except IErr V) (val : A → V) (defs call : List A)
    (hv : ∀ a ∈ defs ++ call, value a = .ok (val a)) (hn : ∀ a ∈ defs, varname a ≠ none) :
    ∃ l, argList varname value defs call = .ok l ∧ Args varname val (defs ++ call) l := by
  obtain ⟨m, h0, h1, h2⟩ := defaults_get varname defs [] (by simp) hn
  obtain ⟨h3, h4⟩ := callsite_get varname call m h1
  have hget : ∀ k, get (callsite varname call m) k = lastNamed varname (defs ++ call) k := by
    intro k
    rw [h4, h2, lastNamed_append]
    have : get ([] : List (N × A)) k = none := rfl
    rw [this]
    cases lastNamed varname call k with
    | some x => rfl
    | none => cases lastNamed varname defs k <;> rfl
  obtain ⟨l, h5, h6, h7⟩ := values_ok (value := value) (val := val) (callsite varname call m) h3 (by
    intro k a ha
    rw [hget] at ha
    exact hv a (lastNamed_mem ha).1)
  refine ⟨l, ?_, h6, ?_⟩
  · unfold argList
    rw [h0]
    exact h5
  · intro k v
    rw [h7]
    simp only [hget]

/-- **C113** a default variable without a name ends with an exception -/
theorem args_unnamed (varname : A → Option N) (value : A → Except IErr V) (defs call : List A)
    (h : ∃ a ∈ defs, varname a = none) : argList varname value defs call = .error .badOptional := by
  unfold argList
  rw [defaults_error varname defs [] h]

end

/-- a default variable that has no name, as in `:var 1` -/
theorem args_false : ¬ ArgsStatement Nat (Option Nat × Nat) Nat := by
  intro h
  obtain ⟨l, h1, _⟩ := h (·.1) (fun a => .ok a.2) (·.2) [(none, 1)] [] (by simp)
  rw [args_unnamed _ _ _ _ ⟨(none, 1), by simp, rfl⟩] at h1
  cases h1

/-- two defaults, one of which the call overrides; a positional value of the call is left out -/
example : argList (N := Nat) (A := Option Nat × Nat) (V := Nat) (·.1) (fun a => .ok a.2)
    [(some 7, 1), (some 3, 2)] [(none, 5), (some 7, 9)] = .ok [(3, 2), (7, 9)] := by decide +kernel

end Verif.Eval
