import Verif.JsonText.Read

/-!
# C169, C170: compact text of JSON values, removed fields
-/

namespace Verif.JsonText
open Verif.Drawer (Text)

/-! ## `json::dump` -/

mutual

theorem gives_dump (v : Json) (hv : Valid v) : Gives (dump v) v := by
  cases v with
  | null => exact gives_null
  | bool b => cases b with
    | true => exact gives_true
    | false => exact gives_false
  | int i => exact gives_int i
  | str s => exact gives_string s
  | arr l =>
    rw [dump]
    cases l with
    | nil => exact gives_empty
    | cons x r => exact (gives_dumpAll (x :: r) (by simp) (by rw [Valid] at hv; exact hv)).array
  | obj l =>
    rw [dump]
    rw [Valid] at hv
    cases l with
    | nil => exact gives_no_fields
    | cons x r =>
      have h := (gives_dumpFields (x :: r) (by simp) hv.2).object
      rw [sorted_fields hv.1 (List.Perm.refl _)] at h
      exact h
termination_by sizeOf v

theorem gives_dumpAll (l : List Json) (hl : l ≠ []) (hv : ValidAll l) : GivesAll (dumpAll l) l := by
  cases l with
  | nil => exact absurd rfl hl
  | cons x r =>
    rw [ValidAll] at hv
    rw [dumpAll]
    cases r with
    | nil =>
      have h := GivesAll.one (gives_dump x hv.1)
      simpa [dumpAll] using h
    | cons y r =>
      have h := GivesAll.more (gives_dump x hv.1) (gives_dumpAll (y :: r) (by simp) hv.2)
      simpa using h
termination_by sizeOf l

theorem gives_dumpFields (l : List (Text × Json)) (hl : l ≠ []) (hv : ValidFields l) : GivesFields (dumpFields l) l := by
  match l, hl, hv with
  | [], hl, _ => exact absurd rfl hl
  | [(k, x)], _, hv =>
    rw [ValidFields] at hv
    have h := GivesFields.one (quote_key k) (gives_dump x hv.1)
    simpa [dumpFields, quote] using h
  | (k, x) :: y :: r, _, hv =>
    rw [ValidFields] at hv
    have h := GivesFields.more (quote_key k) (gives_dump x hv.1) (gives_dumpFields (y :: r) (by simp) hv.2)
    rw [dumpFields]
    simpa [quote] using h
termination_by sizeOf l

end

/-! ## `to_compact_json` -/

theorem gives_lines (ind : Nat) (l : List (Text × Json × Text)) (hl : l ≠ []) (h : ∀ f ∈ l, PlainKey f.1 ∧ Gives f.2.2 f.2.1) :
    GivesFields (lines ind l) (l.map fun f => (f.1, f.2.1)) := by
  induction l with
  | nil => exact absurd rfl hl
  | cons f r ih =>
    obtain ⟨k, x, t⟩ := f
    obtain ⟨h1, h2⟩ := h _ List.mem_cons_self
    have h3 : Gives (" ".toList ++ t) x := Gives.space h2 (by simp [isSpace])
    rw [lines]
    cases r with
    | nil =>
      have g := (GivesFields.one (plain_key h1) h3).space (indent_space ind)
      simpa [lines] using g
    | cons y r =>
      have g := (GivesFields.more (plain_key h1) h3 (ih (by simp) fun f hf => h f (List.mem_cons_of_mem _ hf))).space (indent_space ind)
      simpa using g

theorem formatFields_map (E : Env) (o : Options) (ind : Nat) (l : List (Text × Json)) :
    (formatFields E o ind l).map (fun f => (f.1, f.2.1)) = l := by
  induction l with
  | nil => rw [formatFields]; rfl
  | cons f r ih => obtain ⟨k, x⟩ := f; rw [formatFields, List.map_cons, ih]

mutual

theorem gives_format (E : Env) (hE : E.Sorts) (o : Options) (v : Json) (ind : Nat) (hv : Valid v) (hk : ∀ k, HasKey k v → PlainKey k)
    (hn : ∀ d, NullAt d v → E.size .null < o.width - (ind + d * o.indent)) : Gives (format E o ind v) v := by
  cases v with
  | null =>
    rw [format, if_pos (by simpa using hn 0 (by rw [NullAt]; trivial))]
    exact gives_null
  | bool b => rw [format]; exact gives_dump _ hv
  | int i => rw [format]; exact gives_dump _ hv
  | str s => rw [format]; exact gives_dump _ hv
  | arr l =>
    rw [format]
    split_ifs with hw
    · exact gives_dump _ hv
    · cases l with
      | nil => rw [formatAll]; exact gives_empty
      | cons x r =>
        rw [Valid] at hv
        refine GivesAll.array (gives_formatAll E hE o (x :: r) ind (by simp) hv (fun k h => hk k (by rw [HasKey]; exact h)) fun d h => ?_)
        have := hn (d + 1) (by rw [NullAt]; exact h)
        push_cast at this
        exact this
  | obj l =>
    rw [format]
    split_ifs with hw
    · exact gives_dump _ hv
    · have hp := hE (formatFields E o ind l)
      cases l with
      | nil =>
        rw [formatFields] at hp ⊢
        rw [List.perm_nil.mp hp, lines]
        exact gives_no_fields
      | cons x r =>
        rw [Valid] at hv
        have hf := gives_formatFields E hE o (x :: r) ind hv.2 (fun k h => hk k (by rw [HasKey]; exact h)) fun d h => by
          have := hn (d + 1) (by rw [NullAt]; exact h)
          push_cast at this
          exact this
        have hne : E.arrange (formatFields E o ind (x :: r)) ≠ [] := by
          intro e
          rw [e] at hp
          have := hp.length_eq
          have h2 := congrArg List.length (formatFields_map E o ind (x :: r))
          simp at this h2
          omega
        have h := (gives_lines ind _ hne fun f hf' => hf f (hp.mem_iff.mp hf')).object
        have hm := hp.map fun f : Text × Json × Text => (f.1, f.2.1)
        rw [formatFields_map] at hm
        rw [sorted_fields hv.1 hm] at h
        exact h
termination_by sizeOf v

theorem gives_formatAll (E : Env) (hE : E.Sorts) (o : Options) (l : List Json) (ind : Nat) (hl : l ≠ []) (hv : ValidAll l) (hk : ∀ k, AllHasKey k l → PlainKey k)
    (hn : ∀ d, AllNullAt d l → E.size .null < o.width - (ind + (d + 1) * o.indent)) : GivesAll (formatAll E o ind l) l := by
  cases l with
  | nil => exact absurd rfl hl
  | cons x r =>
    rw [ValidAll] at hv
    rw [formatAll]
    have h1 := (gives_format E hE o x (ind + o.indent) hv.1 (fun k h => hk k (by rw [AllHasKey]; exact .inl h)) fun d h => by
      have := hn d (by rw [AllNullAt]; exact .inl h)
      push_cast
      rw [Int.add_mul, Int.one_mul] at this
      omega).space (indent_space ind)
    cases r with
    | nil =>
      have h := GivesAll.one h1
      simpa [formatAll] using h
    | cons y r =>
      have h := GivesAll.more h1 (gives_formatAll E hE o (y :: r) ind (by simp) hv.2 (fun k h => hk k (by rw [AllHasKey]; exact .inr h))
        fun d h => hn d (by rw [AllNullAt]; exact .inr h))
      simpa using h
termination_by sizeOf l

theorem gives_formatFields (E : Env) (hE : E.Sorts) (o : Options) (l : List (Text × Json)) (ind : Nat) (hv : ValidFields l) (hk : ∀ k, FieldsHasKey k l → PlainKey k)
    (hn : ∀ d, FieldsNullAt d l → E.size .null < o.width - (ind + (d + 1) * o.indent)) :
    ∀ f ∈ formatFields E o ind l, PlainKey f.1 ∧ Gives f.2.2 f.2.1 := by
  match l, hv, hk, hn with
  | [], _, _, _ => intro f hf; rw [formatFields] at hf; cases hf
  | (k, x) :: r, hv, hk, hn =>
    intro f hf
    rw [ValidFields] at hv
    rw [formatFields] at hf
    rcases List.mem_cons.mp hf with rfl | hf
    · refine ⟨hk k (by rw [FieldsHasKey]; exact .inl rfl), ?_⟩
      exact gives_format E hE o x (ind + o.indent) hv.1 (fun k h => hk k (by rw [FieldsHasKey]; exact .inr (.inl h))) fun d h => by
        have := hn d (by rw [FieldsNullAt]; exact .inl h)
        push_cast
        rw [Int.add_mul, Int.one_mul] at this
        omega
    · exact gives_formatFields E hE o r ind hv.2 (fun k h => hk k (by rw [FieldsHasKey]; exact .inr (.inr h)))
        (fun d h => hn d (by rw [FieldsNullAt]; exact .inr h)) f hf
termination_by sizeOf l

end

theorem Gives.stands {t : Text} {v : Json} (h : Gives t v) : Stands t v := by
  obtain ⟨N, hN⟩ := h [] (fun c hc => by cases hc)
  exact ⟨N, [], by simpa using hN N (Nat.le_refl N), rfl⟩

/-! ## C169 -/

/-- **C169**, full statement: the compact text of a value stands for that value. -/
def CompactStatement : Prop := ∀ (E : Env), E.Sorts → ∀ (o : Options) (v : Json), Valid v → Stands (compact E o v) v

/-- **C169**, the part that holds: whatever sizes the function finds, if no key has characters that have to be escaped,
and there is enough width for each `null`. -/
theorem compact_partial (E : Env) (hE : E.Sorts) (o : Options) (v : Json) (hv : Valid v) (hk : ∀ k, HasKey k v → PlainKey k)
    (hn : ∀ d, NullAt d v → E.size .null < o.width - (o.startIndent + d * o.indent)) : Stands (compact E o v) v :=
  (gives_format E hE o v o.startIndent hv hk hn).stands

/-- **C169** for values that fit into one line: any keys. -/
theorem compact_line (E : Env) (o : Options) (v : Json) (hv : Valid v) (hw : E.size v < o.width - o.startIndent) : Stands (compact E o v) v := by
  have e : compact E o v = dump v := by
    unfold compact
    cases v with
    | null => rw [format, if_pos hw]
    | bool b => rw [format]
    | int i => rw [format]
    | str s => rw [format]
    | arr l => rw [format, if_pos hw]
    | obj l => rw [format, if_pos hw]
  rw [e]
  exact (gives_dump v hv).stands

/-- The lengths of the texts as sizes, and the fields as they are.  `getSize` takes the length of the indented text, which
is the same for `null`, and does not matter for `quoted`, where the width is 0. -/
def plainEnv : Env := ⟨fun v => (dump v).length, id⟩

theorem plainEnv_sorts : plainEnv.Sorts := fun _ => List.Perm.refl _

/-- The text of `null` when four columns are not enough. -/
theorem null_lost : compact plainEnv ⟨4, 2, 0⟩ .null = [] := by decide +kernel

/-- **C169** does not hold: `null` is not written when there is no place for it. -/
theorem compact_false : ¬ CompactStatement := by
  intro h
  obtain ⟨n, r, h1, _⟩ := h plainEnv plainEnv_sorts ⟨4, 2, 0⟩ .null (by simp [Valid])
  rw [null_lost] at h1
  cases n with
  | zero => cases h1
  | succ n => cases h1

/-- `{"a\"b":1}` -/
def quoted : Json := .obj [("a\"b".toList, .int 1)]

theorem quoted_text : compact plainEnv ⟨0, 2, 0⟩ quoted = "{\n\"a\"b\": 1}".toList := by decide +kernel

/-- **C169** does not hold for keys with a quote either: no value is read. -/
theorem compact_key_false : ¬ ∃ v, Stands (compact plainEnv ⟨0, 2, 0⟩ quoted) v := by
  rintro ⟨v, n, r, h, _⟩
  rw [quoted_text] at h
  match n with
  | 0 => cases h
  | 1 => cases h
  | 2 => cases h
  | 3 => cases h
  | n + 4 => cases h

/-- `{"a":[1,"x\ny",null],"b":{}}` -/
def sample : Json := .obj [("a".toList, .arr [.int 1, .str "x\ny".toList, .null]), ("b".toList, .obj [])]

example : compact plainEnv ⟨12, 2, 0⟩ sample = "{\n\"a\": [\n  1,\n  \"x\\ny\",\n  null],\n\"b\": {}}".toList := by decide +kernel

example : Stands (compact plainEnv ⟨12, 2, 0⟩ sample) sample := by
  refine compact_partial _ plainEnv_sorts _ _ ?_ ?_ ?_
  · simp [sample, Valid, ValidAll, ValidFields, before]
  · intro k hk
    simp only [sample, HasKey, FieldsHasKey, AllHasKey, or_false, false_or] at hk
    rcases hk with rfl | rfl <;> intro c hc <;> simp at hc <;> subst hc <;> decide
  · intro d hd
    have : d ≤ 2 := by
      by_contra h
      obtain ⟨e, rfl⟩ : ∃ e, d = e + 3 := ⟨d - 3, by omega⟩
      simp [sample, NullAt, AllNullAt, FieldsNullAt] at hd
    have e : plainEnv.size .null = 4 := by decide +kernel
    rw [e]
    show (4 : Int) < 12 - (((0 : Nat) : Int) + d * ((2 : Nat) : Int))
    push_cast
    omega

/-! ## C170 -/

theorem lookup_filter (ks : List Text) (l : List (Text × Json)) (k : Text) :
    (filterObj ks l).lookup k = if k ∈ ks then none else (l.lookup k).map (filterFields ks) := by
  induction l with
  | nil => rw [filterObj]; simp
  | cons f r ih =>
    obtain ⟨j, x⟩ := f
    rw [filterObj]
    by_cases hj : j ∈ ks
    · rw [if_pos hj, ih]
      by_cases hk : k ∈ ks
      · simp [hk]
      · have : (k == j) = false := by
          rw [beq_eq_false_iff_ne]
          rintro rfl
          exact hk hj
        simp [hk, List.lookup_cons, this]
    · rw [if_neg hj, List.lookup_cons, List.lookup_cons, ih]
      cases hkj : k == j with
      | true =>
        have := eq_of_beq hkj
        subst this
        simp [hj]
      | false => simp

theorem filterArr_get (ks : List Text) (l : List Json) (i : Nat) : (filterArr ks l)[i]? = l[i]?.map (filterFields ks) := by
  induction l generalizing i with
  | nil => rw [filterArr]; rfl
  | cons x r ih =>
    rw [filterArr]
    cases i with
    | zero => rfl
    | succ i => simpa using ih i

/-- The path goes through a field with one of the keys. -/
def Uses (ks : List Text) (p : List Step) : Prop := ∃ k ∈ ks, Step.key k ∈ p

/-- **C170**, what is removed: nothing is at a path through one of the fields. -/
theorem filter_removed (ks : List Text) (v : Json) (p : List Step) (h : Uses ks p) : at? (filterFields ks v) p = none := by
  induction p generalizing v with
  | nil => obtain ⟨k, _, hk⟩ := h; cases hk
  | cons s p ih =>
    have rest : (∀ k, s = .key k → k ∉ ks) → Uses ks p := by
      intro hs
      obtain ⟨k, hk, hm⟩ := h
      rcases List.mem_cons.mp hm with e | hm
      · exact absurd hk (hs k e.symm)
      · exact ⟨k, hk, hm⟩
    cases v with
    | obj l =>
      rw [filterFields]
      cases s with
      | key k =>
        rw [at?, lookup_filter]
        by_cases hk : k ∈ ks
        · rw [if_pos hk]; rfl
        · rw [if_neg hk]
          cases l.lookup k with
          | none => rfl
          | some x => exact ih x (rest fun j e => by injection e with e; subst e; exact hk)
      | index i => simp [at?]
    | arr l =>
      rw [filterFields]
      cases s with
      | key k => simp [at?]
      | index i =>
        rw [at?, filterArr_get]
        cases l[i]? with
        | none => rfl
        | some x => exact ih x (rest fun j e => by cases e)
    | null => cases s <;> simp [filterFields, at?]
    | bool b => cases s <;> simp [filterFields, at?]
    | int i => cases s <;> simp [filterFields, at?]
    | str t => cases s <;> simp [filterFields, at?]

/-- **C170**, what is kept: at every other path there is what was there, without the fields. -/
theorem filter_kept (ks : List Text) (v : Json) (p : List Step) (h : ¬ Uses ks p) : at? (filterFields ks v) p = (at? v p).map (filterFields ks) := by
  induction p generalizing v with
  | nil => simp [at?]
  | cons s p ih =>
    have rest : ¬ Uses ks p := fun ⟨k, hk, hm⟩ => h ⟨k, hk, List.mem_cons_of_mem _ hm⟩
    cases v with
    | obj l =>
      rw [filterFields]
      cases s with
      | key k =>
        have hk : k ∉ ks := fun hk => h ⟨k, hk, List.mem_cons_self⟩
        rw [at?, at?, lookup_filter, if_neg hk]
        cases l.lookup k with
        | none => rfl
        | some x => exact ih x rest
      | index i => simp [at?]
    | arr l =>
      rw [filterFields]
      cases s with
      | key k => simp [at?]
      | index i =>
        rw [at?, at?, filterArr_get]
        cases l[i]? with
        | none => rfl
        | some x => exact ih x rest
    | null => cases s <;> simp [filterFields, at?]
    | bool b => cases s <;> simp [filterFields, at?]
    | int i => cases s <;> simp [filterFields, at?]
    | str t => cases s <;> simp [filterFields, at?]

/-- **C170**: values other than arrays and objects do not change, so what is kept is what was there. -/
theorem filter_leaf (ks : List Text) : filterFields ks .null = .null ∧ (∀ b, filterFields ks (.bool b) = .bool b) ∧
    (∀ i, filterFields ks (.int i) = .int i) ∧ (∀ s, filterFields ks (.str s) = .str s) ∧
    (∀ l, ∃ m, filterFields ks (.arr l) = .arr m ∧ m.length = l.length) ∧
    (∀ l, ∃ m, filterFields ks (.obj l) = .obj m ∧ m.map Prod.fst = (l.map Prod.fst).filter (fun k => decide (k ∉ ks))) := by
  refine ⟨by rw [filterFields], fun _ => by rw [filterFields], fun _ => by rw [filterFields], fun _ => by rw [filterFields], fun l => ⟨filterArr ks l, by rw [filterFields], ?_⟩,
    fun l => ⟨filterObj ks l, by rw [filterFields], ?_⟩⟩
  · induction l with
    | nil => rw [filterArr]
    | cons x r ih => rw [filterArr]; simp [ih]
  · induction l with
    | nil => rw [filterObj]; rfl
    | cons f r ih =>
      obtain ⟨k, x⟩ := f
      rw [filterObj]
      by_cases hk : k ∈ ks
      · simp [hk, ih]
      · simp [hk, ih]

example : Uses ["b".toList] [.key "a".toList, .index 1, .key "b".toList] := ⟨"b".toList, by simp, by simp⟩

example : ¬ Uses ["b".toList] [.key "a".toList, .index 1] := by
  rintro ⟨k, hk, hm⟩
  simp at hk hm
  subst hk
  exact absurd hm (by decide)

example : dump (filterFields ["b".toList] sample) = "{\"a\":[1,\"x\\ny\",null]}".toList := by decide +kernel

end Verif.JsonText
