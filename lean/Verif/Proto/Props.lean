import Verif.Proto.Round

/-!
# C96: trees survive the protobuf form

`Has` says which values are of a declared type, `unlocated` what is left of a value without the locations of its nodes
(Spec.lean).  `Returns c v v'`: writing `v` gives a message, and reading that message gives `v'`, for every recursion
bound from some number on – the C++ functions have no bound but the stack.
-/

namespace Verif.Proto

/-- What is read after writing the value. -/
def Returns (c : Codec) (v v' : Val) : Prop :=
  ∃ n0, ∀ n, n0 ≤ n → ∃ p, writeN n c v = .ok p ∧ readN n c (some p) = .ok v'

theorem Returns.unique {c : Codec} {v v' v'' : Val} (h : Returns c v v') (h' : Returns c v v'') : v' = v'' := by
  obtain ⟨n, hn⟩ := h
  obtain ⟨m, hm⟩ := h'
  obtain ⟨p, h1, h2⟩ := hn (max n m) (by omega)
  obtain ⟨q, h3, h4⟩ := hm (max n m) (by omega)
  rw [h1] at h3
  injection h3 with h3
  subst h3
  rw [h2] at h4
  injection h4

/-- The full property: every value of a semantic type comes back as it was. -/
def RoundTripStatement : Prop := ∀ (c : Codec) (v : Val), Has true (.one c) v → Returns c v v

/-- What holds: every value without nil nodes comes back as it was, but for the locations of its nodes. -/
theorem proto_round_trip_partial (c : Codec) (v : Val) (h : Has false (.one c) v) : Returns c v (unlocated v) := round _ v h

/-- Values without locations come back as they were. -/
theorem proto_round_trip_exact_partial (c : Codec) (v : Val) (h : Has false (.one c) v) (hl : unlocated v = v) :
    Returns c v v := by
  have := proto_round_trip_partial c v h
  rwa [hl] at this

/-- Different values (but for locations) have different messages. -/
theorem proto_injective (c : Codec) (v v' : Val) (h : Has false (.one c) v) (h' : Has false (.one c) v')
    (he : ∃ n0, ∀ n, n0 ≤ n → writeN n c v = writeN n c v') : unlocated v = unlocated v' := by
  obtain ⟨n, hn⟩ := proto_round_trip_partial c v h
  obtain ⟨m, hm⟩ := proto_round_trip_partial c v' h'
  obtain ⟨k, hk⟩ := he
  have e := hk (max k (max n m)) (by omega)
  obtain ⟨p, h1, h2⟩ := hn (max k (max n m)) (by omega)
  obtain ⟨q, h3, h4⟩ := hm (max k (max n m)) (by omega)
  rw [h1, h3] at e
  injection e with e
  subst e
  rw [h2] at h4
  injection h4

/-! ## A test for values of a type -/

/-- Whether the value is of the type (sound; used for the examples only). -/
def hasB (nils : Bool) : Nat → FTy → Val → Bool
  | 0, _, _ => false
  | n + 1, ty, v =>
    match ty, v with
    | .one .num, .num _ => true
    | .one .str, .str _ => true
    | .one (.msg t), .record fs =>
      !isNode t && decide (fs.map (·.1) = (allMembers t).map (·.1)) &&
        (allMembers t).all fun m => fs.all fun e => decide (m.1 ≠ e.1) || hasB nils n m.2 e.2
    | .one (.node t'), .node t fs =>
      decide (t = t') && decide (t ∈ anyTable.map (·.2)) && decide (fs.map (·.1) = (allMembers t).map (·.1)) &&
        (allMembers t).all fun m => fs.all fun e => decide (m.1 ≠ e.1) || hasB nils n m.2 e.2
    | .one .any, .node t fs =>
      decide (t ∈ anyTable.map (·.2)) && decide (fs.map (·.1) = (allMembers t).map (·.1)) &&
        (allMembers t).all fun m => fs.all fun e => decide (m.1 ≠ e.1) || hasB nils n m.2 e.2
    | .opt _, .none => true
    | .opt c, .some v => hasB nils n (.one c) v
    | .rep c, .vec l => l.all fun v => hasB nils n (.one c) v
    | .map c, .map l => decide (l.map (·.1)).Nodup && l.all fun e => hasB nils n (.one c) e.2
    | .alts l, .alt i v => match l[i]? with | some c => hasB nils n (.one c) v | none => false
    | .ref _, .nil => nils
    | .ref c, v => hasB nils n (.one c) v
    | _, _ => false

theorem hasB_fields (nils : Bool) (n : Nat) (ih : ∀ ty v, hasB nils n ty v = true → Has nils ty v) (t : Ty)
    (fs : List (Fld × Val))
    (h : ((allMembers t).all fun m => fs.all fun e => decide (m.1 ≠ e.1) || hasB nils n m.2 e.2) = true) :
    ∀ f ty v, (f, ty) ∈ allMembers t → (f, v) ∈ fs → Has nils ty v := by
  intro f ty v hm hv
  simp only [List.all_eq_true, Bool.or_eq_true, decide_eq_true_eq] at h
  exact ih _ _ ((h (f, ty) hm (f, v) hv).resolve_left fun e => e rfl)

theorem hasB_sound (nils : Bool) (n : Nat) : ∀ ty v, hasB nils n ty v = true → Has nils ty v := by
  induction n with
  | zero =>
    intro ty v h
    cases h
  | succ n ih =>
    intro ty v h
    unfold hasB at h
    split at h
    · exact .num _
    · exact .str _
    · simp only [Bool.and_eq_true, decide_eq_true_eq, Bool.not_eq_true'] at h
      exact .msg _ _ h.1.1 h.1.2 (hasB_fields nils n ih _ _ h.2)
    · simp only [Bool.and_eq_true, decide_eq_true_eq] at h
      obtain ⟨⟨⟨rfl, h1⟩, h2⟩, h3⟩ := h
      exact .node _ _ h1 h2 (hasB_fields nils n ih _ _ h3)
    · simp only [Bool.and_eq_true, decide_eq_true_eq] at h
      exact .any _ _ h.1.1 h.1.2 (hasB_fields nils n ih _ _ h.2)
    · exact .none _
    · exact .some _ _ (ih _ _ h)
    · simp only [List.all_eq_true] at h
      exact .vec _ _ fun v hv => ih _ _ (h v hv)
    · simp only [Bool.and_eq_true, decide_eq_true_eq, List.all_eq_true] at h
      exact .map _ _ h.1 fun k v hv => ih _ _ (h.2 (k, v) hv)
    · split at h
      · rename_i hc
        exact .alt _ _ _ _ hc (ih _ _ h)
      · cases h
    · exact .nil _ h
    · exact .ref _ _ (ih _ _ h)
    · cases h

/-! ## Examples -/

/-- A word. -/
def word (s : String) (loc : Val) : Val := .node .Word [(.subnodes, .vec []), (.loc, loc), (.text, .str s)]

/-- A place in a file. -/
def place : Val := .some (.record [(.line, .num 1), (.column, .num 2), (.pos, .num 3), (.file_id, .record [(.id, .num 4)])])

/-- `\alpha{a}`, with a parameter -/
def symbol (loc : Val) : Val :=
  .node .Symbol [(.subnodes, .vec []), (.loc, loc), (.name, .str "alpha"),
    (.parameters, .vec [.record [(.key, .some (.str "k")), (.value, .str "v")]]), (.positional, .vec [word "a" loc])]

/-- A paragraph with two words, a symbol and something attached. -/
def para (loc : Val) : Val :=
  .node .Paragraph [(.subnodes, .vec [word "one" loc, word "two" .none, symbol loc]), (.loc, loc),
    (.attached, .vec [word "x" .none])]

/-- A static time. -/
def time : Val :=
  .node .Time [(.subnodes, .vec []), (.loc, .none), (.isActive, .num 1),
    (.time, .alt 0 (.record [(.repeat, .vec []), (.warn, .none),
      (.time, .record [(.time, .num 1700000000), (.zone, .some (.str "UTC")), (.align, .num 5)])]))]

example : Has false (.one .any) (para place) := hasB_sound false 12 _ _ (by decide +kernel)
example : Has false (.one .any) time := hasB_sound false 12 _ _ (by decide +kernel)
example : Has false (.one (.node .TimeRange)) (.node .TimeRange [(.subnodes, .vec []), (.loc, place), (.from_, time), (.to_, time)]) :=
  hasB_sound false 12 _ _ (by decide +kernel)

/-- The paragraph with its attached word comes back; its locations do not. -/
example : Returns .any (para place) (para .none) :=
  proto_round_trip_partial _ _ (hasB_sound false 12 _ _ (by decide +kernel))
example : Returns .any (para .none) (para .none) :=
  proto_round_trip_exact_partial _ _ (hasB_sound false 12 _ _ (by decide +kernel)) rfl

theorem Has.weaken (nils : Bool) (ty : FTy) (v : Val) (h : Has false ty v) : Has nils ty v := by
  induction h with
  | num n => exact .num n
  | str s => exact .str s
  | msg t fs h1 h2 _ ih => exact .msg t fs h1 h2 ih
  | node t fs h1 h2 _ ih => exact .node t fs h1 h2 ih
  | any t fs h1 h2 _ ih => exact .any t fs h1 h2 ih
  | none c => exact .none c
  | some c v _ ih => exact .some c v ih
  | vec c l _ ih => exact .vec c l ih
  | map c l hd _ ih => exact .map c l hd ih
  | alt l i c v hc _ ih => exact .alt l i c v hc ih
  | ref c v _ ih => exact .ref c v ih
  | nil c h => cases h

/-- The full property does not hold: the location of a word is lost. -/
theorem roundTrip_false : ¬ RoundTripStatement := by
  intro h
  have hw : Has false (.one .any) (word "a" place) := hasB_sound false 12 _ _ (by decide +kernel)
  have h1 := h .any _ (Has.weaken true _ _ hw)
  have h2 := proto_round_trip_partial .any _ hw
  have := h1.unique h2
  rw [word, show unlocated (.node .Word [(.subnodes, .vec []), (.loc, place), (.text, .str "a")]) = word "a" .none from rfl] at this
  simp [word, place] at this

/-- A range without end: the other nodes may be nil as well. -/
def openRange : Val := .node .TimeRange [(.subnodes, .vec []), (.loc, .none), (.from_, time), (.to_, .nil)]

/-- It is written, but reading the message throws: a nil time is read as a time without a value. -/
theorem nil_not_read : Has true (.one (.node .TimeRange)) openRange ∧
    ∃ n0, ∀ n, n0 ≤ n → ∃ p, writeN n (.node .TimeRange) openRange = .ok p ∧
      readN n (.node .TimeRange) (some p) = .error .assertion := by
  refine ⟨hasB_sound true 12 _ _ (by decide +kernel), 8, fun n hn => ?_⟩
  obtain ⟨m, rfl⟩ : ∃ m, n = m + 8 := ⟨n - 8, by omega⟩
  exact ⟨_, rfl, rfl⟩

/-- A headline of the given title. -/
def headline (title : Val) : Val :=
  .node .Subtree [(.subnodes, .vec []), (.loc, .none), (.level, .num 1), (.treeId, .none), (.todo, .none), (.completion, .none),
    (.description, .none), (.tags, .vec []), (.title, title), (.logbook, .vec []), (.properties, .vec []), (.closed, .none),
    (.deadline, .none), (.scheduled, .none), (.isComment, .num 0), (.isArchived, .num 0), (.priority, .none)]

/-- A headline without title comes back with an empty paragraph as its title. -/
theorem nil_title_read : Has true (.one .any) (headline .nil) ∧
    Returns .any (headline .nil)
      (headline (.node .Paragraph [(.subnodes, .vec []), (.loc, .none), (.attached, .vec [])])) := by
  refine ⟨hasB_sound true 12 _ _ (by decide +kernel), 8, fun n hn => ?_⟩
  obtain ⟨m, rfl⟩ : ∃ m, n = m + 8 := ⟨n - 8, by omega⟩
  exact ⟨_, rfl, rfl⟩

end Verif.Proto
