import Verif.Attrs.Model

/-!
# Properties of attributes (C222, C223)
-/

namespace Verif.Attrs

variable {Ty : Type} [DecidableEq Ty]

/-! ## Specification -/

/-- `a` is the only one in the list which is of type `T`. -/
def Only (k : Classes Ty) (T : Ty) (a : Attr Ty) (as : List (Attr Ty)) : Prop :=
  ∃ l r, as = l ++ a :: r ∧ k.isA a.ty T = true ∧ ∀ x ∈ l ++ r, k.isA x.ty T = false

/-- Two places of the list are of type `T`. -/
def Two (k : Classes Ty) (T : Ty) (as : List (Attr Ty)) : Prop :=
  ∃ l a m b r, as = l ++ a :: m ++ b :: r ∧ k.isA a.ty T = true ∧ k.isA b.ty T = true

/-! ## C222: reading attributes -/

theorem loop_some (k : Classes Ty) (T : Ty) (a : Attr Ty) (as : List (Attr Ty)) :
    (uniqueLoop k T (some a) as = .one a ∧ ∀ x ∈ as, k.isA x.ty T = false) ∨
    (uniqueLoop k T (some a) as = .two ∧
      ∃ m b r, as = m ++ b :: r ∧ k.isA b.ty T = true) := by
  induction as with
  | nil => left; simp [uniqueLoop]
  | cons x r ih =>
    cases h : k.isA x.ty T with
    | true =>
      right
      exact ⟨by simp [uniqueLoop, isInstance, h], [], x, r, rfl, h⟩
    | false =>
      have e : uniqueLoop k T (some a) (x :: r) = uniqueLoop k T (some a) r := by
        simp [uniqueLoop, isInstance, h]
      rw [e]
      rcases ih with ⟨h1, h2⟩ | ⟨h1, m, b, r', h2, h3⟩
      · left
        refine ⟨h1, ?_⟩
        intro y hy
        rcases List.mem_cons.1 hy with rfl | hy
        · exact h
        · exact h2 y hy
      · right
        exact ⟨h1, x :: m, b, r', by simp [h2], h3⟩

theorem unique_cases (k : Classes Ty) (T : Ty) (as : List (Attr Ty)) :
    (∃ a, getUnique k T as = .one a ∧ Only k T a as) ∨
    (getUnique k T as = .two ∧ Two k T as) ∨
    (getUnique k T as = .missing ∧ ∀ x ∈ as, k.isA x.ty T = false) := by
  induction as with
  | nil => right; right; simp [getUnique, uniqueLoop]
  | cons x r ih =>
    cases h : k.isA x.ty T with
    | true =>
      have e : getUnique k T (x :: r) = uniqueLoop k T (some x) r := by
        simp [getUnique, uniqueLoop, isInstance, h]
      rw [e]
      rcases loop_some k T x r with ⟨h1, h2⟩ | ⟨h1, m, b, r', h2, h3⟩
      · left
        exact ⟨x, h1, [], r, rfl, h, by simpa using h2⟩
      · right; left
        exact ⟨h1, [], x, m, b, r', by simp [h2], h, h3⟩
    | false =>
      have e : getUnique k T (x :: r) = getUnique k T r := by
        simp [getUnique, uniqueLoop, isInstance, h]
      rw [e]
      rcases ih with ⟨a, h1, l, r', h2, h3, h4⟩ | ⟨h1, l, a, m, b, r', h2, h3, h4⟩ | ⟨h1, h2⟩
      · left
        refine ⟨a, h1, x :: l, r', by simp [h2], h3, ?_⟩
        intro y hy
        rcases List.mem_cons.1 (by simpa using hy : y ∈ x :: (l ++ r')) with rfl | hy
        · exact h
        · exact h4 y hy
      · right; left
        exact ⟨h1, x :: l, a, m, b, r', by simp [h2], h3, h4⟩
      · right; right
        refine ⟨h1, ?_⟩
        intro y hy
        rcases List.mem_cons.1 hy with rfl | hy
        · exact h
        · exact h2 y hy

/-- Those of type `T`, by a filter of the list. -/
theorem getAll_eq (k : Classes Ty) (T : Ty) (as : List (Attr Ty)) :
    getAll k T as = as.filter (fun a => k.isA a.ty T) := by
  induction as with
  | nil => rfl
  | cons x r ih =>
    cases h : k.isA x.ty T <;> simp [getAll, isInstance, h, ih]

theorem filter_none {k : Classes Ty} {T : Ty} {l : List (Attr Ty)}
    (h : ∀ x ∈ l, k.isA x.ty T = false) : l.filter (fun a => k.isA a.ty T) = [] := by
  simpa [List.filter_eq_nil_iff] using h

theorem only_filter {k : Classes Ty} {T : Ty} {a : Attr Ty} {as : List (Attr Ty)}
    (h : Only k T a as) : as.filter (fun a => k.isA a.ty T) = [a] := by
  obtain ⟨l, r, rfl, ha, hn⟩ := h
  rw [List.filter_append, filter_none (fun x hx => hn x (List.mem_append_left _ hx)),
    List.filter_cons_of_pos (by simpa using ha),
    filter_none (fun x hx => hn x (List.mem_append_right _ hx))]
  rfl

/-- **C222** (unique): the attribute of a type is given exactly if it is the
only one of this type. -/
theorem unique_iff (k : Classes Ty) (T : Ty) (as : List (Attr Ty)) (a : Attr Ty) :
    getUnique k T as = .one a ↔ Only k T a as := by
  rcases unique_cases k T as with ⟨b, h1, h2⟩ | ⟨h1, l, b, m, c, r, rfl, hb, hc⟩ | ⟨h1, h2⟩
  · rw [h1]
    constructor
    · intro h; cases h; exact h2
    · intro h
      have := (only_filter h2).symm.trans (only_filter h)
      simp at this; rw [this]
  · rw [h1]
    constructor
    · intro h; cases h
    · intro h
      have := only_filter h
      have h2 := congrArg List.length this
      simp [List.filter_append, hb, hc] at h2
      omega
  · rw [h1]
    constructor
    · intro h; cases h
    · intro h
      have := (filter_none h2).symm.trans (only_filter h)
      cases this

/-- **C222** (errors): the error is that two were found exactly if there are two,
and that none was found exactly if there is none. -/
theorem unique_errors (k : Classes Ty) (T : Ty) (as : List (Attr Ty)) :
    (getUnique k T as = .two ↔ Two k T as) ∧
    (getUnique k T as = .missing ↔ ∀ x ∈ as, k.isA x.ty T = false) := by
  have len : Two k T as → 2 ≤ (as.filter (fun a => k.isA a.ty T)).length := by
    rintro ⟨l, b, m, c, r, rfl, hb, hc⟩
    simp [List.filter_append, hb, hc]
    omega
  rcases unique_cases k T as with ⟨b, h1, h2⟩ | ⟨h1, h2⟩ | ⟨h1, h2⟩
  · have e := only_filter h2
    refine ⟨⟨fun h => (by rw [h1] at h; cases h), fun h => ?_⟩,
      ⟨fun h => (by rw [h1] at h; cases h), fun h => ?_⟩⟩
    · have := len h; rw [e] at this; simp at this
    · rw [filter_none h] at e; cases e
  · have e := len h2
    refine ⟨⟨fun _ => h2, fun _ => h1⟩, ⟨fun h => (by rw [h1] at h; cases h), fun h => ?_⟩⟩
    rw [filter_none h] at e; simp at e
  · refine ⟨⟨fun h => (by rw [h1] at h; cases h), fun h => ?_⟩, ⟨fun _ => h2, fun _ => h1⟩⟩
    have := len h; rw [filter_none h2] at this; simp at this

/-- **C222** (optional): the first attribute of the type is given, and nothing
only if there is none. -/
theorem optional_iff (k : Classes Ty) (T : Ty) (as : List (Attr Ty)) :
    (∀ a, getOptional k T as = some a ↔
      ∃ l r, as = l ++ a :: r ∧ k.isA a.ty T = true ∧ ∀ x ∈ l, k.isA x.ty T = false) ∧
    (getOptional k T as = none ↔ ∀ x ∈ as, k.isA x.ty T = false) := by
  have e : getOptional k T as = as.find? (fun a => k.isA a.ty T) := by
    induction as with
    | nil => rfl
    | cons x r ih => cases h : k.isA x.ty T <;> simp [getOptional, isInstance, h, ih]
  rw [e]
  constructor
  · intro a
    rw [List.find?_eq_some_iff_append]
    constructor
    · rintro ⟨h1, l, r, h2, h3⟩
      exact ⟨l, r, h2, h1, by simpa using h3⟩
    · rintro ⟨l, r, h2, h1, h3⟩
      exact ⟨h1, l, r, h2, by simpa using h3⟩
  · simp [List.find?_eq_none]

/-- **C222** (all): all attributes of the type are given, in their order. -/
theorem all_of (k : Classes Ty) (T : Ty) (as : List (Attr Ty)) :
    (getAll k T as).Sublist as ∧
    (∀ a, (getAll k T as).count a = if k.isA a.ty T then as.count a else 0) := by
  rw [getAll_eq]
  refine ⟨List.filter_sublist, fun a => ?_⟩
  by_cases h : k.isA a.ty T = true
  · rw [List.count_filter (by simpa using h)]; simp [h]
  · simp only [h]
    rw [if_neg (by simp)]
    apply List.count_eq_zero.2
    intro hm
    exact h (by simpa using (List.mem_filter.1 hm).2)

/-! ## C223: attributes which are there once -/

/-- Adding a unique attribute throws exactly if the object has one of its
type. -/
def AddStatement : Prop :=
  ∀ (k : Classes Nat) (T : Nat) (attr : Attr Nat) (as : List (Attr Nat)),
    k.isA attr.ty T = true → (∀ t, k.isA t k.base = true) →
    (addUnique k T attr as = none ↔ ∃ e ∈ as, e.ty = attr.ty)

/-- Setting a unique attribute makes it the only one of its type. -/
def ResetStatement : Prop :=
  ∀ (k : Classes Nat) (attr : Attr Nat) (as : List (Attr Nat)),
    (∀ t u, k.isA t u = true ↔ t = u ∨ u = k.base) →
    (∀ e ∈ as, ∀ f ∈ as, e.ty = f.ty → e = f) →
    getUnique k attr.ty (addOrReset k attr.ty attr as) = .one attr

/-- Classes which are derived from `IAttribute`, here `0`, and not from each
other. -/
def flat : Classes Nat := ⟨0, fun t u => decide (t = u) || decide (u = 0)⟩

/-- **C223** is false: a second attribute of a type is added. -/
theorem add_false : ¬ AddStatement := by
  intro h
  have := (h flat 1 ⟨8, 1⟩ [⟨7, 1⟩] (by decide) (by intro t; simp [flat])).2 ⟨⟨7, 1⟩, by simp, rfl⟩
  revert this; decide

/-- **C223** is false: setting an attribute does nothing, whether there is one of
its type or not. -/
theorem reset_false : ¬ ResetStatement := by
  intro h
  have := h flat ⟨8, 1⟩ [⟨7, 1⟩] (by intro t u; simp [flat]) (by simp)
  have e : getUnique flat 1 (addOrReset flat 1 ⟨8, 1⟩ [⟨7, 1⟩]) = .one ⟨7, 1⟩ := rfl
  rw [show (Attr.mk 8 1 : Attr Nat).ty = 1 from rfl, e] at this
  injection this with h1
  injection h1 with h2
  omega

/-- **C223**, what is done instead: given by a pointer to a derived class, an
attribute is always added, and never set; given by a pointer to `IAttribute`, it
is added only to an object without attributes, and set in place of each
attribute, of any type. -/
theorem unique_actual (k : Classes Ty) (T : Ty) (attr : Attr Ty) (as : List (Attr Ty)) :
    (T ≠ k.base → addUnique k T attr as = some (as ++ [attr]) ∧ addOrReset k T attr as = as) ∧
    (T = k.base → (addUnique k T attr as = if as = [] then some [attr] else none) ∧
      addOrReset k T attr as = List.replicate as.length attr) := by
  constructor
  · intro h
    simp [addUnique, addOrReset, sameType, h]
  · rintro rfl
    constructor
    · cases as <;> simp [addUnique, sameType]
    · simp only [addOrReset, sameType, decide_true, if_true]
      exact List.map_const'

theorem build_append (k : Classes Ty) (ps : List (Ty × Attr Ty)) (as : List (Attr Ty))
    (h : ∀ p ∈ ps, p.1 ≠ k.base) : build k ps as = some (as ++ ps.map Prod.snd) := by
  induction ps generalizing as with
  | nil => simp [build]
  | cons p r ih =>
    obtain ⟨T, a⟩ := p
    have h1 := ((unique_actual k T a as).1 (h (T, a) (by simp))).1
    rw [build, h1]
    simp [ih (as ++ [a]) (fun q hq => h q (List.mem_cons_of_mem _ hq))]

/-- **C223**, partial: if attributes of different derived classes are added to an
object, each is given for its class.  Missing: the error for a second attribute
of a class, and setting attributes (`unique_actual`). -/
theorem added_partial (k : Classes Ty) (ps : List (Ty × Attr Ty))
    (hb : ∀ p ∈ ps, p.1 ≠ k.base)
    (hi : ∀ p ∈ ps, k.isA p.2.ty p.1 = true)
    (hd : ps.Pairwise fun p q => k.isA p.2.ty q.1 = false ∧ k.isA q.2.ty p.1 = false) :
    ∃ as, build k ps [] = some as ∧ ∀ p ∈ ps, getUnique k p.1 as = .one p.2 := by
  refine ⟨ps.map Prod.snd, by simpa using build_append k ps [] hb, ?_⟩
  intro p hp
  rw [unique_iff]
  obtain ⟨l, r, rfl⟩ := List.append_of_mem hp
  refine ⟨l.map Prod.snd, r.map Prod.snd, by simp, hi p hp, ?_⟩
  rw [List.pairwise_append] at hd
  obtain ⟨_, h2, h3⟩ := hd
  intro x hx
  rcases List.mem_append.1 hx with hx | hx
  · obtain ⟨q, hq, rfl⟩ := List.mem_map.1 hx
    exact (h3 q hq p (by simp)).1
  · obtain ⟨q, hq, rfl⟩ := List.mem_map.1 hx
    exact ((List.pairwise_cons.1 h2).1 q hq).2

theorem build_nonempty (k : Classes Ty) (ps : List (Ty × Attr Ty)) (as : List (Attr Ty))
    (h : as ≠ []) : build k ps as = none ↔ ∃ p ∈ ps, p.1 = k.base := by
  induction ps generalizing as with
  | nil => simp [build]
  | cons p r ih =>
    obtain ⟨T, a⟩ := p
    by_cases hT : T = k.base
    · have h1 := ((unique_actual k T a as).2 hT).1
      rw [if_neg h] at h1
      rw [build, h1]
      exact ⟨fun _ => ⟨(T, a), by simp, hT⟩, fun _ => rfl⟩
    · have h1 := ((unique_actual k T a as).1 hT).1
      rw [build, h1]
      simp [ih (as ++ [a]) (by simp), hT]

/-- **C223**, when adding throws: exactly if an attribute other than the first is
given by a pointer to `IAttribute`, whatever types the attributes have. -/
theorem build_throws (k : Classes Ty) (ps : List (Ty × Attr Ty)) :
    build k ps [] = none ↔ ∃ p ∈ ps.tail, p.1 = k.base := by
  cases ps with
  | nil => simp [build]
  | cons p r =>
    obtain ⟨T, a⟩ := p
    have h1 : addUnique k T a [] = some [a] := by simp [addUnique]
    rw [build, h1]
    exact build_nonempty k r [a] (by simp)

/-- Two attributes of different classes. -/
example : ∃ as, build flat [(1, ⟨7, 1⟩), (2, ⟨8, 2⟩)] [] = some as ∧
    ∀ p ∈ [((1 : Nat), (⟨7, 1⟩ : Attr Nat)), (2, ⟨8, 2⟩)], getUnique flat p.1 as = .one p.2 :=
  added_partial flat _ (by decide) (by decide) (by decide)

/-- A second attribute by a pointer to `IAttribute` is refused. -/
example : build flat [(1, ⟨7, 1⟩), (0, ⟨8, 2⟩)] [] = none :=
  (build_throws flat _).2 ⟨(0, ⟨8, 2⟩), by simp, rfl⟩

/-- The only one of a class, the error for two, and none. -/
example : Only flat 2 ⟨8, 2⟩ [⟨7, 1⟩, ⟨8, 2⟩, ⟨9, 1⟩] ∧ Two flat 1 [⟨7, 1⟩, ⟨8, 2⟩, ⟨9, 1⟩] ∧
    getOptional flat 1 [⟨8, 2⟩, ⟨7, 1⟩, ⟨9, 1⟩] = some ⟨7, 1⟩ ∧
    getAll flat 0 [⟨8, 2⟩, ⟨7, 1⟩] = [⟨8, 2⟩, ⟨7, 1⟩] :=
  ⟨⟨[⟨7, 1⟩], [⟨9, 1⟩], rfl, rfl, by decide⟩, ⟨[], ⟨7, 1⟩, [⟨8, 2⟩], ⟨9, 1⟩, [], rfl, rfl, rfl⟩,
    by decide, by decide⟩

end Verif.Attrs
