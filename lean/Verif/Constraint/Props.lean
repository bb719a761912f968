import Verif.Constraint.Model
import Mathlib.Tactic.Ring
import Mathlib.Tactic.Linarith
import Mathlib.Tactic.NormNum
import Mathlib.Tactic.SplitIfs
import Mathlib.Data.List.Nodup

/-!
# Constraints on boxes

* **C194** `fold_value`, `fold_throws`, `kiwi_meaning` – the linear expression of an expression has its value; products of variables, and
  only those, are refused; a constraint means its relation.
* **C195** `align_meaning`, `separate_meaning`, `multi_meaning`, `wrap_meaning`, `gaps_meaning`, `size_meaning`, `relative_meaning`, `linear_meaning` – the boxes satisfy the
  constraints that are built if and only if they lie as described.
* **C196** `multi_reuse`, `gaps_axes`, `align_builds`, `multi_builds` – what is refused.
-/

namespace Verif.Constraint

/-! ## Specification -/

/-- The value of an expression. -/
def value (σ : Var → ℚ) : Expr → ℚ
  | .constant v => v
  | .variable v => σ v
  | .kiwi l => l.constant + (l.terms.map fun t => t.2 * σ t.1).sum
  | .add a b => value σ a + value σ b
  | .sub a b => value σ a - value σ b
  | .mul a b => value σ a * value σ b
  | .neg a => - value σ a

/-- Variables are in an expression. -/
def HasVar : Expr → Prop
  | .constant _ => False
  | .variable _ => True
  | .kiwi l => l.terms ≠ []
  | .add a b => HasVar a ∨ HasVar b
  | .sub a b => HasVar a ∨ HasVar b
  | .mul a b => HasVar a ∨ HasVar b
  | .neg a => HasVar a

/-- A product of variables is in an expression. -/
def HasProduct : Expr → Prop
  | .mul a b => (HasVar a ∧ HasVar b) ∨ HasProduct a ∨ HasProduct b
  | .add a b => HasProduct a ∨ HasProduct b
  | .sub a b => HasProduct a ∨ HasProduct b
  | .neg a => HasProduct a
  | _ => False

/-- The value of a linear expression of the library. -/
def Lin.value (l : Lin) (σ : Var → ℚ) : ℚ := l.constant + (l.terms.map fun t => t.2 * σ t.1).sum

/-- A constraint of the library holds. -/
def Kiwi.Holds (σ : Var → ℚ) : Kiwi → Prop
  | .eq a b => a.value σ = b.value σ
  | .le a b => a.value σ ≤ b.value σ

/-- All constraints are accepted by the library, and hold. -/
def Sat (σ : Var → ℚ) (cs : List Constraint) : Prop := ∀ c ∈ cs, ∃ k, c.toKiwi = some k ∧ k.Holds σ

/-- The place of an anchor of a box. -/
def place (σ : Var → ℚ) (id : String) : Anchor → ℚ
  | .left => σ (id, .x)
  | .hcenter => σ (id, .x) + σ (id, .width) / 2
  | .right => σ (id, .x) + σ (id, .width)
  | .top => σ (id, .y)
  | .vcenter => σ (id, .y) + σ (id, .height) / 2
  | .bottom => σ (id, .y) + σ (id, .height)

/-! ## C194 -/

theorem add_value (a b : Lin) (σ : Var → ℚ) : (a.add b).value σ = a.value σ + b.value σ := by
  unfold Lin.add Lin.value
  simp only [List.map_append, List.sum_append]
  ring

theorem terms_scale (ts : List (Var × ℚ)) (v : ℚ) (σ : Var → ℚ) :
    ((ts.map fun t => (t.1, t.2 * v)).map fun t => t.2 * σ t.1).sum = (ts.map fun t => t.2 * σ t.1).sum * v := by
  induction ts with
  | nil => simp
  | cons t ts ih =>
    simp only [List.map_cons, List.sum_cons]
    rw [ih]
    ring

theorem scale_value (a : Lin) (v : ℚ) (σ : Var → ℚ) : (a.scale v).value σ = a.value σ * v := by
  unfold Lin.scale Lin.value
  dsimp only
  rw [terms_scale]
  ring

theorem neg_value (a : Lin) (σ : Var → ℚ) : a.neg.value σ = - a.value σ := by
  unfold Lin.neg
  rw [scale_value]
  ring

theorem sub_value (a b : Lin) (σ : Var → ℚ) : (a.sub b).value σ = a.value σ - b.value σ := by
  unfold Lin.sub
  rw [add_value, neg_value]
  ring

theorem empty_value (a : Lin) (h : a.terms.isEmpty) (σ : Var → ℚ) : a.value σ = a.constant := by
  unfold Lin.value
  rw [List.isEmpty_iff.mp h]
  simp

/-- **C194** The linear expression has the value of the expression, whatever the values of the variables. -/
theorem fold_value (e : Expr) (l : Lin) (h : fold e = some l) (σ : Var → ℚ) : l.value σ = value σ e := by
  induction e generalizing l with
  | constant v =>
    simp only [fold, Option.some.injEq] at h
    subst h
    simp [Lin.value, value]
  | «variable» v =>
    simp only [fold, Option.some.injEq] at h
    subst h
    simp [Lin.value, value]
  | kiwi l' =>
    simp only [fold, Option.some.injEq] at h
    subst h
    rfl
  | add a b iha ihb =>
    simp only [fold, Option.bind_eq_bind, Option.bind_eq_some_iff, Option.pure_def, Option.some.injEq] at h
    obtain ⟨x, hx, y, hy, rfl⟩ := h
    rw [add_value, iha x hx, ihb y hy, value]
  | sub a b iha ihb =>
    simp only [fold, Option.bind_eq_bind, Option.bind_eq_some_iff, Option.pure_def, Option.some.injEq] at h
    obtain ⟨x, hx, y, hy, rfl⟩ := h
    rw [sub_value, iha x hx, ihb y hy, value]
  | neg a iha =>
    simp only [fold, Option.bind_eq_bind, Option.bind_eq_some_iff, Option.pure_def, Option.some.injEq] at h
    obtain ⟨x, hx, rfl⟩ := h
    rw [neg_value, iha x hx, value]
  | mul a b iha ihb =>
    simp only [fold, Option.bind_eq_bind, Option.bind_eq_some_iff] at h
    obtain ⟨x, hx, y, hy, h⟩ := h
    rw [value, ← iha x hx, ← ihb y hy]
    split_ifs at h with h1 h2 h3
    · injection h with h
      subst h
      rw [Bool.and_eq_true] at h1
      rw [empty_value x h1.1, empty_value y h1.2]
      simp [Lin.value]
    · injection h with h
      subst h
      rw [scale_value, empty_value x h2]
      ring
    · injection h with h
      subst h
      rw [scale_value, empty_value y h3]

theorem fold_vars (e : Expr) (l : Lin) (h : fold e = some l) : l.terms ≠ [] ↔ HasVar e := by
  induction e generalizing l with
  | constant v =>
    simp only [fold, Option.some.injEq] at h
    subst h
    simp [HasVar]
  | «variable» v =>
    simp only [fold, Option.some.injEq] at h
    subst h
    simp [HasVar]
  | kiwi l' =>
    simp only [fold, Option.some.injEq] at h
    subst h
    rfl
  | add a b iha ihb =>
    simp only [fold, Option.bind_eq_bind, Option.bind_eq_some_iff, Option.pure_def, Option.some.injEq] at h
    obtain ⟨x, hx, y, hy, rfl⟩ := h
    rw [HasVar, ← iha x hx, ← ihb y hy]
    simp only [Lin.add, ne_eq, List.append_eq_nil_iff]
    exact not_and_or
  | sub a b iha ihb =>
    simp only [fold, Option.bind_eq_bind, Option.bind_eq_some_iff, Option.pure_def, Option.some.injEq] at h
    obtain ⟨x, hx, y, hy, rfl⟩ := h
    rw [HasVar, ← iha x hx, ← ihb y hy]
    simp only [Lin.sub, Lin.neg, Lin.scale, Lin.add, ne_eq, List.append_eq_nil_iff, List.map_eq_nil_iff]
    exact not_and_or
  | neg a iha =>
    simp only [fold, Option.bind_eq_bind, Option.bind_eq_some_iff, Option.pure_def, Option.some.injEq] at h
    obtain ⟨x, hx, rfl⟩ := h
    rw [HasVar, ← iha x hx]
    simp only [Lin.neg, Lin.scale, ne_eq, List.map_eq_nil_iff]
  | mul a b iha ihb =>
    simp only [fold, Option.bind_eq_bind, Option.bind_eq_some_iff] at h
    obtain ⟨x, hx, y, hy, h⟩ := h
    rw [HasVar, ← iha x hx, ← ihb y hy]
    split_ifs at h with h1 h2 h3
    · injection h with h
      subst h
      rw [Bool.and_eq_true, List.isEmpty_iff, List.isEmpty_iff] at h1
      simp [h1.1, h1.2]
    · injection h with h
      subst h
      rw [List.isEmpty_iff] at h2
      simp [Lin.scale, h2]
    · injection h with h
      subst h
      rw [List.isEmpty_iff] at h3
      simp [Lin.scale, h3]

/-- **C194** An expression is refused if and only if there is a product of variables in it. -/
theorem fold_throws (e : Expr) : fold e = none ↔ HasProduct e := by
  induction e with
  | constant v => simp [fold, HasProduct]
  | «variable» v => simp [fold, HasProduct]
  | kiwi l => simp [fold, HasProduct]
  | add a b iha ihb =>
    rw [HasProduct, ← iha, ← ihb, fold]
    cases fold a <;> cases fold b <;> simp
  | sub a b iha ihb =>
    rw [HasProduct, ← iha, ← ihb, fold]
    cases fold a <;> cases fold b <;> simp
  | neg a iha =>
    rw [HasProduct, ← iha, fold]
    cases fold a <;> simp
  | mul a b iha ihb =>
    rw [HasProduct, ← iha, ← ihb, fold]
    cases hx : fold a with
    | none => simp
    | some x =>
      cases hy : fold b with
      | none => simp
      | some y =>
        rw [← fold_vars a x hx, ← fold_vars b y hy]
        simp only [Option.bind_eq_bind, Option.bind_some, reduceCtorEq, or_false]
        obtain ⟨xt, xc⟩ := x
        obtain ⟨yt, yc⟩ := y
        cases xt <;> cases yt <;> simp

/-- The relation of a constraint. -/
def Relation (σ : Var → ℚ) (c : Constraint) : Prop :=
  match c.op with
  | .eq => value σ c.lhs = value σ c.rhs
  | .le => value σ c.lhs ≤ value σ c.rhs
  | .ge => value σ c.rhs ≤ value σ c.lhs

/-- **C194** A constraint without products of variables is accepted, and holds if and only if its relation does. -/
theorem kiwi_meaning (c : Constraint) (h1 : ¬ HasProduct c.lhs) (h2 : ¬ HasProduct c.rhs) (σ : Var → ℚ) :
    ∃ k, c.toKiwi = some k ∧ (k.Holds σ ↔ Relation σ c) := by
  rw [← fold_throws] at h1 h2
  obtain ⟨l, hl⟩ := Option.ne_none_iff_exists'.mp h1
  obtain ⟨r, hr⟩ := Option.ne_none_iff_exists'.mp h2
  obtain ⟨lhs, op, rhs⟩ := c
  dsimp only at hl hr
  unfold Constraint.toKiwi Relation
  dsimp only
  rw [← fold_value lhs l hl, ← fold_value rhs r hr, hl, hr]
  cases op
  · exact ⟨_, rfl, Iff.rfl⟩
  · exact ⟨_, rfl, Iff.rfl⟩
  · exact ⟨_, rfl, Iff.rfl⟩

/-! ## C195 -/

/-- No products of variables. -/
def Good (c : Constraint) : Prop := ¬ HasProduct c.lhs ∧ ¬ HasProduct c.rhs

theorem sat_iff (σ : Var → ℚ) (cs : List Constraint) (h : ∀ c ∈ cs, Good c) : Sat σ cs ↔ ∀ c ∈ cs, Relation σ c := by
  unfold Sat
  constructor
  · intro hs c hc
    obtain ⟨k, hk, hk'⟩ := hs c hc
    obtain ⟨k', e, e'⟩ := kiwi_meaning c (h c hc).1 (h c hc).2 σ
    rw [hk] at e
    injection e with e
    subst e
    exact e'.mp hk'
  · intro hs c hc
    obtain ⟨k', e, e'⟩ := kiwi_meaning c (h c hc).1 (h c hc).2 σ
    exact ⟨k', e, e'.mpr (hs c hc)⟩

theorem anchor_value (σ : Var → ℚ) (id : String) (a : Anchor) : value σ (anchorExpr id a) = place σ id a := by
  cases a <;> simp only [anchorExpr, value, place] <;> ring

theorem anchor_good (id : String) (a : Anchor) : ¬ HasProduct (anchorExpr id a) := by
  cases a <;> simp [anchorExpr, HasProduct, HasVar]

theorem anchorAt_some {rects : List String} {id : String} {a : Anchor} {e : Expr} (h : anchorAt rects id a = some e) : e = anchorExpr id a ∧ id ∈ rects := by
  unfold anchorAt at h
  split_ifs at h with hm
  injection h with h
  exact ⟨h.symm, hm⟩

theorem item_expr {rects : List String} {i : Item} {e : Expr} (h : i.expr rects = some e) : e = .sub (anchorExpr i.id i.anchor) (.constant i.offset) := by
  simp only [Item.expr, Option.bind_eq_bind, Option.bind_eq_some_iff, Option.pure_def, Option.some.injEq] at h
  obtain ⟨x, hx, rfl⟩ := h
  rw [(anchorAt_some hx).1]

theorem align_items (rects : List String) (base : Item) (items : List Item) (cs : List Constraint)
    (h : (items.mapM fun i => do return ⟨← i.expr rects, .eq, .sub (anchorExpr base.id base.anchor) (.constant base.offset)⟩) = some cs) (σ : Var → ℚ) :
    (∀ c ∈ cs, Good c) ∧ ((∀ c ∈ cs, Relation σ c) ↔
      ∀ i ∈ items, place σ i.id i.anchor - i.offset = place σ base.id base.anchor - base.offset) := by
  induction items generalizing cs with
  | nil =>
    simp only [List.mapM_nil, Option.pure_def, Option.some.injEq] at h
    subst h
    simp
  | cons i items ih =>
    simp only [List.mapM_cons, Option.bind_eq_bind, Option.bind_eq_some_iff, Option.pure_def, Option.some.injEq] at h
    obtain ⟨c, ⟨e, he, rfl⟩, cs', hcs, rfl⟩ := h
    obtain ⟨g1, g2⟩ := ih cs' hcs
    have he' := item_expr he
    subst he'
    constructor
    · intro c hc
      rcases List.mem_cons.mp hc with rfl | hc
      · refine ⟨?_, ?_⟩ <;> simp only [HasProduct, or_false] <;> exact anchor_good _ _
      · exact g1 c hc
    · rw [List.forall_mem_cons, List.forall_mem_cons, g2]
      simp only [Relation, value, anchor_value]

/-- **C195** Boxes satisfy an alignment if and only if the anchors of all items, less their offsets, are at the same place. -/
theorem align_meaning (rects : List String) (items : List Item) (cs : List Constraint) (h : align rects items = some cs) (σ : Var → ℚ) :
    Sat σ cs ↔ ∃ line, ∀ i ∈ items, place σ i.id i.anchor - i.offset = line := by
  match items, h with
  | base :: a :: rest, h =>
    rw [align] at h
    · simp only [Option.bind_eq_bind, Option.bind_eq_some_iff] at h
      obtain ⟨b, hb, h⟩ := h
      have hb' := item_expr hb
      subst hb'
      generalize a :: rest = items at h
      have main := align_items rects base items cs h σ
      rw [sat_iff σ cs main.1, main.2]
      constructor
      · intro hi
        refine ⟨place σ base.id base.anchor - base.offset, fun i him => ?_⟩
        rcases List.mem_cons.mp him with rfl | him
        · rfl
        · exact hi i him
      · rintro ⟨line, hl⟩ i hi
        rw [hl i (List.mem_cons_of_mem _ hi), hl base (by simp)]
    · rintro ⟨⟩

/-- **C195** Boxes satisfy a separation if and only if one anchor is that far from the other. -/
theorem separate_meaning (rects : List String) (a b : Side) (offset : ℚ) (cs : List Constraint) (h : separate rects a b offset = some cs) (σ : Var → ℚ) :
    Sat σ cs ↔ place σ a.id a.anchor = place σ b.id b.anchor + offset := by
  simp only [separate, Option.bind_eq_bind, Option.bind_eq_some_iff, Option.pure_def, Option.some.injEq] at h
  obtain ⟨x, hx, y, hy, rfl⟩ := h
  have hx' := (anchorAt_some hx).1
  have hy' := (anchorAt_some hy).1
  subst hx' hy'
  rw [sat_iff]
  · simp [Relation, value, anchor_value]
  · intro c hc
    simp only [List.mem_cons, List.not_mem_nil, or_false] at hc
    subst hc
    refine ⟨anchor_good _ _, ?_⟩
    simp only [HasProduct, or_false]
    exact anchor_good _ _

theorem stack_meaning (rects : List String) (g : List Side) (cs : List Constraint) (h : stack rects g = some cs) (σ : Var → ℚ) :
    (∀ c ∈ cs, Good c) ∧ ((∀ c ∈ cs, Relation σ c) ↔ ∃ p, ∀ s ∈ g, place σ s.id s.anchor = p) := by
  induction g generalizing cs with
  | nil =>
    simp only [stack, Option.some.injEq] at h
    subst h
    simp
  | cons a g ih =>
    cases g with
    | nil =>
      simp only [stack, Option.some.injEq] at h
      subst h
      simp
    | cons b r =>
      simp only [stack, Option.bind_eq_bind, Option.bind_eq_some_iff, Option.pure_def, Option.some.injEq] at h
      obtain ⟨x, hx, y, hy, cs', hcs, rfl⟩ := h
      have hx' := (anchorAt_some hx).1
      have hy' := (anchorAt_some hy).1
      subst hx' hy'
      obtain ⟨g1, g2⟩ := ih cs' hcs
      constructor
      · intro c hc
        rcases List.mem_cons.mp hc with rfl | hc
        · exact ⟨anchor_good _ _, anchor_good _ _⟩
        · exact g1 c hc
      · rw [List.forall_mem_cons, g2]
        simp only [Relation, anchor_value]
        constructor
        · rintro ⟨h1, p, hp⟩
          refine ⟨p, fun s hs => ?_⟩
          rcases List.mem_cons.mp hs with rfl | hs
          · rw [h1, hp b (by simp)]
          · exact hp s hs
        · rintro ⟨p, hp⟩
          exact ⟨by rw [hp a (by simp), hp b (by simp)], p, fun s hs => hp s (List.mem_cons_of_mem _ hs)⟩

/-- The first of each group is a step further than the first of the group before. -/
def Steps (σ : Var → ℚ) (step : ℚ) : List (List Side) → Prop
  | (a :: _) :: (b :: s) :: r => place σ a.id a.anchor + step = place σ b.id b.anchor ∧ Steps σ step ((b :: s) :: r)
  | _ => True

theorem lanes_meaning (rects : List String) (step : ℚ) (gs : List (List Side)) (cs : List Constraint) (h : lanes rects step gs = some cs) (σ : Var → ℚ) :
    (∀ c ∈ cs, Good c) ∧ ((∀ c ∈ cs, Relation σ c) ↔ Steps σ step gs) := by
  induction gs generalizing cs with
  | nil =>
    simp only [lanes, Option.some.injEq] at h
    subst h
    simp [Steps]
  | cons g gs ih =>
    cases gs with
    | nil =>
      cases g with
      | nil =>
        simp only [lanes, Option.some.injEq] at h
        subst h
        simp [Steps]
      | cons a s =>
        simp only [lanes, Option.some.injEq] at h
        subst h
        simp [Steps]
    | cons g' gs =>
      cases g with
      | nil => simp [lanes] at h
      | cons a s =>
        cases g' with
        | nil => simp [lanes] at h
        | cons b t =>
          simp only [lanes, Option.bind_eq_bind, Option.bind_eq_some_iff, Option.pure_def, Option.some.injEq] at h
          obtain ⟨x, hx, y, hy, cs', hcs, rfl⟩ := h
          have hx' := (anchorAt_some hx).1
          have hy' := (anchorAt_some hy).1
          subst hx' hy'
          obtain ⟨g1, g2⟩ := ih cs' hcs
          constructor
          · intro c hc
            rcases List.mem_cons.mp hc with rfl | hc
            · refine ⟨?_, anchor_good _ _⟩
              simp only [HasProduct, or_false]
              exact anchor_good _ _
            · exact g1 c hc
          · rw [List.forall_mem_cons, g2, Steps]
            simp only [Relation, value, anchor_value]

theorem stacks_meaning (rects : List String) (gs : List (List Side)) (css : List (List Constraint)) (h : gs.mapM (stack rects) = some css) (σ : Var → ℚ) :
    (∀ c ∈ css.flatten, Good c) ∧ ((∀ c ∈ css.flatten, Relation σ c) ↔ ∀ g ∈ gs, ∃ p, ∀ s ∈ g, place σ s.id s.anchor = p) := by
  induction gs generalizing css with
  | nil =>
    simp only [List.mapM_nil, Option.pure_def, Option.some.injEq] at h
    subst h
    simp
  | cons g gs ih =>
    simp only [List.mapM_cons, Option.bind_eq_bind, Option.bind_eq_some_iff, Option.pure_def, Option.some.injEq] at h
    obtain ⟨c, hc, cs, hcs, rfl⟩ := h
    obtain ⟨g1, g2⟩ := ih cs hcs
    obtain ⟨k1, k2⟩ := stack_meaning rects g c hc σ
    constructor
    · intro x hx
      rw [List.flatten_cons, List.mem_append] at hx
      rcases hx with hx | hx
      · exact k1 x hx
      · exact g1 x hx
    · rw [List.flatten_cons, List.forall_mem_append, List.forall_mem_cons, k2, g2]

theorem steps_places (σ : Var → ℚ) (step : ℚ) (gs : List (List Side)) (hne : ∀ g ∈ gs, g ≠ []) (hs : ∀ g ∈ gs, ∃ p, ∀ s ∈ g, place σ s.id s.anchor = p) :
    Steps σ step gs ↔ ∃ base : ℚ, ∀ (i : Nat) (g : List Side), gs[i]? = some g → ∀ s ∈ g, place σ s.id s.anchor = base + i * step := by
  induction gs with
  | nil => simp [Steps]
  | cons g gs ih =>
    have ih' := ih (fun x hx => hne x (List.mem_cons_of_mem _ hx)) (fun x hx => hs x (List.mem_cons_of_mem _ hx))
    obtain ⟨p, hp⟩ := hs g (by simp)
    cases g with
    | nil => exact absurd rfl (hne [] (by simp))
    | cons a s =>
      cases gs with
      | nil =>
        simp only [Steps, true_iff]
        refine ⟨p, ?_⟩
        intro i g hg x hx
        cases i with
        | zero =>
          simp only [List.getElem?_cons_zero, Option.some.injEq] at hg
          subst hg
          rw [hp x hx]
          simp
        | succ i => simp at hg
      | cons g' gs =>
        cases g' with
        | nil => exact absurd rfl (hne [] (by simp))
        | cons b t =>
          rw [Steps, ih']
          constructor
          · rintro ⟨h1, base, hb⟩
            have hb0 := hb 0 (b :: t) rfl b (by simp)
            refine ⟨p, ?_⟩
            have hpa := hp a (by simp)
            have hbase : base = p + step := by
              simp only [Nat.cast_zero, zero_mul, add_zero] at hb0
              rw [← hb0, ← h1, hpa]
            intro i g hg x hx
            cases i with
            | zero =>
              simp only [List.getElem?_cons_zero, Option.some.injEq] at hg
              subst hg
              rw [hp x hx]
              simp
            | succ i =>
              rw [List.getElem?_cons_succ] at hg
              rw [hb i g hg x hx, hbase]
              push_cast
              ring
          · rintro ⟨base, hb⟩
            have h0 := hb 0 _ rfl a (by simp)
            have h1 := hb 1 (b :: t) rfl b (by simp)
            refine ⟨?_, base + step, ?_⟩
            · rw [h0, h1]
              push_cast
              ring
            · intro i g hg x hx
              rw [hb (i + 1) g (by simpa using hg) x hx]
              push_cast
              ring

/-- **C195** Boxes satisfy a separation of groups if and only if all anchors of a group are at the same place, and each group is a step
further than the one before. -/
theorem multi_meaning (rects : List String) (step : ℚ) (gs : List (List Side)) (hne : ∀ g ∈ gs, g ≠ []) (cs : List Constraint) (h : multi rects step gs = some cs)
    (σ : Var → ℚ) : Sat σ cs ↔ ∃ base : ℚ, ∀ (i : Nat) (g : List Side), gs[i]? = some g → ∀ s ∈ g, place σ s.id s.anchor = base + i * step := by
  simp only [multi, Option.bind_eq_bind, Option.bind_eq_some_iff, Option.pure_def, Option.some.injEq] at h
  obtain ⟨a, ha, b, hb, rfl⟩ := h
  obtain ⟨a1, a2⟩ := lanes_meaning rects step gs a ha σ
  obtain ⟨b1, b2⟩ := stacks_meaning rects gs b hb σ
  rw [sat_iff σ _ (by rw [List.forall_mem_append]; exact ⟨a1, b1⟩), List.forall_mem_append, a2, b2]
  constructor
  · rintro ⟨h1, h2⟩
    exact (steps_places σ step gs hne h2).mp h1
  · intro hb
    have h2 : ∀ g ∈ gs, ∃ p, ∀ s ∈ g, place σ s.id s.anchor = p := by
      intro g hg
      obtain ⟨base, hb⟩ := hb
      obtain ⟨i, hi⟩ := List.getElem?_of_mem hg
      exact ⟨_, fun s hs => hb i g hi s hs⟩
    exact ⟨(steps_places σ step gs hne h2).mpr hb, h2⟩

/-- The first is the smallest of some numbers; the last is the largest. -/
def FirstLeast (xs : List ℚ) : Prop := ∀ f, xs.head? = some f → ∀ x ∈ xs, f ≤ x
def LastGreatest (xs : List ℚ) : Prop := ∀ l, xs.getLast? = some l → ∀ x ∈ xs, x ≤ l

/-- **C195** Boxes satisfy a wrap if and only if the first box is the leftmost and the topmost, the last is the rightmost and the
lowest, and the sides of the parent are the padding away from them. -/
theorem wrap_meaning (rects : List String) (parent : String) (pad : Padding) (nested : List String) (cs : List Constraint) (h : wrap rects parent pad nested = some cs)
    (first last : String) (hf : nested.head? = some first) (hl : nested.getLast? = some last) (σ : Var → ℚ) :
    Sat σ cs ↔ FirstLeast (nested.map fun n => place σ n .left) ∧ FirstLeast (nested.map fun n => place σ n .top) ∧
      LastGreatest (nested.map fun n => place σ n .right) ∧ LastGreatest (nested.map fun n => place σ n .bottom) ∧
      place σ parent .left = place σ first .left - pad.left ∧ place σ parent .top = place σ first .top - pad.top ∧
      place σ parent .right = place σ last .right + pad.right ∧ place σ parent .bottom = place σ last .bottom + pad.bottom := by
  cases nested with
  | nil => simp at hf
  | cons f r =>
    simp only [List.head?_cons, Option.some.injEq] at hf
    subst hf
    rw [wrap] at h
    split_ifs at h with hm
    injection h with h
    rw [hl] at h
    simp only [Option.getD_some] at h
    have hfl : ∀ g : String → ℚ, FirstLeast ((f :: r).map g) ↔ ∀ n ∈ f :: r, g f ≤ g n := by
      intro g
      unfold FirstLeast
      simp only [List.map_cons, List.head?_cons, Option.some.injEq, forall_eq']
      rw [← List.map_cons]
      exact List.forall_mem_map
    have hlg : ∀ g : String → ℚ, LastGreatest ((f :: r).map g) ↔ ∀ n ∈ f :: r, g n ≤ g last := by
      intro g
      unfold LastGreatest
      rw [List.getLast?_map, hl]
      simp only [Option.map_some, Option.some.injEq, forall_eq']
      exact List.forall_mem_map
    subst h
    rw [sat_iff]
    · simp only [List.forall_mem_append, List.forall_mem_map, Relation, value, anchor_value, hfl, hlg]
      simp only [List.mem_cons, List.not_mem_nil, or_false, forall_eq_or_imp, forall_eq, value, anchor_value]
      constructor
      · rintro ⟨⟨⟨⟨⟨a0, a⟩, b0, b⟩, c0, c⟩, d0, d⟩, e1, e2, e3, e4⟩
        refine ⟨⟨le_refl _, fun n hn => ?_⟩, ⟨le_refl _, fun n hn => ?_⟩, ⟨?_, fun n hn => ?_⟩, ⟨?_, fun n hn => ?_⟩, e1, e2, e3, e4⟩
        · have := a n hn; linarith
        · have := b n hn; linarith
        · linarith
        · have := c n hn; linarith
        · linarith
        · have := d n hn; linarith
      · rintro ⟨⟨_, a⟩, ⟨_, b⟩, ⟨c0, c⟩, ⟨d0, d⟩, e1, e2, e3, e4⟩
        refine ⟨⟨⟨⟨⟨?_, fun n hn => ?_⟩, ?_, fun n hn => ?_⟩, ?_, fun n hn => ?_⟩, ?_, fun n hn => ?_⟩, e1, e2, e3, e4⟩
        · linarith
        · have := a n hn; linarith
        · linarith
        · have := b n hn; linarith
        · linarith
        · have := c n hn; linarith
        · linarith
        · have := d n hn; linarith
    · intro c hc
      simp only [List.mem_append, List.mem_map, List.mem_cons, List.not_mem_nil, or_false] at hc
      rcases hc with (((⟨n, _, rfl⟩ | ⟨n, _, rfl⟩) | ⟨n, _, rfl⟩) | ⟨n, _, rfl⟩) | rfl | rfl | rfl | rfl <;>
        (constructor <;> simp only [HasProduct, or_false] <;> exact anchor_good _ _)

/-- The gaps between boxes that follow each other. -/
def gapList (σ : Var → ℚ) : List Sides → List ℚ
  | a :: b :: r => (place σ b.id b.first - place σ a.id a.last) :: gapList σ (b :: r)
  | _ => []

/-- **C195** Boxes satisfy even gaps if and only if all gaps between boxes that follow each other are the same. -/
theorem gaps_meaning (rects : List String) (specs : List Sides) (cs : List Constraint) (h : gaps rects specs = some cs) (σ : Var → ℚ) :
    Sat σ cs ↔ ∃ gap, ∀ x ∈ gapList σ specs, x = gap := by
  have main : (∀ c ∈ cs, Good c) ∧ ((∀ c ∈ cs, Relation σ c) ↔ ∃ gap, ∀ x ∈ gapList σ specs, x = gap) := by
    induction specs generalizing cs with
    | nil =>
      simp only [gaps, Option.some.injEq] at h
      subst h
      simp [gapList]
    | cons p specs ih =>
      match specs, ih, h with
      | [], _, h =>
        simp only [gaps, Option.some.injEq] at h
        subst h
        simp [gapList]
      | [c], _, h =>
        simp only [gaps, Option.some.injEq] at h
        subst h
        simp [gapList]
      | c :: n :: r, ih, h =>
        simp only [gaps, Option.bind_eq_bind, Option.bind_eq_some_iff, Option.pure_def, Option.some.injEq] at h
        obtain ⟨x, hx, y, hy, z, hz, w, hw, cs', hcs, rfl⟩ := h
        have hx' := (anchorAt_some hx).1
        have hy' := (anchorAt_some hy).1
        have hz' := (anchorAt_some hz).1
        have hw' := (anchorAt_some hw).1
        subst hx' hy' hz' hw'
        obtain ⟨g1, g2⟩ := ih cs' hcs
        constructor
        · intro c hc
          rcases List.mem_cons.mp hc with rfl | hc
          · constructor <;> simp only [HasProduct] <;> exact not_or.mpr ⟨anchor_good _ _, anchor_good _ _⟩
          · exact g1 c hc
        · rw [List.forall_mem_cons, g2]
          simp only [Relation, value, anchor_value, gapList, List.forall_mem_cons]
          constructor
          · rintro ⟨h1, gap, h2, h3⟩
            exact ⟨gap, by rw [h1, h2], h2, h3⟩
          · rintro ⟨gap, h1, h2, h3⟩
            exact ⟨by rw [h1, h2], gap, h2, h3⟩
  rw [sat_iff σ cs main.1, main.2]

/-- **C195** Boxes satisfy equal sizes if and only if the chosen sizes are equal. -/
theorem size_meaning (rects : List String) (a b : String) (w h : Bool) (cs : List Constraint) (hb : equalSize rects a b w h = some cs) (σ : Var → ℚ) :
    Sat σ cs ↔ (w = true → σ (a, .width) = σ (b, .width)) ∧ (h = true → σ (a, .height) = σ (b, .height)) := by
  unfold equalSize at hb
  split_ifs at hb with hm h1 h2 h2
  all_goals
    injection hb with hb
    subst hb
    rw [sat_iff]
    · simp_all [Relation, value]
    · simp [Good, HasProduct]

/-- **C195** Boxes satisfy a relative placement if and only if the chosen sizes are in proportion, and the anchors are as far from each
other as described: by an absolute distance, and by a part of the size of the fixed box. -/
theorem relative_meaning (rects : List String) (fixed rel : String) (xd yd : Dim) (af ar : Anchors) (cs : List Constraint)
    (h : relative rects fixed rel xd yd af ar = some cs) (σ : Var → ℚ) :
    Sat σ cs ↔ (∀ k, xd.size = some k → σ (rel, .width) = σ (fixed, .width) * k) ∧ (∀ k, yd.size = some k → σ (rel, .height) = σ (fixed, .height) * k) ∧
      place σ rel ar.x = place σ fixed af.x + xd.relative.getD 0 * σ (fixed, .width) + xd.absolute ∧
      place σ rel ar.y = place σ fixed af.y + yd.relative.getD 0 * σ (fixed, .height) + yd.absolute := by
  unfold relative at h
  split_ifs at h with hm
  injection h with h
  subst h
  obtain ⟨xs, xr, xa⟩ := xd
  obtain ⟨ys, yr, ya⟩ := yd
  have good : ∀ id a, HasProduct (anchorExpr id a) = False := fun id a => eq_false (anchor_good id a)
  rw [sat_iff]
  · cases xs <;> cases ys <;> cases xr <;> cases yr <;>
      simp [Dim.scaled, Dim.placed, Relation, value, anchor_value, mul_comm]
  · cases xs <;> cases ys <;> cases xr <;> cases yr <;>
      simp [Dim.scaled, Dim.placed, Good, HasProduct, HasVar, good]

/-- **C195** Boxes satisfy a linear constraint if and only if the relation of the two expressions holds. -/
theorem linear_meaning (left right : Expr) (h1 : ¬ HasProduct left) (h2 : ¬ HasProduct right) (relation : Op) (σ : Var → ℚ) :
    Sat σ (linear left right relation) ↔ match relation with
      | .eq => value σ left = value σ right
      | .le => value σ left ≤ value σ right
      | .ge => value σ left ≥ value σ right := by
  rw [sat_iff]
  · cases relation <;> simp [linear, Relation]
  · cases relation <;> simp [linear, Good, h1, h2]

/-! ## C196 -/

theorem multi_seen (ids seen : List String) : multiOk seen ids = true ↔ ids.Nodup ∧ ∀ i ∈ ids, i ∉ seen := by
  induction ids generalizing seen with
  | nil => simp [multiOk]
  | cons i ids ih =>
    rw [multiOk]
    split_ifs with h
    · simp [h]
    · rw [ih, List.nodup_cons]
      simp only [List.mem_cons, not_or, forall_eq_or_imp]
      constructor
      · rintro ⟨h1, h2⟩
        exact ⟨⟨fun hm => (h2 i hm).1 rfl, h1⟩, h, fun j hj => (h2 j hj).2⟩
      · rintro ⟨⟨h1, h2⟩, _, h3⟩
        exact ⟨h2, fun j hj => ⟨fun e => h1 (e ▸ hj), h3 j hj⟩⟩

/-- **C196** A separation of groups is refused if and only if a box is in it twice. -/
theorem multi_reuse (gs : List (List Side)) : multiOk [] (gs.flatten.map Side.id) = true ↔ (gs.flatten.map Side.id).Nodup := by
  rw [multi_seen]
  simp

theorem anchorAt_isSome (rects : List String) (id : String) (a : Anchor) : (anchorAt rects id a).isSome ↔ id ∈ rects := by
  unfold anchorAt
  split_ifs with h <;> simp [h]

theorem bind_isSome {α β : Type} (x : Option α) (f : α → Option β) (q : Prop) (h : ∀ a, x = some a → ((f a).isSome ↔ q)) :
    (x.bind f).isSome ↔ x.isSome ∧ q := by
  cases x with
  | none => simp
  | some a => simpa using h a rfl

theorem mapM_isSome {α β : Type} (f : α → Option β) (l : List α) : (l.mapM f).isSome ↔ ∀ a ∈ l, (f a).isSome := by
  induction l with
  | nil => simp
  | cons a l ih =>
    rw [List.mapM_cons, List.forall_mem_cons, ← ih, Option.bind_eq_bind]
    refine bind_isSome _ _ _ fun b _ => ?_
    rw [Option.bind_eq_bind]
    cases l.mapM f <;> simp

theorem item_isSome (rects : List String) (i : Item) : (i.expr rects).isSome ↔ i.id ∈ rects := by
  unfold Item.expr anchorAt
  split_ifs with h <;> simp [h]

/-- **C196** An alignment is built if and only if there are two items, and all of their boxes are known. -/
theorem align_builds (rects : List String) (items : List Item) : (align rects items).isSome ↔ 2 ≤ items.length ∧ ∀ i ∈ items, i.id ∈ rects := by
  match items with
  | [] => simp [align]
  | [_] => simp [align]
  | base :: a :: rest =>
    rw [align]
    · rw [Option.bind_eq_bind, bind_isSome _ _ (∀ i ∈ a :: rest, i.id ∈ rects), item_isSome, List.forall_mem_cons]
      · simp
      · intro b _
        rw [mapM_isSome]
        refine forall₂_congr fun i _ => ?_
        rw [← item_isSome, Option.bind_eq_bind]
        cases i.expr rects <;> simp
    · rintro ⟨⟩

theorem stack_isSome (rects : List String) (g : List Side) : (stack rects g).isSome ↔ g.length < 2 ∨ ∀ s ∈ g, s.id ∈ rects := by
  induction g with
  | nil => simp [stack]
  | cons a g ih =>
    cases g with
    | nil => simp [stack]
    | cons b r =>
      rw [stack, Option.bind_eq_bind, bind_isSome _ _ (∀ s ∈ b :: r, s.id ∈ rects), anchorAt_isSome, List.forall_mem_cons]
      · simp
      · intro _ _
        rw [Option.bind_eq_bind, bind_isSome _ _ (stack rects (b :: r)).isSome, anchorAt_isSome, ih]
        · simp only [List.forall_mem_cons, List.length_cons]
          constructor
          · rintro ⟨h1, h2 | h2⟩
            · have : r = [] := List.length_eq_zero_iff.mp (by omega)
              subst this
              exact ⟨h1, by simp⟩
            · exact h2
          · intro h
            exact ⟨h.1, Or.inr h⟩
        · intro _ _
          cases stack rects (b :: r) <;> simp

theorem lanes_isSome (rects : List String) (step : ℚ) (g : List Side) (gs : List (List Side)) (hne : gs ≠ []) :
    (lanes rects step (g :: gs)).isSome ↔ ∀ x ∈ g :: gs, ∃ a s, x = a :: s ∧ a.id ∈ rects := by
  induction gs generalizing g with
  | nil => exact absurd rfl hne
  | cons g' gs ih =>
    cases g with
    | nil => simp [lanes]
    | cons a s =>
      cases g' with
      | nil => simp [lanes]
      | cons b t =>
        rw [lanes, Option.bind_eq_bind, bind_isSome _ _ (∀ x ∈ (b :: t) :: gs, ∃ a s, x = a :: s ∧ a.id ∈ rects), anchorAt_isSome, List.forall_mem_cons]
        · simp
        · intro _ _
          rw [Option.bind_eq_bind, bind_isSome _ _ (lanes rects step ((b :: t) :: gs)).isSome, anchorAt_isSome]
          · cases gs with
            | nil => simp [lanes]
            | cons g'' gs =>
              rw [ih (b :: t) (by simp)]
              simp
          · intro _ _
            cases lanes rects step ((b :: t) :: gs) <;> simp

/-- **C196** A separation of two or more groups is built if and only if no group is empty, and all boxes are known. -/
theorem multi_builds (rects : List String) (step : ℚ) (gs : List (List Side)) (h2 : 2 ≤ gs.length) :
    (multi rects step gs).isSome ↔ ∀ g ∈ gs, g ≠ [] ∧ ∀ s ∈ g, s.id ∈ rects := by
  rw [multi, Option.bind_eq_bind, bind_isSome _ _ (gs.mapM (stack rects)).isSome]
  · rw [mapM_isSome]
    match gs, h2 with
    | g :: g' :: gs, _ =>
      rw [lanes_isSome rects step g (g' :: gs) (by simp)]
      constructor
      · rintro ⟨h1, h2⟩ x hx
        obtain ⟨a, s, rfl, ha⟩ := h1 x hx
        refine ⟨by simp, ?_⟩
        rcases (stack_isSome rects _).mp (h2 _ hx) with h | h
        · have : s = [] := List.length_eq_zero_iff.mp (by simp only [List.length_cons] at h; omega)
          subst this
          simpa using ha
        · exact h
      · intro h
        refine ⟨fun x hx => ?_, fun x hx => (stack_isSome rects x).mpr (Or.inr (h x hx).2)⟩
        obtain ⟨h1, h2⟩ := h x hx
        cases x with
        | nil => exact absurd rfl h1
        | cons a s => exact ⟨a, s, rfl, h2 a (by simp)⟩
  · intro _ _
    rw [Option.bind_eq_bind]
    cases gs.mapM (stack rects) <;> simp

/-- An anchor of the horizontal sides. -/
def Horizontal (a : Anchor) : Prop := a = .left ∨ a = .hcenter ∨ a = .right

/-- **C196** Even gaps are refused if and only if there are both horizontal and vertical anchors. -/
theorem gaps_axes (specs : List Sides) : gapsOk specs = true ↔
    (∀ s ∈ specs, Horizontal s.first ∧ Horizontal s.last) ∨ (∀ s ∈ specs, ¬ Horizontal s.first ∧ ¬ Horizontal s.last) := by
  have hax : ∀ a, anchorAxis a = .x ↔ Horizontal a := by
    intro a
    unfold anchorAxis Horizontal
    split_ifs with h <;> simp [h]
  have hay : ∀ a, anchorAxis a = .y ↔ ¬ Horizontal a := by
    intro a
    rw [← hax]
    cases anchorAxis a <;> simp
  unfold gapsOk
  cases specs with
  | nil => simp
  | cons f r =>
    simp only [Bool.and_eq_true, List.all_eq_true, decide_eq_true_eq]
    constructor
    · rintro ⟨h1, h2⟩
      cases hf : anchorAxis f.first with
      | x =>
        left
        intro s hs
        have e := h2 s hs
        rw [hf] at e
        exact ⟨(hax _).mp e, (hax _).mp (by rw [← h1 s hs, e])⟩
      | y =>
        right
        intro s hs
        have e := h2 s hs
        rw [hf] at e
        exact ⟨(hay _).mp e, (hay _).mp (by rw [← h1 s hs, e])⟩
    · rintro (h | h)
      · exact ⟨fun s hs => by rw [(hax _).mpr (h s hs).1, (hax _).mpr (h s hs).2],
          fun s hs => by rw [(hax _).mpr (h s hs).1, (hax _).mpr (h f (by simp)).1]⟩
      · exact ⟨fun s hs => by rw [(hay _).mpr (h s hs).1, (hay _).mpr (h s hs).2],
          fun s hs => by rw [(hay _).mpr (h s hs).1, (hay _).mpr (h f (by simp)).1]⟩

example : ∃ cs, multi ["a", "b", "c"] 10 [[⟨"a", .left⟩, ⟨"b", .left⟩], [⟨"c", .left⟩]] = some cs ∧ cs.length = 2 := ⟨_, rfl, rfl⟩
example : ∃ cs, wrap ["p", "a", "b"] "p" ⟨1, 1, 1, 1⟩ ["a", "b"] = some cs ∧ cs.length = 12 := ⟨_, rfl, rfl⟩
example : ∃ cs, align ["a", "b"] [⟨"a", .left, 0⟩, ⟨"b", .right, 3⟩] = some cs ∧ cs.length = 1 := ⟨_, rfl, rfl⟩

end Verif.Constraint
