import Verif.Api.AttrProps

/-!
# C85, C86: properties of subtrees

`setPropertyStrValue`, `setProperty` and `removeProperty` change the properties of a subtree; `getProperty` asks for one; `getFinalProperty`
asks for the value in force under a chain of subtrees, from the outermost to the innermost.
-/

namespace Verif.Api
open Verif.Strs (Bytes normalize normalize_idem)

/-- **C85.** In full: a property that was set is got back; a property that was removed is not found; and neither changes any property of
another name. -/
def PropertyEditStatement : Prop :=
  ∀ (t : Tree) (kind value : Bytes), normalize kind ≠ ascii "id" →
    (t.setPropertyStrValue value kind none).getProperty kind none = some (.raw kind value) ∧
    (t.removeProperty kind none).getProperty kind none = none ∧
    ∀ kind' sub', ¬ SameName kind kind' →
      (t.setPropertyStrValue value kind none).getProperties kind' sub' = t.getProperties kind' sub' ∧
      (t.removeProperty kind none).getProperties kind' sub' = t.getProperties kind' sub'

/-- The code, setting: the old value wins when it was spelled in another way. -/
theorem property_set_old_wins :
    let t : Tree := { properties := [.raw (ascii "Owner") (ascii "ann")] }
    (t.setPropertyStrValue (ascii "bob") (ascii "owner") none).getProperty (ascii "owner") none = some (.raw (ascii "Owner") (ascii "ann")) := by
  decide +kernel

/-- The code, removing: a property with arguments stays. -/
theorem property_remove_stays :
    let t : Tree := { properties := [.args (ascii "header-args") none {}] }
    (t.removeProperty (ascii "header-args") none).getProperty (ascii "header-args") none = some (.args (ascii "header-args") none {}) := by
  decide +kernel

/-- The code, the others: setting one property with arguments takes away all properties with arguments. -/
theorem property_set_loses_others :
    let t : Tree := { properties := [.args (ascii "header-args") none {}] }
    (t.setProperty (.args (ascii "plot") none {})).getProperty (ascii "header-args") none = none := by
  decide +kernel

theorem propertyEdit_false : ¬ PropertyEditStatement := by
  intro h
  have := (h { properties := [.raw (ascii "Owner") (ascii "ann")] } (ascii "owner") (ascii "bob") (by decide +kernel)).1
  rw [property_set_old_wins] at this
  revert this
  decide +kernel

/-- A property that stands under its own name: a text property named `kind`, or the built-in one. -/
def Exact (kind : Bytes) (p : Property) : Prop := (∃ v, p = .raw kind v) ∨ ∃ b v, p = .builtin b v ∧ b.name = kind

/-- A name that no kind of property with parts goes by. -/
def Ordinary (kind : Bytes) : Prop := kind ≠ ascii "CustomArgs" ∧ kind ≠ ascii "CustomSubtreeJson" ∧ kind ≠ ascii "CustomSubtreeFlags"

theorem Exact.removed {kind : Bytes} {p : Property} (h : Exact kind p) : p.getName = kind ∧ p.getSubKind = none := by
  rcases h with ⟨v, rfl⟩ | ⟨b, v, rfl, rfl⟩ <;> exact ⟨rfl, rfl⟩

theorem removed_exact {kind : Bytes} (hk : Ordinary kind) {p : Property} (h1 : p.getName = kind) (h2 : p.getSubKind = none) : Exact kind p := by
  cases p with
  | builtin b v => exact .inr ⟨b, v, rfl, h1⟩
  | exportOptions b v => cases h2
  | args n s g => exact absurd h1.symm hk.1
  | raw n v => exact .inl ⟨v, by rw [← h1]; rfl⟩
  | json n v => exact absurd h1.symm hk.2.1
  | flags n g => exact absurd h1.symm hk.2.2

theorem Exact.other {kind : Bytes} {p : Property} (h : Exact kind p) (kind' : Bytes) (sub' : Option Bytes) :
    p.isMatching kind' sub' = decide (SameName kind kind') := by
  rcases h with ⟨v, rfl⟩ | ⟨b, v, rfl, rfl⟩
  · rfl
  · unfold Property.isMatching Property.matchesKind Property.kindName SameName
    by_cases h : normalize b.name = normalize kind' <;> simp [h]

theorem remove_others (t : Tree) (kind : Bytes) (hk : Ordinary kind) (kind' : Bytes) (sub' : Option Bytes) (hne : ¬ SameName kind kind') :
    (t.removeProperty kind none).getProperties kind' sub' = t.getProperties kind' sub' := by
  unfold Tree.getProperties Tree.removeProperty
  rw [List.filter_filter]
  apply List.filter_congr
  intro p _
  by_cases hp : p.getName = kind ∧ p.getSubKind = none
  · rw [(removed_exact hk hp.1 hp.2).other]; simp [hne]
  · have : (decide (p.getName = kind) && decide (p.getSubKind = none)) = false := by
      rw [Bool.eq_false_iff]; intro h; apply hp; simpa using h
    rw [this]; simp

/-- **C85**, for names no kind of property goes by: other names keep their properties; and when the subtree has the property, if at all, as
text under exactly that name (or as the built-in property), then setting and removing take effect. -/
theorem property_edit_partial (t : Tree) (kind value : Bytes) (hid : normalize kind ≠ ascii "id") (hk : Ordinary kind) :
    ((∀ p ∈ t.properties, p.isMatching kind none = true → Exact kind p) →
      (t.setPropertyStrValue value kind none).getProperty kind none = some (.raw kind value) ∧
      (t.removeProperty kind none).getProperty kind none = none) ∧
    ∀ kind' sub', ¬ SameName kind kind' →
      (t.setPropertyStrValue value kind none).getProperties kind' sub' = t.getProperties kind' sub' ∧
      (t.removeProperty kind none).getProperties kind' sub' = t.getProperties kind' sub' := by
  constructor
  · intro he
    have hr : (t.removeProperty kind none).getProperties kind none = [] := by
      unfold Tree.getProperties Tree.removeProperty
      rw [List.filter_filter, List.filter_eq_nil_iff]
      intro p hp hc
      rw [Bool.and_eq_true] at hc
      have := (he p hp hc.1).removed
      simp [this.1, this.2] at hc
    constructor
    · unfold Tree.setPropertyStrValue
      rw [if_neg hid]
      unfold Tree.getProperty Tree.getProperties at *
      simp only [List.filter_append] at hr ⊢
      rw [hr]
      simp [Property.isMatching]
    · unfold Tree.getProperty; rw [hr]; rfl
  · intro kind' sub' hne
    refine ⟨?_, remove_others t kind hk kind' sub' hne⟩
    unfold Tree.setPropertyStrValue
    rw [if_neg hid]
    have := remove_others t kind hk kind' sub' hne
    unfold Tree.getProperties at *
    simp only [List.filter_append]
    rw [this]
    have : ¬ normalize kind = normalize kind' := hne
    simp [Property.isMatching, this]

/-- A subtree with properties that the theorem above applies to. -/
def exTree : Tree :=
  { properties := [.raw (ascii "owner") (ascii "ann"), .builtin .Effort (ascii "1:00"), .args (ascii "header-args") none (readAttrs exArgs)] }

example : (∀ p ∈ exTree.properties, p.isMatching (ascii "owner") none = true → Exact (ascii "owner") p) ∧ Ordinary (ascii "owner") ∧
    normalize (ascii "owner") ≠ ascii "id" := by
  refine ⟨?_, ⟨by decide +kernel, by decide +kernel, by decide +kernel⟩, by decide +kernel⟩
  intro p hp hm
  simp only [exTree, List.mem_cons, List.not_mem_nil, or_false] at hp
  rcases hp with rfl | rfl | rfl
  · exact .inl ⟨_, rfl⟩
  · exact absurd hm (by decide +kernel)
  · exact absurd hm (by decide +kernel)

/-! ## The value in force -/

/-- **C86.** In full: the value in force under a chain of subtrees can always be asked for, and when the innermost subtree that has the
property has it without arguments, then it is the value there. -/
def FinalPropertyStatement : Prop :=
  ∀ (nodes : List Tree) (kind : Bytes) (sub : Option Bytes),
    ∃ r, getFinalProperty nodes kind sub = .ok r ∧
      ∀ p, (nodes.filterMap fun t => t.getProperty kind sub).getLast? = some p → (∀ n s g, p ≠ .args n s g) → r = some p

/-- The code: asking for the effort under a subtree with `:EFFORT:` set from the file, and one inside it with `effort` set by
`setPropertyStrValue`, fails an assertion. -/
theorem finalProperty_false : ¬ FinalPropertyStatement := by
  intro h
  obtain ⟨r, hr, _⟩ := h [{ properties := [.builtin .Effort (ascii "1:00")] },
    ({} : Tree).setPropertyStrValue (ascii "2:00") (ascii "effort") none] (ascii "effort") none
  have : getFinalProperty [{ properties := [.builtin .Effort (ascii "1:00")] },
    ({} : Tree).setPropertyStrValue (ascii "2:00") (ascii "effort") none] (ascii "effort") none = .error .assertion := by decide +kernel
  rw [this] at hr
  cases hr

/-- Two spellings of the name of a property with arguments fail an assertion as well. -/
theorem finalProperty_spelling :
    getFinalProperty [{ properties := [.args (ascii "header-args") none {}] }, { properties := [.args (ascii "Header-Args") none {}] }]
      (ascii "header-args") none = .error .assertion := by
  decide +kernel

/-- The last of the lists that is not empty. -/
def lastFilled {α : Type} (l : List (List α)) : List α := ((l.filter fun x => !x.isEmpty).getLast?).getD []

theorem lastFilled_snoc {α : Type} (l : List (List α)) (x : List α) : lastFilled (l ++ [x]) = if x.isEmpty then lastFilled l else x := by
  unfold lastFilled
  rw [List.filter_append]
  by_cases h : x.isEmpty <;> simp [h]

theorem combineAll_snoc (r : Property) (ps : List Property) (p : Property) :
    combineAll r (ps ++ [p]) = match combineAll r ps with
      | .error e => .error e
      | .ok r' => combineOne r' p := by
  induction ps generalizing r with
  | nil =>
    simp only [List.nil_append, combineAll]
    cases combineOne r p <;> rfl
  | cons q ps ih =>
    simp only [List.cons_append, combineAll]
    cases combineOne r q with
    | error e => rfl
    | ok r' => exact ih r'

theorem combine_plain (p : Property) (ps : List Property) (kn : Bytes) (hk : ∀ q ∈ p :: ps, q.kindName = kn)
    (hn : kn ≠ ascii "CustomArgs") : ∃ r, combineAll p ps = .ok r ∧ (p :: ps).getLast? = some r := by
  induction ps using List.reverseRecOn with
  | nil => exact ⟨p, rfl, rfl⟩
  | append_singleton ps q ih =>
    obtain ⟨r, h1, h2⟩ := ih fun q' hq' => hk q' (by
      rw [List.mem_cons] at hq' ⊢; rcases hq' with rfl | hq'
      · exact .inl rfl
      · exact .inr (List.mem_append_left _ hq'))
    refine ⟨q, ?_, by rw [← List.cons_append]; exact List.getLast?_concat⟩
    rw [combineAll_snoc, h1]
    have hr : r.kindName = kn := hk r (by
      have := List.mem_of_getLast? h2
      rw [List.mem_cons] at this ⊢; rcases this with rfl | this
      · exact .inl rfl
      · exact .inr (List.mem_append_left _ this))
    have hq : q.kindName = kn := hk q (by simp)
    show combineOne r q = .ok q
    unfold combineOne
    rw [if_neg (by rw [hr, hq]; simp)]
    cases r with
    | args n s g => exact absurd hr.symm hn
    | _ => cases q <;> rfl

theorem readAttrs_keys (args : List AttrValue) (k : Bytes) (h : k ∈ (readAttrs args).named.map (·.1)) : normalize k = k := by
  have := (readAttrs_holds args).look k
  rw [← lookup_isSome] at h
  split at this
  · rw [this] at h; cases h
  · rename_i hne
    obtain ⟨a, ha⟩ := List.exists_mem_of_ne_nil _ hne
    have := (List.mem_filter.mp ha).2
    simp only [decide_eq_true_eq] at this
    cases hn : a.name with
    | none => simp [hn] at this
    | some n =>
      simp only [hn, Option.map_some, Option.some.injEq] at this
      rw [← this, normalize_idem]

theorem fold_set (m : Named) (hm : Keys m) (hk : ∀ k ∈ m.map (·.1), normalize k = k) (g : AttrGroup) :
    (m.foldl (fun g e => g.setNamedAttr e.1 e.2) g).positional = g.positional ∧
    ∀ k, lookup (m.foldl (fun g e => g.setNamedAttr e.1 e.2) g).named k = (lookup m k).or (lookup g.named k) := by
  induction m generalizing g with
  | nil => exact ⟨rfl, fun k => by simp [lookup_nil]⟩
  | cons e m ih =>
    have hm' := List.nodup_cons.mp hm
    obtain ⟨h1, h2⟩ := ih hm'.2 (fun k h => hk k (List.mem_cons_of_mem _ h)) (g.setNamedAttr e.1 e.2)
    rw [List.foldl_cons]
    refine ⟨h1, fun k => ?_⟩
    rw [h2, lookup_cons]
    unfold AttrGroup.setNamedAttr
    simp only [lookup_assign, hk e.1 (List.mem_cons_self ..)]
    by_cases h : e.1 = k
    · subst h
      rw [(lookup_none m e.1).mpr hm'.1]; simp
    · rw [if_neg (fun h' => h h'.symm), if_neg h]

/-- The attributes written in a property. -/
structure Written where
  sub : Option Bytes
  args : List AttrValue

/-- The property with arguments read from them. -/
def Written.property (name : Bytes) (w : Written) : Property := .args name w.sub (readAttrs w.args)

theorem getAttrs_written (args : List AttrValue) (k : Bytes) :
    ((lookup (readAttrs args).named (normalize k)).isSome ↔ (readAttrs args).getAttrs (some k) ≠ []) ∧
    (lookup (readAttrs args).named (normalize k)).getD [] = (readAttrs args).getAttrs (some k) := by
  have := (readAttrs_holds args).look (normalize k)
  simp only [AttrGroup.getAttrs]
  rw [this]
  by_cases h : ofKey (normalize k) (owned args) = []
  · simp [h]
  · simp [h]

theorem combine_args (n : Bytes) (w : Written) (ws : List Written) :
    ∃ g, combineAll (w.property n) (ws.map (Written.property n)) = .ok (.args n w.sub g) ∧
      g.positional = lastFilled ((w :: ws).map fun w => (readAttrs w.args).positional) ∧
      ∀ k, (lookup g.named (normalize k)).getD [] = lastFilled ((w :: ws).map fun w => (readAttrs w.args).getAttrs (some k)) := by
  induction ws using List.reverseRecOn with
  | nil =>
    refine ⟨readAttrs w.args, rfl, ?_, fun k => ?_⟩
    · unfold lastFilled; cases h : (readAttrs w.args).positional <;> simp [h]
    · rw [(getAttrs_written w.args k).2]
      unfold lastFilled; cases h : (readAttrs w.args).getAttrs (some k) <;> simp [h]
  | append_singleton ws v ih =>
    obtain ⟨g, h1, h2, h3⟩ := ih
    rw [List.map_append, List.map_cons, List.map_nil, combineAll_snoc, h1]
    have hf := fold_set (readAttrs v.args).named (readAttrs_holds v.args).keys (readAttrs_keys v.args)
      (if (readAttrs v.args).positional.isEmpty then g else g.setPositionalAttr (readAttrs v.args).positional)
    refine ⟨(readAttrs v.args).named.foldl (fun g e => g.setNamedAttr e.1 e.2)
        (if (readAttrs v.args).positional.isEmpty then g else g.setPositionalAttr (readAttrs v.args).positional), ?_, ?_, ?_⟩
    · show combineOne (.args n w.sub g) (.args n v.sub (readAttrs v.args)) = _
      unfold combineOne
      simp [Property.kindName]
    · rw [hf.1, ← List.cons_append, List.map_append, List.map_singleton, lastFilled_snoc, ← h2]
      split <;> rfl
    · intro k
      rw [hf.2, ← List.cons_append, List.map_append, List.map_singleton, lastFilled_snoc, ← h3]
      have hn : (if (readAttrs v.args).positional.isEmpty then g else g.setPositionalAttr (readAttrs v.args).positional).named = g.named := by
        split <;> rfl
      rw [hn]
      obtain ⟨h4, h5⟩ := getAttrs_written v.args k
      cases hl : lookup (readAttrs v.args).named (normalize k) with
      | none =>
        rw [hl] at h5
        rw [← h5]; simp
      | some items =>
        rw [hl] at h4 h5
        rw [← h5]
        have : items ≠ [] := by simpa [← h5] using h4
        simp [this]

/-- **C86**, for chains in which the property is everywhere of one kind: without arguments the innermost value is in force. -/
theorem final_property_partial (nodes : List Tree) (kind : Bytes) (sub : Option Bytes) (kn : Bytes) (hn : kn ≠ ascii "CustomArgs")
    (h : ∀ t ∈ nodes, ∀ p, t.getProperty kind sub = some p → p.kindName = kn) :
    getFinalProperty nodes kind sub = .ok (nodes.filterMap fun t => t.getProperty kind sub).getLast? := by
  unfold getFinalProperty
  have hk : ∀ q ∈ nodes.filterMap fun t => t.getProperty kind sub, q.kindName = kn := by
    intro q hq
    obtain ⟨t, ht, hq⟩ := List.mem_filterMap.mp hq
    exact h t ht q hq
  generalize (nodes.filterMap fun t => t.getProperty kind sub) = ps at hk
  cases ps with
  | nil => rfl
  | cons p ps =>
    obtain ⟨r, h1, h2⟩ := combine_plain p ps kn hk hn
    simp only [combineStack]
    rw [h1, h2]

/-- **C86**, with arguments: when the property is read from the file and named alike everywhere, then each named argument has the value it
was given last – innermost – and the positional arguments are the innermost ones given. -/
theorem final_args_partial (nodes : List Tree) (kind : Bytes) (sub : Option Bytes) (n : Bytes) (w : Written) (ws : List Written)
    (h : (nodes.filterMap fun t => t.getProperty kind sub) = (w :: ws).map (Written.property n)) :
    ∃ g, getFinalProperty nodes kind sub = .ok (some (.args n w.sub g)) ∧
      g.positional = lastFilled ((w :: ws).map fun w => w.args.takeWhile fun a => a.name.isNone) ∧
      ∀ k, g.getAttrs (some k) = lastFilled ((w :: ws).map fun w => (owned w.args).filter fun a => decide (Belongs k a)) := by
  obtain ⟨g, h1, h2, h3⟩ := combine_args n w ws
  refine ⟨g, ?_, ?_, fun k => ?_⟩
  · unfold getFinalProperty
    rw [h, List.map_cons]
    simp only [combineStack]
    rw [h1]
  · rw [h2]
    congr 2
    funext w
    exact (attrs_read w.args).1
  · have := h3 k
    simp only [(attrs_read _).2.1 k] at this
    rw [← this]
    simp only [AttrGroup.getAttrs]
    cases lookup g.named (normalize k) <;> rfl

/-- An outer and an inner subtree with `header-args`. -/
def exOuter : Tree := { properties := [.args (ascii "header-args") none (readAttrs exArgs)] }
def exInner : Tree :=
  { properties := [.builtin .Effort (ascii "1:00"),
      .args (ascii "header-args") none (readAttrs [⟨some (ascii "results"), none, .text (ascii "none")⟩])] }

example : (([exOuter, {}, exInner].filterMap fun t => t.getProperty (ascii "Header-Args") none)) =
    [⟨none, exArgs⟩, ⟨none, [⟨some (ascii "results"), none, .text (ascii "none")⟩]⟩].map (Written.property (ascii "header-args")) := by
  decide +kernel

end Verif.Api
