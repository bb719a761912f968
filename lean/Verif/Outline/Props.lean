import Verif.Outline.Lemmas

/-!
# C22 – outline nesting
-/

namespace Verif.Outline
open Verif.NodeGroup Verif.NodeGroup.Spec Verif.Outline.Spec

variable {M : Type}

/-! ### Helper facts about the specification -/

theorem takeWhile_all {textLen : Nat → Nat} {items : List (Item M)}
    (h : ∀ i ∈ items, i.Ok textLen) :
    items.takeWhile (inSection textLen 0) = items ∧
    items.dropWhile (inSection textLen 0) = [] := by
  induction items with
  | nil => simp
  | cons i r ih =>
    have hi := h i (by simp)
    have hin : inSection textLen 0 i = true := by
      cases i with
      | body f => rfl
      | head k s f => simp [inSection, hi.2.1]
    obtain ⟨h1, h2⟩ := ih fun j hj => h j (by simp [hj])
    rw [List.takeWhile_cons_of_pos hin, List.dropWhile_cons_of_pos hin, h1, h2]
    simp

theorem headlines_append (f g : Forest Kind M) : ∀ anc,
    headlines anc (f.append g) = headlines anc f ++ headlines anc g := by
  induction f with
  | nil => intro anc; rfl
  | leaf k v r ih => intro anc; simp [Forest.append, headlines, ih]
  | tree k c r ihc ihr =>
    intro anc
    cases k <;> cases c <;> try (rename_i v _; cases v) <;>
      simp [Forest.append, headlines, ihr]
    all_goals simp [Forest.append, headlines, ihr]

theorem headlines_without (f : Forest Kind M) (h : Without .subtree f) : ∀ anc,
    headlines anc f = [] := by
  induction f with
  | nil => intro anc; rfl
  | leaf k v r ih => intro anc; exact ih h.2 anc
  | tree k c r ihc ihr =>
    intro anc
    have hk := h.1
    have e : headlines anc (.tree k c r) = headlines anc c ++ headlines anc r := by
      cases k <;> first | exact absurd rfl hk | simp [headlines]
    rw [e, ihc h.2.1, ihr h.2.2]; rfl

theorem stars_append (a b : List (Item M)) : stars (a ++ b) = stars a ++ stars b := by
  induction a with
  | nil => rfl
  | cons i a ih => cases i <;> simp [stars, ih]

theorem closestSmaller_append (textLen : Nat → Nat) (a b : List Nat) : ∀ prev,
    closestSmaller textLen prev (a ++ b)
      = closestSmaller textLen prev a ++ closestSmaller textLen (a.reverse ++ prev) b := by
  induction a with
  | nil => intro prev; rfl
  | cons s a ih => intro prev; simp [closestSmaller, ih]

theorem stars_takeWhile {textLen : Nat → Nat} {l : Nat} (r : List (Item M)) :
    ∀ s ∈ stars (r.takeWhile (inSection textLen l)), l < textLen s := by
  induction r with
  | nil => intro s hs; simp [stars] at hs
  | cons i r ih =>
    intro s hs
    by_cases h : inSection textLen l i = true
    · rw [List.takeWhile_cons_of_pos h] at hs
      cases i with
      | body f => exact ih s hs
      | head k s' f =>
        simp only [stars, List.mem_cons] at hs
        rcases hs with rfl | hs
        · simpa [inSection] using h
        · exact ih s hs
    · rw [List.takeWhile_cons_of_neg h] at hs
      simp [stars] at hs

theorem stars_dropWhile_head {textLen : Nat → Nat} {l : Nat} (r : List (Item M)) :
    ∀ s t, stars (r.dropWhile (inSection textLen l)) = s :: t → textLen s ≤ l := by
  induction r with
  | nil => intro s t h; simp [stars] at h
  | cons i r ih =>
    intro s t h
    by_cases hi : inSection textLen l i = true
    · rw [List.dropWhile_cons_of_pos hi] at h
      exact ih s t h
    · rw [List.dropWhile_cons_of_neg hi] at h
      cases i with
      | body f => simp [inSection] at hi
      | head k s' f =>
        simp only [stars, List.cons.injEq] at h
        simp only [inSection, decide_eq_true_eq] at hi
        rw [← h.1]; omega

theorem outline_headlines (textLen : Nat → Nat) : ∀ (n : Nat) (items : List (Item M)),
    items.length ≤ n → (∀ i ∈ items, i.Ok textLen) →
    ∀ (prev : List Nat) (anc : Option Nat),
    (∀ s t, stars items = s :: t → ∀ l, l ≤ textLen s → (∀ a, anc = some a → textLen a < l) →
      prev.find? (fun t => decide (textLen t < l)) = anc) →
    (∀ s ∈ stars items, ∀ a, anc = some a → textLen a < textLen s) →
    headlines anc (outline textLen items) = closestSmaller textLen prev (stars items) := by
  intro n
  induction n with
  | zero =>
    intro items h _ prev anc _ _
    cases items with
    | nil => simp [outline, headlines, stars, closestSmaller]
    | cons _ _ => simp at h
  | succ n ih =>
    intro items h hok prev anc h1 h2
    cases items with
    | nil => simp [outline, headlines, stars, closestSmaller]
    | cons i r =>
      have hr : r.length ≤ n := by simpa using h
      have hi := hok i (by simp)
      have hokr : ∀ j ∈ r, j.Ok textLen := fun j hj => hok j (by simp [hj])
      cases i with
      | body f =>
        rw [outline, headlines_append, headlines_without f hi.1]
        exact ih r hr hokr prev anc h1 h2
      | head k s fields =>
        have hsplit : stars r = stars (r.takeWhile (inSection textLen (textLen s)))
            ++ stars (r.dropWhile (inSection textLen (textLen s))) := by
          rw [← stars_append, List.takeWhile_append_dropWhile]
        rw [outline]
        simp only [stars, closestSmaller]
        rw [hsplit, closestSmaller_append]
        have e : headlines anc (headTree k s fields
            (outline textLen (r.takeWhile (inSection textLen (textLen s))))
            (outline textLen (r.dropWhile (inSection textLen (textLen s)))))
            = (s, anc) :: headlines (some s)
                (outline textLen (r.takeWhile (inSection textLen (textLen s))))
              ++ headlines anc (outline textLen (r.dropWhile (inSection textLen (textLen s)))) := by
          simp [headTree, headlines, headlines_append, headlines_without fields hi.2.2.2.1]
        rw [e]
        have ein := ih (r.takeWhile (inSection textLen (textLen s)))
          (Nat.le_trans (takeWhile_length_le _ r) hr)
          (fun j hj => hokr j ((List.takeWhile_sublist _).subset hj)) (s :: prev) (some s)
          (by
            intro s' t _ l _ hl
            have := hl s rfl
            simp [this])
          (by
            intro s' hs' a ha
            cases ha
            exact stars_takeWhile r s' hs')
        have eout := ih (r.dropWhile (inSection textLen (textLen s)))
          (Nat.le_trans (dropWhile_length_le _ r) hr)
          (fun j hj => hokr j ((List.dropWhile_sublist _).subset hj))
          ((stars (r.takeWhile (inSection textLen (textLen s)))).reverse ++ (s :: prev)) anc
          (by
            intro s' t hst l hl hanc
            have hle := stars_dropWhile_head r s' t hst
            rw [List.find?_append]
            have hnone : (stars (r.takeWhile (inSection textLen (textLen s)))).reverse.find?
                (fun t => decide (textLen t < l)) = none := by
              rw [List.find?_eq_none]
              intro x hx
              have := stars_takeWhile r x (by simpa using hx)
              simp only [decide_eq_true_eq]; omega
            have hs : ¬ textLen s < l := by omega
            rw [hnone]
            simp only [Option.none_or, List.find?_cons, hs, decide_false]
            exact h1 s (stars r) rfl l (by omega) hanc)
          (by
            intro s' hs' a ha
            exact h2 s' (by
              simp only [stars, List.mem_cons]
              right; rw [hsplit]; simp [hs']) a ha)
        rw [ein, eout]
        have hfind := h1 s (stars r) rfl (textLen s) (Nat.le_refl _)
          (fun a ha => h2 s (by simp [stars]) a ha)
        rw [hfind]
        simp

theorem outline_payload (textLen : Nat → Nat) : ∀ (n : Nat) (items : List (Item M)),
    items.length ≤ n →
    (outline textLen items).flat.map payload = (flatDoc items).flat.map payload := by
  intro n
  induction n with
  | zero =>
    intro items h
    cases items with
    | nil => simp [outline, flatDoc]
    | cons _ _ => simp at h
  | succ n ih =>
    intro items h
    cases items with
    | nil => simp [outline, flatDoc]
    | cons i r =>
      have hr : r.length ≤ n := by simpa using h
      cases i with
      | body f => simp [outline, flatDoc, ih r hr]
      | head k s fields =>
        have h1 := ih _ (Nat.le_trans (takeWhile_length_le (inSection textLen (textLen s)) r) hr)
        have h2 := ih _ (Nat.le_trans (dropWhile_length_le (inSection textLen (textLen s)) r) hr)
        have h3 := flatDoc_append (r.takeWhile (inSection textLen (textLen s)))
          (r.dropWhile (inSection textLen (textLen s)))
        rw [List.takeWhile_append_dropWhile] at h3
        rw [outline, flatDoc, h3]
        simp only [headTree, Forest.flat, flat_append, List.map_cons, List.map_append, h1, h2,
          payload, List.cons_append, List.append_assoc, List.map_nil, List.nil_append]

/-! ### C22 -/

/-- C22: for every flat document (any sequence of headline levels and bodies),
the pass succeeds – none of its internal checks fires – and turns the listing of
the flat document into the listing of its outline, in which each headline holds
everything up to the next headline of the same or a smaller level. -/
theorem outline_pass (textLen : Nat → Nat) (items : List (Item M))
    (hok : ∀ i ∈ items, i.Ok textLen) (pend : List Nat) (fuel : Nat)
    (hf : (flatDoc items).count + 1 < fuel) :
    extendSubtreeTrails textLen fuel ⟨(document (flatDoc items)).flat, pend⟩ 1
      = .ok ⟨(document (outline textLen items)).flat, pend⟩ := by
  obtain ⟨fuel, rfl⟩ : ∃ k, fuel = k + 1 := ⟨fuel - 1, by omega⟩
  have hskip := extendImpl_skip textLen 0 pend (flatDoc items).flat
    [⟨.stmtList, .ext (flatDoc items).count⟩] [] fuel (by simp)
  have hmain := extendImpl_spec textLen pend items.length items (Nat.le_refl _) hok
    [⟨.stmtList, .ext (flatDoc items).count⟩] 0 fuel (by omega)
  obtain ⟨ht, hd⟩ := takeWhile_all hok
  rw [ht, hd] at hmain
  have hcount := outline_count textLen items.length items (Nat.le_refl _)
  simp only [List.nil_append, List.length_nil, List.length_singleton, Nat.zero_add,
    List.singleton_append] at hskip hmain
  have hdoc : ∀ f : Forest Kind M, (document f).flat = ⟨.stmtList, .ext f.count⟩ :: f.flat := by
    intro f; simp [document, Forest.flat]
  rw [extendSubtreeTrails, hdoc, hdoc]
  simp only [hskip, hmain, bind, Except.bind, flatDoc, Forest.flat, List.append_nil]
  have hv := validAux_tree [] [] pend .stmtList (outline textLen items) (by decide)
    (outline_noInner textLen _ items (Nat.le_refl _) hok)
    (2 * (⟨.stmtList, .ext (outline textLen items).count⟩ ::
      (outline textLen items).flat).length + 2) (by simp; omega)
  simp only [List.append_nil, List.nil_append, List.length_nil, Nat.zero_add] at hv
  rw [hcount] at hv ⊢
  rw [hv]

/-- C22, nesting: in the outline the headlines appear in document order and each
is directly enclosed by the closest preceding headline with strictly fewer stars
(by none if there is no such headline). -/
theorem outline_nesting (textLen : Nat → Nat) (items : List (Item M))
    (hok : ∀ i ∈ items, i.Ok textLen) :
    headlines none (document (outline textLen items))
      = closestSmaller textLen [] (stars items) := by
  have := outline_headlines textLen items.length items (Nat.le_refl _) hok [] none
    (by intro s t _ l _ _; rfl) (by intro s _ a ha; cases ha)
  simpa [document, headlines] using this

/-- C22, nothing lost: the outline lists the same nodes (kind and leaf content)
in the same order as the flat document. -/
theorem outline_keeps_nodes (textLen : Nat → Nat) (items : List (Item M)) :
    (outline textLen items).flat.map payload = (flatDoc items).flat.map payload :=
  outline_payload textLen _ items (Nat.le_refl _)

/-! Concrete document: `body`, `* a`, `*** b`, `text`, `** c`, `* d`. -/

def exampleFields : Forest Kind Unit :=
  .leaf .empty (.mono ()) <| .leaf .empty (.mono ()) <|
  .tree (.other 1) (.leaf (.other 2) (.tok 90) .nil) <|
  .leaf .empty (.mono ()) <| .leaf .empty (.mono ()) <| .leaf .empty (.mono ()) <|
  .leaf .empty (.mono ()) .nil

def exampleItems : List (Item Unit) :=
  [.body (.tree (.other 1) (.leaf (.other 2) (.tok 91) .nil) .nil),
   .head (.other 0) 1 exampleFields, .head (.other 0) 3 exampleFields,
   .body (.leaf (.other 2) (.tok 92) .nil),
   .head (.other 0) 2 exampleFields, .head (.other 0) 11 exampleFields]

def exampleLen (t : Nat) : Nat := if t = 11 then 1 else t

theorem exampleItems_ok : ∀ i ∈ exampleItems, i.Ok exampleLen := by
  intro i hi
  simp only [exampleItems, List.mem_cons, List.not_mem_nil, or_false] at hi
  rcases hi with rfl | rfl | rfl | rfl | rfl | rfl <;>
    simp [Item.Ok, Without, NoInner, exampleFields, Forest.roots, exampleLen]

example : closestSmaller exampleLen [] (stars exampleItems)
    = [(1, none), (3, some 1), (2, some 1), (11, none)] := by decide

end Verif.Outline
