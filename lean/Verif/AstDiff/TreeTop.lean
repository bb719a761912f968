import Verif.AstDiff.Flat

/-!
# The first phase of the tree diff

`matchTopDown` links equal subtrees; the result is one-to-one.
-/

namespace Verif.AstDiff

/-- `m` is one-to-one, inside of the two trees, and links only nodes that may be matched. -/
structure MapOk (o : Options) (S D : SynTree) (m : Mapping) : Prop where
  one : ∀ (x y : Nat), m.dst x = some y ↔ m.src y = some x
  ok : ∀ (x y : Nat), m.dst x = some y → x < S.size ∧ y < D.size ∧ possible o S D x y = true

theorem upd_apply {α : Type} (f : Nat → α) (i : Nat) (x : α) (j : Nat) : upd f i x j = if j = i then x else f j := rfl

theorem foldl_inv {α β : Type} (P : α → Prop) (f : α → β → α) : ∀ (l : List β) (a : α), P a → (∀ a b, b ∈ l → P a → P (f a b)) →
    P (l.foldl f a)
  | [], _, h, _ => h
  | b :: l, a, h, hs => foldl_inv P f l (f a b) (hs a b (by simp) h) (fun a c hc => hs a c (by simp [hc]))

section
variable {o : Options} {S D : SynTree}

theorem empty_ok : MapOk o S D Mapping.empty := ⟨by simp [Mapping.empty], by simp [Mapping.empty]⟩

theorem MapOk.link {m : Mapping} (h : MapOk o S D m) {a b : Nat} (h1 : m.dst a = none) (h2 : m.src b = none) (h3 : a < S.size)
    (h4 : b < D.size) (h5 : possible o S D a b = true) : MapOk o S D (m.link a b) := by
  refine ⟨fun x y => ?_, fun x y => ?_⟩
  · simp only [Mapping.link, upd_apply]
    have := h.one x y
    by_cases e1 : x = a
    · subst e1
      by_cases e2 : y = b
      · subst e2
        simp
      · rw [if_pos rfl, if_neg e2, ← this, h1]
        simp [Ne.symm e2]
    · rw [if_neg e1]
      by_cases e2 : y = b
      · subst e2
        rw [this, h2]
        simp [Ne.symm e1]
      · rw [if_neg e2]
        exact this
  · simp only [Mapping.link, upd_apply]
    split
    · rename_i e
      subst e
      intro e
      obtain rfl := Option.some.inj e
      exact ⟨h3, h4, h5⟩
    · exact h.ok x y

theorem linkAll_dst (a b : Nat) (m : Mapping) : ∀ (n x : Nat), (linkAll a b n m).dst x = if a ≤ x ∧ x < a + n then some (b + (x - a)) else m.dst x
  | 0, x => by rw [linkAll, if_neg (by omega)]
  | n + 1, x => by
    simp only [linkAll, Mapping.link, upd_apply, linkAll_dst a b m n]
    by_cases e : x = a + n
    · rw [if_pos e, if_pos (by omega)]
      congr 1
      omega
    · rw [if_neg e]
      by_cases e2 : a ≤ x ∧ x < a + n
      · rw [if_pos e2, if_pos (by omega)]
      · rw [if_neg e2, if_neg (by omega)]

theorem linkAll_src (a b : Nat) (m : Mapping) : ∀ (n x : Nat), (linkAll a b n m).src x = if b ≤ x ∧ x < b + n then some (a + (x - b)) else m.src x
  | 0, x => by rw [linkAll, if_neg (by omega)]
  | n + 1, x => by
    simp only [linkAll, Mapping.link, upd_apply, linkAll_src a b m n]
    by_cases e : x = b + n
    · rw [if_pos e, if_pos (by omega)]
      congr 1
      omega
    · rw [if_neg e]
      by_cases e2 : b ≤ x ∧ x < b + n
      · rw [if_pos e2, if_pos (by omega)]
      · rw [if_neg e2, if_neg (by omega)]

theorem linkAll_ok (a b : Nat) {m : Mapping} (h : MapOk o S D m) : ∀ (n : Nat),
    (∀ i, i < n → m.dst (a + i) = none ∧ m.src (b + i) = none ∧ a + i < S.size ∧ b + i < D.size ∧ possible o S D (a + i) (b + i) = true) →
    MapOk o S D (linkAll a b n m)
  | 0, _ => h
  | n + 1, hn => by
    obtain ⟨h1, h2, h3, h4, h5⟩ := hn n (by omega)
    refine (linkAll_ok a b h n (fun i hi => hn i (by omega))).link ?_ ?_ h3 h4 h5
    · rw [linkAll_dst, if_neg (by omega), h1]
    · rw [linkAll_src, if_neg (by omega), h2]

/-! ## Identical subtrees -/

theorem sizes_congr : ∀ (ts us : List T), ts.length = us.length → (∀ (k : Nat) (c c' : T), ts[k]? = some c → us[k]? = some c' → c.size = c'.size) →
    sizes ts = sizes us
  | [], [], _, _ => rfl
  | [], _ :: _, h, _ => by simp at h
  | _ :: _, [], h, _ => by simp at h
  | t :: ts, u :: us, h, hs => by
    have := hs 0 t u rfl rfl
    have := sizes_congr ts us (by simpa using h) (fun k c c' h1 h2 => hs (k + 1) c c' (by simpa using h1) (by simpa using h2))
    simp only [sizes]
    omega

theorem identical_spec : ∀ (n : Nat) {a b : Nat} {pa da pb db} {t u : T}, At S.nodes a pa da t → At D.nodes b pb db u →
    identical o S D n a b = true → t.size = u.size ∧ ∀ i, i < t.size → possible o S D (a + i) (b + i) = true ∧
      o.valuesEqual (S.node (a + i)) (D.node (b + i)) = true
  | 0, a, b, pa, da, pb, db, t, u, h1, h2, h => by simp [identical] at h
  | n + 1, a, b, pa, da, pb, db, t, u, h1, h2, h => by
    simp only [identical, Bool.and_eq_true, beq_iff_eq, List.all_eq_true] at h
    obtain ⟨⟨⟨h3, h4⟩, h5⟩, h6⟩ := h
    simp only [SynTree.node, h1.node, h2.node, offsets_length] at h3 h6
    have hk : ∀ (k : Nat) (c c' : T), t.subs[k]? = some c → u.subs[k]? = some c' →
        identical o S D n (a + 1 + sizes (t.subs.take k)) (b + 1 + sizes (u.subs.take k)) = true := by
      intro k c c' e1 e2
      refine h6 (_, _) (List.mem_of_getElem? (i := k) ?_)
      rw [List.getElem?_zip_eq_some]
      exact ⟨offsets_get _ _ _ _ e1, offsets_get _ _ _ _ e2⟩
    have hs : ∀ (k : Nat) (c c' : T), t.subs[k]? = some c → u.subs[k]? = some c' → c.size = c'.size := by
      intro k c c' e1 e2
      exact (identical_spec n (h1.child e1) (h2.child e2) (hk k c c' e1 e2)).1
    have hsz := sizes_congr _ _ h3 hs
    have hst : ∀ k, sizes (t.subs.take k) = sizes (u.subs.take k) := by
      intro k
      refine sizes_congr _ _ (by simp [h3]) (fun j c c' e1 e2 => ?_)
      rw [List.getElem?_take] at e1 e2
      split at e1
      · rename_i hj
        rw [if_pos hj] at e2
        exact hs j c c' e1 e2
      · simp at e1
    refine ⟨by rw [size_eq, size_eq, hsz], fun i hi => ?_⟩
    cases i with
    | zero => exact ⟨h4, h5⟩
    | succ i =>
      rw [size_eq] at hi
      obtain ⟨k, c, e1, e2, e3⟩ := split_index (ts := t.subs) (i := i) (by omega)
      have hlt := (List.getElem?_eq_some_iff.1 e1).1
      rw [h3] at hlt
      have e4 := List.getElem?_eq_getElem hlt
      have := (identical_spec n (h1.child e1) (h2.child e4) (hk k _ _ e1 e4)).2 (i - sizes (t.subs.take k)) (by omega)
      rw [← hst k] at this
      rw [show a + (i + 1) = a + 1 + sizes (t.subs.take k) + (i - sizes (t.subs.take k)) by omega,
        show b + (i + 1) = b + 1 + sizes (t.subs.take k) + (i - sizes (t.subs.take k)) by omega]
      exact this

/-! ## The priority lists -/

/-- Every node of the syntax tree has its subtree (it was made from a tree). -/
def Made (S : SynTree) : Prop := ∃ t, S = fromNode t

theorem Made.at (h : Made S) {x : Nat} (hx : x < S.size) : ∃ par dep u, At S.nodes x par dep u := by
  obtain ⟨t, rfl⟩ := h
  exact at_any t x hx

theorem At.height {x : Nat} {par dep u} (h : At S.nodes x par dep u) : (S.node x).height = u.height := by
  rw [SynTree.node, h.node, height_eq]

theorem At.descendants {x : Nat} {par dep u} (h : At S.nodes x par dep u) : S.descendants x = u.size := by
  rw [SynTree.descendants, SynTree.node, h.node, size_eq]
  simp only
  omega

theorem At.lt {x : Nat} {par dep u} (h : At S.nodes x par dep u) : x < S.size := by
  have := h.range
  have := size_pos u
  rw [SynTree.size]
  omega

theorem le_peekMax_aux (t : SynTree) : ∀ (l : List Nat) (h : Nat), h ≤ l.foldl (fun h i => max h (t.node i).height) h ∧
    ∀ i ∈ l, (t.node i).height ≤ l.foldl (fun h i => max h (t.node i).height) h
  | [], h => by simp
  | j :: l, h => by
    have := le_peekMax_aux t l (max h (t.node j).height)
    rw [List.foldl_cons]
    refine ⟨by omega, fun i hi => ?_⟩
    rcases List.mem_cons.1 hi with e | e
    · subst e
      omega
    · exact this.2 i e

theorem le_peekMax {t : SynTree} {l : List Nat} {i : Nat} (h : i ∈ l) : (t.node i).height ≤ peekMax t l := (le_peekMax_aux t l 0).2 i h

theorem peekMax_lt {t : SynTree} {l : List Nat} {H : Nat} (hH : 0 < H) (h : ∀ i ∈ l, (t.node i).height < H) : peekMax t l < H :=
  foldl_inv (fun x => x < H) _ l 0 hH (fun a b hb ha => by have := h b hb; omega)

theorem mem_popMax {t : SynTree} {l : List Nat} (hp : 0 < peekMax t l) {i : Nat} :
    (i ∈ (popMax t l).1 ↔ i ∈ l ∧ (t.node i).height = peekMax t l) ∧ (i ∈ (popMax t l).2 ↔ i ∈ l ∧ (t.node i).height ≠ peekMax t l) := by
  rw [popMax, if_neg (by omega)]
  simp

/-- Opening nodes of the largest height lowers it. -/
theorem openAll_lt (hS : Made S) {l sel : List Nat} (hl : ∀ i ∈ l, i < S.size) (hp : 0 < peekMax S l) (hsel : ∀ i ∈ sel, i ∈ (popMax S l).1) :
    peekMax S (openAll S (popMax S l).2 sel) < peekMax S l ∧ ∀ i ∈ openAll S (popMax S l).2 sel, i < S.size := by
  have key : ∀ i ∈ openAll S (popMax S l).2 sel, (S.node i).height < peekMax S l ∧ i < S.size := by
    intro i hi
    rw [openAll, List.mem_append] at hi
    rcases hi with hi | hi
    · obtain ⟨h1, h2⟩ := (mem_popMax hp).2.1 hi
      have := le_peekMax (t := S) h1
      exact ⟨by omega, hl i h1⟩
    · rw [List.mem_flatMap] at hi
      obtain ⟨j, hj, hi⟩ := hi
      obtain ⟨h1, h2⟩ := (mem_popMax hp).1.1 (hsel j hj)
      obtain ⟨par, dep, u, hat⟩ := hS.at (hl j h1)
      rw [SynTree.node, hat.node] at hi
      obtain ⟨k, c, hc, rfl⟩ := mem_offsets.1 hi
      have hch := hat.child hc
      refine ⟨?_, hch.lt⟩
      rw [hch.height, ← h2, hat.height, height_eq u]
      have := heights_le hc
      omega
  exact ⟨peekMax_lt hp (fun i hi => (key i hi).1), fun i hi => (key i hi).2⟩

/-! ## The invariant of the loop -/

/-- Every linked node is in a subtree of height at least `H` that is linked as a whole. -/
def Rooted (nodes : List Node) (f : Nat → Option Nat) (H : Nat) : Prop :=
  ∀ (x y : Nat), f x = some y → ∃ r par dep u, At nodes r par dep u ∧ r ≤ x ∧ x < r + u.size ∧ H ≤ u.height ∧ ∀ i, i < u.size → (f (r + i)).isSome

theorem Rooted.mono {nodes : List Node} {f : Nat → Option Nat} {H H' : Nat} (h : Rooted nodes f H) (hh : H' ≤ H) : Rooted nodes f H' := by
  intro x y e
  obtain ⟨r, par, dep, u, h1, h2, h3, h4, h5⟩ := h x y e
  exact ⟨r, par, dep, u, h1, h2, h3, by omega, h5⟩

/-- A subtree of the current height whose root is not linked has no linked node. -/
theorem Rooted.free {nodes : List Node} {f : Nat → Option Nat} {H : Nat} (h : Rooted nodes f H) {a par dep u} (hat : At nodes a par dep u)
    (hH : u.height ≤ H) (hn : f a = none) (i : Nat) (hi : i < u.size) : f (a + i) = none := by
  cases e : f (a + i) with
  | none => rfl
  | some y =>
    exfalso
    obtain ⟨r, par', dep', v, h1, h2, h3, h4, h5⟩ := h _ y e
    have key : f a ≠ none ∨ False := by
      rcases At.laminar hat h1 (x := a + i) (by omega) (by omega) h2 h3 with ⟨g1, g2, g3⟩ | ⟨g1, g2, g3⟩
      · by_cases e : a < r
        · have := g3 e
          omega
        · have : r = a := by omega
          subst this
          have := h5 0 (size_pos v)
          left
          intro e
          rw [Nat.add_zero, e] at this
          simp at this
      · have := h5 (a - r) (by have := size_pos u; omega)
        rw [show r + (a - r) = a by omega] at this
        left
        intro e
        rw [e] at this
        simp at this
    rcases key with h | h
    · exact h hn
    · exact h

theorem rooted_linkAll {nodes : List Node} {f g : Nat → Option Nat} {H : Nat} (h : Rooted nodes f H) {a b par dep u}
    (hat : At nodes a par dep u) (hH : H ≤ u.height)
    (hg : ∀ x, g x = if a ≤ x ∧ x < a + u.size then some (b + (x - a)) else f x) : Rooted nodes g H := by
  intro x y e
  by_cases hx : a ≤ x ∧ x < a + u.size
  · exact ⟨a, par, dep, u, hat, hx.1, hx.2, hH, fun i hi => by rw [hg, if_pos (by omega)]; simp⟩
  · rw [hg, if_neg hx] at e
    obtain ⟨r, par', dep', v, h1, h2, h3, h4, h5⟩ := h x y e
    refine ⟨r, par', dep', v, h1, h2, h3, h4, fun i hi => ?_⟩
    rw [hg]
    split
    · simp
    · exact h5 i hi

/-- The invariant of `topDownLoop`. -/
structure Top (o : Options) (S D : SynTree) (m : Mapping) (H1 H2 : Nat) : Prop where
  ok : MapOk o S D m
  r1 : Rooted S.nodes m.dst H1
  r2 : Rooted D.nodes m.src H2

theorem Top.step (hS : Made S) (hD : Made D) {m : Mapping} {H a b : Nat} (h : Top o S D m H H) (ha : a < S.size) (hb : b < D.size)
    (hha : (S.node a).height = H) (hhb : (D.node b).height = H) :
    Top o S D (if identical o S D S.size a b && (m.dst a).isNone && (m.src b).isNone then linkAll a b (S.descendants a) m else m) H H := by
  split
  · rename_i hc
    simp only [Bool.and_eq_true, Option.isNone_iff_eq_none] at hc
    obtain ⟨⟨h1, h2⟩, h3⟩ := hc
    obtain ⟨pa, da, t, hat⟩ := hS.at ha
    obtain ⟨pb, db, u, hbt⟩ := hD.at hb
    obtain ⟨hsz, hid⟩ := identical_spec _ hat hbt h1
    rw [hat.height] at hha
    rw [hbt.height] at hhb
    rw [hat.descendants]
    have hr1 := hat.range
    have hr2 := hbt.range
    refine ⟨linkAll_ok a b h.ok _ (fun i hi => ⟨?_, ?_, ?_, ?_, (hid i hi).1⟩), ?_, ?_⟩
    · exact h.r1.free hat (by omega) h2 i hi
    · exact h.r2.free hbt (by omega) h3 i (by omega)
    · rw [SynTree.size]; omega
    · rw [SynTree.size]; omega
    · exact rooted_linkAll h.r1 hat (by omega) (linkAll_dst a b m t.size)
    · exact rooted_linkAll h.r2 hbt (by omega) (fun x => by rw [linkAll_src a b m t.size x, hsz])
  · exact h

theorem matchForests_top (hS : Made S) (hD : Made D) {m : Mapping} {H : Nat} {h1 h2 : List Nat} (h : Top o S D m H H)
    (g1 : ∀ a ∈ h1, a < S.size ∧ (S.node a).height = H) (g2 : ∀ b ∈ h2, b < D.size ∧ (D.node b).height = H) :
    Top o S D (matchForests o S D h1 h2 m) H H := by
  refine foldl_inv (fun m => Top o S D m H H) _ h1 m h (fun m a ha hm => ?_)
  refine foldl_inv (fun m => Top o S D m H H) _ h2 m hm (fun m b hb hm => ?_)
  exact hm.step hS hD (g1 a ha).1 (g2 b hb).1 (g1 a ha).2 (g2 b hb).2

theorem topDownLoop_top (hS : Made S) (hD : Made D) (hmin : 0 ≤ o.minHeight) : ∀ (k : Nat) (l1 l2 : List Nat) (m : Mapping),
    (∀ i ∈ l1, i < S.size) → (∀ i ∈ l2, i < D.size) → Top o S D m (peekMax S l1) (peekMax D l2) → peekMax S l1 + peekMax D l2 ≤ k →
    ∃ m' H1 H2, (∀ n, k < n → topDownLoop o S D n l1 l2 m = some m') ∧ Top o S D m' H1 H2
  | k, l1, l2, m, v1, v2, ht, hk => by
    by_cases hc : ((min (peekMax S l1) (peekMax D l2) : Nat) : Int) > o.minHeight
    · have hp1 : 0 < peekMax S l1 := by omega
      have hp2 : 0 < peekMax D l2 := by omega
      rcases Nat.lt_trichotomy (peekMax S l1) (peekMax D l2) with h | h | h
      · obtain ⟨e1, e2⟩ := openAll_lt hD v2 hp2 (sel := (popMax D l2).1) (fun i hi => hi)
        obtain ⟨m', H1, H2, e3, e4⟩ := topDownLoop_top hS hD hmin (k - 1) l1 (openAll D (popMax D l2).2 (popMax D l2).1) m v1 e2
          ⟨ht.ok, ht.r1, ht.r2.mono (by omega)⟩ (by omega)
        refine ⟨m', H1, H2, fun n hn => ?_, e4⟩
        obtain ⟨n, rfl⟩ : ∃ j, n = j + 1 := ⟨n - 1, by omega⟩
        rw [topDownLoop]
        simp only [hc, if_true]
        rw [if_neg (by omega), if_pos (by omega)]
        exact e3 n (by omega)
      · have g1 : ∀ a ∈ (popMax S l1).1, a < S.size ∧ (S.node a).height = peekMax S l1 := fun a ha =>
          ⟨v1 a ((mem_popMax hp1).1.1 ha).1, ((mem_popMax hp1).1.1 ha).2⟩
        have g2 : ∀ b ∈ (popMax D l2).1, b < D.size ∧ (D.node b).height = peekMax S l1 := fun b hb =>
          ⟨v2 b ((mem_popMax hp2).1.1 hb).1, by rw [((mem_popMax hp2).1.1 hb).2, h]⟩
        rw [← h] at ht
        have ht' := matchForests_top hS hD ht g1 g2
        generalize hm : matchForests o S D (popMax S l1).1 (popMax D l2).1 m = m1 at ht'
        obtain ⟨e1, e2⟩ := openAll_lt hD v2 hp2 (sel := (popMax D l2).1.filter (fun b => (m1.src b).isNone)) (fun i hi => (List.mem_filter.1 hi).1)
        obtain ⟨f1, f2⟩ := openAll_lt hS v1 hp1 (sel := (popMax S l1).1.filter (fun a => (m1.dst a).isNone)) (fun i hi => (List.mem_filter.1 hi).1)
        obtain ⟨m', H1, H2, e3, e4⟩ := topDownLoop_top hS hD hmin (k - 2) _ _ m1 f2 e2
          ⟨ht'.ok, ht'.r1.mono (by omega), ht'.r2.mono (by omega)⟩ (by omega)
        refine ⟨m', H1, H2, fun n hn => ?_, e4⟩
        obtain ⟨n, rfl⟩ : ∃ j, n = j + 1 := ⟨n - 1, by omega⟩
        rw [topDownLoop]
        simp only [hc, if_true]
        rw [if_neg (by omega), if_neg (by omega), hm]
        exact e3 n (by omega)
      · obtain ⟨e1, e2⟩ := openAll_lt hS v1 hp1 (sel := (popMax S l1).1) (fun i hi => hi)
        obtain ⟨m', H1, H2, e3, e4⟩ := topDownLoop_top hS hD hmin (k - 1) (openAll S (popMax S l1).2 (popMax S l1).1) l2 m e2 v2
          ⟨ht.ok, ht.r1.mono (by omega), ht.r2⟩ (by omega)
        refine ⟨m', H1, H2, fun n hn => ?_, e4⟩
        obtain ⟨n, rfl⟩ : ∃ j, n = j + 1 := ⟨n - 1, by omega⟩
        rw [topDownLoop]
        simp only [hc, if_true]
        rw [if_pos (by omega)]
        exact e3 n (by omega)
    · refine ⟨m, _, _, fun n hn => ?_, ht⟩
      obtain ⟨n, rfl⟩ : ∃ j, n = j + 1 := ⟨n - 1, by omega⟩
      rw [topDownLoop]
      simp only [hc, if_false]
termination_by k => k

theorem Made.pos (h : Made S) : 0 < S.size := by
  obtain ⟨t, rfl⟩ := h
  rw [fromNode_size]
  exact size_pos t

theorem empty_top (H1 H2 : Nat) : Top o S D Mapping.empty H1 H2 :=
  ⟨empty_ok, by intro x y e; simp [Mapping.empty] at e, by intro x y e; simp [Mapping.empty] at e⟩

/-- `matchTopDown` returns, with the same mapping for all sufficient numbers of turns. -/
theorem matchTopDown_ok (hS : Made S) (hD : Made D) (hmin : 0 ≤ o.minHeight) :
    ∃ m n0, (∀ n, n0 < n → matchTopDown o S D n = some m) ∧ MapOk o S D m := by
  obtain ⟨m, H1, H2, h1, h2⟩ := topDownLoop_top hS hD hmin _ [0] [0] Mapping.empty
    (by simpa using hS.pos) (by simpa using hD.pos) (empty_top _ _) (Nat.le_refl _)
  exact ⟨m, _, h1, h2.ok⟩

end

end Verif.AstDiff
