import Verif.Demote.Cases

/-! # The subtree goes below the headline before it -/

namespace Verif.Demote

open Verif.Imm
open Verif.Eval (kidList ofKids results withResults ReadsKid reads_kids field_reads append_forall₂ putAt isRoot isRoot_kind)

section
variable {D : Type} [DecidableEq D]

theorem setNode_raw {c : Ctx D} (u : Uniq) {v w : Val D} (hv : c.store[u.id]? = some v) (hne : w.same v = false) :
    ∃ n c2 x, setNode c u w = (some ⟨u, { u with id := n }⟩, c2) ∧ c2.store = (c.store.add w).2 ∧
      c2.store[n]? = some x ∧ x.kind = w.kind ∧ x.data = w.data ∧ x.kids = w.kids ∧ n ≠ u.id := by
  obtain ⟨x, hx1, hx2⟩ := add_val c.store w
  obtain ⟨k1, k2, k3⟩ := same_iff.1 hx2
  have hneq : (c.store.add w).1 ≠ u.id := by
    intro he
    rw [he, getElem?_prefix (add_prefix _ _) hv] at hx1
    injection hx1 with hx1
    rw [hx1, hx2] at hne
    simp at hne
  have hst := setNode_store c u w
  refine ⟨(c.store.add w).1, (setNode c u w).2, x, ?_, hst, by rw [hst]; exact hx1, k1.symm, k2.symm, k3.symm, hneq⟩
  unfold setNode
  simp only
  rw [if_neg hneq]

theorem same_false_kids {v w : Val D} (h : v.kids ≠ w.kids) : v.same w = false := by
  cases hs : v.same w with
  | false => rfl
  | true => exact absurd (same_iff.1 hs).2.2 h

/-- Another list of subnodes. -/
theorem setSubnodes_new {c : Ctx D} (hg : Good c.store) (u : Uniq) {v : Val D} (hv : c.store[u.id]? = some v) {ids : List Id}
    (hids : ∀ i ∈ ids, i < c.store.length) (hne : ids ≠ v.subs) :
    ∃ n c2 x, setSubnodes c u ids = .ok (⟨u, { u with id := n }⟩, c2) ∧ c.store <+: c2.store ∧ Good c2.store ∧
      c2.store[n]? = some x ∧ x.kind = v.kind ∧ x.data = v.data ∧ x.kids = (v.setSubs ids).kids ∧ n ≠ u.id := by
  obtain ⟨n, c2, x, e1, e2, e3, e4, e5, e6, e7, e8⟩ := setNode_new hg u (w := v.setSubs ids) hv
    ⟨setSubs_valid hg.below hv hids, setSubs_shaped (hg.shaped _ _ hv) ids⟩ (same_false_kids (by
      intro he
      apply hne
      rw [← setSubs_subs v ids]
      unfold Val.subs
      rw [he]))
  refine ⟨n, c2, x, ?_, e2, e3, e4, e5, e6, e7, e8⟩
  unfold setSubnodes
  rw [hv]
  simp only
  rw [e1]

/-- The tree with one more subnode at the end. -/
def appended : Tree D true → Tree D true → Tree D true
  | .node k d l ks, x => .node k d l (withResults 0 ks (results 0 ks ++ [x]))

theorem appended_reads {s s2 : Store D} (hs : s <+: s2) {i : Id} {t x : Tree D true} (h : Reads s (b := true) i t) {v w : Val D}
    (hv : s[i]? = some v) {n j : Id} (hj : Reads s2 (b := true) j x) (hw : s2[n]? = some w) (h1 : w.kind = v.kind) (h2 : w.data = v.data)
    (h3 : w.kids = (v.setSubs (v.subs ++ [j])).kids) : Reads s2 (b := true) n (appended t x) := by
  cases t with
  | node k d l ks =>
    obtain ⟨v', hv', hk, hd, hkids⟩ := h
    rw [hv] at hv'
    injection hv' with hv'
    subst hv'
    refine ⟨w, hw, h1.trans hk, h2.trans hd, ?_⟩
    rw [h3]
    refine setSubs_reads (reads_mono hs hkids) ?_
    have := field_reads (reads_mono hs hkids) 0
    exact append_forall₂ this (.cons hj .nil)

theorem number_replace {pre post : List Id} {a b : Id} {f : Step → Id → Id} (h1 : f (subStep pre.length) a = b)
    (h2 : ∀ st i, st ≠ subStep pre.length → f st i = i) :
    (number (pre ++ a :: post)).map (fun k => (k.1, f k.1 k.2)) = number (pre ++ b :: post) := by
  unfold number
  refine List.ext_getElem (by simp) ?_
  intro m hm1 hm2
  simp only [List.getElem_map, List.getElem_mapIdx]
  by_cases hm : m = pre.length
  · subst hm
    simp [h1]
  · rw [h2 _ _ (by simp only [subStep, ne_eq, Step.mk.injEq, Key.idx.injEq, true_and]; exact hm)]
    by_cases hlt : m < pre.length
    · simp [List.getElem_append_left, hlt]
    · simp only [List.length_mapIdx, List.length_append, List.length_cons] at hm2
      rw [List.getElem_append_right (by omega), List.getElem_append_right (by omega)]
      have : m - pre.length ≠ 0 := by omega
      obtain ⟨k, hk⟩ : ∃ k, m - pre.length = k + 1 := ⟨m - pre.length - 1, by omega⟩
      simp [hk]

end

variable {E : Type} [DecidableEq E]

/-- The places of the move: the subnodes of the parent, with the adjacent node before the node. -/
structure Place (s0 : Store (Data E)) (root : Id) (node : Uniq) (q : List Step) (idP : Id) (v : Val (Data E)) (pre post : List Id)
    (adj : Id) (va : Val (Data E)) : Prop where
  nodeRoot : node.root = root
  path : node.path = q ++ [subStep (pre.length + 1)]
  atP : s0.at root q = some idP
  valP : s0[idP]? = some v
  subs : v.subs = pre ++ adj :: node.id :: post
  first : node.id ∉ pre ∧ node.id ≠ adj
  only : node.id ∉ post
  valA : s0[adj]? = some va

/-- The state after the move. -/
structure After (s0 : Store (Data E)) (root : Id) (node : Uniq) (q : List Step) (idP : Id) (v : Val (Data E)) (pre post : List Id)
    (adj : Id) (va : Val (Data E)) (r : Replace) (st st2 : St E) (nP nA : Id) : Prop where
  ext : st.ctx.store <+: st2.ctx.store
  good : Good st2.ctx.store
  edits : st2.edits = st.edits ++ [⟨⟨idP, root, q⟩, ⟨nP, root, q⟩⟩] ++ [⟨⟨adj, root, q ++ [subStep pre.length]⟩, ⟨nA, root, q ++ [subStep pre.length]⟩⟩]
  neP : nP ≠ idP
  neA : nA ≠ adj
  newP : ∃ x, st2.ctx.store[nP]? = some x ∧ x.kind = v.kind ∧ x.data = v.data ∧ x.kids = (v.setSubs (pre ++ adj :: post)).kids
  newA : ∃ x, st2.ctx.store[nA]? = some x ∧ x.kind = va.kind ∧ x.data = va.data ∧
    x.kids = (va.setSubs (va.subs ++ [r.replaced.id])).kids

theorem rootKind_kind {D : Type} {s s' : Store D} {i j : Id} {v w : Val D} (hv : s[i]? = some v) (hw : s'[j]? = some w)
    (h : w.kind = v.kind) : rootKind s' j = rootKind s i := by
  unfold rootKind
  rw [hv, hw]
  simp only [h]

theorem reparent_move {s0 : Store (Data E)} {root : Id} {st : St E} (hinv : Inv s0 root st) {node : Uniq} {q : List Step}
    {idP : Id} {v : Val (Data E)} {pre post : List Id} {adj : Id} {va : Val (Data E)}
    (hpl : Place s0 root node q idP v pre post adj va) (hroot : q = [] → rootKind s0 idP = true)
    {r : Replace} (hr : r ∈ st.edits) (hbelow : ∀ x ∈ st.edits, node.path <+: x.original.path)
    (hka : va.kind = .Subtree) {l : Int} (hlr : level? st.ctx.store r.replaced.id = some l) (hlt : va.data.1 < l) :
    ∃ st2 nP nA, reparent node r st = .ok st2 ∧ After s0 root node q idP v pre post adj va r st st2 nP nA := by
  have hvP : st.ctx.store[idP]? = some v := getElem?_prefix hinv.ext hpl.valP
  have hvA : st.ctx.store[adj]? = some va := getElem?_prefix hinv.ext hpl.valA
  have hsubP : st.ctx.store.subs idP = pre ++ adj :: node.id :: post := by
    unfold Store.subs
    rw [hvP]
    exact hpl.subs
  have hpar : parent st.ctx.store node = .ok (some ⟨idP, root, q⟩) := by
    unfold parent
    have h1 : node.path.dropLast = q := by rw [hpl.path]; simp
    have h2 : node.path.isEmpty = false := by rw [hpl.path]; simp
    rw [h2, h1, hpl.nodeRoot, at_mono hinv.ext hpl.atP]
    simp
  have hidx : (pre ++ adj :: node.id :: post).idxOf node.id = pre.length + 1 := by
    rw [List.idxOf_append_of_notMem hpl.first.1, List.idxOf_cons_ne _ (Ne.symm hpl.first.2), List.idxOf_cons_self]
  have hadj : adjacent st.ctx.store ⟨idP, root, q⟩ node.id (-1) = some ⟨adj, root, q ++ [subStep pre.length]⟩ := by
    have h0 : indexOf st.ctx.store idP node.id = ((pre.length + 1 : Nat) : Int) := by
      unfold indexOf
      rw [hsubP, if_pos (by simp), hidx]
    unfold adjacent
    simp only
    rw [h0, hsubP]
    have h1 : ((pre.length + 1 : Nat) : Int) + -1 = (pre.length : Int) := by omega
    rw [h1, if_pos (by omega), Int.toNat_natCast]
    simp
  have hla : level? st.ctx.store adj = some va.data.1 := by
    unfold level?
    rw [hvA]
    simp only
    rw [if_pos hka]
  -- dropping the node
  have hdl : ∀ i ∈ pre ++ adj :: post, i < st.ctx.store.length := by
    intro i hi
    have hm : i ∈ v.subs := by
      rw [hpl.subs]
      simp only [List.mem_append, List.mem_cons] at hi ⊢
      tauto
    unfold Val.subs at hm
    obtain ⟨k, hk, rfl⟩ := List.mem_map.1 hm
    have := hinv.good.below _ _ hvP k (List.mem_of_mem_filter hk)
    exact Nat.lt_trans this (stored_lt hvP)
  obtain ⟨nP, c1, x, d1, d2, d3, d4, d5, d6, d7, d8⟩ := setSubnodes_new hinv.good ⟨idP, root, q⟩ hvP hdl (by
    rw [hpl.subs]
    intro he
    have := congrArg List.length he
    simp at this)
  have hdrop : dropSubnodeId st.ctx ⟨idP, root, q⟩ node.id = .ok (⟨⟨idP, root, q⟩, ⟨nP, root, q⟩⟩, c1) := by
    unfold dropSubnodeId dropSubnode
    simp only
    rw [hsubP, if_pos (by simp), hidx, if_pos (by constructor <;> simp <;> omega), Int.toNat_natCast]
    have : (pre ++ adj :: node.id :: post).eraseIdx (pre.length + 1) = pre ++ adj :: post := by
      rw [List.eraseIdx_append_of_length_le (by omega)]
      simp
    rw [this, d1]
  have hokd : replaceOk c1.store ⟨⟨idP, root, q⟩, ⟨nP, root, q⟩⟩ = true := by
    have h3 : (⟨idP, root, q⟩ : Uniq) ≠ ⟨nP, root, q⟩ := by
      intro he
      injection he with he
      exact d8 he.symm
    simp only [replaceOk, h3, ne_eq, not_false_eq_true, decide_true, Bool.and_true, Bool.and_eq_true,
      Bool.or_eq_true, Bool.not_eq_eq_eq_not, Bool.not_true, List.isEmpty_eq_false_iff]
    by_cases hq : q = []
    · refine ⟨.inl (rootKind_prefix (hinv.ext.trans d2) (hroot hq)), .inl ?_⟩
      rw [rootKind_kind hpl.valP d4 d5]
      exact hroot hq
    · exact ⟨.inr hq, .inr hq⟩
  have hlen : node.path.length = q.length + 1 := by rw [hpl.path]; simp
  have hfresh1 : ∀ x ∈ st.edits, x.original ≠ ⟨idP, root, q⟩ := by
    intro x hx he
    have := (hbelow x hx).length_le
    rw [he] at this
    simp only at this
    omega
  have hincl1 := incl_ok hfresh1 hokd
  -- appending it to the adjacent node
  have hvA1 : c1.store[adj]? = some va := getElem?_prefix d2 hvA
  obtain ⟨t0, _, hrd⟩ := (hinv.bumped r hr).reads
  have hal : ∀ i ∈ va.subs ++ [r.replaced.id], i < c1.store.length := by
    intro i hi
    rcases List.mem_append.1 hi with hi | hi
    · unfold Val.subs at hi
      obtain ⟨k, hk, rfl⟩ := List.mem_map.1 hi
      have := d3.below _ _ hvA1 k (List.mem_of_mem_filter hk)
      exact Nat.lt_trans this (stored_lt hvA1)
    · rw [List.mem_singleton] at hi
      rw [hi]
      exact Nat.lt_of_lt_of_le (Verif.Eval.reads_lt hrd) d2.length_le
  obtain ⟨nA, c2, y, a1, a2, a3, a4, a5, a6, a7, a8⟩ := setSubnodes_new d3 ⟨adj, root, q ++ [subStep pre.length]⟩ hvA1 hal (by
    intro he
    have := congrArg List.length he
    simp at this)
  have hsubA : c1.store.subs adj = va.subs := by
    unfold Store.subs
    rw [hvA1]
  have happ : appendSubnode c1 ⟨adj, root, q ++ [subStep pre.length]⟩ r.replaced.id =
      .ok (⟨⟨adj, root, q ++ [subStep pre.length]⟩, ⟨nA, root, q ++ [subStep pre.length]⟩⟩, c2) := by
    unfold appendSubnode insertSubnode
    simp only
    rw [hsubA, if_pos ⟨by omega, Int.le_refl _⟩, Int.toNat_natCast]
    have : va.subs.insertIdx va.subs.length r.replaced.id = va.subs ++ [r.replaced.id] := by
      rw [insertIdx_take _ _ _ (Nat.le_refl _)]
      simp
    rw [this, a1]
  have hoka : replaceOk c2.store ⟨⟨adj, root, q ++ [subStep pre.length]⟩, ⟨nA, root, q ++ [subStep pre.length]⟩⟩ = true := by
    have h3 : (⟨adj, root, q ++ [subStep pre.length]⟩ : Uniq) ≠ ⟨nA, root, q ++ [subStep pre.length]⟩ := by
      intro he
      injection he with he
      exact a8 he.symm
    simp [replaceOk, h3]
  have hincl2 := incl_ok (rs := st.edits ++ [⟨⟨idP, root, q⟩, ⟨nP, root, q⟩⟩])
    (r := ⟨⟨adj, root, q ++ [subStep pre.length]⟩, ⟨nA, root, q ++ [subStep pre.length]⟩⟩) (by
    intro x hx
    rcases List.mem_append.1 hx with hx | hx
    · intro he
      have h1 := hbelow x hx
      rw [he, hpl.path] at h1
      have := snoc_ne h1 (List.prefix_refl (q ++ [subStep pre.length]))
      omega
    · rw [List.mem_singleton] at hx
      subst hx
      intro he
      simp only [Uniq.mk.injEq] at he
      have := congrArg List.length he.2.2
      simp at this) hoka
  refine ⟨⟨c2, st.edits ++ [⟨⟨idP, root, q⟩, ⟨nP, root, q⟩⟩] ++ [⟨⟨adj, root, q ++ [subStep pre.length]⟩, ⟨nA, root, q ++ [subStep pre.length]⟩⟩]⟩,
    nP, nA, ?_, ⟨d2.trans a2, a3, rfl, d8, a8, ⟨x, getElem?_prefix a2 d4, d5, d6, d7⟩, ⟨y, a4, a5, a6, a7⟩⟩⟩
  unfold reparent
  rw [hpar]
  simp only
  rw [hadj]
  simp only
  rw [hla]
  simp only
  rw [hlr]
  simp only
  rw [if_pos hlt, hdrop]
  simp only
  rw [hincl1]
  simp only
  rw [happ]
  simp only
  rw [hincl2]

/-- The new version. -/
theorem case_move {srt : List (Step × Id) → List (Step × Id)} (hk : Keeps srt) {s0 : Store (Data E)}
    {root : Id} {st st2 : St E} (hinv : Inv s0 root st) {T : Tree (Data E) true} (hT : Reads s0 (b := true) root T)
    (hroot : isRoot T = true) {node : Uniq} {q : List Step}
    {idP : Id} (hqo : q = [] → rootKind s0 idP = true) {v : Val (Data E)} {pre post : List Id} {adj : Id} {va : Val (Data E)}
    (hpl : Place s0 root node q idP v pre post adj va) {r : Replace} (hr : r ∈ st.edits)
    (hbelow : ∀ x ∈ st.edits, node.path <+: x.original.path) {nP nA : Id}
    (ha : After s0 root node q idP v pre post adj va r st st2 nP nA)
    {kd : Kind} {d : Data E} {l : Option Nat} {ks : Tree (Data E) false} (hP : Reads s0 (b := true) idP (.node kd d l ks))
    {ta x : Tree (Data E) true} (hta : Reads s0 (b := true) adj ta) (hx : Reads st.ctx.store (b := true) r.replaced.id x)
    {tpre tpost : List (Tree (Data E) true)}
    (hpre : List.Forall₂ (fun (a : Id) (b : Tree (Data E) true) => Reads s0 (b := true) a b) pre tpre)
    (hpost : List.Forall₂ (fun (a : Id) (b : Tree (Data E) true) => Reads s0 (b := true) a b) post tpost)
    {fuel : Nat} (hf : 3 + 2 * depth T ≤ fuel) :
    ∃ id' c', cascade srt fuel st2.ctx root st2.edits = .ok (id', c') ∧ st2.ctx.store <+: c'.store ∧
      Reads c'.store (b := true) id'
        (substitute (putAt q (.node kd d l (withResults 0 ks (tpre ++ appended ta x :: tpost)))) [] T) := by
  obtain ⟨xP, hxP, kP1, kP2, kP3⟩ := ha.newP
  obtain ⟨xA, hxA, kA1, kA2, kA3⟩ := ha.newA
  have hext := hinv.ext.trans ha.ext
  obtain ⟨v', hv', hkd, hd, hks⟩ := hP
  rw [hpl.valP] at hv'
  injection hv' with hv'
  subst hv'
  let dP : Replace := ⟨⟨idP, root, q⟩, ⟨nP, root, q⟩⟩
  let dA : Replace := ⟨⟨adj, root, q ++ [subStep pre.length]⟩, ⟨nA, root, q ++ [subStep pre.length]⟩⟩
  have hedits : st2.edits = st.edits ++ [dP] ++ [dA] := ha.edits
  have hmem : ∀ y, y ∈ st2.edits ↔ y ∈ st.edits ∨ y = dP ∨ y = dA := by
    intro y
    rw [hedits]
    simp [or_assoc]
  have hgoodP : (subStep pre.length, adj) ∈ v.kids := by
    have hidx : v.subs[pre.length]? = some adj := by rw [hpl.subs]; simp
    rw [← shaped_subs (ha.good.shaped _ _ (getElem?_prefix hext hpl.valP)), Val.setSubs]
    refine List.mem_append_left _ ?_
    rw [number, List.mem_mapIdx]
    obtain ⟨h1, h2⟩ := List.getElem?_eq_some_iff.1 hidx
    exact ⟨_, h1, by rw [h2]⟩
  have hatP : st2.ctx.store.at root q = some idP := at_mono hext hpl.atP
  have hatA : st2.ctx.store.at root (q ++ [subStep pre.length]) = some adj :=
    at_kid ha.good hatP (getElem?_prefix hext hpl.valP) hgoodP
  have hatN : st2.ctx.store.at root node.path = some node.id := by
    rw [hpl.path]
    refine at_sub ha.good hatP (getElem?_prefix hext hpl.valP) ?_
    rw [hpl.subs]
    simp
  have hneP : (⟨idP, root, q⟩ : Uniq) ≠ ⟨nP, root, q⟩ := by
    intro he
    injection he with he
    exact ha.neP he.symm
  have hneA : (⟨adj, root, q ++ [subStep pre.length]⟩ : Uniq) ≠ ⟨nA, root, q ++ [subStep pre.length]⟩ := by
    intro he
    injection he with he
    exact ha.neA he.symm
  have hlen : node.path.length = q.length + 1 := by rw [hpl.path]; simp
  have hpos : ∀ y ∈ st2.edits, y.original.root = root ∧ st2.ctx.store.at root y.original.path = some y.original.id := by
    intro y hy
    rcases (hmem y).1 hy with hy | rfl | rfl
    · exact ⟨(hinv.bumped y hy).pos.1, at_mono hext (hinv.bumped y hy).pos.2⟩
    · exact ⟨rfl, hatP⟩
    · exact ⟨rfl, hatA⟩
  have hokA : ∀ s' : Store (Data E), replaceOk s' dA = true := by
    intro s'
    simp [replaceOk, dA, hneA]
  have hrootP : q = [] → ∀ s', st2.ctx.store <+: s' → rootKind s' idP = true ∧ rootKind s' nP = true := by
    intro he s' hs'
    refine ⟨rootKind_prefix (hext.trans hs') (hqo he), ?_⟩
    rw [rootKind_kind hpl.valP (getElem?_prefix hs' hxP) kP1]
    exact hqo he
  have hok : ∀ y ∈ st2.edits, replaceOk st2.ctx.store y = true := by
    intro y hy
    rcases (hmem y).1 hy with hy | rfl | rfl
    · exact bumped_replaceOk (hinv.bumped y hy) hinv.ext
    · simp only [replaceOk, dP, hneP, ne_eq, not_false_eq_true, decide_true, Bool.and_true, Bool.and_eq_true,
        Bool.or_eq_true, Bool.not_eq_eq_eq_not, Bool.not_true, List.isEmpty_eq_false_iff]
      by_cases hq : q = []
      · obtain ⟨h1, h2⟩ := hrootP hq _ (List.prefix_refl _)
        exact ⟨.inl h1, .inl h2⟩
      · exact ⟨.inr hq, .inr hq⟩
    · exact hokA _
  have hnd : (st2.edits.map (·.original)).Nodup := by
    rw [hedits, List.map_append, List.map_append, List.nodup_append, List.nodup_append]
    refine ⟨⟨hinv.nodup, by simp, ?_⟩, by simp, ?_⟩
    · intro a ha' b hb
      obtain ⟨y, hy, rfl⟩ := List.mem_map.1 ha'
      simp only [List.map_cons, List.map_nil, List.mem_singleton] at hb
      subst hb
      intro he
      have := (hbelow y hy).length_le
      rw [he] at this
      simp only [dP] at this
      omega
    · intro a ha' b hb
      simp only [List.map_cons, List.map_nil, List.mem_singleton] at hb
      subst hb
      rcases List.mem_append.1 ha' with ha' | ha'
      · obtain ⟨y, hy, rfl⟩ := List.mem_map.1 ha'
        intro he
        have h1 := hbelow y hy
        rw [he, hpl.path] at h1
        have := snoc_ne h1 (List.prefix_refl (q ++ [subStep pre.length]))
        omega
      · simp only [List.map_cons, List.map_nil, List.mem_singleton] at ha'
        subst ha'
        intro he
        simp only [dP, dA, Uniq.mk.injEq] at he
        have := congrArg List.length he.2.2
        simp at this
  refine cascade_single hk ha.good (reads_mono hext hT) hroot (by rw [hedits]; simp) hpos hnd hok hatP ?_ (F := 3) ?_ hf
  · intro y hy
    rcases (hmem y).1 hy with hy | rfl | rfl
    · refine List.IsPrefix.trans ?_ (hbelow y hy)
      rw [hpl.path]
      exact List.prefix_append _ _
    · exact List.prefix_refl _
    · exact List.prefix_append _ _
  intro ps hps c1 fuel1 hpre1 hint hf1
  obtain ⟨n, rfl⟩ : ∃ n, fuel1 = n + 3 := ⟨fuel1 - 3, by omega⟩
  have hin : (⟨idP, root, q⟩ : Uniq) ∈ ps := by
    rw [hps]
    refine ⟨dA, (hmem _).2 (.inr (.inr rfl)), rfl, hatP, .inl ⟨List.prefix_append _ _, ?_⟩⟩
    intro he
    have := congrArg List.length he
    simp [dA] at this
  have hedP : edit? st2.edits ⟨idP, root, q⟩ = some ⟨nP, root, q⟩ := edit?_self hnd (r := dP) ((hmem _).2 (.inr (.inl rfl)))
  have hedA : edit? st2.edits ⟨adj, root, q ++ [subStep pre.length]⟩ = some ⟨nA, root, q ++ [subStep pre.length]⟩ :=
    edit?_self hnd (r := dA) ((hmem _).2 (.inr (.inr rfl)))
  have hxP1 : c1.store[nP]? = some xP := getElem?_prefix hpre1 hxP
  let f : Step → Id → Id := fun s i => if s = subStep pre.length then nA else i
  -- which subnodes of the new parent are touched
  have htouch : ∀ k ∈ xP.kids, ∀ y ∈ st2.edits, q ++ [k.1] <+: y.original.path →
      st2.ctx.store.at root (q ++ [k.1]) = some k.2 → y = dA ∧ k.1 = subStep pre.length := by
    intro k hkm y hy hyp hka
    rcases (hmem y).1 hy with hy | rfl | rfl
    · exfalso
      have h1 := hbelow y hy
      rw [hpl.path] at h1
      obtain ⟨a, ha1⟩ := hyp
      obtain ⟨b, hb1⟩ := h1
      rw [← ha1, List.append_assoc, List.append_assoc, List.append_cancel_left_eq] at hb1
      simp only [List.cons_append, List.nil_append, List.cons.injEq] at hb1
      have hk1 := hb1.1.symm
      rw [hk1, ← hpl.path, hatN] at hka
      injection hka with hka
      rw [kP3, Val.setSubs] at hkm
      rcases List.mem_append.1 hkm with hkm | hkm
      · rw [number, List.mem_mapIdx] at hkm
        obtain ⟨m, hm, he⟩ := hkm
        have he1 := congrArg Prod.fst he
        have he2 := congrArg Prod.snd he
        simp only at he1 he2
        rw [hk1] at he1
        simp only [subStep, Step.mk.injEq, Key.idx.injEq, true_and] at he1
        subst he1
        rw [List.getElem_append_right (by omega)] at he2
        simp only [Nat.add_sub_cancel_left, List.getElem_cons_succ] at he2
        exact hpl.only (by rw [hka, ← he2]; exact List.getElem_mem _)
      · have := (List.mem_filter.1 hkm).2
        rw [hk1] at this
        simp [subStep] at this
    · exfalso
      have := hyp.length_le
      simp [dP] at this
      omega
    · refine ⟨rfl, ?_⟩
      obtain ⟨a, ha1⟩ := hyp
      simp only [dA] at ha1
      rw [List.append_assoc, List.append_cancel_left_eq] at ha1
      simp only [List.cons_append, List.nil_append, List.cons.injEq] at ha1
      exact ha1.1
  have hkidA : ∀ k ∈ xP.kids, k.1 = subStep pre.length → k.2 = adj := by
    intro k hkm he
    rw [kP3, Val.setSubs] at hkm
    rcases List.mem_append.1 hkm with hkm | hkm
    · rw [number, List.mem_mapIdx] at hkm
      obtain ⟨m, hm, rfl⟩ := hkm
      simp only [subStep, Step.mk.injEq, Key.idx.injEq, true_and] at he
      subst he
      simp
    · have := (List.mem_filter.1 hkm).2
      rw [he] at this
      simp [subStep] at this
  have hrun : ∀ k ∈ xP.kids, recurse srt st2.edits ps (n + 1) ⟨k.2, root, q ++ [k.1]⟩ c1 = .ok (f k.1 k.2, c1) := by
    intro k hkm
    have hnps : (⟨k.2, root, q ++ [k.1]⟩ : Uniq) ∉ ps := by
      intro hx'
      obtain ⟨y, hy, _, h2, ⟨h3, h4⟩ | h3⟩ := (hps _).1 hx'
      · obtain ⟨rfl, h6⟩ := htouch k hkm y hy h3 h2
        apply h4
        simp only [dA]
        rw [h6]
      · simp at h3
    rw [recurse, if_neg hnps]
    by_cases hks' : k.1 = subStep pre.length
    · rw [hkidA k hkm hks', hks', hedA]
      simp only
      rw [if_pos (hokA _)]
      simp only [f, if_true]
    · have : edit? st2.edits ⟨k.2, root, q ++ [k.1]⟩ = none := by
        cases he : edit? st2.edits ⟨k.2, root, q ++ [k.1]⟩ with
        | none => rfl
        | some e =>
          obtain ⟨y, hy, h1, _⟩ := edit?_mem he
          have h2 := (hpos y hy).2
          rw [h1] at h2
          exact absurd (htouch k hkm y hy (by rw [h1]) h2).2 hks'
      rw [this]
      simp only [f, hks', if_false]
  have hlist : recurseList srt st2.edits ps (n + 2) (c1.store.subnodes ⟨nP, root, q⟩) c1 =
      .ok (xP.kids.map (fun k => f k.1 k.2), c1) := by
    have hsn : c1.store.subnodes ⟨nP, root, q⟩ = xP.kids.map (fun k : Step × Id => (⟨k.2, root, q ++ [k.1]⟩ : Uniq)) := by
      simp only [Store.subnodes, Store.kids]
      rw [hxP1]
    have key : ∀ (l : List (Step × Id)), (∀ k ∈ l, recurse srt st2.edits ps (n + 1) ⟨k.2, root, q ++ [k.1]⟩ c1 = .ok (f k.1 k.2, c1)) →
        recurseList srt st2.edits ps (n + 2) (l.map (fun k : Step × Id => (⟨k.2, root, q ++ [k.1]⟩ : Uniq))) c1 =
          .ok (l.map (fun k => f k.1 k.2), c1) := by
      intro l
      induction l with
      | nil => intro _; simp [recurseList]
      | cons k l ih =>
        intro h
        rw [List.map_cons, recurseList, h k (by simp)]
        simp only
        rw [ih (fun y hy => h y (by simp [hy]))]
        simp
    rw [hsn]
    exact key _ hrun
  have hzip : List.zip (xP.kids.map (·.1)) (xP.kids.map (fun k => f k.1 k.2)) = (v.setSubs (pre ++ nA :: post)).kids := by
    have h1 : List.zip (xP.kids.map (·.1)) (xP.kids.map (fun k => f k.1 k.2)) = xP.kids.map (fun k => (k.1, f k.1 k.2)) := by
      rw [List.zip_map']
    rw [h1, kP3, Val.setSubs, Val.setSubs, List.map_append]
    congr 1
    · exact number_replace (by simp [f]) (by intro s i hs; simp [f, hs])
    · rw [List.map_congr_left (g := id)]
      · simp
      · intro k hkm
        have := (List.mem_filter.1 hkm).2
        have hks' : k.1 ≠ subStep pre.length := by
          intro he
          rw [he] at this
          simp [subStep] at this
        simp [f, hks']
  have hshP : Shaped (v.kids.map (·.1)) := ha.good.shaped _ _ (getElem?_prefix hext hpl.valP)
  have hchg : ¬ xP.kids.map (fun k => f k.1 k.2) = xP.kids.map (·.2) := by
    intro he
    have h1 : (v.setSubs (pre ++ nA :: post)).kids = xP.kids := by
      rw [← hzip, he]
      have : ∀ l : List (Step × Id), List.zip (l.map (·.1)) (l.map (·.2)) = l := by
        intro l
        rw [List.zip_map']
        simp
      exact this _
    rw [kP3] at h1
    have h2 := setSubs_subs v (pre ++ nA :: post)
    unfold Val.subs at h2
    rw [h1] at h2
    have h3 := setSubs_subs v (pre ++ adj :: post)
    unfold Val.subs at h3
    rw [h3] at h2
    simp only [List.append_cancel_left_eq, List.cons.injEq, and_true] at h2
    exact ha.neA h2.symm
  rw [recurse, if_pos hin, hedP]
  simp only [Option.getD_some]
  rw [hlist]
  simp only
  have hkk : c1.store.kids nP = xP.kids := by simp only [Store.kids]; rw [hxP1]
  rw [hkk, if_neg hchg, hxP1]
  simp only
  rw [hzip, newKids_self hk (by exact setSubs_shaped hshP _) (by
    rw [← hzip, List.map_fst_zip]
    simp)]
  simp only
  obtain ⟨m, c2, z, e1, e2, e3, e4, e5, e6, e7⟩ := setNode_raw (c := c1) ⟨nP, root, q⟩
    (w := { xP with kids := (v.setSubs (pre ++ nA :: post)).kids }) hxP1 (same_false_kids (by
      simp only
      rw [← hzip]
      intro he
      apply hchg
      have := congrArg (List.map (·.2)) he
      rw [List.map_snd_zip (by simp)] at this
      exact this))
  rw [e1]
  simp only
  have hpre2 : c1.store <+: c2.store := by rw [e2]; exact add_prefix _ _
  have hok2 : replaceOk c2.store ⟨⟨nP, root, q⟩, ⟨m, root, q⟩⟩ = true := by
    have h3 : (⟨nP, root, q⟩ : Uniq) ≠ ⟨m, root, q⟩ := by
      intro he
      injection he with he
      exact e7 he.symm
    simp only [replaceOk, h3, ne_eq, not_false_eq_true, decide_true, Bool.and_true, Bool.and_eq_true,
      Bool.or_eq_true, Bool.not_eq_eq_eq_not, Bool.not_true, List.isEmpty_eq_false_iff]
    by_cases hq : q = []
    · refine ⟨.inl (hrootP hq _ (hpre1.trans hpre2)).2, .inl ?_⟩
      rw [rootKind_kind hxP e3 e4]
      exact (hrootP hq _ (List.prefix_refl _)).2
    · exact ⟨.inr hq, .inr hq⟩
  rw [if_pos hok2]
  have hall : s0 <+: c2.store := hext.trans (hpre1.trans hpre2)
  refine ⟨m, c2, rfl, hpre2, by rw [e2]; exact add_interned hint _, ?_, ?_⟩
  · refine ⟨z, e3, e4.trans (kP1.trans hkd), e5.trans (kP2.trans hd), ?_⟩
    rw [e6]
    refine setSubs_reads (reads_mono hall hks) ?_
    have hm : ∀ {a : List Id} {b : List (Tree (Data E) true)},
        List.Forall₂ (fun (a : Id) (b : Tree (Data E) true) => Reads s0 (b := true) a b) a b →
        List.Forall₂ (fun (a : Id) (b : Tree (Data E) true) => Reads c2.store (b := true) a b) a b :=
      fun h => by
        induction h with
        | nil => exact .nil
        | cons hab _ ih => exact .cons (reads_mono hall hab) ih
    refine append_forall₂ (hm hpre) (.cons ?_ (hm hpost))
    exact reads_mono (hpre1.trans hpre2) (appended_reads hext hta hpl.valA (reads_mono ha.ext hx) hxA kA1 kA2 kA3)
  · intro he
    rw [he, getElem?_prefix hall hpl.valP] at e3
    injection e3 with e3
    subst e3
    have h1 := setSubs_subs v (pre ++ nA :: post)
    unfold Val.subs at h1
    simp only at e6
    rw [← e6] at h1
    have h2 := hpl.subs
    unfold Val.subs at h2
    rw [h2] at h1
    have := congrArg List.length h1
    simp at this

end Verif.Demote
