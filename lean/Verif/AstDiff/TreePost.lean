import Verif.AstDiff.TreeZs
import Mathlib.Data.List.Nodup

/-!
# Postorder and leftmost descendants

The numbering `Subtree` gives to the nodes of a subtree is that of a postorder traversal, and the leftmost descendant of a
node is the first node of its block.
-/

namespace Verif.AstDiff

mutual
/-- the indices of the nodes in postorder -/
def posts : T → Nat → List Nat
  | .node _ _ _ subs, off => postss subs (off + 1) ++ [off]
def postss : List T → Nat → List Nat
  | [], _ => []
  | t :: ts, off => posts t off ++ postss ts (off + t.size)
end

mutual
/-- the number of the first node of the block of each node, in postorder, when the first number is `b` -/
def lms : T → Nat → List Nat
  | .node _ _ _ subs, b => lmss subs b ++ [b]
def lmss : List T → Nat → List Nat
  | [], _ => []
  | t :: ts, b => lms t b ++ lmss ts (b + t.size)
end

mutual
/-- the length of the way to the leftmost leaf -/
def T.left : T → Nat
  | .node _ _ _ subs => lefts subs
def lefts : List T → Nat
  | [] => 0
  | t :: _ => t.left + 1
end

theorem left_eq (t : T) : t.left = lefts t.subs := by cases t; rfl

mutual
theorem posts_length : ∀ (t : T) (off : Nat), (posts t off).length = t.size
  | .node _ _ _ subs, off => by simp [posts, T.size, postss_length subs]
theorem postss_length : ∀ (ts : List T) (off : Nat), (postss ts off).length = sizes ts
  | [], _ => by simp [postss, sizes]
  | t :: ts, off => by simp [postss, sizes, posts_length t, postss_length ts]
end

mutual
theorem lms_length : ∀ (t : T) (b : Nat), (lms t b).length = t.size
  | .node _ _ _ subs, b => by simp [lms, T.size, lmss_length subs]
theorem lmss_length : ∀ (ts : List T) (b : Nat), (lmss ts b).length = sizes ts
  | [], _ => by simp [lmss, sizes]
  | t :: ts, b => by simp [lmss, sizes, lms_length t, lmss_length ts]
end

mutual
theorem lms_shift : ∀ (t : T) (b c : Nat), lms t (b + c) = (lms t b).map (· + c)
  | .node _ _ _ subs, b, c => by simp [lms, lmss_shift subs]
theorem lmss_shift : ∀ (ts : List T) (b c : Nat), lmss ts (b + c) = (lmss ts b).map (· + c)
  | [], _, _ => by simp [lmss]
  | t :: ts, b, c => by
    rw [lmss, lmss, List.map_append, lms_shift t, show b + c + t.size = b + t.size + c by omega, lmss_shift ts]
end

mutual
theorem mem_posts : ∀ (t : T) (off x : Nat), x ∈ posts t off ↔ off ≤ x ∧ x < off + t.size
  | .node _ _ _ subs, off, x => by
    rw [posts, List.mem_append, mem_postss subs, T.size]
    simp
    omega
theorem mem_postss : ∀ (ts : List T) (off x : Nat), x ∈ postss ts off ↔ off ≤ x ∧ x < off + sizes ts
  | [], off, x => by simp [postss, sizes]
  | t :: ts, off, x => by
    rw [postss, List.mem_append, mem_posts t, mem_postss ts, sizes]
    omega
end

mutual
theorem posts_nodup : ∀ (t : T) (off : Nat), (posts t off).Nodup
  | .node _ _ _ subs, off => by
    rw [posts, List.nodup_append]
    refine ⟨postss_nodup subs _, by simp, ?_⟩
    intro a ha b hb
    rw [mem_postss] at ha
    simp at hb
    omega
theorem postss_nodup : ∀ (ts : List T) (off : Nat), (postss ts off).Nodup
  | [], _ => by simp [postss]
  | t :: ts, off => by
    rw [postss, List.nodup_append]
    refine ⟨posts_nodup t _, postss_nodup ts _, ?_⟩
    intro a ha b hb
    rw [mem_posts] at ha
    rw [mem_postss] at hb
    omega
end

mutual
theorem posts_head : ∀ (t : T) (off : Nat), (posts t off).head? = some (off + t.left)
  | .node _ _ _ [], off => by simp [posts, postss, T.left, lefts]
  | .node _ _ _ (t :: ts), off => by
    have h := posts_head t (off + 1)
    rw [posts, postss, T.left, lefts]
    simp only [List.head?_append, h]
    simp
    omega
end

/-- The nodes from `off` on are those of the trees `ts`. -/
def Ats (nodes : List Node) (off : Nat) (par : Option Nat) (dep : Nat) (ts : List T) : Prop :=
  ∀ (k : Nat) (c : T), ts[k]? = some c → At nodes (off + sizes (ts.take k)) par dep c

theorem Ats.head {nodes : List Node} {off par dep t ts} (h : Ats nodes off par dep (t :: ts)) : At nodes off par dep t := by
  have := h 0 t rfl
  simpa [sizes] using this

theorem Ats.tail {nodes : List Node} {off par dep t ts} (h : Ats nodes off par dep (t :: ts)) : Ats nodes (off + t.size) par dep ts := by
  intro k c hc
  have := h (k + 1) c (by simpa using hc)
  simpa [sizes, Nat.add_assoc] using this

theorem At.children {nodes : List Node} {off par dep t} (h : At nodes off par dep t) : Ats nodes (off + 1) (some off) (dep + 1) t.subs :=
  fun _ _ hc => h.child hc

mutual
theorem postorder_eq : ∀ (t : T) {nodes : List Node} {n off par dep}, At nodes off par dep t → t.height ≤ n → postorder nodes n off = posts t off
  | .node i k v subs, nodes, n, off, par, dep, h, hn => by
    obtain ⟨n, rfl⟩ : ∃ j, n = j + 1 := ⟨n - 1, by rw [height_eq] at hn; omega⟩
    rw [postorder, h.node, posts]
    rw [height_eq] at hn
    simp only [T.subs] at hn ⊢
    rw [postorders_eq subs h.children (by omega)]
theorem postorders_eq : ∀ (ts : List T) {nodes : List Node} {n off par dep}, Ats nodes off par dep ts → heights ts ≤ n →
    (offsets ts off).flatMap (postorder nodes n) = postss ts off
  | [], _, _, _, _, _, _, _ => by simp [offsets, postss]
  | t :: ts, nodes, n, off, par, dep, h, hn => by
    simp only [heights] at hn
    rw [offsets, List.flatMap_cons, postorder_eq t h.head (by omega), postorders_eq ts h.tail (by omega), postss]
end

mutual
theorem height_le_size : ∀ (t : T), t.height ≤ t.size
  | .node i k v subs => by
    rw [height_eq, T.size]
    have := heights_le_sizes subs
    simpa [T.subs] using this
theorem heights_le_sizes : ∀ (ts : List T), heights ts ≤ sizes ts
  | [] => by simp [heights]
  | t :: ts => by
    have := height_le_size t
    have := heights_le_sizes ts
    simp only [heights, sizes]
    omega
end

theorem At.postorder {S : SynTree} {off par dep t} (h : At S.nodes off par dep t) : postorder S.nodes S.size off = posts t off := by
  refine postorder_eq t h ?_
  have := height_le_size t
  have := h.range
  rw [SynTree.size]
  omega

/-! ## The tree at an index -/

/-- There is only one tree at an index. -/
theorem At.unique {nodes : List Node} : ∀ (n : Nat) {off par dep t par' dep' u}, t.height ≤ n → At nodes off par dep t → At nodes off par' dep' u → t = u
  | 0, off, par, dep, t, par', dep', u, hn, _, _ => by rw [height_eq] at hn; omega
  | n + 1, off, par, dep, .node i k v subs, par', dep', .node i' k' v' subs', hn, h, h' => by
    have e := h.node
    rw [h'.node] at e
    simp only [T.subs, T.id, T.kind, T.val, Node.mk.injEq] at e
    obtain ⟨_, _, _, _, e5, e6, e7, e8⟩ := e
    have hlen : subs.length = subs'.length := by
      rw [← offsets_length subs (off + 1), ← offsets_length subs' (off + 1), e5]
    have : subs = subs' := by
      apply List.ext_getElem?
      intro j
      cases hc : subs[j]? with
      | none =>
        rw [List.getElem?_eq_none_iff] at hc
        rw [eq_comm, List.getElem?_eq_none_iff]
        omega
      | some c =>
        have hj := (List.getElem?_eq_some_iff.1 hc).1
        rw [hlen] at hj
        have hc' := List.getElem?_eq_getElem hj
        have q1 := offsets_get subs (off + 1) j c hc
        have q2 := offsets_get subs' (off + 1) j _ hc'
        rw [e5, q1] at q2
        have q2 := Option.some.inj q2
        have a1 := h.child (k := j) hc
        have a2 := h'.child (k := j) hc'
        simp only [T.subs] at a1 a2
        rw [q2] at a1
        have hh := heights_le hc
        rw [height_eq] at hn
        rw [hc', At.unique n (by simp only [T.subs] at hn; omega) a1 a2]
    rw [this, ← e6, ← e7, ← e8]

/-- The parent of a node below the root of a subtree. -/
theorem At.above {nodes : List Node} : ∀ (n : Nat) {off par dep} {t : T}, t.height ≤ n → At nodes off par dep t → ∀ x, off < x → x < off + t.size →
    ∃ p pp pd v k u, At nodes x (some p) (pd + 1) u ∧ At nodes p pp pd v ∧ v.subs[k]? = some u ∧ x = p + 1 + sizes (v.subs.take k)
  | 0, off, par, dep, t, h, _, _, _, _ => by rw [height_eq] at h; omega
  | n + 1, off, par, dep, t, h, hat, x, h1, h2 => by
    have hi : x - (off + 1) < sizes t.subs := by rw [size_eq] at h2; omega
    obtain ⟨k, c, hc, h3, h4⟩ := split_index hi
    have hch := heights_le hc
    have hs := sizes_take_lt hc
    rw [height_eq] at h
    by_cases e2 : off + 1 + sizes (t.subs.take k) = x
    · subst e2
      exact ⟨off, par, dep, t, k, c, hat.child hc, hat, hc, rfl⟩
    · exact At.above n (t := c) (by omega) (hat.child hc) x (by omega) (by omega)

/-- The node above a node, for a tree made by `FromNode`. -/
theorem made_above {S : SynTree} (hS : Made S) {x par dep u} (hat : At S.nodes x par dep u) :
    (x = 0 ∧ par = none) ∨ ∃ p pp pd v k, par = some p ∧ dep = pd + 1 ∧ At S.nodes p pp pd v ∧ v.subs[k]? = some u ∧
      x = p + 1 + sizes (v.subs.take k) := by
  obtain ⟨t, rfl⟩ := hS
  by_cases h0 : x = 0
  · subst h0
    exact .inl ⟨rfl, (At.same hat (at_root t)).2.2.1⟩
  · right
    have hlt := hat.lt
    rw [fromNode_size] at hlt
    obtain ⟨p, pp, pd, v, k, u', h1, h2, h3, h4⟩ := At.above _ (Nat.le_refl _) (at_root t) x (by omega) (by omega)
    obtain rfl := At.unique _ (Nat.le_refl _) hat h1
    obtain ⟨_, _, e1, e2⟩ := At.same hat h1
    exact ⟨p, pp, pd, v, k, e1, e2, h2, h3, h4⟩

/-! ## Leaves -/

mutual
theorem leaves_sound : ∀ (t : T) {nodes : List Node} {off par dep}, At nodes off par dep t → ∀ x ∈ leavesOf t off,
    ∃ par' dep' u, At nodes x par' dep' u ∧ u.subs = []
  | .node i k v subs, nodes, off, par, dep, h, x, hx => by
    rw [leavesOf, List.mem_append] at hx
    rcases hx with hx | hx
    · exact leavess_sound subs h.children x hx
    · split at hx
      · rename_i he
        simp at hx
        subst hx
        exact ⟨par, dep, _, h, by simpa [T.subs] using he⟩
      · simp at hx
theorem leavess_sound : ∀ (ts : List T) {nodes : List Node} {off par dep}, Ats nodes off par dep ts → ∀ x ∈ leavesOfs ts off,
    ∃ par' dep' u, At nodes x par' dep' u ∧ u.subs = []
  | [], _, _, _, _, _, x, hx => by simp [leavesOfs] at hx
  | t :: ts, nodes, off, par, dep, h, x, hx => by
    rw [leavesOfs, List.mem_append] at hx
    rcases hx with hx | hx
    · exact leaves_sound t h.head x hx
    · exact leavess_sound ts h.tail x hx
end

mutual
theorem leaves_complete : ∀ (t : T) {nodes : List Node} {off par dep}, At nodes off par dep t → ∀ x par' dep' u, off ≤ x → x < off + t.size →
    At nodes x par' dep' u → u.subs = [] → x ∈ leavesOf t off
  | .node i k v subs, nodes, off, par, dep, h, x, par', dep', u, h1, h2, h3, h4 => by
    rw [leavesOf, List.mem_append]
    by_cases e : x = off
    · subst e
      right
      obtain rfl := At.unique _ (Nat.le_refl _) h h3
      simp only [T.subs] at h4
      simp [h4]
    · left
      rw [T.size] at h2
      exact leavess_complete subs h.children x par' dep' u (by omega) (by omega) h3 h4
theorem leavess_complete : ∀ (ts : List T) {nodes : List Node} {off par dep}, Ats nodes off par dep ts → ∀ x par' dep' u, off ≤ x → x < off + sizes ts →
    At nodes x par' dep' u → u.subs = [] → x ∈ leavesOfs ts off
  | [], nodes, off, par, dep, h, x, par', dep', u, h1, h2, h3, h4 => by simp only [sizes] at h2; omega
  | t :: ts, nodes, off, par, dep, h, x, par', dep', u, h1, h2, h3, h4 => by
    rw [leavesOfs, List.mem_append]
    rw [sizes] at h2
    by_cases e : x < off + t.size
    · exact .inl (leaves_complete t h.head x par' dep' u h1 e h3 h4)
    · exact .inr (leavess_complete ts h.tail x par' dep' u (by omega) (by omega) h3 h4)
end

mutual
/-- the leftmost leaf -/
theorem at_left : ∀ (t : T) {nodes : List Node} {off par dep}, At nodes off par dep t → t.left < t.size ∧
    ∃ par' dep' u, At nodes (off + t.left) par' dep' u ∧ u.subs = []
  | .node i k v [], nodes, off, par, dep, h => ⟨by simp [T.left, lefts, T.size], par, dep, _, h, rfl⟩
  | .node i k v (c :: cs), nodes, off, par, dep, h => by
    obtain ⟨h0, p, d, u, h1, h2⟩ := at_left c h.children.head
    rw [T.left, lefts, T.size, sizes]
    rw [show off + 1 + c.left = off + (c.left + 1) by omega] at h1
    exact ⟨by omega, p, d, u, h1, h2⟩
end

/-! ## Leftmost descendants -/

/-- All leftmost descendants that are set are right. -/
def LmdOk (nodes : List Node) (f : Nat → Option Nat) : Prop :=
  ∀ (x v : Nat), f x = some v → ∃ par dep u, At nodes x par dep u ∧ v = x + u.left

theorem LmdOk.upd {nodes : List Node} {f : Nat → Option Nat} (h : LmdOk nodes f) {x par dep u} (hat : At nodes x par dep u) :
    LmdOk nodes (upd f x (some (x + u.left))) := by
  intro y v e
  rw [upd_apply] at e
  split at e
  · rename_i e1
    subst e1
    exact ⟨par, dep, u, hat, (Option.some.inj e).symm⟩
  · exact h y v e

theorem lmdUp_ok {S : SynTree} (hS : Made S) : ∀ (n cur leaf : Nat) (f : Nat → Option Nat) {par dep u}, At S.nodes cur par dep u → leaf = cur + u.left →
    LmdOk S.nodes f → LmdOk S.nodes (lmdUp S.nodes leaf n cur f)
  | 0, _, _, _, _, _, _, _, _, h => h
  | n + 1, cur, leaf, f, par, dep, u, hat, hl, h => by
    rw [lmdUp, hat.node]
    rcases made_above hS hat with ⟨_, e⟩ | ⟨p, pp, pd, v, k, e, _, h2, h3, h4⟩
    · rw [e]
      exact h
    · rw [e]
      simp only
      split
      · rename_i hh
        rw [h2.node] at hh
        have hl' : leaf = p + v.left := by
          cases v with
          | node i kk vv subs =>
            cases subs with
            | nil => simp [T.subs, offsets] at hh
            | cons c cs =>
              simp only [T.subs, offsets, List.head?_cons, Option.some.injEq] at hh
              have hc := h2.child (k := 0) (c := c) rfl
              simp only [List.take_zero, sizes, Nat.add_zero] at hc
              rw [hh] at hc
              obtain rfl := At.unique _ (Nat.le_refl _) hc hat
              rw [T.left, lefts]
              omega
        refine lmdUp_ok hS n p leaf _ h2 hl' ?_
        rw [hl']
        exact h.upd h2
      · exact h

theorem lmdUp_keep (nodes : List Node) (leaf x : Nat) : ∀ (n cur : Nat) (f : Nat → Option Nat), (f x).isSome = true →
    (lmdUp nodes leaf n cur f x).isSome = true
  | 0, _, _, h => h
  | n + 1, cur, f, h => by
    rw [lmdUp]
    cases (getNode nodes cur).parent with
    | none => exact h
    | some p =>
      simp only
      by_cases e : (getNode nodes p).subs.head? = some cur
      · rw [if_pos e]
        refine lmdUp_keep nodes leaf x n p _ ?_
        rw [upd_apply]
        split
        · rfl
        · exact h
      · rw [if_neg e]
        exact h

mutual
theorem lmdUp_reach : ∀ (t : T) {nodes : List Node} {off par dep}, At nodes off par dep t → ∀ (n : Nat) (f : Nat → Option Nat), t.left ≤ n →
    ∃ g, (g off).isSome = true ∧ lmdUp nodes (off + t.left) n (off + t.left) (upd f (off + t.left) (some (off + t.left))) =
      lmdUp nodes (off + t.left) (n - t.left) off g
  | .node i k v [], nodes, off, par, dep, h, n, f, hn => by
    refine ⟨upd f off (some off), by simp [upd_apply], ?_⟩
    simp [T.left, lefts]
  | .node i k v (c :: cs), nodes, off, par, dep, h, n, f, hn => by
    rw [T.left, lefts] at hn ⊢
    have hc := h.children.head
    obtain ⟨g, h1, h2⟩ := lmdUp_reach c hc n f (by omega)
    rw [show off + 1 + c.left = off + (c.left + 1) by omega] at h2
    refine ⟨upd g off (some (off + (c.left + 1))), by simp [upd_apply], ?_⟩
    obtain ⟨j, hj⟩ : ∃ j, n - c.left = j + 1 := ⟨n - c.left - 1, by omega⟩
    rw [h2, hj, lmdUp, hc.node]
    simp only
    rw [if_pos (by rw [h.node]; simp [T.subs, offsets]), show n - (c.left + 1) = j by omega]
end

/-- `setLeftMostDescendants` finds the leftmost leaf of every node. -/
theorem lmd_eq (t : T) {x par dep u} (hat : At (fromNode t).nodes x par dep u) : (fromNode t).lmd x = some (x + u.left) := by
  have hmade : Made (fromNode t) := ⟨t, rfl⟩
  have hdef : (fromNode t).lmd = setLmd (fromNode t).nodes (fromNode t).leaves := rfl
  have hok : LmdOk (fromNode t).nodes ((fromNode t).lmd) := by
    rw [hdef]
    refine foldl_inv (LmdOk (fromNode t).nodes) _ _ _ (by intro x v e; simp at e) (fun f leaf hl hf => ?_)
    rw [fromNode_leaves] at hl
    obtain ⟨p, d, w, h1, h2⟩ := leaves_sound t (at_root t) leaf hl
    have hw : w.left = 0 := by rw [left_eq, h2]; rfl
    refine lmdUp_ok hmade _ _ _ _ h1 (by omega) ?_
    have := hf.upd h1
    rw [hw, Nat.add_zero] at this
    exact this
  have hsome : ((fromNode t).lmd x).isSome = true := by
    obtain ⟨h0, p, d, w, h1, h2⟩ := at_left u hat
    have hr := hat.range
    have hmem : x + u.left ∈ (fromNode t).leaves := by
      rw [fromNode_leaves]
      have hlt := h1.lt
      rw [fromNode_size] at hlt
      exact leaves_complete t (at_root t) _ p d w (by omega) (by omega) h1 h2
    obtain ⟨a, b, hab⟩ := List.append_of_mem hmem
    rw [hdef, setLmd, hab, List.foldl_append, List.foldl_cons]
    refine foldl_inv (fun (f : Nat → Option Nat) => (f x).isSome = true) _ b _ ?_ (fun f leaf _ hf => ?_)
    · generalize List.foldl _ _ a = f
      obtain ⟨g, h3, h4⟩ := lmdUp_reach u hat (fromNode t).nodes.length f (by omega)
      rw [h4]
      exact lmdUp_keep _ _ _ _ _ _ h3
    · refine lmdUp_keep _ _ _ _ _ _ ?_
      rw [upd_apply]
      split
      · rfl
      · exact hf
  obtain ⟨v, hv⟩ := Option.isSome_iff_exists.1 hsome
  obtain ⟨p, d, w, h1, h2⟩ := hok x v hv
  obtain rfl := At.unique _ (Nat.le_refl _) hat h1
  rw [hv, h2]

/-! ## Numbers in postorder -/

theorem idxOf_block {A B : List Nat} {x : Nat} (h : (A ++ x :: B).Nodup) : (A ++ x :: B).idxOf x = A.length := by
  rw [List.idxOf_append_of_notMem]
  · simp
  · intro hx
    rw [List.nodup_append] at h
    exact h.2.2 x hx x (by simp) rfl

mutual
theorem lmds_block : ∀ (t : T) {S : SynTree} {off par dep}, (∀ x par dep u, At S.nodes x par dep u → S.lmd x = some (x + u.left)) →
    At S.nodes off par dep t → ∀ (W A B : List Nat), W = A ++ posts t off ++ B → W.Nodup →
    (posts t off).map (fun i => W.idxOf ((S.lmd i).getD 0)) = lms t A.length
  | .node i k v subs, S, off, par, dep, hl, h, W, A, B, hW, hn => by
    have hhead := posts_head (.node i k v subs) off
    obtain ⟨rest, hrest⟩ : ∃ rest, posts (.node i k v subs) off = (off + (T.node i k v subs).left) :: rest := by
      cases hp : posts (.node i k v subs) off with
      | nil => rw [hp] at hhead; simp at hhead
      | cons a rest => rw [hp] at hhead; simp at hhead; exact ⟨rest, by rw [hhead]⟩
    have hidx : W.idxOf (off + (T.node i k v subs).left) = A.length := by
      rw [hW, hrest, List.append_assoc, List.cons_append]
      refine idxOf_block ?_
      rw [hW, hrest, List.append_assoc, List.cons_append] at hn
      exact hn
    rw [posts, List.map_append, lms, lmdss_block subs hl h.children W A ([off] ++ B) (by rw [hW, posts]; simp) hn]
    simp only [List.map_cons, List.map_nil]
    rw [hl off par dep _ h]
    simp only [Option.getD_some, hidx]
theorem lmdss_block : ∀ (ts : List T) {S : SynTree} {off par dep}, (∀ x par dep u, At S.nodes x par dep u → S.lmd x = some (x + u.left)) →
    Ats S.nodes off par dep ts → ∀ (W A B : List Nat), W = A ++ postss ts off ++ B → W.Nodup →
    (postss ts off).map (fun i => W.idxOf ((S.lmd i).getD 0)) = lmss ts A.length
  | [], _, _, _, _, _, _, _, _, _, _, _ => by simp [postss, lmss]
  | t :: ts, S, off, par, dep, hl, h, W, A, B, hW, hn => by
    rw [postss, List.map_append, lmss, lmds_block t hl h.head W A (postss ts (off + t.size) ++ B) (by rw [hW, postss]; simp) hn,
      lmdss_block ts hl h.tail W (A ++ posts t off) B (by rw [hW, postss]; simp) hn, List.length_append, posts_length]
end

theorem postss_split : ∀ (ts : List T) (off k : Nat) (c : T), ts[k]? = some c → ∃ A B, postss ts off = A ++ posts c (off + sizes (ts.take k)) ++ B
  | [], _, _, _, h => by simp at h
  | t :: ts, off, 0, c, h => by
    simp at h
    subst h
    exact ⟨[], postss ts (off + t.size), by simp [postss, sizes]⟩
  | t :: ts, off, k + 1, c, h => by
    obtain ⟨A, B, e⟩ := postss_split ts (off + t.size) k c (by simpa using h)
    refine ⟨posts t off ++ A, B, ?_⟩
    rw [postss, e]
    simp [sizes, Nat.add_assoc]

theorem posts_split {nodes : List Node} : ∀ (n : Nat) {off par dep} {t : T}, t.height ≤ n → At nodes off par dep t → ∀ x par' dep' u, off ≤ x →
    x < off + t.size → At nodes x par' dep' u → ∃ A B, posts t off = A ++ posts u x ++ B
  | 0, off, par, dep, t, h, _, _, _, _, _, _, _, _ => by rw [height_eq] at h; omega
  | n + 1, off, par, dep, t, h, hat, x, par', dep', u, h1, h2, hu => by
    by_cases e : x = off
    · subst e
      obtain rfl := At.unique _ (Nat.le_refl _) hat hu
      exact ⟨[], [], by simp⟩
    · have hi : x - (off + 1) < sizes t.subs := by rw [size_eq] at h2; omega
      obtain ⟨k, c, hc, h3, h4⟩ := split_index hi
      have hch := heights_le hc
      rw [height_eq] at h
      obtain ⟨A, B, e1⟩ := posts_split n (t := c) (by omega) (hat.child hc) x par' dep' u (by omega) (by omega) hu
      obtain ⟨A', B', e2⟩ := postss_split t.subs (off + 1) k c hc
      refine ⟨A' ++ A, B ++ B' ++ [off], ?_⟩
      cases t with
      | node i kk v subs =>
        simp only [T.subs] at e2 e1
        rw [posts, e2, e1]
        simp

/-! ## The numbers of a block -/

mutual
theorem lms_low : ∀ (t : T) (b j v : Nat), (lms t b)[j]? = some v → b ≤ v ∧ v ≤ b + j
  | .node _ _ _ subs, b, j, v, h => by
    rw [lms] at h
    by_cases hj : j < (lmss subs b).length
    · rw [List.getElem?_append_left hj] at h
      exact lmss_low subs b j v h
    · rw [List.getElem?_append_right (by omega)] at h
      have := List.mem_of_getElem? h
      simp at this
      omega
theorem lmss_low : ∀ (ts : List T) (b j v : Nat), (lmss ts b)[j]? = some v → b ≤ v ∧ v ≤ b + j
  | [], b, j, v, h => by simp [lmss] at h
  | t :: ts, b, j, v, h => by
    rw [lmss] at h
    by_cases hj : j < (lms t b).length
    · rw [List.getElem?_append_left hj] at h
      exact lms_low t b j v h
    · rw [List.getElem?_append_right (by omega)] at h
      rw [lms_length] at h hj
      have := lmss_low ts _ _ v h
      omega
end

mutual
theorem lms_lam : ∀ (t : T) (b i j v w : Nat), (lms t b)[i]? = some v → (lms t b)[j]? = some w → j ≤ i → v ≤ b + j → v ≤ w
  | .node a k x subs, b, i, j, v, w, h1, h2, h3, h4 => by
    have hw := lms_low (.node a k x subs) b j w h2
    rw [lms] at h1 h2
    by_cases hi : i < (lmss subs b).length
    · rw [List.getElem?_append_left hi] at h1
      rw [List.getElem?_append_left (by omega)] at h2
      exact lmss_lam subs b i j v w h1 h2 h3 h4
    · rw [List.getElem?_append_right (by omega)] at h1
      have := List.mem_of_getElem? h1
      simp at this
      omega
theorem lmss_lam : ∀ (ts : List T) (b i j v w : Nat), (lmss ts b)[i]? = some v → (lmss ts b)[j]? = some w → j ≤ i → v ≤ b + j → v ≤ w
  | [], b, i, j, v, w, h1, _, _, _ => by simp [lmss] at h1
  | t :: ts, b, i, j, v, w, h1, h2, h3, h4 => by
    rw [lmss] at h1 h2
    by_cases hi : i < (lms t b).length
    · rw [List.getElem?_append_left hi] at h1
      rw [List.getElem?_append_left (by omega)] at h2
      exact lms_lam t b i j v w h1 h2 h3 h4
    · rw [List.getElem?_append_right (by omega)] at h1
      rw [lms_length] at h1 hi
      have hl := lmss_low ts _ _ v h1
      rw [List.getElem?_append_right (by rw [lms_length]; omega), lms_length] at h2
      exact lmss_lam ts _ _ _ v w h1 h2 (by omega) (by omega)
end

/-! ## Subtrees -/

theorem keyRootsLoop_acc (lmds : List Nat) : ∀ (n : Nat) (seen acc : List Nat), ∃ ks, keyRootsLoop lmds n seen acc = ks ++ acc
  | 0, _, acc => ⟨[], rfl⟩
  | n + 1, seen, acc => by
    rw [keyRootsLoop]
    split
    · exact keyRootsLoop_acc lmds n seen acc
    · obtain ⟨ks, e⟩ := keyRootsLoop_acc lmds n (lmds[n]?.getD 0 :: seen) ((n + 1) :: acc)
      exact ⟨ks ++ [n + 1], by rw [e]; simp⟩

theorem fromNode_post (t : T) (i : Nat) : (fromNode t).post i = (posts t 0).idxOf i := by
  have : (fromNode t).post i = (postorder (fromNode t).nodes (fromNode t).size 0).idxOf i := rfl
  rw [this, (at_root t).postorder]

theorem sub_make (t : T) {x par dep u} (hat : At (fromNode t).nodes x par dep u) :
    (Sub.make (fromNode t) x).rootIds = posts u x ∧ (Sub.make (fromNode t) x).lmds = lms u 0 ∧
    (Sub.make (fromNode t) x).keyRoots = keyRootsLoop (lms u 0) u.size [] [] := by
  have hlt := hat.lt
  rw [fromNode_size] at hlt
  obtain ⟨A, B, hW⟩ := posts_split _ (Nat.le_refl _) (at_root t) x par dep u (by omega) (by omega) hat
  have hn := posts_nodup t 0
  have hb := lmds_block u (fun x par dep u h => lmd_eq t h) hat (posts t 0) A B hW hn
  have hids : (Sub.make (fromNode t) x).rootIds = posts u x := hat.postorder
  have hhead := posts_head u x
  have hd : (posts u x).headD 0 = x + u.left := by
    rw [List.headD_eq_head?_getD, hhead]
    rfl
  have hoff : (posts t 0).idxOf (x + u.left) = A.length := by
    cases hp : posts u x with
    | nil => rw [hp] at hhead; simp at hhead
    | cons a rest =>
      rw [hp] at hhead
      simp at hhead
      rw [hW, hp, hhead, List.append_assoc, List.cons_append]
      refine idxOf_block ?_
      rw [hW, hp, hhead, List.append_assoc, List.cons_append] at hn
      exact hn
  have hlm : (Sub.make (fromNode t) x).lmds = lms u 0 := by
    have : (Sub.make (fromNode t) x).lmds = ((postorder (fromNode t).nodes (fromNode t).size x)).map
        (fun i => (fromNode t).post (((fromNode t).lmd i).getD 0) - (fromNode t).post ((postorder (fromNode t).nodes (fromNode t).size x).headD 0)) := rfl
    rw [this, hat.postorder, hd]
    simp only [fromNode_post, hoff]
    have e := congrArg (List.map (· - A.length)) hb
    rw [List.map_map] at e
    have e2 : List.map (fun v => v - A.length) (lms u A.length) = lms u 0 := by
      have := lms_shift u 0 A.length
      rw [Nat.zero_add] at this
      rw [this, List.map_map]
      simp [Function.comp_def]
    rw [e2] at e
    exact e
  refine ⟨hids, hlm, ?_⟩
  have : (Sub.make (fromNode t) x).keyRoots =
      keyRootsLoop (Sub.make (fromNode t) x).lmds (Sub.make (fromNode t) x).rootIds.length [] [] := rfl
  rw [this, hlm, hids, posts_length]

theorem sub_size (t : T) {x par dep u} (hat : At (fromNode t).nodes x par dep u) : (Sub.make (fromNode t) x).size = u.size := by
  rw [Sub.size, (sub_make t hat).1, posts_length]

theorem sub_good (t : T) {x par dep u} (hat : At (fromNode t).nodes x par dep u) : GoodSub (Sub.make (fromNode t) x) := by
  have hs := sub_size t hat
  obtain ⟨h1, h2, h3⟩ := sub_make t hat
  have hp := size_pos u
  have hget : ∀ i, 1 ≤ i → i ≤ u.size → (lms u 0)[i - 1]? = some ((Sub.make (fromNode t) x).lmd i) := by
    intro i hi1 hi2
    rw [Sub.lmd, h2, List.getElem?_eq_getElem (by rw [lms_length]; omega)]
    rfl
  refine ⟨by omega, ?_, ?_, ?_⟩
  · intro i hi1 hi2
    have := lms_low u 0 (i - 1) _ (hget i hi1 (by omega))
    omega
  · intro i j hi1 hi2 h4 h5
    exact lms_lam u 0 (i - 1) (j - 1) _ _ (hget i hi1 (by omega)) (hget j (by omega) (by omega)) (by omega) (by omega)
  · rw [h3, hs]
    obtain ⟨n, hn⟩ : ∃ n, u.size = n + 1 := ⟨u.size - 1, by omega⟩
    rw [hn, keyRootsLoop]
    exact keyRootsLoop_acc (lms u 0) n _ [n + 1]

end Verif.AstDiff
