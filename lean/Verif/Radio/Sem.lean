import Verif.Radio.Props

/-!
# C92: grouping the subnodes of the mutable tree – src/haxorg/api/SemBaseApi.cpp:474-587

The mirror of `Verif.Radio.Model` for the other representation of documents: the search stops at the last subnode, and a target of another kind
is passed over.  `View.tags` are the definitions of the flat tags after `insert_or_assign` – 561-567.
-/

namespace Verif.Radio

variable {α : Type}

section
variable (v : View α)

/-- The loop of `tryRadioTargetSearch` – SemBaseApi.cpp:493-513, with the subnodes from `groupingIdx + sourceOffset` on. -/
def semSearchLoop : List α → List String → Nat → Option Nat
  | _, [], _ => none
  | [], _ :: _, _ => none
  | x :: xs, w :: ws, off =>
    match v.leaf x with
    | none => none
    | some text =>
      if text = w then
        if ws.isEmpty then some off else semSearchLoop xs ws (off + 1)
      else if v.space x then semSearchLoop xs (w :: ws) (off + 1)
      else none

/-- `tryRadioTargetSearch` – SemBaseApi.cpp:482-516 -/
def semTrySearch (words : List String) (sub : List α) (idx id : Nat) : Found α :=
  match semSearchLoop v (sub.drop idx) words 0 with
  | none => none
  | some off => some ((sub.drop idx).take (off + 1), id)

/-- The loop over the `RadioId` properties – SemBaseApi.cpp:538-543 -/
def semTryIds (sub : List α) (idx id : Nat) : List (List String) → Found α
  | [] => none
  | ws :: rest =>
    match semTrySearch v ws sub idx id with
    | some r => some r
    | none => semTryIds sub idx id rest

/-- One alternative – SemBaseApi.cpp:537-547 -/
def semTryNode (t : Track) (sub : List α) (idx id : Nat) : Found α :=
  match t.node id with
  | .radio ws => semTrySearch v ws sub idx id
  | .subtree ids => semTryIds v sub idx id ids
  | .bad => none

/-- The loop over the alternatives – SemBaseApi.cpp:536-548 -/
def semTryTargets (t : Track) (sub : List α) (idx : Nat) : List Nat → Found α
  | [] => none
  | id :: rest =>
    match semTryNode v t sub idx id with
    | some r => some r
    | none => semTryTargets t sub idx rest

/-- The body of the main loop – SemBaseApi.cpp:527-584: the group and the index of its last node. -/
def semStep (t : Track) (sub : List α) (idx : Nat) (x : α) : Group α × Nat :=
  match (match v.leaf x with | some text => if v.space x then none else some text | none => none) with
  | some text =>
    match t.targets text with
    | none => (.single x, idx)
    | some ids =>
      match semTryTargets v t sub idx ids with
      | some (nodes, id) => (.radio nodes id, idx + (nodes.length - 1))
      | none => (.single x, idx)
  | none =>
    match v.tags x with
    | some ts => if ts.isEmpty then (.single x, idx) else (.hashtag x ts, idx)
    | none => (.single x, idx)

/-- The main loop – SemBaseApi.cpp:526-585; with the fuel used up the loop has not ended. -/
def semLoop (t : Track) (sub : List α) : Nat → Nat → List (Group α) → Except Err (List (Group α))
  | 0, _, _ => .error .diverges
  | fuel + 1, idx, acc =>
    match sub[idx]? with
    | none => .ok acc
    | some x => semLoop t sub fuel ((semStep v t sub idx x).2 + 1) (acc ++ [(semStep v t sub idx x).1])

/-- `getSubnodeGroups` – SemBaseApi.cpp:519-588 -/
def semGroups (t : Track) (sub : List α) : Except Err (List (Group α)) := semLoop v t sub (sub.length + 1) 0 []

end

variable {v : View α}

theorem semSearch_of_ok : ∀ {xs : List α} {ws : List String} {off : Nat} {r : Option Nat}, searchLoop v xs ws off = .ok r →
    semSearchLoop v xs ws off = r := by
  intro xs
  induction xs with
  | nil => intro ws off r h; cases ws <;> simp_all [searchLoop, semSearchLoop]
  | cons x xs ih =>
    intro ws off r h
    cases ws with
    | nil => simpa [searchLoop, semSearchLoop] using h
    | cons w ws =>
      rw [searchLoop] at h
      rw [semSearchLoop]
      split at h <;> rename_i hx <;> rw [hx]
      · simpa using h
      · simp only
        split at h <;> rename_i hw
        · rw [if_pos hw]
          split at h <;> rename_i he
          · rw [if_pos he]; simpa using h
          · rw [if_neg he]; exact ih h
        · rw [if_neg hw]
          split at h <;> rename_i he
          · rw [if_pos he]; exact ih h
          · rw [if_neg he]; simpa using h

theorem semSearch_of_error : ∀ {xs : List α} {ws : List String} {off : Nat} {e : Err}, searchLoop v xs ws off = .error e →
    semSearchLoop v xs ws off = none := by
  intro xs
  induction xs with
  | nil => intro ws off r h; cases ws <;> simp_all [searchLoop, semSearchLoop]
  | cons x xs ih =>
    intro ws off r h
    cases ws with
    | nil => simp [searchLoop] at h
    | cons w ws =>
      rw [searchLoop] at h
      rw [semSearchLoop]
      split at h <;> rename_i hx <;> rw [hx]
      simp only
      split at h <;> rename_i hw
      · rw [if_pos hw]
        split at h <;> rename_i he
        · simp at h
        · rw [if_neg he]; exact ih h
      · rw [if_neg hw]
        split at h <;> rename_i he
        · rw [if_pos he]; exact ih h
        · rw [if_neg he]

/-- Nodes that end within the words do not spell the words. -/
theorem absent_of_overrun : ∀ {xs : List α} {ws : List String} {off : Nat} {e : Err}, searchLoop v xs ws off = .error e →
    Absent v xs ws := by
  intro xs
  induction xs with
  | nil =>
    intro ws off e h hne _ ns hns hs
    rw [List.prefix_nil] at hns
    subst hns
    cases hs
    exact hne rfl
  | cons x xs ih =>
    intro ws off e h hne hp ns hns hs
    cases ws with
    | nil => exact hne rfl
    | cons w ws =>
      rw [searchLoop] at h
      cases hs with
      | word hl hs =>
        rename_i n ns
        obtain ⟨rfl, hns'⟩ := List.cons_prefix_cons.1 hns
        rw [hl] at h
        simp only [if_true] at h
        split at h
        · simp at h
        · rename_i he
          exact ih h (by simpa using he) (fun y hy hs' w' hw' => hp y (by simp [hy]) hs' w' (by simp [hw'])) ns hns' hs
      | space hsx hl hs =>
        rename_i n ns
        obtain ⟨rfl, hns'⟩ := List.cons_prefix_cons.1 hns
        obtain ⟨text, ht⟩ := Option.isSome_iff_exists.1 hl
        rw [ht] at h
        have : text ≠ w := fun he => hp n (by simp) hsx w (by simp) (by rw [ht, he])
        simp only [this, if_false, hsx, if_true] at h
        exact ih h (by simp) (fun y hy hs' w' hw' => hp y (by simp [hy]) hs' w' hw') ns hns' hs

theorem semTrySearch_ok {ws : List String} {sub : List α} {idx id : Nat} :
    (∀ r, semTrySearch v ws sub idx id = some r → r.2 = id ∧ r.1 <+: sub.drop idx ∧ r.1 ≠ [] ∧ Spells v r.1 ws ∧
      ∃ y w, r.1.getLast? = some y ∧ ws.getLast? = some w ∧ v.leaf y = some w) ∧
    (semTrySearch v ws sub idx id = none → Absent v (sub.drop idx) ws) := by
  unfold semTrySearch
  cases hs : searchLoop v (sub.drop idx) ws 0 with
  | error e =>
    rw [semSearch_of_error hs]
    exact ⟨fun r h => by simp at h, fun _ => absent_of_overrun hs⟩
  | ok r =>
    rw [semSearch_of_ok hs]
    have hok := trySearch_ok (v := v) (ws := ws) (sub := sub) (idx := idx) (id := id)
    unfold trySearch at hok
    rw [hs] at hok
    cases r with
    | none => exact ⟨fun r h => by simp at h, fun _ => hok.2.1 rfl⟩
    | some off => exact ⟨fun r h => hok.1 r (by simpa using h), fun h => by simp at h⟩

theorem semTryIds_ok {t : Track} {sub : List α} {idx id : Nat} : ∀ {wss : List (List String)},
    (∀ ws ∈ wss, (t.node id).Has ws) →
    (∀ r, semTryIds v sub idx id wss = some r → r.2 = id ∧ FoundOk v t (sub.drop idx) r) ∧
    (semTryIds v sub idx id wss = none → ∀ ws ∈ wss, Absent v (sub.drop idx) ws) := by
  intro wss
  induction wss with
  | nil => intro _; simp [semTryIds]
  | cons ws wss ih =>
    intro hw
    obtain ⟨h1, h2⟩ := semTrySearch_ok (v := v) (ws := ws) (sub := sub) (idx := idx) (id := id)
    obtain ⟨i1, i2⟩ := ih fun w hw' => hw w (by simp [hw'])
    rw [semTryIds]
    cases hs : semTrySearch v ws sub idx id with
    | some r =>
      refine ⟨?_, by simp⟩
      intro r' hr
      simp only [Option.some.injEq] at hr
      subst hr
      obtain ⟨a, b, c, d, e⟩ := h1 r hs
      refine ⟨a, b, c, ws, ?_, d, e⟩
      rw [a]
      exact hw ws (by simp)
    | none =>
      refine ⟨i1, ?_⟩
      intro h w hw'
      rcases List.mem_cons.1 hw' with rfl | hw'
      · exact h2 hs
      · exact i2 h w hw'

theorem semTryNode_ok {t : Track} {sub : List α} {idx id : Nat} :
    (∀ r, semTryNode v t sub idx id = some r → FoundOk v t (sub.drop idx) r) ∧
    (semTryNode v t sub idx id = none → ∀ ws, (t.node id).Has ws → Absent v (sub.drop idx) ws) := by
  unfold semTryNode
  cases hn : t.node id with
  | radio ws =>
    obtain ⟨h1, h2⟩ := semTrySearch_ok (v := v) (ws := ws) (sub := sub) (idx := idx) (id := id)
    refine ⟨?_, ?_⟩
    · intro r hr
      obtain ⟨a, b, c, d, e⟩ := h1 r hr
      refine ⟨b, c, ws, ?_, d, e⟩
      rw [a, hn]
      rfl
    · intro h ws' hws
      cases hws
      exact h2 h
  | subtree ids =>
    obtain ⟨h1, h2⟩ := semTryIds_ok (v := v) (t := t) (sub := sub) (idx := idx) (id := id) (wss := ids)
      (by intro ws hws; rw [hn]; exact hws)
    exact ⟨fun r hr => (h1 r hr).2, fun h ws hws => h2 h ws hws⟩
  | bad => exact ⟨fun r h => by simp at h, fun _ ws h => h.elim⟩

theorem semTryTargets_ok {t : Track} {sub : List α} {idx : Nat} : ∀ {ids : List Nat},
    (∀ r, semTryTargets v t sub idx ids = some r → FoundOk v t (sub.drop idx) r) ∧
    (semTryTargets v t sub idx ids = none → ∀ id ∈ ids, ∀ ws, (t.node id).Has ws → Absent v (sub.drop idx) ws) := by
  intro ids
  induction ids with
  | nil => simp [semTryTargets]
  | cons id ids ih =>
    obtain ⟨h1, h2⟩ := semTryNode_ok (v := v) (t := t) (sub := sub) (idx := idx) (id := id)
    rw [semTryTargets]
    cases hs : semTryNode v t sub idx id with
    | some r => exact ⟨fun r' hr => by simp only [Option.some.injEq] at hr; exact hr ▸ h1 r hs, by simp⟩
    | none =>
      refine ⟨ih.1, ?_⟩
      intro h i hi
      rcases List.mem_cons.1 hi with rfl | hi
      · exact h2 hs
      · exact ih.2 h i hi

theorem semStep_ok {t : Track} {sub : List α} {idx : Nat} {x : α} (hx : sub[idx]? = some x) :
    (semStep v t sub idx x).1.Right v t ∧ (semStep v t sub idx x).1.nodes <+: sub.drop idx ∧
      (semStep v t sub idx x).2 + 1 = idx + (semStep v t sub idx x).1.nodes.length ∧
      (semStep v t sub idx x).1.nodes ≠ [] ∧ Alone v t (sub.drop idx) (semStep v t sub idx x).1 := by
  have hd : sub.drop idx = x :: sub.drop (idx + 1) := by
    obtain ⟨h, rfl⟩ := List.getElem?_eq_some_iff.1 hx
    exact List.drop_eq_getElem_cons h
  have hone : [x] <+: sub.drop idx := by rw [hd]; simp
  have single : Alone v t (sub.drop idx) (.single x) →
      (Group.single x).Right v t ∧ (Group.single x).nodes <+: sub.drop idx ∧ idx + 1 = idx + (Group.single x).nodes.length ∧
      (Group.single x).nodes ≠ [] ∧ Alone v t (sub.drop idx) (.single x) :=
    fun h => ⟨trivial, hone, rfl, by simp [Group.nodes], h⟩
  unfold semStep
  split
  · rename_i text htext
    obtain ⟨hl, hs⟩ : v.leaf x = some text ∧ v.space x = false := by
      cases hl : v.leaf x with
      | none => rw [hl] at htext; simp at htext
      | some s =>
        rw [hl] at htext
        simp only at htext
        split at htext
        · simp at htext
        · rename_i hs
          exact ⟨htext, by simpa using hs⟩
    split
    · rename_i hn
      exact single fun _ ws ⟨text', ids, id, h1, h2, _⟩ => by
        rw [hl] at h1; cases h1; rw [hn] at h2; simp at h2
    · rename_i ids hids
      obtain ⟨h1, h2⟩ := semTryTargets_ok (v := v) (t := t) (sub := sub) (idx := idx) (ids := ids)
      split
      · rename_i nodes id hf
        obtain ⟨a, b, ws, c, d, e⟩ := h1 _ hf
        simp only at a b c d e
        have hlen : 0 < nodes.length := List.length_pos_iff.2 b
        refine ⟨⟨ws, c, d, ⟨x, ?_, hs⟩, e⟩, a, ?_, b, trivial⟩
        · obtain ⟨rest, hr⟩ := a
          cases nodes with
          | nil => exact absurd rfl b
          | cons n ns =>
            rw [hd] at hr
            simp only [List.cons_append, List.cons.injEq] at hr
            simp [hr.1]
        · simp only [Group.nodes]
          omega
      · rename_i hf
        exact single fun _ ws ⟨text', ids', id, h1', h2', h3, h4⟩ => by
          rw [hl] at h1'; cases h1'; rw [hids] at h2'; cases h2'; exact h2 hf id h3 ws h4
  · rename_i hnone
    have hal : Alone v t (sub.drop idx) (.single x) := by
      intro hs ws ⟨text, _, _, hl, _⟩
      rw [hl] at hnone
      simp [hs] at hnone
    split
    · rename_i ts hts
      split
      · exact single hal
      · rename_i he
        exact ⟨⟨hts, by simpa using he⟩, hone, rfl, by simp [Group.nodes], trivial⟩
    · exact single hal

theorem semLoop_ok {t : Track} {sub : List α} : ∀ {fuel idx : Nat} {acc : List (Group α)}, sub.length - idx < fuel →
    ∃ gs, semLoop v t sub fuel idx acc = .ok (acc ++ gs) ∧ gs.flatMap Group.nodes = sub.drop idx ∧ GroupsOk v t gs := by
  intro fuel
  induction fuel with
  | zero => intro idx acc h; omega
  | succ fuel ih =>
    intro idx acc hf
    rw [semLoop]
    split
    · rename_i hn
      refine ⟨[], by simp, ?_, trivial⟩
      rw [List.getElem?_eq_none_iff] at hn
      simp [List.drop_eq_nil_of_le hn]
    · rename_i x hx
      obtain ⟨h1, h2, h3, h4, h5⟩ := semStep_ok (v := v) (t := t) hx
      have hlen : 0 < (semStep v t sub idx x).1.nodes.length := List.length_pos_iff.2 h4
      have hi := (List.getElem?_eq_some_iff.1 hx).1
      obtain ⟨gs', e1, e2, e3⟩ := ih (idx := (semStep v t sub idx x).2 + 1) (acc := acc ++ [(semStep v t sub idx x).1]) (by omega)
      have hcat : ((semStep v t sub idx x).1 :: gs').flatMap Group.nodes = sub.drop idx := by
        rw [List.flatMap_cons, e2, h3, ← List.drop_drop]
        obtain ⟨r, hr⟩ := h2
        rw [← hr, List.drop_left]
      refine ⟨(semStep v t sub idx x).1 :: gs', by rw [e1]; simp, hcat, h1, ?_, e3⟩
      rw [hcat]
      exact h5

theorem right_of_groupsOk {t : Track} {gs : List (Group α)} (h : GroupsOk v t gs) : ∀ g ∈ gs, g.Right v t := by
  induction gs with
  | nil => simp
  | cons g gs ih =>
    intro x hx
    rcases List.mem_cons.1 hx with rfl | hx
    · exact h.1
    · exact ih h.2.2 x hx

/-! ## C92 -/

/-- **C92.** Every list of subnodes is grouped: the groups are the subnodes in their order, each group is what it says – a radio group spells
the words of its target –, and a word is left alone only if none of the targets tracked under it is spelled there (for targets whose words
are not the text of a space). -/
theorem sem_groups (v : View α) (t : Track) (sub : List α) :
    ∃ gs, semGroups v t sub = .ok gs ∧ gs.flatMap Group.nodes = sub ∧ (∀ g ∈ gs, g.Right v t) ∧
      ∀ pre x post, gs = pre ++ .single x :: post → v.space x = false → ∀ ws, Tracked v t x ws → ws ≠ [] →
        (∀ y ∈ x :: post.flatMap Group.nodes, v.space y = true → ∀ w ∈ ws, v.leaf y ≠ some w) →
        ∀ ns, ns <+: x :: post.flatMap Group.nodes → ¬ Spells v ns ws := by
  obtain ⟨gs, h1, h2, h3⟩ := semLoop_ok (v := v) (t := t) (sub := sub) (fuel := sub.length + 1) (idx := 0) (acc := []) (by omega)
  refine ⟨gs, by simpa [semGroups] using h1, by simpa using h2, right_of_groupsOk h3, ?_⟩
  rintro pre x post rfl hx ws hws hne hp ns hns
  exact (groupsOk_suffix h3).2.1 hx ws hws hne hp ns hns

/-- The end of the paragraph within a target is no failure here (as in `groups_false`). -/
example : semGroups sample track ["a", " ", "human"] = .ok [.single "a", .single " ", .single "human"] := by rfl

example : semGroups sample track ["*", " ", "human", "  ", "rights", " ", "law", "#", "human", " ", "*", "human", " ", "being"]
    = .ok [.single "*", .single " ", .radio ["human", "  ", "rights", " ", "law"] 2, .hashtag "#" [("tag", 7)], .single "human",
      .single " ", .single "*", .radio ["human", " ", "being"] 1] := by rfl

/-- Where grouping the immutable tree returns and no target is of another kind, both give the same. -/
theorem sem_trySearch_eq {words : List String} {sub : List α} {idx id : Nat} {r : Found α} (h : trySearch v words sub idx id = .ok r) :
    semTrySearch v words sub idx id = r := by
  unfold trySearch at h
  unfold semTrySearch
  cases hs : searchLoop v (sub.drop idx) words 0 with
  | error e => rw [hs] at h; simp at h
  | ok o =>
    rw [hs] at h
    rw [semSearch_of_ok hs]
    cases o <;> simpa using h

theorem sem_tryIds_eq {sub : List α} {idx id : Nat} : ∀ {wss : List (List String)} {r : Found α}, tryIds v sub idx id wss = .ok r →
    semTryIds v sub idx id wss = r := by
  intro wss
  induction wss with
  | nil => intro r h; simpa [tryIds, semTryIds] using h
  | cons ws wss ih =>
    intro r h
    rw [tryIds] at h
    rw [semTryIds]
    cases hs : trySearch v ws sub idx id with
    | error e => rw [hs] at h; simp at h
    | ok o =>
      rw [hs] at h
      rw [sem_trySearch_eq hs]
      cases o with
      | none => exact ih h
      | some x => simpa using h

theorem sem_tryTargets_eq {t : Track} {sub : List α} {idx : Nat} : ∀ {ids : List Nat} {r : Found α}, tryTargets v t sub idx ids = .ok r →
    semTryTargets v t sub idx ids = r := by
  intro ids
  induction ids with
  | nil => intro r h; simpa [tryTargets, semTryTargets] using h
  | cons id ids ih =>
    intro r h
    rw [tryTargets] at h
    rw [semTryTargets]
    cases hs : tryNode v t sub idx id with
    | error e => rw [hs] at h; simp at h
    | ok o =>
      rw [hs] at h
      have : semTryNode v t sub idx id = o := by
        unfold tryNode at hs
        unfold semTryNode
        cases hn : t.node id with
        | radio ws => rw [hn] at hs; exact sem_trySearch_eq hs
        | subtree l => rw [hn] at hs; exact sem_tryIds_eq hs
        | bad => rw [hn] at hs; simp at hs
      rw [this]
      cases o with
      | none => exact ih h
      | some x => simpa using h

theorem sem_step_eq {t : Track} {sub : List α} {idx : Nat} {x : α} {r : Group α × Nat} (h : step v t sub idx x = .ok r) :
    semStep v t sub idx x = r := by
  have key : ∀ o : Option String,
      (match o with
        | some text =>
          match t.targets text with
          | none => Except.ok (Group.single x, idx)
          | some ids =>
            match tryTargets v t sub idx ids with
            | .error e => .error e
            | .ok (some (nodes, id)) => .ok (.radio nodes id, idx + (nodes.length - 1))
            | .ok none => .ok (.single x, idx)
        | none =>
          match v.tags x with
          | some ts => if ts.isEmpty then .ok (.single x, idx) else .ok (.hashtag x ts, idx)
          | none => .ok (.single x, idx)) = .ok r →
      (match o with
        | some text =>
          match t.targets text with
          | none => (Group.single x, idx)
          | some ids =>
            match semTryTargets v t sub idx ids with
            | some (nodes, id) => (.radio nodes id, idx + (nodes.length - 1))
            | none => (.single x, idx)
        | none =>
          match v.tags x with
          | some ts => if ts.isEmpty then (.single x, idx) else (.hashtag x ts, idx)
          | none => (.single x, idx)) = r := by
    intro o h
    cases o with
    | some text =>
      simp only at h ⊢
      cases hids : t.targets text with
      | none => rw [hids] at h; simpa using h
      | some ids =>
        rw [hids] at h
        simp only at h ⊢
        cases hs : tryTargets v t sub idx ids with
        | error e => rw [hs] at h; simp at h
        | ok o =>
          rw [hs] at h
          rw [sem_tryTargets_eq hs]
          cases o <;> simpa using h
    | none =>
      simp only at h ⊢
      cases hts : v.tags x with
      | none => rw [hts] at h; simpa using h
      | some ts =>
        rw [hts] at h
        simp only at h ⊢
        by_cases he : ts.isEmpty = true
        · rw [if_pos he] at h ⊢; simpa using h
        · rw [if_neg he] at h ⊢; simpa using h
  exact key _ h

theorem sem_loop_eq {t : Track} {sub : List α} : ∀ {fuel idx : Nat} {acc gs : List (Group α)}, loop v t sub fuel idx acc = .ok gs →
    semLoop v t sub fuel idx acc = .ok gs := by
  intro fuel
  induction fuel with
  | zero => intro idx acc gs h; simp [loop] at h
  | succ fuel ih =>
    intro idx acc gs h
    rw [loop] at h
    rw [semLoop]
    split at h
    · rename_i hn; rw [hn]; exact h
    · rename_i x hx
      rw [hx]
      simp only
      split at h
      · simp at h
      · rename_i g last hs
        rw [sem_step_eq hs]
        exact ih h

/-- **C92.** The two representations of a document are grouped alike wherever grouping the immutable one returns. -/
theorem groups_agree {t : Track} {sub : List α} {gs : List (Group α)} (h : getGroups v t sub = .ok gs) : semGroups v t sub = .ok gs := by
  unfold getGroups at h
  unfold semGroups
  split at h
  · simp at h
  · rename_i gs' hl
    split at h
    · rw [← h]; exact sem_loop_eq hl
    · simp at h

end Verif.Radio
