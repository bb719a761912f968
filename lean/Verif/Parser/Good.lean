import Verif.Parser.Spec
import Verif.Lexer.Inside
import Verif.NodeGroup.Lemmas

/-!
# Composing parse functions
-/

namespace Verif.Parser
open Verif.Lexer Verif.NodeGroup Verif.NodeGroup.Spec

variable {α β : Type}

/-! ## Forests -/

theorem leafToks_append (f g : Forest NK Unit) : leafToks (f.append g) = leafToks f ++ leafToks g := by
  induction f with
  | nil => rfl
  | leaf k v r ih => cases v <;> simp [Forest.append, leafToks, ih]
  | tree k c r _ ih => simp [Forest.append, leafToks, ih]

theorem rootKinds_append (f g : Forest NK Unit) : rootKinds (f.append g) = rootKinds f ++ rootKinds g := by
  induction f with
  | nil => rfl
  | leaf k v r ih => simp [Forest.append, rootKinds, ih]
  | tree k c r _ ih => simp [Forest.append, rootKinds, ih]

theorem shape_append {toks : List TK} {f g : Forest NK Unit} (hf : Shape toks f) (hg : Shape toks g) :
    Shape toks (f.append g) := by
  induction f with
  | nil => exact hg
  | leaf k v r ih => exact ⟨hf.1, ih hf.2⟩
  | tree k c r _ ih => exact ⟨hf.1, hf.2.1, hf.2.2.1, ih hf.2.2.2⟩

/-! ## Cursors -/

/-- The cursor reads `v`, is nil at the end, and goes forward. -/
def Cur (l : Lex TK) (v : List (Nat × TK)) : Prop :=
  Reads l v ∧ (v = [] → l.pos = 0) ∧ (∀ ids n, l.sub = some (ids, n) → ids.Pairwise (· < ·))

/-- The two cursors go over the same tokens. -/
def SameToks (l l' : Lex TK) : Prop := l'.toks = l.toks ∧ l'.sub.map (·.1) = l.sub.map (·.1)

theorem SameToks.refl (l : Lex TK) : SameToks l l := ⟨rfl, rfl⟩

theorem SameToks.trans {a b c : Lex TK} (h : SameToks a b) (h' : SameToks b c) : SameToks a c :=
  ⟨h'.1.trans h.1, h'.2.trans h.2⟩

/-- Tokens of the group, in order. -/
def Valid (toks : List TK) (u : List (Nat × TK)) : Prop :=
  (u.map Prod.fst).Pairwise (· < ·) ∧ ∀ p ∈ u, 1 ≤ p.1 ∧ toks[p.1 - 1]? = some p.2

theorem Valid.sublist {toks : List TK} {u v : List (Nat × TK)} (h : Valid toks v) (hs : u.Sublist v) : Valid toks u :=
  ⟨h.1.sublist (hs.map _), fun p hp => h.2 p (hs.subset hp)⟩

theorem cur_valid {l : Lex TK} {v : List (Nat × TK)} (h : Cur l v) : Valid l.toks v := by
  obtain ⟨hr, _, hp⟩ := h
  unfold Reads at hr
  split at hr
  · obtain ⟨pre, h1, _, h3⟩ := hr
    refine ⟨by rw [h3]; exact List.pairwise_lt_range', ?_⟩
    intro p hpv
    obtain ⟨i, hi, he⟩ := List.mem_iff_getElem.1 hpv
    have e1 : p.1 = pre.length + 1 + i := by
      have h5 := congrArg (fun l => l[i]?) h3
      simp only [List.getElem?_map, List.getElem?_eq_getElem hi, he, Option.map_some] at h5
      rw [List.getElem?_range' (by simpa using hi)] at h5
      have := Option.some.inj h5
      omega
    refine ⟨by omega, ?_⟩
    rw [h1, e1]
    have : pre.length + 1 + i - 1 = pre.length + i := by omega
    rw [this, List.getElem?_append_right (by omega), Nat.add_sub_cancel_left, List.getElem?_map,
      List.getElem?_eq_getElem hi, he]
    rfl
  · rename_i ids n hs
    refine ⟨?_, hr.1⟩
    rcases hr.2 with ⟨h, _⟩ | ⟨m, _, _, h, _⟩
    · subst h; simp
    · rw [h]; exact (hp ids n hs).sublist (List.drop_sublist _ _)

theorem cur_sub {toks : List TK} {u : List (Nat × TK)} (h : Valid toks u) : Cur (Lex.ofIds toks (u.map Prod.fst)) u := by
  refine ⟨reads_sub toks u h.2, ?_, ?_⟩
  · rintro rfl; rfl
  · intro ids n he
    unfold Lex.ofIds at he
    injection he with he
    injection he with he _
    rw [← he]; exact h.1

theorem cur_next_nil {l : Lex TK} (h : Cur l []) : Cur l.next [] ∧ SameToks l l.next := by
  obtain ⟨hr, h0, hp⟩ := h
  have h0 := h0 rfl
  obtain ⟨toks, pos, sub⟩ := l
  dsimp only at h0
  subst h0
  cases sub with
  | none =>
    have e : Lex.next ⟨toks, 0, none⟩ = ⟨toks, 0, none⟩ := by
      unfold Lex.next Lex.hasNext
      simp
    rw [e]
    exact ⟨⟨hr, fun _ => rfl, hp⟩, rfl, rfl⟩
  | some q =>
    obtain ⟨ids, n⟩ := q
    have e : Lex.next ⟨toks, 0, some (ids, n)⟩ = ⟨toks, 0, some (ids, n + 1)⟩ := by
      unfold Lex.next Lex.hasNext
      simp
    rw [e]
    refine ⟨⟨⟨by simp, Or.inl ⟨rfl, rfl⟩⟩, fun _ => rfl, ?_⟩, rfl, rfl⟩
    intro ids' n' he
    injection he with he
    injection he with he _
    rw [← he]; exact hp ids n rfl

theorem cur_next_cons {l : Lex TK} {p : Nat × TK} {v : List (Nat × TK)} (h : Cur l (p :: v)) :
    Cur l.next v ∧ SameToks l l.next ∧ l.pos = p.1 ∧ l.kind = .ok p.2 ∧ l.finished = false := by
  obtain ⟨hr, _, hp⟩ := h
  obtain ⟨h1, h2, h3, h4, h5, h6, h7⟩ := reads_cons (i := p.1) (k := p.2) hr
  refine ⟨⟨h4, ?_, ?_⟩, ⟨h5, h7⟩, h3, h2, h1⟩
  · rintro rfl
    have hn : l.hasNext 1 = false := by
      have := (lookahead_partial l [p] hr 1).1
      simpa using this
    unfold Lex.next
    split
    · rw [if_neg (by simp [hn])]
    · rw [if_neg (by simp [hn])]
  · intro ids n hs
    rw [hs] at h7
    cases hl : l.sub with
    | none => rw [hl] at h7; cases h7
    | some q =>
      rw [hl] at h7
      simp only [Option.map_some, Option.some.injEq] at h7
      have := hp q.1 q.2 (by rw [hl])
      rw [h7]; exact this

/-- Moving on by one token. -/
theorem cur_next {l : Lex TK} {v : List (Nat × TK)} (h : Cur l v) :
    ∃ c v', v = c ++ v' ∧ Cur l.next v' ∧ SameToks l l.next ∧ c = v.take 1 ∧
      (if l.pos = 0 then [] else [l.pos]) = c.map Prod.fst := by
  cases v with
  | nil =>
    obtain ⟨h1, h2⟩ := cur_next_nil h
    exact ⟨[], [], rfl, h1, h2, rfl, by simp [h.2.1 rfl]⟩
  | cons p v =>
    obtain ⟨h1, h2, h3, _⟩ := cur_next_cons h
    refine ⟨[p], v, rfl, h1, h2, rfl, ?_⟩
    have := (cur_valid h).2 p List.mem_cons_self
    rw [h3, if_neg (by omega)]
    rfl

/-- Going back to an earlier position. -/
theorem cur_setPos {l l' : Lex TK} {p : Nat × TK} {v : List (Nat × TK)} (h : Cur l (p :: v)) (hs : SameToks l l') :
    l'.setPos l.pos = .ok l := by
  obtain ⟨hr, _, hp⟩ := h
  obtain ⟨toks, pos, sub⟩ := l
  obtain ⟨toks', pos', sub'⟩ := l'
  obtain ⟨h1, h2⟩ := hs
  dsimp only at h1 h2
  subst h1
  cases sub with
  | none =>
    cases sub' with
    | none => rfl
    | some q => cases h2
  | some q =>
    cases sub' with
    | none => cases h2
    | some q' =>
      obtain ⟨ids, n⟩ := q
      obtain ⟨ids', n'⟩ := q'
      simp only [Option.map_some, Option.some.injEq] at h2
      subst h2
      obtain ⟨_, hr⟩ := hr
      dsimp only at hr
      rcases hr with ⟨hr, _⟩ | ⟨m, rfl, hm, _, hg⟩
      · cases hr
      · have hpw := hp ids' m rfl
        have hnd : ids'.Nodup := hpw.imp (fun h => Nat.ne_of_lt h)
        obtain ⟨_, hg⟩ := List.getElem?_eq_some_iff.1 hg
        have hmem : pos ∈ ids' := by rw [← hg]; exact List.getElem_mem _
        have hidx : ids'.idxOf pos = m := by
          rw [← hg]; exact hnd.idxOf_getElem m hm
        unfold Lex.setPos
        dsimp only
        rw [if_pos hmem, hidx]

/-! ## Good functions -/

/-- Exceptions which are not about the structure of the tree. -/
def PErr.foreign : PErr → Prop
  | .tree => False
  | .unbalanced => False
  | _ => True

/-- What happened between two states: tokens were read, a forest was added; its leaves are
tokens of `u` and of those read, in order. -/
def Step (u v : List (Nat × TK)) (s s' : St) (v' : List (Nat × TK)) (f : Forest NK Unit) : Prop :=
  ∃ c, v = c ++ v' ∧ Cur s'.lex v' ∧ SameToks s.lex s'.lex ∧ s'.g.nodes = s.g.nodes ++ f.flat ∧
    s'.g.pending = s.g.pending ∧ (leafToks f).Sublist ((u ++ c).map Prod.fst) ∧ Shape s.lex.toks f

/-- The outcome of a function in a state. -/
def OkAt (R : Option α → Forest NK Unit → Prop) (u : List (Nat × TK)) (s : St) (p : P α) : Prop :=
  ∀ v, Valid s.lex.toks u → Cur s.lex v →
    match p s with
    | .error e => e.foreign
    | .ok (r, s') => ∃ v' f, Step u v s s' v' f ∧ R r f

/-- A function which only adds whole trees, using also the tokens of `u`. -/
def GoodFrom (R : Option α → Forest NK Unit → Prop) (u : List (Nat × TK)) (p : P α) : Prop := ∀ s, OkAt R u s p

/-- No further requirement. -/
def Any : Option α → Forest NK Unit → Prop := fun _ _ => True

/-- A function which only adds whole trees. -/
abbrev Good (p : P α) : Prop := GoodFrom Any [] p

/-- Adds exactly one tree, of one of the kinds. -/
def One (ks : List NK) : Option α → Forest NK Unit → Prop := fun _ f => ∃ k ∈ ks, rootKinds f = [k]

/-- The same, and does not fail. -/
def Ok1 (ks : List NK) : Option α → Forest NK Unit → Prop := fun r f => r.isSome = true ∧ ∃ k ∈ ks, rootKinds f = [k]

theorem Step.refl {v : List (Nat × TK)} {s : St} (h : Cur s.lex v) : Step [] v s s v .nil :=
  ⟨[], rfl, h, SameToks.refl _, by simp [Forest.flat], rfl, by simp [leafToks], trivial⟩

theorem Step.trans {u w v v' v'' : List (Nat × TK)} {s s' s'' : St} {f f' : Forest NK Unit} (h : Step u v s s' v' f)
    (h' : Step w v' s' s'' v'' f') (hw : w = []) : Step u v s s'' v'' (f.append f') := by
  subst hw
  obtain ⟨c, h1, h2, h3, h4, h5, h6, h7⟩ := h
  obtain ⟨c', h1', h2', h3', h4', h5', h6', h7'⟩ := h'
  refine ⟨c ++ c', by rw [h1, h1', List.append_assoc], h2', h3.trans h3', ?_, h5'.trans h5, ?_, shape_append h7 (h3.1 ▸ h7')⟩
  · rw [h4', h4, flat_append, List.append_assoc]
  · rw [leafToks_append, ← List.append_assoc, List.map_append]
    exact h6.append (by simpa using h6')

theorem GoodFrom.mono {R R' : Option α → Forest NK Unit → Prop} {u : List (Nat × TK)} {p : P α} (h : GoodFrom R u p)
    (hR : ∀ r f, R r f → R' r f) : GoodFrom R' u p := by
  intro s v hu hv
  have := h s v hu hv
  split at this
  · exact this
  · obtain ⟨v', f, h1, h2⟩ := this
    exact ⟨v', f, h1, hR _ _ h2⟩

theorem GoodFrom.good {R : Option α → Forest NK Unit → Prop} {p : P α} (h : GoodFrom R [] p) : Good p :=
  h.mono (fun _ _ _ => trivial)

theorem GoodFrom.any {R : Option α → Forest NK Unit → Prop} {u : List (Nat × TK)} {p : P α} (h : GoodFrom R u p) :
    GoodFrom Any u p := h.mono (fun _ _ _ => trivial)

/-- More tokens may be at hand than are used. -/
theorem GoodFrom.weaken {R : Option α → Forest NK Unit → Prop} {u : List (Nat × TK)} {p : P α} (h : GoodFrom R [] p) :
    GoodFrom R u p := by
  intro s v hu hv
  have := h s v ⟨by simp, by simp⟩ hv
  split at this
  · exact this
  · obtain ⟨v', f, ⟨c, h1, h2, h3, h4, h5, h6, h7⟩, hR⟩ := this
    refine ⟨v', f, ⟨c, h1, h2, h3, h4, h5, h6.trans ?_, h7⟩, hR⟩
    simp

theorem Step.cur {u v v' : List (Nat × TK)} {s s' : St} {f : Forest NK Unit} (h : Step u v s s' v' f) : Cur s'.lex v' := by
  obtain ⟨c, _, h, _⟩ := h; exact h

theorem Step.same {u v v' : List (Nat × TK)} {s s' : St} {f : Forest NK Unit} (h : Step u v s s' v' f) :
    SameToks s.lex s'.lex := by
  obtain ⟨c, _, _, h, _⟩ := h; exact h

theorem valid_nil (toks : List TK) : Valid toks [] := ⟨by simp, by simp⟩

/-- Two functions in a row. -/
theorem okAt_seq {R : Option α → Forest NK Unit → Prop} {R' R'' : Option β → Forest NK Unit → Prop} {u : List (Nat × TK)}
    {p : P α} {q : α → P β} {s : St} (hp : OkAt R u s p) (hq : ∀ a, GoodFrom R' [] (q a))
    (h0 : ∀ f, R none f → R'' none f) (h1 : ∀ a r f g, R (some a) f → R' r g → R'' r (f.append g)) :
    OkAt R'' u s (P.bind p q) := by
  intro v hu hv
  have h := hp v hu hv
  unfold P.bind
  cases hps : p s with
  | error e => rw [hps] at h; exact h
  | ok rs =>
    obtain ⟨r, s'⟩ := rs
    rw [hps] at h
    obtain ⟨v', f, hf, hR⟩ := h
    cases r with
    | none => exact ⟨v', f, hf, h0 f hR⟩
    | some a =>
      dsimp only
      have h2 := hq a s' v' (valid_nil _) hf.cur
      cases hqs : q a s' with
      | error e => rw [hqs] at h2; exact h2
      | ok rs =>
        obtain ⟨r, s''⟩ := rs
        rw [hqs] at h2
        obtain ⟨v'', f', h3, hR'⟩ := h2
        exact ⟨v'', f.append f', hf.trans h3 rfl, h1 a r f f' hR hR'⟩

theorem good_bind {u : List (Nat × TK)} {p : P α} {q : α → P β} (hp : GoodFrom Any u p) (hq : ∀ a, Good (q a)) :
    GoodFrom Any u (P.bind p q) :=
  fun s => okAt_seq (hp s) hq (fun _ _ => trivial) (fun _ _ _ _ _ _ => trivial)

/-- Never fails and adds trees of these kinds. -/
def W (ks : List NK) : Option α → Forest NK Unit → Prop := fun r f => r.isSome = true ∧ rootKinds f = ks

theorem W_bind {j k : List NK} {u : List (Nat × TK)} {p : P α} {q : α → P β} (hp : GoodFrom (W j) u p)
    (hq : ∀ a, GoodFrom (W k) [] (q a)) : GoodFrom (W (j ++ k)) u (P.bind p q) :=
  fun s => okAt_seq (hp s) hq (fun _ h => by cases h.1)
    (fun _ _ f g h h' => ⟨h'.1, by rw [rootKinds_append, h.2, h'.2]⟩)

theorem roots_nil {f : Forest NK Unit} (h : rootKinds f = []) : f = .nil := by
  cases f with
  | nil => rfl
  | leaf k v r => simp [rootKinds] at h
  | tree k c r => simp [rootKinds] at h

/-- A function that only moves the cursor comes first. -/
theorem moves_bind {R : Option β → Forest NK Unit → Prop} {u : List (Nat × TK)} {p : P α} {q : α → P β}
    (hp : GoodFrom (W []) [] p) (hq : ∀ a, GoodFrom R u (q a)) : GoodFrom R u (P.bind p q) := by
  intro s v hu hv
  have h := hp s v (valid_nil _) hv
  unfold P.bind
  cases hps : p s with
  | error e => rw [hps] at h; exact h
  | ok rs =>
    obtain ⟨r, s'⟩ := rs
    rw [hps] at h
    obtain ⟨v', f, hf, hR⟩ := h
    cases r with
    | none => cases hR.1
    | some a =>
      dsimp only
      obtain ⟨c, h1, h2, h3, h4, h5, h6, h7⟩ := hf
      rw [roots_nil hR.2] at h4
      simp only [Forest.flat, List.append_nil] at h4
      have hq := hq a s' v' (by rw [h3.1]; exact hu) h2
      cases hqs : q a s' with
      | error e => rw [hqs] at hq; exact hq
      | ok rs =>
        obtain ⟨r, s''⟩ := rs
        rw [hqs] at hq
        obtain ⟨v'', f', ⟨c', k1, k2, k3, k4, k5, k6, k7⟩, hR'⟩ := hq
        refine ⟨v'', f', ⟨c ++ c', by rw [h1, k1, List.append_assoc], k2, h3.trans k3, by rw [k4, h4], k5.trans h5,
          k6.trans ?_, h3.1 ▸ k7⟩, hR'⟩
        exact ((List.Sublist.refl u).append (List.sublist_append_right c c')).map _

/-! ### Questions -/

/-- Changes nothing and does not fail. -/
def Pure (p : P α) : Prop :=
  ∀ s, match p s with
    | .error e => e.foreign
    | .ok (r, s') => s' = s ∧ r.isSome = true

theorem pure_bind {p : P α} {q : α → P β} (hp : Pure p) (hq : ∀ a, Pure (q a)) : Pure (P.bind p q) := by
  intro s
  have h := hp s
  unfold P.bind
  cases hps : p s with
  | error e => rw [hps] at h; exact h
  | ok rs =>
    obtain ⟨r, s'⟩ := rs
    rw [hps] at h
    obtain ⟨rfl, h2⟩ := h
    cases r with
    | none => cases h2
    | some a => exact hq a s'

theorem pure_ret (a : α) : Pure (P.ret a) := fun _ => ⟨rfl, rfl⟩

theorem foreign_ofLex (e : Lexer.Err) : (PErr.ofLex e).foreign := by cases e <;> trivial

theorem pure_ask (f : Lex TK → Except Lexer.Err α) : Pure (ask f) := by
  intro s
  unfold ask
  cases f s.lex with
  | error e => exact foreign_ofLex e
  | ok a => exact ⟨rfl, rfl⟩

theorem pure_at (ks : List TK) (off : Int) : Pure (atP ks off) := pure_ask _
theorem pure_atSeq (ks : List TK) : Pure (atSeqP ks) := pure_ask _
theorem pure_kind (off : Int) : Pure (kindP off) := pure_ask _
theorem pure_finished : Pure finishedP := pure_ask _

theorem pure_and {a b : P Bool} (ha : Pure a) (hb : Pure b) : Pure (andP a b) :=
  pure_bind ha (fun t => match t with | true => hb | false => pure_ret _)

theorem pure_or {a b : P Bool} (ha : Pure a) (hb : Pure b) : Pure (orP a b) :=
  pure_bind ha (fun t => match t with | true => pure_ret _ | false => hb)

theorem pure_not {a : P Bool} (ha : Pure a) : Pure (notP a) := pure_bind ha (fun _ => pure_ret _)

theorem pure_canSearch (ks : List TK) : Pure (canSearch ks) := pure_and (pure_not pure_finished) (pure_not (pure_at _ _))

theorem pure_canSearchSeq (ks : List TK) : Pure (canSearchSeq ks) :=
  pure_and (pure_not pure_finished) (pure_not (pure_atSeq _))

theorem okAt_pure_bind {R : Option β → Forest NK Unit → Prop} {u : List (Nat × TK)} {p : P α} {q : α → P β} {s : St}
    (hp : Pure p) (hq : ∀ a, p s = .ok (some a, s) → OkAt R u s (q a)) : OkAt R u s (P.bind p q) := by
  intro v hu hv
  have h := hp s
  unfold P.bind
  cases hps : p s with
  | error e => rw [hps] at h; exact h
  | ok rs =>
    obtain ⟨r, s'⟩ := rs
    rw [hps] at h
    obtain ⟨rfl, h2⟩ := h
    cases r with
    | none => cases h2
    | some a => exact hq a hps v hu hv

theorem pure_then {R : Option β → Forest NK Unit → Prop} {u : List (Nat × TK)} {p : P α} {q : α → P β}
    (hp : Pure p) (hq : ∀ a, GoodFrom R u (q a)) : GoodFrom R u (P.bind p q) :=
  fun s => okAt_pure_bind hp (fun a _ => hq a s)

theorem good_if {R : Option α → Forest NK Unit → Prop} {u : List (Nat × TK)} {c : P Bool} {a b : P α}
    (hc : Pure c) (ha : GoodFrom R u a) (hb : GoodFrom R u b) : GoodFrom R u (ifP c a b) :=
  pure_then hc (fun t => match t with | true => ha | false => hb)

theorem good_ret {u : List (Nat × TK)} (a : α) : GoodFrom (W []) u (P.ret a) := by
  refine GoodFrom.weaken ?_
  intro s v hu hv
  exact ⟨v, .nil, Step.refl hv, rfl, rfl⟩

theorem good_throw {R : Option α → Forest NK Unit → Prop} {u : List (Nat × TK)} {e : PErr} (h : e.foreign) :
    GoodFrom R u (throwP e) := fun _ _ _ _ => h

theorem good_next : GoodFrom (W []) [] nextP := by
  intro s v _ hv
  obtain ⟨c, v', h1, h2, h3, _, _⟩ := cur_next hv
  exact ⟨v', .nil, ⟨c, h1, h2, h3, by simp [Forest.flat], rfl, by simp [leafToks], trivial⟩, rfl, rfl⟩

/-! ### Nodes -/

theorem good_mono {k : NK} (hk : k ≠ .Subtree) : GoodFrom (W [k]) [] (monoP k) := by
  intro s v _ hv
  exact ⟨v, .leaf k (.mono ()) .nil, ⟨[], rfl, hv, SameToks.refl _, rfl, rfl, by simp [leafToks], hk, trivial⟩, rfl, rfl⟩

theorem good_empty : GoodFrom (W [.Empty]) [] emptyP := good_mono (by decide)

theorem good_popAny {k : NK} (hk : k ≠ .Subtree) : GoodFrom (W [k]) [] (popAny k) := by
  intro s v _ hv
  obtain ⟨c, v', h1, h2, h3, _, h5⟩ := cur_next hv
  refine ⟨v', .leaf k (.tok s.lex.pos) .nil, ⟨c, h1, h2, h3, rfl, rfl, ?_, hk, trivial⟩, rfl, rfl⟩
  simp only [leafToks, List.append_nil, List.nil_append, h5]
  exact List.Sublist.refl _

theorem good_errorToken (t : Texts) : GoodFrom (W [.ErrorInfoToken]) [] (errorToken t) := by
  intro s v hu hv
  unfold errorToken
  by_cases h : (!s.lex.finished && t.noLoc s.lex.pos) = true
  · rw [if_pos h]; trivial
  · rw [if_neg h]; exact good_mono (k := .ErrorInfoToken) (by decide) s v hu hv

/-- Fails after one error node. -/
def Fails : Option α → Forest NK Unit → Prop := fun r f => r = none ∧ rootKinds f = [.ErrorInfoToken]

theorem good_fail (t : Texts) : GoodFrom (Fails (α := α)) [] (failP t) := by
  intro s v hu hv
  have h := good_errorToken t s v hu hv
  unfold failP P.bind
  cases hs : errorToken t s with
  | error e => rw [hs] at h; exact h
  | ok rs =>
    obtain ⟨r, s'⟩ := rs
    rw [hs] at h
    obtain ⟨v', f, h1, h2, h3⟩ := h
    cases r with
    | none => cases h2
    | some a => exact ⟨v', f, h1, rfl, h3⟩

theorem good_expect (t : Texts) (ks : List TK) {u : List (Nat × TK)} : GoodFrom Any u (expectP t ks) :=
  good_if (pure_at _ _) (good_ret _).any (good_fail t).any.weaken

theorem good_skip (t : Texts) (ks : List TK) : Good (skipP t ks) := good_bind (good_expect t ks) (fun _ => good_next.good)

theorem good_popAs (t : Texts) {k : NK} (ks : List TK) (hk : k ≠ .Subtree) : Good (popAs t k ks) :=
  good_bind (good_expect t ks) (fun _ => (good_popAny hk).good)

/-- A node around what the body adds. -/
def Around (R : Option α → Forest NK Unit → Prop) (k : NK) : Option α → Forest NK Unit → Prop :=
  fun r f => ∃ c, f = .tree k c .nil ∧ R r c

theorem okAt_node {R : Option α → Forest NK Unit → Prop} {u : List (Nat × TK)} {k : NK} {body : P α} {s : St}
    (hk : k ≠ .Empty) (h : OkAt R u { s with g := (s.g.startTree ⟨k, .ext 0⟩).1 } body)
    (hk' : k = .Subtree → ∀ r c, R r c → IsHeadline s.lex.toks c) : OkAt (Around R k) u s (node k body) := by
  intro v hu hv
  have h := h v hu hv
  unfold node
  cases hs : body { s with g := (s.g.startTree ⟨k, .ext 0⟩).1 } with
  | error e => rw [hs] at h; exact h
  | ok rs =>
    obtain ⟨r, s'⟩ := rs
    rw [hs] at h
    obtain ⟨v', f, ⟨c, h1, h2, h3, h4, h5, h6, h7⟩, hR⟩ := h
    obtain ⟨l', nodes', pend'⟩ := s'
    dsimp only [Group.startTree] at h4 h5
    subst h4 h5
    dsimp only
    unfold guardEnd
    rw [List.append_assoc, List.singleton_append, endTree_close]
    dsimp only
    rw [if_pos rfl]
    refine ⟨v', .tree k f .nil, ⟨c, h1, h2, h3, ?_, rfl, ?_, hk, fun e => hk' e _ _ hR, h7, trivial⟩, f, rfl, hR⟩
    · simp [Forest.flat]
    · simpa [leafToks] using h6

theorem good_node {R : Option α → Forest NK Unit → Prop} {u : List (Nat × TK)} {k : NK} {body : P α}
    (h : GoodFrom R u body) (hk : k ≠ .Empty) (hk' : k ≠ .Subtree) : GoodFrom (Around R k) u (node k body) :=
  fun s => okAt_node hk (h _) (fun e => absurd e hk')

theorem Around.one {R : Option α → Forest NK Unit → Prop} {k : NK} {r : Option α} {f : Forest NK Unit} (h : Around R k r f) :
    One [k] r f := by
  obtain ⟨c, rfl, _⟩ := h; exact ⟨k, List.mem_cons_self, rfl⟩

theorem good_node' {R : Option α → Forest NK Unit → Prop} {u : List (Nat × TK)} {k : NK} {body : P α}
    (h : GoodFrom R u body) (hk : k ≠ .Empty) (hk' : k ≠ .Subtree) : GoodFrom Any u (node k body) :=
  (good_node h hk hk').any

/-! ### Failures -/

theorem good_sub {u : List (Nat × TK)} (t : Texts) {p : P α} (h : GoodFrom Any u p) : GoodFrom Any u (subP t p) := by
  intro s v hu hv
  have h := h s v hu hv
  unfold subP
  cases hs : p s with
  | error e => rw [hs] at h; exact h
  | ok rs =>
    obtain ⟨r, s'⟩ := rs
    rw [hs] at h
    obtain ⟨v', f, h1, h2⟩ := h
    cases r with
    | some a => exact ⟨v', f, h1, trivial⟩
    | none =>
      dsimp only
      have h3 := good_fail (α := α) t s' v' (valid_nil _) h1.cur
      cases hs' : failP (α := α) t s' with
      | error e => rw [hs'] at h3; exact h3
      | ok rs =>
        obtain ⟨r, s''⟩ := rs
        rw [hs'] at h3
        obtain ⟨v'', f', h4, _⟩ := h3
        exact ⟨v'', _, h1.trans h4 rfl, trivial⟩

theorem W_sub {k : List NK} {u : List (Nat × TK)} (t : Texts) {p : P α} (h : GoodFrom (W k) u p) :
    GoodFrom (W k) u (subP t p) := by
  intro s v hu hv
  have h := h s v hu hv
  unfold subP
  cases hs : p s with
  | error e => rw [hs] at h; exact h
  | ok rs =>
    obtain ⟨r, s'⟩ := rs
    rw [hs] at h
    obtain ⟨v', f, h1, h2⟩ := h
    cases r with
    | some a => exact ⟨v', f, h1, h2⟩
    | none => cases h2.1

theorem good_ignore {u : List (Nat × TK)} {p : P α} (h : GoodFrom Any u p) : GoodFrom Any u (ignoreP p) := by
  intro s v hu hv
  have h := h s v hu hv
  unfold ignoreP
  cases hs : p s with
  | error e => rw [hs] at h; exact h
  | ok rs =>
    obtain ⟨r, s'⟩ := rs
    rw [hs] at h
    obtain ⟨v', f, h1, h2⟩ := h
    exact ⟨v', f, h1, trivial⟩

/-! ### Loops -/

theorem good_while {c : P Bool} {body : P Unit} (hc : Pure c) (hb : Good body) (n : Nat) : Good (whileP c body n) := by
  induction n with
  | zero => exact good_if hc (good_throw trivial) (good_ret _).any
  | succ n ih => exact good_if hc (good_bind hb (fun _ => ih)) (good_ret _).any

theorem W_while {c : P Bool} {body : P Unit} (hc : Pure c) (hb : GoodFrom (W []) [] body) (n : Nat) :
    GoodFrom (W []) [] (whileP c body n) := by
  induction n with
  | zero => exact good_if hc (good_throw trivial) (good_ret _)
  | succ n ih => exact good_if hc (W_bind hb (fun _ => ih)) (good_ret _)

theorem W_space (n : Nat) : GoodFrom (W []) [] (spaceP n) := W_while (pure_at _ _) good_next n
theorem W_newline (n : Nat) : GoodFrom (W []) [] (newlineP n) := W_while (pure_at _ _) good_next n

/-! ### Collected tokens -/

/-- Collects tokens it has read, and changes nothing else. -/
def Collects (p : P (List Nat)) : Prop :=
  ∀ s v, Cur s.lex v →
    match p s with
    | .error e => e.foreign
    | .ok (none, _) => False
    | .ok (some ids, s') => s'.g = s.g ∧ ∃ c v', ∃ u : List (Nat × TK), v = c ++ v' ∧ Cur s'.lex v' ∧ SameToks s.lex s'.lex ∧
        ids = u.map Prod.fst ∧ u.Sublist c

theorem collects_bind {R : Option β → Forest NK Unit → Prop} {w : List (Nat × TK)} {p : P (List Nat)} {q : List Nat → P β}
    (hp : Collects p) (hq : ∀ u, GoodFrom R u (q (u.map Prod.fst))) : GoodFrom R w (P.bind p q) := by
  refine GoodFrom.weaken ?_
  intro s v _ hv
  have h := hp s v hv
  unfold P.bind
  cases hps : p s with
  | error e => rw [hps] at h; exact h
  | ok rs =>
    obtain ⟨r, s'⟩ := rs
    rw [hps] at h
    cases r with
    | none => exact h.elim
    | some ids =>
      obtain ⟨hg, c, v', u, h1, h2, h3, rfl, h5⟩ := h
      dsimp only
      have hval : Valid s'.lex.toks u := by
        rw [h3.1]
        refine (cur_valid hv).sublist (h5.trans ?_)
        rw [h1]; exact List.sublist_append_left _ _
      have hq := hq u s' v' hval h2
      cases hqs : q (u.map Prod.fst) s' with
      | error e => rw [hqs] at hq; exact hq
      | ok rs =>
        obtain ⟨r, s''⟩ := rs
        rw [hqs] at hq
        obtain ⟨v'', f', ⟨c', k1, k2, k3, k4, k5, k6, k7⟩, hR'⟩ := hq
        refine ⟨v'', f', ⟨c ++ c', by rw [h1, k1, List.append_assoc], k2, h3.trans k3, by rw [k4, hg], by rw [k5, hg],
          k6.trans ?_, h3.1 ▸ k7⟩, hR'⟩
        exact (h5.append (List.Sublist.refl c')).map _

/-- The answer at the end of the stream does not depend on the cursor. -/
def EndConst (c : P Bool) : Prop := ∃ b, ∀ s, Cur s.lex [] → c s = .ok (some b, s)

theorem collect_end {c : P Bool} {b : Bool} (hb : ∀ s, Cur s.lex [] → c s = .ok (some b, s)) :
    ∀ n s, Cur s.lex [] → collect c n s = if b then .error .diverges else .ok (some [], s) := by
  intro n
  induction n with
  | zero =>
    intro s hv
    simp only [collect, ifP, P.bind, hb s hv]
    cases b <;> rfl
  | succ n ih =>
    intro s hv
    simp only [collect, ifP, P.bind, hb s hv]
    cases b with
    | false => rfl
    | true =>
      dsimp only [P.bind, popP]
      rw [ih _ (cur_next_nil hv).1]
      rfl

theorem collects_collect {c : P Bool} (hc : Pure c) (he : EndConst c) (n : Nat) : Collects (collect c n) := by
  obtain ⟨b, hb⟩ := he
  induction n with
  | zero =>
    intro s v hv
    have h := hc s
    unfold collect ifP P.bind
    cases hs : c s with
    | error e => rw [hs] at h; exact h
    | ok rs =>
      obtain ⟨r, s'⟩ := rs
      rw [hs] at h
      obtain ⟨rfl, h2⟩ := h
      cases r with
      | none => cases h2
      | some a =>
        cases a with
        | true => trivial
        | false => exact ⟨rfl, [], v, [], rfl, hv, SameToks.refl _, rfl, List.Sublist.refl _⟩
  | succ n ih =>
    intro s v hv
    cases v with
    | nil =>
      rw [collect_end hb _ s hv]
      cases b with
      | true => trivial
      | false => exact ⟨rfl, [], [], [], rfl, hv, SameToks.refl _, rfl, List.Sublist.refl _⟩
    | cons p v =>
      have h := hc s
      unfold collect ifP P.bind
      cases hs : c s with
      | error e => rw [hs] at h; exact h
      | ok rs =>
        obtain ⟨r, s'⟩ := rs
        rw [hs] at h
        obtain ⟨rfl, h2⟩ := h
        cases r with
        | none => cases h2
        | some a =>
          cases a with
          | false => exact ⟨rfl, [], _, [], rfl, hv, SameToks.refl _, rfl, List.Sublist.refl _⟩
          | true =>
            obtain ⟨k1, k2, k3, _⟩ := cur_next_cons hv
            dsimp only [P.bind, popP]
            have h := ih { s' with lex := s'.lex.next } v k1
            cases hs' : collect c n { s' with lex := s'.lex.next } with
            | error e => rw [hs'] at h; exact h
            | ok rs =>
              obtain ⟨r, s''⟩ := rs
              rw [hs'] at h
              cases r with
              | none => exact h.elim
              | some ids =>
                obtain ⟨hg, c', v', u, h1, h2, h3, h4, h5⟩ := h
                refine ⟨hg, p :: c', v', p :: u, by rw [h1]; rfl, h2, k2.trans h3, ?_, h5.cons_cons _⟩
                simp [h4, k3]

theorem endConst_finished : ∀ s, Cur s.lex [] → finishedP s = .ok (some true, s) := by
  intro s h
  have := (reads_nil h.1).1
  simp [finishedP, ask, this]

theorem endConst_not {c : P Bool} {b : Bool} (h : ∀ s, Cur s.lex [] → c s = .ok (some b, s)) :
    ∀ s, Cur s.lex [] → notP c s = .ok (some (!b), s) := by
  intro s hs
  simp [notP, P.bind, h s hs, P.ret]

theorem endConst_and {c d : P Bool} (h : ∀ s, Cur s.lex [] → c s = .ok (some false, s)) : EndConst (andP c d) := by
  refine ⟨false, ?_⟩
  intro s hs
  simp [andP, P.bind, h s hs, P.ret]

theorem canSearch_end (ks : List TK) : ∀ s, Cur s.lex [] → canSearch ks s = .ok (some false, s) := by
  intro s hs
  have := endConst_not endConst_finished s hs
  simp only [canSearch, andP, P.bind, this]
  rfl

theorem endConst_canSearch (ks : List TK) : EndConst (canSearch ks) := ⟨false, canSearch_end ks⟩

theorem endConst_canSearchSeq (ks : List TK) : EndConst (canSearchSeq ks) :=
  endConst_and (endConst_not endConst_finished)

theorem endConst_notAt (ks : List TK) : EndConst (notP (atP ks)) := by
  refine ⟨true, endConst_not (b := false) ?_⟩
  intro s hs
  have := at_reads s.lex [] hs.1 (Or.inr ⟨0, rfl⟩) ks 0
  have this : s.lex.at ks 0 = .ok false := this
  simp [atP, ask, this]

/-! ### Other cursors -/

theorem good_withIds {R : Option α → Forest NK Unit → Prop} {u : List (Nat × TK)} {p : P α} (h : GoodFrom R [] p) :
    GoodFrom R u (withIds (u.map Prod.fst) p) := by
  intro s v hu hv
  have hc := cur_sub hu
  have h := h { s with lex := Lex.ofIds s.lex.toks (u.map Prod.fst) } u (valid_nil _) hc
  unfold withIds withLex
  cases hs : p { s with lex := Lex.ofIds s.lex.toks (u.map Prod.fst) } with
  | error e => rw [hs] at h; exact h
  | ok rs =>
    obtain ⟨r, s'⟩ := rs
    rw [hs] at h
    obtain ⟨v', f, ⟨c, h1, h2, h3, h4, h5, h6, h7⟩, hR⟩ := h
    refine ⟨v, f, ⟨[], rfl, hv, SameToks.refl _, h4, h5, ?_, h7⟩, hR⟩
    refine h6.trans (List.Sublist.map _ ?_)
    rw [h1]; simp

theorem good_startIds {u : List (Nat × TK)} (t : Texts) {p : P Unit} (h : Good p) :
    GoodFrom Any u (startIds t (u.map Prod.fst) p) := by
  cases u with
  | nil => exact good_throw trivial
  | cons q u => exact good_sub t (good_withIds (u := q :: u) h)

theorem good_idsOrEmpty {u : List (Nat × TK)} (t : Texts) {p : P Unit} (h : Good p) :
    GoodFrom Any u (idsOrEmpty t (u.map Prod.fst) p) := by
  cases u with
  | nil => exact good_empty.good
  | cons q u => exact good_sub t (good_withIds (u := q :: u) h)

theorem W_ok1 {u : List (Nat × TK)} {p : P α} {k : NK} {ks : List NK} (h : GoodFrom (W [k]) u p) (hk : k ∈ ks) :
    GoodFrom (Ok1 ks) u p := h.mono (fun _ _ h => ⟨h.1, k, hk, h.2⟩)

theorem W_idsOrEmpty {u : List (Nat × TK)} (t : Texts) {p : P Unit} {k : NK} (h : GoodFrom (W [k]) [] p) :
    GoodFrom (Ok1 [k, .Empty]) u (idsOrEmpty t (u.map Prod.fst) p) := by
  cases u with
  | nil => exact W_ok1 good_empty.weaken (by simp)
  | cons q u => exact W_ok1 (W_sub t (good_withIds (u := q :: u) h)) (by simp)

/-! ### A tactic -/

theorem good_bind' {u : List (Nat × TK)} {p : P α} {q : α → P β} (hp : GoodFrom Any u p) (hq : ∀ a, Good (q a)) :
    GoodFrom Any u (p >>= q) := good_bind hp hq

theorem good_ret' {u : List (Nat × TK)} (a : α) : GoodFrom Any u (pure a : P α) := (good_ret a).any

theorem good_pure {u : List (Nat × TK)} {p : P α} (h : Pure p) : GoodFrom Any u p := by
  refine GoodFrom.weaken ?_
  intro s v _ hv
  have h := h s
  cases hs : p s with
  | error e => rw [hs] at h; exact h
  | ok rs =>
    obtain ⟨r, s'⟩ := rs
    rw [hs] at h
    obtain ⟨rfl, h2⟩ := h
    exact ⟨v, .nil, Step.refl hv, trivial⟩

theorem collects_bind' {R : Option β → Forest NK Unit → Prop} {w : List (Nat × TK)} {p : P (List Nat)} {q : List Nat → P β}
    (hp : Collects p) (hq : ∀ u, GoodFrom R u (q (u.map Prod.fst))) : GoodFrom R w (p >>= q) := collects_bind hp hq

theorem good_at {u : List (Nat × TK)} (ks : List TK) (off : Int) : GoodFrom Any u (atP ks off) := good_pure (pure_at ks off)
theorem good_kind {u : List (Nat × TK)} (off : Int) : GoodFrom Any u (kindP off) := good_pure (pure_kind off)

/-- Purity of questions. -/
macro "askpure" : tactic => `(tactic| repeat' first
  | with_reducible exact pure_ask _
  | with_reducible exact pure_at _ _
  | with_reducible exact pure_atSeq _
  | with_reducible exact pure_kind _
  | with_reducible exact pure_finished
  | with_reducible exact pure_canSearch _
  | with_reducible exact pure_canSearchSeq _
  | with_reducible exact pure_ret _
  | with_reducible refine pure_and ?_ ?_
  | with_reducible refine pure_or ?_ ?_
  | with_reducible refine pure_not ?_)

/-- One rule. -/
macro "good1" : tactic => `(tactic| first
  | with_reducible assumption
  | with_reducible exact good_skip _ _
  | with_reducible exact good_popAs _ _ (by decide)
  | with_reducible exact good_next.any
  | with_reducible exact good_empty.any
  | with_reducible exact (good_popAny (by decide)).any
  | with_reducible exact (W_space _).any
  | with_reducible exact (W_newline _).any
  | with_reducible exact good_expect _ _
  | with_reducible exact (good_fail _).any
  | with_reducible exact (good_ret _).any
  | with_reducible exact good_ret' _
  | with_reducible exact good_at _ _
  | with_reducible exact good_kind _
  | ((with_reducible refine good_throw ?_); exact True.intro)
  | with_reducible refine collects_bind' (collects_collect ?_ ?_ _) (fun _ => ?_)
  | with_reducible refine collects_bind (collects_collect ?_ ?_ _) (fun _ => ?_)
  | with_reducible refine good_if ?_ ?_ ?_
  | with_reducible refine good_node' (R := Any) ?_ (by decide) (by decide)
  | with_reducible refine good_sub _ ?_
  | with_reducible refine good_ignore ?_
  | with_reducible refine good_while ?_ ?_ _
  | with_reducible exact good_startIds _ (by with_reducible assumption)
  | with_reducible exact good_idsOrEmpty _ (by with_reducible assumption)
  | with_reducible refine good_bind' ?_ (fun _ => ?_)
  | with_reducible refine good_bind ?_ (fun _ => ?_)
  | with_reducible exact endConst_canSearch _
  | with_reducible exact endConst_canSearchSeq _
  | with_reducible exact endConst_notAt _
  | (with_reducible refine endConst_and ?_; with_reducible exact canSearch_end _)
  | (show Pure _; askpure; done))

/-- All of them. -/
macro "good" : tactic => `(tactic| repeat' good1)

end Verif.Parser
