import Verif.Parser.Doc

/-!
# What parse functions do on given tokens
-/

namespace Verif.Parser
open Verif.Lexer Verif.NodeGroup Verif.NodeGroup.Spec

/-- The function returns `a`, reads from `v` on up to `v'` and adds the nodes of `f` (plain cursor). -/
def Does {α : Type} (p : P α) (a : α) (v v' : List (Nat × TK)) (f : Forest NK Unit) : Prop :=
  ∀ s : St, Cur s.lex v → s.lex.sub = none →
    ∃ l, p s = .ok (some a, ⟨l, ⟨s.g.nodes ++ f.flat, s.g.pending⟩⟩) ∧ Cur l v' ∧ l.sub = none ∧ l.toks = s.lex.toks

variable {α β : Type}

theorem does_bind {p : P α} {q : α → P β} {a : α} {b : β} {v v' v'' : List (Nat × TK)} {f g : Forest NK Unit}
    (hp : Does p a v v' f) (hq : Does (q a) b v' v'' g) : Does (P.bind p q) b v v'' (f.append g) := by
  intro s hv hs
  obtain ⟨l, h1, h2, h3, h4⟩ := hp s hv hs
  obtain ⟨l', k1, k2, k3, k4⟩ := hq ⟨l, ⟨s.g.nodes ++ f.flat, s.g.pending⟩⟩ h2 h3
  refine ⟨l', ?_, k2, k3, k4.trans h4⟩
  rw [bind_ok h1, k1, flat_append]
  simp

theorem does_ret (a : α) (v : List (Nat × TK)) : Does (P.ret a) a v v .nil := by
  intro s hv hs
  exact ⟨s.lex, by simp [P.ret, Forest.flat], hv, hs, rfl⟩

/-- A function without nodes before another one. -/
theorem does_seq {p : P α} {q : α → P β} {a : α} {b : β} {v v' v'' : List (Nat × TK)} {g : Forest NK Unit}
    (hp : Does p a v v' .nil) (hq : Does (q a) b v' v'' g) : Does (P.bind p q) b v v'' g := does_bind hp hq

theorem does_if_true {c : P Bool} {p q : P α} {a : α} {v v' : List (Nat × TK)} {f : Forest NK Unit}
    (hc : Does c true v v .nil) (hp : Does p a v v' f) : Does (ifP c p q) a v v' f := does_seq hc hp

theorem does_if_false {c : P Bool} {p q : P α} {a : α} {v v' : List (Nat × TK)} {f : Forest NK Unit}
    (hc : Does c false v v .nil) (hq : Does q a v v' f) : Does (ifP c p q) a v v' f := does_seq hc hq

theorem does_and {p q : P Bool} {a b : Bool} {v : List (Nat × TK)} (hp : Does p a v v .nil) (hq : a = true → Does q b v v .nil)
    (hb : a = false → b = false) : Does (andP p q) b v v .nil := by
  cases a with
  | true => exact does_seq hp (hq rfl)
  | false => rw [hb rfl]; exact does_seq hp (does_ret _ _)

theorem does_or {p q : P Bool} {a b : Bool} {v : List (Nat × TK)} (hp : Does p a v v .nil) (hq : a = false → Does q b v v .nil)
    (hb : a = true → b = true) : Does (orP p q) b v v .nil := by
  cases a with
  | false => exact does_seq hp (hq rfl)
  | true => rw [hb rfl]; exact does_seq hp (does_ret _ _)

theorem does_not {p : P Bool} {a : Bool} {v : List (Nat × TK)} (hp : Does p a v v .nil) : Does (notP p) (!a) v v .nil :=
  does_seq hp (does_ret _ _)

/-- A question about the kind of a token ahead. -/
theorem does_at (kinds : List TK) (n : Nat) (v : List (Nat × TK)) :
    Does (atP kinds (n : Int)) (match v[n]? with | some p => decide (p.2 ∈ kinds) | none => false) v v .nil := by
  intro s hv hs
  refine ⟨s.lex, ?_, hv, hs, rfl⟩
  unfold atP ask
  dsimp only
  rw [at_reads s.lex v hv.1 (.inl hs) kinds n]
  cases v[n]? <;> simp [Forest.flat]

theorem does_at_cons (kinds : List TK) (i : Nat) (k : TK) (v : List (Nat × TK)) :
    Does (atP kinds) (decide (k ∈ kinds)) ((i, k) :: v) ((i, k) :: v) .nil := does_at kinds 0 ((i, k) :: v)

theorem does_at_nil (kinds : List TK) : Does (atP kinds) false [] [] .nil := does_at kinds 0 []

theorem does_finished (v : List (Nat × TK)) : Does finishedP v.isEmpty v v .nil := by
  intro s hv hs
  refine ⟨s.lex, ?_, hv, hs, rfl⟩
  cases v with
  | nil => simpa [Forest.flat] using finished_nil hv
  | cons p v => simpa [Forest.flat] using finished_cons hv

theorem does_next (p : Nat × TK) (v : List (Nat × TK)) : Does nextP () (p :: v) v .nil := by
  intro s hv hs
  obtain ⟨h1, h2, _⟩ := cur_next_cons hv
  refine ⟨s.lex.next, by simp [nextP, Forest.flat], h1, ?_, h2.1⟩
  have := h2.2
  rw [hs] at this
  simpa using this

theorem does_expect (t : Texts) {kinds : List TK} {i : Nat} {k : TK} {v : List (Nat × TK)} (hk : k ∈ kinds) :
    Does (expectP t kinds) () ((i, k) :: v) ((i, k) :: v) .nil := by
  refine does_if_true ?_ (does_ret _ _)
  have := does_at_cons kinds i k v
  rwa [decide_eq_true hk] at this

theorem does_skip (t : Texts) {kinds : List TK} {i : Nat} {k : TK} {v : List (Nat × TK)} (hk : k ∈ kinds) :
    Does (skipP t kinds) () ((i, k) :: v) v .nil := does_seq (does_expect t hk) (does_next _ _)

theorem does_popAny (nk : NK) (i : Nat) (k : TK) (v : List (Nat × TK)) : Does (popAny nk) () ((i, k) :: v) v (.leaf nk (.tok i) .nil) := by
  intro s hv hs
  obtain ⟨h1, h2, h3, _⟩ := cur_next_cons hv
  refine ⟨s.lex.next, ?_, h1, ?_, h2.1⟩
  · simp only at h3
    simp [popAny, popP, tokenP, P.bind, Group.token, Forest.flat, h3]
  · have := h2.2
    rw [hs] at this
    simpa using this

theorem does_popAs (t : Texts) (nk : NK) {kinds : List TK} {i : Nat} {k : TK} {v : List (Nat × TK)} (hk : k ∈ kinds) :
    Does (popAs t nk kinds) () ((i, k) :: v) v (.leaf nk (.tok i) .nil) := does_seq (does_expect t hk) (does_popAny nk i k v)

theorem does_empty (v : List (Nat × TK)) : Does emptyP () v v (.leaf .Empty (.mono ()) .nil) := by
  intro s hv hs
  exact ⟨s.lex, by simp [emptyP, monoP, Group.token, Forest.flat], hv, hs, rfl⟩

theorem does_node (nk : NK) {p : P α} {a : α} {v v' : List (Nat × TK)} {f : Forest NK Unit} (hp : Does p a v v' f) :
    Does (node nk p) a v v' (.tree nk f .nil) := by
  intro s hv hs
  obtain ⟨l, h1, h2, h3, h4⟩ := hp { s with g := (s.g.startTree ⟨nk, .ext 0⟩).1 } hv hs
  refine ⟨l, ?_, h2, h3, h4⟩
  have e := endTree_close s.g.nodes f.flat nk s.g.pending (M := Unit)
  unfold node
  rw [h1]
  dsimp only
  unfold guardEnd
  simp only [Group.startTree, List.append_assoc, List.singleton_append, e]
  simp [Forest.flat, flat_length]

theorem does_sub (t : Texts) {p : P α} {a : α} {v v' : List (Nat × TK)} {f : Forest NK Unit} (hp : Does p a v v' f) :
    Does (subP t p) a v v' f := by
  intro s hv hs
  obtain ⟨l, h1, h2⟩ := hp s hv hs
  exact ⟨l, by unfold subP; rw [h1], h2⟩

theorem does_while_stop {c : P Bool} {p : P Unit} {v : List (Nat × TK)} (n : Nat) (hc : Does c false v v .nil) :
    Does (whileP c p n) () v v .nil := by
  cases n <;> exact does_if_false hc (does_ret _ _)

theorem does_while_step {c : P Bool} {p : P Unit} {v v' v'' : List (Nat × TK)} {f g : Forest NK Unit} {n : Nat} (hc : Does c true v v .nil)
    (hp : Does p () v v' f) (hw : Does (whileP c p n) () v' v'' g) : Does (whileP c p (n + 1)) () v v'' (f.append g) :=
  does_if_true hc (does_bind hp hw)

theorem does_fails {p : P Unit} {v v' : List (Nat × TK)} {f : Forest NK Unit} (hp : Does p () v v' f) : Does (failsP p) false v v' f := by
  intro s hv hs
  obtain ⟨l, h1, h2⟩ := hp s hv hs
  exact ⟨l, by unfold failsP; rw [h1], h2⟩

theorem does_canSearch_cons (kinds : List TK) (i : Nat) (k : TK) (v : List (Nat × TK)) :
    Does (canSearch kinds) (!decide (k ∈ kinds)) ((i, k) :: v) ((i, k) :: v) .nil := by
  refine does_and (does_not (does_finished _)) (fun _ => does_not (does_at_cons kinds i k v)) (by simp)

theorem does_canSearch_nil (kinds : List TK) : Does (canSearch kinds) false [] [] .nil :=
  does_and (a := false) (does_not (does_finished _)) (by simp) (by simp)

/-- Spaces are skipped. -/
theorem does_space_one (n : Nat) {i : Nat} {v : List (Nat × TK)} (hv : ∀ p ∈ v.head?, p.2 ∉ [Token.TK.Whitespace, .LeadingSpace]) :
    Does (spaceP (n + 1)) () ((i, .Whitespace) :: v) v .nil := by
  refine does_while_step (f := .nil) (g := .nil) (does_at_cons _ i _ v) (does_next _ _) (does_while_stop n ?_)
  cases v with
  | nil => exact does_at_nil _
  | cons p v =>
    have := does_at_cons [.Whitespace, .LeadingSpace] p.1 p.2 v
    rwa [decide_eq_false (hv p rfl)] at this

theorem does_at_head {kinds : List TK} {v : List (Nat × TK)} (hv : ∀ p ∈ v.head?, p.2 ∉ kinds) : Does (atP kinds) false v v .nil := by
  cases v with
  | nil => exact does_at_nil _
  | cons p v =>
    have := does_at_cons kinds p.1 p.2 v
    rwa [decide_eq_false (hv p rfl)] at this

theorem does_space_none (n : Nat) {v : List (Nat × TK)} (hv : ∀ p ∈ v.head?, p.2 ∉ [Token.TK.Whitespace, .LeadingSpace]) :
    Does (spaceP n) () v v .nil := does_while_stop n (does_at_head hv)

theorem does_newline_none (n : Nat) {v : List (Nat × TK)} (hv : ∀ p ∈ v.head?, p.2 ∉ newlineKinds) : Does (newlineP n) () v v .nil :=
  does_while_stop n (does_at_head hv)

theorem does_newline_one (n : Nat) {i : Nat} {k : TK} {v : List (Nat × TK)} (hk : k ∈ newlineKinds) (hv : ∀ p ∈ v.head?, p.2 ∉ newlineKinds) :
    Does (newlineP (n + 1)) () ((i, k) :: v) v .nil := by
  refine does_while_step (f := .nil) (g := .nil) ?_ (does_next _ _) (does_newline_none n hv)
  have := does_at_cons newlineKinds i k v
  rwa [decide_eq_true hk] at this

/-- Tokens are collected up to the point where the condition fails. -/
theorem does_collect {c : P Bool} {u r : List (Nat × TK)} (hu : ∀ a p b, u = a ++ p :: b → Does c true (p :: (b ++ r)) (p :: (b ++ r)) .nil)
    (hr : Does c false r r .nil) (n : Nat) (hn : u.length ≤ n) : Does (collect c n) (u.map Prod.fst) (u ++ r) r .nil := by
  induction u generalizing n with
  | nil => cases n <;> exact does_if_false hr (does_ret _ _)
  | cons p u ih =>
    obtain ⟨n, rfl⟩ : ∃ m, n = m + 1 := ⟨n - 1, by simp at hn; omega⟩
    refine does_if_true (hu [] p u rfl) ?_
    have hp : Does popP p.1 (p :: (u ++ r)) (u ++ r) .nil := by
      intro s hv hs
      obtain ⟨h1, h2, h3, _⟩ := cur_next_cons hv
      refine ⟨s.lex.next, by simp [popP, Forest.flat, h3], h1, ?_, h2.1⟩
      have := h2.2
      rw [hs] at this
      simpa using this
    exact does_seq hp (does_seq (ih (fun a q b h => hu (p :: a) q b (by rw [h]; rfl)) n (by simpa using hn)) (does_ret _ _))

/-- A paragraph of collected tokens. -/
theorem does_collected (t : Texts) {c : P Bool} {u r : List (Nat × TK)} {g : Forest NK Unit} (hg : Open none u g) (hne : u ≠ [])
    (hu : ∀ a p b, u = a ++ p :: b → Does c true (p :: (b ++ r)) (p :: (b ++ r)) .nil) (hr : Does c false r r .nil) (n m : Nat)
    (hn : u.length + 2 ≤ n) (hm : u.length ≤ m) :
    Does (P.bind (collect c m) (fun ids => idsOrEmpty t ids (parseParagraph t n))) () (u ++ r) r (.tree .Paragraph g .nil) := by
  intro s hv hs
  obtain ⟨l, h1, h2, h3, h4⟩ := does_collect hu hr m hm s hv hs
  have hval := valid_prefix (cur_valid hv)
  obtain ⟨l', q1, q2⟩ := paragraph_reading t n ⟨Lex.ofIds l.toks (u.map Prod.fst), s.g⟩ _ (cur_sub (h4 ▸ hval)) hg hn
  refine ⟨l, ?_, h2, h3, h4⟩
  rw [bind_ok h1]
  obtain ⟨p, u, rfl⟩ := List.exists_cons_of_ne_nil hne
  simp only [List.map_cons, Forest.flat, List.append_nil] at q1 ⊢
  unfold idsOrEmpty subP withIds withLex
  dsimp only
  rw [q1]

/-- The kinds of the group from the cursor on. -/
theorem groupRest_eq {l : Lex TK} {v : List (Nat × TK)} (hv : Cur l v) (hs : l.sub = none) : groupRest l = v.map Prod.snd := by
  obtain ⟨h1, h2, _⟩ := hv
  unfold Reads at h1
  rw [hs] at h1
  obtain ⟨pre, e1, e2, _⟩ := h1
  unfold groupRest
  rcases e2 with e2 | ⟨e2, e3⟩
  · rw [if_neg (by omega), e1, e2]
    simp
  · rw [if_pos e2, e3]; rfl

end Verif.Parser
