import Verif.Stamp.Parse

/-!
# What parse functions do on a part of the tokens

As `Verif.Stamp.Does`, for a cursor over any tokens that follow each other in the document.
-/

namespace Verif.Link
open Verif.Lexer Verif.NodeGroup Verif.NodeGroup.Spec
open Verif.Parser hiding TK Does does_bind does_ret does_seq does_if_true does_if_false does_at does_finished does_next does_expect does_skip does_popAny does_popAs
  does_empty does_node does_sub does_while_stop does_while_step groupRest_eq
open Verif.Pipeline (numbered numbered_cons numbered_append)
open Verif.Stamp (numbered_fst numbered_snd numbered_length)
open Verif.Token (TK)

/-- The tokens follow each other. -/
def Contig (v : List (Nat × TK)) : Prop := ∃ a, v.map Prod.fst = List.range' a v.length

theorem Contig.tail {p : Nat × TK} {v : List (Nat × TK)} (h : Contig (p :: v)) : Contig v := by
  obtain ⟨a, h⟩ := h
  refine ⟨a + 1, ?_⟩
  rw [List.map_cons, List.length_cons, List.range'_succ] at h
  exact (List.cons.inj h).2

theorem Contig.left {u v : List (Nat × TK)} (h : Contig (u ++ v)) : Contig u := by
  obtain ⟨a, h⟩ := h
  refine ⟨a, ?_⟩
  rw [List.map_append, List.length_append, ← List.range'_append_1] at h
  exact (List.append_inj h (by simp)).1

theorem contig_numbered (i : Nat) (ks : List TK) : Contig (numbered i ks) := ⟨i, by rw [numbered_fst, numbered_length]⟩

/-- The function returns `a`, reads from `v` on up to `v'` and adds the nodes of `f`. -/
def Does {α : Type} (p : P α) (a : α) (v v' : List (Nat × TK)) (f : Forest NK Unit) : Prop :=
  ∀ s : St, Cur s.lex v → Contig v →
    ∃ l, p s = .ok (some a, ⟨l, ⟨s.g.nodes ++ f.flat, s.g.pending⟩⟩) ∧ Cur l v' ∧ Contig v' ∧ l.toks = s.lex.toks

variable {α β : Type}

theorem does_bind {p : P α} {q : α → P β} {a : α} {b : β} {v v' v'' : List (Nat × TK)} {f g : Forest NK Unit}
    (hp : Does p a v v' f) (hq : Does (q a) b v' v'' g) : Does (P.bind p q) b v v'' (f.append g) := by
  intro s hv hs
  obtain ⟨l, h1, h2, h3, h4⟩ := hp s hv hs
  obtain ⟨l', k1, k2, k3, k4⟩ := hq ⟨l, ⟨s.g.nodes ++ f.flat, s.g.pending⟩⟩ h2 h3
  refine ⟨l', ?_, k2, k3, k4.trans h4⟩
  rw [bind_ok h1, k1, flat_append]
  simp

theorem does_ret (a : α) (v : List (Nat × TK)) : Does (P.ret a) a v v .nil := by
  intro s hv hs
  exact ⟨s.lex, by simp [P.ret, Forest.flat], hv, hs, rfl⟩

/-- A function without nodes before another one. -/
theorem does_seq {p : P α} {q : α → P β} {a : α} {b : β} {v v' v'' : List (Nat × TK)} {g : Forest NK Unit}
    (hp : Does p a v v' .nil) (hq : Does (q a) b v' v'' g) : Does (P.bind p q) b v v'' g := does_bind hp hq

/-- A function without nodes after another one. -/
theorem does_then {p : P α} {q : α → P β} {a : α} {b : β} {v v' v'' : List (Nat × TK)} {f : Forest NK Unit}
    (hp : Does p a v v' f) (hq : Does (q a) b v' v'' .nil) : Does (P.bind p q) b v v'' f := by
  have := does_bind hp hq
  rwa [append_nil] at this

theorem does_if_true {c : P Bool} {p q : P α} {a : α} {v v' : List (Nat × TK)} {f : Forest NK Unit}
    (hc : Does c true v v .nil) (hp : Does p a v v' f) : Does (ifP c p q) a v v' f := does_seq hc hp

theorem does_if_false {c : P Bool} {p q : P α} {a : α} {v v' : List (Nat × TK)} {f : Forest NK Unit}
    (hc : Does c false v v .nil) (hq : Does q a v v' f) : Does (ifP c p q) a v v' f := does_seq hc hq

theorem does_and_true {p q : P Bool} {v : List (Nat × TK)} (hp : Does p true v v .nil) (hq : Does q true v v .nil) :
    Does (andP p q) true v v .nil := does_seq hp hq

theorem does_and_false {p q : P Bool} {v : List (Nat × TK)} (hp : Does p false v v .nil) : Does (andP p q) false v v .nil :=
  does_seq hp (does_ret _ _)

/-- A question about the cursor. -/
theorem does_ask {f : Lex TK → Except Lexer.Err α} {a : α} {v : List (Nat × TK)}
    (h : ∀ l, Cur l v → Contig v → f l = .ok a) : Does (ask f) a v v .nil := by
  intro s hv hs
  refine ⟨s.lex, ?_, hv, hs, rfl⟩
  unfold ask
  rw [h s.lex hv hs]
  simp [Forest.flat]

theorem does_at (kinds : List TK) (n : Nat) (v : List (Nat × TK)) :
    Does (atP kinds (n : Int)) (match v[n]? with | some p => decide (p.2 ∈ kinds) | none => false) v v .nil :=
  does_ask fun l hv hs => by
    rw [at_reads l v hv.1 (.inr hs) kinds n]
    cases v[n]? <;> rfl

theorem does_at_true {kinds : List TK} {i : Nat} {k : TK} {v : List (Nat × TK)} (hk : k ∈ kinds) :
    Does (atP kinds) true ((i, k) :: v) ((i, k) :: v) .nil := by
  have := does_at kinds 0 ((i, k) :: v)
  simpa [hk] using this

theorem does_at_false {kinds : List TK} {v : List (Nat × TK)} (hv : ∀ p ∈ v.head?, p.2 ∉ kinds) : Does (atP kinds) false v v .nil := by
  have := does_at kinds 0 v
  cases v with
  | nil => simpa using this
  | cons p v =>
    have hp := hv p rfl
    simpa [hp] using this

theorem does_finished (v : List (Nat × TK)) : Does finishedP v.isEmpty v v .nil := by
  intro s hv hs
  refine ⟨s.lex, ?_, hv, hs, rfl⟩
  cases v with
  | nil => simpa [Forest.flat] using finished_nil hv
  | cons p v => simpa [Forest.flat] using finished_cons hv

theorem does_kind (i : Nat) (k : TK) (v : List (Nat × TK)) : Does kindP k ((i, k) :: v) ((i, k) :: v) .nil := by
  intro s hv hs
  exact ⟨s.lex, by rw [kind_ok hv]; simp [Forest.flat], hv, hs, rfl⟩

theorem does_next (p : Nat × TK) (v : List (Nat × TK)) : Does nextP () (p :: v) v .nil := by
  intro s hv hs
  obtain ⟨h1, h2, _⟩ := cur_next_cons hv
  exact ⟨s.lex.next, by simp [nextP, Forest.flat], h1, hs.tail, h2.1⟩

theorem does_expect (t : Texts) {kinds : List TK} {i : Nat} {k : TK} {v : List (Nat × TK)} (hk : k ∈ kinds) :
    Does (expectP t kinds) () ((i, k) :: v) ((i, k) :: v) .nil := does_if_true (does_at_true hk) (does_ret _ _)

theorem does_skip (t : Texts) {kinds : List TK} {i : Nat} {k : TK} {v : List (Nat × TK)} (hk : k ∈ kinds) :
    Does (skipP t kinds) () ((i, k) :: v) v .nil := does_seq (does_expect t hk) (does_next _ _)

theorem does_popAny (nk : NK) (i : Nat) (k : TK) (v : List (Nat × TK)) : Does (popAny nk) () ((i, k) :: v) v (.leaf nk (.tok i) .nil) := by
  intro s hv hs
  obtain ⟨h1, h2, h3, _⟩ := cur_next_cons hv
  refine ⟨s.lex.next, ?_, h1, hs.tail, h2.1⟩
  simp only at h3
  simp [popAny, popP, tokenP, P.bind, Group.token, Forest.flat, h3]

theorem does_popAs (t : Texts) (nk : NK) {kinds : List TK} {i : Nat} {k : TK} {v : List (Nat × TK)} (hk : k ∈ kinds) :
    Does (popAs t nk kinds) () ((i, k) :: v) v (.leaf nk (.tok i) .nil) := does_seq (does_expect t hk) (does_popAny nk i k v)

theorem does_empty (v : List (Nat × TK)) : Does emptyP () v v (.leaf .Empty (.mono ()) .nil) := by
  intro s hv hs
  exact ⟨s.lex, by simp [emptyP, monoP, Group.token, Forest.flat], hv, hs, rfl⟩

theorem does_node (nk : NK) {p : P α} {a : α} {v v' : List (Nat × TK)} {f : Forest NK Unit} (hp : Does p a v v' f) :
    Does (node nk p) a v v' (.tree nk f .nil) := by
  intro s hv hs
  obtain ⟨l, h1, h2, h3⟩ := hp { s with g := (s.g.startTree ⟨nk, .ext 0⟩).1 } hv hs
  refine ⟨l, ?_, h2, h3⟩
  have e := endTree_close s.g.nodes f.flat nk s.g.pending (M := Unit)
  unfold node
  rw [h1]
  dsimp only
  unfold guardEnd
  simp only [Group.startTree, List.append_assoc, List.singleton_append, e]
  simp [Forest.flat, flat_length]

theorem does_sub (t : Texts) {p : P α} {a : α} {v v' : List (Nat × TK)} {f : Forest NK Unit} (hp : Does p a v v' f) :
    Does (subP t p) a v v' f := by
  intro s hv hs
  obtain ⟨l, h1, h2⟩ := hp s hv hs
  exact ⟨l, by unfold subP; rw [h1], h2⟩

theorem does_ignore {p : P α} {a : α} {v v' : List (Nat × TK)} {f : Forest NK Unit} (hp : Does p a v v' f) :
    Does (ignoreP p) () v v' f := by
  intro s hv hs
  obtain ⟨l, h1, h2⟩ := hp s hv hs
  exact ⟨l, by unfold ignoreP; rw [h1], h2⟩

theorem does_while_stop {c : P Bool} {p : P Unit} {v : List (Nat × TK)} (n : Nat) (hc : Does c false v v .nil) :
    Does (whileP c p n) () v v .nil := by
  cases n <;> exact does_if_false hc (does_ret _ _)

theorem does_while_step {c : P Bool} {p : P Unit} {v v' v'' : List (Nat × TK)} {f g : Forest NK Unit} {n : Nat} (hc : Does c true v v .nil)
    (hp : Does p () v v' f) (hw : Does (whileP c p n) () v' v'' g) : Does (whileP c p (n + 1)) () v v'' (f.append g) :=
  does_if_true hc (does_bind hp hw)


theorem does_pop (p : Nat × TK) (v : List (Nat × TK)) : Does popP p.1 (p :: v) v .nil := by
  intro s hv hs
  obtain ⟨h1, h2, h3, _⟩ := cur_next_cons hv
  exact ⟨s.lex.next, by simp [popP, Forest.flat, h3], h1, hs.tail, h2.1⟩

theorem does_not {c : P Bool} {b : Bool} {v : List (Nat × TK)} (h : Does c b v v .nil) : Does (notP c) (!b) v v .nil := does_seq h (does_ret _ _)

theorem does_and {p q : P Bool} {b : Bool} {v : List (Nat × TK)} (hp : Does p true v v .nil) (hq : Does q b v v .nil) : Does (andP p q) b v v .nil :=
  does_seq hp hq

theorem does_canSearch_true {kinds : List TK} {p : Nat × TK} {v : List (Nat × TK)} (h : p.2 ∉ kinds) : Does (canSearch kinds) true (p :: v) (p :: v) .nil :=
  does_and_true (does_not (b := false) (does_finished _)) (does_not (b := false) (does_at_false (by simpa using h)))

theorem does_canSearch_false {kinds : List TK} {p : Nat × TK} {v : List (Nat × TK)} (h : p.2 ∈ kinds) : Does (canSearch kinds) false (p :: v) (p :: v) .nil :=
  does_and (does_not (b := false) (does_finished _)) (does_not (b := true) (does_at_true (i := p.1) h))

/-- The tokens up to the end are collected. -/
theorem does_collect {c : P Bool} {u r : List (Nat × TK)} (hu : ∀ p ∈ u, ∀ w, Does c true (p :: w) (p :: w) .nil) (hr : Does c false r r .nil) {n : Nat}
    (hn : u.length ≤ n) : Does (collect c n) (u.map Prod.fst) (u ++ r) r .nil := by
  induction u generalizing n with
  | nil => cases n <;> exact does_if_false hr (does_ret _ _)
  | cons p u ih =>
    obtain ⟨n, rfl⟩ : ∃ m, n = m + 1 := ⟨n - 1, by simp at hn; omega⟩
    exact does_if_true (hu p List.mem_cons_self _) (does_seq (does_pop _ _)
      (does_seq (ih (fun q hq => hu q (List.mem_cons_of_mem _ hq)) (by simpa using hn)) (does_ret _ _)))

theorem valid_left {toks : List TK} {u v : List (Nat × TK)} (h : Valid toks (u ++ v)) : Valid toks u := by
  obtain ⟨h1, h2⟩ := h
  rw [List.map_append] at h1
  exact ⟨(List.pairwise_append.mp h1).1, fun p hp => h2 p (List.mem_append_left _ hp)⟩

/-- The collected tokens are read on their own. -/
theorem does_inner (t : Texts) {c : P Bool} {par : P Unit} {u r : List (Nat × TK)} {f : Forest NK Unit} {n : Nat}
    (hc : Does (collect c n) (u.map Prod.fst) (u ++ r) r .nil) (hp : u ≠ [] → Does par () u [] f) (he : u = [] → f = .leaf .Empty (.mono ()) .nil) :
    Does (P.bind (collect c n) fun ids => idsOrEmpty t ids par) () (u ++ r) r f := by
  intro s hv hs
  obtain ⟨l, h1, h2, h3, h4⟩ := hc s hv hs
  rw [bind_ok h1]
  cases u with
  | nil =>
    rw [he rfl]
    obtain ⟨l', k1, k2, k3, k4⟩ := does_empty r ⟨l, ⟨s.g.nodes ++ Forest.nil.flat, s.g.pending⟩⟩ h2 h3
    refine ⟨l', ?_, k2, k3, k4.trans h4⟩
    have := k1
    simp only [Forest.flat, List.append_nil] at this ⊢
    exact this
  | cons p u =>
    have hval : Valid s.lex.toks (p :: u) := valid_left (cur_valid hv)
    obtain ⟨l', k1, k2, k3, k4⟩ := hp (by simp) ⟨Lex.ofIds l.toks ((p :: u).map Prod.fst), s.g⟩ (cur_sub (h4 ▸ hval)) hs.left
    refine ⟨l, ?_, h2, h3, h4⟩
    have e : Group.mk (s.g.nodes ++ Forest.nil.flat) s.g.pending = s.g := by simp [Forest.flat]
    rw [e]
    show subP t (withIds ((p :: u).map Prod.fst) par) ⟨l, s.g⟩ = _
    unfold subP withIds withLex
    dsimp only
    rw [k1]

end Verif.Link
