import Verif.Parser.Does
import Verif.Pipeline.ProseProps

/-!
# What parse functions do on the tokens of a paragraph

As `Verif.Parser.Does`, for a cursor whose tokens are all the tokens of the document from some place on,
which may be the cursor of a paragraph.
-/

namespace Verif.Stamp
open Verif.Lexer Verif.NodeGroup Verif.NodeGroup.Spec
open Verif.Parser hiding TK Does does_bind does_ret does_seq does_if_true does_if_false does_at does_finished does_next does_expect does_skip does_popAny does_popAs
  does_empty does_node does_sub does_while_stop does_while_step groupRest_eq
open Verif.Pipeline (numbered numbered_cons numbered_append)
open Verif.Token (TK)

/-- All tokens from some place on. -/
def Tail (toks : List TK) (v : List (Nat × TK)) : Prop := ∃ a, v = numbered (a + 1) (toks.drop a)

theorem Tail.tail {toks : List TK} {p : Nat × TK} {v : List (Nat × TK)} (h : Tail toks (p :: v)) : Tail toks v := by
  obtain ⟨a, h⟩ := h
  refine ⟨a + 1, ?_⟩
  cases hd : toks.drop a with
  | nil => rw [hd] at h; simp [numbered] at h
  | cons k r =>
    rw [hd, numbered_cons] at h
    injection h with _ h
    rw [h, ← List.drop_drop, hd]
    rfl

theorem numbered_fst (a : Nat) (ks : List TK) : (numbered a ks).map Prod.fst = List.range' a ks.length := by
  unfold numbered
  rw [List.map_fst_zip]
  simp

theorem numbered_snd (a : Nat) (ks : List TK) : (numbered a ks).map Prod.snd = ks := by
  unfold numbered
  rw [List.map_snd_zip]
  simp

theorem numbered_length (a : Nat) (ks : List TK) : (numbered a ks).length = ks.length := by simp [numbered]

theorem Tail.contiguous {toks : List TK} {v : List (Nat × TK)} (h : Tail toks v) : ∃ a, v.map Prod.fst = List.range' a v.length := by
  obtain ⟨a, rfl⟩ := h
  exact ⟨a + 1, by rw [numbered_fst, numbered_length]⟩

/-- The function returns `a`, reads from `v` on up to `v'` and adds the nodes of `f`. -/
def Does {α : Type} (p : P α) (a : α) (v v' : List (Nat × TK)) (f : Forest NK Unit) : Prop :=
  ∀ s : St, Cur s.lex v → Tail s.lex.toks v →
    ∃ l, p s = .ok (some a, ⟨l, ⟨s.g.nodes ++ f.flat, s.g.pending⟩⟩) ∧ Cur l v' ∧ Tail l.toks v'

variable {α β : Type}

theorem does_bind {p : P α} {q : α → P β} {a : α} {b : β} {v v' v'' : List (Nat × TK)} {f g : Forest NK Unit}
    (hp : Does p a v v' f) (hq : Does (q a) b v' v'' g) : Does (P.bind p q) b v v'' (f.append g) := by
  intro s hv hs
  obtain ⟨l, h1, h2, h3⟩ := hp s hv hs
  obtain ⟨l', k1, k2, k3⟩ := hq ⟨l, ⟨s.g.nodes ++ f.flat, s.g.pending⟩⟩ h2 h3
  refine ⟨l', ?_, k2, k3⟩
  rw [bind_ok h1, k1, flat_append]
  simp

theorem does_ret (a : α) (v : List (Nat × TK)) : Does (P.ret a) a v v .nil := by
  intro s hv hs
  exact ⟨s.lex, by simp [P.ret, Forest.flat], hv, hs⟩

/-- A function without nodes before another one. -/
theorem does_seq {p : P α} {q : α → P β} {a : α} {b : β} {v v' v'' : List (Nat × TK)} {g : Forest NK Unit}
    (hp : Does p a v v' .nil) (hq : Does (q a) b v' v'' g) : Does (P.bind p q) b v v'' g := does_bind hp hq

/-- A function without nodes after another one. -/
theorem does_then {p : P α} {q : α → P β} {a : α} {b : β} {v v' v'' : List (Nat × TK)} {f : Forest NK Unit}
    (hp : Does p a v v' f) (hq : Does (q a) b v' v'' .nil) : Does (P.bind p q) b v v'' f := by
  have := does_bind hp hq
  rwa [append_nil] at this

theorem does_if_true {c : P Bool} {p q : P α} {a : α} {v v' : List (Nat × TK)} {f : Forest NK Unit}
    (hc : Does c true v v .nil) (hp : Does p a v v' f) : Does (ifP c p q) a v v' f := does_seq hc hp

theorem does_if_false {c : P Bool} {p q : P α} {a : α} {v v' : List (Nat × TK)} {f : Forest NK Unit}
    (hc : Does c false v v .nil) (hq : Does q a v v' f) : Does (ifP c p q) a v v' f := does_seq hc hq

theorem does_and_true {p q : P Bool} {v : List (Nat × TK)} (hp : Does p true v v .nil) (hq : Does q true v v .nil) :
    Does (andP p q) true v v .nil := does_seq hp hq

theorem does_and_false {p q : P Bool} {v : List (Nat × TK)} (hp : Does p false v v .nil) : Does (andP p q) false v v .nil :=
  does_seq hp (does_ret _ _)

/-- A question about the cursor. -/
theorem does_ask {f : Lex TK → Except Lexer.Err α} {a : α} {v : List (Nat × TK)}
    (h : ∀ l, Cur l v → Tail l.toks v → f l = .ok a) : Does (ask f) a v v .nil := by
  intro s hv hs
  refine ⟨s.lex, ?_, hv, hs⟩
  unfold ask
  rw [h s.lex hv hs]
  simp [Forest.flat]

theorem does_at (kinds : List TK) (n : Nat) (v : List (Nat × TK)) :
    Does (atP kinds (n : Int)) (match v[n]? with | some p => decide (p.2 ∈ kinds) | none => false) v v .nil :=
  does_ask fun l hv hs => by
    rw [at_reads l v hv.1 (.inr hs.contiguous) kinds n]
    cases v[n]? <;> rfl

theorem does_at_true {kinds : List TK} {i : Nat} {k : TK} {v : List (Nat × TK)} (hk : k ∈ kinds) :
    Does (atP kinds) true ((i, k) :: v) ((i, k) :: v) .nil := by
  have := does_at kinds 0 ((i, k) :: v)
  simpa [hk] using this

theorem does_at_false {kinds : List TK} {v : List (Nat × TK)} (hv : ∀ p ∈ v.head?, p.2 ∉ kinds) : Does (atP kinds) false v v .nil := by
  have := does_at kinds 0 v
  cases v with
  | nil => simpa using this
  | cons p v =>
    have hp := hv p rfl
    simpa [hp] using this

theorem does_finished (v : List (Nat × TK)) : Does finishedP v.isEmpty v v .nil := by
  intro s hv hs
  refine ⟨s.lex, ?_, hv, hs⟩
  cases v with
  | nil => simpa [Forest.flat] using finished_nil hv
  | cons p v => simpa [Forest.flat] using finished_cons hv

theorem does_kind (i : Nat) (k : TK) (v : List (Nat × TK)) : Does kindP k ((i, k) :: v) ((i, k) :: v) .nil := by
  intro s hv hs
  exact ⟨s.lex, by rw [kind_ok hv]; simp [Forest.flat], hv, hs⟩

theorem does_next (p : Nat × TK) (v : List (Nat × TK)) : Does nextP () (p :: v) v .nil := by
  intro s hv hs
  obtain ⟨h1, h2, _⟩ := cur_next_cons hv
  exact ⟨s.lex.next, by simp [nextP, Forest.flat], h1, by rw [h2.1]; exact hs.tail⟩

theorem does_expect (t : Texts) {kinds : List TK} {i : Nat} {k : TK} {v : List (Nat × TK)} (hk : k ∈ kinds) :
    Does (expectP t kinds) () ((i, k) :: v) ((i, k) :: v) .nil := does_if_true (does_at_true hk) (does_ret _ _)

theorem does_skip (t : Texts) {kinds : List TK} {i : Nat} {k : TK} {v : List (Nat × TK)} (hk : k ∈ kinds) :
    Does (skipP t kinds) () ((i, k) :: v) v .nil := does_seq (does_expect t hk) (does_next _ _)

theorem does_popAny (nk : NK) (i : Nat) (k : TK) (v : List (Nat × TK)) : Does (popAny nk) () ((i, k) :: v) v (.leaf nk (.tok i) .nil) := by
  intro s hv hs
  obtain ⟨h1, h2, h3, _⟩ := cur_next_cons hv
  refine ⟨s.lex.next, ?_, h1, by rw [h2.1]; exact hs.tail⟩
  simp only at h3
  simp [popAny, popP, tokenP, P.bind, Group.token, Forest.flat, h3]

theorem does_popAs (t : Texts) (nk : NK) {kinds : List TK} {i : Nat} {k : TK} {v : List (Nat × TK)} (hk : k ∈ kinds) :
    Does (popAs t nk kinds) () ((i, k) :: v) v (.leaf nk (.tok i) .nil) := does_seq (does_expect t hk) (does_popAny nk i k v)

theorem does_empty (v : List (Nat × TK)) : Does emptyP () v v (.leaf .Empty (.mono ()) .nil) := by
  intro s hv hs
  exact ⟨s.lex, by simp [emptyP, monoP, Group.token, Forest.flat], hv, hs⟩

theorem does_node (nk : NK) {p : P α} {a : α} {v v' : List (Nat × TK)} {f : Forest NK Unit} (hp : Does p a v v' f) :
    Does (node nk p) a v v' (.tree nk f .nil) := by
  intro s hv hs
  obtain ⟨l, h1, h2, h3⟩ := hp { s with g := (s.g.startTree ⟨nk, .ext 0⟩).1 } hv hs
  refine ⟨l, ?_, h2, h3⟩
  have e := endTree_close s.g.nodes f.flat nk s.g.pending (M := Unit)
  unfold node
  rw [h1]
  dsimp only
  unfold guardEnd
  simp only [Group.startTree, List.append_assoc, List.singleton_append, e]
  simp [Forest.flat, flat_length]

theorem does_sub (t : Texts) {p : P α} {a : α} {v v' : List (Nat × TK)} {f : Forest NK Unit} (hp : Does p a v v' f) :
    Does (subP t p) a v v' f := by
  intro s hv hs
  obtain ⟨l, h1, h2⟩ := hp s hv hs
  exact ⟨l, by unfold subP; rw [h1], h2⟩

theorem does_ignore {p : P α} {a : α} {v v' : List (Nat × TK)} {f : Forest NK Unit} (hp : Does p a v v' f) :
    Does (ignoreP p) () v v' f := by
  intro s hv hs
  obtain ⟨l, h1, h2⟩ := hp s hv hs
  exact ⟨l, by unfold ignoreP; rw [h1], h2⟩

theorem does_while_stop {c : P Bool} {p : P Unit} {v : List (Nat × TK)} (n : Nat) (hc : Does c false v v .nil) :
    Does (whileP c p n) () v v .nil := by
  cases n <;> exact does_if_false hc (does_ret _ _)

theorem does_while_step {c : P Bool} {p : P Unit} {v v' v'' : List (Nat × TK)} {f g : Forest NK Unit} {n : Nat} (hc : Does c true v v .nil)
    (hp : Does p () v v' f) (hw : Does (whileP c p n) () v' v'' g) : Does (whileP c p (n + 1)) () v v'' (f.append g) :=
  does_if_true hc (does_bind hp hw)

/-- Without the spaces at the start. -/
def trim (v : List (Nat × TK)) : List (Nat × TK) := v.dropWhile fun p => decide (p.2 ∈ [TK.Whitespace, .LeadingSpace])

/-- Spaces are skipped. -/
theorem does_space {n : Nat} {v : List (Nat × TK)} (hn : v.length ≤ n) : Does (spaceP n) () v (trim v) .nil := by
  induction v generalizing n with
  | nil => exact does_while_stop n (does_at_false (by simp))
  | cons p v ih =>
    obtain ⟨i, k⟩ := p
    by_cases hk : k ∈ [TK.Whitespace, .LeadingSpace]
    · obtain ⟨n, rfl⟩ : ∃ m, n = m + 1 := ⟨n - 1, by simp at hn; omega⟩
      rw [show trim ((i, k) :: v) = trim v from by unfold trim; rw [List.dropWhile_cons_of_pos]; simpa using hk]
      exact does_while_step (f := .nil) (g := .nil) (does_at_true hk) (does_next _ _) (ih (by simpa using hn))
    · rw [show trim ((i, k) :: v) = (i, k) :: v from by unfold trim; rw [List.dropWhile_cons_of_neg]; simpa using hk]
      exact does_while_stop n (does_at_false (by simpa using hk))

/-- The kinds of the group from the cursor on. -/
theorem groupRest_eq {l : Lex TK} {v : List (Nat × TK)} (hv : Cur l v) (hs : Tail l.toks v) : groupRest l = v.map Prod.snd := by
  unfold groupRest
  cases v with
  | nil => rw [if_pos (hv.2.1 rfl)]; rfl
  | cons p v =>
    have hp := (cur_next_cons hv).2.2.1
    obtain ⟨a, h⟩ := hs
    have h1 : p.1 = a + 1 := by
      cases hd : l.toks.drop a with
      | nil => rw [hd] at h; simp [numbered] at h
      | cons k r => rw [hd, numbered_cons] at h; injection h with h _; rw [h]
    rw [if_neg (by omega), h, numbered_snd, show l.pos - 1 = a by omega]

theorem does_find_none {skip target : List TK} {n : Nat} {v : List (Nat × TK)} (hn : v.length ≤ n) (hv : ∀ p ∈ v, p.2 ∉ target) :
    Does (ask (fun l => (l.find skip target n).map (fun i => decide (i ≠ -1)))) false v v .nil := by
  refine does_ask fun l hc hs => ?_
  rw [find_reads l v hc.1 (.inr hs.contiguous) skip target n hn, if_neg]
  · rfl
  · rintro ⟨p, hp, hk⟩
    exact hv p (List.mem_of_getElem? hp) hk

end Verif.Stamp
