import Verif.Parser.Markup
import Verif.Parser.GoodBlock

/-!
# Documents of paragraphs
-/

namespace Verif.Parser
open Verif.Lexer Verif.NodeGroup Verif.NodeGroup.Spec

theorem closed_textual {e : Option NK} {u : List (Nat × TK)} {f : Forest NK Unit} (h : Closed e u f) : ∀ p ∈ u, Textual p.2 := by
  induction h with
  | nil => simp
  | plain hk _ ih =>
    intro p hp
    rcases List.mem_cons.1 hp with rfl | hp
    · simp [Textual, hk]
    · exact ih p hp
  | stray hk _ _ ih =>
    intro p hp
    rcases List.mem_cons.1 hp with rfl | hp
    · simp [Textual, hk]
    · exact ih p hp
  | pair ho _ hc _ ih1 ih2 =>
    intro p hp
    rcases List.mem_cons.1 hp with rfl | hp
    · rcases ho with h | ⟨h, _⟩ <;> simp [Textual, h]
    · rcases List.mem_append.1 hp with hp | hp
      · exact ih1 p hp
      · rcases List.mem_cons.1 hp with rfl | hp
        · rcases hc with h | h <;> simp [Textual, h]
        · exact ih2 p hp

theorem open_textual {e : Option NK} {u : List (Nat × TK)} {f : Forest NK Unit} (h : Open e u f) : ∀ p ∈ u, Textual p.2 := by
  induction h with
  | closed h => exact closed_textual h
  | unclosed hu ho _ ih =>
    intro p hp
    rcases List.mem_append.1 hp with hp | hp
    · exact closed_textual hu p hp
    · rcases List.mem_cons.1 hp with rfl | hp
      · rcases ho with h | ⟨h, _⟩ <;> simp [Textual, h]
      · exact ih p hp

/-! ## Every document has a reading -/

theorem dropWhile_head {α : Type} (p : α → Bool) (l : List α) : ∀ a ∈ (l.dropWhile p).head?, p a = false := by
  induction l with
  | nil => simp
  | cons a l ih =>
    intro b hb
    by_cases h : p a = true
    · rw [List.dropWhile_cons_of_pos h] at hb
      exact ih b hb
    · rw [List.dropWhile_cons_of_neg h] at hb
      simp only [List.head?_cons, Option.mem_def, Option.some.injEq] at hb
      subst hb
      simpa using h

theorem mem_takeWhile {α : Type} (p : α → Bool) (l : List α) {a : α} (h : a ∈ l.takeWhile p) : p a = true := by
  induction l with
  | nil => simp at h
  | cons b l ih =>
    by_cases hb : p b = true
    · rw [List.takeWhile_cons_of_pos hb] at h
      rcases List.mem_cons.1 h with rfl | h
      · exact hb
      · exact ih h
    · rw [List.takeWhile_cons_of_neg hb] at h
      cases h

theorem doc_reading (n : Nat) : ∀ v : List (Nat × TK), v.length ≤ n → (∀ p ∈ v, IsText p.2) → ∃ f, Doc v f := by
  induction n with
  | zero =>
    intro v h _
    cases v with
    | nil => exact ⟨_, .nil⟩
    | cons => simp at h
  | succ n ih =>
    intro v h ht
    cases v with
    | nil => exact ⟨_, .nil⟩
    | cons p v =>
      obtain ⟨i, k⟩ := p
      have hl : v.length ≤ n := by simpa using h
      have htv : ∀ p ∈ v, IsText p.2 := fun p hp => ht p (List.mem_cons_of_mem _ hp)
      by_cases h1 : k ∈ lineBreaks
      · obtain ⟨f, hf⟩ := ih v hl htv
        exact ⟨_, .line h1 hf⟩
      by_cases h2 : k = .Whitespace
      · subst h2
        obtain ⟨f, hf⟩ := ih v hl htv
        exact ⟨_, .space hf⟩
      let q : Nat × TK → Bool := fun p => decide (p.2 ∉ [Token.TK.MediumNewline, .LongNewline])
      have hsplit : v = v.takeWhile q ++ v.dropWhile q := List.takeWhile_append_dropWhile.symm
      have htext : ∀ p ∈ (i, k) :: v.takeWhile q, Textual p.2 := by
        intro p hp
        have hp' : IsText p.2 := by
          rcases List.mem_cons.1 hp with rfl | hp
          · exact ht _ List.mem_cons_self
          · exact htv p ((List.takeWhile_sublist q).subset hp)
        rcases hp' with hp' | hp'
        · exact hp'
        · rcases List.mem_cons.1 hp with rfl | hp
          · exact absurd hp' h1
          · have := mem_takeWhile q v hp
            simp only [q, decide_eq_true_eq] at this
            simp only [lineBreaks, List.mem_cons, List.not_mem_nil, or_false] at hp' this
            rcases hp' with hp' | hp' | hp'
            · rw [hp']; simp [Textual, role]
            · exact absurd (.inl hp') this
            · exact absurd (.inr hp') this
      obtain ⟨g, hg⟩ := reading_exists _ htext
      obtain ⟨f, hf⟩ := ih (v.dropWhile q)
        (Nat.le_trans (List.dropWhile_sublist q).length_le hl)
        (fun p hp => htv p ((List.dropWhile_sublist q).subset hp))
      refine ⟨.tree .Paragraph g f, ?_⟩
      rw [hsplit]
      refine .par ?_ hg ?_ hf
      · simp only [List.mem_cons, not_or]; exact ⟨h2, h1⟩
      · intro p hp
        have := dropWhile_head q v p hp
        simp only [q, decide_eq_false_iff_not, Decidable.not_not] at this
        exact this

/-! ## The top loop -/

theorem at_ok {s : St} {i : Nat} {k : TK} {v : List (Nat × TK)} (h : Cur s.lex ((i, k) :: v)) (kinds : List TK) :
    atP kinds 0 s = .ok (some (decide (k ∈ kinds)), s) := by
  have h1 := (lookahead_partial s.lex _ h.1 0).1
  unfold atP ask Lex.at
  dsimp only
  rw [show s.lex.hasNext 0 = true by simpa using h1, show s.lex.kind 0 = .ok k from (cur_next_cons h).2.2.2.1]
  rfl

theorem textual_not_terminator {k : TK} (h : Textual k) : k ∉ paragraphTerminator := by
  intro hk
  simp only [paragraphTerminator, List.mem_cons, List.not_mem_nil, or_false] at hk
  rcases hk with rfl | rfl | rfl | rfl | rfl | rfl | rfl | rfl | rfl | rfl | rfl | rfl | rfl | rfl | rfl | rfl <;>
    simp [Textual, role] at h

theorem canSearch_cons {s : St} {i : Nat} {k : TK} {v : List (Nat × TK)} (h : Cur s.lex ((i, k) :: v)) (kinds : List TK) :
    canSearch kinds s = .ok (some (!decide (k ∈ kinds)), s) := by
  have h1 : notP finishedP s = .ok (some true, s) := bind_ok (finished_cons h)
  have h2 : notP (atP kinds) s = .ok (some (!decide (k ∈ kinds)), s) := bind_ok (at_ok h kinds)
  unfold canSearch andP
  rw [bind_ok h1]
  exact h2

theorem canSearch_nil {s : St} (h : Cur s.lex []) (kinds : List TK) : canSearch kinds s = .ok (some false, s) := by
  have h1 : notP finishedP s = .ok (some false, s) := bind_ok (finished_nil h)
  unfold canSearch andP
  rw [bind_ok h1]
  rfl

/-- The tokens up to the next terminator are collected. -/
theorem collect_text {u r : List (Nat × TK)} {kinds : List TK} (hu : ∀ p ∈ u, p.2 ∉ kinds) (hr : ∀ p ∈ r.head?, p.2 ∈ kinds) (n : Nat)
    (hn : u.length ≤ n) : ∀ s : St, Cur s.lex (u ++ r) →
    ∃ l, collect (canSearch kinds) n s = .ok (some (u.map Prod.fst), { s with lex := l }) ∧ Cur l r ∧ SameToks s.lex l := by
  have stop : ∀ n (s : St), Cur s.lex r → collect (canSearch kinds) n s = .ok (some [], s) := by
    intro n s h
    have : canSearch kinds s = .ok (some false, s) := by
      cases r with
      | nil => exact canSearch_nil h _
      | cons p r =>
        rw [canSearch_cons h]
        have := hr p (by simp)
        rw [decide_eq_true this]; rfl
    cases n <;> exact ifP_false this
  induction u generalizing n with
  | nil =>
    intro s h
    exact ⟨s.lex, stop n s h, h, rfl, rfl⟩
  | cons p u ih =>
    intro s h
    obtain ⟨n, rfl⟩ : ∃ m, n = m + 1 := ⟨n - 1, by simp at hn; omega⟩
    obtain ⟨h1, h2, h3, _⟩ := cur_next_cons h
    obtain ⟨l, k1, k2, k3⟩ := ih (fun p hp => hu p (List.mem_cons_of_mem _ hp)) n (by simpa using hn) { s with lex := s.lex.next } h1
    refine ⟨l, ?_, k2, h2.trans k3⟩
    have hc : canSearch kinds s = .ok (some true, s) := by
      rw [canSearch_cons (i := p.1) (k := p.2) h, decide_eq_false (hu p List.mem_cons_self)]; rfl
    rw [collect, ifP_true hc]
    rw [show P.bind popP _ s = _ from bind_ok (p := popP) (s := s) rfl]
    rw [bind_ok k1, h3]
    rfl

theorem valid_prefix {toks : List TK} {u r : List (Nat × TK)} (h : Valid toks (u ++ r)) : Valid toks u :=
  ⟨h.1.sublist ((List.sublist_append_left u r).map _), fun p hp => h.2 p (List.mem_append_left _ hp)⟩

theorem append_flat (N : List (Node NK Unit)) (k : NK) (c f : Forest NK Unit) :
    (N ++ (Forest.tree k c .nil).flat) ++ f.flat = N ++ (Forest.tree k c f).flat := by
  simp [Forest.flat]

/-- One statement of such a document. -/
theorem stmt_par (t : Texts) (n : Nat) (s : St) {i : Nat} {k : TK} {u r : List (Nat × TK)} {g : Forest NK Unit}
    (hk : k ∉ Token.TK.Whitespace :: lineBreaks) (hg : Open none ((i, k) :: u) g)
    (hr : ∀ p ∈ r.head?, p.2 ∈ [Token.TK.MediumNewline, .LongNewline]) (hv : Cur s.lex ((i, k) :: (u ++ r)))
    (hn : u.length + 4 ≤ n) :
    ∃ l, parseStmt t n s = .ok (some (), ⟨l, ⟨s.g.nodes ++ (Forest.tree .Paragraph g .nil).flat, s.g.pending⟩⟩) ∧ Cur l r := by
  obtain ⟨n, rfl⟩ : ∃ m, n = m + 1 := ⟨n - 1, by omega⟩
  have ht := open_textual hg
  have hkt : Textual k := ht (i, k) List.mem_cons_self
  rw [parseStmt, bind_ok (kind_ok hv)]
  have e1 : k ≠ .SubtreeStars := by rintro rfl; simp [Textual, role] at hkt
  have e2 : k ≠ .Indent := by rintro rfl; simp [Textual, role] at hkt
  have e3 : k ≠ .Whitespace := by rintro rfl; simp at hk
  have e4 : k ∉ newlineKinds := by
    intro h
    simp only [newlineKinds, lineBreaks, List.mem_cons, List.not_mem_nil, or_false, not_or] at h hk
    tauto
  have e5 : k ≠ .TextSeparator := by rintro rfl; simp [Textual, role] at hkt
  have e6 : k ∉ [Token.TK.TableSeparator, .LeadingPipe] := by
    intro h
    simp only [List.mem_cons, List.not_mem_nil, or_false] at h
    rcases h with rfl | rfl <;> simp [Textual, role] at hkt
  have e7 : k ≠ .ColonExampleLine := by rintro rfl; simp [Textual, role] at hkt
  have e8 : k ≠ .CmdPrefix := by rintro rfl; simp [Textual, role] at hkt
  rw [if_neg e1, if_neg e2, if_neg e3, if_neg e4, if_neg e5, if_neg e6, if_neg e7, if_neg e8]
  obtain ⟨l, h1, h2, h3⟩ := collect_text (u := (i, k) :: u) (r := r) (kinds := paragraphTerminator)
    (fun p hp => textual_not_terminator (ht p hp))
    (fun p hp => by
      have := hr p hp
      simp only [List.mem_cons, List.not_mem_nil, or_false] at this
      rcases this with h | h <;> rw [h] <;> decide) n (by simp; omega) s hv
  unfold plainParagraph
  rw [bind_ok h1]
  have hval := valid_prefix (u := (i, k) :: u) (r := r) (cur_valid hv)
  obtain ⟨l', q1, q2⟩ := paragraph_reading t n ⟨Lex.ofIds l.toks (((i, k) :: u).map Prod.fst), s.g⟩ _
    (cur_sub (h3.1 ▸ hval)) hg (by simp; omega)
  refine ⟨l, ?_, h2⟩
  rw [List.map_cons] at q1 ⊢
  dsimp only
  unfold withIds withLex
  dsimp only
  rw [q1]

theorem recover_ok {stmt : P Unit} {n : Nat} {s s' : St} (h : stmt s = .ok (some (), s')) : recover stmt n s = .ok (some (), s') := by
  unfold recover; rw [h]

theorem stmt_newline (t : Texts) (n : Nat) (s : St) {i : Nat} {k : TK} {v : List (Nat × TK)} (hv : Cur s.lex ((i, k) :: v))
    (hk : k ∈ lineBreaks) :
    parseStmt t (n + 1) s = .ok (some (), ⟨s.lex.next, ⟨s.g.nodes ++ [⟨.Newline, .tok i⟩], s.g.pending⟩⟩) := by
  rw [parseStmt, bind_ok (kind_ok hv), show i = s.lex.pos from (cur_next_cons hv).2.2.1.symm]
  simp only [lineBreaks, List.mem_cons, List.not_mem_nil, or_false] at hk
  rcases hk with rfl | rfl | rfl <;> rfl

theorem stmt_space (t : Texts) (n : Nat) (s : St) {i : Nat} {v : List (Nat × TK)} (hv : Cur s.lex ((i, .Whitespace) :: v)) :
    parseStmt t (n + 1) s = .ok (some (), ⟨s.lex.next, ⟨s.g.nodes ++ [⟨.Space, .tok i⟩], s.g.pending⟩⟩) := by
  rw [parseStmt, bind_ok (kind_ok hv), show i = s.lex.pos from (cur_next_cons hv).2.2.1.symm]
  have h1 : expectP t [.Whitespace] s = .ok (some (), s) := by
    unfold expectP
    exact ifP_true (at_ok hv [.Whitespace])
  rw [if_neg (by decide), if_neg (by decide), if_pos rfl]
  unfold popAs
  rw [bind_ok h1]
  rfl

/-- One round of the top loop. -/
theorem loop_round {stmt : P Unit} {n m : Nat} {s s' : St} {i : Nat} {k : TK} {v : List (Nat × TK)} (hv : Cur s.lex ((i, k) :: v))
    (hk : k ≠ .Comment) (h : stmt s = .ok (some (), s')) :
    whileP (notP finishedP) (ifP (atP [.Comment]) nextP (recover stmt m)) (n + 1) s
      = whileP (notP finishedP) (ifP (atP [.Comment]) nextP (recover stmt m)) n s' := by
  have h1 : notP finishedP s = .ok (some true, s) := bind_ok (finished_cons hv)
  have h2 : atP [.Comment] 0 s = .ok (some false, s) := by
    rw [at_ok hv, decide_eq_false (by simpa using hk)]
  have h3 : ifP (atP [.Comment]) nextP (recover stmt m) s = .ok (some (), s') := (ifP_false h2).trans (recover_ok h)
  rw [whileP, ifP_true h1, bind_ok h3]

theorem loop_doc (t : Texts) (n m : Nat) {v : List (Nat × TK)} {f : Forest NK Unit} (hf : Doc v f) :
    ∀ (j : Nat) (s : St), Cur s.lex v → v.length ≤ j → v.length + 4 ≤ n →
    ∃ l, whileP (notP finishedP) (ifP (atP [.Comment]) nextP (recover (parseStmt t n) m)) j s
      = .ok (some (), ⟨l, ⟨s.g.nodes ++ f.flat, s.g.pending⟩⟩) ∧ Cur l [] := by
  induction hf with
  | nil =>
    intro j s hv _ _
    have h1 : notP finishedP s = .ok (some false, s) := bind_ok (finished_nil hv)
    refine ⟨s.lex, ?_, hv⟩
    have : s = ⟨s.lex, ⟨s.g.nodes ++ (Forest.nil : Forest NK Unit).flat, s.g.pending⟩⟩ := by simp [Forest.flat]
    rw [← this]
    cases j <;> exact ifP_false h1
  | @line i k r f hk _ ih =>
    intro j s hv hj hn
    obtain ⟨j, rfl⟩ : ∃ m, j = m + 1 := ⟨j - 1, by simp at hj; omega⟩
    obtain ⟨n, rfl⟩ : ∃ m, n = m + 1 := ⟨n - 1, by omega⟩
    rw [loop_round hv (by rintro rfl; simp [lineBreaks] at hk) (stmt_newline t n s hv hk)]
    obtain ⟨l, h1, h2⟩ := ih j ⟨s.lex.next, ⟨s.g.nodes ++ [⟨.Newline, .tok i⟩], s.g.pending⟩⟩ (cur_next_cons hv).1
      (by simpa using hj) (by simp at hn; omega)
    refine ⟨l, ?_, h2⟩
    rw [h1]
    simp [Forest.flat]
  | @space i r f _ ih =>
    intro j s hv hj hn
    obtain ⟨j, rfl⟩ : ∃ m, j = m + 1 := ⟨j - 1, by simp at hj; omega⟩
    obtain ⟨n, rfl⟩ : ∃ m, n = m + 1 := ⟨n - 1, by omega⟩
    rw [loop_round hv (by decide) (stmt_space t n s hv)]
    obtain ⟨l, h1, h2⟩ := ih j ⟨s.lex.next, ⟨s.g.nodes ++ [⟨.Space, .tok i⟩], s.g.pending⟩⟩ (cur_next_cons hv).1
      (by simpa using hj) (by simp at hn; omega)
    refine ⟨l, ?_, h2⟩
    rw [h1]
    simp [Forest.flat]
  | @par i k u r f g hk hg hr _ ih =>
    intro j s hv hj hn
    simp only [List.length_cons, List.length_append] at hj hn
    obtain ⟨j, rfl⟩ : ∃ m, j = m + 1 := ⟨j - 1, by omega⟩
    obtain ⟨l, h1, h2⟩ := stmt_par t n s hk hg hr hv (by omega)
    have hkt : Textual k := open_textual hg (i, k) List.mem_cons_self
    rw [loop_round hv (by rintro rfl; simp [Textual, role] at hkt) h1]
    obtain ⟨l', q1, q2⟩ := ih j ⟨l, ⟨s.g.nodes ++ (Forest.tree .Paragraph g .nil).flat, s.g.pending⟩⟩ h2 (by omega) (by omega)
    refine ⟨l', ?_, q2⟩
    rw [q1, append_flat]

end Verif.Parser
