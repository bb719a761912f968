import Verif.Pipeline.ProseSpec
import Verif.BaseLexer.Std
import Verif.BaseLexer.Lemmas
import Mathlib.Data.List.TakeWhile
import Mathlib.Tactic.Tauto

/-!
# Lexing of prose
-/

namespace Verif.Pipeline
open Verif.Token Verif.BaseLexer

/-! ## Moving the cursor -/

theorem adv_state (u : List Char) : ∀ (c : Cur) (v : List Char), c.rest = u ++ v →
    ∃ col prev, c.adv u.length = ⟨v, c.pos + u.length, col, prev⟩ ∧
      ∀ x ∈ u.getLast?, (col = 0 ↔ x = '\n') := by
  induction u with
  | nil =>
    intro c v h
    obtain ⟨r, p, co, pr⟩ := c
    exact ⟨co, pr, by simpa [Cur.adv] using h, by simp⟩
  | cons a u ih =>
    intro c v h
    obtain ⟨r, p, co, pr⟩ := c
    simp only [List.cons_append] at h
    subst h
    obtain ⟨col, prev, h1, h2⟩ := ih (Cur.next ⟨a :: (u ++ v), p, co, pr⟩) v rfl
    refine ⟨if u = [] then (if a = '\n' then 0 else co + 1) else col, prev, ?_, ?_⟩
    · rw [List.length_cons]
      unfold Cur.adv
      rw [h1]
      by_cases hu : u = []
      · subst hu
        simp only [List.length_nil, Cur.adv, Cur.next, List.nil_append, Cur.mk.injEq] at h1
        simp [Cur.next, h1.2.2.1]
      · simp [Cur.next, hu]
        omega
    · intro x hx
      by_cases hu : u = []
      · subst hu
        simp only [List.getLast?_singleton, Option.mem_def, Option.some.injEq] at hx
        subst hx
        by_cases ha : a = '\n' <;> simp [ha]
      · rw [List.getLast?_cons_of_ne_nil hu] at hx
        simpa [hu] using h2 x hx

theorem advWhile_eq {p : List Char → Bool} (u : List Char) : ∀ (c : Cur) (v : List Char), c.rest = u ++ v →
    (∀ a b, u = a ++ b → b ≠ [] → p (b ++ v) = true) → (v = [] ∨ p v = false) → c.advWhile p = c.adv u.length := by
  induction u with
  | nil =>
    intro c v h _ hv
    unfold Cur.advWhile Cur.adv
    rw [h, List.nil_append]
    rcases hv with rfl | hv
    · rfl
    · cases v with
      | nil => rfl
      | cons x v => simp [Cur.advWhileGo, hv]
  | cons a u ih =>
    intro c v h hp hv
    have h1 : c.next.rest = u ++ v := by rw [Cur.next, h]; rfl
    have := ih c.next v h1 (fun x y hxy hy => hp (a :: x) y (by rw [hxy]; rfl) hy) hv
    unfold Cur.advWhile at this ⊢
    rw [h1] at this
    rw [h, List.length_cons]
    unfold Cur.adv
    rw [← this]
    have := hp [] (a :: u) rfl (by simp)
    simp only [List.cons_append] at this ⊢
    simp [Cur.advWhileGo, this]

theorem tokenCb_eq {k : TK} {f : Cur → Except Err Cur} {u v : List Char} {pos col : Nat} {prev : Option Char} {out : List Tok}
    {c' : Cur} (h : f ⟨u ++ v, pos, col, prev⟩ = .ok c') (hp : c'.pos = pos + u.length) :
    tokenCb k f ⟨⟨u ++ v, pos, col, prev⟩, out⟩ = .ok ⟨c', out ++ [⟨k, u, some pos⟩]⟩ := by
  simp only [tokenCb, h, bind, Except.bind, pure, Except.pure, hp]
  simp

theorem token_eq {k : TK} {f : Cur → Cur} {u v : List Char} {pos col : Nat} {prev : Option Char} {out : List Tok}
    (h : f ⟨u ++ v, pos, col, prev⟩ = Cur.adv u.length ⟨u ++ v, pos, col, prev⟩) :
    ∃ col' prev', token k f ⟨⟨u ++ v, pos, col, prev⟩, out⟩ = .ok ⟨⟨v, pos + u.length, col', prev'⟩, out ++ [⟨k, u, some pos⟩]⟩ ∧
      ∀ x ∈ u.getLast?, (col' = 0 ↔ x = '\n') := by
  obtain ⟨col', prev', h1, h2⟩ := adv_state u ⟨u ++ v, pos, col, prev⟩ v rfl
  refine ⟨col', prev', ?_, h2⟩
  unfold token
  rw [tokenCb_eq (c' := ⟨v, pos + u.length, col', prev'⟩) (by rw [h, h1]) rfl]

/-! ## Words -/

theorem toLower_alnum {c : Char} (h : isAlnum c = false) : toLower c = c := by
  unfold toLower
  rw [if_neg]
  intro hu
  simp [isAlnum, isAlpha, hu] at h

theorem stem_wordChar {s : List Char} (h : Stem s) (v : List Char) : ∀ a b, s = a ++ b → b ≠ [] → wordChar (b ++ v) = true := by
  intro a
  induction a generalizing s with
  | nil =>
    intro b hb hne
    simp only [List.nil_append] at hb
    subst hb
    match s, hne with
    | [x], _ =>
      have hx : isAlnum x = true := h
      cases v <;> simp [wordChar, hx]
    | x :: y :: r, _ =>
      rcases h.1 with hx | ⟨hx, hy⟩
      · simp [wordChar, hx]
      · rcases hx with rfl | rfl <;> simp [wordChar, hy]
  | cons x a ih =>
    intro b hb hne
    cases s with
    | nil => cases hb
    | cons y s =>
      simp only [List.cons_append, List.cons.injEq] at hb
      refine ih ?_ b hb.2 hne
      match s, h with
      | [], _ => exact trivial
      | _ :: _, h => exact h.2

/-- The next character ends a word. -/
def EndsWord (v : List Char) : Prop := ∀ c ∈ v.head?, isAlnum c = false ∧ c ≠ '-' ∧ c ≠ '_' ∧ c ≠ '\''

theorem wordChar_stop {v : List Char} (h : ∀ c ∈ v.head?, isAlnum c = false ∧ c ≠ '-' ∧ c ≠ '_') : v = [] ∨ wordChar v = false := by
  match v with
  | [] => exact .inl rfl
  | [x] => exact .inr (by simp [wordChar, (h x rfl).1])
  | x :: y :: r =>
    obtain ⟨h1, h2, h3⟩ := h x rfl
    exact .inr (by simp [wordChar, h1, h2, h3])

theorem adv_add (m n : Nat) (c : Cur) : (c.adv m).adv n = c.adv (m + n) := by
  induction m generalizing c with
  | zero => simp [Cur.adv]
  | succ m ih => rw [show m + 1 + n = (m + n) + 1 from by omega]; exact ih c.next

theorem rest_adv (u v : List Char) (c : Cur) (h : c.rest = u ++ v) : (c.adv u.length).rest = v := by
  obtain ⟨_, _, h1, _⟩ := adv_state u c v h
  rw [h1]

theorem advWord_eq {stem rest v : List Char} (hs : Stem stem) (hr : rest = [] ∨ ∃ r, rest = '\'' :: r ∧ ∀ c ∈ r, isAlnum c = true)
    (hv : EndsWord v) (c : Cur) (hc : c.rest = stem ++ rest ++ v) : advWord c = c.adv (stem ++ rest).length := by
  unfold advWord
  rw [advWhile_eq stem c (rest ++ v) (by rw [hc, List.append_assoc]) (fun a b h1 h2 => stem_wordChar hs _ a b h1 h2) ?_]
  · have hrest := rest_adv stem (rest ++ v) c (by rw [hc, List.append_assoc])
    rcases hr with rfl | ⟨r, rfl, hr⟩
    · simp only [List.nil_append] at hrest
      have h1 : optApostrophe (c.adv stem.length) = c.adv stem.length := by
        unfold optApostrophe
        rw [hrest, if_neg]
        cases v with
        | nil => simp [isAt]
        | cons x v => simp [isAt, (hv x rfl).2.2.2]
      rw [h1, advWhile_eq [] _ v (by simpa using hrest) (fun a b h1 h2 => absurd (List.append_eq_nil_iff.mp h1.symm).2 h2) ?_]
      · simp [Cur.adv]
      · cases v with
        | nil => exact .inl rfl
        | cons x v => exact .inr (by simp [isAtAny, (hv x rfl).1])
    · have h1 : optApostrophe (c.adv stem.length) = (c.adv stem.length).adv 1 := by
        unfold optApostrophe
        rw [hrest, if_pos (by simp [isAt])]
        rfl
      have h2 := rest_adv ['\''] (r ++ v) (c.adv stem.length) (by simpa using hrest)
      rw [h1, advWhile_eq r _ v (by simpa using h2) ?_ ?_]
      · rw [adv_add, adv_add]
        congr 1
        simp
        omega
      · intro a b hab hb
        cases b with
        | nil => exact absurd rfl hb
        | cons x b => simp [isAtAny, hr x (by rw [hab]; simp)]
      · cases v with
        | nil => exact .inl rfl
        | cons x v => exact .inr (by simp [isAtAny, (hv x rfl).1])
  · rcases hr with rfl | ⟨r, rfl, _⟩
    · exact wordChar_stop (fun c hc => ⟨(hv c (by simpa using hc)).1, (hv c (by simpa using hc)).2.1, (hv c (by simpa using hc)).2.2.1⟩)
    · exact wordChar_stop (fun c hc => by simp at hc; subst hc; decide)

/-! ## Literals at the start of a word -/

/-- A literal of letters and digits at the start of a word, in small letters, lies in the word. -/
theorem prefix_word {t w v : List Char} (ht : ∀ c ∈ t, isAlnum c = true) (hv : ∀ c ∈ v.head?, isAlnum c = false)
    (h : t <+: (w ++ v).map toLower) : t <+: w.map toLower := by
  induction w generalizing t with
  | nil =>
    cases t with
    | nil => exact List.nil_prefix
    | cons a t =>
      cases v with
      | nil => simp at h
      | cons c v =>
        simp only [List.nil_append, List.map_cons, List.cons_prefix_cons] at h
        have h1 := hv c rfl
        rw [toLower_alnum h1] at h
        rw [← h.1, ht a List.mem_cons_self] at h1
        cases h1
  | cons x w ih =>
    cases t with
    | nil => exact List.nil_prefix
    | cons a t =>
      simp only [List.cons_append, List.map_cons, List.cons_prefix_cons] at h ⊢
      exact ⟨h.1, ih (fun c hc => ht c (List.mem_cons_of_mem _ hc)) h.2⟩

theorem isIat_false {t w v : List Char} (ht : ∀ c ∈ t, isAlnum c = true ∧ toLower c = c) (hv : ∀ c ∈ v.head?, isAlnum c = false)
    (hne : v ≠ []) (h : ¬ t <+: w.map toLower) : isIat (w ++ v) t = .ok false := by
  induction w generalizing t with
  | nil =>
    cases t with
    | nil => exact absurd List.nil_prefix h
    | cons a t =>
      cases v with
      | nil => exact absurd rfl hne
      | cons c v =>
        have h1 := hv c rfl
        have : toLower c ≠ toLower a := by
          rw [toLower_alnum h1, (ht a List.mem_cons_self).2]
          rintro rfl
          rw [(ht c List.mem_cons_self).1] at h1
          cases h1
        simp [isIat, this]
  | cons x w ih =>
    cases t with
    | nil => exact absurd List.nil_prefix h
    | cons a t =>
      simp only [List.cons_append, isIat]
      split
      · rfl
      · rename_i hx
        refine ih (fun c hc => ht c (List.mem_cons_of_mem _ hc)) (fun hp => h ?_)
        simp only [ne_eq, not_not] at hx
        rw [(ht a List.mem_cons_self).2] at hx
        simp [hx, hp]

/-- A name with a colon at the start of a word followed by something else: the word is the name and the
colon comes next. -/
theorem prefix_colon {t w v : List Char} (f : Char → Char) (hf : ∀ c, isAlnum c = false → f c = c) (hfc : ∀ c, f c = ':' → c = ':')
    (ht : ∀ c ∈ t, isAlnum c = true) (hw : ':' ∉ w) (hv : ∀ c ∈ v.head?, isAlnum c = false)
    (h : t ++ [':'] <+: (w ++ v).map f) : w.map f = t ∧ v.head? = some ':' := by
  induction w generalizing t with
  | nil =>
    cases v with
    | nil => simp at h
    | cons c v =>
      cases t with
      | nil =>
        simp only [List.nil_append, List.map_cons, List.cons_prefix_cons, List.nil_prefix, and_true] at h
        exact ⟨rfl, by rw [hfc c h.symm]; rfl⟩
      | cons a t =>
        simp only [List.nil_append, List.cons_append, List.map_cons, List.cons_prefix_cons] at h
        have h1 := hv c rfl
        rw [hf c h1] at h
        rw [← h.1, ht a List.mem_cons_self] at h1
        cases h1
  | cons x w ih =>
    cases t with
    | nil =>
      simp only [List.nil_append, List.cons_append, List.map_cons, List.cons_prefix_cons] at h
      exact absurd (by rw [hfc x h.1.symm]; simp) hw
    | cons a t =>
      simp only [List.cons_append, List.map_cons, List.cons_prefix_cons] at h
      obtain ⟨h1, h2⟩ := ih (fun c hc => ht c (List.mem_cons_of_mem _ hc)) (fun hc => hw (List.mem_cons_of_mem _ hc)) h.2
      exact ⟨by rw [List.map_cons, h1, h.1], h2⟩

theorem toLower_colon (c : Char) (h : toLower c = ':') : c = ':' := by
  by_cases hu : isUpper c = true
  · exfalso
    unfold toLower at h
    rw [if_pos hu] at h
    simp only [isUpper, Bool.and_eq_true, decide_eq_true_eq] at hu
    have h1 : 65 ≤ c.toNat := hu.1
    have h2 : c.toNat ≤ 90 := hu.2
    have h3 : ∀ n < 26, Char.ofNat (n + 97) ≠ ':' := by decide
    exact h3 (c.toNat - 65) (by omega) (by rw [show c.toNat - 65 + 97 = c.toNat + 32 from by omega]; exact h)
  · rwa [toLower, if_neg hu] at h

/-! ## The start of a line -/

theorem lineStart_text {c : Char} {r : List Char} (h : c ∉ [' ', '-', '+', '|', ':', '#']) (hd : isDigit c = false)
    (hclock : ¬ "clock:".toList <+: (c :: r).map toLower) : lineStart stdLex (c :: r) (spaces (c :: r)) = .other := by
  simp only [List.mem_cons, List.not_mem_nil, or_false, not_or] at h
  obtain ⟨h1, h2, h3, h4, h5, h6⟩ := h
  have hs : spaces (c :: r) = 0 := by simp [spaces, h1]
  have hcolon : toLower c ≠ ':' := fun hh => h5 (toLower_colon c hh)
  have hl : ∀ (t : List Char), ':' :: t ≠ [] := by simp
  have e1 : stdLex .clock (c :: r) = none := by
    simp only [stdLex, Pat.rx, Rx.run]
    rw [if_neg]
    rw [List.isPrefixOf_iff_prefix]
    exact hclock
  have e2 : stdLex .colonEnd (c :: r) = none := by
    simp only [stdLex, Pat.rx, Rx.run]
    rw [if_neg]
    rw [List.isPrefixOf_iff_prefix]
    intro hp
    exact hcolon (List.cons_prefix_cons.mp hp).1.symm
  have e3 : stdLex .colonProperties (c :: r) = none := by
    simp only [stdLex, Pat.rx, Rx.run]
    rw [if_neg]
    rw [List.isPrefixOf_iff_prefix]
    intro hp
    exact hcolon (List.cons_prefix_cons.mp hp).1.symm
  have e4 : stdLex .colonLogbook (c :: r) = none := by
    simp only [stdLex, Pat.rx, Rx.run]
    rw [if_neg]
    rw [List.isPrefixOf_iff_prefix]
    intro hp
    exact hcolon (List.cons_prefix_cons.mp hp).1.symm
  have hch : (Rx.ch ':').run (c :: r) = none := by
    simp [Rx.ch, Rx.run, List.isPrefixOf, Ne.symm h5]
  have e5 : stdLex .argProperty (c :: r) = none := by simp only [stdLex, Pat.rx, seqs, Rx.run, hch]
  have e6 : stdLex .textProperty (c :: r) = none := by simp only [stdLex, Pat.rx, seqs, Rx.run, hch]
  have e7 : stdLex .literalProperty (c :: r) = none := by simp only [stdLex, Pat.rx, seqs, Rx.run, hch]
  have e8 : stdLex .leadingNumber (c :: r) = none := by simp [stdLex, Pat.rx, seqs, Rx.run, digits, Rx.many1, hd]
  have e9 : tableSep (c :: r) 0 = none := by
    simp [tableSep, isAt, h4, tableSepGo, h2]
  have g : ∀ ch, c ≠ ch → checkLeading (c :: r) ch 0 = false := by
    intro ch hne
    simp [checkLeading, isAt, hne]
  rw [hs]
  unfold lineStart
  simp only [g '-' h2, g '+' h3, g '|' h4, g ':' h5, e9, List.drop_zero, e1, e2, e3, e4, e5, e6, e7, e8, Bool.false_eq_true, if_false]
  rw [if_neg (by simp [isAtStr, List.isPrefixOf, Ne.symm h6]), if_neg (by omega)]

end Verif.Pipeline
