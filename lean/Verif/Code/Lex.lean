import Verif.Code.Spec
import Verif.Stamp.LexDoc

/-!
# Lexing of source blocks
-/

namespace Verif.Code
open Verif.Token Verif.BaseLexer Verif.Pipeline
open Verif.Stamp (Raw placed placed_append rawText Unit1 unit_token unit_adv)
open Verif.Drawer (Text)

/-! ## Steps -/

/-- The text `u` before `v` is read as these tokens. -/
def Step (f : St → Except BaseLexer.Err St) (u v : Text) (ts : Raw) : Prop :=
  ∀ pos col prev out, ∃ col' prev', f ⟨⟨u ++ v, pos, col, prev⟩, out⟩ = .ok ⟨⟨v, pos + u.length, col', prev'⟩, out ++ placed pos ts⟩

theorem Step.of {f : St → Except BaseLexer.Err St} {u v : Text} {ts : Raw} (h : Unit1 u v ts f) : Step f u v ts := by
  intro pos col prev out
  obtain ⟨c, p, h1, -⟩ := h pos col prev out
  exact ⟨c, p, h1⟩

theorem Step.token {k : TK} {u v : Text} {f : Cur → Cur}
    (h : ∀ pos col prev, f ⟨u ++ v, pos, col, prev⟩ = Cur.adv u.length ⟨u ++ v, pos, col, prev⟩) : Step (token k f) u v [(k, u)] := by
  intro pos col prev out
  obtain ⟨col', prev', h1, -⟩ := token_eq (k := k) (out := out) (h pos col prev)
  exact ⟨col', prev', h1⟩

theorem Step.adv (k : TK) (u v : Text) : Step (tokenAdv k u.length) u v [(k, u)] := Step.token (fun _ _ _ => rfl)

theorem Step.bind {f g : St → Except BaseLexer.Err St} {u u' v : Text} {ts ts' : Raw} (e : rawText ts = u) (h : Step f u (u' ++ v) ts) (h' : Step g u' v ts') :
    Step (fun s => (f s).bind g) (u ++ u') v (ts ++ ts') := by
  intro pos col prev out
  obtain ⟨c1, p1, h1⟩ := h pos col prev out
  obtain ⟨c2, p2, h2⟩ := h' (pos + u.length) c1 p1 (out ++ placed pos ts)
  refine ⟨c2, p2, ?_⟩
  show (f ⟨⟨(u ++ u') ++ v, pos, col, prev⟩, out⟩).bind g = _
  rw [List.append_assoc, h1]
  show g _ = _
  rw [h2, placed_append, e]
  simp [Nat.add_assoc]

theorem Step.congr {f g : St → Except BaseLexer.Err St} {u v : Text} {ts : Raw} (h : Step g u v ts)
    (e : ∀ pos col prev out, f ⟨⟨u ++ v, pos, col, prev⟩, out⟩ = g ⟨⟨u ++ v, pos, col, prev⟩, out⟩) : Step f u v ts := by
  intro pos col prev out
  obtain ⟨c, p, h1⟩ := h pos col prev out
  exact ⟨c, p, by rw [e, h1]⟩

/-- Steps of a loop over the text `u` before `v`. -/
def Steps (lp : Nat → St → Except BaseLexer.Err St) (u v : Text) (ts : Raw) : Prop :=
  rawText ts = u ∧ ∀ pos col prev out, ∃ j col' prev', j ≤ u.length ∧ ∀ k,
    lp (j + k) ⟨⟨u ++ v, pos, col, prev⟩, out⟩ = lp k ⟨⟨v, pos + u.length, col', prev'⟩, out ++ placed pos ts⟩

theorem Steps.nil (lp : Nat → St → Except BaseLexer.Err St) (v : Text) : Steps lp [] v [] :=
  ⟨rfl, fun _ col prev _ => ⟨0, col, prev, by simp, fun _ => by simp [placed]⟩⟩

theorem Steps.append {lp : Nat → St → Except BaseLexer.Err St} {u u' v : Text} {ts ts' : Raw} (h : Steps lp u (u' ++ v) ts) (h' : Steps lp u' v ts') :
    Steps lp (u ++ u') v (ts ++ ts') := by
  obtain ⟨e, h⟩ := h
  obtain ⟨e', h'⟩ := h'
  refine ⟨by rw [← e, ← e']; simp [rawText], fun pos col prev out => ?_⟩
  obtain ⟨j1, c1, p1, g1, g2⟩ := h pos col prev out
  obtain ⟨j2, c2, p2, k1, k2⟩ := h' (pos + u.length) c1 p1 (out ++ placed pos ts)
  refine ⟨j1 + j2, c2, p2, by simp; omega, fun k => ?_⟩
  rw [List.append_assoc, Nat.add_assoc, g2, k2, placed_append, e]
  simp [Nat.add_assoc]

/-- A step of a loop over a line. -/
theorem Steps.arg {body : St → Except BaseLexer.Err St} {u v : Text} {ts : Raw} (h : Step body u v ts) (hne : u ≠ []) (hn : u.head? ≠ some '\n')
    (e : rawText ts = u) : Steps (loop inLine .abort body) u v ts := by
  refine ⟨e, fun pos col prev out => ?_⟩
  obtain ⟨c, p, h1⟩ := h pos col prev out
  have hlen : u.length ≠ 0 := by simpa using hne
  refine ⟨1, c, p, by omega, fun k => ?_⟩
  rw [Nat.add_comm 1 k]
  conv_lhs => unfold loop
  rw [if_pos, h1]
  · dsimp only
    rw [if_neg (by omega)]
  · obtain ⟨x, u, rfl⟩ := List.exists_cons_of_ne_nil hne
    have hx : x ≠ '\n' := by simpa using hn
    simp [inLine, isAt, hx]

/-- A step of a loop over a block. -/
theorem Steps.block {name : Text} {close : TK} {body : St → Except BaseLexer.Err St} {u v : Text} {ts : Raw} (h : Step body u v ts) (hne : u ≠ [])
    (hn : endBlockOffset name (u ++ v) = .ok none) (e : rawText ts = u) : Steps (blockLoop name close body) u v ts := by
  refine ⟨e, fun pos col prev out => ?_⟩
  obtain ⟨c, p, h1⟩ := h pos col prev out
  have hlen : u.length ≠ 0 := by simpa using hne
  refine ⟨1, c, p, by omega, fun k => ?_⟩
  rw [Nat.add_comm 1 k]
  conv_lhs => unfold blockLoop
  dsimp only
  rw [hn]
  dsimp only
  rw [h1]
  dsimp only
  rw [if_neg (by omega)]

/-! ## The end of a block -/

theorem spaces_blanks (n : Nat) {r : Text} (h : r.head? ≠ some ' ') : spaces (blanks n ++ r) = n := by
  unfold spaces blanks
  induction n with
  | zero =>
    cases r with
    | nil => rfl
    | cons x r => simp at h; simp [h]
  | succ n ih => rw [List.replicate_succ, List.cons_append, List.takeWhile_cons_of_pos (by simp), List.length_cons, ih]

theorem spaces_zero {r : Text} (h : r.head? ≠ some ' ') : spaces r = 0 := spaces_blanks 0 h

theorem isAt_blanks (n m : Nat) (r : Text) (c : Char) : isAt (blanks n ++ r) c (n + m) = isAt r c m := by
  unfold isAt blanks
  rw [List.getElem?_append_right (by simp)]
  simp

theorem drop_blanks (n m : Nat) (r : Text) : (blanks n ++ r).drop (n + m) = r.drop m := by
  rw [← List.drop_drop, List.drop_left' (by simp [blanks])]

/-- The spaces before the end of a block. -/
theorem end_shift (name : Text) (n : Nat) {r : Text} (h : r.head? ≠ some ' ') :
    endBlockOffset name (blanks n ++ r) = (endBlockOffset name r).map (Option.map (n + ·)) := by
  unfold endBlockOffset
  rw [spaces_blanks n h, spaces_zero h]
  have a0 := isAt_blanks n 0 r '#'
  have a1 := isAt_blanks n 1 r '+'
  have a5 := isAt_blanks n 5 r '_'
  have d2 := drop_blanks n 2 r
  rw [Nat.add_zero] at a0
  dsimp only
  rw [a0, a1, a5, d2]
  simp only [Nat.zero_add]
  split
  · rfl
  split
  · rfl
  cases isIat (r.drop 2) "end".toList with
  | error e => rfl
  | ok b =>
    simp only [bind, Except.bind]
    cases b with
    | false => rfl
    | true =>
      simp only [Bool.not_true, Bool.false_eq_true, if_false]
      have hq : (if isAt r '_' 5 = true then n + 6 else n + 5) = n + (if isAt r '_' 5 = true then 6 else 5) := by split <;> rfl
      rw [hq, drop_blanks]
      cases isIat (r.drop (if isAt r '_' 5 = true then 6 else 5)) name with
      | error e => rfl
      | ok b =>
        cases b with
        | false => rfl
        | true => simp [pure, Except.pure, Except.map, Nat.add_assoc]

theorem isIat_before {c : Char} (w : Text) {pat : Text} (hc : ∀ x ∈ pat, toLower x ≠ toLower c) (t : Text) :
    (∃ u v, t = u ++ v ∧ sameText u pat ∧ isIat (t ++ c :: w) pat = .ok true) ∨ isIat (t ++ c :: w) pat = .ok false := by
  induction pat generalizing t with
  | nil => exact .inl ⟨[], t, rfl, rfl, by cases t <;> rfl⟩
  | cons x pat ih =>
    cases t with
    | nil =>
      right
      have := hc x List.mem_cons_self
      simp [isIat, this.symm]
    | cons y t =>
      by_cases h : toLower y = toLower x
      · rcases ih (fun z hz => hc z (List.mem_cons_of_mem _ hz)) t with ⟨u, v, h1, h2, h3⟩ | h3
        · refine .inl ⟨y :: u, v, by rw [h1]; rfl, ?_, ?_⟩
          · unfold sameText at h2 ⊢
            rw [List.map_cons, List.map_cons, h, h2]
          · simp [isIat, h, h3]
        · right
          simp [isIat, h, h3]
      · right
        simp [isIat, h]

theorem exists_blanks (t : Text) : ∃ n u, t = blanks n ++ u ∧ u.head? ≠ some ' ' := by
  induction t with
  | nil => exact ⟨0, [], rfl, by simp⟩
  | cons c t ih =>
    by_cases hc : c = ' '
    · obtain ⟨n, u, h1, h2⟩ := ih
      exact ⟨n + 1, u, by rw [h1, hc]; rfl, h2⟩
    · exact ⟨0, c :: t, rfl, by simpa using hc⟩

/-- A text which does not end the block. -/
theorem end_none {t : Text} (h : ¬ Ends t) {c : Char} (hc : c = '\n' ∨ c = '<' ∨ c = '>') (w : Text) : endBlockOffset "src".toList (t ++ c :: w) = .ok none := by
  obtain ⟨n, t, rfl, ht⟩ := exists_blanks t
  have hh : (t ++ c :: w).head? ≠ some ' ' := by
    cases t with
    | nil => rcases hc with rfl | rfl | rfl <;> simp
    | cons x t => simpa using ht
  rw [List.append_assoc, end_shift _ _ hh]
  suffices hg : endBlockOffset "src".toList (t ++ c :: w) = .ok none by rw [hg]; rfl
  have hc' : ∀ x, x ∈ ['#', '+', '_'] → c ≠ x := by
    intro x hx he
    subst he
    rcases hc with rfl | rfl | rfl <;> revert hx <;> decide
  have hlow : ∀ x ∈ "endsrc".toList, toLower x ≠ toLower c := by
    rcases hc with rfl | rfl | rfl <;> decide
  unfold endBlockOffset
  rw [spaces_zero hh]
  simp only [Nat.zero_add]
  cases t with
  | nil => simp [isAt, hc' '#' (by decide), pure, Except.pure]
  | cons x t =>
    by_cases hx : x = '#'
    swap
    · simp [isAt, hx, pure, Except.pure]
    subst hx
    cases t with
    | nil => simp [isAt, hc' '+' (by decide), pure, Except.pure]
    | cons y t =>
      by_cases hy : y = '+'
      swap
      · simp [isAt, hy, pure, Except.pure]
      subst hy
      simp only [List.cons_append, isAt, List.getElem?_cons_zero, decide_true, Bool.not_true, Bool.false_eq_true, if_false, List.getElem?_cons_succ,
        List.drop_succ_cons, List.drop_zero]
      rcases isIat_before w (pat := "end".toList) (fun x hx => hlow x (by revert hx; simp; tauto)) t with ⟨u, v, rfl, h2, h3⟩ | h3
      swap
      · rw [h3]; rfl
      rw [h3]
      simp only [bind, Except.bind, Bool.not_true, Bool.false_eq_true, if_false]
      have hu : u.length = 3 := by
        have := congrArg List.length h2
        simpa using this
      obtain ⟨a, b, d, rfl⟩ : ∃ a b d, u = [a, b, d] := by
        match u, hu with
        | [a, b, d], _ => exact ⟨a, b, d, rfl⟩
      simp only [List.cons_append, List.nil_append, List.getElem?_cons_succ]
      have hpat : ∀ v, (∃ u' v', v = u' ++ v' ∧ sameText u' "src".toList ∧ isIat (v ++ c :: w) "src".toList = .ok true) ∨
          isIat (v ++ c :: w) "src".toList = .ok false := fun v => isIat_before w (fun x hx => hlow x (by revert hx; simp; tauto)) v
      by_cases hv : v.head? = some '_'
      · obtain ⟨v, rfl⟩ : ∃ v', v = '_' :: v' := by
          cases v with
          | nil => cases hv
          | cons z v => simp at hv; exact ⟨v, by rw [hv]⟩
        simp only [List.cons_append, List.getElem?_cons_zero, decide_true, if_true, List.drop_succ_cons, List.drop_zero]
        rcases hpat v with ⟨u', v', rfl, h5, -⟩ | h5
        · exfalso
          refine h ⟨n, ['#', '+', a, b, d, '_'] ++ u', v', by simp [blanks], .inl ?_⟩
          unfold sameText at *
          rw [List.map_append, h5]
          have : [a, b, d].map toLower = ['e', 'n', 'd'] := h2.trans (by decide)
          simp only [List.map_cons, List.map_nil, List.cons.injEq, and_true] at this
          simp only [List.map_cons, List.map_nil, this]
          decide
        · rw [h5]; rfl
      · have hd : decide ((v ++ c :: w)[0]? = some '_') = false := by
          cases v with
          | nil => simp [hc' '_' (by decide)]
          | cons z v => simpa using hv
        simp only [hd, Bool.false_eq_true, if_false, List.drop_succ_cons, List.drop_zero]
        rcases hpat v with ⟨u', v', rfl, h5, -⟩ | h5
        · exfalso
          refine h ⟨n, ['#', '+', a, b, d] ++ u', v', by simp [blanks], .inr ?_⟩
          unfold sameText at *
          rw [List.map_append, h5]
          have : [a, b, d].map toLower = ['e', 'n', 'd'] := h2.trans (by decide)
          simp only [List.map_cons, List.map_nil, List.cons.injEq, and_true] at this
          simp only [List.map_cons, List.map_nil, this]
          decide
        · rw [h5]; rfl

def footWord (upper : Bool) : Text := (if upper then "#+END_SRC" else "#+end_src").toList

theorem end_some (upper : Bool) (n : Nat) (w : Text) : endBlockOffset "src".toList (blanks n ++ footWord upper ++ w) = .ok (some (n + 9)) := by
  rw [List.append_assoc, end_shift]
  · have h : endBlockOffset "src".toList (footWord upper ++ w) = .ok (some 9) := by
      unfold endBlockOffset
      rw [spaces_zero (by cases upper <;> simp [footWord])]
      have l1 : toLower 'E' = toLower 'e' := by decide
      have l2 : toLower 'N' = toLower 'n' := by decide
      have l3 : toLower 'D' = toLower 'd' := by decide
      have l4 : toLower 'S' = toLower 's' := by decide
      have l5 : toLower 'R' = toLower 'r' := by decide
      have l6 : toLower 'C' = toLower 'c' := by decide
      cases upper <;> simp [footWord, isAt, isIat, pure, Except.pure, bind, Except.bind, l1, l2, l3, l4, l5, l6]
    rw [h]
    rfl
  · cases upper <;> simp [footWord]

end Verif.Code
