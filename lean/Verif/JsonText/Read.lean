import Verif.JsonText.Spec
import Verif.Drawer.Text
import Mathlib.Data.List.Sort

/-!
# The text is read again
-/

namespace Verif.JsonText
open Verif.Drawer (Text showNat showInt showNat_ne showNat_digit digitsValue digitsValue_show)

/-! ## Strings -/

theorem control_code : ∀ n, n < 32 → codeOf '0' '0' (hexDigit (n / 16)) (hexDigit (n % 16)) = some (Char.ofNat n) := by decide

theorem read_escape (c : Char) (n : Nat) (t : Text) : readString (n + 1) (escape c ++ t) = (readString n t).map fun p => (c :: p.1, p.2) := by
  have hs : ∀ (e x : Char), e ≠ 'u' → simpleEscape e = some x → readString (n + 1) ('\\' :: e :: t) = (readString n t).map fun p => (x :: p.1, p.2) := by
    intro e x he hx
    rw [readString.eq_def]
    dsimp only
    rw [if_neg (by decide), if_pos rfl]
    split
    · next h =>
      injection h with h1 h2
      exact absurd h1 he
    · next h =>
      injection h with h1 h2
      subst h1 h2
      rw [hx]
      rfl
    · next h => cases h
  have hn : ∀ m, m < 32 → c.toNat = m → c = Char.ofNat m := by
    intro m _ h
    rw [← h, Char.ofNat_toNat]
  unfold escape
  split_ifs with h1 h2 h3 h4 h5 h6 h7 h8
  · subst h1; exact hs '"' '"' (by decide) (by decide)
  · subst h2; exact hs '\\' '\\' (by decide) (by decide)
  · rw [hn 8 (by omega) h3]; exact hs 'b' _ (by decide) (by decide)
  · rw [hn 12 (by omega) h4]; exact hs 'f' _ (by decide) (by decide)
  · subst h5; exact hs 'n' '\n' (by decide) (by decide)
  · subst h6; exact hs 'r' '\r' (by decide) (by decide)
  · subst h7; exact hs 't' '\t' (by decide) (by decide)
  · have hc := control_code c.toNat h8
    rw [Char.ofNat_toNat] at hc
    show readString (n + 1) ('\\' :: 'u' :: '0' :: '0' :: hexDigit (c.toNat / 16) :: hexDigit (c.toNat % 16) :: t) = _
    rw [readString.eq_def]
    dsimp only
    rw [if_neg (by decide), if_pos rfl]
    show (codeOf '0' '0' (hexDigit (c.toNat / 16)) (hexDigit (c.toNat % 16))).bind _ = _
    rw [hc]
    rfl
  · show readString (n + 1) (c :: t) = _
    rw [readString.eq_def]
    dsimp only
    rw [if_neg h1, if_neg h2, if_neg h8]

theorem read_quoted (s : Text) (r : Text) {n : Nat} (hn : s.length + 1 ≤ n) : readString n ((s.map escape).flatten ++ '"' :: r) = some (s, r) := by
  induction s generalizing n with
  | nil =>
    obtain ⟨m, rfl⟩ : ∃ m, n = m + 1 := ⟨n - 1, by simp at hn; omega⟩
    rfl
  | cons c s ih =>
    obtain ⟨m, rfl⟩ : ∃ m, n = m + 1 := ⟨n - 1, by simp at hn; omega⟩
    rw [List.map_cons, List.flatten_cons, List.append_assoc, read_escape, ih (by simp at hn; omega)]
    rfl

theorem read_plain {k : Text} (h : PlainKey k) (r : Text) {n : Nat} (hn : k.length + 1 ≤ n) : readString n (k ++ '"' :: r) = some (k, r) := by
  induction k generalizing n with
  | nil =>
    obtain ⟨m, rfl⟩ : ∃ m, n = m + 1 := ⟨n - 1, by simp at hn; omega⟩
    rfl
  | cons c s ih =>
    obtain ⟨m, rfl⟩ : ∃ m, n = m + 1 := ⟨n - 1, by simp at hn; omega⟩
    obtain ⟨h1, h2, h3⟩ := h c List.mem_cons_self
    rw [List.cons_append, readString.eq_def]
    dsimp only
    rw [if_neg h1, if_neg h2, if_neg (by omega), ih (fun x hx => h x (List.mem_cons_of_mem _ hx)) (by simp at hn; omega)]
    rfl

/-! ## Numbers -/

/-- What is after a number. -/
def NoDigit (r : Text) : Prop := ∀ c, r.head? = some c → BaseLexer.isDigit c = false

theorem digits_split {ds r : Text} (h : ∀ c ∈ ds, BaseLexer.isDigit c = true) (hr : NoDigit r) :
    (ds ++ r).takeWhile BaseLexer.isDigit = ds ∧ (ds ++ r).dropWhile BaseLexer.isDigit = r := by
  induction ds with
  | nil =>
    cases r with
    | nil => exact ⟨rfl, rfl⟩
    | cons c r =>
      have := hr c rfl
      simp [this]
  | cons c ds ih =>
    obtain ⟨h1, h2⟩ := ih fun x hx => h x (List.mem_cons_of_mem _ hx)
    have := h c List.mem_cons_self
    simp [this, h1, h2]

theorem read_int (i : Int) {r : Text} (hr : NoDigit r) : readInt (showInt i ++ r) = some (i, r) := by
  unfold readInt
  cases i with
  | ofNat k =>
    have hd : ∀ c ∈ showNat k, BaseLexer.isDigit c = true := fun c hc => showNat_digit hc
    obtain ⟨h1, h2⟩ := digits_split hd hr
    have hne : (showNat k ++ r).head? ≠ some '-' := by
      obtain ⟨c, u, hu⟩ := List.exists_cons_of_ne_nil (showNat_ne k)
      rw [hu]
      simp only [List.cons_append, List.head?_cons, ne_eq, Option.some.injEq]
      rintro rfl
      exact absurd (hd '-' (by rw [hu]; exact List.mem_cons_self)) (by decide)
    have e : showInt (Int.ofNat k) = showNat k := rfl
    rw [e]
    simp only [hne, if_false, h1, h2, showNat_ne, digitsValue_show]
    rfl
  | negSucc k =>
    have hd : ∀ c ∈ showNat (k + 1), BaseLexer.isDigit c = true := fun c hc => showNat_digit hc
    obtain ⟨h1, h2⟩ := digits_split hd hr
    have e : showInt (Int.negSucc k) ++ r = '-' :: (showNat (k + 1) ++ r) := rfl
    rw [e]
    simp only [List.head?_cons, if_true, List.drop_one, List.tail_cons, h1, h2, showNat_ne, digitsValue_show, if_false]
    rfl

/-! ## Spaces -/

theorem skip_space {w : Text} (h : ∀ c ∈ w, isSpace c = true) (t : Text) : skip (w ++ t) = skip t := by
  unfold skip
  induction w with
  | nil => rfl
  | cons c w ih => rw [List.cons_append, List.dropWhile_cons_of_pos (h c List.mem_cons_self), ih fun x hx => h x (List.mem_cons_of_mem _ hx)]

theorem value_space {w : Text} (h : ∀ c ∈ w, isSpace c = true) (n : Nat) (t : Text) : readValue n (w ++ t) = readValue n t := by
  cases n with
  | zero => rfl
  | succ n => rw [readValue, readValue, skip_space h]

theorem all_space {w : Text} (h : ∀ c ∈ w, isSpace c = true) (n : Nat) (t : Text) : readAll n (w ++ t) = readAll n t := by
  cases n with
  | zero => rfl
  | succ n => rw [readAll, readAll, value_space h]

theorem fields_space {w : Text} (h : ∀ c ∈ w, isSpace c = true) (n : Nat) (t : Text) : readFields n (w ++ t) = readFields n t := by
  cases n with
  | zero => rfl
  | succ n => rw [readFields, readFields, skip_space h]

theorem indent_space (ind : Nat) : ∀ c ∈ "\n".toList ++ List.replicate ind ' ', isSpace c = true := by
  intro c hc
  rcases List.mem_append.mp hc with hc | hc
  · rw [List.mem_singleton.mp hc]; rfl
  · rw [(List.mem_replicate.mp hc).2]; rfl

theorem value_close {n : Nat} {t : Text} {p : Json × Text} (h : readValue n t = some p) : ∀ r, skip t ≠ ']' :: r := by
  intro r hr
  cases n with
  | zero => cases h
  | succ n =>
    rw [readValue, hr] at h
    dsimp only at h
    rw [if_neg (by decide), if_neg (by decide), if_neg (by decide), if_neg (by decide), if_neg (by decide), if_neg (by decide)] at h
    have : readInt (']' :: r) = none := by
      unfold readInt
      simp [show BaseLexer.isDigit ']' = false from rfl]
    rw [this] at h
    cases h

/-! ## Reading with enough steps -/

/-- The value is read from the text, whatever is after it. -/
def Gives (t : Text) (v : Json) : Prop := ∀ r, NoDigit r → ∃ N, ∀ n, N ≤ n → readValue n (t ++ r) = some (v, r)

def GivesAll (t : Text) (l : List Json) : Prop := ∀ r, ∃ N, ∀ n, N ≤ n → readAll n (t ++ ']' :: r) = some (l, r)

def GivesFields (t : Text) (l : List (Text × Json)) : Prop := ∀ r, ∃ N, ∀ n, N ≤ n → readFields n (t ++ '}' :: r) = some (l, r)

theorem noDigit_cons {c : Char} (h : BaseLexer.isDigit c = false) (r : Text) : NoDigit (c :: r) := by
  intro x hx
  cases hx
  exact h

theorem Gives.space {t : Text} {v : Json} (h : Gives t v) {w : Text} (hw : ∀ c ∈ w, isSpace c = true) : Gives (w ++ t) v := by
  intro r hr
  obtain ⟨N, hN⟩ := h r hr
  exact ⟨N, fun n hn => by rw [List.append_assoc, value_space hw, hN n hn]⟩

theorem gives_string (s : Text) : Gives (quote s) (.str s) := by
  intro r _
  refine ⟨s.length + 2, fun n hn => ?_⟩
  obtain ⟨m, rfl⟩ : ∃ m, n = m + 1 := ⟨n - 1, by omega⟩
  have e : quote s ++ r = '"' :: ((s.map escape).flatten ++ '"' :: r) := by simp [quote]
  rw [e, readValue]
  have : skip ('"' :: ((s.map escape).flatten ++ '"' :: r)) = '"' :: ((s.map escape).flatten ++ '"' :: r) := rfl
  rw [this]
  dsimp only
  rw [if_pos rfl, read_quoted s r (by omega)]
  rfl

theorem gives_int (i : Int) : Gives (showInt i) (.int i) := by
  intro r hr
  refine ⟨1, fun n hn => ?_⟩
  obtain ⟨m, rfl⟩ : ∃ m, n = m + 1 := ⟨n - 1, by omega⟩
  have hh : ∃ c u, showInt i = c :: u ∧ (c = '-' ∨ BaseLexer.isDigit c = true) := by
    cases i with
    | ofNat k =>
      obtain ⟨c, u, hu⟩ := List.exists_cons_of_ne_nil (showNat_ne k)
      exact ⟨c, u, hu, .inr (showNat_digit (by rw [hu]; exact List.mem_cons_self))⟩
    | negSucc k => exact ⟨'-', _, rfl, .inl rfl⟩
  obtain ⟨c, u, hu, hc⟩ := hh
  have hi := read_int i hr
  rw [hu] at hi ⊢
  have hno : ∀ x, BaseLexer.isDigit x = false → x ≠ '-' → c ≠ x := by
    rintro x h1 h2 rfl
    rcases hc with hc | hc
    · exact h2 hc
    · rw [h1] at hc; cases hc
  have hsp : isSpace c = false := by
    unfold isSpace
    simp only [Bool.or_eq_false_iff, decide_eq_false_iff_not]
    exact ⟨⟨⟨hno _ (by decide) (by decide), hno _ (by decide) (by decide)⟩, hno _ (by decide) (by decide)⟩, hno _ (by decide) (by decide)⟩
  have hs : skip (c :: u ++ r) = c :: (u ++ r) := by
    unfold skip
    rw [List.cons_append, List.dropWhile_cons_of_neg (by simp [hsp])]
  rw [readValue, hs]
  dsimp only
  rw [if_neg (hno _ (by decide) (by decide)), if_neg (hno _ (by decide) (by decide)), if_neg (hno _ (by decide) (by decide)), if_neg (hno _ (by decide) (by decide)),
    if_neg (hno _ (by decide) (by decide)), if_neg (hno _ (by decide) (by decide))]
  rw [List.cons_append] at hi
  rw [hi]
  rfl

theorem gives_null : Gives "null".toList .null := fun r _ => ⟨1, fun n hn => by
  obtain ⟨m, rfl⟩ : ∃ m, n = m + 1 := ⟨n - 1, by omega⟩
  rfl⟩

theorem gives_true : Gives "true".toList (.bool true) := fun r _ => ⟨1, fun n hn => by
  obtain ⟨m, rfl⟩ : ∃ m, n = m + 1 := ⟨n - 1, by omega⟩
  rfl⟩

theorem gives_false : Gives "false".toList (.bool false) := fun r _ => ⟨1, fun n hn => by
  obtain ⟨m, rfl⟩ : ∃ m, n = m + 1 := ⟨n - 1, by omega⟩
  rfl⟩

/-! ## Arrays and objects -/

theorem GivesAll.one {t : Text} {v : Json} (h : Gives t v) : GivesAll t [v] := by
  intro r
  obtain ⟨N, hN⟩ := h (']' :: r) (noDigit_cons rfl r)
  refine ⟨N + 1, fun n hn => ?_⟩
  obtain ⟨m, rfl⟩ : ∃ m, n = m + 1 := ⟨n - 1, by omega⟩
  rw [readAll, hN m (by omega)]
  rfl

theorem GivesAll.more {t u : Text} {v : Json} {l : List Json} (h : Gives t v) (k : GivesAll u l) : GivesAll (t ++ ',' :: u) (v :: l) := by
  intro r
  obtain ⟨N, hN⟩ := h (',' :: (u ++ ']' :: r)) (noDigit_cons rfl _)
  obtain ⟨M, hM⟩ := k r
  refine ⟨N + M + 1, fun n hn => ?_⟩
  obtain ⟨m, rfl⟩ : ∃ m, n = m + 1 := ⟨n - 1, by omega⟩
  rw [List.append_assoc, List.cons_append, readAll, hN m (by omega)]
  show (readAll m (u ++ ']' :: r)).map _ = _
  rw [hM m (by omega)]
  rfl

theorem gives_empty : Gives "[]".toList (.arr []) := fun r _ => ⟨1, fun n hn => by
  obtain ⟨m, rfl⟩ : ∃ m, n = m + 1 := ⟨n - 1, by omega⟩
  rfl⟩

theorem gives_no_fields : Gives "{}".toList (.obj []) := fun r _ => ⟨1, fun n hn => by
  obtain ⟨m, rfl⟩ : ∃ m, n = m + 1 := ⟨n - 1, by omega⟩
  rfl⟩

theorem GivesAll.array {t : Text} {l : List Json} (h : GivesAll t l) : Gives ("[".toList ++ t ++ "]".toList) (.arr l) := by
  intro r _
  obtain ⟨N, hN⟩ := h r
  refine ⟨N + 1, fun n hn => ?_⟩
  obtain ⟨m, rfl⟩ : ∃ m, n = m + 1 := ⟨n - 1, by omega⟩
  have e : "[".toList ++ t ++ "]".toList ++ r = '[' :: (t ++ ']' :: r) := by simp
  rw [e, readValue]
  have : skip ('[' :: (t ++ ']' :: r)) = '[' :: (t ++ ']' :: r) := rfl
  rw [this]
  dsimp only
  rw [if_neg (by decide), if_pos rfl]
  have h1 := hN m (by omega)
  have hc : ∀ x, skip (t ++ ']' :: r) ≠ ']' :: x := by
    cases m with
    | zero => cases h1
    | succ m =>
      rw [readAll] at h1
      cases hv : readValue m (t ++ ']' :: r) with
      | none => rw [hv] at h1; cases h1
      | some p => exact value_close hv
  split
  · next x hx => exact absurd hx (hc x)
  · rw [h1]
    rfl

theorem GivesFields.one {q t : Text} {k : Text} {v : Json} (hq : ∀ r, ∃ N, ∀ n, N ≤ n → readString n (q ++ r) = some (k, r)) (h : Gives t v) :
    GivesFields ('"' :: (q ++ ':' :: t)) [(k, v)] := by
  intro r
  obtain ⟨M, hM⟩ := hq (':' :: (t ++ '}' :: r))
  obtain ⟨N, hN⟩ := h ('}' :: r) (noDigit_cons rfl r)
  refine ⟨N + M + 1, fun n hn => ?_⟩
  obtain ⟨m, rfl⟩ : ∃ m, n = m + 1 := ⟨n - 1, by omega⟩
  have e : '"' :: (q ++ ':' :: t) ++ '}' :: r = '"' :: (q ++ ':' :: (t ++ '}' :: r)) := by simp
  rw [e, readFields]
  have : skip ('"' :: (q ++ ':' :: (t ++ '}' :: r))) = '"' :: (q ++ ':' :: (t ++ '}' :: r)) := rfl
  rw [this]
  show (readString m (q ++ ':' :: (t ++ '}' :: r))).bind _ = _
  rw [hM m (by omega)]
  show (readValue m (t ++ '}' :: r)).bind _ = _
  rw [hN m (by omega)]
  rfl

theorem GivesFields.more {q t u : Text} {k : Text} {v : Json} {l : List (Text × Json)} (hq : ∀ r, ∃ N, ∀ n, N ≤ n → readString n (q ++ r) = some (k, r)) (h : Gives t v)
    (hu : GivesFields u l) : GivesFields ('"' :: (q ++ ':' :: t) ++ ',' :: u) ((k, v) :: l) := by
  intro r
  obtain ⟨M, hM⟩ := hq (':' :: (t ++ ',' :: (u ++ '}' :: r)))
  obtain ⟨N, hN⟩ := h (',' :: (u ++ '}' :: r)) (noDigit_cons rfl _)
  obtain ⟨K, hK⟩ := hu r
  refine ⟨N + M + K + 1, fun n hn => ?_⟩
  obtain ⟨m, rfl⟩ : ∃ m, n = m + 1 := ⟨n - 1, by omega⟩
  have e : '"' :: (q ++ ':' :: t) ++ ',' :: u ++ '}' :: r = '"' :: (q ++ ':' :: (t ++ ',' :: (u ++ '}' :: r))) := by simp
  rw [e, readFields]
  have : skip ('"' :: (q ++ ':' :: (t ++ ',' :: (u ++ '}' :: r)))) = '"' :: (q ++ ':' :: (t ++ ',' :: (u ++ '}' :: r))) := rfl
  rw [this]
  show (readString m (q ++ ':' :: (t ++ ',' :: (u ++ '}' :: r)))).bind _ = _
  rw [hM m (by omega)]
  show (readValue m (t ++ ',' :: (u ++ '}' :: r))).bind _ = _
  rw [hN m (by omega)]
  show (readFields m (u ++ '}' :: r)).map _ = _
  rw [hK m (by omega)]
  rfl

theorem GivesFields.space {t : Text} {l : List (Text × Json)} (h : GivesFields t l) {w : Text} (hw : ∀ c ∈ w, isSpace c = true) : GivesFields (w ++ t) l := by
  intro r
  obtain ⟨N, hN⟩ := h r
  exact ⟨N, fun n hn => by rw [List.append_assoc, fields_space hw, hN n hn]⟩

theorem GivesFields.object {t : Text} {l : List (Text × Json)} (h : GivesFields t l) : Gives ("{".toList ++ t ++ "}".toList) (.obj (l.foldl put [])) := by
  intro r _
  obtain ⟨N, hN⟩ := h r
  refine ⟨N + 1, fun n hn => ?_⟩
  obtain ⟨m, rfl⟩ : ∃ m, n = m + 1 := ⟨n - 1, by omega⟩
  have e : "{".toList ++ t ++ "}".toList ++ r = '{' :: (t ++ '}' :: r) := by simp
  rw [e, readValue]
  have : skip ('{' :: (t ++ '}' :: r)) = '{' :: (t ++ '}' :: r) := rfl
  rw [this]
  dsimp only
  rw [if_neg (by decide), if_neg (by decide), if_pos rfl]
  have h1 := hN m (by omega)
  have hc : ∀ x, skip (t ++ '}' :: r) ≠ '}' :: x := by
    intro x hx
    cases m with
    | zero => cases h1
    | succ m =>
      rw [readFields, hx] at h1
      cases h1
  split
  · next x hx => exact absurd hx (hc x)
  · rw [h1]
    rfl

theorem quote_key (k : Text) : ∀ r, ∃ N, ∀ n, N ≤ n → readString n (((k.map escape).flatten ++ "\"".toList) ++ r) = some (k, r) := by
  intro r
  refine ⟨k.length + 1, fun n hn => ?_⟩
  rw [List.append_assoc]
  exact read_quoted k r hn

theorem plain_key {k : Text} (h : PlainKey k) : ∀ r, ∃ N, ∀ n, N ≤ n → readString n ((k ++ "\"".toList) ++ r) = some (k, r) := by
  intro r
  refine ⟨k.length + 1, fun n hn => ?_⟩
  rw [List.append_assoc]
  exact read_plain h r hn

/-! ## The order of fields -/

theorem before_irrefl (a : Text) : before a a = false := by
  induction a with
  | nil => rfl
  | cons c a ih => simp [before, ih]

theorem before_trans {a b c : Text} (h : before a b = true) (k : before b c = true) : before a c = true := by
  induction a generalizing b c with
  | nil =>
    cases b with
    | nil => cases h
    | cons y b => cases c with
      | nil => cases k
      | cons z c => rfl
  | cons x a ih =>
    cases b with
    | nil => cases h
    | cons y b => cases c with
      | nil => cases k
      | cons z c =>
        simp only [before] at h k ⊢
        split_ifs at h k ⊢ <;> first | rfl | omega | (exact ih h k) | cases h | cases k

theorem before_asymm {a b : Text} (h : before a b = true) : before b a = false := by
  cases hb : before b a with
  | false => rfl
  | true => have := before_trans h hb; rw [before_irrefl] at this; cases this

theorem before_total {a b : Text} (h : before a b = false) (k : before b a = false) : a = b := by
  induction a generalizing b with
  | nil => cases b with
    | nil => rfl
    | cons y b => cases h
  | cons x a ih => cases b with
    | nil => cases k
    | cons y b =>
      simp only [before] at h k
      split_ifs at h k with h1 h2
      have hx : x.toNat = y.toNat := by omega
      rw [Char.toNat_inj.mp hx, ih h k]

theorem put_perm {l : List (Text × Json)} {f : Text × Json} (h : ∀ g ∈ l, g.1 ≠ f.1) : (put l f).Perm (f :: l) := by
  induction l with
  | nil => exact List.Perm.refl _
  | cons g l ih =>
    rw [put]
    split_ifs with h1 h2
    · exact List.Perm.refl _
    · exact ((ih fun x hx => h x (List.mem_cons_of_mem _ hx)).cons g).trans (List.Perm.swap f g l)
    · exact absurd (before_total (by simpa using h2) (by simpa using h1)) (h g List.mem_cons_self)

theorem put_sorted {l : List (Text × Json)} {f : Text × Json} (hs : l.Pairwise (fun a b => before a.1 b.1 = true)) (h : ∀ g ∈ l, g.1 ≠ f.1) :
    (put l f).Pairwise (fun a b => before a.1 b.1 = true) := by
  induction l with
  | nil => exact List.pairwise_singleton _ _
  | cons g l ih =>
    have hs' := List.pairwise_cons.mp hs
    have hl : ∀ x ∈ l, x.1 ≠ f.1 := fun x hx => h x (List.mem_cons_of_mem _ hx)
    rw [put]
    split_ifs with h1 h2
    · refine List.pairwise_cons.mpr ⟨?_, hs⟩
      intro x hx
      rcases List.mem_cons.mp hx with rfl | hx
      · exact h1
      · exact before_trans h1 (hs'.1 x hx)
    · refine List.pairwise_cons.mpr ⟨?_, ih hs'.2 hl⟩
      intro x hx
      rcases List.mem_cons.mp ((put_perm hl).mem_iff.mp hx) with rfl | hx
      · exact h2
      · exact hs'.1 x hx
    · exact absurd (before_total (by simpa using h2) (by simpa using h1)) (h g List.mem_cons_self)

theorem fold_put {l acc : List (Text × Json)} (hl : l.Pairwise (fun a b => a.1 ≠ b.1)) (ha : acc.Pairwise (fun a b => before a.1 b.1 = true))
    (hd : ∀ f ∈ l, ∀ g ∈ acc, g.1 ≠ f.1) :
    (l.foldl put acc).Perm (l ++ acc) ∧ (l.foldl put acc).Pairwise (fun a b => before a.1 b.1 = true) := by
  induction l generalizing acc with
  | nil => exact ⟨List.Perm.refl _, ha⟩
  | cons f l ih =>
    have hl' := List.pairwise_cons.mp hl
    have h0 := hd f List.mem_cons_self
    obtain ⟨h1, h2⟩ := ih hl'.2 (put_sorted ha h0) (by
      intro x hx g hg
      rcases List.mem_cons.mp ((put_perm h0).mem_iff.mp hg) with rfl | hg
      · exact hl'.1 x hx
      · exact hd x (List.mem_cons_of_mem _ hx) g hg)
    refine ⟨?_, h2⟩
    exact h1.trans (((put_perm h0).append_left l).trans List.perm_middle)

theorem sorted_fields {l p : List (Text × Json)} (hl : l.Pairwise (fun a b => before a.1 b.1 = true)) (hp : p.Perm l) : p.foldl put [] = l := by
  have hne : l.Pairwise (fun a b => a.1 ≠ b.1) := hl.imp fun {a b} h => by
    intro e
    rw [e, before_irrefl] at h
    cases h
  have hpne : p.Pairwise (fun a b => a.1 ≠ b.1) := (hp.pairwise_iff fun {a b} h => Ne.symm h).mpr hne
  obtain ⟨h1, h2⟩ := fold_put hpne List.Pairwise.nil (by simp)
  rw [List.append_nil] at h1
  refine List.Perm.eq_of_pairwise ?_ h2 hl (h1.trans hp)
  intro a b _ _ k1 k2
  rw [before_asymm k1] at k2
  cases k2

end Verif.JsonText
