import Verif.Strs.Digits
import Verif.Strs.Wrap

/-!
# String utilities (C12, C13, C38, C39, C46 – C50)
-/

namespace Verif.Strs

instance {ε α : Type} [DecidableEq ε] [DecidableEq α] : DecidableEq (Except ε α)
  | .ok a, .ok b => if h : a = b then isTrue (h ▸ rfl) else isFalse (fun h' => h (by cases h'; rfl))
  | .error a, .error b =>
    if h : a = b then isTrue (h ▸ rfl) else isFalse (fun h' => h (by cases h'; rfl))
  | .ok _, .error _ => isFalse (fun h => by cases h)
  | .error _, .ok _ => isFalse (fun h => by cases h)

/-! ## C12 -/

/-- **C12.** A byte string is accepted exactly when it is the UTF-8 encoding (as defined
by Lean's `String`) of some sequence of Unicode scalar values. -/
theorem utf8_accepts (bs : Bytes) : validateUtf8 bs = .ok () ↔ ∃ cs : List Char, bs = encode cs := by
  unfold validateUtf8
  constructor
  · intro h
    rcases validate_outcome 0 bs with ⟨-, h1⟩ | ⟨e, cs, r, h1, h2⟩
    · exact h1
    · rw [h] at h2; cases h2
  · rintro ⟨cs, rfl⟩
    have := validate_encode cs 0 []
    rw [List.append_nil] at this
    rw [this, validateFrom]

/-- **C12.** When it is rejected the reported offset is where the longest well-formed
prefix ends: everything before it is well-formed, and no longer prefix is. -/
theorem utf8_rejects_at (bs : Bytes) (e : Utf8Err) (p : Nat) (h : validateUtf8 bs = .error (e, p)) :
    p < bs.length ∧ (∃ cs : List Char, bs.take p = encode cs) ∧
      ∀ q ≤ bs.length, (∃ cs : List Char, bs.take q = encode cs) → q ≤ p := by
  unfold validateUtf8 at h
  have hp := validate_pos_le 0 bs e p h
  refine ⟨by omega, ?_, ?_⟩
  · rcases validate_outcome 0 bs with ⟨h1, -⟩ | ⟨e', cs, r, h1, h2⟩
    · rw [h] at h1; cases h1
    · rw [h] at h2
      injection h2 with h2
      injection h2 with h3 h4
      refine ⟨cs, ?_⟩
      rw [h4, h1, Nat.zero_add, List.take_left]
  · rintro q hq ⟨cs, hcs⟩
    have h1 : bs = encode cs ++ bs.drop q := by rw [← hcs, List.take_append_drop]
    rw [h1, validate_encode cs 0] at h
    have h2 := (validate_pos_le _ _ e p h).1
    have h3 : (encode cs).length = q := by rw [← hcs, List.length_take]; omega
    omega

example : validateUtf8 [0xC3, 0xA9, 0x61] = .ok () := by decide +kernel
example : validateUtf8 [0x61, 0xE2, 0x82] = .error (.incomplete 3, 1) := by decide +kernel
example : validateUtf8 [0x61, 0xED, 0xA0, 0x80] = .error (.surrogate, 1) := by decide +kernel

/-! ## C38 -/

/-- **C38.** For well-formed text there is one chunk per code point, its encoding. -/
theorem chunks_of_text (cs : List Char) :
    runeChunks (encode cs) = cs.map String.utf8EncodeChar ∧ runeLength (encode cs) = cs.length := by
  refine ⟨chunks_encode cs, ?_⟩
  rw [← chunks_length, chunks_encode, List.length_map]

/-- **C38.** For every byte string, well-formed or not, the chunks put together are the
input, their number is the rune length, and every chunk has one to six bytes. -/
theorem chunks_lossless (s : Bytes) :
    (runeChunks s).flatten = s ∧ (runeChunks s).length = runeLength s ∧
      ∀ c ∈ runeChunks s, c ≠ [] ∧ c.length ≤ 6 :=
  ⟨chunks_flatten s, chunks_length s, chunks_size s⟩

example : runeChunks (encode ['a', 'é', '€']) = [[97], [0xC3, 0xA9], [0xE2, 0x82, 0xAC]] := by
  rw [chunks_encode]; decide
/-- Truncated input. -/
example : runeChunks [97, 0xE2, 0x82] = [[97], [0xE2, 0x82]] := by decide +kernel

/-! ## C13 -/

/-- **C13**, splitting at a string that is not empty: it returns, the pieces joined with
the delimiter give the string back, no piece contains the delimiter, and the cuts are made
at the leftmost occurrences. -/
theorem splitStr_join (value delim : Bytes) (hd : delim ≠ []) :
    ∃ ps, (∀ fuel, value.length < fuel → splitStr fuel value delim = .ok ps) ∧
      join delim ps = value ∧ (∀ p ∈ ps, ¬ delim <:+: p) ∧ Pieces delim value ps := by
  obtain ⟨ps, h1, h2⟩ := splitStrLoop_spec value delim hd (value.length + 1) 0 (by omega) (by omega)
  rw [List.drop_zero] at h1
  refine ⟨ps, ?_, h1.join, h1.not_infix hd, h1⟩
  intro fuel hf
  have := h2 fuel [] (by omega)
  rw [List.nil_append] at this
  exact this

/-- Splitting `a, b` and the self-overlapping delimiter `aa` in `aaa`. -/
example : splitStr 5 [97, 44, 32, 98] [44, 32] = .ok [[97], [98]] := by decide +kernel
example : splitStr 4 [97, 97, 97] [97, 97] = .ok [[], [97]] := by decide +kernel

/-- **C13** at a single character: the pieces have no separator, and joined they give
the string back except for one separator at its end. -/
theorem splitChar_join_partial (s : Bytes) (ch : UInt8) :
    (∀ p ∈ splitChar ch s, ch ∉ p) ∧
      s = join [ch] (splitChar ch s) ++ (if s.getLast? = some ch then [ch] else []) :=
  splitChar_spec ch s

/-- **C13**, the pieces of `split_keep_separator`: concatenated they are the string, each
is a run of one separator or has none, and they are as long as possible. -/
theorem splitKeep_concat (s : Bytes) (sep : UInt8 → Bool) :
    (splitKeepSeparator s sep).flatten = s ∧ (∀ p ∈ splitKeepSeparator s sep, KeptPiece sep p) ∧
      (splitKeepSeparator s sep).IsChain (Apart sep) :=
  ⟨splitKeep_flatten sep [] s, splitKeep_pieces sep [] s (by simp), splitKeep_chain sep [] s (by simp)⟩

example : splitKeepSeparator [97, 32, 32, 98] (· == 32) = [[97], [32, 32], [98]] := by decide +kernel

/-- The full claim for `split`: for every delimiter it returns, and joining gives the
string back. -/
def SplitJoinStatement : Prop :=
  (∀ value delim, ∃ fuel ps, splitStr fuel value delim = .ok ps ∧ join delim ps = value) ∧
  ∀ (ch : UInt8) s, join [ch] (splitChar ch s) = s

/-- Splitting any string at the empty string never returns. -/
theorem splitStr_empty_diverges (value : Bytes) (fuel : Nat) : splitStr fuel value [] = .error .diverges :=
  splitStrLoop_diverges value fuel 0 [] (by omega)

/-- Splitting `a,` at `,` loses the separator. -/
theorem splitChar_drops_last : join [44] (splitChar 44 [97, 44]) = [97] := by decide +kernel

theorem split_join_false : ¬ SplitJoinStatement := by
  rintro ⟨h, -⟩
  obtain ⟨fuel, ps, h1, -⟩ := h [97] []
  rw [splitStr_empty_diverges] at h1
  cases h1

/-! ## C39 -/

/-- **C39**, `replace_all`: it always returns; an empty pattern leaves the string as it
is; otherwise the string is cut at the leftmost occurrences from left to right and joined
with the replacement. -/
theorem replaceAll_spec (s pat to' : Bytes) :
    ∃ r, (∀ fuel, s.length < fuel → replaceAll fuel s pat to' = .ok r) ∧
      (pat = [] → r = s) ∧ (pat ≠ [] → ∃ ps, Pieces pat s ps ∧ join pat ps = s ∧ r = join to' ps) := by
  by_cases hp : pat = []
  · exact ⟨s, fun fuel _ => by unfold replaceAll; rw [if_pos hp], fun _ => rfl, fun h => absurd hp h⟩
  · obtain ⟨ps, h1, h2⟩ := replaceLoop_spec pat to' hp (s.length + 1) [] s (by omega)
    refine ⟨join to' ps, ?_, fun h => absurd h hp, fun _ => ⟨ps, h1, h1.join, rfl⟩⟩
    intro fuel hf
    unfold replaceAll
    rw [if_neg hp]
    exact h2 fuel (by omega)

/-- A string without an occurrence is unchanged. -/
theorem replaceAll_unchanged (s pat to' : Bytes) (h : ¬ pat <:+: s) (fuel : Nat) (hf : s.length < fuel) :
    replaceAll fuel s pat to' = .ok s := by
  obtain ⟨r, h1, h2, h3⟩ := replaceAll_spec s pat to'
  rw [h1 fuel hf]
  by_cases hp : pat = []
  · rw [h2 hp]
  · obtain ⟨ps, h4, -, rfl⟩ := h3 hp
    rw [h4.unique (.last h)]
    rfl

/-- `aaa` with `aa` replaced by `b`. -/
example : replaceAll 4 [97, 97, 97] [97, 97] [98] = .ok [98, 97] := by decide +kernel
/-- The replacement is not searched again. -/
example : replaceAll 4 [97, 97, 97] [97] [97, 97] = .ok [97, 97, 97, 97, 97, 97] := by decide +kernel

/-- **C39**, `Str::replaceAll` with a pattern that is not empty. -/
theorem strReplaceAll_partial (s pat to' : Bytes) (hp : pat ≠ []) :
    ∃ ps, Pieces pat s ps ∧ join pat ps = s ∧
      ∀ fuel, s.length < fuel → Str.replaceAll fuel s pat to' = .ok (join to' ps) := by
  obtain ⟨ps, h1, h2⟩ := replaceLoop_spec pat to' hp (s.length + 1) [] s (by omega)
  exact ⟨ps, h1, h1.join, fun fuel hf => h2 fuel (by omega)⟩

/-- The full claim: `Str::replaceAll` always returns. -/
def StrReplaceAllStatement : Prop := ∀ s pat to', ∃ fuel r, Str.replaceAll fuel s pat to' = .ok r

/-- With an empty pattern it never returns, whatever the string. -/
theorem strReplaceAll_empty_diverges (s to' : Bytes) (fuel : Nat) :
    Str.replaceAll fuel s [] to' = .error .diverges := replaceLoop_diverges to' fuel 0 s (by omega)

theorem strReplaceAll_false : ¬ StrReplaceAllStatement := by
  intro h
  obtain ⟨fuel, r, h1⟩ := h [] [] []
  rw [strReplaceAll_empty_diverges] at h1
  cases h1

/-! ## C46 -/

/-- **C46.** `strip` removes leading characters from the front and trailing characters
from the back, nothing else, and as many as there are. -/
theorem strip_exact (s : Bytes) (leading trailing : UInt8 → Bool) :
    ∃ a b, s = a ++ strip s leading trailing ++ b ∧ (∀ c ∈ a, leading c = true) ∧ (∀ c ∈ b, trailing c = true) ∧
      (∀ c, (strip s leading trailing ++ b).head? = some c → leading c = false) ∧
      (∀ c, (strip s leading trailing).getLast? = some c → trailing c = false) :=
  strip_spec s leading trailing

example : strip [32, 97, 32, 98, 46] (· == 32) (· == 46) = [97, 32, 98] := by decide +kernel
example : strip [32, 32] (· == 32) (· == 32) = [] := by decide +kernel

/-! ## C47 -/

/-- The full claim for padding on the right. -/
def LeftAlignedStatement : Prop := ∀ (s : Bytes) (n : Int) (c : UInt8), c ≤ 127 →
  (runeLength (leftAligned s n c) : Int) = max n (runeLength s)

/-- **C47**, `right_aligned`: exactly padding in front, up to the requested number of code
points, for every byte string. -/
theorem rightAligned_width (s : Bytes) (n : Int) (c : UInt8) (hc : c ≤ 127) :
    (∃ k, rightAligned s n c = List.replicate k c ++ s) ∧
      (runeLength (rightAligned s n c) : Int) = max n (runeLength s) := by
  unfold rightAligned
  split
  · refine ⟨⟨_, by rw [repeated_eq]⟩, ?_⟩
    rw [repeated_eq, runeLength_replicate hc]
    push_cast
    omega
  · refine ⟨⟨0, rfl⟩, ?_⟩
    omega

/-- **C47**, `left_aligned` for well-formed text. -/
theorem leftAligned_width_partial (cs : List Char) (n : Int) (c : UInt8) (hc : c ≤ 127) :
    (∃ k, leftAligned (encode cs) n c = encode cs ++ List.replicate k c) ∧
      (runeLength (leftAligned (encode cs) n c) : Int) = max n cs.length := by
  have hl := (chunks_of_text cs).2
  unfold leftAligned
  rw [hl]
  split
  · refine ⟨⟨_, by rw [repeated_eq]⟩, ?_⟩
    have := runeLength_replicate hc (n - cs.length).toNat []
    rw [List.append_nil] at this
    rw [repeated_eq, runeLength_append_encode, this, runeLength]
    push_cast
    omega
  · refine ⟨⟨0, by simp⟩, ?_⟩
    rw [hl]
    omega

/-- The padding after a truncated sequence is swallowed by it. -/
theorem leftAligned_false : ¬ LeftAlignedStatement := by
  intro h
  have := h [0xC3] 3 32 (by decide)
  revert this
  decide +kernel

example : leftAligned (encode ['é']) 3 32 = [0xC3, 0xA9, 32, 32] := by decide +kernel

/-! ## C48 -/

/-- The full claim: lines are made of the words in order; several words are put on a line
only if they fit; justified lines fill the width; and a word goes to a new line only if it
does not fit on the line before it (a line of words `g` with single spaces is
`total g + g.length - 1` wide). -/
def WrapStatement : Prop :=
  ∀ (words : List Bytes) (maxWidth : Int) (justified : Bool),
    ∃ gs lines, wrapLines words maxWidth justified = .ok lines ∧ gs.flatten = words ∧
      List.Forall₂ (LineOf justified maxWidth) gs lines ∧
      gs.IsChain (fun g1 g2 => ∀ w, g2.head? = some w → maxWidth < (total g1 + g1.length + w.length : Nat))

/-- **C48.** All of it, except that lines may be broken one column early. -/
theorem wrap_partial (words : List Bytes) (maxWidth : Int) (justified : Bool) :
    ∃ gs lines, wrapText words maxWidth justified = .ok (join [10] lines) ∧ gs.flatten = words ∧
      List.Forall₂ (LineOf justified maxWidth) gs lines ∧
      gs.IsChain (fun g1 g2 => ∀ w, g2.head? = some w → maxWidth < (total g1 + g1.length + w.length : Nat) + 1) := by
  obtain ⟨gs, lines, h1, h2, h3, h4⟩ := wrapLines_spec words maxWidth justified
  refine ⟨gs, lines, by unfold wrapText; rw [h1]; rfl, h2, h3, h4.imp ?_⟩
  intro g1 g2 h w hw
  have := h w hw
  push_cast
  omega

/-- `a b` is broken at width 3. -/
theorem wrap_early : wrapLines [[97], [98]] 3 false = .ok [[97], [98]] := by decide +kernel

theorem wrap_false : ¬ WrapStatement := by
  intro h
  obtain ⟨gs, lines, h1, h2, h3, h4⟩ := h [[97], [98]] 3 false
  rw [wrap_early] at h1
  injection h1 with h1
  subst h1
  cases h3 with
  | @cons g1 l1 gs' ls' ha hrest =>
    cases hrest with
    | @cons g2 l2 gs'' ls'' hb hrest =>
      cases hrest
      have e1 : g1 ≠ [] := ha.1
      have e2 : g2 ≠ [] := hb.1
      obtain ⟨x, xs, rfl⟩ := List.exists_cons_of_ne_nil e1
      obtain ⟨y, ys, rfl⟩ := List.exists_cons_of_ne_nil e2
      simp only [List.flatten_cons, List.flatten_nil, List.append_nil, List.cons_append] at h2
      have hx : xs = [] := by
        cases xs with
        | nil => rfl
        | cons z zs =>
          have := congrArg List.length h2
          simp at this
      subst hx
      simp at h2
      obtain ⟨rfl, rfl, rfl⟩ := h2
      have := (List.isChain_cons_cons.1 h4).1 _ rfl
      simp [total] at this

example : wrapLines [[97], [98], [99, 99, 99], [100]] 6 true = .ok
    [[97, 32, 32, 32, 32, 98], [99, 99, 99, 32, 32, 100]] := by decide +kernel

/-! ## C49 -/

/-- **C49.** The formatted number is the prefix of its base followed by digits in groups
of four separated by `'`; leaving the `'` out gives at least `padTo` digits that read as
the number. -/
theorem formatInteger_reads_back (v : Nat) (fmt : Fmt) (padTo : Int) :
    ∃ body, formatInteger v fmt padTo = fmt.pref ++ body ∧
      readDigits fmt.base (body.filter (· ≠ 39)) = v ∧ padTo ≤ (body.filter (· ≠ 39)).length ∧
      ((fmt = .dec ∧ 39 ∉ body) ∨ (fmt ≠ .dec ∧ Grouped 0 (body.filter (· ≠ 39)).reverse body.reverse)) := by
  obtain ⟨hb1, hb2⟩ := fmt.base_le
  have hq := pad_no_quote hb2 v padTo
  have hread : readDigits fmt.base (padZeros (rawDigits fmt.base v) padTo) = v := by
    rw [readDigits_pad, readDigits_raw hb1 hb2]
  unfold formatInteger
  dsimp only
  generalize hraw : padZeros (rawDigits fmt.base v) padTo = raw at *
  have hlen : padTo ≤ raw.length := by rw [← hraw]; exact (padZeros_length _ _).1
  have hfr : raw.filter (· ≠ 39) = raw := by
    rw [List.filter_eq_self]
    intro d hd
    simpa using hq d hd
  split
  · rename_i hd
    refine ⟨raw, by rw [hd]; rfl, ?_, ?_, Or.inl ⟨hd, ?_⟩⟩
    · rw [hfr]; exact hread
    · rw [hfr]; exact hlen
    · intro h; exact hq 39 h rfl
  · rename_i hd
    have hg := filter_group 0 raw.reverse [] (fun d hd => hq d (List.mem_reverse.1 hd))
    rw [List.reverse_reverse, List.filter_nil, List.append_nil] at hg
    obtain ⟨s, h1, h2⟩ := grouped_spec 0 raw.reverse []
    refine ⟨_, rfl, by rw [hg]; exact hread, by rw [hg]; exact hlen, Or.inr ⟨hd, ?_⟩⟩
    rw [hg, h1, List.append_nil, List.reverse_reverse]
    exact h2

example : formatInteger 255 .bin 9 = [48, 98, 48, 39, 49, 49, 49, 49, 39, 49, 49, 49, 49] := by decide +kernel

/-! ## C50 -/

/-- The full claim: the escaped form has no raw tab or newline, and different strings have
different escaped forms. -/
def EscapeStatement : Prop :=
  (∀ s quote, 9 ∉ escapeForWrite s quote ∧ 10 ∉ escapeForWrite s quote) ∧
  ∀ a b quote, escapeForWrite a quote = escapeForWrite b quote → a = b

/-- **C50** for strings without a backslash. -/
theorem escape_partial (quote : Bool) :
    (∀ s, 9 ∉ escapeForWrite s quote ∧ 10 ∉ escapeForWrite s quote) ∧
    ∀ a b, 92 ∉ a → 92 ∉ b → escapeForWrite a quote = escapeForWrite b quote → a = b := by
  refine ⟨fun s => escape_no_control s quote, ?_⟩
  intro a b ha hb h
  unfold escapeForWrite at h
  rw [List.append_assoc, List.append_assoc] at h
  exact escape_inj_body quote a b ha hb (List.append_cancel_right (List.append_cancel_left h))

/-- A newline and a backslash followed by `n` are written alike: the backslash is not
escaped. -/
theorem escape_false : ¬ EscapeStatement := by
  rintro ⟨-, h⟩
  have := h [10] [92, 110] false (by decide)
  revert this
  decide

example : escapeForWrite [97, 10, 34] true = [34, 97, 92, 110, 92, 34, 34] := by decide

/-- `normalize` applied twice is `normalize`. -/
theorem normalize_idempotent (s : Bytes) : normalize (normalize s) = normalize s := normalize_idem s

end Verif.Strs
