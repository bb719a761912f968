import Verif.BaseLexer.StepLemmas

namespace Verif.BaseLexer
open Verif.Token

/-! ## Words -/

theorem post_plainWord {T : List Char} {s : St} {x : Char} {r : List Char} (hr : s.cur.rest = x :: r)
    (hx : isAlnum x = true) : Post T 1 s (plainWord s) := Post.token (moves_advWord1 hr hx)

theorem post_httpLink {T : List Char} {s : St} (hr : s.cur.rest ≠ []) : Post T 1 s (httpLink s) := by
  refine Post.bind (m := 1) (n := 0) (Post.token ?_) (fun _ _ => Post.token (moves_advWhile _ _))
  dsimp only
  refine Moves.trans (m := 1) (n := 0)
    (moves_count (n := 4) (by omega) (List.length_pos_iff.mpr hr)) ?_
  split
  · exact moves_next _
  · exact Moves.refl _

theorem post_lexInlineSrc {T : List Char} {s : St} : Post T 0 s (lexInlineSrc s) :=
  Post.bind (m := 0) (n := 0) Post.adv0 fun _ _ =>
    Post.bind (m := 0) (n := 0) (Post.token (moves_advCurlyGo _ _ _)) fun _ _ => Post.adv0

theorem Sane.pos {lex : Lexy} (h : Sane lex) {p : Pat} {r : List Char} {n : Nat}
    (hp : lex p r = some n) : 1 ≤ n := by
  have := (h.bound p r n hp).1
  cases p <;> simp [Pat.min] at this <;> omega

theorem post_wordS {T : List Char} {lex : Lexy} (hlex : Sane lex) {s : St} {x : Char} {r : List Char}
    (hr : s.cur.rest = x :: r) (hx : isAlnum x = true) : Post T 1 s (wordS lex s) := by
  have hne : s.cur.rest ≠ [] := by simp [hr]
  unfold wordS
  split
  · exact Post.adv1 (by omega) hne
  · split
    · rename_i h
      exact Post.bind (m := 1) (n := 0) (Post.adv1 (hlex.pos h) hne) (fun _ _ => post_lexInlineSrc)
    · exact post_plainWord hr hx

theorem not_plain_of_isIat_error {T r w : List Char} {e : Err} (hs : r <:+ T) (hr : r ≠ [])
    (hw : ∀ c ∈ w, toLower c ≠ '\n') (h : isIat r w = .error e) :
    e ≠ .fuel ∧ (EndsWithNewline T → e ≠ .diverges) ∧ ¬ Plain T := by
  have he := isIat_error h
  subst he
  refine ⟨by decide, fun _ => by decide, fun hT => ?_⟩
  obtain ⟨b, hb⟩ := isIat_ok ((hT.nl.suffix hs).mem hr) hw
  rw [hb] at h
  cases h

theorem Post.bindB {T : List Char} {m : Nat} {s : St} {b : Except Err Bool}
    {g : Bool → Except Err St}
    (hb : ∀ e, b = .error e → e ≠ .fuel ∧ (EndsWithNewline T → e ≠ .diverges) ∧ ¬ Plain T)
    (hg : ∀ x, b = .ok x → Post T m s (g x)) : Post T m s (b >>= g) := by
  cases b with
  | error e =>
    have := hb e rfl
    exact Post.error this.1 this.2.1 this.2.2
  | ok x => exact hg x rfl

theorem isIat_cons {x y : Char} {r w : List Char} (h : isIat (x :: r) (y :: w) = .ok true) :
    toLower x = toLower y := by
  rw [isIat] at h
  split at h
  · cases h
  · rename_i h'; simpa using h'

theorem post_wordH {T : List Char} {s : St} {x : Char} {r : List Char} (hs : s.cur.rest <:+ T)
    (hr : s.cur.rest = x :: r) (hx : isAlnum x = true) : Post T 1 s (wordH s) := by
  have hne : s.cur.rest ≠ [] := by simp [hr]
  unfold wordH
  refine Post.bindB (fun e he => not_plain_of_isIat_error hs hne (by decide) he) (fun b _ => ?_)
  split
  · exact post_httpLink hne
  · exact post_plainWord hr hx

theorem post_switchWord {T : List Char} {lex : Lexy} (hlex : Sane lex) {s : St} {x : Char}
    {r : List Char} (hs : s.cur.rest <:+ T) (hr : s.cur.rest = x :: r) (hx : isAlnum x = true) :
    Post T 1 s (switchWord lex s) := by
  have hne : s.cur.rest ≠ [] := by simp [hr]
  unfold switchWord
  split
  · rename_i h; exact absurd h hne
  · rename_i ch _ hr'
    repeat' split
    · exact post_wordH hs hr hx
    · exact post_wordS hlex hr hx
    · exact Post.adv1 (by omega) hne
    · exact Post.adv1 (by omega) hne
    · exact post_plainWord hr hx

/-! ## Start of a line -/

theorem isAt_lt {r : List Char} {ch : Char} {off : Nat} (h : isAt r ch off = true) :
    off < r.length := by
  simp [isAt] at h
  exact (List.getElem?_eq_some_iff.mp h).1

theorem post_leadingSpace {T : List Char} {s : St} {n : Nat} : Post T 0 s (leadingSpace n s) := by
  unfold leadingSpace
  split
  · exact Post.adv0
  · exact Post.ok s

theorem spaces_le (r : List Char) : spaces r ≤ r.length :=
  (List.takeWhile_sublist _).length_le

theorem propertySubname_le (lex : Lexy) (r : List Char) (n : Nat) :
    n ≤ propertySubname lex r n := by
  unfold propertySubname
  split <;> omega

theorem tableSepGo_pos (n : Nat) (r : List Char) (pos cols : Nat) :
    (cols = 0 ∨ 1 ≤ pos) → (tableSepGo n r pos cols).2 = 0 ∨ 1 ≤ (tableSepGo n r pos cols).1 := by
  induction n generalizing pos cols with
  | zero => intro h; simpa [tableSepGo] using h
  | succ n ih =>
    intro h
    rw [tableSepGo]
    split
    · exact h
    · dsimp only
      split
      · exact ih _ _ (by omega)
      · dsimp only; omega

theorem tableSep_pos {r : List Char} {skip n : Nat} (h : tableSep r skip = some n) : 1 ≤ n := by
  unfold tableSep at h
  dsimp only at h
  have := tableSepGo_pos r.length r (if isAt r '|' skip = true then skip + 1 else skip) 0 (Or.inl rfl)
  generalize (if isAt r '|' skip = true then skip + 1 else skip) = p at h this
  split at h
  · cases h; omega
  · cases h

/-- What a line start moves over is never nothing. -/
def LineStart.Pos : LineStart → Prop
  | .adv _ n | .clock n | .argProp n | .textProp n | .litProp n => 1 ≤ n
  | _ => True

/-- The kinds at the start of a line. -/
theorem lineStart_kind (lex : Lexy) (r : List Char) (skip : Nat) {k : TK} {n : Nat}
    (h : lineStart lex r skip = .adv k n) : k ∉ laterKinds := by
  unfold lineStart at h
  repeat' split at h
  all_goals first
    | (cases h; decide)
    | cases h

theorem lineStart_pos {lex : Lexy} (hlex : Sane lex) (r : List Char) (skip : Nat) :
    (lineStart lex r skip).Pos := by
  unfold lineStart
  split; · simp [LineStart.Pos]
  split; · simp [LineStart.Pos]
  split; · simp [LineStart.Pos]
  split
  · rename_i h; have := tableSep_pos h; simp only [LineStart.Pos]; omega
  split
  · rename_i h; have := hlex.pos h; simp only [LineStart.Pos]; omega
  split
  · rename_i h; have := hlex.pos h; simp only [LineStart.Pos]; omega
  split
  · rename_i h; have := hlex.pos h; simp only [LineStart.Pos]; omega
  split
  · rename_i h; have := (hlex.bound _ _ _ h).1; simp only [LineStart.Pos, Pat.min] at *; omega
  split
  · rename_i h; have := hlex.pos h; simp only [LineStart.Pos]; omega
  split
  · rename_i n h
    have := hlex.pos h
    have := propertySubname_le lex r (n + skip)
    simp only [LineStart.Pos]; omega
  split
  · rename_i n h
    have := hlex.pos h
    have := propertySubname_le lex r (n + skip)
    simp only [LineStart.Pos]; omega
  split
  · rename_i n h
    have := hlex.pos h
    have := propertySubname_le lex r (n + skip)
    simp only [LineStart.Pos]; omega
  repeat' split
  all_goals simp [LineStart.Pos]

theorem isPrefixOf_hash {r : List Char} (h : "#+".toList.isPrefixOf r = true) :
    ∃ r', r = '#' :: '+' :: r' := by
  rw [List.isPrefixOf_iff_prefix] at h
  obtain ⟨t, rfl⟩ := h
  exact ⟨t, rfl⟩

theorem lineStart_command {lex : Lexy} {r : List Char} {skip : Nat}
    (h : lineStart lex r skip = .command) : ∃ r', r.drop skip = '#' :: '+' :: r' := by
  unfold lineStart at h
  repeat' (split at h)
  all_goals first
    | (cases h; done)
    | (rename_i hc _; exact isPrefixOf_hash hc)
    | (rename_i hc; exact isPrefixOf_hash hc)

theorem lineStart_example {lex : Lexy} {r : List Char} {skip : Nat}
    (h : lineStart lex r skip = .example) : skip < r.length := by
  unfold lineStart at h
  repeat' (split at h)
  all_goals first
    | (cases h; done)
    | (rename_i hc
       simp only [checkLeading, Bool.and_eq_true] at hc
       exact isAt_lt hc.1)

theorem lineStart_space {lex : Lexy} {r : List Char} {skip : Nat}
    (h : lineStart lex r skip = .space) : 0 < skip := by
  unfold lineStart at h
  repeat' (split at h)
  all_goals first
    | (cases h; done)
    | assumption

theorem adv_rest_drop {c : Cur} {n : Nat} (h : n ≤ c.rest.length) : (c.adv n).rest = c.rest.drop n := by
  have := adv_count n c
  rw [Nat.min_eq_left h] at this
  exact this.1

theorem post_exampleLine {T : List Char} {s : St} {skip : Nat} (h : skip < s.cur.rest.length) :
    Post T 1 s (exampleLine skip s) := by
  unfold exampleLine leadingSpace
  split
  · refine Post.bind (m := 1) (n := 0) (Post.adv (by omega) (by omega)) (fun _ _ => Post.adv0)
  · exact Post.adv1 (by omega) (List.length_pos_iff.mp (by omega))

theorem post_lineThen {T : List Char} {s : St} {k : TK} {n : Nat} {g : St → Except Err St}
    (hne : s.cur.rest ≠ []) (hn : 1 ≤ n)
    (hg : ∀ s', Step 1 s s' → Post T 0 s' (g s')) (hk : k ∉ laterKinds := by decide) :
    Post T 1 s (tokenAdv k n s >>= g) :=
  Post.bind (m := 1) (n := 0) (Post.adv1 hn hne hk) hg

theorem post_selfLoop {T : List Char} {L : Nat} {self : St → Except Err St} {stuck : Err} {s : St}
    (hself : SelfOk T L self) (hs : s.cur.rest <:+ T) (hL : s.cur.rest.length < L) :
    Post T 0 s (lineLoop stuck self s) :=
  post_lineLoop (L := s.cur.rest.length)
    (fun s' h hl hin => hself s' h (by omega) (inLine_ne_nil hin)) hs (Nat.le_refl _)

theorem post_headArgs' {T : List Char} {stuck : Err} {s : St} (hs : s.cur.rest <:+ T) :
    Post T 0 s (lineLoop stuck cmdArgument s) :=
  post_lineLoop (L := s.cur.rest.length) (fun _ h _ hl => post_cmdArgument h hl) hs (Nat.le_refl _)

theorem post_commandLine {T : List Char} {L : Nat} {lex : Lexy} {self : St → Except Err St} {s : St}
    {skip : Nat} {r : List Char} (hself : SelfOk T L self) (hs : s.cur.rest <:+ T)
    (hr : s.cur.rest.drop skip = '#' :: '+' :: r) (hL : s.cur.rest.length ≤ L) :
    Post T 1 s (commandLine lex self skip s) := by
  unfold commandLine leadingSpace
  have hlen : skip ≤ s.cur.rest.length := by
    refine Nat.le_of_not_lt fun h => ?_
    rw [List.drop_eq_nil_of_le (by omega)] at hr
    cases hr
  split
  · have h1 : Step 0 s ⟨s.cur.adv skip, s.out ++ [⟨.LeadingSpace,
        s.cur.rest.take ((s.cur.adv skip).pos - s.cur.pos), some s.cur.pos⟩]⟩ :=
      (Post.adv0 (T := T) (k := .LeadingSpace) (n := skip)).1 _ rfl
    have hl := h1.length
    have h2 := post_switchCommand (lex := lex) (s := ⟨s.cur.adv skip, s.out ++ [⟨.LeadingSpace,
        s.cur.rest.take ((s.cur.adv skip).pos - s.cur.pos), some s.cur.pos⟩]⟩) (r := r)
      hself (h1.suffixT hs) (by simpa [adv_rest_drop hlen] using hr) (by omega)
    exact ⟨fun s' h' => (h1.trans (h2.1 s' h')).mono (by omega), h2.2⟩
  · have h0 : skip = 0 := by omega
    subst h0
    exact (post_switchCommand hself hs (by simpa using hr) hL).mono (by omega)

/-! ## Characters inside a line -/

theorem post_timeRepeater {T : List Char} {s : St} {x : Char} {r : List Char}
    (hr : s.cur.rest = x :: r) (hx : x = '+' ∨ x = '.') : Post T 1 s (timeRepeater s) := by
  have hne : s.cur.rest ≠ [] := by simp [hr]
  refine Post.bind (m := 1) (n := 0) (Post.token ?_)
    (fun _ _ => Post.token (moves_advDurationGo _ _))
  dsimp only
  rcases hx with rfl | rfl
  · rw [if_neg (by simp [isAt, hr])]
    exact moves_advChar1' hr
  · rw [if_pos (by simp [isAt, hr])]
    exact Moves.trans (m := 1) (n := 0) (moves_next1 hne) (moves_advChar1 _ _)

theorem post_caseStar {T : List Char} {lex : Lexy} {s : St} {r : List Char}
    (hr : s.cur.rest = '*' :: r) : Post T 1 s (caseStar lex s) := by
  unfold caseStar
  split
  · exact Post.token (moves_advChar1' hr)
  · exact Post.adv1 (by omega) (by simp [hr])

theorem post_casePlus {T : List Char} {lex : Lexy} {s : St} {r : List Char}
    (hr : s.cur.rest = '+' :: r) : Post T 1 s (casePlus lex s) := by
  have hne : s.cur.rest ≠ [] := by simp [hr]
  unfold casePlus
  repeat' split
  · exact Post.adv1 (by omega) hne
  · exact post_timeRepeater hr (Or.inl rfl)
  · exact Post.adv1 (by omega) hne

theorem post_casePipe {T : List Char} {s : St} (hne : s.cur.rest ≠ []) : Post T 1 s (casePipe s) := by
  unfold casePipe
  split <;> exact Post.adv1 (by omega) hne

theorem post_caseBraceEnd {T : List Char} {s : St} (hne : s.cur.rest ≠ []) :
    Post T 1 s (caseBraceEnd s) := by
  unfold caseBraceEnd
  repeat' split
  all_goals exact Post.adv1 (by omega) hne

theorem next_rest {c : Cur} {x : Char} {r : List Char} (h : c.rest = x :: r) :
    c.next.rest = r := by simp [Cur.next, h]

theorem skip_cons {ch : Char} {c : Cur} {r : List Char} (h : c.rest = ch :: r) :
    c.skip ch = .ok c.next := by simp [Cur.skip, h]

theorem post_skipWord {T : List Char} {s : St} {k : TK} {ch : Char} {r : List Char}
    (hr : s.cur.rest = ch :: r) (hk : k ∉ laterKinds := by decide) :
    Post T 1 s (tokenCb k (fun c => do pure (advWord (← c.skip ch))) s) := by
  apply Post.tokenCb (hk := hk)
  · intro c' hc
    simp only [skip_cons hr, bind, Except.bind, pure, Except.pure] at hc
    cases hc
    exact Moves.trans (m := 1) (n := 0) (moves_next1 (by simp [hr])) (moves_advWord _)
  · intro e he
    simp only [skip_cons hr, bind, Except.bind, pure, Except.pure] at he
    cases he

theorem post_caseBackslash {T : List Char} {s : St} {r : List Char} (hr : s.cur.rest = '\\' :: r) :
    Post T 1 s (caseBackslash s) := by
  have hne : s.cur.rest ≠ [] := by simp [hr]
  unfold caseBackslash
  repeat' split
  · exact post_skipWord hr
  · exact Post.adv1 (by omega) hne
  · exact Post.adv1 (by omega) hne

theorem post_untilLinkEnd {T : List Char} {lex : Lexy} {k : TK} {s : St} (hT : ¬ Plain T)
    (hk : k ∉ laterKinds := by decide) : Post T 0 s (untilLinkEnd lex k s) := by
  unfold untilLinkEnd
  split
  · exact Post.adv0 hk
  · exact Post.error (by decide) (fun _ => by decide) hT

theorem post_protocolOrInternal {T : List Char} {s : St} : Post T 0 s (protocolOrInternal s) := by
  unfold protocolOrInternal
  dsimp only
  split <;> exact Post.adv0

theorem post_protocolTarget {T : List Char} {lex : Lexy} {k : TK} {f : Cur → Cur} {s : St}
    (hf : Moves 0 s.cur (f s.cur)) (hT : ¬ Plain T) (hk : k ∉ laterKinds := by decide) :
    Post T 0 s (protocolTarget lex k f s) :=
  Post.bind (m := 0) (n := 0) (Post.token hf hk) (fun _ _ => post_untilLinkEnd hT)

theorem iat_error_of_not_plain {T r w : List Char} (hT : ¬ Plain T) (e : Err)
    (h : isIat r w = .error e) :
    e ≠ .fuel ∧ (EndsWithNewline T → e ≠ .diverges) ∧ ¬ Plain T := by
  have := isIat_error h
  subst this
  exact ⟨by decide, fun _ => by decide, hT⟩

theorem alnum_of_toLower_h {x : Char} (h : toLower x = 'h') : isAlnum x = true := by
  unfold toLower at h
  split at h
  · rename_i hu; simp [isAlnum, isAlpha, hu]
  · subst h; decide

theorem post_linkProtocolBody {T : List Char} {lex : Lexy} (hlex : Sane lex) {s : St}
    (hs : s.cur.rest <:+ T) (hT : ¬ Plain T) : Post T 0 s (linkProtocolBody lex s) := by
  unfold linkProtocolBody
  dsimp only
  refine Post.bindB (iat_error_of_not_plain hT) (fun b hb => ?_)
  split
  · rename_i hb'
    subst hb'
    cases hr : s.cur.rest with
    | nil => rw [hr] at hb; exact absurd hb (by simp [isIat])
    | cons x r =>
      rw [hr] at hb
      have := isIat_cons (y := 'h') (w := "ttp".toList) hb
      exact (post_switchWord hlex hs hr (alnum_of_toLower_h this)).mono (by omega)
  · refine Post.bindB (iat_error_of_not_plain hT) (fun b hb => ?_)
    split
    · exact post_protocolTarget (moves_count0 _ _) hT
    · refine Post.bindB (iat_error_of_not_plain hT) (fun b hb => ?_)
      split
      · exact post_protocolTarget (moves_advIdent _) hT
      · refine Post.bindB (iat_error_of_not_plain hT) (fun b hb => ?_)
        split
        · exact post_protocolTarget (moves_advIdent _) hT
        · exact post_protocolOrInternal

theorem post_linkContinuedBody {T : List Char} {lex : Lexy} {s : St} (hT : ¬ Plain T) :
    Post T 0 s (linkContinuedBody lex s) := by
  unfold linkContinuedBody
  split
  · exact Post.error (by decide) (fun _ => by decide) hT
  · repeat' split
    · exact post_untilLinkEnd hT
    · exact post_protocolTarget (moves_count0 _ _) hT
    · exact post_untilLinkEnd hT
    · exact post_untilLinkEnd hT
    · exact post_protocolOrInternal

theorem not_plain_of_link {T r : List Char} (hs : r <:+ T) (h : "[[".toList <+: r) : ¬ Plain T :=
  fun hT => hT.noLink (h.isInfix.trans hs.isInfix)

theorem post_caseBraceBegin {T : List Char} {lex : Lexy} (hlex : Sane lex) {s : St}
    (hs : s.cur.rest <:+ T) (hne : s.cur.rest ≠ []) : Post T 1 s (caseBraceBegin lex s) := by
  unfold caseBraceBegin
  dsimp only
  split
  · rename_i h; exact Post.adv1 (hlex.pos h) hne
  split
  · rename_i h; exact Post.adv1 (hlex.pos h) hne
  split
  · exact Post.adv1 (by omega) hne
  split
  · rename_i h; exact Post.adv1 (hlex.pos h) hne
  split
  · rename_i h; exact Post.adv1 (hlex.pos h) hne
  split
  · rename_i h; exact Post.adv1 (hlex.pos h) hne
  split
  · rename_i h; exact Post.adv1 (hlex.pos h) hne
  split
  · rename_i h
    have hT := not_plain_of_link hs (hlex.link _ _ _ (Or.inl rfl) h)
    exact post_lineThen hne (by omega) (fun s' h' => post_linkProtocolBody hlex (h'.suffixT hs) hT)
  split
  · rename_i h
    have hT := not_plain_of_link hs (hlex.link _ _ _ (Or.inr rfl) h)
    exact post_lineThen hne (by omega) (fun s' h' => post_linkContinuedBody hT)
  · exact Post.adv1 (by omega) hne

theorem post_caseColon {T : List Char} {s : St} (hne : s.cur.rest ≠ []) : Post T 1 s (caseColon s) := by
  unfold caseColon
  split <;> exact Post.adv1 (by omega) hne

theorem post_caseGt {T : List Char} {s : St} (hne : s.cur.rest ≠ []) : Post T 1 s (caseGt s) := by
  unfold caseGt
  repeat' split
  all_goals exact Post.adv1 (by omega) hne

theorem post_caseDot {T : List Char} {lex : Lexy} {s : St} {r : List Char}
    (hr : s.cur.rest = '.' :: r) : Post T 1 s (caseDot lex s) := by
  unfold caseDot
  split
  · exact post_timeRepeater hr (Or.inr rfl)
  · exact Post.adv1 (by omega) (by simp [hr])

theorem post_caseLt {T : List Char} {lex : Lexy} (hlex : Sane lex) {s : St}
    (hne : s.cur.rest ≠ []) : Post T 1 s (caseLt lex s) := by
  unfold caseLt
  dsimp only
  repeat' split
  all_goals first
    | exact Post.adv1 (by omega) hne
    | (rename_i h; exact Post.adv1 (hlex.pos h) hne)

theorem post_caseHash {T : List Char} {s : St} {r : List Char} (hr : s.cur.rest = '#' :: r) :
    Post T 1 s (caseHash s) := by
  have hne : s.cur.rest ≠ [] := by simp [hr]
  unfold caseHash
  repeat' split
  · exact Post.adv1 (by omega) hne
  · refine Post.token (moves_advWhile1 hne ?_)
    simp [hr, isAt]
  · exact post_skipWord hr
  · exact Post.adv1 (by omega) hne

/-! ### Inline export -/

theorem advWhileGo_append (p : Char → Bool) (w : List Char) (y : Char) (t : List Char) (c : Cur)
    (hw : ∀ x ∈ w, p x = true) (hy : p y = false) (hr : c.rest = w ++ y :: t) :
    (Cur.advWhileGo (fun r => isAtAny r p) (w ++ y :: t) c).rest = y :: t := by
  induction w generalizing c with
  | nil =>
    simp only [List.nil_append, Cur.advWhileGo]
    rw [if_neg (by simp [isAtAny, hy])]
    simpa using hr
  | cons x w ih =>
    simp only [List.cons_append, Cur.advWhileGo]
    rw [if_pos (by simp [isAtAny, hw x (by simp)])]
    exact ih c.next (fun z hz => hw z (by simp [hz])) (by simp [Cur.next, hr])

theorem post_inlineExport {T : List Char} {s : St} {w body tail : List Char}
    (hr : s.cur.rest = "@@".toList ++ w ++ ':' :: body ++ "@@".toList ++ tail)
    (hw : ∀ c ∈ w, (isAlnum c || c = '_') = true) : Post T 1 s (inlineExport s) := by
  have hr0 : s.cur.rest = '@' :: '@' :: (w ++ ':' :: (body ++ ('@' :: '@' :: tail))) := by
    rw [hr]; simp
  have h1 : s.cur.skip '@' = .ok s.cur.next := skip_cons hr0
  have hr1 : s.cur.next.rest = '@' :: (w ++ ':' :: (body ++ ('@' :: '@' :: tail))) := by
    simp [Cur.next, hr0]
  have h2 : s.cur.next.skip '@' = .ok s.cur.next.next := skip_cons hr1
  have hr2 : s.cur.next.next.rest = w ++ ':' :: (body ++ ('@' :: '@' :: tail)) := by
    simp [Cur.next, hr0]
  have hr3 : (advIdent s.cur.next.next).rest = ':' :: (body ++ ('@' :: '@' :: tail)) := by
    unfold advIdent Cur.advWhile
    rw [hr2]
    exact advWhileGo_append _ w ':' _ _ (fun x hx => by simpa using hw x hx) (by decide) hr2
  have hb : advBackend s.cur = .ok (advIdent s.cur.next.next) := by
    simp [advBackend, h1, h2, bind, Except.bind, pure, Except.pure]
  unfold inlineExport
  have hfirst : Post T 1 s (tokenCb .InlineExportBackend advBackend s) := by
    apply Post.tokenCb (hk := by decide)
    · intro c' hc
      rw [hb] at hc; cases hc
      exact Moves.mono (Moves.trans (moves_next1 (by simp [hr0]))
        (Moves.trans (moves_next1 (by simp [hr1])) (moves_advIdent _))) (by omega)
    · intro e he; rw [hb] at he; cases he
  have heq : tokenCb .InlineExportBackend advBackend s = .ok ⟨advIdent s.cur.next.next,
      s.out ++ [⟨.InlineExportBackend,
        s.cur.rest.take ((advIdent s.cur.next.next).pos - s.cur.pos), some s.cur.pos⟩]⟩ := by
    simp [tokenCb, hb, bind, Except.bind, pure, Except.pure]
  rw [heq] at hfirst ⊢
  refine Post.after (s' := _) (hfirst.1 _ rfl) (n := 0) ?_
  apply Post.tokenCb (hk := by decide)
  · intro c' hc
    simp only [advExported, skip_cons hr3, bind, Except.bind] at hc
    split at hc
    · cases hc
    · rename_i c1 h1
      split at hc
      · cases hc
      · rename_i c2 h2
        have m1 := (moves_advUntilGo _ _ _ _ rfl h1).1
        exact Moves.mono (Moves.trans (moves_next1 (by simp [hr3]))
          (Moves.trans m1 (Moves.trans (moves_skip h2) (moves_skip hc)))) (by omega)
  · intro e he
    exfalso
    simp only [advExported, skip_cons hr3, bind, Except.bind] at he
    split at he
    · rename_i e1 h1
      obtain ⟨_, h2⟩ := advUntilGo_error _ _ _ _ h1
      have hn : (advIdent s.cur.next.next).next.rest = body ++ ('@' :: '@' :: tail) :=
        next_rest hr3
      rw [hn] at h2
      have := h2 body.length (by simp)
      simp [isAtStr, List.isPrefixOf] at this
    · rename_i c1 h1
      have hp := (moves_advUntilGo _ _ _ _ rfl h1).2
      simp only [isAtStr, List.drop_zero, List.isPrefixOf_iff_prefix] at hp
      obtain ⟨t, ht⟩ := hp
      have hc1 : c1.rest = '@' :: '@' :: t := ht.symm
      rw [skip_cons hc1] at he
      have hc2 : c1.next.rest = '@' :: t := by simp [Cur.next, hc1]
      simp only [skip_cons hc2] at he
      cases he

theorem post_caseAt {T : List Char} {lex : Lexy} (hlex : Sane lex) {s : St}
    (hne : s.cur.rest ≠ []) : Post T 1 s (caseAt lex s) := by
  unfold caseAt
  split
  · exact Post.token (Moves.trans (m := 1) (n := 0) (moves_next1 hne) (moves_advWord _))
  · split
    · rename_i h
      obtain ⟨w, body, tail, hr, hw⟩ := hlex.exports _ _ h
      exact post_inlineExport hr hw
    · exact Post.adv1 (by omega) hne

theorem post_caseEq {T : List Char} {s : St} (hne : s.cur.rest ≠ []) : Post T 1 s (caseEq s) := by
  unfold caseEq
  repeat' split
  all_goals exact Post.adv1 (by omega) hne

theorem post_tildaOpen {T : List Char} {s : St} (hne : s.cur.rest ≠ []) :
    Post T 1 s (tildaOpen s) := by
  refine Post.bind (m := 1) (n := 0) (Post.adv1 (by omega) hne) (fun s' _ => ?_)
  dsimp only
  split
  · exact Post.bind (m := 0) (n := 0) Post.adv0 (fun _ _ => Post.adv0)
  · exact Post.ok s'

theorem post_caseTilda {T : List Char} {s : St} (hne : s.cur.rest ≠ []) :
    Post T 1 s (caseTilda s) := by
  unfold caseTilda
  repeat' split
  · exact Post.adv1 (by omega) hne
  · exact Post.adv1 (by omega) hne
  · exact post_tildaOpen hne
  · exact Post.adv1 (by omega) hne

theorem post_caseMinus {T : List Char} {lex : Lexy} (hlex : Sane lex) {s : St} {r : List Char}
    (hr : s.cur.rest = '-' :: r) : Post T 1 s (caseMinus lex s) := by
  have hne : s.cur.rest ≠ [] := by simp [hr]
  unfold caseMinus
  dsimp only
  repeat' split
  · exact Post.token (moves_advChar1' hr)
  · exact Post.adv1 (by omega) hne
  · exact Post.adv1 (by omega) hne
  · rename_i h; exact Post.adv1 (hlex.pos h) hne
  · exact Post.adv1 (by omega) hne

theorem post_caseCurly {T : List Char} {s : St} (hne : s.cur.rest ≠ []) :
    Post T 1 s (caseCurly s) := by
  unfold caseCurly
  dsimp only
  repeat' split
  all_goals exact Post.adv1 (by omega) hne

theorem newlineRun_pos (x : Char) (r : List Char) : 1 ≤ (newlineRun (x :: r) 0).1 := by
  rw [newlineRun]
  split
  · dsimp only; omega
  · exact Nat.le_refl _

theorem post_caseNewline {T : List Char} {s : St} (hne : s.cur.rest ≠ []) :
    Post T 1 s (caseNewline s) := by
  unfold caseNewline
  dsimp only
  refine Post.adv1 ?_ hne (by split <;> (try split) <;> decide)
  cases hr : s.cur.rest with
  | nil => exact absurd hr hne
  | cons x r => exact newlineRun_pos x r

theorem post_timeToken {T : List Char} {lex : Lexy} (hlex : Sane lex) {s : St} {span : Nat} {p : Pat}
    (hs : s.cur.rest <:+ T) (hne : s.cur.rest ≠ []) (hp : p = .time ∨ p = .timeSec)
    (h : lex p s.cur.rest = some span) : Post T 1 s (timeToken span s) := by
  have hpos := hlex.pos h
  have hnl := hlex.time p _ _ hp h
  have herr : ∀ (w : List Char) (e : Err), (∀ c ∈ w, toLower c ≠ '\n') →
      isIat (s.cur.rest.drop span) w = .error e →
      e ≠ .fuel ∧ (EndsWithNewline T → e ≠ .diverges) ∧ ¬ Plain T := by
    intro w e hw he
    have := isIat_error he
    subst this
    refine ⟨by decide, fun _ => by decide, fun hT => ?_⟩
    have hmem := (hT.nl.suffix hs).mem hne
    rw [← List.take_append_drop span s.cur.rest, List.mem_append] at hmem
    rcases hmem with hmem | hmem
    · exact hnl hmem
    · obtain ⟨b, hb⟩ := isIat_ok hmem hw
      rw [hb] at he; cases he
  unfold timeToken
  dsimp only
  refine Post.bindB (fun e he => herr _ e (by decide) he) (fun b _ => ?_)
  split
  · exact Post.adv1 (by omega) hne
  · refine Post.bindB (fun e he => herr _ e (by decide) he) (fun b _ => ?_)
    split
    · exact Post.adv1 (by omega) hne
    · exact Post.adv1 (by omega) hne

theorem post_caseDigit {T : List Char} {lex : Lexy} (hlex : Sane lex) {s : St} {x : Char}
    {r : List Char} (hs : s.cur.rest <:+ T) (hr : s.cur.rest = x :: r) (hx : isDigit x = true) :
    Post T 1 s (caseDigit lex s) := by
  have hne : s.cur.rest ≠ [] := by simp [hr]
  unfold caseDigit
  dsimp only
  repeat' split
  · rename_i h; exact post_timeToken hlex hs hne (Or.inr rfl) h
  · rename_i h; exact post_timeToken hlex hs hne (Or.inl rfl) h
  · rename_i h; exact Post.adv1 (hlex.pos h) hne
  · rename_i h; exact Post.adv1 (hlex.pos h) hne
  · rename_i h; exact Post.adv1 (hlex.pos h) hne
  · exact Post.token (moves_advWhile1 hne (by simp [hr, isAtAny, hx]))

theorem advUniGo_ok (n : Nat) (c c' : Cur) (h : advUniGo n c = .ok c') : Moves 0 c c' := by
  induction n generalizing c with
  | zero => cases h
  | succ n ih =>
    rw [advUniGo] at h
    split at h
    · cases h
    · split at h
      · exact Moves.trans (m := 0) (n := 0) (moves_nextUnicode c) (ih _ h)
      · cases h; exact Moves.refl _

theorem advUniGo_ok1 {n : Nat} {c c' : Cur} {x : Char} {r : List Char} (hr : c.rest = x :: r)
    (hx : isUni x = true) (h : advUniGo n c = .ok c') : Moves 1 c c' := by
  cases n with
  | zero => cases h
  | succ n =>
    rw [advUniGo] at h
    split at h
    · cases h
    · rename_i ch r' hr'
      rw [hr] at hr'
      cases hr'
      rw [if_pos hx] at h
      exact Moves.trans (m := 1) (n := 0) (moves_nextUnicode1 (by simp [hr])) (advUniGo_ok _ _ _ h)

theorem advUniGo_error {T : List Char} (n : Nat) (c : Cur) (e : Err) (hn : c.rest.length < n)
    (hs : c.rest <:+ T) (hne : c.rest ≠ [])
    (h : advUniGo n c = .error e) :
    e = .assertion ∧ ¬ Plain T := by
  induction n generalizing c with
  | zero => omega
  | succ n ih =>
    rw [advUniGo] at h
    split at h
    · rename_i hr; exact absurd hr hne
    · rename_i x r hr
      split at h
      · rename_i hx
        have hxn : x ≠ '\n' := by rintro rfl; exact absurd hx (by decide)
        have hrest : c.nextUnicode.rest = c.rest.drop 4 := by
          have h4 : uniSize x = 4 := by
            simp only [isUni, decide_eq_true_eq] at hx
            simp [uniSize, hx]
          simp [Cur.nextUnicode, hr, hxn, h4]
        have hsuf : c.nextUnicode.rest <:+ T := by
          rw [hrest]; exact (List.drop_suffix _ _).trans hs
        by_cases hne' : c.nextUnicode.rest = []
        · -- the multi-byte step ended at the end of the text
          constructor
          · cases n with
            | zero =>
              have : c.rest.length ≠ 0 := by simp [hr]
              omega
            | succ n =>
              rw [advUniGo] at h
              simp only [hne'] at h
              cases h; rfl
          · intro hT
            have hP := hT.suffix hs
            rw [hrest, List.drop_eq_nil_iff] at hne'
            rcases hP.nl with h0 | h0
            · exact hne h0
            · rw [List.getLast?_eq_getElem?] at h0
              have hlen : c.rest.length ≠ 0 := by simp [hr]
              by_cases h1 : c.rest.length = 1
              · rw [h1] at h0
                simp [hr] at h0
                exact hxn h0
              · refine hP.utf 0 x (by simp [hr]) hx (c.rest.length - 1) (by omega) (by omega) ?_
                simpa using h0
        · refine ih _ ?_ hsuf hne' h
          rw [hrest, List.length_drop]
          have : c.rest.length ≠ 0 := by simp [hr]
          omega
      · cases h

theorem post_ite {T : List Char} {m : Nat} {s : St} {c : Prop} [Decidable c] {a b : Except Err St}
    (h1 : c → Post T m s a) (h2 : ¬ c → Post T m s b) : Post T m s (if c then a else b) := by
  split
  · exact h1 ‹_›
  · exact h2 ‹_›

theorem kind_ite {c : Prop} [Decidable c] {a k : TK} {e : Option TK} (ha : a ∉ laterKinds)
    (he : e = some k → k ∉ laterKinds) (h : (if c then some a else e) = some k) : k ∉ laterKinds := by
  by_cases hc : c
  · rw [if_pos hc] at h; cases h; exact ha
  · rw [if_neg hc] at h; exact he h

theorem simpleKind_kind {ch : Char} {k : TK} : simpleKind ch = some k → k ∉ laterKinds := by
  unfold simpleKind
  iterate 15 refine kind_ite (by decide) ?_
  intro h; cases h

theorem post_charSwitch {T : List Char} {lex : Lexy} (hlex : Sane lex) {s : St}
    (hs : s.cur.rest <:+ T) (hne : s.cur.rest ≠ []) : Post T 1 s (charSwitch lex s) := by
  unfold charSwitch
  split
  · rename_i h; exact absurd h hne
  rename_i ch r hr
  cases hk : simpleKind ch with
  | some k => exact Post.adv1 (by omega) hne (simpleKind_kind hk)
  | none =>
  refine post_ite (fun h => post_caseStar (h ▸ hr)) fun _ => ?_
  refine post_ite (fun h => post_casePlus (h ▸ hr)) fun _ => ?_
  refine post_ite (fun _ => post_casePipe hne) fun _ => ?_
  refine post_ite (fun _ => post_caseBraceEnd hne) fun _ => ?_
  refine post_ite (fun h => post_caseBackslash (h ▸ hr)) fun _ => ?_
  refine post_ite (fun _ => post_caseBraceBegin hlex hs hne) fun _ => ?_
  refine post_ite (fun _ => post_caseColon hne) fun _ => ?_
  refine post_ite (fun _ => post_caseGt hne) fun _ => ?_
  refine post_ite (fun h => post_caseDot (h ▸ hr)) fun _ => ?_
  refine post_ite (fun _ => post_caseLt hlex hne) fun _ => ?_
  refine post_ite (fun h => post_caseHash (h ▸ hr)) fun _ => ?_
  refine post_ite (fun _ => post_caseAt hlex hne) fun _ => ?_
  refine post_ite (fun _ => post_caseEq hne) fun _ => ?_
  refine post_ite (fun _ => post_caseTilda hne) fun _ => ?_
  refine post_ite (fun h => post_caseMinus hlex (h ▸ hr)) fun _ => ?_
  refine post_ite (fun _ => post_caseCurly hne) fun _ => ?_
  refine post_ite (fun _ => post_caseNewline hne) fun _ => ?_
  refine post_ite (fun h => Post.token (moves_advChar1' (h ▸ hr))) fun _ => ?_
  refine post_ite (fun h => post_switchWord hlex hs hr (by simp [isAlnum, h])) fun _ => ?_
  refine post_ite (fun h => post_caseDigit hlex hs hr h) fun _ => ?_
  refine post_ite (fun hu => ?_) fun _ => Post.token (moves_nextUnicode1 hne)
  apply Post.tokenCb (hk := by decide)
  · intro c' hc; exact advUniGo_ok1 hr hu hc
  · intro e he
    obtain ⟨h1, h2⟩ := advUniGo_error _ _ e (by omega) hs hne he
    subst h1
    exact ⟨by decide, fun _ => by decide, h2⟩

/-! ## The whole lexer -/

theorem post_regularBody {T : List Char} {lex : Lexy} (hlex : Sane lex) {L : Nat}
    {self : St → Except Err St} (hself : SelfOk T L self) {s : St} (hs : s.cur.rest <:+ T)
    (hL : s.cur.rest.length ≤ L) (hne : s.cur.rest ≠ []) : Post T 1 s (regularBody lex self s) := by
  unfold regularBody
  by_cases hcol : s.cur.col = 0
  · rw [if_pos hcol]
    dsimp only
    have hp := lineStart_pos hlex s.cur.rest (spaces s.cur.rest)
    generalize hls : lineStart lex s.cur.rest (spaces s.cur.rest) = ls at hp
    cases ls with
    | adv k n => exact Post.adv1 hp hne (lineStart_kind lex _ _ hls)
    | clock n =>
      exact post_lineThen hne hp (fun s' h' => post_selfLoop hself (h'.suffixT hs)
        (by have := h'.length; omega))
    | argProp n =>
      exact post_lineThen hne hp (fun s' h' => post_headArgs' (h'.suffixT hs))
    | textProp n =>
      exact post_lineThen hne hp (fun s' h' => post_selfLoop hself (h'.suffixT hs)
        (by have := h'.length; omega))
    | litProp n => exact post_lineThen hne hp (fun s' h' => post_headRaw)
    | «example» => exact post_exampleLine (lineStart_example hls)
    | command =>
      obtain ⟨r, hr⟩ := lineStart_command hls
      exact post_commandLine hself hs hr hL
    | space => exact Post.adv1 (lineStart_space hls) hne
    | other => exact post_charSwitch hlex hs hne
  · rw [if_neg hcol]
    exact post_charSwitch hlex hs hne

theorem selfOk_switchRegular {T : List Char} {lex : Lexy} (hlex : Sane lex) (n : Nat) :
    SelfOk T n (switchRegular lex n) := by
  induction n with
  | zero => intro s _ h; omega
  | succ n ih =>
    intro s hs hl hne
    exact post_regularBody hlex ih hs (by omega) hne

theorem post_tokenizeSt {lex : Lexy} (hlex : Sane lex) (text : List Char) :
    Post text 0 ⟨⟨text, 0, 0, none⟩, []⟩ (tokenizeSt lex text) ∧
      ∀ s', tokenizeSt lex text = .ok s' → s'.cur.rest = [] := by
  have := post_loop (T := text) (cond := fun r => !r.isEmpty) (stuck := .abort)
    (body := switchRegular lex (text.length + 1)) (L := text.length)
    (fun s hs hl hc => selfOk_switchRegular hlex _ s hs (by omega) (by simpa using hc))
    (text.length + 1) ⟨⟨text, 0, 0, none⟩, []⟩ (List.suffix_refl _) (Nat.le_refl _)
    (Nat.lt_succ_self _)
  refine ⟨this.1, fun s' h => ?_⟩
  simpa using this.2 s' h

end Verif.BaseLexer
