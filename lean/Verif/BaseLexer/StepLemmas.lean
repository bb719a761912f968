import Verif.BaseLexer.Lemmas

namespace Verif.BaseLexer
open Verif.Token

/-! ## Parts of a document -/

theorem getLast?_append_ne {α : Type _} (a b : List α) (h : b ≠ []) :
    (a ++ b).getLast? = b.getLast? := by
  rw [List.getLast?_append, List.getLast?_eq_some_getLast h]; rfl

theorem EndsWithNewline.suffix {T r : List Char} (h : EndsWithNewline T) (hs : r <:+ T) :
    EndsWithNewline r := by
  obtain ⟨p, rfl⟩ := hs
  by_cases hr : r = []
  · exact Or.inl hr
  · right
    rcases h with h | h
    · simp_all
    · rw [getLast?_append_ne _ _ hr] at h
      exact h

theorem Plain.suffix {T r : List Char} (h : Plain T) (hs : r <:+ T) : Plain r where
  nl := h.nl.suffix hs
  noLink hi := h.noLink (hi.trans hs.isInfix)
  noBlock c hc hi := h.noBlock c hc (hi.trans hs.isInfix)
  utf := by
    obtain ⟨p, rfl⟩ := hs
    intro k c hk hu j h1 h2
    have := h.utf (p.length + k) c (by
      rw [List.getElem?_append_right (by omega)]; simpa using hk) hu j h1 h2
    rw [List.getElem?_append_right (by omega)] at this
    have e : p.length + k + j - p.length = k + j := by omega
    rwa [e] at this

theorem EndsWithNewline.mem {r : List Char} (h : EndsWithNewline r) (hr : r ≠ []) : '\n' ∈ r := by
  rcases h with h | h
  · exact absurd h hr
  · exact List.mem_of_getLast? h

theorem EndsWithNewline.cons {x : Char} {r : List Char} (h : EndsWithNewline (x :: r))
    (hx : x ≠ '\n') : r ≠ [] ∧ EndsWithNewline r := by
  rcases h with h | h
  · cases h
  · cases r with
    | nil => simp at h; exact absurd h hx
    | cons y r => exact ⟨by simp, Or.inr (by simpa [List.getLast?_cons_cons] using h)⟩

theorem inLine_ne_nil {r : List Char} (h : inLine r = true) : r ≠ [] := by
  intro hr; subst hr; simp [inLine] at h

theorem inLine_cons {x : Char} {r : List Char} (h : inLine (x :: r) = true) : x ≠ '\n' := by
  intro hr; subst hr; simp [inLine, isAt] at h

/-! ## Command arguments -/

/-- The text is never read past its end by a case-insensitive comparison with a word
without newlines when a newline is still ahead. -/
theorem isIat_ok {r w : List Char} (hr : '\n' ∈ r) (hw : ∀ c ∈ w, toLower c ≠ '\n') :
    ∃ b, isIat r w = .ok b := by
  induction w generalizing r with
  | nil => exact ⟨true, by simp [isIat]⟩
  | cons t ts ih =>
    cases r with
    | nil => simp at hr
    | cons c cs =>
      rw [isIat]
      split
      · exact ⟨false, rfl⟩
      · rename_i hne
        have hc : c ≠ '\n' := by
          intro hc; subst hc
          apply hne
          intro h
          exact hw t (by simp) (by rw [← h]; decide)
        have : '\n' ∈ cs := by simpa [Ne.symm hc] using hr
        exact ih this (fun c hc => hw c (by simp [hc]))

theorem isIat_error {r w : List Char} {e : Err} (h : isIat r w = .error e) : e = .assertion := by
  induction w generalizing r with
  | nil => simp [isIat] at h
  | cons t ts ih =>
    cases r with
    | nil => simp [isIat] at h; exact h.symm
    | cons c cs =>
      rw [isIat] at h
      split at h
      · cases h
      · exact ih h

theorem argDelim_newline : argDelim '\n' = true := by decide

theorem argSimple_kind {ch : Char} {k : TK} (h : argSimple ch = some k) : k ∉ laterKinds := by
  unfold argSimple at h
  repeat' split at h
  all_goals first
    | (cases h; decide)
    | cases h

theorem post_cmdArgument {T : List Char} {s : St} (hs : s.cur.rest <:+ T)
    (hl : inLine s.cur.rest = true) : Post T 1 s (cmdArgument s) := by
  have hne := inLine_ne_nil hl
  unfold cmdArgument
  split
  · rename_i h; exact absurd h hne
  · rename_i ch r hr
    have hch : ch ≠ '\n' := inLine_cons (hr ▸ hl)
    split
    · rename_i hk; exact Post.adv1 (by omega) hne (argSimple_kind hk)
    · split
      · rename_i h; subst h; exact Post.token (moves_advChar1' hr)
      · split
        · exact Post.token (moves_advQuoted hne)
        · split
          · split
            · exact Post.token
                (Moves.trans (m := 1) (n := 0) (moves_next1 hne) (moves_advWhile _ _))
            · rename_i hcol _
              apply Post.tokenCb (hk := by decide)
              · intro c' hc
                have := (moves_advUntilGo _ _ _ _ rfl hc).1
                exact Moves.trans (m := 1) (n := 0) (moves_next1 hne) this
              · intro e he
                obtain ⟨h1, h2⟩ := advUntilGo_error _ _ _ _ he
                have hrest : s.cur.next.rest = r := by simp [Cur.next, hr]
                rw [hrest] at h2
                have key : ¬ EndsWithNewline T := by
                  intro hT
                  have hT' := hT.suffix hs
                  rw [hr] at hT'
                  obtain ⟨hrne, hr'⟩ := hT'.cons hch
                  obtain ⟨i, hi, hget⟩ := List.mem_iff_getElem.mp (hr'.mem hrne)
                  have := h2 i hi
                  rw [isAtAny] at this
                  simp [hi, hget, argDelim_newline] at this
                subst h1
                exact ⟨by decide, fun h => absurd h key, fun h => key h.nl⟩
          · rename_i hsimple hsp hq hcol
            refine Post.token (moves_advWhile1 hne ?_)
            rw [hr]
            have : argDelim ch = false := by
              simp only [argSimple] at hsimple
              simp only [argDelim]
              repeat' (split at hsimple)
              all_goals simp_all
            simp [isAtAny, this]

/-! ## Loops -/

theorem Step.suffixT {T : List Char} {m : Nat} {s s' : St} (h : Step m s s')
    (hs : s.cur.rest <:+ T) : s'.cur.rest <:+ T := h.suffix.trans hs

theorem post_loop {T : List Char} {cond : List Char → Bool} {stuck : Err}
    {body : St → Except Err St} {L : Nat}
    (hbody : ∀ s, s.cur.rest <:+ T → s.cur.rest.length ≤ L → cond s.cur.rest = true →
      Post T 1 s (body s))
    (n : Nat) (s : St) (hs : s.cur.rest <:+ T) (hL : s.cur.rest.length ≤ L)
    (hn : s.cur.rest.length < n) :
    Post T 0 s (loop cond stuck body n s) ∧
      ∀ s', loop cond stuck body n s = .ok s' → cond s'.cur.rest = false := by
  induction n generalizing s with
  | zero => omega
  | succ n ih =>
    rw [loop]
    split
    · rename_i hc
      have hb := hbody s hs hL hc
      cases hr : body s with
      | error e =>
        refine ⟨?_, fun s' h => by cases h⟩
        rw [hr] at hb
        exact ⟨fun s' h => (by cases h), hb.2⟩
      | ok s1 =>
        rw [hr] at hb
        have h1 := hb.1 s1 rfl
        have hp := h1.pos
        have hlen := h1.length
        simp only
        rw [if_neg (by omega)]
        have := ih s1 (h1.suffixT hs) (by omega) (by omega)
        refine ⟨⟨fun s' h => (h1.trans (this.1.1 s' h)).mono (by omega), this.1.2⟩, this.2⟩
    · rename_i hc
      refine ⟨Post.ok s, fun s' h => ?_⟩
      cases h
      simpa using hc

theorem post_lineLoop {T : List Char} {stuck : Err} {body : St → Except Err St} {L : Nat}
    (hbody : ∀ s, s.cur.rest <:+ T → s.cur.rest.length ≤ L → inLine s.cur.rest = true →
      Post T 1 s (body s))
    {s : St} (hs : s.cur.rest <:+ T) (hL : s.cur.rest.length ≤ L) :
    Post T 0 s (lineLoop stuck body s) :=
  (post_loop hbody _ s hs hL (by omega)).1

theorem post_headArgs {T : List Char} {s : St} (hs : s.cur.rest <:+ T) :
    Post T 0 s (headArgs s) :=
  post_lineLoop (L := s.cur.rest.length) (fun _ h _ hl => post_cmdArgument h hl) hs (Nat.le_refl _)

theorem post_headRaw {T : List Char} {s : St} : Post T 0 s (headRaw s) :=
  Post.token (moves_advLine _)

/-- What a recursive call guarantees on texts shorter than `L`. -/
def SelfOk (T : List Char) (L : Nat) (self : St → Except Err St) : Prop :=
  ∀ s, s.cur.rest <:+ T → s.cur.rest.length < L → s.cur.rest ≠ [] → Post T 1 s (self s)

theorem post_headText {T : List Char} {L : Nat} {self : St → Except Err St} {s : St}
    (hself : SelfOk T L self) (hs : s.cur.rest <:+ T) (hL : s.cur.rest.length < L) :
    Post T 0 s (headText self s) :=
  post_lineLoop (L := s.cur.rest.length)
    (fun s' h hl hin => hself s' h (by omega) (inLine_ne_nil hin)) hs (Nat.le_refl _)

theorem endBlockOffset_error {name r : List Char} {e : Err} (h : endBlockOffset name r = .error e) :
    e = .assertion := by
  simp only [endBlockOffset, bind, Except.bind, pure, Except.pure] at h
  split at h
  · cases h
  · split at h
    · cases h
    · split at h
      · cases h; rename_i h; exact isIat_error h
      · split at h
        · cases h
        · split at h
          · cases h; rename_i h; exact isIat_error h
          · split at h <;> cases h

theorem post_blockLoop {T : List Char} {name : List Char} {close : TK}
    {body : St → Except Err St} (hplain : ¬ Plain T) (hc : close ∉ laterKinds)
    (hbody : ∀ s, s.cur.rest <:+ T → Post T 0 s (body s))
    (n : Nat) (s : St) (hs : s.cur.rest <:+ T) (hn : s.cur.rest.length < n) :
    Post T 0 s (blockLoop name close body n s) := by
  induction n generalizing s with
  | zero => omega
  | succ n ih =>
    rw [blockLoop]
    split
    · rename_i e he
      have := endBlockOffset_error he
      subst this
      exact Post.error (by decide) (fun _ => by decide) hplain
    · exact Post.adv0 hc
    · have hb := hbody s hs
      cases hr : body s with
      | error e =>
        rw [hr] at hb
        exact ⟨fun s' h => (by cases h), hb.2⟩
      | ok s1 =>
        rw [hr] at hb
        have h1 := hb.1 s1 rfl
        simp only
        split
        · exact Post.error (by decide) (fun _ => by decide) hplain
        · rename_i hne
          obtain ⟨new, k, g1, g2, g3, g4⟩ := h1
          have hk : 1 ≤ k := by
            have := g2.2.1
            omega
          have h1 : Step 1 s s1 := ⟨new, k, g1, g2, hk, g4⟩
          have hlen := h1.length
          have := ih s1 (h1.suffixT hs) (by omega)
          exact ⟨fun s' h => (h1.trans (this.1 s' h)).mono (by omega), this.2⟩

theorem post_optNewline {T : List Char} {s : St} : Post T 0 s (optNewline s) := by
  unfold optNewline
  split
  · exact Post.adv0
  · exact Post.ok s

theorem post_rawBlockBody {T : List Char} {s : St} {k : TK} (hk : k ∉ laterKinds := by decide) :
    Post T 0 s (rawBlockBody k s) :=
  Post.bind (m := 0) (n := 0) (Post.token (moves_advLine _) hk) (fun _ _ => post_optNewline)

theorem post_srcBlockBody {T : List Char} {s : St} : Post T 0 s (srcBlockBody s) := by
  refine Post.bind (m := 0) (n := 0) ?_ (fun _ _ => post_optNewline)
  unfold srcPiece
  split
  · exact Post.adv0
  · split
    · exact Post.adv0
    · exact Post.token (moves_advSrc _)

theorem post_verbatimBlock {T : List Char} {name : List Char} {close : TK}
    {body : St → Except Err St} (hplain : ¬ Plain T) (hc : close ∉ laterKinds)
    (hbody : ∀ s, s.cur.rest <:+ T → Post T 0 s (body s)) {s : St} (hs : s.cur.rest <:+ T) :
    Post T 0 s (verbatimBlock name close body s) := by
  refine Post.bind (m := 0) (n := 0) (post_headArgs hs) (fun s1 h1 => ?_)
  refine Post.bind (m := 0) (n := 0) Post.adv0 (fun s2 h2 => ?_)
  exact post_blockLoop hplain hc hbody _ _ (h2.suffixT (h1.suffixT hs)) (by omega)

/-! ## Commands -/

/-- A state reached by lexing the command name, and the name token itself. -/
theorem step_push {m : Nat} {s0 s1 : St} {head : Tok} {k : TK} (h : Step m s0 s1)
    (ho : s1.out.getLast? = some head) (hlen : s0.out.length < s1.out.length) (hk : k ∉ laterKinds) :
    Step m s0 (push head k ⟨s1.cur, s1.out.dropLast⟩) := by
  obtain ⟨new, j, h1, h2, h3, h4⟩ := h
  have hnew : new ≠ [] := by
    intro hn; subst hn; simp [h1] at hlen
  rw [h1] at ho
  rw [getLast?_append_ne _ _ hnew] at ho
  have hsplit : new = new.dropLast ++ [head] := by
    rw [List.getLast?_eq_some_iff] at ho
    obtain ⟨ys, rfl⟩ := ho
    simp
  refine ⟨new.dropLast ++ [{ head with kind := k }], j, ?_, h2, h3, ?_⟩
  · simp only [push, h1]
    rw [List.dropLast_append_of_ne_nil hnew, List.append_assoc]
  · rw [hsplit] at h4
    revert h4
    generalize s0.cur.rest.take j = chunk
    generalize s0.cur.pos = p
    clear ho hsplit h1 hnew
    induction new.dropLast generalizing p chunk with
    | nil =>
      rintro ⟨a, _, r, b, c⟩
      exact ⟨a, hk, r, b, c⟩
    | cons t ts ih =>
      rintro ⟨a, k, r, b, c⟩
      exact ⟨a, k, r, b, ih _ _ c⟩

theorem Post.after {T : List Char} {m n : Nat} {s s' : St} {r : Except Err St} (h : Step m s s')
    (hp : Post T n s' r) : Post T m s r :=
  ⟨fun s'' hs => (h.trans (hp.1 s'' hs)).mono (by omega), hp.2⟩

/-- In a plain document no command name normalizes to something starting with
`begin`. -/
theorem head_not_begin {c : Cur} {T : List Char} (hT : Plain T) (hs : '#' :: '+' :: c.rest <:+ T) :
    ("begin".toList.isPrefixOf (normalize (c.rest.take ((advCmdName c).pos - c.pos)))) = false := by
  cases hr : c.rest with
  | nil => simp [normalize, List.isPrefixOf]
  | cons x r =>
    have hx : ∀ y, (y = 'b' ∨ y = 'B' ∨ y = '_') → x ≠ y := by
      intro y hy hxy
      subst hxy
      refine hT.noBlock x hy (List.IsInfix.trans ?_ hs.isInfix)
      rw [hr]
      exact ⟨[], r, by simp⟩
    by_cases hid : (isAlnum x || x = '_') = true
    · have hm : Moves 1 c (advCmdName c) := by
        unfold advCmdName
        dsimp only
        have h1 : Moves 1 c (advIdent c) := by
          refine moves_advWhile1 (by simp [hr]) ?_
          simpa [hr, isAtAny] using hid
        refine Moves.trans (m := 1) (n := 0) h1 ?_
        · split
          · exact moves_next _
          · exact Moves.refl _
      obtain ⟨k, hk, ha⟩ := hm
      have : (advCmdName c).pos - c.pos = (k - 1) + 1 := by rw [ha.2.1]; omega
      rw [this, List.take_succ_cons]
      have hnb := hx 'b' (by simp)
      have hnB := hx 'B' (by simp)
      have hnu := hx '_' (by simp)
      have hu : isUpper x = true → toLower x ≠ 'b' := by
        intro hu hl
        simp only [toLower, hu, if_true] at hl
        simp only [isUpper, Bool.and_eq_true, decide_eq_true_eq] at hu
        apply hnB
        have h3 : x.toNat ≤ 90 := hu.2
        have h4 : 65 ≤ x.toNat := hu.1
        have h6 : x.toNat = 66 :=
          (by decide : ∀ n < 91, 65 ≤ n → Char.ofNat (n + 32) = 'b' → n = 66)
            x.toNat (by omega) h4 hl
        have := Char.ofNat_toNat x
        rw [← this, h6]
      unfold normalize
      rw [List.filterMap_cons]
      by_cases hlow : (isLower x || isDigit x) = true
      · simp only [hlow, if_true]
        split
        · rename_i h; simp [hnu] at h; subst h; simp [isAlnum, isAlpha, isLower, isUpper, isDigit] at hid
        · rename_i h
          by_cases hm : x = '-'
          · subst hm; simp [isAlnum, isAlpha, isLower, isUpper, isDigit] at hid
          · simp [hnu, hm] at h
            subst h
            simp [List.isPrefixOf, Ne.symm hnb]
      · have hup : isUpper x = true := by
          simp [isAlnum, isAlpha, hnu] at hid
          simp at hlow
          simp_all
        simp only [hlow, hup]
        by_cases hm : x = '-'
        · subst hm; simp [isAlnum, isAlpha, isLower, isUpper, isDigit] at hid
        · simp [hnu, hm, List.isPrefixOf, Ne.symm (hu hup)]
    · have h1 : advIdent c = c := by
        unfold advIdent Cur.advWhile
        rw [hr, Cur.advWhileGo, if_neg]
        simpa [isAtAny] using hid
      unfold advCmdName
      rw [h1]
      dsimp only
      by_cases hc : isAt c.rest ':' = true
      · rw [if_pos hc]
        have hxc : x = ':' := by simpa [hr, isAt] using hc
        subst hxc
        have : c.next.pos - c.pos = 1 := by simp [Cur.next, hr]
        rw [this]
        simp [normalize, List.isPrefixOf, isLower, isUpper, isDigit]
      · rw [if_neg hc]
        simp [normalize, List.isPrefixOf]

theorem cmdTable_kinds : ∀ e ∈ cmdTable, e.2.1 ∉ laterKinds := by decide +kernel

theorem cmdSpec_kind {h : List Char} {k : TK} {ty : CmdType} (hs : cmdSpec h = some (k, ty)) : k ∉ laterKinds := by
  unfold cmdSpec at hs
  rw [Option.map_eq_some_iff] at hs
  obtain ⟨e, he, h2⟩ := hs
  have := cmdTable_kinds e (List.mem_of_find?_eq_some he)
  rw [h2] at this
  exact this

theorem beginKind_kind (b : List Char) : beginKind b ∉ laterKinds := by
  unfold beginKind
  repeat' split
  all_goals decide

theorem endKind_kind (b : List Char) : endKind b ∉ laterKinds := by
  unfold endKind
  repeat' split
  all_goals decide

theorem post_openBlock {T : List Char} {s0 s1 : St} {m : Nat} {head : Tok} {b : List Char}
    (hplain : ¬ Plain T) (hs : s0.cur.rest <:+ T)
    (hpush : ∀ k, k ∉ laterKinds → Step m s0 (push head k s1)) : Post T m s0 (openBlock head b s1) := by
  unfold openBlock
  repeat' split
  · exact Post.after (hpush _ (by decide)) (post_verbatimBlock hplain (by decide) (fun _ _ => post_rawBlockBody)
      ((hpush _ (by decide)).suffixT hs))
  · exact Post.after (hpush _ (by decide)) (post_verbatimBlock hplain (by decide) (fun _ _ => post_rawBlockBody)
      ((hpush _ (by decide)).suffixT hs))
  · exact Post.after (hpush _ (by decide)) (post_verbatimBlock hplain (by decide) (fun _ _ => post_srcBlockBody)
      ((hpush _ (by decide)).suffixT hs))
  · exact Post.after (hpush _ (beginKind_kind b)) (post_headArgs ((hpush _ (beginKind_kind b)).suffixT hs))

theorem post_dispatch {T : List Char} {L : Nat} {lex : Lexy} {self : St → Except Err St}
    {s0 s1 : St} {m : Nat} {head : Tok} (hself : SelfOk T L self) (hs : s0.cur.rest <:+ T)
    (hL : s1.cur.rest.length < L)
    (hbegin : Plain T → "begin".toList.isPrefixOf (normalize head.text) = false)
    (hpush : ∀ k, k ∉ laterKinds → Step m s0 (push head k s1)) :
    Post T m s0 (dispatchCommand lex self head s1) := by
  have hargs : ∀ k, k ∉ laterKinds → Post T m s0 (headArgs (push head k s1)) := fun k hk =>
    Post.after (hpush k hk) (post_headArgs ((hpush k hk).suffixT hs))
  have hraw : ∀ k, k ∉ laterKinds → Post T m s0 (headRaw (push head k s1)) := fun k hk =>
    Post.after (hpush k hk) post_headRaw
  have htext : ∀ k, k ∉ laterKinds → Post T m s0 (headText self (push head k s1)) := fun k hk =>
    Post.after (hpush k hk) (post_headText hself ((hpush k hk).suffixT hs) hL)
  unfold dispatchCommand
  dsimp only
  split
  · rename_i h; exact hargs _ (cmdSpec_kind h)
  · rename_i h; exact hraw _ (cmdSpec_kind h)
  · rename_i h; exact htext _ (cmdSpec_kind h)
  · split
    · exact hargs _ (by decide)
    · split
      · rename_i hb
        refine post_openBlock (fun hT => ?_) hs hpush
        rw [hbegin hT] at hb
        exact absurd hb (by decide)
      · split
        · exact hargs _ (endKind_kind _)
        · rename_i hend
          split
          · exact hargs _ (by decide)
          · split
            · rename_i h
              rw [h] at hend
              exact absurd (by decide) hend
            · split
              · unfold propertyCmd
                split
                · dsimp only
                  repeat' split
                  · exact htext _ (by decide)
                  · exact hargs _ (by decide)
                  · exact hraw _ (by decide)
                · exact hraw _ (by decide)
              · exact hraw _ (by decide)

theorem post_switchCommand {T : List Char} {L : Nat} {lex : Lexy} {self : St → Except Err St}
    {s : St} {r : List Char} (hself : SelfOk T L self) (hs : s.cur.rest <:+ T)
    (hr : s.cur.rest = '#' :: '+' :: r) (hL : s.cur.rest.length ≤ L) :
    Post T 2 s (switchCommand lex self s) := by
  have h1 : Step 2 s ⟨s.cur.adv 2, s.out ++ [⟨.LineCommand,
      s.cur.rest.take ((s.cur.adv 2).pos - s.cur.pos), some s.cur.pos⟩]⟩ :=
    (Post.adv (T := T) (k := .LineCommand) (n := 2) (m := 2) (Nat.le_refl _) (by simp [hr])).1 _ rfl
  generalize hs1 : St.mk (s.cur.adv 2) (s.out ++ [⟨.LineCommand,
      s.cur.rest.take ((s.cur.adv 2).pos - s.cur.pos), some s.cur.pos⟩]) = s1 at h1
  have h2 : Step 0 s1 ⟨advCmdName s1.cur, s1.out ++ [⟨.Word,
      s1.cur.rest.take ((advCmdName s1.cur).pos - s1.cur.pos), some s1.cur.pos⟩]⟩ :=
    (Post.token (T := T) (k := .Word) (moves_advCmdName s1.cur)).1 _ rfl
  have he : switchCommand lex self s = dispatchCommand lex self
      ⟨.Word, s1.cur.rest.take ((advCmdName s1.cur).pos - s1.cur.pos), some s1.cur.pos⟩
      ⟨advCmdName s1.cur, s1.out⟩ := by
    subst hs1
    simp [switchCommand, tokenAdv, token, tokenCb, bind, Except.bind, pure, Except.pure]
  rw [he]
  have hrest : s1.cur.rest = r := by
    subst hs1
    simp [Cur.adv, Cur.next, hr]
  have h12 := (h1.trans h2).mono (n := 2) (by omega)
  have hlen := h12.length
  refine post_dispatch hself hs ?_ ?_ ?_
  · have : 2 ≤ s.cur.rest.length := by simp [hr]
    dsimp only at hlen ⊢
    omega
  · intro hT
    apply head_not_begin hT
    rw [hrest, ← hr]; exact hs
  · intro k hk
    have h3 := step_push (k := k) h12 (head := ⟨.Word,
      s1.cur.rest.take ((advCmdName s1.cur).pos - s1.cur.pos), some s1.cur.pos⟩) (by simp)
      (by subst hs1; simp) hk
    simpa using h3

end Verif.BaseLexer
