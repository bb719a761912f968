import Verif.Link.Spec
import Verif.Stamp.LexDoc

/-!
# Lexing of links
-/

namespace Verif.Link
open Verif.Token Verif.BaseLexer Verif.Pipeline
open Verif.Stamp (Raw placed placed_append rawText Unit1 unit_token unit_adv unit_congr Run seq_ch not_ch not_iat Next next_begins run_piece)
open Verif.Drawer (Text)

theorem unit_seq {u u' v : Text} {ts ts' : Raw} {f g : St → Except BaseLexer.Err St} (h : Unit1 u (u' ++ v) ts f) (h' : Unit1 u' v ts' g)
    (hne : u' ≠ []) (he : rawText ts = u) : Unit1 (u ++ u') v (ts ++ ts') (fun s => f s >>= g) := by
  intro pos col prev out
  obtain ⟨c1, p1, h1, -⟩ := h pos col prev out
  obtain ⟨c2, p2, h2, h3⟩ := h' (pos + u.length) c1 p1 (out ++ placed pos ts)
  refine ⟨c2, p2, ?_, ?_⟩
  · rw [List.append_assoc]
    beta_reduce
    rw [h1]
    simp only [bind, Except.bind]
    rw [h2, placed_append, he]
    simp [Nat.add_assoc]
  · rw [h3, List.getLast?_append_of_ne_nil _ hne]

/-! ## Patterns -/

theorem many1_run {p : Char → Bool} {ds v : Text} (hne : ds ≠ []) (hd : ∀ c ∈ ds, p c = true) (hv : ∀ c ∈ v.head?, p c = false) :
    (Rx.many1 p).run (ds ++ v) = some ds.length := by
  have ht : (ds ++ v).takeWhile p = ds := by
    rw [List.takeWhile_append_of_pos hd]
    cases v with
    | nil => simp
    | cons x v => simp [hv x rfl]
  cases ds with
  | nil => exact absurd rfl hne
  | cons d ds =>
    have h1 := hd d (by simp)
    simp only [Rx.many1, Rx.run, List.cons_append, h1, if_true, List.drop_succ_cons, List.drop_zero]
    rw [List.cons_append, List.takeWhile_cons_of_pos h1] at ht
    simp only [Option.map_some, Option.some.injEq, List.length_cons]
    rw [(List.cons.inj ht).2]
    omega

theorem seq_run {a b : Rx} {s : Text} {n : Nat} (h : a.run s = some n) : (Rx.seq a b).run s = (b.run (s.drop n)).map (n + ·) := by
  simp only [Rx.run, h]

/-- What may come after the head of a link. -/
def Shut (v : Text) : Prop := ∃ x r, v = ']' :: x :: r ∧ (x = ']' ∨ x = '[')

theorem until_run {t v : Text} (ht : Closed t) (hv : Shut v) : untilRun ["]]".toList, "][".toList] (t ++ v) = some (t.length + 2) := by
  obtain ⟨x, r, rfl, hx⟩ := hv
  induction t with
  | nil => rcases hx with rfl | rfl <;> simp [untilRun, List.isPrefixOf, List.find?]
  | cons c t ih =>
    have hc := (ht c (by simp)).1
    simp only [List.cons_append, untilRun]
    rw [show (["]]".toList, "][".toList].find? fun l => l.isPrefixOf (c :: (t ++ ']' :: x :: r))) = none from by
      simp [List.isPrefixOf, Ne.symm hc], ih (fun y hy => ht y (List.mem_cons_of_mem _ hy))]
    simp

theorem pat_protocol {name r : Text} (hne : name ≠ []) (h : ∀ c ∈ name, oident c = true) :
    ∃ n, stdLex .linkProtocol ('[' :: '[' :: (name ++ ':' :: r)) = some n := by
  simp only [stdLex, Pat.rx, seqs]
  rw [seq_run (n := 2) (by simp [Rx.run, List.isPrefixOf])]
  simp only [List.drop_succ_cons, List.drop_zero]
  rw [show orgIdent = Rx.many1 oident from rfl, seq_run (many1_run hne h (by simp; decide)), List.drop_left, Stamp.run_ch]
  exact ⟨_, rfl⟩

theorem pat_internal {t v : Text} (ht : Closed t) (hc : ':' ∉ t) (hv : Shut v) : stdLex .linkProtocol ('[' :: '[' :: (t ++ v)) = none := by
  simp only [stdLex, Pat.rx, seqs]
  rw [seq_run (n := 2) (by simp [Rx.run, List.isPrefixOf])]
  simp only [List.drop_succ_cons, List.drop_zero]
  rw [Option.map_eq_none_iff]
  obtain ⟨x, r, rfl, -⟩ := hv
  have hsplit : t ++ ']' :: x :: r = t.takeWhile oident ++ (t.dropWhile oident ++ ']' :: x :: r) := by
    rw [← List.append_assoc, List.takeWhile_append_dropWhile]
  by_cases he : t.takeWhile oident = []
  · rw [seq_left]
    show (Rx.many1 oident).run _ = none
    simp only [Rx.many1, Rx.run]
    rw [hsplit, he]
    have hd : ∀ c ∈ (t.dropWhile oident ++ ']' :: x :: r).head?, oident c = false := by
      intro c hc
      cases hw : t.dropWhile oident with
      | nil => rw [hw] at hc; cases hc; decide
      | cons y w =>
        rw [hw] at hc
        cases hc
        have := List.head?_dropWhile_not oident t
        rw [hw] at this
        simpa using this
    cases hw : t.dropWhile oident ++ ']' :: x :: r with
    | nil => simp
    | cons y w => simp [hd y (by rw [hw]; rfl)]
  · rw [hsplit, show orgIdent = Rx.many1 oident from rfl, seq_run (many1_run he (fun c hc => List.mem_takeWhile_imp hc) ?_), List.drop_left]
    · rw [Option.map_eq_none_iff]
      apply ch_run
      cases hw : t.dropWhile oident with
      | nil => simp
      | cons y w =>
        simp only [List.cons_append, List.head?_cons, ne_eq, Option.some.injEq]
        rintro rfl
        exact hc ((List.dropWhile_sublist oident).subset (by rw [hw]; simp))
    · intro c hc
      cases hw : t.dropWhile oident with
      | nil => rw [hw] at hc; cases hc; decide
      | cons y w =>
        rw [hw] at hc
        cases hc
        have := List.head?_dropWhile_not oident t
        rw [hw] at this
        simpa using this

theorem pat_continued {c : Char} {t v : Text} (hc : linkCls c = true) (ht : Closed t) (hv : Shut v) :
    ∃ n, stdLex .linkContinued ('[' :: '[' :: (c :: t ++ v)) = some n := by
  simp only [stdLex, Pat.rx, seqs]
  rw [seq_run (n := 2) (by simp [Rx.run, List.isPrefixOf])]
  simp only [List.drop_succ_cons, List.drop_zero, List.cons_append]
  rw [seq_run (n := 1) (by simp [Rx.run, hc])]
  simp only [List.drop_succ_cons, List.drop_zero]
  rw [show linkEnd.run (t ++ v) = some (t.length + 2) from until_run ht hv]
  exact ⟨_, rfl⟩

theorem brace_other {r : Text} : stdLex .completionPercent ('[' :: '[' :: r) = none ∧ stdLex .completionRatio ('[' :: '[' :: r) = none ∧
    stdLex .priority ('[' :: '[' :: r) = none ∧ stdLex .checkbox ('[' :: '[' :: r) = none ∧ stdLex .footnoteLinked ('[' :: '[' :: r) = none ∧
    stdLex .footnoteInline ('[' :: '[' :: r) = none ∧ isAtStr ('[' :: '[' :: r) "[%%".toList = false :=
  ⟨rfl, rfl, rfl, rfl, rfl, rfl, rfl⟩

theorem brace_case {r : Text} {pos col : Nat} {prev : Option Char} {out : List Tok} :
    charSwitch stdLex ⟨⟨'[' :: r, pos, col, prev⟩, out⟩ = caseBraceBegin stdLex ⟨⟨'[' :: r, pos, col, prev⟩, out⟩ := rfl

theorem brace_protocol {r : Text} {pos col : Nat} {prev : Option Char} {out : List Tok} (h : ∃ n, stdLex .linkProtocol ('[' :: '[' :: r) = some n) :
    charSwitch stdLex ⟨⟨'[' :: '[' :: r, pos, col, prev⟩, out⟩ = linkOpen (linkProtocolBody stdLex) ⟨⟨'[' :: '[' :: r, pos, col, prev⟩, out⟩ := by
  obtain ⟨n, h⟩ := h
  rw [brace_case]
  obtain ⟨h1, h2, h3, h4, h5, h6, h7⟩ := brace_other (r := r)
  unfold caseBraceBegin
  simp only [h, h1, h2, h3, h4, h5, h6, h7, Bool.false_eq_true, if_false]

theorem brace_continued {r : Text} {pos col : Nat} {prev : Option Char} {out : List Tok} (h0 : stdLex .linkProtocol ('[' :: '[' :: r) = none)
    (h : ∃ n, stdLex .linkContinued ('[' :: '[' :: r) = some n) :
    charSwitch stdLex ⟨⟨'[' :: '[' :: r, pos, col, prev⟩, out⟩ = linkOpen (linkContinuedBody stdLex) ⟨⟨'[' :: '[' :: r, pos, col, prev⟩, out⟩ := by
  obtain ⟨n, h⟩ := h
  rw [brace_case]
  obtain ⟨h1, h2, h3, h4, h5, h6, h7⟩ := brace_other (r := r)
  unfold caseBraceBegin
  simp only [h, h0, h1, h2, h3, h4, h5, h6, h7, Bool.false_eq_true, if_false]

/-! ## The parts of a link -/

theorem unit_until {k : TK} {t v : Text} (ht : Closed t) (hne : t ≠ []) (hv : Shut v) : Unit1 t v [(k, t)] (untilLinkEnd stdLex k) := by
  refine unit_congr (unit_adv hne) (fun pos col prev out => ?_)
  unfold untilLinkEnd
  rw [show stdLex .untilLinkEnd (t ++ v) = some (t.length + 2) from until_run ht hv]
  simp

theorem adv_ident {u v : Text} (hu : ∀ c ∈ u, isAlnum c = true) (hv : ∀ c ∈ v.head?, isAlnum c = false ∧ c ≠ '_') (pos col : Nat) (prev : Option Char) :
    advIdent ⟨u ++ v, pos, col, prev⟩ = Cur.adv u.length ⟨u ++ v, pos, col, prev⟩ := by
  refine advWhile_eq u _ v rfl (fun a b hab hb => ?_) ?_
  · cases b with
    | nil => exact absurd rfl hb
    | cons x b => simp [isAtAny, hu x (by rw [hab]; simp)]
  · cases v with
    | nil => exact .inl rfl
    | cons x v =>
      have := hv x rfl
      exact .inr (by simp [isAtAny, this])

theorem unit_http {secure : Bool} {r v : Text} (hr : Address r) (hv : ∀ c ∈ v.head?, c = ' ' ∨ c = ']' ∨ c = '\n') :
    Unit1 (webText secure r) v [(.LinkProtocolHttp, (if secure then "https" else "http").toList), (.LinkTarget, ':' :: r)] (switchWord stdLex) := by
  have h1 : Unit1 (if secure then "https" else "http").toList ((':' :: r) ++ v) [(.LinkProtocolHttp, (if secure then "https" else "http").toList)]
      (token .LinkProtocolHttp (fun c => let c := c.adv 4; if isAtAny c.rest (fun a => a = 's' || a = 'S') then c.next else c)) := by
    refine unit_token (by cases secure <;> simp) (fun pos col prev => ?_)
    cases secure <;> rfl
  have h2 : Unit1 (':' :: r) v [(.LinkTarget, ':' :: r)] (token .LinkTarget
      (fun c => c.advWhile fun r => !isAtAny r fun a => a = ' ' || a = ']' || a = '\n')) := by
    refine unit_token (by simp) (fun pos col prev => ?_)
    refine advWhile_eq (':' :: r) _ v rfl (fun a b hab hb => ?_) ?_
    · cases b with
      | nil => exact absurd rfl hb
      | cons x b =>
        have hx : x ∈ ':' :: r := by rw [hab]; simp
        rcases List.mem_cons.mp hx with rfl | hx
        · simp [isAtAny]
        · have h3 := hr.1 x hx
          have h4 : x ≠ ' ' := fun e => hr.2.1 (e ▸ hx)
          simp [isAtAny, h3, h4]
    · cases v with
      | nil => exact .inl rfl
      | cons x v => rcases hv x rfl with rfl | rfl | rfl <;> exact .inr (by simp [isAtAny])
  have := unit_seq h1 h2 (by simp) (by simp [rawText])
  refine unit_congr this (fun pos col prev out => ?_)
  cases secure <;> rfl

theorem unit_url {secure : Bool} {r v : Text} (hr : Address r) (hv : ∀ c ∈ v.head?, c = ' ' ∨ c = ']' ∨ c = '\n') :
    Unit1 (webText secure r) v [(.LinkProtocolHttp, (if secure then "https" else "http").toList), (.LinkTarget, ':' :: r)] (charSwitch stdLex) := by
  refine unit_congr (unit_http hr hv) (fun pos col prev out => ?_)
  have : ∃ w, webText secure r ++ v = 'h' :: w := by cases secure <;> exact ⟨_, rfl⟩
  obtain ⟨w, hw⟩ := this
  rw [hw]
  exact charSwitch_alpha (by decide)

/-- The tokens of the start of a link, without the name of a person. -/
def Head.raw : Head → Raw
  | .web s r => [(.LinkProtocolHttp, (if s then "https" else "http").toList), (.LinkTarget, ':' :: r)]
  | .file p => [(.LinkProtocolFile, "file".toList), (.LinkTarget, ':' :: p)]
  | .attachment p => [(.LinkProtocolAttachment, "attachment".toList), (.LinkTarget, ':' :: p)]
  | .id t => [(.LinkProtocolId, "id".toList), (.LinkTarget, ':' :: t)]
  | .custom t => [(.LinkProtocolCustomId, ['#']), (.LinkTarget, t)]
  | .title m g ts => [(.LinkProtocolTitle, Head.text (.title m g ts))]
  | .path p => [(.LinkTargetFile, p)]
  | .internal t => [(.LinkProtocolInternal, t)]
  | .person _ => [(.LinkProtocol, "person:".toList)]
  | .user name _ => [(.LinkProtocol, name ++ [':'])]

/-- The text of these tokens. -/
def Head.start (h : Head) : Text := rawText h.raw

theorem start_web (s : Bool) (r : Text) : Head.start (.web s r) = webText s r := by
  unfold Head.start Head.raw rawText webText
  simp only [List.map_cons, List.map_nil, List.flatten_cons, List.flatten_nil, List.append_nil]

/-- The target is a row of words. -/
def Head.rowed : Head → Bool
  | .person _ | .user _ _ => true
  | _ => false

theorem start_text {h : Head} (hp : h.rowed = false) : h.start = h.text := by
  cases h with
  | person ps => cases hp
  | user n ps => cases hp
  | web s r => exact start_web s r
  | file p => exact congrArg (fun w => "file".toList ++ w) (List.append_nil (':' :: p))
  | attachment p => exact congrArg (fun w => "attachment".toList ++ w) (List.append_nil (':' :: p))
  | id t => exact congrArg (fun w => "id".toList ++ w) (List.append_nil (':' :: t))
  | custom t => exact congrArg (fun w => '#' :: w) (List.append_nil t)
  | title m g ts => exact List.append_nil _
  | path p => exact List.append_nil _
  | internal t => exact List.append_nil _

theorem start_person (ps : List Piece) : Head.start (.person ps) = "person:".toList := rfl

theorem start_user (n : Text) (ps : List Piece) : Head.start (.user n ps) = n ++ [':'] := List.append_nil _

theorem unit_protocol {name : Text} {k : TK} {f : Cur → Cur} {t v : Text} (hne : name ≠ []) (hn : ∀ c ∈ name, isAlnum c = true)
    (hf : ∀ pos col prev w, f ⟨name ++ ':' :: w, pos, col, prev⟩ = Cur.adv name.length ⟨name ++ ':' :: w, pos, col, prev⟩)
    (hb : ∀ pos col prev out w, linkProtocolBody stdLex ⟨⟨name ++ ':' :: w, pos, col, prev⟩, out⟩ =
      BaseLexer.protocolTarget stdLex k f ⟨⟨name ++ ':' :: w, pos, col, prev⟩, out⟩) (ht : Closed t) (hv : Shut v) :
    Unit1 ("[[".toList ++ (name ++ ':' :: t)) v ([(.LinkBegin, "[[".toList)] ++ [(k, name), (.LinkTarget, ':' :: t)]) (charSwitch stdLex) := by
  have h1 : Unit1 name ((':' :: t) ++ v) [(k, name)] (token k f) := unit_token hne (fun pos col prev => hf pos col prev (t ++ v))
  have hct : Closed (':' :: t) := by
    intro c hc
    rcases List.mem_cons.mp hc with rfl | hc
    · decide
    · exact ht c hc
  have h2 := unit_seq h1 (unit_until (k := .LinkTarget) hct (by simp) hv) (by simp) (by simp [rawText])
  have h3 : Unit1 (name ++ ':' :: t) v [(k, name), (.LinkTarget, ':' :: t)] (linkProtocolBody stdLex) := by
    refine unit_congr h2 (fun pos col prev out => ?_)
    rw [List.append_assoc]
    exact hb pos col prev out (t ++ v)
  have h0 : Unit1 "[[".toList ((name ++ ':' :: t) ++ v) [(.LinkBegin, "[[".toList)] (tokenAdv .LinkBegin 2) := unit_adv (by simp)
  refine unit_congr (unit_seq h0 h3 (by simp) (by simp [rawText])) (fun pos col prev out => ?_)
  have := brace_protocol (pos := pos) (col := col) (prev := prev) (out := out)
    (pat_protocol (r := t ++ v) hne (fun c hc => by simp [oident, hn c hc]))
  simpa [linkOpen] using this

theorem unit_continued {t v : Text} {c : Char} {ts : Raw} (hc : linkCls c = true) (ht : Closed (c :: t)) (hv : Shut v)
    (h0 : stdLex .linkProtocol ('[' :: '[' :: (c :: t ++ v)) = none) (h : Unit1 (c :: t) v ts (linkContinuedBody stdLex)) :
    Unit1 ("[[".toList ++ (c :: t)) v ([(.LinkBegin, "[[".toList)] ++ ts) (charSwitch stdLex) := by
  have h1 : Unit1 "[[".toList ((c :: t) ++ v) [(.LinkBegin, "[[".toList)] (tokenAdv .LinkBegin 2) := unit_adv (by simp)
  refine unit_congr (unit_seq h1 h (by simp) (by simp [rawText])) (fun pos col prev out => ?_)
  have := brace_continued (pos := pos) (col := col) (prev := prev) (out := out) h0
    (pat_continued hc (fun y hy => ht y (List.mem_cons_of_mem _ hy)) hv)
  simpa [linkOpen] using this

theorem protocol_none {c : Char} {r : Text} (h : oident c = false) : stdLex .linkProtocol ('[' :: '[' :: c :: r) = none := by
  simp only [stdLex, Pat.rx, seqs]
  rw [seq_run (n := 2) (by simp [Rx.run, List.isPrefixOf])]
  simp only [List.drop_succ_cons, List.drop_zero]
  rw [seq_left]
  · rfl
  · show (Rx.many1 oident).run _ = none
    simp [Rx.many1, Rx.run, h]

theorem takeWhile_name {t v : Text} (ht : Closed t) (hc : ':' ∉ t) (hv : Shut v) :
    ((t ++ v).takeWhile fun a => !(a = ']' || a = ':' || a = '\n')) = t := by
  obtain ⟨x, r, rfl, -⟩ := hv
  rw [List.takeWhile_append_of_pos]
  · simp
  · intro c hc'
    have h1 := ht c hc'
    have h2 : c ≠ ':' := fun e => hc (e ▸ hc')
    simp [h1, h2]

theorem unit_internal {t v : Text} (hne : t ≠ []) (ht : Closed t) (hc : ':' ∉ t) (hv : Shut v) :
    Unit1 t v [(.LinkProtocolInternal, t)] protocolOrInternal := by
  refine unit_congr (unit_adv hne) (fun pos col prev out => ?_)
  unfold protocolOrInternal
  simp only
  rw [takeWhile_name ht hc hv]
  obtain ⟨x, r, rfl, -⟩ := hv
  simp [isAt]

theorem closed_join {ts : List Text} (h : ∀ t ∈ ts, Closed t) : Closed (joinSlash ts) := by
  induction ts with
  | nil => intro c hc; cases hc
  | cons t ts ih =>
    cases ts with
    | nil => exact h t (by simp)
    | cons t' ts =>
      intro c hc
      simp only [joinSlash, List.mem_append, List.mem_cons] at hc
      rcases hc with hc | rfl | hc
      · exact h t (by simp) c hc
      · decide
      · exact ih (fun x hx => h x (List.mem_cons_of_mem _ hx)) c hc

theorem closed_append {a b : Text} (ha : Closed a) (hb : Closed b) : Closed (a ++ b) := by
  intro c hc
  rcases List.mem_append.mp hc with hc | hc
  · exact ha c hc
  · exact hb c hc

theorem closed_replicate {n : Nat} {c : Char} (h : c ≠ ']' ∧ c ≠ '\n') : Closed (List.replicate n c) := by
  intro x hx
  rw [(List.mem_replicate.mp hx).2]
  exact h

theorem iat_false {name : Text} (hn : ∀ c ∈ name, isLower c || isDigit c) (v : Text) : ∀ {x : Text}, (∀ c ∈ x, isLower c = true) → ¬ x <+: name →
    isIat (name ++ ([':'] ++ v)) x = .ok false := by
  have hl : ∀ c, (isLower c || isDigit c) = true → toLower c = c := by
    intro c h
    unfold toLower
    rw [if_neg]
    intro hu
    unfold isUpper at hu
    simp only [Bool.and_eq_true, decide_eq_true_eq] at hu
    unfold isLower isDigit at h
    simp only [Bool.or_eq_true, Bool.and_eq_true, decide_eq_true_eq] at h
    rcases h with h | h
    · exact absurd (Nat.le_trans (Char.le_def.mp h.1) (Char.le_def.mp hu.2)) (by decide)
    · exact absurd (Nat.le_trans (Char.le_def.mp hu.1) (Char.le_def.mp h.2)) (by decide)
  induction name with
  | nil =>
    intro x hx hp
    cases x with
    | nil => exact absurd (List.nil_prefix) hp
    | cons t ts =>
      have := hx t List.mem_cons_self
      rw [List.nil_append, List.singleton_append, isIat, if_pos]
      rw [hl t (by simp [this])]
      rintro rfl
      exact absurd this (by decide)
  | cons c cs ih =>
    intro x hx hp
    cases x with
    | nil => exact absurd (List.nil_prefix) hp
    | cons t ts =>
      have h1 := hx t List.mem_cons_self
      have h2 := hn c List.mem_cons_self
      rw [List.cons_append, isIat, hl c h2, hl t (by simp [h1])]
      by_cases he : c = t
      · subst he
        rw [if_neg (fun h => h rfl)]
        exact ih (fun d hd => hn d (List.mem_cons_of_mem _ hd)) (fun d hd => hx d (List.mem_cons_of_mem _ hd)) (fun h => hp (List.cons_prefix_cons.mpr ⟨rfl, h⟩))
      · rw [if_pos he]

theorem unit_head {h : Head} {v : Text} (hh : h.Valid) (hv : h.rowed = false → Shut v) :
    Unit1 ("[[".toList ++ h.start) v ([(.LinkBegin, "[[".toList)] ++ h.raw) (charSwitch stdLex) := by
  cases h with
  | web s r =>
    replace hv := hv rfl
    have h0 : Unit1 "[[".toList (webText s r ++ v) [(.LinkBegin, "[[".toList)] (tokenAdv .LinkBegin 2) := unit_adv (by simp)
    have h1 : Unit1 (webText s r) v (Head.raw (.web s r)) (linkProtocolBody stdLex) := by
      refine unit_congr (unit_http hh ?_) (fun pos col prev out => ?_)
      · obtain ⟨x, w, rfl, -⟩ := hv
        simp
      · cases s <;> rfl
    have hne : webText s r ≠ [] := by cases s <;> exact nofun
    have h2 := unit_seq h0 h1 hne (by simp [rawText])
    rw [start_web]
    refine unit_congr h2 (fun pos col prev out => ?_)
    have := brace_protocol (pos := pos) (col := col) (prev := prev) (out := out)
      (pat_protocol (name := (if s then "https" else "http").toList) (r := r ++ v) (by cases s <;> exact nofun) (by cases s <;> decide))
    have he : "[[".toList ++ webText s r ++ v = '[' :: '[' :: ((if s then "https" else "http").toList ++ ':' :: (r ++ v)) := by
      unfold webText
      simp only [List.append_assoc, List.cons_append]
      rfl
    rw [he, this]
    rfl
  | file p =>
    rw [start_text rfl]
    exact unit_protocol (name := "file".toList) (k := .LinkProtocolFile) (f := Cur.adv 4) (by simp) (by decide) (fun _ _ _ _ => rfl)
      (fun _ _ _ _ _ => rfl) hh.1 (hv rfl)
  | attachment p =>
    rw [start_text rfl]
    exact unit_protocol (name := "attachment".toList) (k := .LinkProtocolAttachment) (f := advIdent) (by simp) (by decide)
      (fun pos col prev w => adv_ident (by decide) (by simp; decide) pos col prev) (fun _ _ _ _ _ => rfl) hh.1 (hv rfl)
  | id t =>
    rw [start_text rfl]
    exact unit_protocol (name := "id".toList) (k := .LinkProtocolId) (f := advIdent) (by simp) (by decide)
      (fun pos col prev w => adv_ident (by decide) (by simp; decide) pos col prev) (fun _ _ _ _ _ => rfl) hh.1 (hv rfl)
  | custom t =>
    rw [start_text rfl]
    replace hv := hv rfl
    have ht : Closed ('#' :: t) := by
      intro c hc
      rcases List.mem_cons.mp hc with rfl | hc
      · decide
      · exact hh.1 c hc
    refine unit_continued (c := '#') (t := t) (by decide) ht hv (protocol_none (by decide)) ?_
    have h1 : Unit1 ['#'] (t ++ v) [(.LinkProtocolCustomId, ['#'])] (tokenAdv .LinkProtocolCustomId 1) := unit_adv (by simp)
    exact unit_congr (unit_seq h1 (unit_until (k := .LinkTarget) hh.1 hh.2.2 hv) hh.2.2 (by simp [rawText])) (fun _ _ _ _ => rfl)
  | title m g ts =>
    rw [start_text rfl]
    replace hv := hv rfl
    obtain ⟨h1, h2, -⟩ := hh
    have ht : Closed (Head.text (.title m g ts)) :=
      closed_append (closed_append (closed_replicate (by decide)) (closed_replicate (by decide))) (closed_join (fun t ht => (h2 t ht).1))
    have he : Head.text (.title m g ts) = '*' :: (List.replicate m '*' ++ List.replicate g ' ' ++ joinSlash ts) := rfl
    have h3 : Unit1 (Head.text (.title m g ts)) v [(.LinkProtocolTitle, Head.text (.title m g ts))] (linkContinuedBody stdLex) := by
      refine unit_congr (unit_until (k := .LinkProtocolTitle) ht (by rw [he]; simp) hv) (fun _ _ _ _ => ?_)
      rw [he]
      rfl
    show Unit1 ("[[".toList ++ Head.text (.title m g ts)) v ([(.LinkBegin, "[[".toList)] ++ [(.LinkProtocolTitle, Head.text (.title m g ts))]) _
    rw [he] at h3 ht ⊢
    exact unit_continued (by decide) ht hv (protocol_none (by decide)) h3
  | path p =>
    rw [start_text rfl]
    replace hv := hv rfl
    obtain ⟨h1, h2⟩ := hh
    cases p with
    | nil => simp at h2
    | cons c p =>
      have hc : c = '.' ∨ c = '/' := by simpa using h2
      refine unit_continued (by rcases hc with rfl | rfl <;> decide) h1 hv (protocol_none (by rcases hc with rfl | rfl <;> decide)) ?_
      refine unit_congr (unit_until (k := .LinkTargetFile) h1 (by simp) hv) (fun _ _ _ _ => ?_)
      rcases hc with rfl | rfl <;> rfl
  | internal t =>
    rw [start_text rfl]
    replace hv := hv rfl
    obtain ⟨h1, h2, c, h3, h4⟩ := hh
    cases t with
    | nil => cases h3
    | cons x t =>
      cases h3
      have hl : linkCls c = true := by
        unfold nameChar at h4
        unfold linkCls oident
        rw [h4]; rfl
      refine unit_continued hl h1 hv (pat_internal h1 h2 hv) ?_
      refine unit_congr (unit_internal (by simp) h1 h2 hv) (fun _ _ _ _ => ?_)
      have hx : ∀ y, nameChar y = false → c ≠ y := fun y hy e => by rw [e, hy] at h4; cases h4
      simp [linkContinuedBody, hx '*' (by decide), hx '#' (by decide), hx '/' (by decide), hx '.' (by decide)]
  | person ps =>
    have h0 : Unit1 "[[".toList ("person:".toList ++ v) [(.LinkBegin, "[[".toList)] (tokenAdv .LinkBegin 2) := unit_adv (by simp)
    have h1 : Unit1 "person:".toList v [(.LinkProtocol, "person:".toList)] (linkProtocolBody stdLex) := by
      refine unit_congr (unit_adv (by simp)) (fun pos col prev out => ?_)
      rfl
    have h2 := unit_seq h0 h1 nofun (by simp [rawText])
    rw [start_person]
    refine unit_congr h2 (fun pos col prev out => ?_)
    have := brace_protocol (pos := pos) (col := col) (prev := prev) (out := out)
      (pat_protocol (name := "person".toList) (r := v) (by simp) (by decide))
    rw [show "[[".toList ++ "person:".toList ++ v = '[' :: '[' :: ("person".toList ++ ':' :: v) from rfl, this]
    rfl

  | user name ps =>
    obtain ⟨⟨n1, n2, n3, n4⟩, -⟩ := hh
    have hal : ∀ c ∈ name, isAlnum c = true := fun c hc => by
      have := n2 c hc
      unfold isAlnum isAlpha
      rcases Bool.or_eq_true _ _ ▸ this with h | h <;> simp [h]
    have h0 : Unit1 "[[".toList (name ++ [':'] ++ v) [(.LinkBegin, "[[".toList)] (tokenAdv .LinkBegin 2) := unit_adv (by simp)
    have h1 : Unit1 (name ++ [':']) v [(.LinkProtocol, name ++ [':'])] (linkProtocolBody stdLex) := by
      refine unit_congr (unit_adv (by simp)) (fun pos col prev out => ?_)
      have hi : ∀ x ∈ ["http", "file", "attachment", "id"], isIat (name ++ [':'] ++ v) x.toList = .ok false := fun x hx => by
        rw [List.append_assoc]
        exact iat_false n2 v (by revert x; decide) (n4 x hx)
      simp only [linkProtocolBody, hi "http" (by simp), hi "file" (by simp), hi "attachment" (by simp), hi "id" (by simp)]
      have ht : ((name ++ [':'] ++ v).takeWhile fun a => !(a = ']' || a = ':' || a = '\n')) = name := by
        rw [List.append_assoc, List.takeWhile_append_of_pos (fun c hc => by
          have := hal c hc
          have hx : ∀ y, isAlnum y = false → c ≠ y := fun y hy e => by rw [e, hy] at this; cases this
          simp [hx ']' (by decide), hx ':' (by decide), hx '\n' (by decide)])]
        simp
      show protocolOrInternal _ = _
      unfold protocolOrInternal
      simp only [ht]
      rw [if_pos (by simp [isAt])]
      simp
    have h2 := unit_seq h0 h1 (by simp) (by simp [rawText])
    rw [start_user]
    refine unit_congr h2 (fun pos col prev out => ?_)
    have := brace_protocol (pos := pos) (col := col) (prev := prev) (out := out)
      (pat_protocol (name := name) (r := v) n1 (fun c hc => by simp [oident, hal c hc]))
    rw [show "[[".toList ++ (name ++ [':']) ++ v = '[' :: '[' :: (name ++ ':' :: v) by simp, this]
    rfl

theorem unit_split {v : Text} : Unit1 "][".toList v [(.LinkSplit, "][".toList)] (charSwitch stdLex) :=
  unit_congr (unit_adv (by simp)) (fun _ _ _ _ => rfl)

theorem unit_end {v : Text} : Unit1 "]]".toList v [(.LinkEnd, "]]".toList)] (charSwitch stdLex) :=
  unit_congr (unit_adv (by simp)) (fun _ _ _ _ => rfl)

def noteText (t : Text) : Text := "[fn:".toList ++ t ++ "]".toList

theorem unit_note {t v : Text} (hne : t ≠ []) (ht : ∀ c ∈ t, nameChar c = true) :
    Unit1 (noteText t) v [(.FootnoteLinked, noteText t)] (charSwitch stdLex) := by
  refine unit_congr (unit_adv (by simp [noteText])) (fun pos col prev out => ?_)
  have he : noteText t ++ v = '[' :: 'f' :: 'n' :: ':' :: (t ++ ']' :: v) := by simp [noteText]
  have hlen : (noteText t).length = 4 + (t.length + 1) := by simp [noteText]; omega
  rw [he, hlen]
  rw [brace_case]
  have hil : (Rx.ilit "[fn:".toList).run ('[' :: 'f' :: 'n' :: ':' :: (t ++ ']' :: v)) = some 4 := by
    simp only [Rx.run, List.map_cons]
    rw [if_pos]
    · rfl
    · simp [List.isPrefixOf]
  have hc : (t ++ ']' :: v).head? ≠ some ':' := by
    cases t with
    | nil => exact absurd rfl hne
    | cons x t =>
      simp only [List.cons_append, List.head?_cons, ne_eq, Option.some.injEq]
      rintro rfl
      exact absurd (ht ':' (by simp)) (by decide)
  have h5 : stdLex .footnoteLinked ('[' :: 'f' :: 'n' :: ':' :: (t ++ ']' :: v)) = some (4 + (t.length + 1)) := by
    simp only [stdLex, Pat.rx, seqs]
    rw [seq_run (n := 4)]
    · simp only [List.drop_succ_cons, List.drop_zero]
      rw [show orgIdent = Rx.many1 oident from rfl, seq_run (many1_run (p := oident) (v := ']' :: v) hne ht (by simp; decide)), List.drop_left, Stamp.run_ch]
      rfl
    · rw [Rx.run, hil]
      simp only
      rw [if_neg]
      simpa [List.head?_eq_getElem?] using hc
  have h1 : stdLex .completionPercent ('[' :: 'f' :: 'n' :: ':' :: (t ++ ']' :: v)) = none := rfl
  have h2 : stdLex .completionRatio ('[' :: 'f' :: 'n' :: ':' :: (t ++ ']' :: v)) = none := rfl
  have h3 : stdLex .priority ('[' :: 'f' :: 'n' :: ':' :: (t ++ ']' :: v)) = none := rfl
  have h4 : stdLex .checkbox ('[' :: 'f' :: 'n' :: ':' :: (t ++ ']' :: v)) = none := rfl
  have h6 : isAtStr ('[' :: 'f' :: 'n' :: ':' :: (t ++ ']' :: v)) "[%%".toList = false := rfl
  unfold caseBraceBegin
  simp only [h1, h2, h3, h4, h5, h6, Bool.false_eq_true, if_false]

end Verif.Link
