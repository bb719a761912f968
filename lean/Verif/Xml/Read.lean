import Verif.Xml.Spec
import Mathlib.Tactic.SplitIfs
import Mathlib.Tactic.Conv

/-!
# The text is read again
-/

namespace Verif.Xml
open Verif.Drawer (Text)

/-! ## Lists -/

theorem take_drop {p : Char → Bool} {a b : Text} (ha : ∀ c ∈ a, p c = true) (hb : ∀ c, b.head? = some c → p c = false) :
    (a ++ b).takeWhile p = a ∧ (a ++ b).dropWhile p = b := by
  induction a with
  | nil =>
    cases b with
    | nil => exact ⟨rfl, rfl⟩
    | cons c b =>
      have := hb c rfl
      simp [this]
  | cons c a ih =>
    obtain ⟨h1, h2⟩ := ih fun x hx => ha x (List.mem_cons_of_mem _ hx)
    have := ha c List.mem_cons_self
    simp [this, h1, h2]

/-- White space. -/
def Blank (w : Text) : Prop := ∀ c ∈ w, isSpace c = true

theorem Blank.append {a b : Text} (ha : Blank a) (hb : Blank b) : Blank (a ++ b) := by
  intro c hc
  rcases List.mem_append.mp hc with h | h
  · exact ha c h
  · exact hb c h

theorem blank_pad (d i : Nat) : Blank (pad d i) := by
  intro c hc
  rw [(List.mem_replicate.mp hc).2]
  rfl

theorem blank_lineEnd (i : Nat) : Blank (lineEnd i) := by
  intro c hc
  unfold lineEnd at hc
  split_ifs at hc
  · rw [List.mem_singleton.mp hc]; rfl
  · cases hc

theorem drop_blank {w : Text} (h : Blank w) (t : Text) : (w ++ t).dropWhile isSpace = t.dropWhile isSpace := by
  induction w with
  | nil => rfl
  | cons c w ih => rw [List.cons_append, List.dropWhile_cons_of_pos (h c List.mem_cons_self), ih fun x hx => h x (List.mem_cons_of_mem _ hx)]

theorem trim_left {w : Text} (h : Blank w) (t : Text) : trim (w ++ t) = trim t := by
  unfold trim
  rw [drop_blank h]

theorem drop_right {w t : Text} : (t ++ w).dropWhile isSpace = if t.dropWhile isSpace = [] then w.dropWhile isSpace else t.dropWhile isSpace ++ w := by
  induction t with
  | nil => simp
  | cons c t ih =>
    rw [List.cons_append]
    cases hc : isSpace c with
    | true => rw [List.dropWhile_cons_of_pos hc, List.dropWhile_cons_of_pos hc, ih]
    | false =>
      rw [List.dropWhile_cons_of_neg (by simp [hc]), List.dropWhile_cons_of_neg (by simp [hc])]
      simp

theorem blank_drop {w : Text} (h : Blank w) : w.dropWhile isSpace = [] := by
  have := drop_blank h []
  simpa using this

theorem trim_right {w : Text} (h : Blank w) (t : Text) : trim (t ++ w) = trim t := by
  unfold trim
  rw [drop_right]
  split_ifs with h0
  · rw [h0, blank_drop h]
  · rw [List.reverse_append, drop_blank (fun c hc => h c (List.mem_reverse.mp hc))]

theorem trim_blank {w : Text} (h : Blank w) : trim w = [] := by
  unfold trim
  rw [blank_drop h]
  rfl

theorem blank_no_lt {w : Text} (h : Blank w) : ∀ c ∈ w, decide (c ≠ '<') = true := by
  intro c hc
  have := h c hc
  rw [decide_eq_true_iff]
  rintro rfl
  cases this

theorem blank_no_amp {w : Text} (h : Blank w) : ∀ c ∈ w, c ≠ '&' := by
  intro c hc
  have := h c hc
  rintro rfl
  cases this

/-! ## Entities -/

theorem decode_plain {c : Char} (h : c ≠ '&') (n : Nat) (t : Text) : decode (n + 1) (c :: t) = (decode n t).map (c :: ·) := by
  rw [decode, if_neg h]

theorem decode_escape (c : Char) (n : Nat) (t : Text) : decode (n + 1) (escape c ++ t) = (decode n t).map (c :: ·) := by
  unfold escape
  split_ifs with h1 h2 h3
  · subst h1; rfl
  · subst h2; rfl
  · subst h3; rfl
  · exact decode_plain h1 n t

theorem decode_escapeIn (c : Char) (n : Nat) (t : Text) : decode (n + 1) (escapeIn c ++ t) = (decode n t).map (c :: ·) := by
  unfold escapeIn
  split_ifs with h1 h2 h3 h4 h5
  · subst h1; rfl
  · subst h2; rfl
  · subst h3; rfl
  · subst h4; rfl
  · subst h5; rfl
  · exact decode_plain h1 n t

theorem decode_flat {f : Char → Text} (hf : ∀ c n t, decode (n + 1) (f c ++ t) = (decode n t).map (c :: ·)) (s t : Text) (n : Nat) :
    decode (n + s.length) ((s.map f).flatten ++ t) = (decode n t).map (s ++ ·) := by
  induction s with
  | nil => simp
  | cons c s ih =>
    rw [List.map_cons, List.flatten_cons, List.append_assoc, List.length_cons, ← Nat.add_assoc, hf, ih, Option.map_map]
    rfl

theorem flat_length {f : Char → Text} (hf : ∀ c, f c ≠ []) (s : Text) : s.length ≤ (s.map f).flatten.length := by
  induction s with
  | nil => exact Nat.le_refl _
  | cons c s ih =>
    rw [List.map_cons, List.flatten_cons, List.length_append, List.length_cons]
    have := List.length_pos_iff.mpr (hf c)
    omega

theorem escape_ne (c : Char) : escape c ≠ [] := by
  unfold escape
  split_ifs <;> simp

theorem escapeIn_ne (c : Char) : escapeIn c ≠ [] := by
  unfold escapeIn
  split_ifs <;> simp

theorem decode_blank {w : Text} (h : ∀ c ∈ w, c ≠ '&') (t : Text) (n : Nat) : decode (n + w.length) (w ++ t) = (decode n t).map (w ++ ·) := by
  induction w with
  | nil => simp
  | cons c w ih =>
    rw [List.cons_append, List.length_cons, ← Nat.add_assoc, decode_plain (h c List.mem_cons_self), ih fun x hx => h x (List.mem_cons_of_mem _ hx), Option.map_map]
    rfl

/-- More steps do not change what is read. -/
theorem decode_more {n : Nat} {t x : Text} (h : decode n t = some x) : ∀ m, n ≤ m → decode m t = some x := by
  induction n generalizing t x with
  | zero => cases h
  | succ n ih =>
    intro m hm
    obtain ⟨m, rfl⟩ : ∃ k, m = k + 1 := ⟨m - 1, by omega⟩
    cases t with
    | nil => exact h
    | cons c r =>
      rw [decode] at h ⊢
      split_ifs at h ⊢ with hc
      · dsimp only at h ⊢
        cases hd : List.dropWhile (fun x => decide (x ≠ ';')) r with
        | nil => rw [hd] at h; cases h
        | cons y s =>
          rw [hd] at h
          dsimp only at h ⊢
          cases he : entity (List.takeWhile (fun x => decide (x ≠ ';')) r) with
          | none => rw [he] at h; cases h
          | some z =>
            rw [he] at h
            simp only [Option.bind_some] at h ⊢
            cases hq : decode n s with
            | none => rw [hq] at h; cases h
            | some q => rw [ih hq m (by omega)]; rw [hq] at h; exact h
      · cases hq : decode n r with
        | none => rw [hq] at h; cases h
        | some q => rw [ih hq m (by omega)]; rw [hq] at h; exact h

theorem escape_no_lt (s : Text) : ∀ c ∈ escapeText s, decide (c ≠ '<') = true := by
  intro c hc
  obtain ⟨l, hl, hcl⟩ := List.mem_flatten.mp hc
  obtain ⟨d, _, rfl⟩ := List.mem_map.mp hl
  rw [decide_eq_true_iff]
  rintro rfl
  unfold escape at hcl
  split_ifs at hcl with h1 h2 h3
  · exact absurd hcl (by decide)
  · exact absurd hcl (by decide)
  · exact absurd hcl (by decide)
  · exact h2 (List.mem_singleton.mp hcl).symm

theorem escapeAttr_no (s : Text) : (∀ c ∈ escapeAttr s, decide (c ≠ '"') = true) ∧ '<' ∉ escapeAttr s := by
  have key : ∀ (x : Char), (x = '"' ∨ x = '<') → x ∉ escapeAttr s := by
    intro x hx hc
    obtain ⟨l, hl, hcl⟩ := List.mem_flatten.mp hc
    obtain ⟨d, _, rfl⟩ := List.mem_map.mp hl
    unfold escapeIn at hcl
    split_ifs at hcl with h1 h2 h3 h4 h5
    · rcases hx with rfl | rfl <;> exact absurd hcl (by decide)
    · rcases hx with rfl | rfl <;> exact absurd hcl (by decide)
    · rcases hx with rfl | rfl <;> exact absurd hcl (by decide)
    · rcases hx with rfl | rfl <;> exact absurd hcl (by decide)
    · rcases hx with rfl | rfl <;> exact absurd hcl (by decide)
    · have := List.mem_singleton.mp hcl
      subst this
      rcases hx with h | h
      · exact h4 h
      · exact h2 h
  refine ⟨fun c hc => ?_, key '<' (.inr rfl)⟩
  rw [decide_eq_true_iff]
  rintro rfl
  exact key _ (.inl rfl) hc

/-! ## Comments and character data -/

theorem comment_upTo (t r : Text) :
    upTo "--".toList (escapeComment false t ++ ("-->".toList ++ r)) = some (escapeComment false t, ">".toList ++ r) ∧
    upTo "--".toList ('-' :: (escapeComment true t ++ ("-->".toList ++ r))) = some ('-' :: escapeComment true t, ">".toList ++ r) := by
  have step : ∀ (c : Char) (u : Text), c ≠ '-' → upTo "--".toList (c :: u) = (upTo "--".toList u).map fun p => (c :: p.1, p.2) := by
    intro c u hc
    rw [upTo, if_neg]
    simp [List.isPrefixOf, Ne.symm hc]
  have dash : ∀ (c : Char) (u : Text), c ≠ '-' → upTo "--".toList ('-' :: c :: u) = (upTo "--".toList (c :: u)).map fun p => ('-' :: p.1, p.2) := by
    intro c u hc
    rw [upTo, if_neg]
    simp [List.isPrefixOf, Ne.symm hc]
  have ent : ∀ (u : Text), upTo "--".toList ("&#45;".toList ++ u) = (upTo "--".toList u).map fun p => ("&#45;".toList ++ p.1, p.2) := by
    intro u
    show upTo "--".toList ('&' :: '#' :: '4' :: '5' :: ';' :: u) = _
    rw [step _ _ (by decide), step _ _ (by decide), step _ _ (by decide), step _ _ (by decide), step _ _ (by decide)]
    cases upTo "--".toList u <;> rfl
  induction t with
  | nil =>
    constructor
    · rfl
    · have e : '-' :: (escapeComment true [] ++ ("-->".toList ++ r)) = '-' :: '&' :: '#' :: '4' :: '5' :: ';' :: ("-->".toList ++ r) := rfl
      rw [e, dash _ _ (by decide), step _ _ (by decide), step _ _ (by decide), step _ _ (by decide), step _ _ (by decide), step _ _ (by decide)]
      rfl
  | cons c t ih =>
    obtain ⟨h1, h2⟩ := ih
    by_cases hc : c = '-'
    · subst hc
      constructor
      · have e : escapeComment false ('-' :: t) = '-' :: escapeComment true t := by simp [escapeComment]
        rw [e]
        exact h2
      · have e : escapeComment true ('-' :: t) = "&#45;".toList ++ escapeComment false t := by simp [escapeComment]
        rw [e, List.append_assoc]
        show upTo "--".toList ('-' :: '&' :: ('#' :: '4' :: '5' :: ';' :: (escapeComment false t ++ ("-->".toList ++ r)))) = _
        rw [dash _ _ (by decide)]
        have := ent (escapeComment false t ++ ("-->".toList ++ r))
        rw [h1] at this
        have e2 : '&' :: ('#' :: '4' :: '5' :: ';' :: (escapeComment false t ++ ("-->".toList ++ r))) = "&#45;".toList ++ (escapeComment false t ++ ("-->".toList ++ r)) := rfl
        rw [e2, this]
        rfl
    · have e : ∀ b, escapeComment b (c :: t) = c :: escapeComment false t := by
        intro b
        cases b <;> simp [escapeComment, hc]
      constructor
      · rw [e, List.cons_append, step _ _ hc, h1]
        rfl
      · rw [e, List.cons_append, dash _ _ hc, step _ _ hc, h1]
        rfl

theorem cdata_upTo {t : Text} (h : ¬ "]]>".toList <:+: t) (r : Text) : upTo "]]>".toList (t ++ ("]]>".toList ++ r)) = some (t, r) := by
  induction t with
  | nil => rfl
  | cons c t ih =>
    have ht : ¬ "]]>".toList <:+: t := fun k => h (List.infix_cons k)
    rw [List.cons_append, upTo, if_neg, ih ht]
    · rfl
    · intro hp
      rw [← List.cons_append] at hp
      have hp := List.isPrefixOf_iff_prefix.mp hp
      match t, h, hp with
      | [], h, hp =>
        obtain ⟨s, hs⟩ := hp
        simp at hs
      | [d], h, hp =>
        obtain ⟨s, hs⟩ := hp
        simp at hs
      | d :: e :: u, h, hp =>
        apply h
        obtain ⟨s, hs⟩ := hp
        simp at hs
        obtain ⟨rfl, rfl, rfl, _⟩ := hs
        exact ⟨[], u, rfl⟩

/-! ## Attributes -/

theorem name_no_space {c : Char} (h : nameChar c = true) : isSpace c = false := by
  unfold isSpace
  rw [Bool.eq_false_iff]
  intro k
  simp only [Bool.or_eq_true, decide_eq_true_eq] at k
  rcases k with ((rfl | rfl) | rfl) | rfl <;> cases h

theorem attr_value {v : Text} (h : ∀ c ∈ v, c ≠ '\t' ∧ c ≠ '\n' ∧ c ≠ '\r') : attrValue (escapeAttr v) = some v := by
  unfold attrValue
  have h1 := decode_flat decode_escapeIn v [] 1
  rw [List.append_nil] at h1
  have h2 := decode_more h1 ((escapeAttr v).length + 1) (by
    have := flat_length escapeIn_ne v
    show 1 + v.length ≤ ((v.map escapeIn).flatten).length + 1
    omega)
  show (decode _ ((v.map escapeIn).flatten)).map _ = _
  rw [show ((escapeAttr v).length + 1) = ((v.map escapeIn).flatten).length + 1 from rfl] at h2
  have e : escapeAttr v = (v.map escapeIn).flatten := rfl
  rw [e, h2]
  simp only [Option.map_some, List.append_nil, Option.some.injEq]
  conv_rhs => rw [← List.map_id v]
  refine List.map_congr_left fun c hc => ?_
  obtain ⟨a, b, d⟩ := h c hc
  by_cases hs : c = ' '
  · subst hs; rfl
  · have : isSpace c = false := by simp [isSpace, a, b, d, hs]
    simp [this]

theorem attrs_read (l : List (Text × Text)) (hn : ∀ a ∈ l, Name a.1) (hv : ∀ a ∈ l, ∀ c ∈ a.2, c ≠ '\t' ∧ c ≠ '\n' ∧ c ≠ '\r') (e : Char) (he : e = '/' ∨ e = '>') (x : Text)
    (n : Nat) (hl : l.length < n) : readAttrs n (attrsText l ++ e :: x) = some (l, e :: x) := by
  induction l generalizing n with
  | nil =>
    obtain ⟨m, rfl⟩ : ∃ m, n = m + 1 := ⟨n - 1, by simp at hl; omega⟩
    rw [readAttrs]
    rcases he with rfl | rfl <;> rfl
  | cons a l ih =>
    obtain ⟨k, v⟩ := a
    obtain ⟨m, rfl⟩ : ∃ m, n = m + 1 := ⟨n - 1, by simp at hl; omega⟩
    obtain ⟨nk, c, r, rfl, _⟩ := hn _ List.mem_cons_self
    generalize hrest : attrsText l ++ e :: x = rest at ih
    have et : attrsText ((c :: r, v) :: l) ++ e :: x = ' ' :: ((c :: r) ++ ('=' :: '"' :: (escapeAttr v ++ '"' :: rest))) := by
      rw [← hrest, attrsText]
      simp
    rw [et, readAttrs]
    have hc := nk c List.mem_cons_self
    have hsp := name_no_space hc
    have hd : (' ' :: ((c :: r) ++ ('=' :: '"' :: (escapeAttr v ++ '"' :: rest)))).dropWhile isSpace = (c :: r) ++ ('=' :: '"' :: (escapeAttr v ++ '"' :: rest)) := by
      rw [List.dropWhile_cons_of_pos (by rfl), List.cons_append, List.dropWhile_cons_of_neg (by simp [hsp])]
    dsimp only
    rw [hd]
    have h1 : ¬ (((c :: r) ++ ('=' :: '"' :: (escapeAttr v ++ '"' :: rest))).head? = some '/' ∨ ((c :: r) ++ ('=' :: '"' :: (escapeAttr v ++ '"' :: rest))).head? = some '>') := by
      rw [List.cons_append, List.head?_cons]
      rintro (h | h) <;> injection h with h <;> subst h <;> cases hc
    rw [if_neg h1, if_neg (by simp)]
    obtain ⟨t1, t2⟩ := take_drop (p := nameChar) (a := c :: r) (b := '=' :: '"' :: (escapeAttr v ++ '"' :: rest)) nk (by
      intro y hy
      cases hy
      rfl)
    rw [t1, t2]
    show (if c :: r = [] then none else _) = _
    rw [if_neg (by simp)]
    obtain ⟨u1, u2⟩ := take_drop (p := fun c => decide (c ≠ '"')) (a := escapeAttr v) (b := '"' :: rest) (escapeAttr_no v).1 (by
      intro y hy
      cases hy
      rfl)
    rw [u1, u2]
    dsimp only
    rw [if_neg (escapeAttr_no v).2, attr_value (hv (c :: r, v) List.mem_cons_self), Option.bind_some,
      ih (fun a ha => hn a (List.mem_cons_of_mem _ ha)) (fun a ha => hv a (List.mem_cons_of_mem _ ha)) m (by simp at hl; omega)]
    rfl

/-! ## Content -/

/-- What is read from a text with enough steps, up to white space. -/
def Reads (t : Text) (L : List Item) (r : Text) : Prop := ∃ N, ∀ n, N ≤ n → ∃ l, readContent n t = some (l, r) ∧ tidyAll l = L

theorem reads_nil : Reads [] [] [] := ⟨1, fun n hn => by
  obtain ⟨m, rfl⟩ : ∃ m, n = m + 1 := ⟨n - 1, by omega⟩
  exact ⟨[], by rw [readContent, if_pos rfl], by rw [tidyAll]⟩⟩

theorem reads_close (x : Text) : Reads ('<' :: '/' :: x) [] ('<' :: '/' :: x) := ⟨1, fun n hn => by
  obtain ⟨m, rfl⟩ : ∃ m, n = m + 1 := ⟨n - 1, by omega⟩
  exact ⟨[], by rw [readContent, if_neg (by simp), if_pos (by simp)], by rw [tidyAll]⟩⟩

theorem content_text {n : Nat} {c : Char} {t : Text} (h : c ≠ '<') : readContent (n + 1) (c :: t) =
    (decode (((c :: t).takeWhile (· ≠ '<')).length + 1) ((c :: t).takeWhile (· ≠ '<'))).bind fun x =>
      (readContent n ((c :: t).dropWhile (· ≠ '<'))).map fun q => (.text x :: q.1, q.2) := by
  rw [readContent, if_neg (by simp), if_neg (by simp [Ne.symm h]), if_neg (by simp [Ne.symm h]), if_neg (by simp [Ne.symm h]),
    if_neg (by simp [h])]

theorem tidy_text (x : Text) (l : List Item) : tidyAll (.text x :: l) = (if trim x = [] then [] else [.text (trim x)]) ++ tidyAll l := by
  rw [tidyAll]
  split_ifs <;> rfl

theorem tidy_other {x : Item} (h : ∀ t, x ≠ .text t) (l : List Item) : tidyAll (x :: l) = tidy x :: tidyAll l := by
  cases x with
  | text t => exact absurd rfl (h t)
  | elem a b c => rw [tidyAll]; simp
  | comment t => rw [tidyAll]; simp
  | cdata t => rw [tidyAll]; simp

theorem Reads.space {t : Text} {L : List Item} {r : Text} (h : Reads t L r) {w : Text} (hw : Blank w) : Reads (w ++ t) L r := by
  cases w with
  | nil => exact h
  | cons c w =>
    obtain ⟨N, hN⟩ := h
    refine ⟨N + 2, fun n hn => ?_⟩
    obtain ⟨m, rfl⟩ : ∃ m, n = m + 2 := ⟨n - 2, by omega⟩
    have hlt := blank_no_lt hw
    have hc : c ≠ '<' := of_decide_eq_true (hlt c List.mem_cons_self)
    rw [List.cons_append, content_text hc]
    cases hh : t.head? with
    | none =>
      have : t = [] := by cases t with
        | nil => rfl
        | cons a b => cases hh
      subst this
      obtain ⟨t1, t2⟩ := take_drop (p := fun c => decide (c ≠ '<')) (a := c :: w) (b := []) hlt (by simp)
      rw [List.cons_append] at t1 t2
      rw [t1, t2]
      have hd := decode_blank (blank_no_amp hw) [] 1
      rw [List.append_nil, Nat.add_comm] at hd
      rw [hd]
      obtain ⟨l, l1, l2⟩ := hN (m + 1) (by omega)
      rw [l1]
      refine ⟨_, rfl, ?_⟩
      rw [tidy_text]
      simp only [List.append_nil]
      rw [trim_blank hw, if_pos rfl, l2]
      rfl
    | some d =>
      obtain ⟨u, rfl⟩ : ∃ u, t = d :: u := by cases t with
        | nil => cases hh
        | cons a b => simp at hh; exact ⟨b, by rw [hh]⟩
      by_cases hd : d = '<'
      · subst hd
        obtain ⟨t1, t2⟩ := take_drop (p := fun c => decide (c ≠ '<')) (a := c :: w) (b := '<' :: u) hlt (by intro y hy; cases hy; rfl)
        rw [List.cons_append] at t1 t2
        rw [t1, t2]
        have hd := decode_blank (blank_no_amp hw) [] 1
        rw [List.append_nil, Nat.add_comm] at hd
        rw [hd]
        obtain ⟨l, l1, l2⟩ := hN (m + 1) (by omega)
        rw [show decode 1 [] = some [] from rfl, Option.map_some, Option.bind_some, l1]
        refine ⟨_, rfl, ?_⟩
        rw [tidy_text]
        rw [List.append_nil, trim_blank hw, if_pos rfl, l2]
        rfl
      · obtain ⟨l, l1, l2⟩ := hN (m + 2) (by omega)
        rw [content_text hd] at l1
        have e1 : (c :: (w ++ d :: u)).takeWhile (· ≠ '<') = (c :: w) ++ (d :: u).takeWhile (· ≠ '<') := by
          have := List.takeWhile_append_of_pos (p := fun c => decide (c ≠ '<')) (l₂ := d :: u) hlt
          rw [List.cons_append] at this
          exact this
        have e2 : (c :: (w ++ d :: u)).dropWhile (· ≠ '<') = (d :: u).dropWhile (· ≠ '<') := by
          have := List.dropWhile_append_of_pos (p := fun c => decide (c ≠ '<')) (l₂ := d :: u) hlt
          rw [List.cons_append] at this
          exact this
        rw [e1, e2]
        cases hx : decode (((d :: u).takeWhile (· ≠ '<')).length + 1) ((d :: u).takeWhile (· ≠ '<')) with
        | none => rw [hx] at l1; cases l1
        | some x =>
          rw [hx, Option.bind_some] at l1
          have hd2 := decode_blank (blank_no_amp hw) ((d :: u).takeWhile (· ≠ '<')) (((d :: u).takeWhile (· ≠ '<')).length + 1)
          rw [hx] at hd2
          have el : ((c :: w) ++ (d :: u).takeWhile (· ≠ '<')).length + 1 = ((d :: u).takeWhile (· ≠ '<')).length + 1 + (c :: w).length := by
            rw [List.length_append]
            omega
          rw [el, hd2, Option.map_some, Option.bind_some]
          cases hq : readContent (m + 1) ((d :: u).dropWhile (· ≠ '<')) with
          | none => rw [hq] at l1; cases l1
          | some q =>
            rw [hq] at l1
            injection l1 with l1
            injection l1 with l1 l1'
            subst l1 l1'
            refine ⟨_, rfl, ?_⟩
            rw [tidy_text, trim_left hw, ← tidy_text]
            exact l2

/-- A text before a tag. -/
theorem Reads.text {u : Text} {L : List Item} {r : Text} (h : Reads ('<' :: u) L r) (s : Text) {w : Text} (hw : Blank w) :
    Reads (escapeText s ++ (w ++ '<' :: u)) ((if trim s = [] then [] else [.text (trim s)]) ++ L) r := by
  cases hs : escapeText s with
  | nil =>
    have : s = [] := by
      have := flat_length escape_ne s
      have e : (s.map escape).flatten = [] := hs
      rw [e] at this
      exact List.eq_nil_of_length_eq_zero (by simpa using this)
    subst this
    exact h.space hw
  | cons c p =>
    obtain ⟨N, hN⟩ := h
    refine ⟨N + 2, fun n hn => ?_⟩
    obtain ⟨m, rfl⟩ : ∃ m, n = m + 1 := ⟨n - 1, by omega⟩
    have hlt := escape_no_lt s
    rw [hs] at hlt
    have hc : c ≠ '<' := of_decide_eq_true (hlt c List.mem_cons_self)
    rw [List.cons_append, content_text hc]
    have hall : ∀ x ∈ (c :: p) ++ w, decide (x ≠ '<') = true := by
      intro x hx
      rcases List.mem_append.mp hx with h | h
      · exact hlt x h
      · exact blank_no_lt hw x h
    obtain ⟨t1, t2⟩ := take_drop (p := fun c => decide (c ≠ '<')) (a := (c :: p) ++ w) (b := '<' :: u) hall (by intro y hy; cases hy; rfl)
    rw [List.append_assoc, List.cons_append] at t1 t2
    rw [t1, t2]
    have hd := decode_flat decode_escape s w (1 + w.length)
    have hb := decode_blank (blank_no_amp hw) [] 1
    rw [List.append_nil] at hb
    rw [hb] at hd
    have e : (s.map escape).flatten = c :: p := hs
    have hl := flat_length escape_ne s
    rw [e] at hd hl
    have hd2 := decode_more hd (((c :: p) ++ w).length + 1) (by rw [List.length_append]; omega)
    rw [List.cons_append] at hd2
    rw [List.cons_append, hd2]
    obtain ⟨l, l1, l2⟩ := hN m (by omega)
    rw [Option.bind_some, l1]
    refine ⟨_, rfl, ?_⟩
    rw [tidy_text]
    show (if trim (s ++ (w ++ [])) = [] then [] else [Item.text (trim (s ++ (w ++ [])))]) ++ tidyAll l = _
    rw [List.append_nil, trim_right hw, l2]

theorem Reads.comment {rest : Text} {L : List Item} {r : Text} (h : Reads rest L r) (t : Text) :
    Reads ("<!--".toList ++ (escapeComment false t ++ ("-->".toList ++ rest))) (.comment (escapeComment false t) :: L) r := by
  obtain ⟨N, hN⟩ := h
  refine ⟨N + 1, fun n hn => ?_⟩
  obtain ⟨m, rfl⟩ : ∃ m, n = m + 1 := ⟨n - 1, by omega⟩
  obtain ⟨l, l1, l2⟩ := hN m (by omega)
  rw [readContent, if_neg (by simp), if_neg (by simp), if_pos (by simp)]
  have e : ("<!--".toList ++ (escapeComment false t ++ ("-->".toList ++ rest))).drop 4 = escapeComment false t ++ ("-->".toList ++ rest) := rfl
  rw [e, (comment_upTo t rest).1, Option.bind_some]
  dsimp only
  rw [if_pos (by rfl)]
  have e2 : (">".toList ++ rest).drop 1 = rest := rfl
  rw [e2, l1]
  refine ⟨_, rfl, ?_⟩
  rw [tidy_other (by simp), l2, tidy]

theorem Reads.cdata {rest : Text} {L : List Item} {r : Text} (h : Reads rest L r) {t : Text} (ht : ¬ "]]>".toList <:+: t) :
    Reads ("<![CDATA[".toList ++ (t ++ ("]]>".toList ++ rest))) (.cdata t :: L) r := by
  obtain ⟨N, hN⟩ := h
  refine ⟨N + 1, fun n hn => ?_⟩
  obtain ⟨m, rfl⟩ : ∃ m, n = m + 1 := ⟨n - 1, by omega⟩
  obtain ⟨l, l1, l2⟩ := hN m (by omega)
  rw [readContent, if_neg (by simp), if_neg (by simp), if_neg (by simp), if_pos (by simp)]
  have e : ("<![CDATA[".toList ++ (t ++ ("]]>".toList ++ rest))).drop 9 = t ++ ("]]>".toList ++ rest) := rfl
  rw [e, cdata_upTo ht, Option.bind_some]
  dsimp only
  rw [l1]
  refine ⟨_, rfl, ?_⟩
  rw [tidy_other (by simp), l2, tidy]

/-- After a tag there are attributes. -/
theorem attrs_head (l : List (Text × Text)) (e : Char) (he : e = '/' ∨ e = '>') (x : Text) : ∀ c, (attrsText l ++ e :: x).head? = some c → nameChar c = false := by
  intro c hc
  cases l with
  | nil =>
    cases hc
    rcases he with rfl | rfl <;> rfl
  | cons a l =>
    obtain ⟨k, v⟩ := a
    cases hc
    rfl

theorem content_elem {n : Nat} {tag : Text} (ht : Name tag) (x : Text) : readContent (n + 1) ('<' :: (tag ++ x)) =
    (readElement n (tag ++ x)).bind fun p => (readContent n p.2).map fun q => (p.1 :: q.1, q.2) := by
  obtain ⟨hn, c, r, rfl, _⟩ := ht
  have hc := hn c List.mem_cons_self
  have h1 : c ≠ '/' := by rintro rfl; cases hc
  have h2 : c ≠ '!' := by rintro rfl; cases hc
  rw [List.cons_append, readContent, if_neg (by simp), if_neg (by simp [Ne.symm h1]), if_neg (by simp [Ne.symm h2]), if_neg (by simp [Ne.symm h2]), if_pos (by rfl)]
  rfl

theorem Reads.empty {rest : Text} {L : List Item} {r : Text} (h : Reads rest L r) {tag : Text} (ht : Name tag) {l : List (Text × Text)} (hn : ∀ a ∈ l, Name a.1)
    (hv : ∀ a ∈ l, ∀ c ∈ a.2, c ≠ '\t' ∧ c ≠ '\n' ∧ c ≠ '\r') :
    Reads ('<' :: (tag ++ (attrsText l ++ '/' :: '>' :: rest))) (.elem tag l [] :: L) r := by
  obtain ⟨N, hN⟩ := h
  refine ⟨N + l.length + 3, fun n hn' => ?_⟩
  obtain ⟨m, rfl⟩ : ∃ m, n = m + 2 := ⟨n - 2, by omega⟩
  obtain ⟨q, l1, l2⟩ := hN (m + 1) (by omega)
  rw [content_elem ht, readElement]
  obtain ⟨t1, t2⟩ := take_drop (p := nameChar) (a := tag) (b := attrsText l ++ '/' :: '>' :: rest) ht.1 (attrs_head l '/' (.inl rfl) _)
  rw [t1, t2]
  have hne : tag ≠ [] := by
    obtain ⟨_, c, r, rfl, _⟩ := ht
    simp
  rw [if_neg hne, attrs_read l hn hv '/' (.inl rfl) _ m (by omega), Option.bind_some]
  dsimp only
  rw [if_pos (by rfl), Option.bind_some]
  have e : ('/' :: '>' :: rest).drop 2 = rest := rfl
  rw [e, l1]
  refine ⟨_, rfl, ?_⟩
  rw [tidy_other (by simp), l2, tidy, tidyAll]

theorem Reads.element {rest body : Text} {L B : List Item} {r : Text} {tag : Text} (hb : Reads (body ++ '<' :: '/' :: (tag ++ '>' :: rest)) B ('<' :: '/' :: (tag ++ '>' :: rest)))
    (h : Reads rest L r) (ht : Name tag) {l : List (Text × Text)} (hn : ∀ a ∈ l, Name a.1) (hv : ∀ a ∈ l, ∀ c ∈ a.2, c ≠ '\t' ∧ c ≠ '\n' ∧ c ≠ '\r') :
    Reads ('<' :: (tag ++ (attrsText l ++ '>' :: (body ++ '<' :: '/' :: (tag ++ '>' :: rest))))) (.elem tag l B :: L) r := by
  obtain ⟨N, hN⟩ := h
  obtain ⟨M, hM⟩ := hb
  refine ⟨N + M + l.length + 3, fun n hn' => ?_⟩
  obtain ⟨m, rfl⟩ : ∃ m, n = m + 2 := ⟨n - 2, by omega⟩
  obtain ⟨q, l1, l2⟩ := hN (m + 1) (by omega)
  obtain ⟨b, b1, b2⟩ := hM m (by omega)
  rw [content_elem ht, readElement]
  obtain ⟨t1, t2⟩ := take_drop (p := nameChar) (a := tag) (b := attrsText l ++ '>' :: (body ++ '<' :: '/' :: (tag ++ '>' :: rest))) ht.1 (attrs_head l '>' (.inr rfl) _)
  rw [t1, t2]
  have hne : tag ≠ [] := by
    obtain ⟨_, c, r, rfl, _⟩ := ht
    simp
  rw [if_neg hne, attrs_read l hn hv '>' (.inr rfl) _ m (by omega), Option.bind_some]
  dsimp only
  rw [if_neg (by simp), if_pos (by rfl)]
  have e : ('>' :: (body ++ '<' :: '/' :: (tag ++ '>' :: rest))).drop 1 = body ++ '<' :: '/' :: (tag ++ '>' :: rest) := rfl
  rw [e, b1, Option.bind_some]
  dsimp only
  have e2 : '<' :: '/' :: (tag ++ '>' :: rest) = ("</".toList ++ tag ++ ">".toList) ++ rest := by simp
  rw [e2, if_pos (List.isPrefixOf_iff_prefix.mpr (List.prefix_append _ _)), Option.bind_some]
  dsimp only
  rw [List.drop_left' (by simp), l1]
  refine ⟨_, rfl, ?_⟩
  rw [tidy_other (by simp), l2, tidy, b2]

end Verif.Xml
