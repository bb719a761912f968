import Verif.Sem.Prose

/-!
# Tidy prose is written as it was
-/

namespace Verif.Sem
open Verif.Token Verif.NodeGroup Verif.NodeGroup.Spec
open Verif.Parser (NK role Closed Open Doc IsOpen IsClose lineBreaks)

/-! ## No two blanks next to each other -/

/-- No two neighbours are both true. -/
def NoAdj : List Bool → Prop
  | a :: b :: r => ¬ (a = true ∧ b = true) ∧ NoAdj (b :: r)
  | _ => True

theorem noAdj_cons (a : Bool) (l : List Bool) : NoAdj (a :: l) ↔ ¬ (a = true ∧ l.head? = some true) ∧ NoAdj l := by
  cases l with
  | nil => simp [NoAdj]
  | cons b r => simp [NoAdj]

theorem noAdj_append (a b : List Bool) : NoAdj (a ++ b) ↔ NoAdj a ∧ NoAdj b ∧ ¬ (a.getLast? = some true ∧ b.head? = some true) := by
  induction a with
  | nil => simp [NoAdj]
  | cons x a ih =>
    rw [List.cons_append, noAdj_cons, ih, noAdj_cons]
    cases a with
    | nil => simp [NoAdj]; tauto
    | cons y a => simp; tauto

/-- The lists start alike, end alike, and the second one has no neighbours if the first one has none. -/
structure Like (r s : List Bool) : Prop where
  head : r.head? = s.head?
  last : r.getLast? = s.getLast?
  adj : NoAdj r → NoAdj s

theorem Like.nil : Like [] [] := ⟨rfl, rfl, id⟩

theorem getLast_append (a b : List Bool) : (a ++ b).getLast? = b.getLast?.or a.getLast? := List.getLast?_append

theorem Like.append {r s r' s' : List Bool} (h : Like r s) (h' : Like r' s') : Like (r ++ r') (s ++ s') := by
  refine ⟨?_, ?_, ?_⟩
  · rw [List.head?_append, List.head?_append, h.head, h'.head]
  · rw [getLast_append, getLast_append, h.last, h'.last]
  · rw [noAdj_append, noAdj_append, ← h.last, ← h'.head]
    exact fun ⟨a, b, c⟩ => ⟨h.adj a, h'.adj b, c⟩

theorem Like.cons (a : Bool) {r s : List Bool} (h : Like r s) : Like (a :: r) (a :: s) :=
  (⟨rfl, rfl, id⟩ : Like [a] [a]).append h

theorem Like.pair (u : List Bool) {r s : List Bool} (h : Like r s) : Like (false :: (u ++ false :: r)) (false :: s) := by
  have : Like (false :: (u ++ [false])) [false] := ⟨rfl, by rw [← List.cons_append, getLast_append]; rfl, fun _ => trivial⟩
  simpa using this.append h

/-- Is the token a space or a line break? -/
def tokBlank (k : TK) : Bool := k == .Whitespace || lineBreaks.contains k

/-- The blanks among tokens. -/
def rb (r : List (Nat × TK)) : List Bool := r.map fun p => tokBlank p.2

theorem rb_append (a b : List (Nat × TK)) : rb (a ++ b) = rb a ++ rb b := by simp [rb]

theorem mark_notBlank {k : TK} {nk : NK} (h : role k = .opens nk ∨ role k = .closes nk ∨ role k = .either nk) : tokBlank k = false := by
  cases k <;> first | rfl | simp [role] at h

theorem plain_blank {k : TK} {nk : NK} (h : role k = .plain nk) {lk : LK} (hl : leafKind nk = some lk) (t : List Char) :
    (Sem.leaf lk t).isBlank = tokBlank k := by
  cases k <;> simp only [role, reduceCtorEq, Parser.Role.plain.injEq] at h <;> subst h <;>
    simp only [leafKind, Option.some.injEq] at hl <;> subst hl <;> rfl

theorem closed_like {toks : List Tok} {e : Option NK} {r : List (Nat × TK)} {f : Forest NK Unit} (h : Closed e r f) :
    (∀ p ∈ r, Fitting toks p) → Like (rb r) ((semsOf toks f).map Sem.isBlank) := by
  induction h with
  | nil => intro _; exact .nil
  | @plain e i k nk r f hr _ ih =>
    intro hf
    obtain ⟨t, ht, hfit⟩ := hf _ List.mem_cons_self
    obtain ⟨lk, h1, -⟩ := hfit.plain _ hr
    have := (ih fun p hp => hf p (List.mem_cons_of_mem _ hp)).cons (tokBlank k)
    simp only [rb, List.map_cons, semsOf, h1, Option.getD_some, plain_blank hr h1] at this ⊢
    exact this
  | @stray e i k nk r f hr _ _ ih =>
    intro hf
    have := (ih fun p hp => hf p (List.mem_cons_of_mem _ hp)).cons (tokBlank k)
    simp only [rb, List.map_cons, semsOf, mark_notBlank (.inr (.inl hr))] at this ⊢
    exact this
  | @pair e i k nk u c j k' r f ho _ hcl _ ih1 ih2 =>
    intro hf
    have h2 := ih2 fun p hp => hf p (by simp [hp])
    obtain ⟨t, ht, hfit⟩ := hf (i, k) List.mem_cons_self
    have hk : role k = .opens nk ∨ role k = .closes nk ∨ role k = .either nk := by rcases ho with h | h <;> simp [h]
    have hk' : role k' = .opens nk ∨ role k' = .closes nk ∨ role k' = .either nk := by rcases hcl with h | h <;> simp [h]
    obtain ⟨hl, bk, x, hb, hm, hx⟩ := hfit.mark nk hk
    have hsem : semsOf toks (.tree nk c f) = .tree bk (semsOf toks c) :: semsOf toks f := by
      simp [semsOf, hb, branch_mark hm]
    rw [hsem]
    have := Like.pair (rb u) h2
    simpa [rb, mark_notBlank hk, mark_notBlank hk', Sem.isBlank] using this

theorem open_like {toks : List Tok} {e : Option NK} {r : List (Nat × TK)} {f : Forest NK Unit} (h : Open e r f) :
    (∀ p ∈ r, Fitting toks p) → Like (rb r) ((semsOf toks f).map Sem.isBlank) := by
  induction h with
  | closed h => exact closed_like h
  | @unclosed e u f i k nk r g hc ho _ ih =>
    intro hf
    have h1 := closed_like hc fun p hp => hf p (by simp [hp])
    have h2 := (ih fun p hp => hf p (by simp [hp])).cons false
    have hk : role k = .opens nk ∨ role k = .closes nk ∨ role k = .either nk := by rcases ho with h | h <;> simp [h]
    rw [semsOf_append, List.map_append, rb_append]
    refine h1.append ?_
    simpa [rb, mark_notBlank hk, semsOf, leafKind, Sem.isBlank] using h2

/-! ## Lines -/

open Verif.Layout (joinLines joinLines_cons)

theorem joinLines_append (a b : List (List Char)) (ha : a ≠ []) : joinLines (a ++ b) = joinLines a ++ (b.map ('\n' :: ·)).flatten := by
  induction a with
  | nil => exact absurd rfl ha
  | cons x a ih =>
    cases a with
    | nil =>
      cases b with
      | nil => simp [joinLines]
      | cons y b =>
        rw [List.singleton_append, joinLines_cons _ _ (by simp)]
        have : ∀ (l : List (List Char)) y, joinLines (y :: l) = y ++ (l.map ('\n' :: ·)).flatten := by
          intro l
          induction l with
          | nil => intro y; simp [joinLines]
          | cons z l ih => intro y; rw [joinLines_cons _ _ (by simp), ih]; simp
        rw [this]
        simp [joinLines]
    | cons y a =>
      rw [List.cons_append, joinLines_cons _ _ (by simp), joinLines_cons _ _ (by simp), ih (by simp)]
      simp

mutual

theorem flat_source (s : Sem) (h : Inline s) (hn : '\n' ∉ source s) : flat s = source s := by
  match s with
  | .leaf k t =>
    cases k
    case Newline =>
      have h : t = ['\n'] := h
      subst h
      simp [source, leafText] at hn
    all_goals rfl
  | .tree k subs =>
    have h : mark k ≠ none ∧ AllInline subs := h
    simp only [source, List.mem_append, not_or] at hn
    simp only [flat, source, flats_source subs h.2 hn.1.2]
  | .item .. => exact h.elim
  | .head .. => exact h.elim

theorem flats_source (ss : List Sem) (h : AllInline ss) (hn : '\n' ∉ sources ss) : flats ss = sources ss := by
  match ss with
  | [] => rfl
  | s :: ss =>
    simp only [sources, List.mem_append, not_or] at hn
    simp only [flats, sources, flat_source s h.1 hn.1, flats_source ss h.2 hn.2]

end

theorem newline_source {s : Sem} (h : Inline s) (hn : s.isNewline = true) : source s = ['\n'] := by
  cases s with
  | leaf k t =>
    cases k <;> simp [Sem.isNewline] at hn
    exact h
  | _ => simp [Sem.isNewline] at hn

theorem chunks_ne (ss : List Sem) : chunks ss ≠ [] := by
  cases ss with
  | nil => simp [chunks]
  | cons s r =>
    unfold chunks
    split
    · simp
    · split <;> simp

theorem chunks_join : ∀ (ss : List Sem), AllInline ss → (∀ s ∈ ss, s.isNewline = true ∨ '\n' ∉ source s) →
    joinLines ((chunks ss).map flats) = sources ss
  | [], _, _ => rfl
  | s :: r, h, hu => by
    have ih := chunks_join r h.2 fun s hs => hu s (List.mem_cons_of_mem _ hs)
    unfold chunks
    split
    · next hn =>
      rw [List.map_cons, joinLines_cons _ _ (by simp [chunks_ne]), ih, sources, newline_source h.1 hn]
      rfl
    · next hn =>
      have hs : flat s = source s := flat_source s h.1 (by
        rcases hu s List.mem_cons_self with h | h
        · exact absurd h hn
        · exact h)
      split
      · next e => exact absurd e (chunks_ne r)
      · next l ls e =>
        rw [e] at ih
        rw [sources, ← ih, ← hs]
        cases ls with
        | nil => simp [joinLines, flats]
        | cons l' ls =>
          change joinLines (flats (s :: l) :: (l' :: ls).map flats) = flat s ++ joinLines (flats l :: (l' :: ls).map flats)
          rw [joinLines_cons (flats (s :: l)) _ (by simp), joinLines_cons (flats l) _ (by simp), flats, List.append_assoc]

theorem newline_blank {s : Sem} (h : s.isNewline = true) : s.isBlank = true := by
  cases s with
  | leaf k t => cases k <;> simp_all [Sem.isNewline, Sem.isBlank]
  | _ => simp [Sem.isNewline] at h

/-- Without blanks side by side, or at the end, no line but the first one is empty. -/
theorem chunks_full : ∀ (ss : List Sem), ss ≠ [] → NoAdj (ss.map Sem.isBlank) → (ss.map Sem.isBlank).getLast? = some false →
    ∃ c cs, chunks ss = c :: cs ∧ (∀ d ∈ cs, d ≠ []) ∧ (c = [] ↔ (ss.head?.map Sem.isNewline) = some true)
  | [], h, _, _ => absurd rfl h
  | s :: r, _, hadj, hl => by
    rw [List.map_cons, noAdj_cons] at hadj
    cases r with
    | nil =>
      have hs : s.isNewline = false := by
        cases hn : s.isNewline with
        | false => rfl
        | true => simp [newline_blank hn] at hl
      exact ⟨[s], [], by simp [chunks, hs], by simp, by simp [hs]⟩
    | cons s' r =>
      have hl' : ((s' :: r).map Sem.isBlank).getLast? = some false := by simpa using hl
      obtain ⟨c, cs, h1, h2, h3⟩ := chunks_full (s' :: r) (by simp) hadj.2 hl'
      cases hn : s.isNewline with
      | true =>
        refine ⟨[], chunks (s' :: r), by rw [chunks, if_pos hn], ?_, by simp [hn]⟩
        rw [h1]
        intro d hd
        rcases List.mem_cons.mp hd with rfl | hd
        · intro he
          have h4 : s'.isNewline = true := by simpa using h3.mp he
          exact hadj.1 ⟨newline_blank hn, by simp [newline_blank h4]⟩
        · exact h2 d hd
      | false =>
        exact ⟨s :: c, cs, by rw [chunks, if_neg (by simp [hn]), h1], h2, by simp [hn]⟩

/-- The lines of a paragraph. -/
theorem parLines_join (ss : List Sem) (hi : AllInline ss) (hu : ∀ s ∈ ss, s.isNewline = true ∨ '\n' ∉ source s) (hne : ss ≠ [])
    (hadj : NoAdj (ss.map Sem.isBlank)) (hh : (ss.map Sem.isBlank).head? = some false) (hl : (ss.map Sem.isBlank).getLast? = some false) :
    joinLines (parLines ss) = sources ss ∧ parLines ss ≠ [] := by
  obtain ⟨c, cs, h1, h2, h3⟩ := chunks_full ss hne hadj hl
  have hc : c ≠ [] := by
    intro he
    have := h3.mp he
    cases ss with
    | nil => exact hne rfl
    | cons s r =>
      have h4 : s.isNewline = true := by simpa using this
      simp [newline_blank h4] at hh
  have hf : (chunks ss).filter (fun l => !l.isEmpty) = chunks ss := by
    rw [List.filter_eq_self, h1]
    intro d hd
    rcases List.mem_cons.mp hd with rfl | hd
    · simpa using hc
    · simpa using h2 d hd
  rw [parLines, hf]
  exact ⟨chunks_join ss hi hu, by simp [chunks_ne]⟩

/-! ## Documents -/

theorem getLast?_or {a b : List Char} : (a ++ b).getLast? = b.getLast?.or a.getLast? := List.getLast?_append

theorem dropNl_append (a b : List Char) (hb : b ≠ []) : dropNl (a ++ b) = a ++ dropNl b := by
  have : (a ++ b).getLast? = b.getLast? := by
    rw [getLast?_or]
    cases h : b.getLast? with
    | none => exact absurd (List.getLast?_eq_none_iff.mp h) hb
    | some x => rfl
  unfold dropNl
  rw [this]
  split
  · rw [List.dropLast_append_of_ne_nil hb]
  · rfl

theorem dropNl_replicate (n : Nat) : dropNl (List.replicate (n + 1) '\n') = List.replicate n '\n' := by
  rw [List.replicate_succ', dropNl_append _ _ (by simp)]
  simp [dropNl]

theorem trimmed_full (ss : List Sem) (h : (ss.map Sem.isBlank).getLast? = some false) : trimmed ss = ss := by
  rw [List.getLast?_map] at h
  obtain ⟨s, hs, hb⟩ := Option.map_eq_some_iff.mp h
  obtain ⟨ss', rfl⟩ := List.getLast?_eq_some_iff.mp hs
  simp [trimmed, hb]

theorem trimmed_concat (ss : List Sem) (s : Sem) (h : s.isBlank = true) : trimmed (ss ++ [s]) = trimmed ss := by
  simp [trimmed, h]

theorem source_nl {s : Sem} (h : Inline s) (hb : s.isBlank = false) : (source s).getLast? ≠ some '\n' := by
  cases s with
  | leaf k t =>
    have hn : '\n' ∉ leafText k t := by
      cases k <;> simp_all [Inline, Sem.isBlank, leafText]
    exact fun he => hn (List.mem_of_getLast? he)
  | tree k subs =>
    obtain ⟨c, hc⟩ := Option.ne_none_iff_exists'.mp h.1
    have : c ≠ '\n' := by
      cases k <;> simp [mark] at hc <;> subst hc <;> decide
    rw [source, getLast?_or, hc]
    simpa using this
  | item => exact h.elim
  | head => exact h.elim

theorem sources_concat (ss : List Sem) (s : Sem) : sources (ss ++ [s]) = sources ss ++ source s := by
  rw [sources_append]; simp [sources]

/-- The lines of a document, after a paragraph and at a paragraph. -/
theorem doc_exact {toks : List Tok} {r : List (Nat × TK)} {f : Forest NK Unit} (h : Doc r f) :
    (∀ p ∈ r, Fitting toks p) → NoAdj (rb r) → (textsOf toks r).getLast? ≠ some ' ' → Unbroken (semsOf toks f) →
    ((∀ p ∈ r.head?, p.2 ∈ lineBreaks) → ((linesAll (semsOf toks f)).map ('\n' :: ·)).flatten = dropNl (textsOf toks r)) ∧
    ((rb r).head? = some false → joinLines (linesAll (semsOf toks f)) = dropNl (textsOf toks r) ∧ linesAll (semsOf toks f) ≠ []) := by
  induction h with
  | nil =>
    intro _ _ _ _
    exact ⟨fun _ => rfl, fun h => by simp [rb] at h⟩
  | @line i k r f hk hd ih =>
    intro hf hadj hl hu
    have hb : tokBlank k = true := by
      simp only [lineBreaks, List.mem_cons, List.not_mem_nil, or_false] at hk
      rcases hk with rfl | rfl | rfl <;> rfl
    obtain ⟨t, ht, hfit⟩ := hf _ List.mem_cons_self
    have hta : textAt toks i = t.text := by simp [textAt, ht]
    have htx : textsOf toks ((i, k) :: r) = t.text ++ textsOf toks r := by rw [textsOf_cons, hta]
    have hrb : rb ((i, k) :: r) = true :: rb r := by simp [rb, hb]
    rw [hrb, noAdj_cons] at hadj
    have hl' : (textsOf toks r).getLast? ≠ some ' ' := by
      intro he
      apply hl
      rw [htx, getLast?_or, he]
      rfl
    have ih := ih (fun p hp => hf p (List.mem_cons_of_mem _ hp)) hadj.2 hl'
      (fun ss hss => hu ss (List.mem_cons_of_mem _ hss))
    refine ⟨fun _ => ?_, fun h => by rw [hrb] at h; simp at h⟩
    obtain ⟨m, hm⟩ : ∃ m, t.text = List.replicate (m + 1) '\n' := by
      refine ⟨t.text.length - 1, ?_⟩
      have h1 := List.eq_replicate_of_mem (hfit.breaks hk)
      have h2 := List.length_pos_iff.mpr hfit.ne
      rw [show t.text.length - 1 + 1 = t.text.length by omega]
      exact h1
    have hlines : linesAll (semsOf toks (.leaf .Newline (.tok i) f)) = List.replicate m [] ++ linesAll (semsOf toks f) := by
      simp [semsOf, linesAll, leafKind, lines, hta, hm]
    have hnl : ((List.replicate m ([] : List Char)).map ('\n' :: ·)).flatten = List.replicate m '\n' := by
      induction m with
      | zero => rfl
      | succ m ih => simp [List.replicate_succ]
    rw [hlines, htx, hm, List.map_append, List.flatten_append, hnl]
    cases r with
    | nil =>
      have : f = .nil := by cases hd; rfl
      subst this
      have : textsOf toks [] = [] := rfl
      rw [this, List.append_nil, dropNl_replicate]
      simp [semsOf, linesAll]
    | cons p r =>
      have hp : tokBlank p.2 = false := by
        cases hp : tokBlank p.2 with
        | false => rfl
        | true => exact absurd ⟨rfl, by simp [rb, hp]⟩ hadj.1
      obtain ⟨h1, h2⟩ := ih.2 (by simp [rb, hp])
      obtain ⟨t', ht', hfit'⟩ := hf p (by simp)
      have hne : textsOf toks (p :: r) ≠ [] := by
        rw [textsOf_cons]
        simp [textAt, ht', hfit'.ne]
      rw [dropNl_append _ _ hne, ← h1, List.replicate_succ', List.append_assoc]
      congr 1
      obtain ⟨l, ls, e⟩ := List.exists_cons_of_ne_nil h2
      rw [e]
      have := joinLines_append [l] ls (by simp)
      rw [List.singleton_append] at this
      rw [this]
      simp [joinLines]
  | @space i r f _ ih =>
    intro hf hadj hl hu
    refine ⟨fun h => ?_, fun h => ?_⟩
    · have : Token.TK.Whitespace ∈ lineBreaks := h (i, .Whitespace) (by simp)
      exact absurd this (by decide)
    · simp [rb, tokBlank] at h
  | @par i k u r f g hk ho hr _ ih =>
    intro hf hadj hl hu
    have hb : tokBlank k = false := by
      simp only [lineBreaks, List.mem_cons, List.not_mem_nil, or_false, not_or] at hk
      simp [tokBlank, lineBreaks, hk]
    have hfp : ∀ p ∈ (i, k) :: u, Fitting toks p := fun p hp => hf p (by
      rcases List.mem_cons.mp hp with rfl | hp
      · simp
      · simp [hp])
    have hp := open_reads ho hfp
    have hlike := open_like ho hfp
    have htx : textsOf toks ((i, k) :: (u ++ r)) = textsOf toks ((i, k) :: u) ++ textsOf toks r := by
      rw [← List.cons_append, textsOf_append]
    rw [htx] at hl ⊢
    have hl' : (textsOf toks r).getLast? ≠ some ' ' := by
      intro he
      apply hl
      rw [getLast?_or, he]
      rfl
    rw [← List.cons_append, rb_append, noAdj_append] at hadj
    obtain ⟨ha1, ha2, ha3⟩ := hadj
    have hsem : semsOf toks (.tree .Paragraph g f) = .tree .Paragraph (trimmed (semsOf toks g)) :: semsOf toks f := rfl
    rw [hsem] at hu ⊢
    have ih := (ih (fun p hp => hf p (by simp [hp])) ha2 hl' (fun ss hss => hu ss (List.mem_cons_of_mem _ hss))).1
      (fun p hp => by
        have := hr p hp
        simp only [lineBreaks, List.mem_cons, List.not_mem_nil, or_false] at this ⊢
        exact .inr this)
    have hu1 := hu _ List.mem_cons_self
    refine ⟨fun h => ?_, fun _ => ?_⟩
    · have := h (i, k) (by simp)
      simp [lineBreaks] at this hk
      tauto
    have hh : ((semsOf toks g).map Sem.isBlank).head? = some false := by
      rw [← hlike.head]; simp [rb, hb]
    have hadjs := hlike.adj ha1
    have hi := hp.inline
    -- it is enough to know the text of the paragraph
    suffices hsuf : joinLines (parLines (trimmed (semsOf toks g))) ++ dropNl (textsOf toks r) =
        dropNl (textsOf toks ((i, k) :: u) ++ textsOf toks r) ∧ parLines (trimmed (semsOf toks g)) ≠ [] by
      rw [linesAll, lines]
      refine ⟨?_, by simp [hsuf.2]⟩
      rw [joinLines_append _ _ hsuf.2, ih, hsuf.1]
    generalize hss : semsOf toks g = ss at *
    cases hlast : (ss.map Sem.isBlank).getLast? with
    | none =>
      have : ss = [] := by simpa using hlast
      subst this
      simp at hh
    | some b =>
      cases b with
      | false =>
        rw [trimmed_full ss hlast] at hu1 ⊢
        have hne : ss ≠ [] := by rintro rfl; simp at hh
        obtain ⟨j1, j2⟩ := parLines_join ss hi hu1 hne hadjs hh hlast
        refine ⟨?_, j2⟩
        rw [j1, ← hss, hp.source]
        cases r with
        | nil =>
          have e : textsOf toks [] = [] := rfl
          rw [e]
          have hd : dropNl (textsOf toks ((i, k) :: u)) = textsOf toks ((i, k) :: u) := by
            rw [← hp.source, hss]
            rw [List.getLast?_map] at hlast
            obtain ⟨s, hs, hbs⟩ := Option.map_eq_some_iff.mp hlast
            obtain ⟨ss', rfl⟩ := List.getLast?_eq_some_iff.mp hs
            have hmem : s ∈ semsOf toks g := by rw [hss]; simp
            have h1 := source_nl ((allInline_iff _).mp hi s (by simp)) hbs
            rw [sources_concat, dropNl_append _ _ (hp.full s hmem)]
            simp [dropNl, h1]
          rw [List.append_nil, hd]
          simp [dropNl]
        | cons p r =>
          obtain ⟨t', ht', hfit'⟩ := hf p (by simp)
          have hne : textsOf toks (p :: r) ≠ [] := by
            rw [textsOf_cons]
            simp [textAt, ht', hfit'.ne]
          rw [dropNl_append _ _ hne]
      | true =>
        have hrn : r = [] := by
          cases r with
          | nil => rfl
          | cons p r =>
            have h1 := hr p (by simp)
            have h2 : tokBlank p.2 = true := by
              simp only [List.mem_cons, List.not_mem_nil, or_false] at h1
              rcases h1 with h | h <;> rw [h] <;> rfl
            exact absurd ⟨by rw [hlike.last, hlast], by simp [rb, h2]⟩ ha3
        subst hrn
        have e : textsOf toks [] = [] := rfl
        rw [e, List.append_nil] at hl ⊢
        rw [List.getLast?_map] at hlast
        obtain ⟨s, hs, hbs⟩ := Option.map_eq_some_iff.mp hlast
        obtain ⟨ss1, rfl⟩ := List.getLast?_eq_some_iff.mp hs
        have hmem : s ∈ semsOf toks g := by rw [hss]; simp
        have hsi : Inline s := (allInline_iff _).mp hi s (by simp)
        have hne1 : ss1 ≠ [] := by
          rintro rfl
          simp [hbs] at hh
        rw [List.map_append, noAdj_append] at hadjs
        have hlast1 : (ss1.map Sem.isBlank).getLast? = some false := by
          cases h : (ss1.map Sem.isBlank).getLast? with
          | none => exact absurd (by simpa using h) hne1
          | some b =>
            cases b with
            | false => rfl
            | true => exact absurd ⟨h, by simp [hbs]⟩ hadjs.2.2
        have hh1 : (ss1.map Sem.isBlank).head? = some false := by
          cases ss1 with
          | nil => exact absurd rfl hne1
          | cons => simpa using hh
        have hi1 : AllInline ss1 := by
          rw [allInline_iff] at *
          exact fun s hs => hi s (by simp [hs])
        rw [trimmed_concat _ _ hbs, trimmed_full _ hlast1] at hu1 ⊢
        obtain ⟨j1, j2⟩ := parLines_join ss1 hi1 hu1 hne1 hadjs.1 hh1 hlast1
        refine ⟨?_, j2⟩
        have hnl : source s = ['\n'] := by
          cases s with
          | leaf lk t =>
            cases lk <;> simp [Sem.isBlank] at hbs
            · -- a space at the end
              have hv := hp.blank _ hmem rfl
              have hf := hp.full _ hmem
              exfalso
              apply hl
              rw [← hp.source, hss, sources_concat, getLast?_or]
              have hsp : ∀ c ∈ t, c = ' ' := by
                intro c hc
                have h1 : '\n' ∉ t := hsi
                simp only [source, leafText, visible, List.filter_eq_nil_iff] at hv
                have := hv c hc
                by_contra hne
                have hcn : c ≠ '\n' := fun e => h1 (e ▸ hc)
                simp [hne, hcn] at this
              obtain ⟨c, hc⟩ : ∃ c, t.getLast? = some c := by
                cases h : t.getLast? with
                | none => exact absurd (by simpa [source, leafText] using h) hf
                | some c => exact ⟨c, rfl⟩
              have := hsp c (List.mem_of_getLast? hc)
              subst this
              simp [source, leafText, hc]
            · have h : t = ['\n'] := hsi
              simp [source, leafText, h]
          | _ => simp [Sem.isBlank] at hbs
        rw [j1, ← hp.source, hss, sources_concat, hnl, dropNl_append _ _ (by simp)]
        simp [dropNl]

/-! ## Prose -/

open Verif.Pipeline (Piece render Prose ProseFrom)
open Verif.BaseLexer (stdLex)

/-- Is the piece a space or a line break? -/
def blankPiece : Piece → Bool
  | .gap _ | .brk _ => true
  | _ => false

theorem piece_blank {p : Piece} (hv : p.Valid) (b a : Option Tok) (pos : Nat) :
    tokBlank (Recombine.kindBetween b (p.tok pos) a) = blankPiece p := by
  cases hb : blankPiece p with
  | true =>
    cases p with
    | gap n => rfl
    | brk n =>
      match n with
      | 0 => rfl
      | 1 => rfl
      | n + 2 => rfl
    | _ => simp [blankPiece] at hb
  | false =>
    have h := Pipeline.first_kind (p := p) hv (fun n => by constructor <;> rintro rfl <;> simp [blankPiece] at hb) b a
    have e : Recombine.kindBetween b (p.tok pos) a = Recombine.kindBetween b p.tok a := Pipeline.kindBetween_congr rfl rfl rfl rfl
    rw [e]
    generalize Recombine.kindBetween b p.tok a = k at h
    simp only [lineBreaks, List.mem_cons, List.not_mem_nil, or_false, not_or] at h
    simp [tokBlank, lineBreaks, h]

theorem neighbours_blank {ps : List Piece} {bol : Bool} (h : ProseFrom bol ps) (b : Option Tok) (pos : Nat) :
    (Recombine.byNeighbours b (Pipeline.lexed pos ps)).map (fun t => tokBlank t.kind) = ps.map blankPiece := by
  induction ps generalizing bol b pos with
  | nil => rfl
  | cons p ps ih =>
    simp only [Pipeline.lexed, Recombine.byNeighbours, Pipeline.becomes_prose (t := ⟨p.kind, p.text, some pos⟩) (Pipeline.kind_prose h.1),
      List.cons_append, List.nil_append, List.map_cons, ih h.2.2]
    congr 1
    exact piece_blank h.1 _ _ pos

theorem rb_number (toks : List Tok) : rb (Parser.number (toks.map (·.kind))) = toks.map fun t => tokBlank t.kind := by
  refine List.ext_getElem (by simp [rb, Parser.number]) ?_
  intro i h1 h2
  simp [rb, Parser.number]

theorem prose_noAdj {ps : List Piece} {bol : Bool} (h : ProseFrom bol ps) (ht : ¬ [' ', '\n'] <:+: render ps) : NoAdj (ps.map blankPiece) := by
  induction ps generalizing bol with
  | nil => trivial
  | cons p ps ih =>
    have hr : render (p :: ps) = p.text ++ render ps := rfl
    rw [List.map_cons, noAdj_cons]
    refine ⟨?_, ih h.2.2 fun hi => ht (by rw [hr]; exact hi.trans (List.suffix_append _ _).isInfix)⟩
    rintro ⟨h1, h2⟩
    cases ps with
    | nil => simp at h2
    | cons q ps =>
      simp only [List.map_cons, List.head?_cons, Option.some.injEq] at h2
      have hfit := h.2.1
      cases p with
      | gap n =>
        cases q with
        | gap m => exact hfit.2 m rfl
        | brk m =>
          apply ht
          refine ⟨List.replicate n ' ', List.replicate m '\n' ++ render ps, ?_⟩
          have : render (Piece.gap n :: Piece.brk m :: ps) = List.replicate (n + 1) ' ' ++ (List.replicate (m + 1) '\n' ++ render ps) := rfl
          rw [this, List.replicate_succ', List.replicate_succ]
          simp
        | _ => simp [blankPiece] at h2
      | brk n =>
        cases q with
        | gap m => exact (hfit m).1 rfl
        | brk m => exact (hfit m).2 rfl
        | _ => simp [blankPiece] at h2
      | _ => simp [blankPiece] at h1

theorem stripEnd_id {l : List Char} (h : l.getLast? ≠ some ' ') : Layout.stripEnd l = l := by
  unfold Layout.stripEnd
  cases hr : l.reverse with
  | nil => simpa using hr.symm
  | cons c r =>
    have : c ≠ ' ' := by
      rintro rfl
      apply h
      rw [← List.head?_reverse, hr]
      rfl
    rw [List.dropWhile_cons_of_neg (by simpa using this), ← hr, List.reverse_reverse]

/-- Lines of a text without spaces at the ends of lines. -/
theorem textOf_tidy (ls : List (List Char)) (h1 : ¬ [' ', '\n'] <:+: joinLines ls) (h2 : (joinLines ls).getLast? ≠ some ' ') :
    textOf ls = joinLines ls := by
  unfold textOf
  induction ls with
  | nil => rfl
  | cons l ls ih =>
    cases ls with
    | nil => simpa [joinLines] using stripEnd_id h2
    | cons l' ls =>
      rw [joinLines_cons _ _ (by simp)] at h1 h2
      have hl : l.getLast? ≠ some ' ' := by
        intro he
        obtain ⟨l0, rfl⟩ := List.getLast?_eq_some_iff.mp he
        exact h1 ⟨l0, joinLines (l' :: ls), by simp⟩
      rw [List.map_cons, joinLines_cons _ _ (by simp), joinLines_cons _ _ (by simp), stripEnd_id hl,
        ih (fun hi => h1 (hi.trans (List.IsSuffix.isInfix ⟨l ++ ['\n'], by simp⟩))) ?_]
      intro he
      apply h2
      rw [getLast?_or, List.getLast?_cons, he]
      rfl

theorem dropNl_prefix (t : List Char) : dropNl t <+: t := by
  unfold dropNl
  split
  · exact List.dropLast_prefix t
  · exact List.prefix_rfl

theorem dropNl_last {t : List Char} (h : Tidy t) : (dropNl t).getLast? ≠ some ' ' := by
  unfold dropNl
  split
  · next he =>
    obtain ⟨t', rfl⟩ := List.getLast?_eq_some_iff.mp he
    rw [List.dropLast_concat]
    intro he'
    obtain ⟨t'', rfl⟩ := List.getLast?_eq_some_iff.mp he'
    exact h.inside ⟨t'', [], by simp⟩
  · exact h.last

/-- The lines of tidy prose, joined. -/
theorem prose_join (ps : List Piece) (h : Prose ps) (n : Nat) (hn : ps.length + 4 ≤ n) (ht : Tidy (render ps)) {subs : List Sem}
    (hsubs : load stdLex n (render ps) = .ok subs) (hu : Unbroken subs) : joinLines (linesAll subs) = dropNl (render ps) := by
  obtain ⟨toks, f, h1, h2, h3, h4, h5⟩ := load_prose ps h n hn
  rw [h1] at hsubs
  obtain rfl : semsOf toks f = subs := by simpa using hsubs
  have hrb : rb (Parser.number (toks.map (·.kind))) = ps.map blankPiece := by
    rw [rb_number, h2]; exact neighbours_blank h none 0
  have hadj : NoAdj (rb (Parser.number (toks.map (·.kind)))) := by rw [hrb]; exact prose_noAdj h ht.inside
  obtain ⟨-, hB⟩ := doc_exact h3 h4 hadj (by rw [h5]; exact ht.last) hu
  rw [h5] at hB
  cases ps with
  | nil =>
    have e : toks = [] := by rw [h2]; rfl
    subst e
    have : f = .nil := by cases h3; rfl
    subst this
    rfl
  | cons p ps =>
    have hp : blankPiece p = false := by
      cases p with
      | gap n => exact absurd h.2.1.1 (by simp)
      | brk n => exact absurd rfl ht.start
      | _ => rfl
    obtain ⟨hj, -⟩ := hB (by rw [hrb]; simp [hp])
    exact hj

/-- The lines of tidy prose. -/
theorem prose_exact (ps : List Piece) (h : Prose ps) (n : Nat) (hn : ps.length + 4 ≤ n) (ht : Tidy (render ps)) {subs : List Sem}
    (hsubs : load stdLex n (render ps) = .ok subs) (hu : Unbroken subs) : textOf (linesAll subs) = dropNl (render ps) := by
  have hj := prose_join ps h n hn ht hsubs hu
  have hi : ¬ [' ', '\n'] <:+: dropNl (render ps) := fun hi => ht.inside (hi.trans (dropNl_prefix _).isInfix)
  rw [textOf_tidy _ (by rw [hj]; exact hi) (by rw [hj]; exact dropNl_last ht), hj]

end Verif.Sem
