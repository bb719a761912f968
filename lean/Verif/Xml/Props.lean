import Verif.Xml.More
import Mathlib.Data.List.Nodup

/-!
# The text of an XML tree

**C172**  `XmlNode::to_string` gives well-formed XML that stands for the tree, for every tree and every indentation.
* `xml_partial` – it does, when there is no raw node, no carriage return, no tab or line break in an attribute, no `]]>` in
  character data, and no `--` in comments or `-` at their end.
* `xml_comments` – whatever is in the comments, all the rest is read back.
* `xml_false` and the examples after it – the conditions are needed.
* `raw_false` – the text of a raw node is not written as it is.

**C173**  `set_attr` changes the value of one attribute.
-/

namespace Verif.Xml
open Verif.Drawer (Text)

mutual
/-- The comments as they are written. -/
def shown : Node → Node
  | .comment t => .comment (escapeComment false t)
  | .element tag attrs t subs => .element tag attrs t (shownAll subs)
  | .cdata t => .cdata t
  | .raw t => .raw t

def shownAll : List Node → List Node
  | [] => []
  | x :: r => shown x :: shownAll r
end

/-- What every node has to be. -/
structure Fine (n : Node) : Prop where
  raw : ∀ t, ¬ Part (.raw t) n
  attr : ∀ tag attrs t subs, Part (.element tag attrs t subs) n → ∀ a ∈ attrs, '\t' ∉ a.2 ∧ '\n' ∉ a.2
  cdata : ∀ t, Part (.cdata t) n → ¬ "]]>".toList <:+: t
  cr : ∀ m, Part m n → ∀ t ∈ texts m, '\r' ∉ t

theorem Fine.sub {tag attrs t subs x} (h : Fine (.element tag attrs t subs)) (hx : x ∈ subs) : Fine x where
  raw t' p := h.raw t' (.sub hx p)
  attr a b c d p := h.attr a b c d (.sub hx p)
  cdata t' p := h.cdata t' (.sub hx p)
  cr m p := h.cr m (.sub hx p)

theorem Fine.attrs {tag attrs t subs} (h : Fine (.element tag attrs t subs)) : ∀ a ∈ attrs, ∀ c ∈ a.2, c ≠ '\t' ∧ c ≠ '\n' ∧ c ≠ '\r' := by
  intro a ha c hc
  obtain ⟨h1, h2⟩ := h.attr _ _ _ _ (.self _) a ha
  refine ⟨?_, ?_, ?_⟩
  · rintro rfl; exact h1 hc
  · rintro rfl; exact h2 hc
  · rintro rfl
    exact h.cr _ (.self _) a.2 (by simp only [texts, List.mem_cons, List.mem_map]; exact .inr ⟨a, ha, rfl⟩) hc

/-- A node starts with its padding and a bracket. -/
theorem serialize_head (indent depth : Nat) (n : Node) : ∃ u, serialize indent depth n = pad depth indent ++ '<' :: u := by
  cases n with
  | comment t => exact ⟨_, by rw [serialize]; simp only [List.append_assoc]; rfl⟩
  | cdata t => exact ⟨_, by rw [serialize]; simp only [List.append_assoc]; rfl⟩
  | raw t => exact ⟨_, by rw [serialize]; simp only [List.append_assoc]; rfl⟩
  | element a b c d => exact ⟨_, by rw [serialize]; simp only [List.append_assoc]; rfl⟩

theorem Reads.unspace {u : Text} {L : List Item} {r w : Text} (hw : Blank w) (h : Reads (w ++ '<' :: u) L r) : Reads ('<' :: u) L r := by
  cases w with
  | nil => exact h
  | cons c w =>
    obtain ⟨N, hN⟩ := h
    refine ⟨N, fun n hn => ?_⟩
    obtain ⟨l, l1, l2⟩ := hN (n + 1) (by omega)
    have hlt := blank_no_lt hw
    have hc : c ≠ '<' := of_decide_eq_true (hlt c List.mem_cons_self)
    rw [List.cons_append, content_text hc] at l1
    obtain ⟨t1, t2⟩ := take_drop (p := fun c => decide (c ≠ '<')) (a := c :: w) (b := '<' :: u) hlt (by intro y hy; cases hy; rfl)
    rw [List.cons_append] at t1 t2
    rw [t1, t2] at l1
    have hd := decode_blank (blank_no_amp hw) [] 1
    rw [List.append_nil, Nat.add_comm] at hd
    rw [hd, show decode 1 [] = some [] from rfl, Option.map_some, Option.bind_some] at l1
    obtain ⟨q, q1, q2⟩ := Option.map_eq_some_iff.mp l1
    injection q2 with q2 q3
    refine ⟨q.1, by rw [q1, ← q3], ?_⟩
    rw [← q2, tidy_text, List.append_nil, trim_blank hw, if_pos rfl] at l2
    exact l2

theorem itemAll_cons {x : Node} (h : ∀ t, x ≠ .raw t) (r : List Node) : itemAll (x :: r) = item x :: itemAll r := by
  cases x with
  | raw t => exact absurd rfl (h t)
  | element a b c d => rw [itemAll]; simp
  | comment t => rw [itemAll]; simp
  | cdata t => rw [itemAll]; simp

mutual

theorem node_reads (indent : Nat) (n : Node) (hn : Named n) (hf : Fine n) (depth : Nat) {rest : Text} {L : List Item} {r : Text} (h : Reads rest L r) :
    Reads (serialize indent depth n ++ rest) (item (shown n) :: L) r := by
  match n with
  | .comment t =>
    have := ((h.space (w := ['\n']) (by intro c hc; rw [List.mem_singleton.mp hc]; rfl)).comment t).space (blank_pad depth indent)
    rw [serialize, shown, item]
    simp only [List.append_assoc]
    exact this
  | .cdata t =>
    have := ((h.space (w := ['\n']) (by intro c hc; rw [List.mem_singleton.mp hc]; rfl)).cdata (hf.cdata t (.self _))).space (blank_pad depth indent)
    rw [serialize, shown, item]
    simp only [List.append_assoc]
    exact this
  | .raw t => exact absurd (.self _) (hf.raw t)
  | .element tag attrs t subs =>
    rw [Named] at hn
    obtain ⟨ht, ha, _, hs⟩ := hn
    have hv := hf.attrs
    rw [serialize, shown, item]
    have h' := h.space (blank_lineEnd indent)
    by_cases he : subs.isEmpty
    · have e0 : subs = [] := by simpa using he
      subst e0
      have ei : itemAll (shownAll []) = [] := by rw [shownAll, itemAll]
      rw [ei, List.append_nil]
      by_cases htn : t = []
      · subst htn
        have := (h'.empty ht ha hv).space (blank_pad depth indent)
        rw [if_pos ⟨rfl, rfl⟩]
        simp only [List.append_assoc]
        exact this
      · rw [if_neg (fun k => htn k.1), if_pos he]
        have hb := (reads_close (tag ++ '>' :: (lineEnd indent ++ rest))).text t (w := []) (by intro c hc; cases hc)
        rw [List.nil_append, List.append_nil] at hb
        have := (hb.element h' ht ha hv).space (blank_pad depth indent)
        simp only [List.append_assoc]
        exact this
    · rw [if_neg (fun k => he k.2), if_neg he]
      have hclose := (reads_close (tag ++ '>' :: (lineEnd indent ++ rest))).space (blank_pad depth indent)
      have hall := all_reads indent subs hs (fun x hx => hf.sub hx) (depth + 1) hclose
      rw [List.append_nil] at hall
      have hbody : Reads ((if t = [] then [] else pad (depth + 1) indent ++ escapeText t ++ lineEnd indent) ++
          (serializeAll indent (depth + 1) subs ++ (pad depth indent ++ '<' :: '/' :: (tag ++ '>' :: (lineEnd indent ++ rest)))))
          ((if trim t = [] then [] else [.text (trim t)]) ++ itemAll (shownAll subs)) ('<' :: '/' :: (tag ++ '>' :: (lineEnd indent ++ rest))) := by
        by_cases htn : t = []
        · subst htn
          exact hall
        · rw [if_neg htn]
          obtain ⟨x, xs, rfl⟩ : ∃ x xs, subs = x :: xs := by
            cases subs with
            | nil => exact absurd rfl he
            | cons x xs => exact ⟨x, xs, rfl⟩
          obtain ⟨u, hu⟩ := serialize_head indent (depth + 1) x
          rw [serializeAll, hu] at hall ⊢
          simp only [List.append_assoc, List.cons_append] at hall ⊢
          have := ((hall.unspace (blank_pad _ _)).text t ((blank_lineEnd indent).append (blank_pad (depth + 1) indent))).space (blank_pad (depth + 1) indent)
          simp only [List.append_assoc] at this
          exact this
      have hb := hbody.space (blank_lineEnd indent)
      have hb2 : Reads ((lineEnd indent ++ ((if t = [] then [] else pad (depth + 1) indent ++ escapeText t ++ lineEnd indent) ++
          (serializeAll indent (depth + 1) subs ++ pad depth indent))) ++ '<' :: '/' :: (tag ++ '>' :: (lineEnd indent ++ rest)))
          ((if trim t = [] then [] else [.text (trim t)]) ++ itemAll (shownAll subs)) ('<' :: '/' :: (tag ++ '>' :: (lineEnd indent ++ rest))) := by
        simp only [List.append_assoc] at hb ⊢
        exact hb
      have := (hb2.element h' ht ha hv).space (blank_pad depth indent)
      simp only [List.append_assoc] at this ⊢
      exact this
termination_by sizeOf n

theorem all_reads (indent : Nat) (l : List Node) (hn : NamedAll l) (hf : ∀ x ∈ l, Fine x) (depth : Nat) {rest : Text} {L : List Item} {r : Text} (h : Reads rest L r) :
    Reads (serializeAll indent depth l ++ rest) (itemAll (shownAll l) ++ L) r := by
  match l with
  | [] =>
    rw [serializeAll, shownAll, itemAll]
    exact h
  | x :: xs =>
    rw [NamedAll] at hn
    have h1 := all_reads indent xs hn.2 (fun y hy => hf y (List.mem_cons_of_mem _ hy)) depth h
    have h2 := node_reads indent x hn.1 (hf x List.mem_cons_self) depth h1
    rw [serializeAll, shownAll, itemAll_cons, List.append_assoc]
    · exact h2
    · intro t ht
      cases x with
      | raw t' => exact (hf _ List.mem_cons_self).raw t' (.self _)
      | element a b c d => rw [shown] at ht; cases ht
      | comment t => rw [shown] at ht; cases ht
      | cdata t => rw [shown] at ht; cases ht
termination_by sizeOf l

end

/-! ## No carriage return comes from anywhere -/

theorem lineEnds_self {t : Text} (h : '\r' ∉ t) : lineEnds t = t := by
  induction t with
  | nil => rfl
  | cons c t ih =>
    have hc : c ≠ '\r' := fun e => h (e ▸ List.mem_cons_self)
    rw [lineEnds]
    · rw [ih fun k => h (List.mem_cons_of_mem _ k)]
    · rintro r rfl _; exact hc rfl
    · exact hc

theorem flat_cr {f : Char → Text} (hf : ∀ c, '\r' ∈ f c → c = '\r') {t : Text} (h : '\r' ∉ t) : '\r' ∉ (t.map f).flatten := by
  intro k
  obtain ⟨l, hl, hc⟩ := List.mem_flatten.mp k
  obtain ⟨d, hd, rfl⟩ := List.mem_map.mp hl
  exact h (hf d hc ▸ hd)

theorem escape_cr (c : Char) (h : '\r' ∈ escape c) : c = '\r' := by
  unfold escape at h
  split_ifs at h
  · exact absurd h (by decide)
  · exact absurd h (by decide)
  · exact absurd h (by decide)
  · exact (List.mem_singleton.mp h).symm

theorem escapeIn_cr (c : Char) (h : '\r' ∈ escapeIn c) : c = '\r' := by
  unfold escapeIn at h
  split_ifs at h
  · exact absurd h (by decide)
  · exact absurd h (by decide)
  · exact absurd h (by decide)
  · exact absurd h (by decide)
  · exact absurd h (by decide)
  · exact (List.mem_singleton.mp h).symm

theorem comment_cr {t : Text} (h : '\r' ∉ t) : ∀ b, '\r' ∉ escapeComment b t := by
  induction t with
  | nil => intro b; cases b <;> decide
  | cons c t ih =>
    have ih := ih fun k => h (List.mem_cons_of_mem _ k)
    have hc : '\r' ≠ c := fun e => h (e ▸ List.mem_cons_self)
    intro b
    cases b <;> rw [escapeComment] <;> split_ifs <;> simp [ih, hc]

theorem name_cr {t : Text} (h : Name t) : '\r' ∉ t := fun k => by
  have := h.1 _ k
  cases this

theorem attrs_cr {l : List (Text × Text)} (hn : ∀ a ∈ l, Name a.1) (hv : ∀ a ∈ l, '\r' ∉ a.2) : '\r' ∉ attrsText l := by
  induction l with
  | nil => intro h; cases h
  | cons a l ih =>
    obtain ⟨k, v⟩ := a
    rw [attrsText]
    have h1 := name_cr (hn _ List.mem_cons_self)
    have h2 := flat_cr escapeIn_cr (hv _ List.mem_cons_self)
    have h3 := ih (fun a ha => hn a (List.mem_cons_of_mem _ ha)) (fun a ha => hv a (List.mem_cons_of_mem _ ha))
    simp only [List.mem_append, not_or]
    exact ⟨⟨⟨⟨⟨by decide, h1⟩, by decide⟩, h2⟩, by decide⟩, h3⟩

theorem pad_cr (d i : Nat) : '\r' ∉ pad d i := fun h => by
  have := (List.mem_replicate.mp h).2
  cases this

theorem lineEnd_cr (i : Nat) : '\r' ∉ lineEnd i := by
  unfold lineEnd
  split_ifs <;> decide

mutual

theorem node_cr (indent : Nat) (n : Node) (hn : Named n) (hf : Fine n) (depth : Nat) : '\r' ∉ serialize indent depth n := by
  match n with
  | .comment t =>
    have := comment_cr (hf.cr _ (.self _) t (by simp [texts])) false
    rw [serialize]
    simp only [List.mem_append, not_or]
    exact ⟨⟨⟨pad_cr _ _, by decide⟩, this⟩, by decide⟩
  | .cdata t =>
    have := hf.cr _ (.self _) t (by simp [texts])
    rw [serialize]
    simp only [List.mem_append, not_or]
    exact ⟨⟨⟨pad_cr _ _, by decide⟩, this⟩, by decide⟩
  | .raw t => exact absurd (.self _) (hf.raw t)
  | .element tag attrs t subs =>
    rw [Named] at hn
    obtain ⟨ht, ha, _, hs⟩ := hn
    have h1 := name_cr ht
    have h2 := attrs_cr ha (fun a h => hf.cr _ (.self _) a.2 (by simp only [texts, List.mem_cons, List.mem_map]; exact .inr ⟨a, h, rfl⟩))
    have h3 : '\r' ∉ escapeText t := flat_cr escape_cr (hf.cr _ (.self _) t (by simp [texts]))
    have h4 := all_cr indent subs hs (fun x hx => hf.sub hx) (depth + 1)
    have p1 := pad_cr depth indent
    have p2 := pad_cr (depth + 1) indent
    have l1 := lineEnd_cr indent
    have s1 : '\r' ∉ "<".toList := by decide
    have s2 : '\r' ∉ ">".toList := by decide
    have s3 : '\r' ∉ "</".toList := by decide
    have s4 : '\r' ∉ "/>".toList := by decide
    rw [serialize]
    split_ifs <;> simp only [List.mem_append, not_or, h1, h2, h3, h4, p1, p2, l1, s1, s2, s3, s4, not_false_eq_true, and_self, List.not_mem_nil]
termination_by sizeOf n

theorem all_cr (indent : Nat) (l : List Node) (hn : NamedAll l) (hf : ∀ x ∈ l, Fine x) (depth : Nat) : '\r' ∉ serializeAll indent depth l := by
  match l with
  | [] => rw [serializeAll]; exact List.not_mem_nil
  | x :: xs =>
    rw [NamedAll] at hn
    rw [serializeAll, List.mem_append, not_or]
    exact ⟨node_cr indent x hn.1 (hf x List.mem_cons_self) depth, all_cr indent xs hn.2 (fun y hy => hf y (List.mem_cons_of_mem _ hy)) depth⟩
termination_by sizeOf l

end

theorem stands_shown (indent : Nat) {n : Node} (hn : Named n) (hf : Fine n) : Stands (toText indent n) (shown n) := by
  unfold Stands toText
  rw [lineEnds_self (node_cr indent n hn hf 0)]
  obtain ⟨N, hN⟩ := node_reads indent n hn hf 0 reads_nil
  rw [List.append_nil] at hN
  obtain ⟨l, h1, h2⟩ := hN N (Nat.le_refl _)
  exact ⟨N, l, h1, h2⟩

/-! ## C172 -/

/-- A comment that can be written as it is. -/
def PlainComment (t : Text) : Prop := ¬ "--".toList <:+: t ∧ t.getLast? ≠ some '-'

theorem comment_plain (t : Text) : (PlainComment t → escapeComment false t = t) ∧ (PlainComment ('-' :: t) → escapeComment true t = t) := by
  induction t with
  | nil =>
    refine ⟨fun _ => rfl, fun h => absurd rfl h.2⟩
  | cons c t ih =>
    obtain ⟨h1, h2⟩ := ih
    have tailp : PlainComment (c :: t) → c ≠ '-' → PlainComment t := by
      rintro ⟨a, b⟩ hc
      refine ⟨fun k => a (List.infix_cons k), fun k => b ?_⟩
      cases t with
      | nil => cases k
      | cons d t => rw [List.getLast?_cons_cons]; exact k
    have tail2 : PlainComment ('-' :: c :: t) → PlainComment (c :: t) := by
      rintro ⟨a, b⟩
      exact ⟨fun k => a (List.infix_cons k), by rw [List.getLast?_cons_cons] at b; exact b⟩
    constructor
    · intro h
      by_cases hc : c = '-'
      · subst hc
        rw [escapeComment, if_pos rfl, if_neg (by simp), h2 h]
      · rw [escapeComment, if_neg hc, h1 (tailp h hc)]
    · intro h
      by_cases hc : c = '-'
      · subst hc
        exact absurd ⟨[], t, rfl⟩ h.1
      · rw [escapeComment, if_neg hc, h1 (tailp (tail2 h) hc)]

mutual
theorem shown_plain (n : Node) (h : ∀ t, Part (.comment t) n → PlainComment t) : shown n = n := by
  match n with
  | .comment t => rw [shown, (comment_plain t).1 (h t (.self _))]
  | .cdata t => rw [shown]
  | .raw t => rw [shown]
  | .element tag attrs t subs => rw [shown, shownAll_plain subs fun x hx t p => h t (.sub hx p)]
termination_by sizeOf n

theorem shownAll_plain (l : List Node) (h : ∀ x ∈ l, ∀ t, Part (.comment t) x → PlainComment t) : shownAll l = l := by
  match l with
  | [] => rw [shownAll]
  | x :: xs => rw [shownAll, shown_plain x (h x List.mem_cons_self), shownAll_plain xs fun y hy => h y (List.mem_cons_of_mem _ hy)]
termination_by sizeOf l
end

mutual
theorem quiet_shown (n : Node) : quiet (shown n) = quiet n := by
  match n with
  | .comment t => rw [shown, quiet, quiet]
  | .cdata t => rw [shown]
  | .raw t => rw [shown]
  | .element tag attrs t subs => rw [shown, quiet, quiet, quietAll_shown subs]
termination_by sizeOf n

theorem quietAll_shown (l : List Node) : quietAll (shownAll l) = quietAll l := by
  match l with
  | [] => rw [shownAll]
  | x :: xs => rw [shownAll, quietAll, quietAll, quiet_shown x, quietAll_shown xs]
termination_by sizeOf l
end

/-- **C172**, the property: the text of every tree without raw nodes whose names are names stands for the tree. -/
def XmlStatement : Prop := ∀ indent n, Named n → (∀ t, ¬ Part (.raw t) n) → (∀ m, Part m n → ∀ t ∈ texts m, ∀ c ∈ t, xmlChar c) →
  Stands (toText indent n) n

/-- **C172**, for what can be written: no carriage returns, no tabs and line breaks in attributes, no end of the section in
character data, and only comments that XML can have. -/
theorem xml_partial (indent : Nat) (n : Node) (hn : Named n) (hraw : ∀ t, ¬ Part (.raw t) n)
    (hattr : ∀ tag attrs t subs, Part (.element tag attrs t subs) n → ∀ a ∈ attrs, '\t' ∉ a.2 ∧ '\n' ∉ a.2)
    (hcdata : ∀ t, Part (.cdata t) n → ¬ "]]>".toList <:+: t)
    (hcr : ∀ m, Part m n → ∀ t ∈ texts m, '\r' ∉ t)
    (hcomment : ∀ t, Part (.comment t) n → ¬ "--".toList <:+: t ∧ t.getLast? ≠ some '-') :
    Stands (toText indent n) n := by
  have := stands_shown indent hn ⟨hraw, hattr, hcdata, hcr⟩
  rwa [shown_plain n hcomment] at this

/-- Whatever is in the comments, the text stands for a tree that differs from the given one in comments only. -/
theorem xml_comments (indent : Nat) (n : Node) (hn : Named n) (hraw : ∀ t, ¬ Part (.raw t) n)
    (hattr : ∀ tag attrs t subs, Part (.element tag attrs t subs) n → ∀ a ∈ attrs, '\t' ∉ a.2 ∧ '\n' ∉ a.2)
    (hcdata : ∀ t, Part (.cdata t) n → ¬ "]]>".toList <:+: t)
    (hcr : ∀ m, Part m n → ∀ t ∈ texts m, '\r' ∉ t) :
    ∃ n', Stands (toText indent n) n' ∧ quiet n' = quiet n :=
  ⟨shown n, stands_shown indent hn ⟨hraw, hattr, hcdata, hcr⟩, quiet_shown n⟩

/-- A tree with everything. -/
def sample : Node := .element "a".toList [("k".toList, "\"<'&".toList)] "x < y".toList
  [.element "b".toList [] [] [], .comment " c ".toList, .cdata "<b>]]".toList, .element "c.d".toList [] "t".toList []]

/-- The conditions are met by it, and the texts are escaped. -/
theorem sample_stands : Stands (toText 2 sample) sample := by
  have np : ∀ {m : Node}, Part m sample → m = sample ∨ m = .element "b".toList [] [] [] ∨ m = .comment " c ".toList ∨ m = .cdata "<b>]]".toList ∨
      m = .element "c.d".toList [] "t".toList [] := by
    intro m p
    cases p with
    | self => exact .inl rfl
    | sub hx p =>
      simp only [List.mem_cons, List.not_mem_nil, or_false] at hx
      rcases hx with rfl | rfl | rfl | rfl
      · cases p with
        | self => simp
        | sub h _ => cases h
      · cases p; simp
      · cases p; simp
      · cases p with
        | self => simp
        | sub h _ => cases h
  refine xml_partial 2 sample ?_ ?_ ?_ ?_ ?_ ?_
  · have a : Name "a".toList := ⟨by decide, 'a', [], rfl, by decide, by decide, by decide⟩
    have k : Name "k".toList := ⟨by decide, 'k', [], rfl, by decide, by decide, by decide⟩
    have b : Name "b".toList := ⟨by decide, 'b', [], rfl, by decide, by decide, by decide⟩
    have c : Name "c.d".toList := ⟨by decide, 'c', ".d".toList, rfl, by decide, by decide, by decide⟩
    simp only [sample, Named, NamedAll, List.mem_cons, List.not_mem_nil, or_false, forall_eq, a, b, c, k, List.map_cons, List.map_nil, List.nodup_nil, true_and, and_true]
    exact ⟨List.nodup_singleton _, by simp, by simp⟩
  · intro t p
    rcases np p with h | h | h | h | h <;> cases h
  · intro tag attrs t subs p
    rcases np p with h | h | h | h | h <;> cases h <;> decide
  · intro t p
    rcases np p with h | h | h | h | h <;> cases h
    decide
  · intro m p
    rcases np p with rfl | rfl | rfl | rfl | rfl <;> decide
  · intro t p
    rcases np p with h | h | h | h | h <;> cases h
    decide

/-- Its text. -/
example : toText 2 sample =
    "<a k=\"&quot;&lt;&apos;&amp;\">\n  x &lt; y\n  <b/>\n  <!-- c -->\n  <![CDATA[<b>]]]]>\n  <c.d>t</c.d>\n</a>\n".toList := by decide +kernel

/-- An element with one child. -/
def around (x : Node) : Node := .element "a".toList [] [] [x]

theorem around_named {x : Node} (h : Named x) : Named (around x) := by
  have a : Name "a".toList := ⟨by decide, 'a', [], rfl, by decide, by decide, by decide⟩
  exact ⟨a, fun _ h => absurd h List.not_mem_nil, List.nodup_nil, h, trivial⟩

/-- Character data with the end of the section are split. -/
theorem xml_cdata_false : ¬ Stands (toText 0 (around (.cdata "]]>".toList))) (around (.cdata "]]>".toList)) := by
  intro h
  have := stands_only h (k := 30) (l := [.elem "a".toList [] [.cdata [], .text "]]>\n".toList]]) (r := []) (by rfl)
  simp [tidyAll, tidy, item, itemAll, around, trim, isSpace] at this

/-- Two dashes of a comment are read as a dash and an entity that is not decoded. -/
theorem xml_comment_false : ¬ Stands (toText 0 (around (.comment "--".toList))) (around (.comment "--".toList)) := by
  intro h
  have := stands_only h (k := 30) (l := [.elem "a".toList [] [.comment "-&#45;".toList, .text "\n".toList]]) (r := []) (by rfl)
  simp [tidyAll, tidy, item, itemAll, around, trim, isSpace] at this

/-- A line break in an attribute is read as a space. -/
theorem xml_attr_false : ¬ Stands (toText 0 (.element "a".toList [("k".toList, "\n".toList)] [] [])) (.element "a".toList [("k".toList, "\n".toList)] [] []) := by
  intro h
  have := stands_only h (k := 30) (l := [.elem "a".toList [("k".toList, " ".toList)] []]) (r := []) (by rfl)
  simp [tidyAll, tidy, item, itemAll, trim] at this

/-- A carriage return in a text is read as a line break. -/
theorem xml_cr_false : ¬ Stands (toText 0 (.element "a".toList [] "x\ry".toList [])) (.element "a".toList [] "x\ry".toList []) := by
  intro h
  have := stands_only h (k := 30) (l := [.elem "a".toList [] [.text "x\ny".toList]]) (r := []) (by rfl)
  simp [tidyAll, tidy, item, itemAll, trim, isSpace] at this

/-- **C172** is false. -/
theorem xml_false : ¬ XmlStatement := by
  intro h
  apply xml_cdata_false
  apply h
  · exact around_named trivial
  · intro t p
    cases p with
    | sub hx p => simp only [List.mem_cons, List.not_mem_nil, or_false] at hx; subst hx; cases p
  · intro m p
    cases p with
    | self =>
      intro t ht c hc
      simp only [around, texts, List.map_nil, List.mem_singleton] at ht
      subst ht
      cases hc
    | sub hx p =>
      simp only [List.mem_cons, List.not_mem_nil, or_false] at hx
      subst hx
      cases p
      intro t ht c hc
      simp only [texts, List.mem_singleton] at ht
      subst ht
      left
      revert c
      decide

/-- The text of a raw node is in the text of the tree as it is. -/
def RawStatement : Prop := ∀ indent n t, Named n → Part (.raw t) n → t <:+: toText indent n

/-- It is escaped, in an element without a name. -/
theorem raw_false : ¬ RawStatement := by
  intro h
  have := h 0 (around (.raw "<b/>".toList)) "<b/>".toList (around_named trivial) (.sub (by simp) (.self _))
  have e : toText 0 (around (.raw "<b/>".toList)) = "<a><>&lt;b/&gt;</></a>".toList := by rfl
  rw [e] at this
  revert this
  decide +kernel

/-! ## C173 -/

/-- **C173** The attribute that was set has the value. -/
theorem set_found (l : List (Text × Text)) (k v : Text) : (setAttr l k v).lookup k = some v := by
  induction l with
  | nil => simp [setAttr]
  | cons a l ih =>
    obtain ⟨k', v'⟩ := a
    rw [setAttr]
    split_ifs with h
    · subst h; simp
    · have : (k == k') = false := by simpa using fun e : k = k' => h e.symm
      rw [List.lookup_cons, this, ih]

/-- **C173** The other attributes are as they were. -/
theorem set_other (l : List (Text × Text)) (k v : Text) {x : Text} (hx : x ≠ k) : (setAttr l k v).lookup x = l.lookup x := by
  induction l with
  | nil =>
    have : (x == k) = false := by simpa using hx
    simp [setAttr, List.lookup_cons, this]
  | cons a l ih =>
    obtain ⟨k', v'⟩ := a
    rw [setAttr]
    split_ifs with h
    · subst h
      have : (x == k') = false := by simpa using hx
      rw [List.lookup_cons, List.lookup_cons, this]
    · rw [List.lookup_cons, List.lookup_cons, ih]

/-- **C173** The order of the names stays, and a new name is the last. -/
theorem set_names (l : List (Text × Text)) (k v : Text) :
    (setAttr l k v).map Prod.fst = if k ∈ l.map Prod.fst then l.map Prod.fst else l.map Prod.fst ++ [k] := by
  induction l with
  | nil => simp [setAttr]
  | cons a l ih =>
    obtain ⟨k', v'⟩ := a
    rw [setAttr]
    split_ifs with h h2 h2
    · rfl
    · subst h; simp at h2
    · have : k ∈ l.map Prod.fst := by simpa [Ne.symm h] using h2
      rw [List.map_cons, ih, if_pos this]; rfl
    · have : k ∉ l.map Prod.fst := by
        intro hk
        exact h2 (by simp only [List.map_cons, List.mem_cons]; exact .inr hk)
      rw [List.map_cons, ih, if_neg this]; rfl

/-- **C173** No name is there twice, however the attributes were set. -/
theorem set_unique (l : List (Text × Text)) : ((l.foldl (fun acc a => setAttr acc a.1 a.2) []).map Prod.fst).Nodup := by
  have step : ∀ (acc : List (Text × Text)) k v, (acc.map Prod.fst).Nodup → ((setAttr acc k v).map Prod.fst).Nodup := by
    intro acc k v h
    rw [set_names]
    split_ifs with hk
    · exact h
    · rw [List.nodup_append]
      refine ⟨h, List.nodup_singleton _, ?_⟩
      intro a ha b hb
      rw [List.mem_singleton.mp hb]
      rintro rfl
      exact hk ha
  have key : ∀ (l acc : List (Text × Text)), (acc.map Prod.fst).Nodup → ((l.foldl (fun acc a => setAttr acc a.1 a.2) acc).map Prod.fst).Nodup := by
    intro l
    induction l with
    | nil => intro acc h; exact h
    | cons a l ih => intro acc h; exact ih _ (step acc a.1 a.2 h)
  exact key l [] List.nodup_nil

example : setAttr [("a".toList, "1".toList), ("b".toList, "2".toList)] "a".toList "3".toList = [("a".toList, "3".toList), ("b".toList, "2".toList)] := by decide

end Verif.Xml
