import Verif.Link.Convert

/-!
# Links that are written and read again
-/

namespace Verif.Link
open Verif.Parser (NK)
open Verif.Token (TK)
open Verif.Pipeline (Piece fits)
open Verif.Stamp (Out Raw rawText)
open Verif.Drawer (Text)

/-! ## Lengths -/

theorem raw_text (r : Raw) (h : ∀ t ∈ r, t.2 ≠ []) : r.length ≤ (rawText r).length := by
  induction r with
  | nil => exact Nat.zero_le _
  | cons t r ih =>
    have h1 := ih fun x hx => h x (List.mem_cons_of_mem _ hx)
    have h2 : 0 < t.2.length := List.length_pos_of_ne_nil (h t List.mem_cons_self)
    have e : rawText (t :: r) = t.2 ++ rawText r := by simp [rawText]
    rw [e, List.length_append, List.length_cons]
    omega

theorem piece_ne {p : Piece} (h : p.Valid) : p.text ≠ [] := by
  cases p with
  | word w =>
    obtain ⟨⟨c, hc, -⟩, -⟩ := h
    rintro he
    have : w = [] := he
    rw [this] at hc
    cases hc
  | number ds => exact h.1
  | gap n => exact nofun
  | brk n => exact nofun
  | colon => exact nofun
  | star => exact nofun
  | slash => exact nofun
  | glyph u =>
    rcases h with ⟨x, rfl, -⟩ | ⟨a, b, rfl, -⟩ | ⟨a, b, d, rfl, -⟩ <;> exact nofun

theorem row_le {ps : List Piece} (h : ∀ p ∈ ps, Easy p) : ps.length ≤ (rowText ps).length := by
  induction ps with
  | nil => exact Nat.zero_le _
  | cons p r ih =>
    have h1 := ih fun q hq => h q (List.mem_cons_of_mem _ hq)
    have h2 : 0 < p.text.length := List.length_pos_of_ne_nil (piece_ne (h p List.mem_cons_self).1)
    have e : rowText (p :: r) = p.text ++ rowText r := by simp [rowText]
    rw [e, List.length_append, List.length_cons]
    omega

theorem head_ne {h : Head} (hv : h.Valid) : ∀ t ∈ h.raw, t.2 ≠ [] := by
  have two : ∀ {a b : TK × Text}, a.2 ≠ [] → b.2 ≠ [] → ∀ t ∈ [a, b], t.2 ≠ [] := by
    intro a b ha hb t ht
    rcases List.mem_cons.mp ht with rfl | ht
    · exact ha
    · rw [List.mem_singleton.mp ht]; exact hb
  have one : ∀ {a : TK × Text}, a.2 ≠ [] → ∀ t ∈ [a], t.2 ≠ [] := by
    intro a ha t ht
    rw [List.mem_singleton.mp ht]; exact ha
  cases h with
  | web s r => exact two (by cases s <;> exact nofun) nofun
  | file p => exact two nofun nofun
  | attachment p => exact two nofun nofun
  | id t => exact two nofun nofun
  | custom t => exact two nofun hv.2.2
  | title m g ts =>
    refine one (a := (TK.LinkProtocolTitle, List.replicate (m + 1) '*' ++ List.replicate g ' ' ++ joinSlash ts)) ?_
    rw [List.replicate_succ]
    exact nofun
  | path p => exact one (by rintro h; rcases hv.2 with h1 | h1 <;> (rw [show p = [] from h] at h1; cases h1))
  | internal t =>
    obtain ⟨-, -, c, hc, -⟩ := hv
    refine one ?_
    rintro h
    rw [show t = [] from h] at hc
    cases hc
  | person ps => exact one nofun
  | user n ps => exact one (by simp)

theorem start_le {h : Head} (hv : h.Valid) : h.raw.length ≤ h.start.length := raw_text _ (head_ne hv)

theorem items_le {b : Bool} {is : List Item} (h : LinkedFrom b is) : (docRaw is).length ≤ (render is).length := by
  have he := items_easy h
  induction is generalizing b with
  | nil => exact Nat.zero_le _
  | cons i r ih =>
    have ih := fun {b} (hr : LinkedFrom b r) => ih hr fun j hj => he j (List.mem_cons_of_mem _ hj)
    have hi := he i List.mem_cons_self
    rw [docRaw_cons, render_cons, List.length_append, List.length_append]
    cases i with
    | piece p =>
      have h1 := ih h.2.2.2.2.2
      have h2 : 0 < p.text.length := List.length_pos_of_ne_nil (piece_ne h.1)
      show 1 + _ ≤ p.text.length + _
      omega
    | link hd d =>
      have h1 := ih h.2.2
      have h2 := start_le h.1
      have h3 := row_le hi.1
      have h4 : (descRaw d).length ≤ (descText d).length := by
        cases d with
        | none => exact Nat.zero_le _
        | some d =>
          have := row_le (hi.2 d rfl).2
          have e1 : (descRaw (some d)).length = 1 + d.length := by simp [descRaw, rowRaw]; omega
          have e2 : (descText (some d)).length = 2 + (rowText d).length := by
            show ("][".toList ++ rowText d).length = _
            rw [List.length_append]; rfl
          omega
      have e1 : (Item.raw (.link hd d)).length = 1 + hd.raw.length + (hd.row.length + ((descRaw d).length + 1)) := by
        show ([(TK.LinkBegin, "[[".toList)] ++ hd.raw ++ (rowRaw hd.row ++ (descRaw d ++ [(TK.LinkEnd, "]]".toList)]))).length = _
        simp only [List.length_append, List.length_cons, List.length_nil, rowRaw, List.length_map]
      have e2 : (Item.text (.link hd d)).length = 2 + (hd.start.length + (rowText hd.row).length) + (descText d).length + 2 := by
        show ("[[".toList ++ hd.text ++ descText d ++ "]]".toList).length = _
        rw [← start_row]
        simp only [List.length_append]
        rfl
      rw [e1, e2]
      omega
    | url s u =>
      have h1 := ih h.2.2
      have h2 := start_le (h := .web s u) h.1
      rw [start_web] at h2
      show (Head.raw (.web s u)).length + _ ≤ (webText s u).length + _
      omega
    | note t =>
      have h1 := ih h.2.2
      show 1 + _ ≤ ("[fn:".toList ++ t ++ "]".toList).length + _
      rw [List.length_append]
      have : "]".toList.length = 1 := rfl
      omega

theorem text_render (is : List Item) : paraText is = render (is ++ [.piece (.brk 0)]) := by
  unfold paraText render
  rw [List.map_append, List.flatten_append]
  rfl

/-- What is found in a paragraph. -/
theorem read_para {is : List Item} (h : Linked is) {n : Nat} (hn : (paraText is).length + 4 ≤ n) : readParas n (paraText is) = .ok (.ok [is.map Item.got]) := by
  have hl := items_le h.from_
  rw [← text_render] at hl
  rw [text_render, read_items h.from_ (by
      obtain ⟨-, h2, h3, -⟩ := h
      cases is with
      | nil => exact absurd rfl h2
      | cons i r => exact h3) (by simp) (by omega)]
  have e : (((is ++ [Item.piece (.brk 0)]).map Item.got).reverse.dropWhile Part.isBlank).reverse = is.map Item.got := by
    rcases List.eq_nil_or_concat is with rfl | ⟨r, i, rfl⟩
    · exact absurd rfl h.ne
    · have hb := h.last i (by simp)
      have : Part.isBlank i.got = false := by
        cases i with
        | piece p =>
          refine blank_piece ?_ ?_ <;> (rintro k rfl; cases hb)
        | _ => rfl
      have hk : Part.isBlank (Item.got (.piece (.brk 0))) = true := rfl
      simp [hk, this]
  rw [e]

/-! ## The paragraph that is written -/

/-- The item that is written. -/
def Item.again : Item → Item
  | .link (.web s r) none => .url s r
  | .link (.path p) d => .link (.file p) d
  | .link (.title _ _ ts) d => .link (.title 0 0 ts) d
  | .link (.user name _) d => .link (.user name []) d
  | i => i

theorem leaves_text (d : List Piece) : showLeaves (d.map leaf) = rowText d := by
  unfold showLeaves rowText
  rw [List.map_map]
  rfl

theorem show_desc (a : Text) (d : List Piece) :
    "[[".toList ++ a ++ "][".toList ++ showLeaves (d.map leaf) ++ "]]".toList = "[[".toList ++ a ++ descText (some d) ++ "]]".toList := by
  rw [leaves_text]
  show _ = "[[".toList ++ a ++ ("][".toList ++ rowText d) ++ "]]".toList
  simp only [List.append_assoc]

theorem show_none (a : Text) : "[[".toList ++ a ++ "]]".toList = "[[".toList ++ a ++ descText none ++ "]]".toList := by
  show _ = "[[".toList ++ a ++ [] ++ "]]".toList
  rw [List.append_nil]

theorem show_item (i : Item) : i.got.show = i.again.text := by
  cases i with
  | piece p => rfl
  | url s r => rfl
  | note t => rfl
  | link h d =>
    cases d with
    | none => cases h <;> first | exact show_none _ | rfl
    | some d => cases h <;> exact show_desc _ d

theorem show_para (is : List Item) : showPara (is.map Item.got) = paraText (is.map Item.again) := by
  unfold showPara paraText render
  rw [List.map_map, List.map_map]
  congr 2
  exact List.map_congr_left fun i _ => show_item i

/-- A web address in brackets without description stands between blanks, and links to titles have one
star. `prev`: after a blank. -/
def Apart (prev : Bool) : List Item → Prop
  | [] => True
  | i :: r => (∀ s u, i = .link (.web s u) none → prev = true ∧ ∀ j ∈ r.head?, j.isBlank = true) ∧ (∀ m g ts d, i = .link (.title m g ts) d → m = 0) ∧
      Apart i.isBlank r

theorem got_again {i : Item} (h : ∀ m g ts d, i = .link (.title m g ts) d → m = 0) : i.again.got = i.got := by
  cases i with
  | piece p => rfl
  | url s r => rfl
  | note t => rfl
  | link hd d =>
    cases hd with
    | title m g ts => cases h m g ts d rfl; rfl
    | web s u => cases d <;> rfl
    | _ => rfl

theorem again_blank {i : Item} : i.again.isBlank = i.isBlank := by
  cases i with
  | link hd d => cases hd <;> first | rfl | (cases d <;> rfl)
  | _ => rfl

theorem again_like (i : Item) : i.again.like = i.like ∨ ∃ s u, i = .link (.web s u) none ∧ i.again.like = .word ['h'] := by
  cases i with
  | link hd d =>
    cases hd with
    | web s u =>
      cases d with
      | none => exact .inr ⟨s, u, rfl, rfl⟩
      | some d => exact .inl rfl
    | _ => exact .inl rfl
  | _ => exact .inl rfl

theorem again_linked {is : List Item} : ∀ {b prev : Bool}, LinkedFrom b (is ++ [.piece (.brk 0)]) → Apart prev is →
    LinkedFrom b (is.map Item.again ++ [.piece (.brk 0)]) := by
  induction is with
  | nil => intro b prev h _; exact h
  | cons i r ih =>
    intro b prev h ha
    obtain ⟨a1, a2, a3⟩ := ha
    rw [List.map_cons, List.cons_append]
    cases i with
    | piece p =>
      obtain ⟨h1, h2, h3, h4, h5, h6⟩ := h
      refine ⟨h1, h2, h3, h4, ?_, ih h6 a3⟩
      cases r with
      | nil => exact h5
      | cons j r =>
        show fits b p (some j.again.like)
        have h5 : fits b p (some j.like) := h5
        rcases again_like j with e | ⟨s, u, e, e'⟩
        · rw [e]; exact h5
        · have hb := (a3.1 s u e).1
          rw [e']
          subst e
          cases p with
          | gap n => exact ⟨h5.1, by simp⟩
          | brk n => intro k; simp
          | _ => cases hb
    | link hd d =>
      obtain ⟨h1, h2, h3⟩ := h
      have h4 := ih h3 a3
      cases hd with
      | web s u =>
        cases d with
        | none =>
          refine ⟨h1, ?_, h4⟩
          have := (a1 s u rfl).2
          cases r with
          | nil => exact ⟨_, rfl, rfl⟩
          | cons j r => exact ⟨_, rfl, by rw [again_blank]; exact this j rfl⟩
        | some d => exact ⟨h1, h2, h4⟩
      | path p =>
        refine ⟨⟨h1.1, ?_⟩, h2, h4⟩
        rcases h1.2 with h | h <;> rw [h] <;> decide
      | title m g ts => exact ⟨h1, h2, h4⟩
      | user n ps => exact ⟨⟨h1.1, trivial⟩, h2, h4⟩
      | _ => exact ⟨h1, h2, h4⟩
    | url s u =>
      obtain ⟨h1, ⟨j, hj, hb⟩, h3⟩ := h
      refine ⟨h1, ?_, ih h3 a3⟩
      cases r with
      | nil => exact ⟨_, rfl, rfl⟩
      | cons k r =>
        cases hj
        exact ⟨_, rfl, by rw [again_blank]; exact hb⟩
    | note t => exact ⟨h.1, h.2.1, ih h.2.2 a3⟩

theorem again_para {is : List Item} (h : Linked is) (ha : Apart true is) : Linked (is.map Item.again) := by
  refine ⟨again_linked h.from_ ha, by simpa using h.ne, ?_, ?_⟩
  · have := h.first
    cases is with
    | nil => exact this
    | cons i r =>
      intro he
      have he : i.again = .piece (.brk 0) := by simpa using he
      have hb : i = .piece (.brk 0) := by
        cases i with
        | piece p => exact he
        | link hd d => cases hd <;> first | cases he | (cases d <;> cases he)
        | url s u => cases he
        | note t => cases he
      exact this (by rw [hb]; rfl)
  · intro i hi
    rw [List.getLast?_map] at hi
    cases hl : is.getLast? with
    | none => rw [hl] at hi; cases hi
    | some j =>
      rw [hl] at hi
      cases hi
      rw [again_blank]
      exact h.last j hl

theorem apart_got {is : List Item} : ∀ {prev : Bool}, Apart prev is → (is.map Item.again).map Item.got = is.map Item.got := by
  induction is with
  | nil => intro _ _; rfl
  | cons i r ih =>
    intro prev ha
    rw [List.map_cons, List.map_cons, List.map_cons, ih ha.2.2, got_again ha.2.1]

end Verif.Link
