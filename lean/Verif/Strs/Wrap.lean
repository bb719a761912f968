import Verif.Strs.Split
import Mathlib.Data.List.Forall2
import Mathlib.Data.List.Chain

/-!
# Model of text wrapping, tables, number formatting and escaping

From src/hstd/stdlib/strutils.cpp. Sizes are byte counts, as in the code; the
conversions to `int` are taken without overflow.
-/

namespace Verif.Strs

/-! ## `wrap_text` – strutils.cpp:328-402 -/

/-- `join_line` – 337-350. `padding` is one shorter than `buffer`. -/
def joinLine : List Bytes → List Bytes → Bytes
  | [], _ => []
  | [w], _ => w
  | w :: ws, [] => w ++ joinLine ws []
  | w :: ws, p :: ps => w ++ p ++ joinLine ws ps

/-- The `for` loop over the paddings – 361-364. -/
def padFor (buffer : List Bytes) (maxWidth : Int) (i : Nat) (padding : List Bytes) : List Bytes :=
  if h : i < padding.length then
    if ((joinLine buffer padding).length : Int) < maxWidth then
      padFor buffer maxWidth (i + 1) (padding.set i (padding[i] ++ [32]))
    else padding
  else padding
termination_by padding.length - i
decreasing_by simp; omega

/-- The `while` loop – 360-365. -/
def padWhile (buffer : List Bytes) (maxWidth : Int) : Nat → List Bytes → Except Err (List Bytes)
  | fuel, padding =>
    if ((joinLine buffer padding).length : Int) < maxWidth then
      match fuel with
      | 0 => .error .diverges
      | fuel + 1 => padWhile buffer maxWidth fuel (padFor buffer maxWidth 0 padding)
    else .ok padding

/-- `Str{n, ' '}`; a negative count throws. -/
def spaces (n : Int) : Except Err Bytes :=
  if n < 0 then .error .range else .ok (List.replicate n.toNat 32)

/-- `fold_buffer` – 333-382: the line made of the words in the buffer. `currentWidth` is
the width counted so far. -/
def foldBuffer (justified : Bool) (maxWidth : Int) (buffer : List Bytes) (currentWidth : Int) : Except Err Bytes :=
  if justified ∧ 1 < buffer.length then do
    let slots : Int := buffer.length - 1
    let pad ← spaces ((maxWidth - (currentWidth - slots)).tdiv slots)
    let padding ← padWhile buffer maxWidth maxWidth.toNat (List.replicate (buffer.length - 1) pad)
    .ok (joinLine buffer padding)
  else .ok (join [32] buffer)

/-- State of the loop over the words. -/
structure Wrap where
  lines : List Bytes
  buffer : List Bytes
  currentWidth : Int

/-- Fold the buffer unless it is empty – 386, 392. -/
def Wrap.flush (justified : Bool) (maxWidth : Int) (w : Wrap) : Except Err Wrap :=
  if w.buffer = [] then .ok w
  else (foldBuffer justified maxWidth w.buffer w.currentWidth).map (fun line => ⟨w.lines ++ [line], [], 0⟩)

/-- Push a word – 388-389 (the buffer is never empty when line 389 looks). -/
def Wrap.push (w : Wrap) (word : Bytes) : Wrap :=
  ⟨w.lines, w.buffer ++ [word], w.currentWidth + (word.length + 1)⟩

/-- One word – 384-390. -/
def Wrap.word (justified : Bool) (maxWidth : Int) (w : Wrap) (word : Bytes) : Except Err Wrap :=
  if maxWidth < w.currentWidth + word.length + (if w.buffer = [] then 0 else 1) then
    (w.flush justified maxWidth).map (·.push word)
  else .ok (w.push word)

/-- The loop over the words – 384-390. -/
def Wrap.words (justified : Bool) (maxWidth : Int) : Wrap → List Bytes → Except Err Wrap
  | w, [] => .ok w
  | w, word :: rest =>
    match w.word justified maxWidth word with
    | .error e => .error e
    | .ok w => Wrap.words justified maxWidth w rest

/-- The lines of `wrap_text` – 328-392. -/
def wrapLines (words : List Bytes) (maxWidth : Int) (justified : Bool) : Except Err (List Bytes) :=
  match Wrap.words justified maxWidth ⟨[], [], 0⟩ words with
  | .error e => .error e
  | .ok w => (w.flush justified maxWidth).map (·.lines)

/-- `wrap_text` – 328-402. -/
def wrapText (words : List Bytes) (maxWidth : Int) (justified : Bool) : Except Err Bytes :=
  (wrapLines words maxWidth justified).map (join [10])

/-! ## Proofs about `wrap_text` -/

/-- Total number of bytes. -/
def total (l : List Bytes) : Nat := (l.map List.length).sum

theorem joinLine_length : ∀ (ws ps : List Bytes), ps.length + 1 = ws.length →
    (joinLine ws ps).length = total ws + total ps := by
  intro ws
  induction ws with
  | nil => intro ps h; simp at h
  | cons w ws ih =>
    intro ps h
    cases ws with
    | nil =>
      cases ps with
      | nil => simp [joinLine, total]
      | cons p ps => simp at h
    | cons w' ws =>
      cases ps with
      | nil => simp at h
      | cons p ps =>
        simp only [joinLine, List.length_append]
        rw [ih ps (by simpa using h)]
        simp [total]
        omega

theorem total_set {ps : List Bytes} {i : Nat} (h : i < ps.length) :
    total (ps.set i (ps[i] ++ [32])) = total ps + 1 := by
  induction ps generalizing i with
  | nil => simp at h
  | cons p ps ih =>
    cases i with
    | zero => simp [total]; omega
    | succ i =>
      have := ih (i := i) (by simpa using h)
      simp only [total, List.set_cons_succ, List.map_cons, List.sum_cons, List.getElem_cons_succ] at this ⊢
      omega

/-- A padding after one pass. -/
def Padded (n : Nat) (p : Bytes) : Prop := p = List.replicate n 32 ∨ p = List.replicate (n + 1) 32

theorem padFor_spec (ws : List Bytes) (maxWidth : Int) (n : Nat) (i : Nat) (ps : List Bytes)
    (hlen : ps.length + 1 = ws.length) (hle : (total ws + total ps : Int) ≤ maxWidth)
    (hneed : maxWidth ≤ total ws + total ps + (ps.length - i : Nat))
    (h1 : ∀ p ∈ ps, Padded n p) (h2 : ∀ j (hj : j < ps.length), i ≤ j → ps[j] = List.replicate n 32) :
    (padFor ws maxWidth i ps).length = ps.length ∧
      ((joinLine ws (padFor ws maxWidth i ps)).length : Int) = maxWidth ∧
      ∀ p ∈ padFor ws maxWidth i ps, Padded n p := by
  fun_induction padFor ws maxWidth i ps
  case case1 i ps h hlt ih =>
    rw [joinLine_length ws ps hlen] at hlt
    have ht := total_set h
    have := ih (by simpa using hlen) (by rw [ht]; push_cast; push_cast at hlt; omega)
      (by rw [ht, List.length_set]; push_cast; omega)
      (by
        intro p hp
        rcases List.mem_or_eq_of_mem_set hp with h' | h'
        · exact h1 p h'
        · right
          rw [h', h2 i h (Nat.le_refl i), List.replicate_succ'])
      (by
        intro j hj hij
        rw [List.length_set] at hj
        rw [List.getElem_set_ne (by omega)]
        exact h2 j hj (by omega))
    rw [List.length_set] at this
    exact this
  case case2 i ps h hlt =>
    refine ⟨rfl, ?_, h1⟩
    rw [joinLine_length ws ps hlen] at hlt ⊢
    push_cast at hlt ⊢
    omega
  case case3 i ps h =>
    refine ⟨rfl, ?_, h1⟩
    rw [joinLine_length ws ps hlen]
    push_cast
    omega

theorem padWhile_done {ws : List Bytes} {maxWidth : Int} {ps : List Bytes} (fuel : Nat)
    (h : ((joinLine ws ps).length : Int) = maxWidth) : padWhile ws maxWidth fuel ps = .ok ps := by
  unfold padWhile
  rw [if_neg (by omega)]

theorem total_replicate (k n : Nat) : total (List.replicate k (List.replicate n 32)) = k * n := by
  simp [total]

/-- A justified line: its words in order with paddings of one or more spaces that differ
by at most one, filling the width exactly. -/
def JustifiedLine (maxWidth : Int) (ws : List Bytes) (line : Bytes) : Prop :=
  ∃ n ps, 1 ≤ n ∧ ps.length + 1 = ws.length ∧ (∀ p ∈ ps, Padded n p) ∧ line = joinLine ws ps ∧
    (line.length : Int) = maxWidth

theorem foldBuffer_justified (maxWidth : Int) (ws : List Bytes) (h : 1 < ws.length)
    (hw : (total ws + ws.length : Int) ≤ maxWidth) :
    ∃ line, foldBuffer true maxWidth ws (total ws + ws.length) = .ok line ∧ JustifiedLine maxWidth ws line := by
  obtain ⟨k, hk⟩ : ∃ k, ws.length = k + 2 := ⟨ws.length - 2, by omega⟩
  have e1 : maxWidth - ((total ws + ws.length : Int) - ((ws.length : Int) - 1)) = maxWidth - total ws - 1 := by omega
  have e2 : (ws.length : Int) - 1 = ((k + 1 : Nat) : Int) := by rw [hk]; push_cast; omega
  obtain ⟨m, hm⟩ : ∃ m : Nat, maxWidth - total ws - 1 = m := ⟨(maxWidth - total ws - 1).toNat, by omega⟩
  have e3 : (m : Int).tdiv ((k + 1 : Nat) : Int) = ((m / (k + 1) : Nat) : Int) := by
    rw [Int.tdiv_eq_ediv_of_nonneg (by omega)]
    rfl
  have hdiv : 1 ≤ m / (k + 1) := by
    rw [Nat.le_div_iff_mul_le (by omega)]
    omega
  have hmod := Nat.mod_lt m (show 0 < k + 1 by omega)
  have hdm := Nat.div_add_mod m (k + 1)
  generalize hn : m / (k + 1) = n at *
  have hlen : ws.length - 1 = k + 1 := by omega
  have htot := total_replicate (k + 1) n
  generalize hq : (k + 1) * n = q at *
  generalize hr : m % (k + 1) = r at *
  obtain ⟨p1, p2, p3⟩ := padFor_spec ws maxWidth n 0 (List.replicate (k + 1) (List.replicate n 32))
    (by simp; omega) (by rw [htot]; omega)
    (by rw [htot, List.length_replicate]; omega)
    (by intro p hp; rw [List.mem_replicate] at hp; left; exact hp.2)
    (by intro j hj _; simp)
  refine ⟨joinLine ws (padFor ws maxWidth 0 (List.replicate (k + 1) (List.replicate n 32))), ?_,
    n, _, hdiv, by rw [p1]; simp; omega, p3, rfl, p2⟩
  obtain ⟨f, hf⟩ : ∃ f, maxWidth.toNat = f + 1 := ⟨maxWidth.toNat - 1, by omega⟩
  unfold foldBuffer
  rw [if_pos ⟨rfl, h⟩]
  dsimp only
  rw [e1, e2, hm, e3, hlen]
  simp only [spaces, if_neg (show ¬ ((n : Nat) : Int) < 0 by omega), bind, Except.bind, Int.toNat_natCast]
  rw [hf, padWhile]
  rw [if_pos]
  · rw [padWhile_done f p2]
  · rw [joinLine_length _ _ (by simp; omega), htot]
    push_cast
    omega

/-- What a line must look like for its words. -/
def LineOf (justified : Bool) (maxWidth : Int) (ws : List Bytes) (line : Bytes) : Prop :=
  ws ≠ [] ∧
  if justified = true ∧ 1 < ws.length then JustifiedLine maxWidth ws line
  else line = join [32] ws ∧ (1 < ws.length → (line.length : Int) ≤ maxWidth)

theorem join_length (ws : List Bytes) (h : ws ≠ []) : (join [32] ws).length + 1 = total ws + ws.length := by
  induction ws with
  | nil => simp at h
  | cons w ws ih =>
    cases ws with
    | nil => simp [join, total]
    | cons w' ws =>
      have := ih (by simp)
      simp only [join, List.length_append, List.length_cons, List.length_nil, total, List.map_cons, List.sum_cons] at this ⊢
      omega

/-- A line is ended only when the next word with two more columns would not fit. -/
def Broken (maxWidth : Int) (g1 g2 : List Bytes) : Prop :=
  ∀ w, g2.head? = some w → maxWidth < total g1 + g1.length + w.length + 1

/-- Invariant of the loop. -/
structure WrapInv (justified : Bool) (maxWidth : Int) (done : List Bytes) (w : Wrap) : Prop where
  width : w.currentWidth = total w.buffer + w.buffer.length
  fits : 1 < w.buffer.length → (total w.buffer + w.buffer.length : Int) ≤ maxWidth
  start : w.buffer = [] → w.lines = []
  groups : ∃ gs : List (List Bytes), List.Forall₂ (LineOf justified maxWidth) gs w.lines ∧
    gs.flatten ++ w.buffer = done ∧ (gs ++ [w.buffer]).IsChain (Broken maxWidth)

theorem foldBuffer_spec {justified : Bool} {maxWidth : Int} {ws : List Bytes} (h : ws ≠ [])
    (hw : 1 < ws.length → (total ws + ws.length : Int) ≤ maxWidth) :
    ∃ line, foldBuffer justified maxWidth ws (total ws + ws.length) = .ok line ∧ LineOf justified maxWidth ws line := by
  by_cases hj : justified = true ∧ 1 < ws.length
  · obtain ⟨line, h1, h2⟩ := foldBuffer_justified maxWidth ws hj.2 (hw hj.2)
    refine ⟨line, by rw [hj.1]; exact h1, h, ?_⟩
    rw [if_pos hj]
    exact h2
  · refine ⟨join [32] ws, ?_, h, ?_⟩
    · unfold foldBuffer
      rw [if_neg hj]
    · rw [if_neg hj]
      refine ⟨rfl, fun hl => ?_⟩
      have := join_length ws h
      have := hw hl
      omega

theorem total_append (a b : List Bytes) : total (a ++ b) = total a + total b := by simp [total]

theorem isChain_snoc {α : Type} {R : α → α → Prop} {l : List α} {a b : α} (h : (l ++ [a]).IsChain R) (hab : R a b) :
    (l ++ [a] ++ [b]).IsChain R := by
  rw [List.isChain_append]
  refine ⟨h, by simp, ?_⟩
  intro x hx y hy
  simp at hx hy
  subst hx hy
  exact hab

theorem isChain_last {α : Type} {R : α → α → Prop} {l : List α} {a b : α} (h : (l ++ [a]).IsChain R)
    (hab : ∀ x, R x a → R x b) : (l ++ [b]).IsChain R := by
  rw [List.isChain_append] at h ⊢
  refine ⟨h.1, by simp, ?_⟩
  intro x hx y hy
  simp at hy
  subst hy
  exact hab x (h.2.2 x hx a (by simp))

theorem word_inv {justified : Bool} {maxWidth : Int} {done : List Bytes} {w : Wrap} (h : WrapInv justified maxWidth done w)
    (word : Bytes) : ∃ w', w.word justified maxWidth word = .ok w' ∧ w'.buffer ≠ [] ∧
      WrapInv justified maxWidth (done ++ [word]) w' := by
  obtain ⟨gs, g1, g2, g3⟩ := h.groups
  have hwid := h.width
  by_cases hb : w.buffer = []
  · -- the first word
    have hl := h.start hb
    have hgs : gs = [] := by rw [hl] at g1; cases g1; rfl
    rw [hgs] at g2
    rw [hb] at hwid g2
    simp [total] at hwid
    have key : WrapInv justified maxWidth (done ++ [word]) (w.push word) := by
      refine ⟨?_, ?_, by simp [Wrap.push], [], ?_, ?_, by simp⟩
      · simp [Wrap.push, hb, hwid, total]
      · simp [Wrap.push, hb]
      · simp [Wrap.push, hl]
      · simp [Wrap.push, hb, ← g2]
    refine ⟨w.push word, ?_, by simp [Wrap.push], key⟩
    unfold Wrap.word
    rw [if_pos hb]
    split
    · unfold Wrap.flush
      rw [if_pos hb]
      rfl
    · rfl
  · unfold Wrap.word
    rw [if_neg hb]
    split
    · rename_i hlt
      obtain ⟨line, e1, e2⟩ := foldBuffer_spec (justified := justified) hb h.fits
      rw [← hwid] at e1
      refine ⟨Wrap.push ⟨w.lines ++ [line], [], 0⟩ word, ?_, by simp [Wrap.push], ?_, ?_, by simp [Wrap.push],
        gs ++ [w.buffer], ?_, ?_, ?_⟩
      · unfold Wrap.flush
        rw [if_neg hb, e1]
        rfl
      · simp [Wrap.push, total]
      · simp [Wrap.push]
      · exact List.rel_append g1 (List.Forall₂.cons e2 List.Forall₂.nil)
      · simp [Wrap.push, ← g2]
      · apply isChain_snoc g3
        intro x hx
        simp [Wrap.push] at hx
        subst hx
        rw [← hwid]
        omega
    · rename_i hlt
      refine ⟨w.push word, rfl, by simp [Wrap.push], ?_, ?_, by simp [Wrap.push], gs, g1, ?_, ?_⟩
      · simp only [Wrap.push, total_append, List.length_append, hwid]
        simp [total]
        omega
      · intro _
        simp only [Wrap.push, total_append, List.length_append]
        simp [total] at hlt hwid ⊢
        omega
      · simp [Wrap.push, ← g2]
      · apply isChain_last g3
        intro x hx y hy
        apply hx y
        obtain ⟨b, bs, hbs⟩ := List.exists_cons_of_ne_nil hb
        simp only [Wrap.push, hbs] at hy ⊢
        simpa using hy

theorem words_inv {justified : Bool} {maxWidth : Int} : ∀ (rest done : List Bytes) (w : Wrap),
    WrapInv justified maxWidth done w →
    ∃ w', Wrap.words justified maxWidth w rest = .ok w' ∧ WrapInv justified maxWidth (done ++ rest) w' := by
  intro rest
  induction rest with
  | nil => intro done w h; exact ⟨w, rfl, by simpa using h⟩
  | cons word rest ih =>
    intro done w h
    obtain ⟨w1, e1, -, h1⟩ := word_inv h word
    obtain ⟨w2, e2, h2⟩ := ih _ _ h1
    refine ⟨w2, ?_, by simpa using h2⟩
    rw [Wrap.words, e1]
    exact e2

theorem wrapLines_spec (words : List Bytes) (maxWidth : Int) (justified : Bool) :
    ∃ gs lines, wrapLines words maxWidth justified = .ok lines ∧ gs.flatten = words ∧
      List.Forall₂ (LineOf justified maxWidth) gs lines ∧ gs.IsChain (Broken maxWidth) := by
  have h0 : WrapInv justified maxWidth [] ⟨[], [], 0⟩ :=
    ⟨by simp [total], by simp, by simp, [], by simp, by simp, by simp⟩
  obtain ⟨w, e1, h1⟩ := words_inv words [] _ h0
  obtain ⟨gs, g1, g2, g3⟩ := h1.groups
  rw [List.nil_append] at g2
  unfold wrapLines
  rw [e1]
  dsimp only
  unfold Wrap.flush
  by_cases hb : w.buffer = []
  · rw [if_pos hb]
    refine ⟨gs, w.lines, rfl, by rw [← g2, hb]; simp, g1, ?_⟩
    rw [List.isChain_append] at g3
    exact g3.1
  · rw [if_neg hb]
    obtain ⟨line, e2, e3⟩ := foldBuffer_spec (justified := justified) hb h1.fits
    rw [← h1.width] at e2
    rw [e2]
    refine ⟨gs ++ [w.buffer], w.lines ++ [line], rfl, by rw [← g2]; simp, ?_, g3⟩
    exact List.rel_append g1 (List.Forall₂.cons e3 List.Forall₂.nil)

end Verif.Strs
