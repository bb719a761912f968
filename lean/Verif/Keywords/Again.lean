import Verif.Keywords.Meaning
import Verif.Code.Again

/-!
# Keyword lines are written and read again
-/

namespace Verif.Keywords
open Verif.Drawer (Text stripSpace Trimmed stripSpace_pad stripSpace_trimmed)
open Verif.BaseLexer (normalize isAlnum isDigit)
open Verif.Stamp (Out)
open Verif.Code (blanks all_append total total_append join_rest)
open Verif.Sem (Single Singles ShowsLines AllLines str stack box textOf)
open Verif.Layout (joinLines stripEnd volume volumes)

/-! ## Lines -/

/-- A line without the line break after it. -/
def pieceText (p : Text × Said) : Text := "#+".toList ++ p.1 ++ ":".toList ++ p.2.text

/-- Lines, with one line break between them. -/
def chain : List (Text × Said) → List Entry
  | [] => []
  | [p] => [⟨p.1, p.2, 0⟩]
  | p :: q :: r => ⟨p.1, p.2, 1⟩ :: chain (q :: r)

theorem chain_text (ps : List (Text × Said)) : docText (chain ps) = joinLines (ps.map pieceText) := by
  induction ps with
  | nil => rfl
  | cons p ps ih =>
    cases ps with
    | nil => simp [docText, chain, render, Line.text, Entry.line, pieceText, joinLines]
    | cons q r =>
      have e : docText (chain (p :: q :: r)) = pieceText p ++ "\n".toList ++ docText (chain (q :: r)) := by
        simp [docText, chain, render, Line.text, Entry.line, pieceText]
      rw [e, ih, List.map_cons (l := q :: r), Layout.joinLines_cons _ _ (by simp)]
      simp

theorem chain_ne {ps : List (Text × Said)} (h : ps ≠ []) : chain ps ≠ [] := by
  cases ps with
  | nil => exact absurd rfl h
  | cons p ps => cases ps <;> simp [chain]

theorem chain_length (ps : List (Text × Said)) : (chain ps).length = ps.length := by
  induction ps with
  | nil => rfl
  | cons p ps ih => cases ps with
    | nil => rfl
    | cons q r => rw [chain, List.length_cons, ih]; rfl

theorem chain_valid {ps : List (Text × Said)} (h : ∀ p ∈ ps, ∀ k, Entry.Valid ⟨p.1, p.2, k⟩) : EntriesValid (chain ps) := by
  induction ps with
  | nil => trivial
  | cons p ps ih =>
    have ih := ih fun q hq => h q (List.mem_cons_of_mem _ hq)
    cases ps with
    | nil => exact ⟨h p List.mem_cons_self 0, fun hx => absurd rfl hx, trivial⟩
    | cons q r => exact ⟨h p List.mem_cons_self 1, fun _ => Nat.le_refl _, ih⟩

/-- The line breaks do not matter. -/
theorem chain_parts (ps : List (Text × Said)) : startups (chain ps) = startups (ps.map fun p => ⟨p.1, p.2, 0⟩) ∧
    itemsOf (chain ps) = itemsOf (ps.map fun p => ⟨p.1, p.2, 0⟩) ∧ nodesRead (chain ps) = nodesRead (ps.map fun p => ⟨p.1, p.2, 0⟩) := by
  induction ps with
  | nil => exact ⟨rfl, rfl, rfl⟩
  | cons p ps ih =>
    cases ps with
    | nil => exact ⟨rfl, rfl, rfl⟩
    | cons q r =>
      obtain ⟨h1, h2, h3⟩ := ih
      have s1 : ∀ (e : Entry) d, startups (e :: d) = startups [e] ++ startups d := fun e d => by
        simp only [startups, List.filterMap_cons, List.filterMap_nil]
        split <;> rfl
      have s2 : ∀ (e : Entry) d, itemsOf (e :: d) = itemsOf [e] ++ itemsOf d := fun e d => by simp [itemsOf]
      have s3 : ∀ (e : Entry) d, nodesRead (e :: d) = nodesRead [e] ++ nodesRead d := fun e d => by
        simp only [nodesRead, List.filterMap_cons, List.filterMap_nil]
        split <;> rfl
      rw [chain, List.map_cons]
      refine ⟨?_, ?_, ?_⟩
      · rw [s1, h1, s1 _ (List.map _ _)]; rfl
      · rw [s2, h2, s2 _ (List.map _ _)]; rfl
      · rw [s3, h3, s3 _ (List.map _ _)]; rfl

/-! ## What is written -/

/-- The lines for a document which is read from `d`. -/
def startPieces (v : Visibility) : List (Text × Said) := if v = .showEverything then [] else [("startup".toList, .startup ⟨1, v.word, [], 0⟩)]

def optionPieces (b : Broken) : List (Text × Said) := if b = .mark then [("options".toList, .options [⟨1, "broken-links".toList, "mark".toList⟩] 0)] else []

def nodePieces (d : List Entry) : List (Text × Said) := d.filterMap fun e =>
  match e.said with
  | .email t => some ("email".toList, .email (stripEnd (" ".toList ++ stripSpace t)))
  | .custom t => some (e.name, .custom (stripEnd (": ".toList ++ t)))
  | _ => none

def Node.line : Node → Text
  | .email t => "#+email: ".toList ++ t
  | .custom n t => "#+".toList ++ n ++ ": ".toList ++ t

def startLines (v : Visibility) : List Text := if v = .showEverything then [] else ["#+startup: ".toList ++ v.word]

def optionLines (b : Broken) : List Text := if b = .mark then ["#+options: broken-links:mark".toList] else []

theorem strip_append {a : Text} (ha : a.getLast? ≠ some ' ') (b : Text) : stripEnd (a ++ b) = a ++ stripEnd b := by
  unfold stripEnd
  rw [List.reverse_append, List.dropWhile_append]
  split_ifs with h
  · have h0 : b.reverse.dropWhile (· == ' ') = [] := by simpa using h
    rw [h0]
    have : stripEnd a = a := Sem.stripEnd_id ha
    simpa [stripEnd] using this
  · rw [List.reverse_append, List.reverse_reverse]

theorem node_piece {d : List Entry} : (nodesRead d).map (fun x => stripEnd x.line) = (nodePieces d).map pieceText := by
  unfold nodesRead nodePieces
  induction d with
  | nil => rfl
  | cons e d ih =>
    rw [List.filterMap_cons, List.filterMap_cons]
    cases e.said with
    | email t =>
      dsimp only
      rw [List.map_cons, List.map_cons, ih]
      congr 1
      show stripEnd ("#+email: ".toList ++ stripSpace t) = _
      rw [show "#+email: ".toList ++ stripSpace t = "#+email:".toList ++ (" ".toList ++ stripSpace t) from rfl, strip_append (by decide)]
      rfl
    | custom t =>
      dsimp only
      rw [List.map_cons, List.map_cons, ih]
      congr 1
      show stripEnd ("#+".toList ++ (e.name ++ ":".toList) ++ ": ".toList ++ t) = _
      rw [show "#+".toList ++ (e.name ++ ":".toList) ++ ": ".toList ++ t = ("#+".toList ++ e.name ++ ":".toList) ++ (": ".toList ++ t) by simp, strip_append (by rw [List.getLast?_append_of_ne_nil _ (by decide)]; decide)]
      rfl
    | _ => exact ih

/-- The lines which are written. -/
def writtenLines (y : Doc) : List Text := startLines y.opts.visibility ++ optionLines y.opts.broken ++ y.nodes.map Node.line

theorem node_single (x : Node) : Single x.fmt x.line := by
  cases x with
  | email t =>
    have := (Singles.cons (Sem.single_str "#+email: ".toList) (.cons (Sem.single_str t) .nil)).line (by simp)
    rw [List.flatten_cons, List.flatten_cons, List.flatten_nil, List.append_nil] at this
    exact this
  | custom n t =>
    have := (Singles.cons (Sem.single_str ("#+".toList ++ n ++ ": ".toList ++ t)) .nil).line (by simp)
    rw [List.flatten_cons, List.flatten_nil, List.append_nil] at this
    exact this

theorem start_lines (v : Visibility) : AllLines (fmtStartup v) ((startLines v).map fun l => [l]) := by
  unfold fmtStartup startLines
  split_ifs
  · exact .nil
  · exact .cons (by simpa using ((Singles.cons (Sem.single_str "#+startup: ".toList) (.cons (Sem.single_str v.word) .nil)).line (by simp)).lines) .nil

theorem option_lines {b : Broken} (h : b = .none ∨ b = .mark) : AllLines (fmtOptions b) ((optionLines b).map fun l => [l]) := by
  rcases h with rfl | rfl
  · exact .nil
  · have h1 := (Singles.cons (Sem.single_str "broken-links:mark".toList) .nil).line (by simp)
    have h2 := (Singles.cons (Sem.single_str "#+options: ".toList) (.cons h1 .nil)).line (by simp)
    exact .cons h2.lines .nil

theorem volume_two (a t : Text) : volume (.line [str a, str t]) ≤ (a ++ t).length := by
  simp only [volumes, volume, Sem.volume_str, List.length_append]
  omega

theorem volume_one (a : Text) : volume (.line [str a]) ≤ a.length := by
  simp only [volumes, volume, Sem.volume_str]
  omega

theorem write_text {y : Doc} (hb : y.opts.broken = .none ∨ y.opts.broken = .mark) (hl : ∀ l ∈ writtenLines y, '\n' ∉ l) (hs : total (writtenLines y) < 1000000000)
    (o : Layout.Options Rat) (ho : Layout.Sane o) (fuel : Nat) (hf : 4097 ≤ fuel) : write Layout.exact o fuel y = .ok (textOf (writtenLines y)) := by
  have h1 : AllLines (fmtStartup y.opts.visibility ++ fmtOptions y.opts.broken ++ y.nodes.map Node.fmt) ((writtenLines y).map fun l => [l]) := by
    unfold writtenLines
    rw [List.map_append, List.map_append, List.map_map]
    exact all_append (all_append (start_lines _) (option_lines hb)) (Code.all_single node_single y.nodes)
  have hfl : ((writtenLines y).map fun l => [l]).flatten = writtenLines y := by
    have := Code.flat_single (fun l : Text => l) (writtenLines y)
    rwa [List.map_id'] at this
  have hv : volumes (fmtStartup y.opts.visibility ++ fmtOptions y.opts.broken ++ y.nodes.map Node.fmt) ≤ total (writtenLines y) := by
    unfold writtenLines
    rw [Sem.volumes_append, Sem.volumes_append, total_append, total_append]
    have a1 : volumes (fmtStartup y.opts.visibility) ≤ total (startLines y.opts.visibility) := by
      unfold fmtStartup startLines
      split_ifs
      · exact Nat.le_refl _
      · simp only [volumes, volume, Sem.volume_str, total, List.map_cons, List.map_nil, List.sum_cons, List.sum_nil, List.length_append]
        omega
    have a2 : volumes (fmtOptions y.opts.broken) ≤ total (optionLines y.opts.broken) := by
      rcases hb with h | h <;> rw [h] <;> simp [fmtOptions, optionLines, volumes, volume, Sem.volume_str, total]
    have a3 : ∀ ns : List Node, volumes (ns.map Node.fmt) ≤ total (ns.map Node.line) := by
      intro ns
      induction ns with
      | nil => exact Nat.le_refl _
      | cons x ns ih =>
        have : volume x.fmt ≤ x.line.length := by
          cases x with
          | email t => exact volume_two _ t
          | custom n t => exact volume_one _
        simp only [List.map_cons, volumes, total, List.sum_cons] at ih ⊢
        omega
    have := a3 y.nodes
    omega
  unfold write fmtDocument
  split
  · next e =>
    rw [e] at h1
    have hnil : writtenLines y = [] := by
      cases hw : writtenLines y with
      | nil => rfl
      | cons l ls => rw [hw] at h1; cases h1
    rw [hnil, Layout.toString_returns_partial o ho _ ?_ ?_ fuel hf]
    · simp [stack, Layout.picture, Layout.columnPicture, str, Layout.shownText, Sem.chars_str, Layout.aboveO, Layout.printed, joinLines,
        Layout.splitLines, textOf, stripEnd]
    · exact ⟨by decide, ⟨trivial, trivial⟩, by simp [str, Layout.picture]⟩
    · simp [stack, volume, volumes, Sem.volume_str]
  · have h3 := h1.stack (by simp)
    rw [hfl] at h3
    rw [Layout.toString_returns_partial o ho _ h3.filled (by simp only [stack, volume]; omega) fuel hf, h3.shows, Sem.printed_box _ hl]

/-! ## It is read again -/

/-- All the lines for a document. -/
def pieces (v : Visibility) (b : Broken) (d : List Entry) : List (Text × Said) := startPieces v ++ optionPieces b ++ nodePieces d

theorem pieces_lines {v : Visibility} {b : Broken} {d : List Entry} {y : Doc} (h1 : y.opts.visibility = v) (h2 : y.opts.broken = b) (h3 : y.nodes = nodesRead d) :
    textOf (writtenLines y) = docText (chain (pieces v b d)) := by
  rw [chain_text]
  unfold textOf writtenLines pieces
  congr 1
  rw [List.map_append, List.map_append, List.map_append, List.map_append, List.map_map, h1, h2, h3]
  congr 1
  · congr 1
    · unfold startLines startPieces
      cases v <;> decide
    · unfold optionLines optionPieces
      cases b <;> decide
  · exact node_piece

theorem entries_mem {d : List Entry} (h : EntriesValid d) {e : Entry} (he : e ∈ d) : e.Valid := by
  induction d with
  | nil => cases he
  | cons b d ih =>
    rcases List.mem_cons.mp he with rfl | he
    · exact h.1
    · exact ih h.2.2 he

theorem strip_prefix (l : Text) : ∃ n, l = stripEnd l ++ blanks n := by
  have : ∀ r : Text, ∃ n, r = List.replicate n ' ' ++ r.dropWhile (· == ' ') := by
    intro r
    induction r with
    | nil => exact ⟨0, rfl⟩
    | cons c r ih =>
      obtain ⟨n, hn⟩ := ih
      by_cases hc : c = ' '
      · subst hc
        refine ⟨n + 1, ?_⟩
        rw [List.dropWhile_cons_of_pos (by decide), List.replicate_succ, List.cons_append, ← hn]
      · exact ⟨0, by rw [List.dropWhile_cons_of_neg (by simpa using hc)]; rfl⟩
  obtain ⟨n, hn⟩ := this l.reverse
  refine ⟨n, ?_⟩
  have := congrArg List.reverse hn
  rw [List.reverse_reverse, List.reverse_append, List.reverse_replicate] at this
  exact this

theorem strip_mem {l : Text} {c : Char} (h : c ∈ stripEnd l) : c ∈ l := by
  obtain ⟨m, hm⟩ := strip_prefix l
  rw [hm]
  exact List.mem_append_left _ h

theorem pieces_valid {v : Visibility} (hv : v ≠ .show5) {b : Broken} {d : List Entry} (h : EntriesValid d) :
    ∀ p ∈ pieces v b d, ∀ k, Entry.Valid ⟨p.1, p.2, k⟩ := by
  intro p hp k
  unfold pieces at hp
  rcases List.mem_append.mp hp with hp | hp
  · rcases List.mem_append.mp hp with hp | hp
    · unfold startPieces at hp
      split_ifs at hp
      · cases hp
      · cases List.mem_singleton.mp hp
        refine ⟨by show ∀ c ∈ "startup".toList, _; decide, by show roleOf (normalize "startup".toList) = some .startup; decide, ⟨?_, nofun, ?_⟩⟩
        · cases v <;> exact ⟨by decide, by decide, by decide⟩
        · cases v <;> decide
    · unfold optionPieces at hp
      split_ifs at hp
      · cases List.mem_singleton.mp hp
        exact ⟨by show ∀ c ∈ "options".toList, _; decide, by show roleOf (normalize "options".toList) = some .options; decide, ⟨.inr (.inl ⟨rfl, by decide⟩), nofun, trivial⟩⟩
      · cases hp
  · obtain ⟨e, he, hx⟩ := List.mem_filterMap.mp hp
    have hev := entries_mem h he
    have hsaid := hev.said
    have hrole := hev.role
    cases hs : e.said with
    | email t =>
      rw [hs] at hx hsaid
      cases hx
      refine ⟨by show ∀ c ∈ "email".toList, _; decide, by show roleOf (normalize "email".toList) = some .email; decide, ?_⟩
      intro hm
      have := strip_mem hm
      rcases List.mem_append.mp this with hm | hm
      · exact absurd hm (by decide)
      · exact (stripSpace_trimmed hsaid).1 hm
    | custom t =>
      rw [hs] at hx hsaid hrole
      cases hx
      refine ⟨hev.name, hrole, ?_⟩
      intro hm
      have := strip_mem hm
      rcases List.mem_append.mp this with hm | hm
      · exact absurd hm (by decide)
      · exact hsaid hm
    | _ => rw [hs] at hx; cases hx

theorem parts_nodes (d : List Entry) : startups ((nodePieces d).map fun p => ⟨p.1, p.2, 0⟩) = [] ∧ itemsOf ((nodePieces d).map fun p => ⟨p.1, p.2, 0⟩) = [] := by
  have h : ∀ p ∈ nodePieces d, (∃ t, p.2 = .email t) ∨ ∃ t, p.2 = .custom t := by
    intro p hp
    obtain ⟨e, -, hx⟩ := List.mem_filterMap.mp hp
    cases hs : e.said <;> rw [hs] at hx <;> cases hx
    · exact .inl ⟨_, rfl⟩
    · exact .inr ⟨_, rfl⟩
  generalize nodePieces d = ps at h
  induction ps with
  | nil => exact ⟨rfl, rfl⟩
  | cons p ps ih =>
    obtain ⟨h1, h2⟩ := ih fun q hq => h q (List.mem_cons_of_mem _ hq)
    obtain ⟨n, s⟩ := p
    rcases h _ List.mem_cons_self with ⟨t, ht⟩ | ⟨t, ht⟩ <;> cases ht <;> exact ⟨h1, h2⟩

/-- How a node is read again. -/
def Node.again : Node → Node
  | .email t => .email t
  | .custom n t => .custom n (stripEnd (": ".toList ++ t))

theorem email_again {t : Text} (h : '\n' ∉ t) : stripSpace (stripEnd (" ".toList ++ stripSpace t)) = stripSpace t := by
  have ht := stripSpace_trimmed h
  generalize stripSpace t = v at ht
  cases v with
  | nil => rfl
  | cons c r =>
    rw [Sem.stripEnd_id ?_]
    · have := stripSpace_pad ht 1 0
      rw [show List.replicate 0 ' ' = ([] : Text) from rfl, List.append_nil] at this
      exact this
    · rw [List.getLast?_append_of_ne_nil _ (by simp)]
      exact ht.2.2

theorem nodes_again {d : List Entry} (h : EntriesValid d) : nodesRead ((nodePieces d).map fun p => ⟨p.1, p.2, 0⟩) = (nodesRead d).map Node.again := by
  replace h : ∀ e ∈ d, e.Valid := fun e he => entries_mem h he
  induction d with
  | nil => rfl
  | cons e d ih =>
    have ih := ih fun x hx => h x (List.mem_cons_of_mem _ hx)
    have hs := (h e List.mem_cons_self).said
    obtain ⟨name, said, after⟩ := e
    cases said with
    | email t =>
      have e1 : nodesRead ((nodePieces (⟨name, .email t, after⟩ :: d)).map fun p => ⟨p.1, p.2, 0⟩) =
        .email (stripSpace (stripEnd (" ".toList ++ stripSpace t))) :: nodesRead ((nodePieces d).map fun p => ⟨p.1, p.2, 0⟩) := rfl
      rw [e1, ih, email_again hs]
      rfl
    | custom t =>
      have e1 : nodesRead ((nodePieces (⟨name, .custom t, after⟩ :: d)).map fun p => ⟨p.1, p.2, 0⟩) =
        .custom (name ++ ":".toList) (stripEnd (": ".toList ++ t)) :: nodesRead ((nodePieces d).map fun p => ⟨p.1, p.2, 0⟩) := rfl
      rw [e1, ih]
      rfl
    | _ => exact ih

theorem startups_append (a b : List Entry) : startups (a ++ b) = startups a ++ startups b := List.filterMap_append
theorem itemsOf_append (a b : List Entry) : itemsOf (a ++ b) = itemsOf a ++ itemsOf b := by simp [itemsOf]
theorem nodesRead_append (a b : List Entry) : nodesRead (a ++ b) = nodesRead a ++ nodesRead b := List.filterMap_append

/-- What is said in the document which is written. -/
theorem pieces_said {v : Visibility} (hv : v ≠ .show5) {b : Broken} (hb : b = .none ∨ b = .mark) {d : List Entry} (h : EntriesValid d) :
    visibilityIn (chain (pieces v b d)) = v ∧ last "broken-links".toList brokenOf (itemsOf (chain (pieces v b d))) = (if b = .mark then some .mark else none) ∧
    nodesRead (chain (pieces v b d)) = (nodesRead d).map Node.again ∧ Plain (chain (pieces v b d)) := by
  obtain ⟨c1, c2, c3⟩ := chain_parts (pieces v b d)
  obtain ⟨p1, p2⟩ := parts_nodes d
  have e1 : startups (chain (pieces v b d)) = startups ((startPieces v).map fun p => ⟨p.1, p.2, 0⟩) := by
    rw [c1]
    unfold pieces
    rw [List.map_append, List.map_append, startups_append, startups_append, p1, List.append_nil]
    have : startups ((optionPieces b).map fun p => ⟨p.1, p.2, 0⟩) = [] := by
      unfold optionPieces
      split_ifs <;> rfl
    rw [this, List.append_nil]
  have e2 : itemsOf (chain (pieces v b d)) = itemsOf ((optionPieces b).map fun p => ⟨p.1, p.2, 0⟩) := by
    rw [c2]
    unfold pieces
    rw [List.map_append, List.map_append, itemsOf_append, itemsOf_append, p2, List.append_nil]
    have : itemsOf ((startPieces v).map fun p => ⟨p.1, p.2, 0⟩) = [] := by
      unfold startPieces
      split_ifs <;> rfl
    rw [this, List.nil_append]
  refine ⟨?_, ?_, ?_, ?_, ?_⟩
  · unfold visibilityIn
    rw [e1]
    cases v <;> first | exact absurd rfl hv | decide
  · rw [e2]
    rcases hb with rfl | rfl <;> decide
  · rw [c3]
    unfold pieces
    rw [List.map_append, List.map_append, nodesRead_append, nodesRead_append, nodes_again h]
    have a1 : nodesRead ((startPieces v).map fun p => ⟨p.1, p.2, 0⟩) = [] := by
      unfold startPieces
      split_ifs <;> rfl
    have a2 : nodesRead ((optionPieces b).map fun p => ⟨p.1, p.2, 0⟩) = [] := by
      unfold optionPieces
      split_ifs <;> rfl
    rw [a1, a2]
    rfl
  · rw [e1]
    intro s hs
    unfold startPieces at hs
    split_ifs at hs
    · cases hs
    · have hs : s = ⟨1, v.word, [], 0⟩ := by simpa [startups] using hs
      subst hs
      refine ⟨?_, nofun⟩
      cases v <;> first | exact absurd rfl hv | decide
  · rw [e2]
    intro i hi
    unfold optionPieces at hi
    split_ifs at hi
    · have hi : i = ⟨1, "broken-links".toList, "mark".toList⟩ := by simpa [itemsOf] using hi
      subst hi
      exact ⟨by decide, by rintro ⟨h, -⟩; exact absurd h (by decide)⟩
    · cases hi

/-- The length of what is written. -/
theorem written_total {d : List Entry} (h : EntriesValid d) {y : Doc} (h3 : y.nodes = nodesRead d) : total (writtenLines y) ≤ 2 * (docText d).length + 60 := by
  have hmem : ∀ e ∈ d, e.Valid := fun e he => entries_mem h he
  unfold writtenLines
  rw [total_append, total_append, h3]
  have a1 : total (startLines y.opts.visibility) ≤ 30 := by
    cases y.opts.visibility <;> decide
  have a2 : total (optionLines y.opts.broken) ≤ 30 := by
    cases y.opts.broken <;> decide
  have a3 : total ((nodesRead d).map Node.line) ≤ 2 * (docText d).length := by
    clear h h3 a1 a2
    induction d with
    | nil => exact Nat.le_refl _
    | cons e d ih =>
      have ih := ih fun x hx => hmem x (List.mem_cons_of_mem _ hx)
      have e0 : docText (e :: d) = e.line.text ++ docText d := rfl
      have e1 : e.line.text.length = 3 + e.name.length + e.said.text.length + e.after := by
        simp [Line.text, Entry.line]
        omega
      have hv := hmem e List.mem_cons_self
      rw [e0, List.length_append, e1]
      obtain ⟨name, said, after⟩ := e
      cases said with
      | email t =>
        have e2 : nodesRead (⟨name, .email t, after⟩ :: d) = .email (stripSpace t) :: nodesRead d := rfl
        rw [e2]
        have hn : 5 ≤ name.length := by
          have hr : roleOf (normalize name) = some .email := hv.role
          have : normalize name = "email".toList := by
            unfold roleOf at hr
            split_ifs at hr with k1 k2 k3 k4
            all_goals first | exact k4 | cases hr
          have k : (normalize name).length ≤ name.length := by
            unfold normalize
            exact List.length_filterMap_le _ _
          rw [this] at k
          exact k
        have hs : (stripSpace t).length ≤ t.length := by
          unfold stripSpace Drawer.strip
          rw [List.length_reverse]
          refine Nat.le_trans (List.length_dropWhile_le _ _) ?_
          rw [List.length_reverse]
          exact List.length_dropWhile_le _ _
        have k : (Node.email (stripSpace t)).line.length = 9 + (stripSpace t).length := by
          show ("#+email: ".toList ++ stripSpace t).length = _
          rw [List.length_append]
          rfl
        simp only [List.map_cons, total, List.sum_cons] at ih ⊢
        rw [k]
        generalize (List.map List.length (List.map Node.line (nodesRead d))).sum = x1 at *
        show _ ≤ 2 * (3 + name.length + t.length + after + _)
        generalize (stripSpace t).length = x2 at *
        generalize (docText d).length = x3 at *
        clear k e0 e1 e2 hv hmem
        omega
      | custom t =>
        have e2 : nodesRead (⟨name, .custom t, after⟩ :: d) = .custom (name ++ ":".toList) t :: nodesRead d := rfl
        rw [e2]
        have k : (Node.custom (name ++ ":".toList) t).line.length = 5 + name.length + t.length := by
          show ("#+".toList ++ (name ++ ":".toList) ++ ": ".toList ++ t).length = _
          rw [List.length_append, List.length_append, List.length_append, List.length_append, show "#+".toList.length = 2 from rfl, show ":".toList.length = 1 from rfl,
            show ": ".toList.length = 2 from rfl]
          omega
        simp only [List.map_cons, total, List.sum_cons] at ih ⊢
        rw [k]
        generalize (List.map List.length (List.map Node.line (nodesRead d))).sum = x1 at *
        show _ ≤ 2 * (3 + name.length + t.length + after + _)
        generalize (docText d).length = x3 at *
        clear k e0 e1 e2 hv hmem
        omega
      | startup s =>
        have e2 : nodesRead (⟨name, .startup s, after⟩ :: d) = nodesRead d := rfl
        rw [e2]
        omega
      | options is tail =>
        have e2 : nodesRead (⟨name, .options is tail, after⟩ :: d) = nodesRead d := rfl
        rw [e2]
        omega
      | keywords t =>
        have e2 : nodesRead (⟨name, .keywords t, after⟩ :: d) = nodesRead d := rfl
        rw [e2]
        omega
  omega

theorem written_no {d : List Entry} (h : EntriesValid d) {y : Doc} (h3 : y.nodes = nodesRead d) : ∀ l ∈ writtenLines y, '\n' ∉ l := by
  intro l hl
  unfold writtenLines at hl
  rcases List.mem_append.mp hl with hl | hl
  · rcases List.mem_append.mp hl with hl | hl
    · have : ∀ v, ∀ l ∈ startLines v, '\n' ∉ l := by
        intro v
        cases v <;> decide
      exact this _ l hl
    · have : ∀ v, ∀ l ∈ optionLines v, '\n' ∉ l := by
        intro v
        cases v <;> decide
      exact this _ l hl
  · rw [h3] at hl
    obtain ⟨x, hx, rfl⟩ := List.mem_map.mp hl
    obtain ⟨e, he, hx⟩ := List.mem_filterMap.mp hx
    have hev := entries_mem h he
    have hsaid := hev.said
    cases hs : e.said with
    | email t =>
      rw [hs] at hx hsaid
      cases hx
      show '\n' ∉ "#+email: ".toList ++ stripSpace t
      rw [List.mem_append, not_or]
      exact ⟨by decide, (stripSpace_trimmed hsaid).1⟩
    | custom t =>
      rw [hs] at hx hsaid
      cases hx
      show '\n' ∉ "#+".toList ++ (e.name ++ ":".toList) ++ ": ".toList ++ t
      simp only [List.mem_append, not_or]
      refine ⟨⟨⟨by decide, ?_, by decide⟩, by decide⟩, hsaid⟩
      intro hm
      rcases hev.name _ hm with h | h
      · exact absurd h (by decide)
      · exact absurd h (by decide)
    | _ => rw [hs] at hx; cases hx

end Verif.Keywords
