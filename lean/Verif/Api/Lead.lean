import Verif.Api.Attr

/-!
# C89: the lead of a paragraph and its body

Model of `src/haxorg/sem/SemOrgSharedApi.cpp:456-537, 864-885, 970-990, 1200-1208` and its properties: a paragraph may start with admonitions
(`NOTE:`), timestamps, hashtags, radio targets and a footnote; the rest of it is its body.
-/

namespace Verif.Api
open Verif.Strs (Bytes)

/-- The nodes of a paragraph, as far as they are told apart here. -/
inductive PNode where
  | hash (node : Nat)
  | ident (text : Bytes)
  | time (node : Nat)
  | radio (node : Nat)
  | space
  | link (footnote : Option Bytes)
  | punct (text : Bytes)
  | other (node : Nat)
deriving DecidableEq, Repr

namespace PNode
def isHash : PNode → Bool | hash _ => true | _ => false
def isIdent : PNode → Bool | ident _ => true | _ => false
def isTime : PNode → Bool | time _ => true | _ => false
def isLink : PNode → Bool | link _ => true | _ => false

/-- `LeadParagraphNodes` – SemOrgSharedApi.cpp:864-870, and 516-522 -/
def isLead : PNode → Bool
  | hash _ | ident _ | time _ | radio _ | space => true
  | _ => false
end PNode
open PNode

/-- `Org_getLeadNodes` – SemOrgSharedApi.cpp:456-491 -/
def leadNodes (kind : PNode → Bool) : List PNode → List PNode
  | [] => []
  | x :: r => if kind x then x :: leadNodes kind r else if x.isLead then leadNodes kind r else []

/-- `getAdmonitionNodes` – SemOrgSharedApi.cpp:876 -/
def admonitionNodes (p : List PNode) : List PNode := leadNodes isIdent p
/-- `getTimestampNodes` – SemOrgSharedApi.cpp:879 -/
def timestampNodes (p : List PNode) : List PNode := leadNodes isTime p
/-- `getLeadHashtags` – SemOrgSharedApi.cpp:881 -/
def leadHashtags (p : List PNode) : List PNode := leadNodes isHash p

/-- The colon. -/
def colon : PNode := .punct [58]

/-- `Paragraph_dropAdmonitionNodes` – SemOrgSharedApi.cpp:493-537; the case of `lead` being true, for `lead` being false everything is kept. -/
def getBody : List PNode → List PNode
  | [] => []
  | .ident _ :: x :: r => if x = colon then getBody r else getBody (x :: r)
  | .ident _ :: [] => []
  | .link fn :: r => if fn.isSome then getBody r else r
  | x :: r => if x.isLead then getBody r else x :: r

/-- `getFootnoteName` – SemOrgSharedApi.cpp:970-977 -/
def getFootnoteName : List PNode → Option Bytes
  | .link fn :: _ => fn
  | _ => none

/-- `getAdmonitions` – SemOrgSharedApi.cpp:875 -/
def getAdmonitions (p : List PNode) : List Bytes :=
  (admonitionNodes p).filterMap fun
    | .ident t => some t
    | _ => none

/-- `Subtree::getTodoKeyword` – SemOrgSharedApi.cpp:1200-1208 -/
def getTodoKeyword (todo : Option Bytes) (title : List PNode) : Option Bytes :=
  match todo with
  | some t => some t
  | none =>
    match getAdmonitions title with
    | a :: _ => some a
    | [] => none

/-! ## Properties -/

/-- **C89.** In full: a paragraph is its lead and its body; the lead consists of admonitions, timestamps, hashtags, radio targets, spaces,
colons and footnotes; the admonitions, timestamps and hashtags reported are those of the lead. -/
def LeadStatement : Prop :=
  ∀ p : List PNode, ∃ lead, p = lead ++ getBody p ∧ (∀ x ∈ lead, x.isLead ∨ x = colon ∨ ∃ fn, x = .link (some fn)) ∧
    admonitionNodes p = lead.filter isIdent ∧ timestampNodes p = lead.filter isTime ∧ leadHashtags p = lead.filter isHash

/-- The code: a paragraph starting with a link loses the link. -/
theorem body_loses_link : getBody [.link none, .space, .other 0] = [.space, .other 0] := rfl

/-- The code: in `NOTE: TODO: text` the second admonition is neither reported nor in the body. -/
theorem second_admonition_lost :
    let p := [.ident [78], colon, .space, .ident [84], colon, .space, .other 0]
    getBody p = [.other 0] ∧ getAdmonitions p = [[78]] := by decide +kernel

theorem lead_false : ¬ LeadStatement := by
  intro h
  obtain ⟨lead, h1, h2, _⟩ := h [.link none, .space, .other 0]
  rw [body_loses_link] at h1
  match lead, h1, h2 with
  | [], h1, _ => simp at h1
  | x :: l, h1, h2 =>
    have hx : PNode.link none = x := by simpa using (List.cons.inj h1).1
    have := h2 x (by simp)
    rw [← hx] at this
    simp [PNode.isLead, colon] at this

theorem leadNodes_append (kind : PNode → Bool) (pre rest : List PNode) (hp : ∀ x ∈ pre, x.isLead = true) :
    leadNodes kind (pre ++ rest) = pre.filter kind ++ leadNodes kind rest := by
  induction pre with
  | nil => rfl
  | cons x pre ih =>
    have ih := ih fun y hy => hp y (by simp [hy])
    simp only [List.cons_append, leadNodes, ih, hp x (by simp), if_true]
    by_cases h : kind x = true <;> simp [h]

theorem leadNodes_stop (kind : PNode → Bool) (hk : ∀ x, kind x = true → x.isLead = true) (rest : List PNode) (hr : ∀ x ∈ rest.head?, x.isLead = false) :
    leadNodes kind rest = [] := by
  cases rest with
  | nil => rfl
  | cons x r =>
    have hx := hr x (by simp)
    have : kind x = false := by
      cases h : kind x with
      | false => rfl
      | true => rw [hk x h] at hx; cases hx
    simp [leadNodes, hx, this]

theorem kinds_lead : (∀ x, isIdent x = true → x.isLead = true) ∧ (∀ x, isTime x = true → x.isLead = true) ∧ (∀ x, isHash x = true → x.isLead = true) := by
  refine ⟨?_, ?_, ?_⟩ <;> intro x <;> cases x <;> simp [isIdent, isTime, isHash, PNode.isLead]

theorem getBody_stop (rest : List PNode) (hr : ∀ x ∈ rest.head?, x.isLead = false ∧ x.isLink = false) : getBody rest = rest := by
  match rest with
  | [] => rfl
  | .hash _ :: _ | .ident _ :: _ | .time _ :: _ | .radio _ :: _ | .space :: _ => have := (hr _ rfl).1; simp [PNode.isLead] at this
  | .link _ :: _ => have := (hr _ rfl).2; simp [PNode.isLink] at this
  | .punct _ :: _ => rfl
  | .other _ :: _ => rfl

theorem getBody_skip (x : PNode) (r : List PNode) (hx : x.isLead = true) (h : x.isIdent = true → r.head? ≠ some colon) : getBody (x :: r) = getBody r := by
  match x, hx, h with
  | .hash _, _, _ | .time _, _, _ | .radio _, _, _ | .space, _, _ => simp [getBody, PNode.isLead]
  | .ident t, _, h =>
    cases r with
    | nil => rfl
    | cons y r =>
      have := h rfl
      simp only [List.head?_cons, ne_eq, Option.some.injEq] at this
      simp [getBody, this]

theorem getBody_skips (pre rest : List PNode) (hp : ∀ x ∈ pre, x.isLead = true) (h : (∃ t, pre.getLast? = some (.ident t)) → rest.head? ≠ some colon) :
    getBody (pre ++ rest) = getBody rest := by
  induction pre with
  | nil => rfl
  | cons x pre ih =>
    have ih := ih (fun y hy => hp y (by simp [hy])) (by
      rintro ⟨t, ht⟩
      exact h ⟨t, by rw [List.getLast?_cons, ht]; rfl⟩)
    rw [List.cons_append, getBody_skip x _ (hp x (by simp)), ih]
    intro hx hc
    cases pre with
    | nil =>
      cases x <;> simp [isIdent] at hx
      exact h ⟨_, rfl⟩ hc
    | cons y pre =>
      simp only [List.cons_append, List.head?_cons, Option.some.injEq] at hc
      have := hp y (by simp)
      rw [hc] at this
      simp [colon, PNode.isLead] at this

/-- **C89**, for paragraphs that are a run of lead nodes, then possibly a colon right after an admonition with nothing but spaces after it,
and then a text that does not start with a link: then the text is the body, and what the run has is reported. -/
theorem lead_partial (run mid text : List PNode) (hrun : ∀ x ∈ run, x.isLead = true)
    (hmid : mid = [] ∨ ∃ s t, mid = colon :: s ∧ (∀ x ∈ s, x = .space) ∧ run.getLast? = some (.ident t))
    (htext : ∀ x ∈ text.head?, x.isLead = false ∧ x.isLink = false)
    (hcolon : mid = [] → (∃ t, run.getLast? = some (.ident t)) → text.head? ≠ some colon) :
    getBody (run ++ mid ++ text) = text ∧ admonitionNodes (run ++ mid ++ text) = run.filter isIdent ∧
    timestampNodes (run ++ mid ++ text) = run.filter isTime ∧ leadHashtags (run ++ mid ++ text) = run.filter isHash := by
  have hlead : ∀ kind : PNode → Bool, (∀ x, kind x = true → x.isLead = true) → leadNodes kind (run ++ mid ++ text) = run.filter kind := by
    intro kind hk
    rw [List.append_assoc, leadNodes_append kind run _ hrun, leadNodes_stop kind hk, List.append_nil]
    intro x hx
    rcases hmid with rfl | ⟨s, t, rfl, _⟩
    · exact (htext x hx).1
    · simp only [List.cons_append, List.head?_cons, Option.mem_def, Option.some.injEq] at hx
      subst hx; rfl
  refine ⟨?_, hlead _ kinds_lead.1, hlead _ kinds_lead.2.1, hlead _ kinds_lead.2.2⟩
  rcases hmid with rfl | ⟨s, t, rfl, hs, hl⟩
  · rw [List.append_nil, getBody_skips run text hrun (hcolon rfl), getBody_stop text htext]
  · obtain ⟨run', rfl⟩ : ∃ run', run = run' ++ [.ident t] := by
      obtain ⟨r, hr⟩ := List.getLast?_eq_some_iff.mp hl
      exact ⟨r, hr⟩
    rw [show run' ++ [PNode.ident t] ++ colon :: s ++ text = run' ++ (PNode.ident t :: colon :: (s ++ text)) by simp]
    rw [getBody_skips run' _ (fun x hx => hrun x (by simp [hx])) (by simp [colon])]
    have h1 : getBody (PNode.ident t :: colon :: (s ++ text)) = getBody (s ++ text) := by simp [getBody]
    rw [h1, getBody_skips s text (fun x hx => by rw [hs x hx]; rfl), getBody_stop text htext]
    rintro ⟨t', ht'⟩
    have := hs _ (List.mem_of_getLast? ht')
    cases this

/-- The keyword of a headline: the one it was read with, and otherwise the first admonition in the lead of its title. -/
theorem todo_keyword (todo : Option Bytes) (run text : List PNode) (hrun : ∀ x ∈ run, x.isLead = true)
    (htext : ∀ x ∈ text.head?, x.isLead = false) :
    getTodoKeyword todo (run ++ text) = todo.or ((run.filterMap fun | .ident t => some t | _ => none).head?) := by
  unfold getTodoKeyword
  cases todo with
  | some t => rfl
  | none =>
    have : getAdmonitions (run ++ text) = run.filterMap fun | .ident t => some t | _ => none := by
      unfold getAdmonitions admonitionNodes
      rw [leadNodes_append _ run text hrun, leadNodes_stop _ kinds_lead.1 text htext, List.append_nil, List.filterMap_filter]
      apply List.filterMap_congr
      intro x _
      cases x <;> rfl
    simp only [this]
    cases run.filterMap fun | .ident t => some t | _ => none <;> rfl

/-- `#tag [2024-01-01] NOTE: text` -/
example : (∀ x ∈ [PNode.hash 0, .space, .time 1, .space, .ident [78]], x.isLead = true) ∧
    getBody ([.hash 0, .space, .time 1, .space, .ident [78]] ++ [colon, .space] ++ [.other 2, .link none]) = [.other 2, .link none] := by
  decide +kernel

end Verif.Api
