import Verif.Demote.Model

/-!
# Versions of the recursive functions that the kernel can run

The functions of the model are defined by two mutual recursions, which the kernel does not unfold; these are equal to them
and only used to run examples.
-/

namespace Verif.Demote

open Verif.Imm

section
variable {D : Type} [DecidableEq D]

def eachNode (f : Uniq → Ctx D → Except Err (Id × Ctx D)) : List Uniq → Ctx D → Except Err (List Id × Ctx D)
  | [], c => .ok ([], c)
  | u :: us, c =>
    match f u c with
    | .error e => .error e
    | .ok (id, c) =>
      match eachNode f us c with
      | .error e => .error e
      | .ok (ids, c) => .ok (id :: ids, c)

/-- the subnodes, when there is fuel -/
def eachSome (f : Option (Uniq → Ctx D → Except Err (Id × Ctx D))) (us : List Uniq) (c : Ctx D) : Except Err (List Id × Ctx D) :=
  match us, f with
  | [], _ => .ok ([], c)
  | _ :: _, none => .error .diverges
  | _ :: _, some f => eachNode f us c

/-- a node, given what to do with the subnodes -/
def oneNode (srt : List (Step × Id) → List (Step × Id)) (rs : List Replace) (ps : List Uniq)
    (each : List Uniq → Ctx D → Except Err (List Id × Ctx D)) (u : Uniq) (c : Ctx D) : Except Err (Id × Ctx D) :=
  if u ∈ ps then
    let target := (edit? rs u).getD u
    match each (c.store.subnodes target) c with
    | .error e => .error e
    | .ok (ids, c) =>
      if ids = (c.store.kids target.id).map (·.2) then
        if replaceOk c.store ⟨u, target⟩ then .ok (target.id, c) else .error .throws
      else
        match c.store[target.id]? with
        | none => .error .throws
        | some v =>
          match newKids srt v.kids (List.zip (v.kids.map (·.1)) ids) with
          | .error e => .error e
          | .ok kids =>
            match setNode c target { v with kids := kids } with
            | (some r, c) => if replaceOk c.store r then .ok (r.replaced.id, c) else .error .throws
            | (none, _) => .error .throws
  else
    match edit? rs u with
    | some e => if replaceOk c.store ⟨u, e⟩ then .ok (e.id, c) else .error .throws
    | none => .ok (u.id, c)

def recurseR (srt : List (Step × Id) → List (Step × Id)) (rs : List Replace) (ps : List Uniq) :
    Nat → Uniq → Ctx D → Except Err (Id × Ctx D)
  | 0, _, _ => .error .diverges
  | 1, u, c => oneNode srt rs ps (eachSome none) u c
  | fuel + 2, u, c => oneNode srt rs ps (eachSome (some (recurseR srt rs ps fuel))) u c

theorem recurseList_each (srt : List (Step × Id) → List (Step × Id)) (rs : List Replace) (ps : List Uniq) (fuel : Nat) :
    ∀ (us : List Uniq) (c : Ctx D), recurseList srt rs ps (fuel + 1) us c = eachNode (recurse srt rs ps fuel) us c := by
  intro us
  induction us with
  | nil => intro c; rw [recurseList, eachNode]
  | cons u us ih =>
    intro c
    rw [recurseList, eachNode]
    rcases recurse srt rs ps fuel u c with e | ⟨id, c1⟩
    · rfl
    · simp only
      rw [ih]
      rfl

theorem recurse_run (srt : List (Step × Id) → List (Step × Id)) (rs : List Replace) (ps : List Uniq) (fuel : Nat) :
    recurse (D := D) srt rs ps fuel = recurseR srt rs ps fuel := by
  induction fuel using Nat.strongRecOn with
  | ind fuel ih =>
    funext u c
    rcases fuel with _ | _ | fuel
    · rw [recurse, recurseR]
    · rw [recurse, recurseR, oneNode]
      have : ∀ us c, recurseList (D := D) srt rs ps 0 us c = eachSome none us c := by
        intro us c
        cases us with
        | nil => rw [recurseList, eachSome]
        | cons => rw [recurseList, eachSome]
      simp only [this]
      rfl
    · rw [recurse, recurseR, oneNode]
      have : ∀ us c, recurseList (D := D) srt rs ps (fuel + 1) us c = eachSome (some (recurseR srt rs ps fuel)) us c := by
        intro us c
        rw [recurseList_each, ih fuel (by omega)]
        cases us with
        | nil => rfl
        | cons => rfl
      simp only [this]
      rfl

def cascadeR (srt : List (Step × Id) → List (Step × Id)) (fuel : Nat) (c : Ctx D) (root : Id) (rs : List Replace) :
    Except Err (Id × Ctx D) :=
  match inclAll c.store [] rs with
  | .error e => .error e
  | .ok rs =>
    match editParents c.store rs with
    | .error e => .error e
    | .ok ps => recurseR srt rs ps fuel ⟨root, root, []⟩ c

theorem cascade_run (srt : List (Step × Id) → List (Step × Id)) (fuel : Nat) (c : Ctx D) (root : Id) (rs : List Replace) :
    cascade srt fuel c root rs = cascadeR srt fuel c root rs := by
  unfold cascade cascadeR
  simp only [recurse_run]
  rfl

end

section
variable {E : Type} [DecidableEq E]

def eachBelow (f : Uniq → St E → Except Err (Option Replace × St E)) (u : Uniq) : Nat → List Id → St E → Except Err (St E)
  | _, [], st => .ok st
  | i, id :: ids, st =>
    match f ⟨id, u.root, u.path ++ [subStep i]⟩ st with
    | .error e => .error e
    | .ok (_, st) => eachBelow f u (i + 1) ids st

def someBelow (f : Option (Uniq → St E → Except Err (Option Replace × St E))) (u : Uniq) (ids : List Id) (st : St E) : Except Err (St E) :=
  match ids, f with
  | [], _ => .ok st
  | _ :: _, none => .error .diverges
  | _ :: _, some f => eachBelow f u 0 ids st

def oneLevel (below : Uniq → List Id → St E → Except Err (St E)) (u : Uniq) (st : St E) : Except Err (Option Replace × St E) :=
  match below u (st.ctx.store.subs u.id) st with
  | .error e => .error e
  | .ok st =>
    match update st.ctx u (newSubnodes st.edits) with
    | .error e => .error e
    | .ok (r, c) =>
      match inclOpt c.store st.edits r with
      | .error e => .error e
      | .ok rs => .ok (r, ⟨c, rs⟩)

def auxR : Nat → Uniq → St E → Except Err (Option Replace × St E)
  | 0, _, _ => .error .diverges
  | 1, u, st => oneLevel (someBelow none) u st
  | fuel + 2, u, st => oneLevel (someBelow (some (auxR fuel))) u st

theorem auxList_each (fuel : Nat) (u : Uniq) : ∀ (ids : List Id) (i : Nat) (st : St E),
    auxList (fuel + 1) u i ids st = eachBelow (aux fuel) u i ids st := by
  intro ids
  induction ids with
  | nil => intro i st; rw [auxList, eachBelow]
  | cons id ids ih =>
    intro i st
    rw [auxList, eachBelow]
    rcases aux fuel ⟨id, u.root, u.path ++ [subStep i]⟩ st with e | ⟨r, st1⟩
    · rfl
    · simp only
      rw [ih]

theorem aux_run (fuel : Nat) : aux (E := E) fuel = auxR fuel := by
  induction fuel using Nat.strongRecOn with
  | ind fuel ih =>
    funext u st
    rcases fuel with _ | _ | fuel
    · rw [aux, auxR]
    · rw [aux, auxR, oneLevel]
      have : ∀ ids st, auxList (E := E) 0 u 0 ids st = someBelow none u ids st := by
        intro ids st
        cases ids with
        | nil => rw [auxList, someBelow]
        | cons => rw [auxList, someBelow]
      simp only [this]
      rfl
    · rw [aux, auxR, oneLevel]
      have : ∀ ids st, auxList (E := E) (fuel + 1) u 0 ids st = someBelow (some (auxR fuel)) u ids st := by
        intro ids st
        rw [auxList_each, ih fuel (by omega)]
        cases ids with
        | nil => rfl
        | cons => rfl
      simp only [this]
      rfl

def demoteR (fuel : Nat) (c : Ctx (Data E)) (node : Uniq) (move : Move) : Except Err (St E) :=
  match level? c.store node.id with
  | none => .error .throws
  | some _ =>
    match move with
    | .physical => physical node ⟨c, []⟩
    | _ =>
      match auxR fuel node ⟨c, []⟩ with
      | .error e => .error e
      | .ok (none, _) => .error .throws
      | .ok (some r, st) => reparent node r st

def demoteVersionR (srt : List (Step × Id) → List (Step × Id)) (fuel : Nat) (c : Ctx (Data E)) (root : Id)
    (path : List Step) (move : Move) : Except Err (Id × Ctx (Data E)) :=
  match c.store.adapter root path with
  | .error e => .error e
  | .ok node =>
    match demoteR fuel c node move with
    | .error e => .error e
    | .ok st => cascadeR srt fuel st.ctx root st.edits

theorem demote_run (srt : List (Step × Id) → List (Step × Id)) (fuel : Nat) (c : Ctx (Data E)) (root : Id) (path : List Step) (move : Move) :
    demoteVersion srt fuel c root path move = demoteVersionR srt fuel c root path move := by
  have : ∀ node, demote fuel c node move = demoteR fuel c node move := by
    intro node
    unfold demote demoteR
    simp only [aux_run]
    rfl
  unfold demoteVersion demoteVersionR
  simp only [this, cascade_run]
  rfl

end
end Verif.Demote
