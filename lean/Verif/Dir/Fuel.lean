import Verif.Dir.Spec

/-!
# A larger bound on the recursion depth does not change a result
-/

namespace Verif.Dir

variable {fs : FS}

/-- the first run reaches the bound, or both runs agree -/
def Le {α : Type} (a b : Except Err α) : Prop := a = .error .fuel ∨ b = a

theorem mono (n : Nat) :
    (∀ path root st, Le (parsePath fs n path root st) (parsePath fs (n + 1) path root st)) ∧
    (∀ es root st, Le (parseAll fs n es root st) (parseAll fs (n + 1) es root st)) ∧
    (∀ path root st, Le (parseFile fs n path root st) (parseFile fs (n + 1) path root st)) ∧
    (∀ file root nd p k st, Le (inclStep fs n file root nd p k st) (inclStep fs (n + 1) file root nd p k st)) ∧
    (∀ file root nd st, Le (visit fs n file root nd st) (visit fs (n + 1) file root nd st)) ∧
    (∀ file root nds st, Le (visitAll fs n file root nds st) (visitAll fs (n + 1) file root nds st)) := by
  induction n with
  | zero =>
    refine ⟨?_, ?_, ?_, ?_, ?_, ?_⟩ <;> intros <;> left
    · rw [parsePath]
    · rw [parseAll]
    · rw [parseFile]
    · rw [inclStep]
    · rw [visit]
    · rw [visitAll]
  | succ n ih =>
    obtain ⟨ihP, ihA, ihF, ihI, ihV, ihL⟩ := ih
    refine ⟨?_, ?_, ?_, ?_, ?_, ?_⟩
    · intro path root st
      rw [parsePath, parsePath]
      by_cases hv : st.visited.contains path = true
      · rw [if_pos hv, if_pos hv]; exact .inr rfl
      · rw [if_neg hv, if_neg hv]
        dsimp only
        by_cases hs : (!fs.should path) = true
        · rw [if_pos hs, if_pos hs]; exact .inr rfl
        · rw [if_neg hs, if_neg hs]
          by_cases hl : fs.isLink path = true
          · rw [if_pos hl, if_pos hl]
            by_cases hd : fs.isDir (fs.resolve path) = true
            · rw [if_pos hd, if_pos hd]
              rcases ihP (fs.resolve path) (fs.resolve path) { st with visited := path :: st.visited } with h | h
              · rw [h]; exact .inl rfl
              · rw [h]; exact .inr rfl
            · rw [if_neg hd, if_neg hd]
              by_cases hf : fs.isFile (fs.resolve path) = true
              · rw [if_pos hf, if_pos hf]
                rcases ihP (fs.resolve path) (parent (fs.resolve path)) { st with visited := path :: st.visited }
                  with h | h
                · rw [h]; exact .inl rfl
                · rw [h]; exact .inr rfl
              · rw [if_neg hf, if_neg hf]; exact .inr rfl
          · rw [if_neg hl, if_neg hl]
            by_cases hd : fs.isDir path = true
            · rw [if_pos hd, if_pos hd]
              rcases ihA (fs.entries path) root { st with visited := path :: st.visited } with h | h
              · rw [h]; exact .inl rfl
              · rw [h]; exact .inr rfl
            · rw [if_neg hd, if_neg hd]
              by_cases hf : fs.isFile path = true
              · rw [if_pos hf, if_pos hf]
                by_cases ho : isOrg path = true
                · rw [if_pos ho, if_pos ho]; exact ihF _ _ _
                · rw [if_neg ho, if_neg ho]; exact .inr rfl
              · rw [if_neg hf, if_neg hf]; exact .inr rfl
    · intro es root st
      cases es with
      | nil => rw [parseAll, parseAll]; exact .inr rfl
      | cons e es =>
        rw [parseAll, parseAll]
        rcases ihP e root st with h | h
        · rw [h]; exact .inl rfl
        · rw [h]
          rcases parsePath fs n e root st with er | ⟨r, st1⟩
          · exact .inr rfl
          · dsimp only
            rcases ihA es root st1 with h | h
            · rw [h]; exact .inl rfl
            · rw [h]; exact .inr rfl
    · intro path root st
      rw [parseFile, parseFile]
      by_cases hf : (!fs.isFile path) = true
      · rw [if_pos hf, if_pos hf]; exact .inr rfl
      · rw [if_neg hf, if_neg hf]
        rcases fs.parse path with _ | _ | doc
        · exact .inr rfl
        · exact .inr rfl
        · dsimp only
          rcases ihV path root doc { st with parsed := path :: st.parsed } with h | h
          · rw [h]; exact .inl rfl
          · rw [h]; exact .inr rfl
    · intro file root nd p k st
      rw [inclStep, inclStep]
      rcases resolvePath fs (parent file) p with er | _ | full
      · exact .inr rfl
      · exact .inr rfl
      · cases k with
        | orgDocument =>
          dsimp only
          rcases ihP full root st with h | h
          · rw [h]; exact .inl rfl
          · rw [h]; exact .inr rfl
        | _ => exact .inr rfl
    · intro file root nd st
      have tail : ∀ (a b : Except Err (Node × St)), Le a b →
          Le (match a with
            | .error e => .error e
            | .ok (nd, st) =>
              match visitAll fs n file root nd.subs st with
              | .error e => .error e
              | .ok (subs, st) =>
                match visitAll fs n file root nd.fields st with
                | .error e => .error e
                | .ok (fields, st) => .ok (Node.mk nd.info subs fields, st))
            (match b with
            | .error e => .error e
            | .ok (nd, st) =>
              match visitAll fs (n + 1) file root nd.subs st with
              | .error e => .error e
              | .ok (subs, st) =>
                match visitAll fs (n + 1) file root nd.fields st with
                | .error e => .error e
                | .ok (fields, st) => .ok (Node.mk nd.info subs fields, st)) := by
        intro a b hab
        rcases hab with h | h
        · rw [h]; exact .inl rfl
        · rw [h]
          rcases a with er | ⟨r, st1⟩
          · exact .inr rfl
          · dsimp only
            rcases ihL file root r.subs st1 with h | h
            · rw [h]; exact .inl rfl
            · rw [h]
              rcases visitAll fs n file root r.subs st1 with er | ⟨r2, st2⟩
              · exact .inr rfl
              · dsimp only
                rcases ihL file root r.fields st2 with h | h
                · rw [h]; exact .inl rfl
                · rw [h]; exact .inr rfl
      rw [visit, visit]
      apply tail
      rcases nd.info with _ | _ | _ | ⟨path, kind⟩ | _ | _ | _
      all_goals first | exact .inr rfl | exact ihI _ _ _ _ _ _
    · intro file root nds st
      cases nds with
      | nil => rw [visitAll, visitAll]; exact .inr rfl
      | cons e es =>
        rw [visitAll, visitAll]
        rcases ihV file root e st with h | h
        · rw [h]; exact .inl rfl
        · rw [h]
          rcases visit fs n file root e st with er | ⟨r, st1⟩
          · exact .inr rfl
          · dsimp only
            rcases ihL file root es st1 with h | h
            · rw [h]; exact .inl rfl
            · rw [h]; exact .inr rfl

theorem le_of_le {α : Type} {f : Nat → Except Err α} (h : ∀ n, Le (f n) (f (n + 1))) {n m : Nat} (hnm : n ≤ m)
    (hf : f n ≠ .error .fuel) : f m = f n := by
  induction hnm with
  | refl => rfl
  | step _ ih =>
    rcases h _ with h | h
    · exact absurd (ih ▸ h) hf
    · rw [h, ih]

/-- a run that does not reach the bound is the run for all larger bounds -/
theorem returns_of_ne {α : Type} {f : Nat → Except Err α} (h : ∀ n, Le (f n) (f (n + 1))) {n : Nat}
    (hf : f n ≠ .error .fuel) : Returns f (f n) :=
  ⟨hf, n, fun _ hm => le_of_le h hm hf⟩

end Verif.Dir
