import Verif.Dir.Lemmas

/-!
# Every parsed document is in the result once
-/

namespace Verif.Dir

variable {fs : FS}

/-- how often a path with content has been parsed -/
def cnt (fs : FS) (p : Path) (st : St) : Nat := if hasContent fs p then st.parsed.count p else 0

theorem filesAll_append (a b : List Node) : filesAll (a ++ b) = filesAll a ++ filesAll b := by
  induction a with
  | nil => simp [filesAll]
  | cons x xs ih => simp [filesAll, ih]

/-- parsed documents do not contain `File` nodes with content -/
def Plain (fs : FS) : Prop := ∀ p d, fs.parse p = some (some d) → files d = []

/-- the paths of the node itself -/
def own (info : Info) (subs : List Node) : List Path :=
  match info with
  | .file _ abs => if subs.isEmpty then [] else [abs]
  | _ => []

theorem files_mk (info : Info) (subs fields : List Node) :
    files (.mk info subs fields) = own info subs ++ (filesAll subs ++ filesAll fields) := by
  cases info <;> simp [files, own]

theorem files_eta (nd : Node) : files nd = own nd.info nd.subs ++ (filesAll nd.subs ++ filesAll nd.fields) := by
  cases nd; exact files_mk _ _ _

theorem counts (hpl : Plain fs) (p : Path) (n : Nat) :
    (∀ path root st r st', parsePath fs n path root st = .ok (r, st') →
      (filesAll r.toList).count p + cnt fs p st = cnt fs p st') ∧
    (∀ es root st r st', parseAll fs n es root st = .ok (r, st') →
      (filesAll r).count p + cnt fs p st = cnt fs p st') ∧
    (∀ path root st r st', parseFile fs n path root st = .ok (r, st') →
      (filesAll r.toList).count p + cnt fs p st = cnt fs p st') ∧
    (∀ file root i s f q k st r st', inclStep fs n file root (.mk i s f) q k st = .ok (r, st') →
      (∀ rel abs, i ≠ .file rel abs) →
      r.info = i ∧ (files r).count p + cnt fs p st = (files (.mk i s f)).count p + cnt fs p st') ∧
    (∀ file root nd st r st', visit fs n file root nd st = .ok (r, st') →
      (files r).count p + cnt fs p st = (files nd).count p + cnt fs p st') ∧
    (∀ file root nds st r st', visitAll fs n file root nds st = .ok (r, st') →
      r.length = nds.length ∧
      (filesAll r).count p + cnt fs p st = (filesAll nds).count p + cnt fs p st') := by
  induction n with
  | zero =>
    refine ⟨?_, ?_, ?_, ?_, ?_, ?_⟩
    · intro _ _ _ _ _ h; rw [parsePath] at h; cases h
    · intro _ _ _ _ _ h; rw [parseAll] at h; cases h
    · intro _ _ _ _ _ h; rw [parseFile] at h; cases h
    · intro _ _ _ _ _ _ _ _ _ _ h; rw [inclStep] at h; cases h
    · intro _ _ _ _ _ _ h; rw [visit] at h; cases h
    · intro _ _ _ _ _ _ h; rw [visitAll] at h; cases h
  | succ n ih =>
    obtain ⟨ihP, ihA, ihF, ihI, ihV, ihL⟩ := ih
    refine ⟨?_, ?_, ?_, ?_, ?_, ?_⟩
    · intro path root st r st' h
      rw [parsePath] at h
      have mk : ∀ v : List Path, cnt fs p { st with visited := v } = cnt fs p st := fun _ => rfl
      split at h
      · injection h with h; injection h with h1 h2; subst h1 h2; simp [filesAll]
      · dsimp only at h
        split at h
        · injection h with h; injection h with h1 h2; subst h1 h2; simp [filesAll, mk]
        · split at h
          · split at h
            · split at h
              · cases h
              · rename_i h1
                injection h with h; injection h with h2 h3; subst h2 h3
                have := ihP _ _ _ _ _ h1
                simpa [filesAll, files_mk, own, mk] using this
            · split at h
              · split at h
                · cases h
                · rename_i h1
                  injection h with h; injection h with h2 h3; subst h2 h3
                  have := ihP _ _ _ _ _ h1
                  simpa [filesAll, files_mk, own, mk] using this
              · injection h with h; injection h with h1 h2; subst h1 h2; simp [filesAll, mk]
          · split at h
            · split at h
              · cases h
              · rename_i h1
                injection h with h; injection h with h2 h3; subst h2 h3
                have := ihA _ _ _ _ _ h1
                simpa [filesAll, files_mk, own, mk] using this
            · split at h
              · split at h
                · have := ihF _ _ _ _ _ h
                  simpa [mk] using this
                · injection h with h; injection h with h1 h2; subst h1 h2; simp [filesAll, mk]
              · injection h with h; injection h with h1 h2; subst h1 h2; simp [filesAll, mk]
    · intro es root st r st' h
      cases es with
      | nil =>
        rw [parseAll] at h
        injection h with h; injection h with h2 h3; subst h2 h3
        simp [filesAll]
      | cons e es =>
        rw [parseAll] at h
        split at h
        · cases h
        · rename_i r1 st1 h1
          split at h
          · cases h
          · rename_i r2 st2 h2
            injection h with h; injection h with h3 h4; subst h3 h4
            have e1 := ihP _ _ _ _ _ h1
            have e2 := ihA _ _ _ _ _ h2
            rw [filesAll_append, List.count_append]
            omega
    · intro path root st r st' h
      rw [parseFile] at h
      split at h
      · cases h
      · split at h
        · cases h
        · rename_i hp
          injection h with h; injection h with h2 h3; subst h2 h3
          by_cases hpp : p = path
          · subst hpp
            simp [filesAll, cnt, hasContent, hp]
          · simp [filesAll, cnt, Ne.symm hpp]
        · rename_i doc hp
          dsimp only at h
          split at h
          · cases h
          · rename_i d1 st1 h1
            injection h with h; injection h with h2 h3; subst h2 h3
            have e1 := ihV _ _ _ _ _ _ h1
            rw [hpl _ _ hp] at e1
            simp only [Option.toList, filesAll, files_mk, own, List.isEmpty_cons, List.append_nil, List.count_append,
              Bool.false_eq_true, if_false]
            simp only [List.count_nil, Nat.zero_add] at e1
            by_cases hpp : p = path
            · subst hpp
              have : cnt fs p { st with parsed := p :: st.parsed } = cnt fs p st + 1 := by
                simp [cnt, hasContent, hp]
              simp only [List.count_singleton_self]
              omega
            · have : cnt fs p { st with parsed := path :: st.parsed } = cnt fs p st := by
                simp [cnt, Ne.symm hpp]
              have : List.count p [path] = 0 := by simp [Ne.symm hpp]
              omega
    · intro file root i s f q k st r st' h hi
      have ho : ∀ l, own i l = [] := by
        intro l
        cases i <;> simp [own] at hi ⊢
      rw [inclStep] at h
      split at h
      · cases h
      · injection h with h; injection h with h2 h3; subst h2 h3
        refine ⟨rfl, ?_⟩
        simp [Node.push, files_mk, filesAll_append, filesAll, own]
      · split at h
        · split at h
          · cases h
          · rename_i h1
            injection h with h; injection h with h2 h3; subst h2 h3
            have := ihP _ _ _ _ _ h1
            refine ⟨rfl, ?_⟩
            simp [filesAll] at this
            omega
          · rename_i h1
            injection h with h; injection h with h2 h3; subst h2 h3
            have := ihP _ _ _ _ _ h1
            refine ⟨rfl, ?_⟩
            simp [filesAll] at this
            simp only [Node.push, files_mk, ho, filesAll_append, filesAll, List.count_append, List.count_nil]
            omega
        · injection h with h; injection h with h2 h3; subst h2 h3
          exact ⟨rfl, rfl⟩
        · cases h
    · intro file root nd st r st' h
      rw [visit] at h
      split at h
      · cases h
      · rename_i nd1 st1 h1
        have s1 : (files nd1).count p + cnt fs p st = (files nd).count p + cnt fs p st1 := by
          split at h1
          · rename_i path kind hinfo
            obtain ⟨i, s, f⟩ := nd
            exact (ihI _ _ _ _ _ _ _ _ _ _ h1 (by intro rel abs hh; simp [Node.info] at hinfo; rw [hinfo] at hh; cases hh)).2
          · rename_i target hinfo
            split at h1
            · cases h1
            · rename_i nd2 hl
              injection h1 with h1; injection h1 with h2 h3; subst h2 h3
              rcases linkStep_ok hl with rfl | ⟨rel, abs, rfl⟩
              · rfl
              · obtain ⟨i, s, f⟩ := nd
                simp only [Node.info] at hinfo
                subst hinfo
                simp [Node.push, files_mk, filesAll_append, filesAll, own]
          · injection h1 with h1; injection h1 with h2 h3; subst h2 h3; rfl
        split at h
        · cases h
        · rename_i r2 st2 h2
          split at h
          · cases h
          · rename_i r3 st3 h3
            injection h with h; injection h with h4 h5; subst h4 h5
            obtain ⟨l2, e2⟩ := ihL _ _ _ _ _ _ h2
            obtain ⟨l3, e3⟩ := ihL _ _ _ _ _ _ h3
            rw [files_eta nd1] at s1
            have ho : own nd1.info r2 = own nd1.info nd1.subs := by
              unfold own
              have : r2.isEmpty = nd1.subs.isEmpty := by
                cases r2 <;> cases hs : nd1.subs <;> simp_all
              rw [this]
            rw [files_mk, ho]
            simp only [List.count_append] at s1 ⊢
            omega
    · intro file root nds st r st' h
      cases nds with
      | nil =>
        rw [visitAll] at h
        injection h with h; injection h with h2 h3; subst h2 h3
        simp [filesAll]
      | cons x xs =>
        rw [visitAll] at h
        split at h
        · cases h
        · rename_i r1 st1 h1
          split at h
          · cases h
          · rename_i r2 st2 h2
            injection h with h; injection h with h3 h4; subst h3 h4
            have e1 := ihV _ _ _ _ _ _ h1
            obtain ⟨l2, e2⟩ := ihL _ _ _ _ _ _ h2
            refine ⟨by simp [l2], ?_⟩
            simp only [filesAll, List.count_append]
            omega

end Verif.Dir
