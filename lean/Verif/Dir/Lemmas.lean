import Verif.Dir.Spec

/-!
# The search visits what it should, and each path once
-/

namespace Verif.Dir

variable (fs : FS)

/-- What a part of the run does to the state -/
structure Step (a b : St) : Prop where
  vis : ∀ p ∈ a.visited, p ∈ b.visited
  par : ∃ new, b.parsed = new ++ a.parsed ∧ new.Nodup ∧
    ∀ p ∈ new, p ∉ a.visited ∧ p ∈ b.visited ∧ isDocument fs p = true ∧ fs.parse p ≠ none
  closed : ∀ p ∈ b.visited, p ∉ a.visited → ∀ q ∈ leadsTo fs p, q ∈ b.visited
  done : ∀ p ∈ b.visited, p ∉ a.visited → isDocument fs p = true → p ∈ b.parsed

variable {fs}

theorem Step.refl (a : St) : Step fs a a :=
  ⟨fun _ h => h, ⟨[], rfl, List.nodup_nil, by simp⟩, fun _ h h' => absurd h h', fun _ h h' => absurd h h'⟩

theorem Step.parsed_mono {a b : St} (h : Step fs a b) : ∀ p ∈ a.parsed, p ∈ b.parsed := by
  obtain ⟨new, hn, _⟩ := h.par
  intro p hp
  rw [hn]
  exact List.mem_append_right _ hp

theorem Step.trans {a b c : St} (h : Step fs a b) (h' : Step fs b c) : Step fs a c := by
  refine ⟨fun p hp => h'.vis p (h.vis p hp), ?_, ?_, ?_⟩
  · obtain ⟨n1, e1, d1, f1⟩ := h.par
    obtain ⟨n2, e2, d2, f2⟩ := h'.par
    refine ⟨n2 ++ n1, by rw [e2, e1, List.append_assoc], ?_, ?_⟩
    · rw [List.nodup_append]
      refine ⟨d2, d1, ?_⟩
      intro x hx y hy hxy
      subst hxy
      exact (f2 x hx).1 (f1 x hy).2.1
    · intro p hp
      rcases List.mem_append.1 hp with hp | hp
      · obtain ⟨q1, q2, q3⟩ := f2 p hp
        exact ⟨fun hv => q1 (h.vis p hv), q2, q3⟩
      · obtain ⟨q1, q2, q3⟩ := f1 p hp
        exact ⟨q1, h'.vis p q2, q3⟩
  · intro p hp hna q hq
    by_cases hb : p ∈ b.visited
    · exact h'.vis q (h.closed p hb hna q hq)
    · exact h'.closed p hp hb q hq
  · intro p hp hna hd
    by_cases hb : p ∈ b.visited
    · exact h'.parsed_mono p (h.done p hb hna hd)
    · exact h'.done p hp hb hd

/-- Marking a path, going on, and having dealt with what the path leads to -/
theorem Step.mark {a b : St} {p : Path} (hp : p ∉ a.visited)
    (h : Step fs { a with visited := p :: a.visited } b)
    (hc : ∀ q ∈ leadsTo fs p, q ∈ b.visited) (hd : isDocument fs p = true → p ∈ b.parsed) : Step fs a b := by
  refine ⟨fun q hq => h.vis q (List.mem_cons_of_mem _ hq), ?_, ?_, ?_⟩
  · obtain ⟨n1, e1, d1, f1⟩ := h.par
    refine ⟨n1, e1, d1, ?_⟩
    intro q hq
    obtain ⟨q1, q2⟩ := f1 q hq
    exact ⟨fun hv => q1 (List.mem_cons_of_mem _ hv), q2⟩
  · intro q hq hna
    by_cases hqp : q = p
    · subst hqp; exact hc
    · exact h.closed q hq (by simp [hqp, hna])
  · intro q hq hna
    by_cases hqp : q = p
    · subst hqp; exact hd
    · exact h.done q hq (by simp [hqp, hna])

theorem linkStep_ok {file root : Path} {nd nd' : Node} {t : Option Path} (h : linkStep fs file root nd t = .ok nd') :
    nd' = nd ∨ ∃ rel abs, nd' = nd.push (.mk (.file rel abs) [] []) := by
  unfold linkStep at h
  split at h
  · injection h with h; exact .inl h.symm
  · split at h
    · cases h
    · injection h with h; exact .inl h.symm
    · injection h with h; exact .inr ⟨_, _, h.symm⟩

/-- Every part of a run that ends normally is a step -/
theorem steps (n : Nat) :
    (∀ path root st r st', parsePath fs n path root st = .ok (r, st') → Step fs st st' ∧ path ∈ st'.visited) ∧
    (∀ es root st r st', parseAll fs n es root st = .ok (r, st') → Step fs st st' ∧ ∀ e ∈ es, e ∈ st'.visited) ∧
    (∀ path root st r st', parseFile fs n path root st = .ok (r, st') →
      Step fs { st with parsed := path :: st.parsed } st' ∧ fs.parse path ≠ none) ∧
    (∀ file root nd p k st r st', inclStep fs n file root nd p k st = .ok (r, st') → Step fs st st') ∧
    (∀ file root nd st r st', visit fs n file root nd st = .ok (r, st') → Step fs st st') ∧
    (∀ file root nds st r st', visitAll fs n file root nds st = .ok (r, st') → Step fs st st') := by
  induction n with
  | zero =>
    refine ⟨?_, ?_, ?_, ?_, ?_, ?_⟩ <;> intros <;>
      first
        | (rename_i h; rw [parsePath] at h; cases h)
        | (rename_i h; rw [parseAll] at h; cases h)
        | (rename_i h; rw [parseFile] at h; cases h)
        | (rename_i h; rw [inclStep] at h; cases h)
        | (rename_i h; rw [visit] at h; cases h)
        | (rename_i h; rw [visitAll] at h; cases h)
  | succ n ih =>
    obtain ⟨ihP, ihA, ihF, ihI, ihV, ihL⟩ := ih
    refine ⟨?_, ?_, ?_, ?_, ?_, ?_⟩
    · intro path root st r st' h
      rw [parsePath] at h
      by_cases hv : st.visited.contains path = true
      · rw [if_pos hv] at h
        injection h with h; injection h with h1 h2
        subst h2
        exact ⟨.refl _, List.contains_iff_mem.1 hv⟩
      · rw [if_neg hv] at h
        have hv' : path ∉ st.visited := fun hm => hv (List.contains_iff_mem.2 hm)
        dsimp only at h
        have base : ∀ (b : St), Step fs { st with visited := path :: st.visited } b →
            (∀ q ∈ leadsTo fs path, q ∈ b.visited) → (isDocument fs path = true → path ∈ b.parsed) →
            Step fs st b ∧ path ∈ b.visited := fun b hb hc hd =>
          ⟨Step.mark hv' hb hc hd, hb.vis path List.mem_cons_self⟩
        by_cases hs : fs.should path = true
        · have hs' : ¬ ((!fs.should path) = true) := by simp [hs]
          rw [if_neg hs'] at h
          by_cases hl : fs.isLink path = true
          · rw [if_pos hl] at h
            by_cases hd : fs.isDir (fs.resolve path) = true
            · rw [if_pos hd] at h
              split at h
              · cases h
              · rename_i r1 st1 h1
                injection h with h; injection h with h2 h3; subst h3
                obtain ⟨s1, m1⟩ := ihP _ _ _ _ _ h1
                exact base _ s1 (by simp [leadsTo, hs, hl, hd, m1]) (by simp [isDocument, hl])
            · rw [if_neg hd] at h
              by_cases hf : fs.isFile (fs.resolve path) = true
              · rw [if_pos hf] at h
                split at h
                · cases h
                · rename_i r1 st1 h1
                  injection h with h; injection h with h2 h3; subst h3
                  obtain ⟨s1, m1⟩ := ihP _ _ _ _ _ h1
                  exact base _ s1 (by simp [leadsTo, hs, hl, hd, hf, m1]) (by simp [isDocument, hl])
              · rw [if_neg hf] at h
                injection h with h; injection h with h2 h3; subst h3
                exact base _ (.refl _) (by simp [leadsTo, hs, hl, hd, hf]) (by simp [isDocument, hl])
          · rw [if_neg hl] at h
            by_cases hd : fs.isDir path = true
            · rw [if_pos hd] at h
              split at h
              · cases h
              · rename_i r1 st1 h1
                injection h with h; injection h with h2 h3; subst h3
                obtain ⟨s1, m1⟩ := ihA _ _ _ _ _ h1
                exact base _ s1 (by simp only [leadsTo, hs, hl, hd, if_true]; exact m1) (by simp [isDocument, hd])
            · rw [if_neg hd] at h
              have hc : ∀ b : St, ∀ q ∈ leadsTo fs path, q ∈ b.visited := by simp [leadsTo, hl, hd]
              by_cases hf : fs.isFile path = true
              · rw [if_pos hf] at h
                by_cases ho : isOrg path = true
                · rw [if_pos ho] at h
                  obtain ⟨s1, m1⟩ := ihF _ _ _ _ _ h
                  dsimp only at s1
                  have hdoc : isDocument fs path = true := by simp [isDocument, hs, hl, hd, hf, ho]
                  obtain ⟨new, e1, d1, f1⟩ := s1.par
                  dsimp only at e1 f1
                  have hpp : path ∈ st'.parsed := by rw [e1]; simp
                  refine ⟨⟨fun q hq => s1.vis q (List.mem_cons_of_mem _ hq), ?_, ?_, ?_⟩,
                    s1.vis path List.mem_cons_self⟩
                  · refine ⟨new ++ [path], by rw [e1]; simp, ?_, ?_⟩
                    · rw [List.nodup_append]
                      refine ⟨d1, by simp, ?_⟩
                      intro x hx y hy hxy
                      rw [List.mem_singleton] at hy
                      subst hxy hy
                      exact (f1 x hx).1 List.mem_cons_self
                    · intro q hq
                      rcases List.mem_append.1 hq with hq | hq
                      · obtain ⟨q1, q2⟩ := f1 q hq
                        exact ⟨fun hv => q1 (List.mem_cons_of_mem _ hv), q2⟩
                      · rw [List.mem_singleton] at hq
                        subst hq
                        exact ⟨hv', s1.vis q List.mem_cons_self, hdoc, m1⟩
                  · intro q hq hna
                    by_cases hqp : q = path
                    · subst hqp; exact hc _
                    · exact s1.closed q hq (by simp [hqp, hna])
                  · intro q hq hna hdq
                    by_cases hqp : q = path
                    · subst hqp; exact hpp
                    · exact s1.done q hq (by simp [hqp, hna]) hdq
                · rw [if_neg ho] at h
                  injection h with h; injection h with h2 h3; subst h3
                  exact base _ (.refl _) (hc _) (by simp [isDocument, ho])
              · rw [if_neg hf] at h
                injection h with h; injection h with h2 h3; subst h3
                exact base _ (.refl _) (hc _) (by simp [isDocument, hf])
        · have hs' : ((!fs.should path) = true) := by simp [hs]
          rw [if_pos hs'] at h
          injection h with h; injection h with h2 h3; subst h3
          exact base _ (.refl _) (by simp [leadsTo, hs]) (by simp [isDocument, hs])
    · intro es root st r st' h
      cases es with
      | nil =>
        rw [parseAll] at h
        injection h with h; injection h with h2 h3; subst h3
        exact ⟨.refl _, by simp⟩
      | cons e es =>
        rw [parseAll] at h
        split at h
        · cases h
        · rename_i r1 st1 h1
          split at h
          · cases h
          · rename_i r2 st2 h2
            injection h with h; injection h with h3 h4; subst h4
            obtain ⟨s1, m1⟩ := ihP _ _ _ _ _ h1
            obtain ⟨s2, m2⟩ := ihA _ _ _ _ _ h2
            refine ⟨s1.trans s2, ?_⟩
            intro x hx
            rcases List.mem_cons.1 hx with rfl | hx
            · exact s2.vis _ m1
            · exact m2 x hx
    · intro path root st r st' h
      rw [parseFile] at h
      split at h
      · cases h
      · dsimp only at h
        split at h
        · cases h
        · rename_i hp
          injection h with h; injection h with h2 h3; subst h3
          exact ⟨.refl _, by simp [hp]⟩
        · rename_i doc hp
          split at h
          · cases h
          · rename_i d1 st1 h1
            injection h with h; injection h with h2 h3; subst h3
            exact ⟨ihV _ _ _ _ _ _ h1, by simp [hp]⟩
    · intro file root nd p k st r st' h
      rw [inclStep] at h
      split at h
      · cases h
      · injection h with h; injection h with h2 h3; subst h3
        exact .refl _
      · split at h
        · split at h
          · cases h
          · rename_i h1
            injection h with h; injection h with h2 h3; subst h3
            exact (ihP _ _ _ _ _ h1).1
          · rename_i h1
            injection h with h; injection h with h2 h3; subst h3
            exact (ihP _ _ _ _ _ h1).1
        · injection h with h; injection h with h2 h3; subst h3
          exact .refl _
        · cases h
    · intro file root nd st r st' h
      rw [visit] at h
      split at h
      · cases h
      · rename_i nd1 st1 h1
        have s1 : Step fs st st1 := by
          split at h1
          · exact ihI _ _ _ _ _ _ _ _ h1
          · split at h1
            · cases h1
            · injection h1 with h1; injection h1 with h2 h3; subst h3; exact .refl _
          · injection h1 with h1; injection h1 with h2 h3; subst h3; exact .refl _
        split at h
        · cases h
        · rename_i r2 st2 h2
          split at h
          · cases h
          · rename_i r3 st3 h3
            injection h with h; injection h with h4 h5; subst h5
            exact s1.trans ((ihL _ _ _ _ _ _ h2).trans (ihL _ _ _ _ _ _ h3))
    · intro file root nds st r st' h
      cases nds with
      | nil =>
        rw [visitAll] at h
        injection h with h; injection h with h2 h3; subst h3
        exact .refl _
      | cons x xs =>
        rw [visitAll] at h
        split at h
        · cases h
        · rename_i r1 st1 h1
          split at h
          · cases h
          · rename_i r2 st2 h2
            injection h with h; injection h with h3 h4; subst h4
            exact (ihV _ _ _ _ _ _ h1).trans (ihL _ _ _ _ _ _ h2)

end Verif.Dir
