import Verif.Dir.Lemmas
import Verif.Dir.Fuel

/-!
# The search ends when finitely many paths can be reached
-/

namespace Verif.Dir

variable {fs : FS}

/-- A finite set of paths is never left: not by the entries of a directory, not by a symbolic link, and not by an
include written in one of the documents, whichever document's directory it is resolved against -/
structure Closed (fs : FS) (S : List Path) (T : Path → Prop) : Prop where
  entries : ∀ p ∈ S, ∀ e ∈ fs.entries p, e ∈ S
  resolve : ∀ p ∈ S, fs.resolve p ∈ S
  docs : ∀ p ∈ S, ∀ d, fs.parse p = some (some d) → ∀ x ∈ nodes d, ∀ t, x.info = .incl t .orgDocument → T t
  includes : ∀ p ∈ S, ∀ t, T t → ∀ q, resolvePath fs (parent p) t = .ok (some q) → q ∈ S

/-- all includes of a tree have allowed targets -/
def Good (T : Path → Prop) (nd : Node) : Prop := ∀ x ∈ nodes nd, ∀ t, x.info = .incl t .orgDocument → T t

theorem nodes_self (nd : Node) : nd ∈ nodes nd := by
  cases nd; rw [nodes]; exact List.mem_cons_self

theorem nodesAll_append (a b : List Node) : nodesAll (a ++ b) = nodesAll a ++ nodesAll b := by
  induction a with
  | nil => simp [nodesAll]
  | cons x xs ih => simp [nodesAll, ih]

theorem mem_nodesAll {x : Node} {l : List Node} : x ∈ nodesAll l ↔ ∃ y ∈ l, x ∈ nodes y := by
  induction l with
  | nil => simp [nodesAll]
  | cons y ys ih => simp [nodesAll, ih]

theorem good_mk {T : Path → Prop} {i : Info} {s f : List Node} :
    Good T (.mk i s f) ↔ (∀ t, i = .incl t .orgDocument → T t) ∧ (∀ x ∈ s, Good T x) ∧ (∀ x ∈ f, Good T x) := by
  unfold Good
  simp only [nodes, List.mem_cons, List.mem_append, mem_nodesAll]
  constructor
  · intro h
    refine ⟨fun t ht => h _ (.inl rfl) t ht, fun x hx y hy => h y (.inr (.inl ⟨x, hx, hy⟩)),
      fun x hx y hy => h y (.inr (.inr ⟨x, hx, hy⟩))⟩
  · rintro ⟨h1, h2, h3⟩ x (rfl | ⟨y, hy, hx⟩ | ⟨y, hy, hx⟩)
    · exact h1
    · exact h2 y hy x hx
    · exact h3 y hy x hx

theorem good_push {T : Path → Prop} {nd t : Node} (h : Good T nd) (ht : Good T t) : Good T (nd.push t) := by
  obtain ⟨i, s, f⟩ := nd
  rw [Node.push, good_mk]
  rw [good_mk] at h
  refine ⟨h.1, ?_, h.2.2⟩
  intro x hx
  rcases List.mem_append.1 hx with hx | hx
  · exact h.2.1 x hx
  · rw [List.mem_singleton] at hx; subst hx; exact ht

theorem goods {S : List Path} {T : Path → Prop} (hc : Closed fs S T) (n : Nat) :
    (∀ path root st r st', path ∈ S → parsePath fs n path root st = .ok (r, st') → ∀ t ∈ r.toList, Good T t) ∧
    (∀ es root st r st', (∀ e ∈ es, e ∈ S) → parseAll fs n es root st = .ok (r, st') → ∀ t ∈ r, Good T t) ∧
    (∀ path root st r st', path ∈ S → parseFile fs n path root st = .ok (r, st') → ∀ t ∈ r.toList, Good T t) ∧
    (∀ file root nd p k st r st', file ∈ S → Good T nd → (k = .orgDocument → T p) →
      inclStep fs n file root nd p k st = .ok (r, st') → Good T r) ∧
    (∀ file root nd st r st', file ∈ S → Good T nd → visit fs n file root nd st = .ok (r, st') → Good T r) ∧
    (∀ file root nds st r st', file ∈ S → (∀ x ∈ nds, Good T x) → visitAll fs n file root nds st = .ok (r, st') →
      ∀ x ∈ r, Good T x) := by
  induction n with
  | zero =>
    refine ⟨?_, ?_, ?_, ?_, ?_, ?_⟩
    · intro _ _ _ _ _ _ h; rw [parsePath] at h; cases h
    · intro _ _ _ _ _ _ h; rw [parseAll] at h; cases h
    · intro _ _ _ _ _ _ h; rw [parseFile] at h; cases h
    · intro _ _ _ _ _ _ _ _ _ _ _ h; rw [inclStep] at h; cases h
    · intro _ _ _ _ _ _ _ _ h; rw [visit] at h; cases h
    · intro _ _ _ _ _ _ _ _ h; rw [visitAll] at h; cases h
  | succ n ih =>
    obtain ⟨ihP, ihA, ihF, ihI, ihV, ihL⟩ := ih
    have leaf : ∀ i, (∀ t, i ≠ .incl t .orgDocument) → ∀ s, (∀ x ∈ s, Good T x) → Good T (.mk i s []) := by
      intro i hi s hs
      rw [good_mk]
      exact ⟨fun t ht => absurd ht (hi t), hs, by simp⟩
    refine ⟨?_, ?_, ?_, ?_, ?_, ?_⟩
    · intro path root st r st' hpS h
      rw [parsePath] at h
      split at h
      · injection h with h; injection h with h1 h2; subst h1 h2; simp
      · dsimp only at h
        split at h
        · injection h with h; injection h with h1 h2; subst h1 h2; simp
        · split at h
          · split at h
            · split at h
              · cases h
              · rename_i h1
                injection h with h; injection h with h2 h3; subst h2 h3
                simpa using leaf _ (by simp) _ (ihP _ _ _ _ _ (hc.resolve _ hpS) h1)
            · split at h
              · split at h
                · cases h
                · rename_i h1
                  injection h with h; injection h with h2 h3; subst h2 h3
                  simpa using leaf _ (by simp) _ (ihP _ _ _ _ _ (hc.resolve _ hpS) h1)
              · injection h with h; injection h with h1 h2; subst h1 h2; simp
          · split at h
            · split at h
              · cases h
              · rename_i h1
                injection h with h; injection h with h2 h3; subst h2 h3
                simpa using leaf _ (by simp) _ (ihA _ _ _ _ _ (hc.entries _ hpS) h1)
            · split at h
              · split at h
                · exact ihF _ _ _ _ _ hpS h
                · injection h with h; injection h with h1 h2; subst h1 h2; simp
              · injection h with h; injection h with h1 h2; subst h1 h2; simp
    · intro es root st r st' hes h
      cases es with
      | nil =>
        rw [parseAll] at h
        injection h with h; injection h with h2 h3; subst h2 h3
        simp
      | cons e es =>
        rw [parseAll] at h
        split at h
        · cases h
        · rename_i r1 st1 h1
          split at h
          · cases h
          · rename_i r2 st2 h2
            injection h with h; injection h with h3 h4; subst h3 h4
            intro x hx
            rcases List.mem_append.1 hx with hx | hx
            · exact ihP _ _ _ _ _ (hes _ List.mem_cons_self) h1 x hx
            · exact ihA _ _ _ _ _ (fun e he => hes e (List.mem_cons_of_mem _ he)) h2 x hx
    · intro path root st r st' hpS h
      rw [parseFile] at h
      split at h
      · cases h
      · split at h
        · cases h
        · injection h with h; injection h with h2 h3; subst h2 h3
          simp
        · rename_i doc hp
          dsimp only at h
          split at h
          · cases h
          · rename_i d1 st1 h1
            injection h with h; injection h with h2 h3; subst h2 h3
            have := ihV _ _ _ _ _ _ hpS (hc.docs _ hpS _ hp) h1
            simpa using leaf _ (by simp) [d1] (by simpa using this)
    · intro file root nd p k st r st' hfS hg hk h
      rw [inclStep] at h
      split at h
      · cases h
      · injection h with h; injection h with h2 h3; subst h2 h3
        exact good_push hg (leaf _ (by simp) _ (by simp))
      · rename_i full hr
        split at h
        · have hfull := hc.includes _ hfS _ (hk rfl) _ hr
          split at h
          · cases h
          · injection h with h; injection h with h2 h3; subst h2 h3
            exact hg
          · rename_i h1
            injection h with h; injection h with h2 h3; subst h2 h3
            exact good_push hg (ihP _ _ _ _ _ hfull h1 _ (by simp))
        · injection h with h; injection h with h2 h3; subst h2 h3
          exact hg
        · cases h
    · intro file root nd st r st' hfS hg h
      rw [visit] at h
      split at h
      · cases h
      · rename_i nd1 st1 h1
        have s1 : Good T nd1 := by
          split at h1
          · rename_i path kind hinfo
            exact ihI _ _ _ _ _ _ _ _ hfS hg (fun hk => hg _ (nodes_self nd) _ (by rw [hinfo, hk])) h1
          · split at h1
            · cases h1
            · rename_i nd2 hl
              injection h1 with h1; injection h1 with h2 h3; subst h2 h3
              rcases linkStep_ok hl with rfl | ⟨rel, abs, rfl⟩
              · exact hg
              · exact good_push hg (leaf _ (by simp) _ (by simp))
          · injection h1 with h1; injection h1 with h2 h3; subst h2 h3; exact hg
        obtain ⟨i, s, f⟩ := nd1
        rw [good_mk] at s1
        split at h
        · cases h
        · rename_i r2 st2 h2
          split at h
          · cases h
          · rename_i r3 st3 h3
            injection h with h; injection h with h4 h5; subst h4 h5
            rw [good_mk]
            exact ⟨s1.1, ihL _ _ _ _ _ _ hfS s1.2.1 h2, ihL _ _ _ _ _ _ hfS s1.2.2 h3⟩
    · intro file root nds st r st' hfS hg h
      cases nds with
      | nil =>
        rw [visitAll] at h
        injection h with h; injection h with h2 h3; subst h2 h3
        simp
      | cons x xs =>
        rw [visitAll] at h
        split at h
        · cases h
        · rename_i r1 st1 h1
          split at h
          · cases h
          · rename_i r2 st2 h2
            injection h with h; injection h with h3 h4; subst h3 h4
            intro y hy
            rcases List.mem_cons.1 hy with rfl | hy
            · exact ihV _ _ _ _ _ _ hfS (hg _ List.mem_cons_self) h1
            · exact ihL _ _ _ _ _ _ hfS (fun z hz => hg z (List.mem_cons_of_mem _ hz)) h2 y hy

/-- how many paths of `S` have not been visited -/
def meas (S : List Path) (st : St) : Nat := (S.filter fun p => !st.visited.contains p).length

theorem length_filter_le {α : Type} (l : List α) (P Q : α → Bool) (h : ∀ x ∈ l, Q x = true → P x = true) :
    (l.filter Q).length ≤ (l.filter P).length := by
  induction l with
  | nil => simp
  | cons x xs ih =>
    have ih := ih (fun y hy => h y (List.mem_cons_of_mem _ hy))
    have hx := h x List.mem_cons_self
    by_cases hq : Q x = true
    · simp [hq, hx hq, ih]
    · by_cases hp : P x = true
      · simp [hq, hp]; omega
      · simp [hq, hp, ih]

theorem length_filter_lt {α : Type} (l : List α) (P Q : α → Bool) (h : ∀ x ∈ l, Q x = true → P x = true) {a : α}
    (ha : a ∈ l) (hp : P a = true) (hq : ¬ Q a = true) : (l.filter Q).length < (l.filter P).length := by
  induction l with
  | nil => cases ha
  | cons x xs ih =>
    have hle := length_filter_le xs P Q (fun y hy => h y (List.mem_cons_of_mem _ hy))
    rcases List.mem_cons.1 ha with rfl | ha
    · simp [hq, hp]; omega
    · have ih := ih (fun y hy => h y (List.mem_cons_of_mem _ hy)) ha
      have hx := h x List.mem_cons_self
      by_cases hqx : Q x = true
      · simp [hqx, hx hqx, ih]
      · by_cases hpx : P x = true
        · simp [hqx, hpx]; omega
        · simp [hqx, hpx, ih]

theorem meas_le {S : List Path} {a b : St} (h : ∀ p ∈ a.visited, p ∈ b.visited) : meas S b ≤ meas S a := by
  apply length_filter_le
  intro x _ hx
  simp only [Bool.not_eq_true', List.contains_eq_mem, decide_eq_false_iff_not] at hx ⊢
  exact fun hh => hx (h x hh)

theorem meas_lt {S : List Path} {a b : St} (h : ∀ p ∈ a.visited, p ∈ b.visited) {p : Path} (hp : p ∈ S)
    (ha : p ∉ a.visited) (hb : p ∈ b.visited) : meas S b < meas S a := by
  apply length_filter_lt _ _ _ _ hp
  · simp [ha]
  · simp [hb]
  · intro x _ hx
    simp only [Bool.not_eq_true', List.contains_eq_mem, decide_eq_false_iff_not] at hx ⊢
    exact fun hh => hx (h x hh)

/-- the run does not reach the bound for some bound -/
def Halts {α : Type} (f : Nat → Except Err α) : Prop := ∃ n, f n ≠ .error .fuel

/-- a family of calls whose results do not change once they are there -/
def Mono {α : Type} (f : Nat → Except Err α) : Prop := ∀ n, Le (f n) (f (n + 1))

theorem Halts.bind {α β : Type} {f : Nat → Except Err α} {g : α → Nat → Except Err β} (hm : Mono f) (hf : Halts f)
    (hg : ∀ n x, f n = .ok x → Halts (g x)) (hmg : ∀ x, Mono (g x)) :
    ∃ n, (∃ e, e ≠ Err.fuel ∧ f n = .error e) ∨ ∃ x, f n = .ok x ∧ g x n ≠ .error .fuel := by
  obtain ⟨n, hn⟩ := hf
  rcases hx : f n with e | x
  · refine ⟨n, .inl ⟨e, ?_, hx⟩⟩
    rintro rfl
    exact hn hx
  · obtain ⟨k, hk⟩ := hg n x hx
    refine ⟨max n k, .inr ⟨x, ?_, ?_⟩⟩
    · rw [le_of_le hm (Nat.le_max_left n k) hn, hx]
    · rw [le_of_le (hmg x) (Nat.le_max_right n k) hk]; exact hk

theorem monoP (path root : Path) (st : St) : Mono fun n => parsePath fs n path root st := fun n => (mono n).1 _ _ _
theorem monoA (es : List Path) (root : Path) (st : St) : Mono fun n => parseAll fs n es root st :=
  fun n => (mono n).2.1 _ _ _
theorem monoF (path root : Path) (st : St) : Mono fun n => parseFile fs n path root st :=
  fun n => (mono n).2.2.1 _ _ _
theorem monoI (file root : Path) (nd : Node) (p : Path) (k : IncKind) (st : St) :
    Mono fun n => inclStep fs n file root nd p k st := fun n => (mono n).2.2.2.1 _ _ _ _ _ _
theorem monoV (file root : Path) (nd : Node) (st : St) : Mono fun n => visit fs n file root nd st :=
  fun n => (mono n).2.2.2.2.1 _ _ _ _
theorem monoL (file root : Path) (nds : List Node) (st : St) : Mono fun n => visitAll fs n file root nds st :=
  fun n => (mono n).2.2.2.2.2 _ _ _ _

theorem halts_all {file root : Path} (k : St → Prop) (hk : ∀ a b, k a → Step fs a b → k b) (nds : List Node)
    (h : ∀ x ∈ nds, ∀ st, k st → Halts fun n => visit fs n file root x st) (st : St) (hst : k st) :
    Halts fun n => visitAll fs n file root nds st := by
  induction nds generalizing st with
  | nil => exact ⟨1, by simp [visitAll]⟩
  | cons x xs ih =>
    obtain ⟨n, hn⟩ := Halts.bind (g := fun (y : Node × St) n => visitAll fs n file root xs y.2) (monoV _ _ _ _)
      (h x List.mem_cons_self st hst)
      (fun n y hy => ih (fun z hz => h z (List.mem_cons_of_mem _ hz)) y.2
        (hk _ _ hst ((steps n).2.2.2.2.1 _ _ _ _ _ _ hy)))
      (fun y => monoL _ _ _ _)
    refine ⟨n + 1, ?_⟩
    try dsimp only
    rw [visitAll]
    rcases hn with ⟨e, he, hn⟩ | ⟨⟨y, st1⟩, hn, hg⟩
    · rw [hn]; intro hh; injection hh with hh; exact he hh
    · rw [hn]
      dsimp only at hg ⊢
      rcases hq : visitAll fs n file root xs st1 with e | ⟨ys, st2⟩
      · rw [hq] at hg
        intro hh; injection hh with hh; exact hg (by rw [hh])
      · simp

theorem halts_parseAll {root : Path} (k : St → Prop) (hk : ∀ a b, k a → Step fs a b → k b) (es : List Path)
    (h : ∀ x ∈ es, ∀ st, k st → Halts fun n => parsePath fs n x root st) (st : St) (hst : k st) :
    Halts fun n => parseAll fs n es root st := by
  induction es generalizing st with
  | nil => exact ⟨1, by simp [parseAll]⟩
  | cons x xs ih =>
    obtain ⟨n, hn⟩ := Halts.bind (g := fun (y : Option Node × St) n => parseAll fs n xs root y.2) (monoP _ _ _)
      (h x List.mem_cons_self st hst)
      (fun n y hy => ih (fun z hz => h z (List.mem_cons_of_mem _ hz)) y.2
        (hk _ _ hst ((steps n).1 _ _ _ _ _ hy).1))
      (fun y => monoA _ _ _)
    refine ⟨n + 1, ?_⟩
    try dsimp only
    rw [parseAll]
    rcases hn with ⟨e, he, hn⟩ | ⟨⟨y, st1⟩, hn, hg⟩
    · rw [hn]; intro hh; injection hh with hh; exact he hh
    · rw [hn]
      dsimp only at hg ⊢
      rcases hq : parseAll fs n xs root st1 with e | ⟨ys, st2⟩
      · rw [hq] at hg
        intro hh; injection hh with hh; exact hg (by rw [hh])
      · simp

/-- the callback of `visit` -/
def callback (fs : FS) (n : Nat) (file root : Path) (nd : Node) (st : St) : Except Err (Node × St) :=
  match nd.info with
  | .incl path kind => inclStep fs n file root nd path kind st
  | .link target =>
    match linkStep fs file root nd target with
    | .error e => .error e
    | .ok nd => .ok (nd, st)
  | _ => .ok (nd, st)

theorem visit_eq (n : Nat) (file root : Path) (nd : Node) (st : St) :
    visit fs (n + 1) file root nd st =
      match callback fs n file root nd st with
      | .error e => .error e
      | .ok (nd, st) =>
        match visitAll fs n file root nd.subs st with
        | .error e => .error e
        | .ok (subs, st) =>
          match visitAll fs n file root nd.fields st with
          | .error e => .error e
          | .ok (fields, st) => .ok (.mk nd.info subs fields, st) := by
  rw [visit]; rfl

/-- visiting a node ends when its callback and the visits of the subnodes it leaves end -/
theorem halts_visit {file root : Path} {nd : Node} {st : St} (cb : Nat → Except Err (Node × St)) (hcb : Mono cb)
    (hv : ∀ n, cb n = callback fs n file root nd st)
    (h1 : Halts cb)
    (h2 : ∀ n nd1 st1, cb n = .ok (nd1, st1) → (Halts fun n => visitAll fs n file root nd1.subs st1) ∧
      ∀ n r st2, visitAll fs n file root nd1.subs st1 = .ok (r, st2) →
        Halts fun n => visitAll fs n file root nd1.fields st2) :
    Halts fun n => visit fs n file root nd st := by
  obtain ⟨n, hn⟩ := h1
  rcases hx : cb n with e | ⟨nd1, st1⟩
  · refine ⟨n + 1, ?_⟩
    try dsimp only
    rw [visit_eq, ← hv, hx]
    intro hh; injection hh with hh; subst hh; exact hn hx
  · obtain ⟨h2a, h2b⟩ := h2 n nd1 st1 hx
    obtain ⟨k, hk⟩ := Halts.bind (g := fun (y : List Node × St) n => visitAll fs n file root nd1.fields y.2)
      (monoL _ _ _ _) h2a (fun n y hy => h2b n y.1 y.2 hy) (fun y => monoL _ _ _ _)
    have hnm := le_of_le hcb (Nat.le_max_left n k) hn
    refine ⟨max n k + 1, ?_⟩
    try dsimp only
    rw [visit_eq, ← hv, hnm, hx]
    dsimp only at hk ⊢
    rcases hk with ⟨e, he, hk⟩ | ⟨⟨y, st2⟩, hk, hg⟩
    · rw [le_of_le (monoL _ _ _ _) (Nat.le_max_right n k)
        (by rw [hk]; intro hh; injection hh with hh; exact he hh)]
      rw [hk]; intro hh; injection hh with hh; exact he hh
    · rw [le_of_le (monoL file root nd1.subs st1) (Nat.le_max_right n k) (by rw [hk]; intro hh; cases hh)]
      rw [hk]
      dsimp only at hg ⊢
      rw [le_of_le (monoL file root nd1.fields st2) (Nat.le_max_right n k) hg]
      rcases hq : visitAll fs k file root nd1.fields st2 with e | ⟨ys, st3⟩
      · rw [hq] at hg
        intro hh; injection hh with hh; exact hg (by rw [hh])
      · simp

theorem halts_leaf (file root : Path) (i : Info) (h1 : ∀ p k, i ≠ .incl p k) (h2 : ∀ t, i ≠ .link t) (st : St) :
    Halts fun n => visit fs n file root (.mk i [] []) st := by
  refine ⟨2, ?_⟩
  cases i with
  | incl p k => exact absurd rfl (h1 p k)
  | link t => exact absurd rfl (h2 t)
  | _ => simp [visit, Node.info, Node.subs, Node.fields, visitAll]

mutual
/-- number of nodes -/
def Node.size : Node → Nat
  | .mk _ s f => 1 + sizes s + sizes f
/-- number of nodes of a list -/
def sizes : List Node → Nat
  | [] => 0
  | x :: xs => x.size + sizes xs
end

theorem size_mem {x : Node} {l : List Node} (h : x ∈ l) : x.size ≤ sizes l := by
  induction l with
  | nil => cases h
  | cons y ys ih =>
    rw [sizes]
    rcases List.mem_cons.1 h with rfl | h
    · omega
    · have := ih h; omega

theorem halts {S : List Path} {T : Path → Prop} (hc : Closed fs S T) (m : Nat) :
    ∀ st, meas S st < m →
      (∀ path ∈ S, ∀ root, Halts fun n => parsePath fs n path root st) ∧
      (∀ file ∈ S, ∀ root nd, Good T nd → Halts fun n => visit fs n file root nd st) := by
  induction m with
  | zero => intro st h; omega
  | succ m ih =>
    -- a path, from any state that is small enough
    have hP : ∀ st, meas S st < m + 1 → ∀ path ∈ S, ∀ root, Halts fun n => parsePath fs n path root st := by
      intro st hst path hpS root
      by_cases hv : st.visited.contains path = true
      · exact ⟨1, by (try dsimp only); rw [parsePath, if_pos hv]; intro hh; cases hh⟩
      · have hv' : path ∉ st.visited := fun hm => hv (List.contains_iff_mem.2 hm)
        have hlt : meas S { st with visited := path :: st.visited } < m := by
          have := meas_lt (S := S) (a := st) (b := { st with visited := path :: st.visited })
            (fun p hp => List.mem_cons_of_mem _ hp) hpS hv' List.mem_cons_self
          omega
        have ihm := ih _ hlt
        by_cases hs : (!fs.should path) = true
        · exact ⟨1, by (try dsimp only); rw [parsePath, if_neg hv, if_pos hs]; intro hh; cases hh⟩
        by_cases hl : fs.isLink path = true
        · by_cases hd : fs.isDir (fs.resolve path) = true
          · obtain ⟨n, hn⟩ := ihm.1 _ (hc.resolve _ hpS) (fs.resolve path)
            refine ⟨n + 1, ?_⟩
            try dsimp only
            rw [parsePath, if_neg hv, if_neg hs, if_pos hl, if_pos hd]
            dsimp only at hn ⊢
            rcases hq : parsePath fs n (fs.resolve path) (fs.resolve path) { st with visited := path :: st.visited }
              with e | ⟨r, st1⟩
            · rw [hq] at hn; intro hh; injection hh with hh; exact hn (by rw [hh])
            · simp
          · by_cases hf : fs.isFile (fs.resolve path) = true
            · obtain ⟨n, hn⟩ := ihm.1 _ (hc.resolve _ hpS) (parent (fs.resolve path))
              refine ⟨n + 1, ?_⟩
              try dsimp only
              rw [parsePath, if_neg hv, if_neg hs, if_pos hl, if_neg hd, if_pos hf]
              dsimp only at hn ⊢
              rcases hq : parsePath fs n (fs.resolve path) (parent (fs.resolve path))
                { st with visited := path :: st.visited } with e | ⟨r, st1⟩
              · rw [hq] at hn; intro hh; injection hh with hh; exact hn (by rw [hh])
              · simp
            · exact ⟨1, by (try dsimp only); rw [parsePath, if_neg hv, if_neg hs, if_pos hl, if_neg hd, if_neg hf]; intro hh; cases hh⟩
        · by_cases hd : fs.isDir path = true
          · obtain ⟨n, hn⟩ := halts_parseAll (fs := fs) (root := root) (fun s => meas S s < m)
              (fun a b ha hab => Nat.lt_of_le_of_lt (meas_le hab.vis) ha) (fs.entries path)
              (fun x hx s hs => (ih s hs).1 x (hc.entries _ hpS x hx) root) _ hlt
            refine ⟨n + 1, ?_⟩
            try dsimp only
            rw [parsePath, if_neg hv, if_neg hs, if_neg hl, if_pos hd]
            dsimp only at hn ⊢
            rcases hq : parseAll fs n (fs.entries path) root { st with visited := path :: st.visited }
              with e | ⟨r, st1⟩
            · rw [hq] at hn; intro hh; injection hh with hh; exact hn (by rw [hh])
            · simp
          · by_cases hf : fs.isFile path = true
            · by_cases ho : isOrg path = true
              · have hpar : ∃ n, parseFile fs n path root { st with visited := path :: st.visited } ≠ .error .fuel := by
                  have hf' : ¬ (!fs.isFile path) = true := by simp [hf]
                  rcases hp : fs.parse path with _ | _ | doc
                  · exact ⟨1, by (try dsimp only); rw [parseFile, if_neg hf', hp]; intro hh; cases hh⟩
                  · exact ⟨1, by (try dsimp only); rw [parseFile, if_neg hf', hp]; intro hh; cases hh⟩
                  · obtain ⟨n, hn⟩ := (ih { visited := path :: st.visited, parsed := path :: st.parsed } hlt).2 path hpS
                      root doc (hc.docs _ hpS _ hp)
                    refine ⟨n + 1, ?_⟩
                    try dsimp only
                    rw [parseFile, if_neg hf', hp]
                    dsimp only at hn ⊢
                    rcases hq : visit fs n path root doc { visited := path :: st.visited, parsed := path :: st.parsed }
                      with e | ⟨r, st1⟩
                    · rw [hq] at hn; intro hh; injection hh with hh; exact hn (by rw [hh])
                    · simp
                obtain ⟨n, hn⟩ := hpar
                refine ⟨n + 1, ?_⟩
                try dsimp only
                rw [parsePath, if_neg hv, if_neg hs, if_neg hl, if_neg hd, if_pos hf, if_pos ho]
                exact hn
              · exact ⟨1, by
                  (try dsimp only); rw [parsePath, if_neg hv, if_neg hs, if_neg hl, if_neg hd, if_pos hf, if_neg ho]; intro hh; cases hh⟩
            · exact ⟨1, by
                (try dsimp only); rw [parsePath, if_neg hv, if_neg hs, if_neg hl, if_neg hd, if_neg hf]; intro hh; cases hh⟩
    have hV : ∀ k nd, Node.size nd < k → Good T nd → ∀ file ∈ S, ∀ root st, meas S st < m + 1 →
        Halts fun n => visit fs n file root nd st := by
      intro k
      induction k with
      | zero => intro nd h; omega
      | succ k ihk =>
        intro nd hk hg file hfS root st hst
        obtain ⟨i, s, f⟩ := nd
        have hg' := good_mk.1 hg
        have hsz : sizes s < k ∧ sizes f < k := by
          rw [Node.size] at hk; omega
        have step : ∀ a b : St, meas S a < m + 1 → Step fs a b → meas S b < m + 1 := fun a b ha hab =>
          Nat.lt_of_le_of_lt (meas_le hab.vis) ha
        have step' : ∀ a b : St, meas S a < m → Step fs a b → meas S b < m := fun a b ha hab =>
          Nat.lt_of_le_of_lt (meas_le hab.vis) ha
        -- the nodes that were there before
        have hsubs : ∀ x ∈ s, ∀ st, meas S st < m + 1 → Halts fun n => visit fs n file root x st :=
          fun x hx st hst => ihk x (by have := size_mem hx; omega) (hg'.2.1 x hx) file hfS root st hst
        have hflds : ∀ st, meas S st < m + 1 → Halts fun n => visitAll fs n file root f st :=
          fun st hst => halts_all _ step f
            (fun x hx st hst => ihk x (by have := size_mem hx; omega) (hg'.2.2 x hx) file hfS root st hst) st hst
        have fin : ∀ l st1, (∀ x ∈ l, ∀ st, meas S st < m + 1 → Halts fun n => visit fs n file root x st) →
            meas S st1 < m + 1 →
            (Halts fun n => visitAll fs n file root l st1) ∧
            ∀ n r st2, visitAll fs n file root l st1 = .ok (r, st2) →
              Halts fun n => visitAll fs n file root f st2 := fun l st1 hl hst1 =>
          ⟨halts_all _ step l hl st1 hst1, fun n r st2 h2 =>
            hflds st2 (step _ _ hst1 ((steps n).2.2.2.2.2 _ _ _ _ _ _ h2))⟩
        have app : ∀ l x, (∀ x ∈ l, ∀ st, meas S st < m + 1 → Halts fun n => visit fs n file root x st) →
            (∀ st, meas S st < m + 1 → Halts fun n => visit fs n file root x st) →
            ∀ y ∈ l ++ [x], ∀ st, meas S st < m + 1 → Halts fun n => visit fs n file root y st := by
          intro l x hl hx y hy
          rcases List.mem_append.1 hy with hy | hy
          · exact hl y hy
          · rw [List.mem_singleton] at hy; subst hy; exact hx
        by_cases hinc : ∃ p kd, i = .incl p kd
        · obtain ⟨p, kd, rfl⟩ := hinc
          apply halts_visit (fun n => inclStep fs n file root (.mk (.incl p kd) s f) p kd st) (monoI _ _ _ _ _ _)
            (fun n => rfl)
          · rcases hr : resolvePath fs (parent file) p with e | _ | full
            · refine ⟨1, ?_⟩
              try dsimp only
              rw [inclStep, hr]
              unfold resolvePath at hr
              split at hr
              · cases hr
              · injection hr with hr; subst hr; intro hh; cases hh
            · exact ⟨1, by (try dsimp only); rw [inclStep, hr]; intro hh; cases hh⟩
            · by_cases hkd : kd = .orgDocument
              · subst hkd
                obtain ⟨n, hn⟩ := hP st hst full (hc.includes _ hfS _ (hg'.1 p rfl) _ hr) root
                refine ⟨n + 1, ?_⟩
                try dsimp only
                rw [inclStep, hr]
                dsimp only at hn ⊢
                rcases hq : parsePath fs n full root st with e | ⟨_ | t, st1⟩
                · rw [hq] at hn; intro hh; injection hh with hh; exact hn (by rw [hh])
                · simp
                · simp
              · refine ⟨1, ?_⟩
                try dsimp only
                rw [inclStep, hr]
                cases kd with
                | orgDocument => exact absurd rfl hkd
                | _ => intro hh; cases hh
          · intro n nd1 st1 h
            cases n with
            | zero => rw [inclStep] at h; cases h
            | succ n =>
              rw [inclStep] at h
              split at h
              · cases h
              · injection h with h; injection h with h2 h3; subst h2 h3
                exact fin _ _ (app _ _ hsubs fun st _ => halts_leaf _ _ _ (by simp) (by simp) _) hst
              · rename_i full hr
                split at h
                · have hfull := hc.includes _ hfS _ (hg'.1 p rfl) _ hr
                  split at h
                  · cases h
                  · rename_i h1
                    injection h with h; injection h with h2 h3; subst h2 h3
                    exact fin _ _ hsubs (step _ _ hst ((steps n).1 _ _ _ _ _ h1).1)
                  · rename_i t st2 h1
                    injection h with h; injection h with h2 h3; subst h2 h3
                    obtain ⟨s1, m1⟩ := (steps n).1 _ _ _ _ _ h1
                    have hgt : Good T t := (goods hc n).1 _ _ _ _ _ hfull h1 t (by simp)
                    -- the path was new
                    have hnew : full ∉ st.visited := by
                      intro hm
                      cases n with
                      | zero => rw [parsePath] at h1; cases h1
                      | succ n =>
                        rw [parsePath, if_pos (List.contains_iff_mem.2 hm)] at h1
                        injection h1 with h1; injection h1 with h1 _; cases h1
                    have hlt : meas S st2 < m := by
                      have := meas_lt s1.vis hfull hnew m1
                      omega
                    refine ⟨halts_all (fun st => meas S st < m) step' (s ++ [t]) ?_ st2 hlt, ?_⟩
                    · intro x hx st' hst'
                      rcases List.mem_append.1 hx with hx | hx
                      · exact (ih st' hst').2 file hfS root x (hg'.2.1 x hx)
                      · rw [List.mem_singleton] at hx; subst hx
                        exact (ih st' hst').2 file hfS root x hgt
                    · intro n' r' st3 h3
                      have := step' _ _ hlt ((steps n').2.2.2.2.2 _ _ _ _ _ _ h3)
                      exact hflds st3 (by omega)
                · injection h with h; injection h with h2 h3; subst h2 h3
                  exact fin _ _ hsubs hst
                · cases h
        · by_cases hlk : ∃ t, i = .link t
          · obtain ⟨t, rfl⟩ := hlk
            apply halts_visit (fun n => match linkStep fs file root (.mk (.link t) s f) t with
              | .error e => .error e
              | .ok nd => .ok (nd, st)) (fun n => .inr rfl) (fun n => rfl)
            · refine ⟨0, ?_⟩
              rcases hq : linkStep fs file root (.mk (.link t) s f) t with e | nd1
              · dsimp only
                intro hh; injection hh with hh; subst hh
                unfold linkStep at hq
                split at hq
                · cases hq
                · split at hq
                  · rename_i hr
                    unfold resolvePath at hr
                    split at hr
                    · cases hr
                    · injection hr with hr; subst hr; injection hq with hq; cases hq
                  · cases hq
                  · cases hq
              · simp
            · intro n nd1 st1 h
              split at h
              · cases h
              · rename_i nd2 hl
                injection h with h; injection h with h2 h3; subst h2 h3
                rcases linkStep_ok hl with rfl | ⟨rel, abs, rfl⟩
                · exact fin _ _ hsubs hst
                · exact fin _ _ (app _ _ hsubs fun st _ => halts_leaf _ _ _ (by simp) (by simp) _) hst
          · apply halts_visit (fun n => .ok (.mk i s f, st)) (fun n => .inr rfl)
            · intro n
              cases i with
              | incl p kd => exact absurd ⟨p, kd, rfl⟩ hinc
              | link t => exact absurd ⟨t, rfl⟩ hlk
              | _ => rfl
            · exact ⟨0, by intro hh; cases hh⟩
            · intro n nd1 st1 h
              injection h with h; injection h with h2 h3; subst h2 h3
              exact fin _ _ hsubs hst
    intro st hst
    exact ⟨hP st hst, fun file hfS root nd hg => hV _ nd (Nat.lt_succ_self _) hg file hfS root st hst⟩

end Verif.Dir
