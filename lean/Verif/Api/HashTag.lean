import Verif.Strs.Digits

/-!
# C87: hashtags

Model of `HashTagText` – `src/haxorg/sem/SemOrgApi.cpp:146-184` – and its properties.
-/

namespace Verif.Api
open Verif.Strs (Bytes)

/-- `HashTagText` – SemOrgSharedTypes.hpp: `#head##[sub, …]` -/
inductive Tag where
  | mk (head : Bytes) (subs : List Tag)

namespace Tag

mutual
  /-- `prefixMatch` – SemOrgApi.cpp:146-160 -/
  def prefixMatch : Tag → List Bytes → Bool
    | .mk _ _, [] => true
    | .mk head subs, p :: ps =>
      if ps = [] ∧ p = head then true
      else if p ≠ head then false
      else prefixAny subs ps
  /-- The loop – SemOrgApi.cpp:155-158 -/
  def prefixAny : List Tag → List Bytes → Bool
    | [], _ => false
    | t :: ts, ps => if t.prefixMatch ps then true else prefixAny ts ps
end

mutual
  /-- `aux` in `getFlatHashes` – SemOrgApi.cpp:166-181; the set of visited paths is the second part of the result. -/
  def flatAux (inter : Bool) (visited : List (List Bytes)) (parents : List Bytes) : Tag → List (List Bytes) × List (List Bytes)
    | .mk head subs =>
      let (res, visited) :=
        if inter && !parents.isEmpty && !decide (parents ∈ visited) then ([parents], parents :: visited) else ([], visited)
      if subs.isEmpty then (res ++ [parents ++ [head]], visited)
      else
        let (r, v) := flatSubs inter visited (parents ++ [head]) subs
        (res ++ r, v)
  /-- The loop – SemOrgApi.cpp:176-178 -/
  def flatSubs (inter : Bool) (visited : List (List Bytes)) (parents : List Bytes) : List Tag → List (List Bytes) × List (List Bytes)
    | [] => ([], visited)
    | t :: ts =>
      let (r, v) := flatAux inter visited parents t
      let (r', v') := flatSubs inter v parents ts
      (r ++ r', v')
end

/-- `getFlatHashes` – SemOrgApi.cpp:162-184 -/
def getFlatHashes (t : Tag) (inter : Bool) : List (List Bytes) := (flatAux inter [] [] t).1

/-! ## Specification -/

/-- A path from the top of the hashtag down to some tag in it. -/
inductive Walk : Tag → List Bytes → Prop where
  | here (h : Bytes) (subs : List Tag) : Walk (.mk h subs) [h]
  | down (h : Bytes) (subs : List Tag) (t : Tag) (p : List Bytes) : t ∈ subs → Walk t p → Walk (.mk h subs) (h :: p)

mutual
  /-- The paths down to the tags without subtags, in the written order. -/
  def leaves : Tag → List (List Bytes)
    | .mk h [] => [[h]]
    | .mk h (t :: ts) => (t.leaves ++ leavesOf ts).map (h :: ·)
  def leavesOf : List Tag → List (List Bytes)
    | [] => []
    | t :: ts => t.leaves ++ leavesOf ts
end

/-- The name at the top. -/
def head : Tag → Bytes
  | .mk h _ => h

/-- The subtags of one tag have different names. -/
inductive Distinct : Tag → Prop where
  | mk (h : Bytes) (subs : List Tag) : (subs.map head).Nodup → (∀ t ∈ subs, Distinct t) → Distinct (.mk h subs)

/-! ## Proofs -/

theorem Walk.ne_nil {t : Tag} {p : List Bytes} (h : Walk t p) : p ≠ [] := by cases h <;> simp

theorem Walk.head {t : Tag} {p : List Bytes} (h : Walk t p) : p.head? = some t.head := by cases h <;> rfl

mutual
  theorem prefixMatch_iff (t : Tag) (p : List Bytes) : t.prefixMatch p = true ↔ p = [] ∨ Walk t p := by
    cases t with
    | mk h subs =>
      cases p with
      | nil => simp [prefixMatch]
      | cons a ps =>
        simp only [prefixMatch, reduceCtorEq, false_or]
        by_cases h1 : ps = [] ∧ a = h
        · rw [if_pos h1, h1.1, h1.2]; simp [Walk.here]
        · rw [if_neg h1]
          by_cases h2 : a = h
          · subst h2
            have hps : ps ≠ [] := fun h => h1 ⟨h, rfl⟩
            rw [if_neg (by simp), prefixAny_iff subs ps]
            constructor
            · rintro ⟨t, ht, h3 | h3⟩
              · exact absurd h3 hps
              · exact .down _ _ t ps ht h3
            · intro h3
              cases h3 with
              | here => exact absurd rfl hps
              | down _ _ t _ ht h3 => exact ⟨t, ht, .inr h3⟩
          · rw [if_pos h2]
            constructor
            · intro h3; cases h3
            · intro h3; have := h3.head; simp [Tag.head, h2] at this
  theorem prefixAny_iff (ts : List Tag) (ps : List Bytes) : prefixAny ts ps = true ↔ ∃ t ∈ ts, ps = [] ∨ Walk t ps := by
    cases ts with
    | nil => simp [prefixAny]
    | cons t ts =>
      have h1 := prefixMatch_iff t ps
      have h2 := prefixAny_iff ts ps
      simp only [prefixAny, List.mem_cons, exists_eq_or_imp]
      by_cases h : t.prefixMatch ps = true
      · rw [if_pos h]; simp [h1.mp h]
      · rw [if_neg h, h2]
        constructor
        · exact .inr
        · rintro (h3 | h3)
          · exact absurd (h1.mpr h3) h
          · exact h3
end

mutual
  theorem flatAux_leaves (t : Tag) (visited : List (List Bytes)) (parents : List Bytes) :
      flatAux false visited parents t = (t.leaves.map (parents ++ ·), visited) := by
    cases t with
    | mk h subs =>
      cases subs with
      | nil => simp [flatAux, leaves]
      | cons t ts =>
        have := flatSubs_leaves (t :: ts) visited (parents ++ [h])
        simp only [flatAux, Bool.false_and, Bool.false_eq_true, if_false, List.isEmpty_cons, this]
        simp [leaves, leavesOf, Function.comp_def]
  theorem flatSubs_leaves (ts : List Tag) (visited : List (List Bytes)) (parents : List Bytes) :
      flatSubs false visited parents ts = ((leavesOf ts).map (parents ++ ·), visited) := by
    cases ts with
    | nil => simp [flatSubs, leavesOf]
    | cons t ts =>
      have h1 := flatAux_leaves t visited parents
      have h2 := flatSubs_leaves ts visited parents
      simp [flatSubs, leavesOf, h1, h2]
end

/-- What the paths to leaves are. -/
inductive Ends : Tag → List Bytes → Prop where
  | here (h : Bytes) : Ends (.mk h []) [h]
  | down (h : Bytes) (subs : List Tag) (t : Tag) (p : List Bytes) : t ∈ subs → Ends t p → Ends (.mk h subs) (h :: p)

mutual
  theorem mem_leaves (t : Tag) (p : List Bytes) : p ∈ t.leaves ↔ Ends t p := by
    cases t with
    | mk h subs =>
      cases subs with
      | nil =>
        simp only [leaves, List.mem_singleton]
        constructor
        · rintro rfl; exact .here h
        · intro h'; cases h' with
          | here => rfl
          | down _ _ t _ ht _ => cases ht
      | cons t ts =>
        have h1 := fun p => mem_leaves t p
        have h2 := fun p => mem_leavesOf ts p
        simp only [leaves, List.mem_map, List.mem_append]
        constructor
        · rintro ⟨q, hq | hq, rfl⟩
          · exact .down _ _ t q (by simp) ((h1 q).mp hq)
          · obtain ⟨t', ht', hq⟩ := (h2 q).mp hq
            exact .down _ _ t' q (by simp [ht']) hq
        · intro h'
          cases h' with
          | down _ _ t' q ht' hq =>
            refine ⟨q, ?_, rfl⟩
            rcases List.mem_cons.mp ht' with rfl | ht'
            · exact .inl ((h1 q).mpr hq)
            · exact .inr ((h2 q).mpr ⟨t', ht', hq⟩)
  theorem mem_leavesOf (ts : List Tag) (p : List Bytes) : p ∈ leavesOf ts ↔ ∃ t ∈ ts, Ends t p := by
    cases ts with
    | nil => simp [leavesOf]
    | cons t ts =>
      have h1 := mem_leaves t p
      have h2 := mem_leavesOf ts p
      simp [leavesOf, h1, h2]
end

/-- What a step with intermediate paths does. -/
structure Step (walk : List Bytes → Prop) (visited : List (List Bytes)) (parents : List Bytes) (r v : List (List Bytes)) : Prop where
  grow : ∀ p ∈ visited, p ∈ v
  sound : ∀ p ∈ v, p ∈ visited ∨ p ∈ r
  only : ∀ p ∈ r, (p = parents ∧ parents ≠ []) ∨ ∃ q, walk q ∧ p = parents ++ q
  all : ∀ q, walk q → parents ++ q ∈ r ∨ parents ++ q ∈ v

mutual
  theorem flatAux_step (t : Tag) (visited : List (List Bytes)) (parents : List Bytes) :
      Step (Walk t) visited parents (flatAux true visited parents t).1 (flatAux true visited parents t).2 ∧
      (parents ≠ [] → parents ∈ (flatAux true visited parents t).2) := by
    cases t with
    | mk h subs =>
      obtain ⟨res, vis, hrv, h1, h2, h3, h4⟩ : ∃ res vis,
          (if (true && !parents.isEmpty && !decide (parents ∈ visited)) then ([parents], parents :: visited) else ([], visited)) = (res, vis) ∧
          (∀ p ∈ visited, p ∈ vis) ∧ (∀ p ∈ vis, p ∈ visited ∨ p ∈ res) ∧ (∀ p ∈ res, p = parents ∧ parents ≠ []) ∧
          (parents ≠ [] → parents ∈ vis) := by
        by_cases hp : parents = []
        · subst hp; exact ⟨[], visited, by simp, by simp, by simp_all, by simp, by simp⟩
        · by_cases hv : parents ∈ visited
          · exact ⟨[], visited, by simp [hv], by simp, by simp_all, by simp, fun _ => hv⟩
          · exact ⟨[parents], parents :: visited, by simp [hp, hv], by simp_all, by simp [or_comm], by simp [hp], by simp⟩
      simp only [flatAux, hrv]
      by_cases hs : subs.isEmpty
      · have : subs = [] := List.isEmpty_iff.mp hs
        subst this
        simp only [List.isEmpty_nil, if_true]
        refine ⟨⟨h1, fun p hp => ?_, fun p hp => ?_, fun q hq => ?_⟩, h4⟩
        · rcases h2 p hp with h | h
          · exact .inl h
          · exact .inr (by simp [h])
        · rcases List.mem_append.mp hp with hp | hp
          · exact .inl (h3 p hp)
          · simp only [List.mem_singleton] at hp
            exact .inr ⟨[h], .here h [], hp⟩
        · cases hq with
          | here => exact .inl (by simp)
          | down _ _ t _ ht _ => cases ht
      · rw [if_neg hs]
        have hne : subs ≠ [] := fun h => hs (by simp [h])
        obtain ⟨⟨g1, g2, g3, g4⟩, g5⟩ := flatSubs_step subs vis (parents ++ [h])
        have g5 := g5 hne (by simp)
        refine ⟨⟨fun p hp => g1 p (h1 p hp), fun p hp => ?_, fun p hp => ?_, fun q hq => ?_⟩, fun hp => g1 _ (h4 hp)⟩
        · rcases g2 p hp with h | h
          · rcases h2 p h with h | h
            · exact .inl h
            · exact .inr (by simp [h])
          · exact .inr (by simp [h])
        · rcases List.mem_append.mp hp with hp | hp
          · exact .inl (h3 p hp)
          · rcases g3 p hp with ⟨rfl, _⟩ | ⟨q, ⟨t, ht, hq⟩, rfl⟩
            · exact .inr ⟨[h], .here _ _, rfl⟩
            · exact .inr ⟨h :: q, .down _ _ t q ht hq, by simp⟩
        · cases hq with
          | here => exact .inr g5
          | down _ _ t q ht hq =>
            have := g4 q ⟨t, ht, hq⟩
            simp only [List.append_assoc, List.singleton_append] at this
            rcases this with h | h
            · exact .inl (by simp [h])
            · exact .inr h
  theorem flatSubs_step (ts : List Tag) (visited : List (List Bytes)) (parents : List Bytes) :
      Step (fun q => ∃ t ∈ ts, Walk t q) visited parents (flatSubs true visited parents ts).1 (flatSubs true visited parents ts).2 ∧
      (ts ≠ [] → parents ≠ [] → parents ∈ (flatSubs true visited parents ts).2) := by
    cases ts with
    | nil =>
      refine ⟨⟨?_, ?_, ?_, ?_⟩, fun h => absurd rfl h⟩ <;> simp_all [flatSubs]
    | cons t ts =>
      obtain ⟨⟨h1, h2, h3, h4⟩, h5⟩ := flatAux_step t visited parents
      obtain ⟨⟨g1, g2, g3, g4⟩, g5⟩ := flatSubs_step ts (flatAux true visited parents t).2 parents
      simp only [flatSubs]
      refine ⟨⟨fun p hp => g1 p (h1 p hp), fun p hp => ?_, fun p hp => ?_, fun q hq => ?_⟩, fun _ hp => g1 _ (h5 hp)⟩
      · rcases g2 p hp with h | h
        · rcases h2 p h with h | h
          · exact .inl h
          · exact .inr (by simp [h])
        · exact .inr (by simp [h])
      · rcases List.mem_append.mp hp with hp | hp
        · rcases h3 p hp with h | ⟨q, hq, h⟩
          · exact .inl h
          · exact .inr ⟨q, ⟨t, by simp, hq⟩, h⟩
        · rcases g3 p hp with h | ⟨q, ⟨t', ht', hq⟩, h⟩
          · exact .inl h
          · exact .inr ⟨q, ⟨t', by simp [ht'], hq⟩, h⟩
      · obtain ⟨t', ht', hq⟩ := hq
        rcases List.mem_cons.mp ht' with rfl | ht'
        · rcases h4 q hq with h | h
          · exact .inl (by simp [h])
          · exact .inr (g1 _ h)
        · rcases g4 q ⟨t', ht', hq⟩ with h | h
          · exact .inl (by simp [h])
          · exact .inr h
end

mutual
  theorem flatAux_nodup (t : Tag) (ht : Distinct t) (visited : List (List Bytes)) (parents : List Bytes)
      (hv : ∀ p ∈ visited, ¬ (parents ++ [t.head]) <+: p) :
      (flatAux true visited parents t).1.Nodup ∧
      (∀ p ∈ (flatAux true visited parents t).1, (p = parents ∧ p ∉ visited) ∨ (parents ++ [t.head]) <+: p) ∧
      (∀ p ∈ (flatAux true visited parents t).2, p ∈ visited ∨ p = parents ∨ (parents ++ [t.head]) <+: p) ∧
      (parents ≠ [] → parents ∈ (flatAux true visited parents t).2) := by
    refine ⟨?_, ?_, ?_, (flatAux_step t visited parents).2⟩
    all_goals
      cases t with
      | mk h subs =>
        obtain ⟨hd, hsub⟩ : (subs.map head).Nodup ∧ ∀ t ∈ subs, Distinct t := by cases ht; exact ⟨‹_›, ‹_›⟩
        obtain ⟨res, vis, hrv, h1, h2, h3⟩ : ∃ res vis,
            (if (true && !parents.isEmpty && !decide (parents ∈ visited)) then ([parents], parents :: visited) else ([], visited)) = (res, vis) ∧
            res.Nodup ∧ (∀ p ∈ res, p = parents ∧ p ∉ visited) ∧ (∀ p ∈ vis, p ∈ visited ∨ p = parents) := by
          by_cases hp : parents = []
          · subst hp; exact ⟨[], visited, by simp, by simp, by simp, by simp_all⟩
          · by_cases hv : parents ∈ visited
            · exact ⟨[], visited, by simp [hv], by simp, by simp, by simp_all⟩
            · exact ⟨[parents], parents :: visited, by simp [hp, hv], by simp, by simp [hv], by simp [or_comm]⟩
        have hlong : ∀ p, (parents ++ [h]) <+: p → p ≠ parents := by
          intro p hp he
          have := hp.length_le
          rw [he] at this
          simp only [List.length_append, List.length_singleton] at this
          omega
        have hvis : ∀ p ∈ vis, ¬ (parents ++ [h]) <+: p := by
          intro p hp hpre
          rcases h3 p hp with h' | h'
          · exact hv p h' hpre
          · exact hlong p hpre h'
        simp only [flatAux, hrv]
        by_cases hs : subs.isEmpty
        · rw [if_pos hs]
          simp only [Tag.head]
          first
            | (rw [List.nodup_append]
               refine ⟨h1, by simp, ?_⟩
               intro a ha b hb hab
               simp only [List.mem_singleton] at hb
               subst hab
               exact hlong a (by rw [hb]) (h2 a ha).1)
            | (intro p hp
               rcases List.mem_append.mp hp with hp | hp
               · exact .inl (h2 p hp)
               · simp only [List.mem_singleton] at hp
                 exact .inr (by rw [hp]))
            | (intro p hp
               rcases h3 p hp with h' | h'
               · exact .inl h'
               · exact .inr (.inl h'))
        · rw [if_neg hs]
          simp only [Tag.head]
          obtain ⟨g1, g2, g3⟩ := flatSubs_nodup subs hsub hd vis (parents ++ [h]) (fun p hp t ht hpre =>
            hvis p hp ((List.prefix_append (parents ++ [h]) [t.head]).trans hpre))
          first
            | (rw [List.nodup_append]
               refine ⟨h1, g1, ?_⟩
               intro a ha b hb hab
               subst hab
               have : (parents ++ [h]) <+: a := by
                 rcases g2 a hb with ⟨h', _⟩ | ⟨t, _, h'⟩
                 · rw [h']
                 · exact (List.prefix_append (parents ++ [h]) [t.head]).trans h'
               exact hlong a this (h2 a ha).1)
            | (intro p hp
               rcases List.mem_append.mp hp with hp | hp
               · exact .inl (h2 p hp)
               · rcases g2 p hp with ⟨h', _⟩ | ⟨t, _, h'⟩
                 · exact .inr (by rw [h'])
                 · exact .inr ((List.prefix_append (parents ++ [h]) [t.head]).trans h'))
            | (intro p hp
               rcases g3 p hp with h' | h' | ⟨t, _, h'⟩
               · rcases h3 p h' with h' | h'
                 · exact .inl h'
                 · exact .inr (.inl h')
               · exact .inr (.inr (by rw [h']))
               · exact .inr (.inr ((List.prefix_append (parents ++ [h]) [t.head]).trans h')))
  theorem flatSubs_nodup (ts : List Tag) (hts : ∀ t ∈ ts, Distinct t) (hd : (ts.map head).Nodup) (visited : List (List Bytes)) (parents : List Bytes)
      (hv : ∀ p ∈ visited, ∀ t ∈ ts, ¬ (parents ++ [t.head]) <+: p) :
      (flatSubs true visited parents ts).1.Nodup ∧
      (∀ p ∈ (flatSubs true visited parents ts).1, (p = parents ∧ p ∉ visited) ∨ ∃ t ∈ ts, (parents ++ [t.head]) <+: p) ∧
      (∀ p ∈ (flatSubs true visited parents ts).2, p ∈ visited ∨ p = parents ∨ ∃ t ∈ ts, (parents ++ [t.head]) <+: p) := by
    cases ts with
    | nil => simp_all [flatSubs]
    | cons t ts =>
      obtain ⟨h1, h2, h3, h4⟩ := flatAux_nodup t (hts t (by simp)) visited parents (fun p hp => hv p hp t (by simp))
      have hd' := List.nodup_cons.mp hd
      have hapart : ∀ p, (parents ++ [t.head]) <+: p → ∀ t' ∈ ts, ¬ (parents ++ [t'.head]) <+: p := by
        intro p hp t' ht' hp'
        have he : parents ++ [t.head] = parents ++ [t'.head] := (List.prefix_of_prefix_length_le hp hp' (by simp)).eq_of_length (by simp)
        have : t.head = t'.head := by simpa using he
        apply hd'.1
        rw [show t.head = t'.head from this]
        exact List.mem_map.mpr ⟨t', ht', rfl⟩
      have hlong : ∀ (t : Tag) p, (parents ++ [t.head]) <+: p → p ≠ parents := by
        intro t p hp he
        have := hp.length_le
        rw [he] at this
        simp only [List.length_append, List.length_singleton] at this
        omega
      obtain ⟨g1, g2, g3⟩ := flatSubs_nodup ts (fun t ht => hts t (by simp [ht])) hd'.2 (flatAux true visited parents t).2 parents
        (fun p hp t' ht' hpre => by
          rcases h3 p hp with h' | h' | h'
          · exact hv p h' t' (by simp [ht']) hpre
          · exact hlong t' p hpre h'
          · exact hapart p h' t' ht' hpre)
      simp only [flatSubs]
      have hne : ∀ p, p ∈ (flatAux true visited parents t).1 → p ≠ [] → p = parents → p ∈ (flatAux true visited parents t).2 := by
        intro p _ hp he
        subst he
        exact h4 hp
      refine ⟨?_, ?_, ?_⟩
      · rw [List.nodup_append]
        refine ⟨h1, g1, ?_⟩
        intro a ha b hb hab
        subst hab
        rcases g2 a hb with ⟨he, hnv⟩ | ⟨t', ht', h'⟩
        · subst he
          rcases (flatAux_step t visited a).1.only a ha with ⟨_, hne'⟩ | ⟨q, hq, he⟩
          · exact hnv (h4 hne')
          · have := hq.ne_nil
            have : q = [] := by simpa using he
            contradiction
        · rcases h2 a ha with ⟨he, _⟩ | h
          · exact hlong t' a h' he
          · exact hapart a h t' ht' h'
      · intro p hp
        rcases List.mem_append.mp hp with hp | hp
        · rcases h2 p hp with h' | h'
          · exact .inl h'
          · exact .inr ⟨t, by simp, h'⟩
        · rcases g2 p hp with ⟨h', hnv⟩ | ⟨t', ht', h'⟩
          · refine .inl ⟨h', fun hc => hnv ?_⟩
            exact (flatAux_step t visited parents).1.grow p hc
          · exact .inr ⟨t', by simp [ht'], h'⟩
      · intro p hp
        rcases g3 p hp with h' | h' | ⟨t', ht', h'⟩
        · rcases h3 p h' with h' | h' | h'
          · exact .inl h'
          · exact .inr (.inl h')
          · exact .inr (.inr ⟨t, by simp, h'⟩)
        · exact .inr (.inl h')
        · exact .inr (.inr ⟨t', by simp [ht'], h'⟩)
end

/-! ## Properties -/

/-- **C87.** A hashtag matches a prefix exactly if the prefix is empty or leads from the top of the hashtag down to some tag in it. -/
theorem prefix_match (t : Tag) (p : List Bytes) : t.prefixMatch p = true ↔ p = [] ∨ Walk t p := prefixMatch_iff t p

/-- **C87.** The flat tags are the paths down to the tags without subtags, in the written order. -/
theorem flat_leaves (t : Tag) : t.getFlatHashes false = t.leaves ∧ ∀ p, p ∈ t.leaves ↔ Ends t p := by
  refine ⟨?_, mem_leaves t⟩
  unfold getFlatHashes
  rw [flatAux_leaves]
  simp

/-- **C87.** The flat tags with the intermediate ones are the paths down to all tags. -/
theorem flat_walks (t : Tag) (p : List Bytes) : p ∈ t.getFlatHashes true ↔ Walk t p := by
  obtain ⟨⟨_, h2, h3, h4⟩, _⟩ := flatAux_step t [] []
  unfold getFlatHashes
  constructor
  · intro hp
    rcases h3 p hp with ⟨_, h⟩ | ⟨q, hq, rfl⟩
    · exact absurd rfl h
    · exact hq
  · intro hp
    rcases h4 p hp with h | h
    · exact h
    · rcases h2 _ h with h | h
      · cases h
      · exact h

/-- In full: each path is listed once. -/
def FlatOnceStatement : Prop := ∀ t : Tag, (t.getFlatHashes true).Nodup

/-- The code: `#a##[b, b##c]` is listed with `a##b` twice. -/
theorem flatOnce_false : ¬ FlatOnceStatement := by
  intro h
  have := h (.mk [97] [.mk [98] [], .mk [98] [.mk [99] []]])
  revert this
  simp [getFlatHashes, flatAux, flatSubs]

/-- When the subtags of each tag have different names, each path is listed once. -/
theorem flat_once_partial (t : Tag) (ht : Distinct t) : (t.getFlatHashes true).Nodup :=
  (flatAux_nodup t ht [] [] (by simp)).1

/-- `#a##[b##[c, d], e]` -/
def exTag : Tag := .mk [97] [.mk [98] [.mk [99] [], .mk [100] []], .mk [101] []]

example : exTag.getFlatHashes false = [[[97], [98], [99]], [[97], [98], [100]], [[97], [101]]] ∧
    exTag.getFlatHashes true = [[[97]], [[97], [98]], [[97], [98], [99]], [[97], [98], [100]], [[97], [101]]] ∧
    exTag.prefixMatch [[97], [98]] = true ∧ exTag.prefixMatch [[98]] = false := by
  simp [exTag, getFlatHashes, flatAux, flatSubs, prefixMatch, prefixAny]

example : Distinct exTag := by
  refine .mk _ _ (by decide) ?_
  intro t ht
  simp only [List.mem_cons, List.not_mem_nil, or_false] at ht
  rcases ht with rfl | rfl
  · refine .mk _ _ (by decide) ?_
    intro t ht
    simp only [List.mem_cons, List.not_mem_nil, or_false] at ht
    rcases ht with rfl | rfl <;> exact .mk _ _ (by decide) (by simp)
  · exact .mk _ _ (by decide) (by simp)

end Tag
end Verif.Api
