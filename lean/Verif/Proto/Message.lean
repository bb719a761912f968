import Verif.Proto.Lemmas

/-! # One message: what was written is read back -/

namespace Verif.Proto

theorem write_all (W : Codec → Val → Except Err Pb) (t : Ty) (fs : List (Fld × Val)) (ws : List Stmt)
    (hd : (ws.filterMap Stmt.pf).Nodup) (h : ∀ w ∈ ws, ∃ l, wStmt W t fs w = .ok l) :
    ∃ ls, ws.mapM (wStmt W t fs) = .ok ls ∧
      (∀ w ∈ ws, ∀ p l, w.pf = some p → wStmt W t fs w = .ok l → get ls.flatten p = get l p) ∧
      (∀ p, p ∉ ws.filterMap Stmt.pf → get ls.flatten p = none) := by
  induction ws with
  | nil => exact ⟨[], rfl, by simp, fun _ _ => rfl⟩
  | cons w ws ih =>
    obtain ⟨l, hl⟩ := h w (by simp)
    have hd' : (ws.filterMap Stmt.pf).Nodup := by
      rw [List.filterMap_cons] at hd
      split at hd
      · exact hd
      · exact (List.nodup_cons.1 hd).2
    obtain ⟨ls, h1, h2, h3⟩ := ih hd' fun w' hw' => h w' (by simp [hw'])
    refine ⟨l :: ls, ?_, ?_, ?_⟩
    · rw [List.mapM_cons, hl, h1]
      rfl
    · intro w' hw' p l' hp hl'
      rw [List.flatten_cons, get_append]
      rcases List.mem_cons.1 hw' with e | hw'
      · subst e
        rw [hl] at hl'
        injection hl' with hl'
        subst hl'
        have : get ls.flatten p = none := by
          apply h3
          rw [List.filterMap_cons, hp] at hd
          exact (List.nodup_cons.1 hd).1
        rw [this, Option.or_none]
      · have : get l p = none := by
          apply get_none_of_not_mem
          intro hm
          obtain ⟨e, he, rfl⟩ := List.mem_map.1 hm
          have hk := wStmt_keys W t fs w l hl e he
          rw [List.filterMap_cons, hk] at hd
          exact (List.nodup_cons.1 hd).1 (List.mem_filterMap.2 ⟨w', hw', hp⟩)
        rw [this, Option.none_or]
        exact h2 w' hw' p l' hp hl'
    · intro p hp
      rw [List.flatten_cons, get_append]
      have ha : get l p = none := by
        apply get_none_of_not_mem
        intro hm
        obtain ⟨e, he, rfl⟩ := List.mem_map.1 hm
        exact hp (List.mem_filterMap.2 ⟨w, by simp, wStmt_keys W t fs w l hl e he⟩)
      rw [ha, Option.none_or]
      apply h3
      intro hm
      obtain ⟨w', hw', hp'⟩ := List.mem_filterMap.1 hm
      exact hp (List.mem_filterMap.2 ⟨w', by simp [hw'], hp'⟩)

theorem read_all (R : Codec → Option Pb → Except Err Val) (msg : List (PF × Pb)) (ini : List (Fld × Val))
    (target : Fld → Val) (rs : List Stmt) (hd : (rs.filterMap Stmt.fld).Nodup)
    (h : ∀ r ∈ rs, ∃ f, r.fld = some f ∧ ∀ acc, acc.map (·.1) = ini.map (·.1) → get acc f = get ini f →
      rStmt R msg acc r = .ok (put acc f (target f)))
    (acc : List (Fld × Val)) (ha : acc.map (·.1) = ini.map (·.1))
    (hi : ∀ f ∈ rs.filterMap Stmt.fld, get acc f = get ini f) :
    ∃ acc', rs.foldlM (rStmt R msg) acc = .ok acc' ∧ acc'.map (·.1) = ini.map (·.1) ∧
      (∀ f ∈ rs.filterMap Stmt.fld, get acc' f = (get acc f).map fun _ => target f) ∧
      ∀ f, f ∉ rs.filterMap Stmt.fld → get acc' f = get acc f := by
  induction rs generalizing acc with
  | nil => exact ⟨acc, rfl, ha, by simp, fun _ _ => rfl⟩
  | cons r rs ih =>
    obtain ⟨f, hf, hr⟩ := h r (by simp)
    rw [List.filterMap_cons, hf] at hd hi ⊢
    simp only at hd hi ⊢
    have hd' := List.nodup_cons.1 hd
    have h1 := hr acc ha (hi f (by simp))
    obtain ⟨acc', h2, h3, h4, h5⟩ := ih hd'.2 (fun r' hr' => h r' (by simp [hr'])) (put acc f (target f))
      (by rw [put_names, ha]) (by
        intro g hg
        have : f ≠ g := by
          intro e
          subst e
          exact hd'.1 hg
        rw [get_put, if_neg this]
        exact hi g (by simp [hg]))
    refine ⟨acc', ?_, h3, ?_, ?_⟩
    · rw [List.foldlM_cons, h1]
      exact h2
    · intro g hg
      rcases List.mem_cons.1 hg with e | hg
      · subst e
        rw [h5 _ hd'.1, get_put, if_pos rfl]
      · have : f ≠ g := by
          intro e
          subst e
          exact hd'.1 hg
        rw [h4 g hg, get_put, if_neg this]
    · intro g hg
      have hg' := hg
      rw [List.mem_cons, not_or] at hg'
      rw [h5 g hg'.2, get_put, if_neg (Ne.symm hg'.1)]

/-- What is left of the members of an object of the class without the locations. -/
def unlocatedT (t : Ty) (fs : List (Fld × Val)) : List (Fld × Val) :=
  if isNode t then unlocatedN fs else unlocatedF fs

theorem unlocatedT_names (t : Ty) (fs : List (Fld × Val)) : (unlocatedT t fs).map (·.1) = fs.map (·.1) := by
  unfold unlocatedT
  split
  · rw [unlocatedN_eq]
    simp [List.map_map, Function.comp_def]
  · rw [unlocatedF_eq]
    simp [List.map_map, Function.comp_def]

theorem get_map {κ : Type} [DecidableEq κ] (l : List (κ × Val)) (g : κ → Val → Val) (k : κ) :
    get (l.map fun e => (e.1, g e.1 e.2)) k = (get l k).map (g k) := by
  induction l with
  | nil => rfl
  | cons e l ih =>
    obtain ⟨k', v⟩ := e
    rw [List.map_cons, get_cons, get_cons, ih]
    by_cases h : k' = k
    · subst h
      simp
    · simp [h]

theorem get_unlocatedT (t : Ty) (fs : List (Fld × Val)) (f : Fld) :
    get (unlocatedT t fs) f = (get fs f).map fun v => if isNode t = true ∧ f = .loc then .none else unlocated v := by
  unfold unlocatedT
  by_cases hn : isNode t = true
  · rw [if_pos hn, unlocatedN_eq, get_map fs (fun f v => if f = .loc then .none else unlocated v)]
    simp [hn]
  · rw [if_neg hn, unlocatedF_eq, get_map fs (fun _ v => unlocated v)]
    simp [hn]

theorem fresh_get (t : Ty) (hd : ((allMembers t).map (·.1)).Nodup) (f : Fld) (ty : FTy) (h : (f, ty) ∈ allMembers t) :
    get (fresh t) f = some (initial ty) := by
  apply get_of_mem
  · unfold fresh
    simpa [List.map_map, Function.comp_def] using hd
  · exact List.mem_map.2 ⟨_, h, rfl⟩

theorem msg_good (W : Codec → Val → Except Err Pb) (R : Codec → Option Pb → Except Err Val) (t : Ty) (ht : okTy t = true)
    (fs : List (Fld × Val)) (hn : fs.map (·.1) = (allMembers t).map (·.1))
    (hg : ∀ f ty v, (f, ty) ∈ allMembers t → (f, v) ∈ fs → Good W R ty v) :
    ∃ m, writeMsg W t fs = .ok (.msg m) ∧ readMsg R t (some (.msg m)) = .ok (unlocatedT t fs) := by
  unfold okTy at ht
  simp only [Bool.and_eq_true, decide_eq_true_eq, List.all_eq_true, Bool.or_eq_true, List.any_eq_true,
    Bool.not_eq_true'] at ht
  obtain ⟨⟨⟨⟨⟨hmem, hw⟩, hr⟩, hreads⟩, hwrites⟩, hall⟩ := ht
  have val : ∀ m ∈ allMembers t, ∃ v, get fs m.1 = some v ∧ Good W R m.2 v := by
    intro m hm
    obtain ⟨v, hv⟩ := get_isSome fs m.1 (by rw [hn]; exact List.mem_map.2 ⟨m, hm, rfl⟩)
    exact ⟨v, hv, hg m.1 m.2 v hm (get_mem _ _ _ hv)⟩
  obtain ⟨ls, h1, h2, h3⟩ := write_all W t fs (stmtsOf writes t) hw (by
    intro w hw'
    rcases hwrites w hw' with hk | ⟨m, hm, r, _, hr'⟩
    · cases w <;> simp at hk
      exact ⟨_, rfl⟩
    · obtain ⟨v, hv, hgv⟩ := val m hm
      obtain ⟨l, _, hl, _⟩ := stmt_good W R t fs m w r hr' v hv hgv
      exact ⟨l, hl⟩)
  have hnames : (fresh t).map (·.1) = (allMembers t).map (·.1) := by
    unfold fresh
    simp [List.map_map, Function.comp_def]
  obtain ⟨acc, h4, h5, h6, _⟩ := read_all R ls.flatten (fresh t)
    (fun f => ((get (unlocatedT t fs) f).getD .unset)) (stmtsOf reads t) hr (by
      intro r hr'
      rcases hreads r hr' with hl | ⟨m, hm, hloc, w, hw', ha⟩
      · unfold locOk at hl
        simp only [Bool.and_eq_true, decide_eq_true_eq] at hl
        obtain ⟨⟨⟨hnode, rfl⟩, hno⟩, hmemb⟩ := hl
        refine ⟨.loc, rfl, ?_⟩
        intro acc hnm hini
        have hgl := h3 .loc hno
        simp only [rStmt, hgl]
        rw [fresh_get t hmem _ _ hmemb] at hini
        obtain ⟨v, hv, _⟩ := val _ hmemb
        rw [get_unlocatedT, hv]
        simp only [hnode, and_self, if_true, Option.map_some, Option.getD_some]
        rw [put_self acc .loc .none (by rw [hnm, hnames]; exact hmem) hini]
      · obtain ⟨v, hv, hgv⟩ := val m hm
        obtain ⟨l, p, hl, hp, _, hf, hread⟩ := stmt_good W R t fs m w r ha v hv hgv
        refine ⟨m.1, hf, ?_⟩
        intro acc hnm hini
        rw [fresh_get t hmem m.1 m.2 hm] at hini
        rw [hread ls.flatten acc (h2 w hw' p l hp hl) (by rw [hnm, hnames]; exact hmem) hini, get_unlocatedT, hv]
        have : ¬ (isNode t = true ∧ m.1 = .loc) := by
          rintro ⟨e1, e2⟩
          rcases hloc with e | e
          · rw [e1] at e
            cases e
          · exact e e2
        rw [Option.map_some, Option.getD_some, if_neg this])
    (fresh t) rfl (fun _ _ => rfl)
  refine ⟨ls.flatten, ?_, ?_⟩
  · unfold writeMsg
    rw [h1]
    rfl
  · unfold readMsg
    show (stmtsOf reads t).foldlM (rStmt R ls.flatten) (fresh t) = _
    rw [h4]
    congr 1
    apply ext_get
    · rw [h5, hnames, unlocatedT_names, hn]
    · rw [h5, hnames]
      exact hmem
    · intro f hf
      rw [h5, hnames] at hf
      obtain ⟨m, hm, rfl⟩ := List.mem_map.1 hf
      obtain ⟨v, hv, _⟩ := val m hm
      have hrd := hall m hm
      obtain ⟨r, hr', e⟩ := List.mem_map.1 hrd
      rw [h6 m.1 (List.mem_filterMap.2 ⟨r, hr', e⟩), fresh_get t hmem m.1 m.2 hm, get_unlocatedT, hv]
      simp

end Verif.Proto
