import Verif.Dir.Count
import Verif.Dir.Halt

/-!
# Parsing directories and files with includes: the properties
-/

namespace Verif.Dir

/-! ## A file system used in the examples -/

/-- a file system given by its directories with their entries, its symbolic links and its documents -/
def mkFS (dirs : List (Path × List Path)) (links : List (Path × Path)) (docs : List (Path × Option Node)) : FS where
  isDir p := dirs.any (·.1 == p)
  isLink p := links.any (·.1 == p)
  isFile p := docs.any (·.1 == p)
  resolve p := ((links.find? (·.1 == p)).map (·.2)).getD []
  entries p := ((dirs.find? (·.1 == p)).map (·.2)).getD []
  should _ := true
  parse p := (docs.find? (·.1 == p)).map (·.2)
  findInclude _ := none
  pathExists p := dirs.any (·.1 == p) || docs.any (·.1 == p)
  relative p _ := p
  absolute p := p

/-- a document with the given nodes -/
def doc (l : List Node) : Option Node := some (.mk (.other 0) l [])
/-- an include of a document -/
def inc (s : String) : Node := .mk (.incl s.toList .orgDocument) [] []
/-- a link to a file -/
def lnk (s : String) : Node := .mk (.link (some s.toList)) [] []

/-- `/d` with `a.org`, which includes `b.org`, with `b.org`, which includes `a.org`, and with a link to `/d` -/
def fsLoop : FS :=
  mkFS [("/d".toList, ["/d/a.org".toList, "/d/b.org".toList, "/d/l".toList])]
    [("/d/l".toList, "/d".toList)]
    [("/d/a.org".toList, doc [inc "b.org"]), ("/d/b.org".toList, doc [inc "a.org"])]

/-- the paths of a run that ended -/
def ran {α : Type} (r : Except Err (α × St)) : Option (List Path) :=
  match r with
  | .ok (_, st) => some st.parsed
  | .error _ => none

/-! ## Each path is parsed at most once -/

/-- **C106** one call of `parseDirectoryOpts` asks for the parse of a path at most once, and only for accepted plain
files with the extension of a document -/
theorem parse_once (fs : FS) (n : Nat) (root : Path) (r : Option Node) (st : St)
    (h : parseDirectory fs n root = .ok (r, st)) :
    st.parsed.Nodup ∧ ∀ p ∈ st.parsed, isDocument fs p = true := by
  obtain ⟨s, _⟩ := (steps n).1 _ _ _ _ _ h
  obtain ⟨new, e, d, f⟩ := s.par
  rw [List.append_nil] at e
  rw [e]
  exact ⟨d, fun p hp => (f p hp).2.2.1⟩

/-- a run over documents that include each other and a link back to the directory -/
example : ran (parseDirectory fsLoop 30 "/d".toList) = some ["/d/b.org".toList, "/d/a.org".toList] := by
  decide +kernel

/-- the same for `parseFileWithIncludes` -/
def parseFileOnceStatement : Prop :=
  ∀ (fs : FS) (n : Nat) (file : Path) (t : Node) (st : St),
    parseFileWithIncludes fs n file = .ok (t, st) → st.parsed.Nodup

/-- it fails: the file itself is parsed again when an include leads back to it -/
theorem parseFileOnce_false : ¬ parseFileOnceStatement := by
  intro h
  have hr : ran (parseFileWithIncludes fsLoop 30 "/d/a.org".toList) =
      some ["/d/a.org".toList, "/d/b.org".toList, "/d/a.org".toList] := by decide +kernel
  rcases hx : parseFileWithIncludes fsLoop 30 "/d/a.org".toList with e | ⟨t, st⟩
  · rw [hx] at hr; cases hr
  · have := h _ _ _ _ _ hx
    rw [hx] at hr
    injection hr with hr
    rw [hr] at this
    revert this
    decide

/-- **C106** for `parseFileWithIncludes`: each path at most once besides the first parse of the file itself -/
theorem parseFile_once_partial (fs : FS) (n : Nat) (file : Path) (t : Node) (st : St)
    (h : parseFileWithIncludes fs n file = .ok (t, st)) :
    ∃ new, st.parsed = new ++ [file] ∧ new.Nodup := by
  unfold parseFileWithIncludes at h
  have key : ∀ r, parseFile fs n file (parent file) ⟨[], []⟩ = .ok (r, st) →
      ∃ new, st.parsed = new ++ [file] ∧ new.Nodup := by
    intro r hr
    obtain ⟨s, _⟩ := (steps n).2.2.1 _ _ _ _ _ hr
    obtain ⟨new, e, d, _⟩ := s.par
    exact ⟨new, e, d⟩
  split at h
  · cases h
  · rename_i hr
    injection h with h; injection h with h1 h2; subst h2
    exact key _ hr
  · rename_i hr
    injection h with h; injection h with h1 h2; subst h2
    exact key _ hr

/-! ## Every reachable document is in the result, once -/

theorem reach_visited {fs : FS} {root : Path} {st : St} (h0 : root ∈ st.visited)
    (hc : ∀ p ∈ st.visited, ∀ q ∈ leadsTo fs p, q ∈ st.visited) {p : Path} (hp : Reach fs root p) :
    p ∈ st.visited := by
  induction hp with
  | root => exact h0
  | step _ hq ih => exact hc _ ih _ hq

/-- **C107** in the result of `parseDirectoryOpts` every document that is reachable from the root through directories
and symbolic links, and has content, is there as a `File` node with content exactly once, whatever other ways lead
to it; and no path occurs there more than once. -/
theorem reachable_once (fs : FS) (hpl : ∀ p d, fs.parse p = some (some d) → files d = []) (n : Nat) (root : Path)
    (r : Option Node) (st : St) (h : parseDirectory fs n root = .ok (r, st)) :
    (∀ p, Reach fs (fs.absolute root) p → isDocument fs p = true → hasContent fs p = true →
      (filesAll r.toList).count p = 1) ∧
    (∀ p, (filesAll r.toList).count p ≤ 1) := by
  obtain ⟨s, m⟩ := (steps n).1 _ _ _ _ _ h
  obtain ⟨nd, _⟩ := parse_once fs n root r st h
  have hcnt : ∀ p, (filesAll r.toList).count p = cnt fs p st := by
    intro p
    have := (counts hpl p n).1 _ _ _ _ _ h
    have h0 : cnt fs p ⟨[], []⟩ = 0 := by unfold cnt; split <;> rfl
    omega
  refine ⟨?_, ?_⟩
  · intro p hp hd hcont
    have hv := reach_visited (fs := fs) m (fun p hp q hq => s.closed p hp (by simp) q hq) hp
    have hpar := s.done p hv (by simp) hd
    rw [hcnt, cnt, if_pos hcont]
    have h1 := List.nodup_iff_count.1 nd p
    have h2 := List.count_pos_iff.2 hpar
    omega
  · intro p
    rw [hcnt, cnt]
    split
    · exact List.nodup_iff_count.1 nd p
    · omega

/-- what the example reaches -/
example : Reach fsLoop "/d".toList "/d/b.org".toList ∧ isDocument fsLoop "/d/b.org".toList = true ∧
    hasContent fsLoop "/d/b.org".toList = true :=
  ⟨.step .root (by decide +kernel), by decide +kernel, by decide +kernel⟩

/-- the documents of a run that ended -/
def found (r : Except Err (Option Node × St)) : Option (List Path) :=
  match r with
  | .ok (r, _) => some (filesAll r.toList)
  | .error _ => none

example : found (parseDirectory fsLoop 30 "/d".toList) = some ["/d/a.org".toList, "/d/b.org".toList] := by
  decide +kernel

/-! ## The call returns -/

/-- the call returns for every file system -/
def parseReturnsStatement : Prop := ∀ (fs : FS) (root : Path), ∃ r, Returns (fun n => parseDirectory fs n root) r

/-- drops the components `.` of a path -/
def norm : Path → Path
  | [] => []
  | '/' :: '.' :: '/' :: rest => norm ('/' :: rest)
  | ['/', '.'] => []
  | c :: rest => c :: norm rest
termination_by p => p.length

/-- the directory `/d` with the document `a.org`, which includes itself as `./a.org`; the component `.` means the
directory itself -/
def fsDot : FS where
  isDir p := norm p == "/d".toList
  isLink _ := false
  isFile p := norm p == "/d/a.org".toList
  resolve p := p
  entries p := [p ++ "/a.org".toList]
  should _ := true
  parse _ := some (doc [inc "./a.org"])
  findInclude _ := none
  pathExists p := norm p == "/d".toList || norm p == "/d/a.org".toList
  relative p _ := p
  absolute p := p

/-- `k` times `/.` -/
def dots : Nat → Path
  | 0 => []
  | k + 1 => '/' :: '.' :: dots k

theorem norm_dots (k : Nat) (rest : Path) : norm (dots k ++ '/' :: rest) = norm ('/' :: rest) := by
  induction k with
  | zero => rfl
  | succ k ih =>
    rcases hk : dots k ++ '/' :: rest with _ | ⟨c, l⟩
    · cases k <;> simp [dots] at hk
    · have hc : c = '/' := by cases k <;> simp [dots] at hk <;> exact hk.1.symm
      subst hc
      rw [dots, List.cons_append, List.cons_append, hk, norm, ← hk, ih]

theorem norm_dots_end (k : Nat) : norm (dots k) = [] := by
  induction k with
  | zero => simp [dots, norm]
  | succ k ih =>
    cases k with
    | zero => simp [dots, norm]
    | succ k => rw [dots, dots, norm]; exact ih

theorem norm_d (l : Path) : norm ('/' :: 'd' :: l) = '/' :: 'd' :: norm l := by
  rw [norm.eq_4 _ _ (by simp) (by simp), norm.eq_4 _ _ (by simp) (by simp)]

/-- the directory as the `k`-th include sees it -/
def dirK (k : Nat) : Path := '/' :: 'd' :: dots k
/-- the file as the `k`-th include sees it -/
def fileK (k : Nat) : Path := dirK k ++ "/a.org".toList

theorem norm_dirK (k : Nat) : norm (dirK k) = "/d".toList := by
  rw [dirK, norm_d, norm_dots_end]; rfl

theorem norm_fileK (k : Nat) : norm (fileK k) = "/d/a.org".toList := by
  have : fileK k = '/' :: 'd' :: (dots k ++ '/' :: "a.org".toList) := rfl
  rw [this, norm_d, norm_dots]
  decide +kernel

theorem dots_snoc (k : Nat) : dots (k + 1) = dots k ++ "/.".toList := by
  induction k with
  | zero => rfl
  | succ k ih =>
    show '/' :: '.' :: dots (k + 1) = ('/' :: '.' :: dots k) ++ "/.".toList
    rw [ih]; rfl

theorem dirK_last (k : Nat) : (dirK k).getLast? ≠ some '/' := by
  cases k with
  | zero => decide
  | succ k =>
    rw [dirK, dots_snoc]
    have : '/' :: 'd' :: (dots k ++ "/.".toList) = ('/' :: 'd' :: (dots k ++ "/".toList)) ++ ['.'] := by
      simp
    rw [this, List.getLast?_concat]
    decide

theorem parent_fileK (k : Nat) : parent (fileK k) = dirK k := by
  have hl := dirK_last k
  have hne : dirK k ≠ [] := by simp [dirK]
  obtain ⟨l, c, hlc⟩ : ∃ l c, dirK k = l ++ [c] := ⟨(dirK k).dropLast, (dirK k).getLast hne,
    (List.dropLast_concat_getLast hne).symm⟩
  have hc : c ≠ '/' := by
    rw [hlc, List.getLast?_concat] at hl
    exact fun hh => hl (by rw [hh])
  unfold parent
  have : (fileK k).reverse = "gro.a/".toList ++ (c :: l.reverse) := by
    rw [fileK, hlc]; simp
  rw [this]
  have h2 : List.dropWhile (fun x => x != '/') ("gro.a/".toList ++ (c :: l.reverse)) = '/' :: c :: l.reverse := by
    simp [List.dropWhile]
  rw [h2]
  have h3 : List.dropWhile (fun x => x == '/') ('/' :: c :: l.reverse) = c :: l.reverse := by
    have hcb : (c == '/') = false := by simp [hc]
    simp [List.dropWhile, hcb]
  rw [h3]
  have h4 : (c :: l.reverse).reverse = dirK k := by rw [hlc]; simp
  rw [h4]
  have : (dirK k).isEmpty = false := by simp [dirK]
  simp [this]

theorem join_dirK (k : Nat) : join (dirK k) "./a.org".toList = fileK (k + 1) := by
  have h1 : isAbsolute "./a.org".toList = false := by decide
  have h2 : (dirK k).isEmpty = false := by simp [dirK]
  have h3 : ((dirK k).getLast? == some '/') = false := by simpa using dirK_last k
  unfold join
  rw [h1, h2, h3]
  simp only [fileK, dirK, dots_snoc]
  simp

theorem fileK_length (k : Nat) : (fileK k).length = 2 * k + 8 := by
  have : ∀ k, (dots k).length = 2 * k := by
    intro k
    induction k with
    | zero => rfl
    | succ k ih => rw [dots]; simp [ih]; omega
  have h : fileK k = '/' :: 'd' :: (dots k ++ "/a.org".toList) := rfl
  rw [h]
  simp [this]

theorem isOrg_fileK (k : Nat) : isOrg (fileK k) = true := by
  have : fileK k = dirK k ++ '/' :: "a.org".toList := rfl
  have hf : filename (fileK k) = "a.org".toList := by
    rw [this]
    unfold filename
    rw [List.reverse_append]
    simp [List.takeWhile]
  unfold isOrg extension
  rw [hf]
  decide

theorem resolve_fileK (k : Nat) : resolvePath fsDot (parent (fileK k)) "./a.org".toList = .ok (some (fileK (k + 1))) := by
  rw [parent_fileK]
  unfold resolvePath
  have h1 : fsDot.isDir (dirK k) = true := by simp [fsDot, norm_dirK]
  have h2 : isAbsolute "./a.org".toList = false := by decide
  have h3 : fsDot.pathExists (fileK (k + 1)) = true := by simp [fsDot, norm_fileK]
  rw [if_pos h1, h2]
  simp only [Bool.false_eq_true, if_false, join_dirK, h3, Bool.not_true, if_true]

theorem dot_runs (n : Nat) : ∀ k root st, (∀ p ∈ st.visited, p.length < (fileK k).length) →
    parsePath fsDot n (fileK k) root st = .error .fuel := by
  induction n using Nat.strongRecOn with
  | _ n ih =>
    intro k root st hv
    match n with
    | 0 => rw [parsePath]
    | 1 =>
      have hnv : ¬ st.visited.contains (fileK k) = true := by
        intro hh
        have := hv _ (List.contains_iff_mem.1 hh)
        omega
      have h1 : ¬ (!fsDot.should (fileK k)) = true := by simp [fsDot]
      have h2 : ¬ fsDot.isLink (fileK k) = true := by simp [fsDot]
      have h3 : ¬ fsDot.isDir (fileK k) = true := by simp [fsDot, norm_fileK]
      have h4 : fsDot.isFile (fileK k) = true := by simp [fsDot, norm_fileK]
      rw [parsePath, if_neg hnv, if_neg h1, if_neg h2, if_neg h3, if_pos h4, if_pos (isOrg_fileK k), parseFile]
    | n + 2 =>
      have hnv : ¬ st.visited.contains (fileK k) = true := by
        intro hh
        have := hv _ (List.contains_iff_mem.1 hh)
        omega
      have h1 : ¬ (!fsDot.should (fileK k)) = true := by simp [fsDot]
      have h2 : ¬ fsDot.isLink (fileK k) = true := by simp [fsDot]
      have h3 : ¬ fsDot.isDir (fileK k) = true := by simp [fsDot, norm_fileK]
      have h4 : fsDot.isFile (fileK k) = true := by simp [fsDot, norm_fileK]
      have h5 : ¬ (!fsDot.isFile (fileK k)) = true := by simp [h4]
      have hp : fsDot.parse (fileK k) = some (doc [inc "./a.org"]) := rfl
      rw [parsePath, if_neg hnv, if_neg h1, if_neg h2, if_neg h3, if_pos h4, if_pos (isOrg_fileK k), parseFile,
        if_neg h5, hp]
      dsimp only [doc]
      have hinc : ∀ m, m < n → ∀ st', (∀ p ∈ st'.visited, p.length < (fileK (k + 1)).length) →
          visit fsDot m (fileK k) root (inc "./a.org") st' = .error .fuel := by
        intro m hm st' hst'
        match m with
        | 0 => rw [visit]
        | 1 => rw [visit]; simp [inc, Node.info, inclStep]
        | m + 2 =>
          rw [visit]
          simp only [inc, Node.info]
          rw [inclStep, resolve_fileK]
          dsimp only
          rw [ih m (by omega) (k + 1) root st' hst']
      have hst : ∀ p ∈ fileK k :: st.visited, p.length < (fileK (k + 1)).length := by
        intro p hp
        rw [fileK_length]
        rcases List.mem_cons.1 hp with rfl | hp
        · rw [fileK_length]; omega
        · have := hv p hp
          rw [fileK_length] at this; omega
      have hv1 : visit fsDot n (fileK k) root (.mk (.other 0) [inc "./a.org"] [])
          { visited := fileK k :: st.visited, parsed := fileK k :: st.parsed } = .error .fuel := by
        rcases n with _ | _ | n
        · rw [visit]
        · rw [visit]; simp [Node.info, visitAll]
        · rw [visit]
          simp only [Node.info, Node.subs]
          rw [visitAll, hinc n (by omega) _ hst]
      rw [hv1]

/-- it fails: a document that includes itself as `./a.org` is parsed again and again under ever longer names, because
the path is not normalised before it is compared with the visited ones -/
theorem parseReturns_false : ¬ parseReturnsStatement := by
  intro h
  obtain ⟨r, hr, n, hn⟩ := h fsDot "/d".toList
  apply hr
  have key : ∀ m, parsePath fsDot m "/d".toList "/d".toList ⟨[], []⟩ = .error .fuel := by
    intro m
    match m with
    | 0 => rw [parsePath]
    | 1 =>
      have hnv : ¬ (([] : List Path).contains "/d".toList = true) := by simp
      have h1 : ¬ (!fsDot.should "/d".toList) = true := by simp [fsDot]
      have h2 : ¬ fsDot.isLink "/d".toList = true := by simp [fsDot]
      have h3 : fsDot.isDir "/d".toList = true := by decide +kernel
      rw [parsePath, if_neg hnv, if_neg h1, if_neg h2, if_pos h3, parseAll]
    | m + 2 =>
      have hnv : ¬ (([] : List Path).contains "/d".toList = true) := by simp
      have h1 : ¬ (!fsDot.should "/d".toList) = true := by simp [fsDot]
      have h2 : ¬ fsDot.isLink "/d".toList = true := by simp [fsDot]
      have h3 : fsDot.isDir "/d".toList = true := by decide +kernel
      have h4 : fsDot.entries "/d".toList = [fileK 0] := rfl
      rw [parsePath, if_neg hnv, if_neg h1, if_neg h2, if_pos h3, h4, parseAll, dot_runs m 0]
      intro p hp
      rw [fileK_length]
      simp at hp
      subst hp
      decide
  have := hn n (Nat.le_refl n)
  rw [← this]
  exact key n

/-- **C108** `parseDirectoryOpts` returns, with a value or an error, when a finite set of paths contains the root, the
entries of its directories, the targets of its symbolic links, and every path that an include of one of its documents
resolves to from the directory of one of its documents: loops of symbolic links and of includes do not matter. -/
theorem parse_returns_partial (fs : FS) (S : List Path) (T : Path → Prop) (hc : Closed fs S T) (root : Path)
    (hroot : fs.absolute root ∈ S) : ∃ r, Returns (fun n => parseDirectory fs n root) r := by
  obtain ⟨n, hn⟩ := (halts hc (meas S ⟨[], []⟩ + 1) ⟨[], []⟩ (Nat.lt_succ_self _)).1 _ hroot root
  exact ⟨_, returns_of_ne (fun n => (mono n).1 _ _ _) hn⟩

/-- **C108** the same for `parseFileWithIncludes` -/
theorem parseFile_returns_partial (fs : FS) (S : List Path) (T : Path → Prop) (hc : Closed fs S T) (file : Path)
    (hfile : file ∈ S) : ∃ r, Returns (fun n => parseFileWithIncludes fs n file) r := by
  have hh : Halts fun n => parseFileWithIncludes fs n file := by
    by_cases hf : (!fs.isFile file) = true
    · exact ⟨1, by simp only [parseFileWithIncludes]; rw [parseFile, if_pos hf]; intro hh; cases hh⟩
    · rcases hp : fs.parse file with _ | _ | d
      · exact ⟨1, by simp only [parseFileWithIncludes]; rw [parseFile, if_neg hf, hp]; intro hh; cases hh⟩
      · exact ⟨1, by simp only [parseFileWithIncludes]; rw [parseFile, if_neg hf, hp]; intro hh; cases hh⟩
      · obtain ⟨n, hn⟩ := (halts hc (meas S ⟨[], [file]⟩ + 1) ⟨[], [file]⟩ (Nat.lt_succ_self _)).2 file hfile
          (parent file) d (hc.docs _ hfile _ hp)
        refine ⟨n + 1, ?_⟩
        simp only [parseFileWithIncludes]
        rw [parseFile, if_neg hf, hp]
        dsimp only at hn ⊢
        rcases hq : visit fs n file (parent file) d ⟨[], [file]⟩ with e | ⟨t, st⟩
        · rw [hq] at hn; intro hh; injection hh with hh; exact hn (by rw [hh])
        · simp
  obtain ⟨n, hn⟩ := hh
  refine ⟨_, returns_of_ne (fun n => ?_) hn⟩
  unfold parseFileWithIncludes
  rcases (mono (fs := fs) n).2.2.1 file (parent file) ⟨[], []⟩ with h | h
  · rw [h]; exact .inl rfl
  · rw [h]; exact .inr rfl

/-- the paths and include targets of the example -/
example : ∃ S T, Closed fsLoop S T ∧ fsLoop.absolute "/d".toList ∈ S := by
  refine ⟨["/d".toList, "/d/a.org".toList, "/d/b.org".toList, "/d/l".toList, []],
    fun t => t = "a.org".toList ∨ t = "b.org".toList, ⟨?_, ?_, ?_, ?_⟩, by decide +kernel⟩
  · decide +kernel
  · decide +kernel
  · intro p hp d hd x hx t ht
    simp only [List.mem_cons, List.not_mem_nil, or_false] at hp
    rcases hp with rfl | rfl | rfl | rfl | rfl
    · exact absurd hd (by simp [fsLoop, mkFS])
    · have : fsLoop.parse "/d/a.org".toList = some (doc [inc "b.org"]) := rfl
      rw [this] at hd
      injection hd with hd
      injection hd with hd
      subst hd
      simp [nodes, nodesAll, inc] at hx
      rcases hx with rfl | rfl <;> simp [Node.info] at ht
      exact .inr ht.symm
    · have : fsLoop.parse "/d/b.org".toList = some (doc [inc "a.org"]) := rfl
      rw [this] at hd
      injection hd with hd
      injection hd with hd
      subst hd
      simp [nodes, nodesAll, inc] at hx
      rcases hx with rfl | rfl <;> simp [Node.info] at ht
      exact .inl ht.symm
    · exact absurd hd (by simp [fsLoop, mkFS])
    · exact absurd hd (by simp [fsLoop, mkFS])
  · intro p hp t ht q hq
    have key : ∀ p ∈ (["/d".toList, "/d/a.org".toList, "/d/b.org".toList, "/d/l".toList, []] : List Path),
        ∀ t ∈ (["a.org".toList, "b.org".toList] : List Path),
        (match resolvePath fsLoop (parent p) t with
          | .ok (some q) => decide (q ∈ (["/d".toList, "/d/a.org".toList, "/d/b.org".toList, "/d/l".toList, []] : List Path))
          | _ => true) = true := by decide +kernel
    have := key p hp t (by simpa using ht)
    rw [hq] at this
    simpa using this

end Verif.Dir
