import Verif.Geometry.Model
import Mathlib.Data.List.Induction
import Mathlib.Tactic.Ring
import Mathlib.Tactic.Linarith
import Mathlib.Tactic.NormNum
import Mathlib.Tactic.FieldSimp

/-!
# Boxes and paths

* **C191** `extend_partial` – a box that is extended by a point or by a box is the smallest that covers both, for coordinates that
  are integers of a size that `int` can hold; `extend_false` – otherwise it need not cover the point.
* **C192** `padding_back`, `padding_out`, `move_inside`, `scale_inside`, `center_box` – boxes that are padded, moved and scaled.
* **C193** `path_points`, `polyline_points`, `position_spec`, `position_scale`, `position_move_partial`, `position_polyline` – the points and the position at the end of a path, and of
  a path that is scaled or moved; `position_move_false` – of a path that does not begin with a point.
-/

namespace Verif.Geometry

/-! ## Specification -/

/-- A point in a box. -/
def Inside (p : Point) (r : Rect) : Prop := r.lo.x ≤ p.x ∧ p.x ≤ r.hi.x ∧ r.lo.y ≤ p.y ∧ p.y ≤ r.hi.y

/-- The smallest box with some points in it. -/
def Smallest (r : Rect) (ps : List Point) : Prop := (∀ p ∈ ps, Inside p r) ∧ ∀ s : Rect, (∀ p ∈ ps, Inside p s) → Inside r.lo s ∧ Inside r.hi s

/-- A coordinate that is an integer, of at most thirty bits. -/
def Whole (q : ℚ) : Prop := ∃ i : Int, q = i ∧ -1073741823 ≤ i ∧ i ≤ 1073741823

def WholePoint (p : Point) : Prop := Whole p.x ∧ Whole p.y

/-- The first corner is not after the second. -/
def Valid (r : Rect) : Prop := r.lo.x ≤ r.hi.x ∧ r.lo.y ≤ r.hi.y

/-! ## C191 -/

theorem cut_whole (i : Int) (h1 : -1073741823 ≤ i) (h2 : i ≤ 1073741823) : cut (i : ℚ) = some i := by
  unfold cut int?
  rw [show ((i : ℚ)).num = i from Rat.num_intCast i, show ((i : ℚ)).den = 1 from Rat.den_intCast i]
  simp only [Nat.cast_one, Int.tdiv_one]
  rw [if_pos (by omega)]

theorem whole_min {a b : ℚ} (ha : Whole a) (hb : Whole b) : Whole (min a b) := by
  rcases min_choice a b with h | h <;> rw [h] <;> assumption

theorem whole_max {a b : ℚ} (ha : Whole a) (hb : Whole b) : Whole (max a b) := by
  rcases max_choice a b with h | h <;> rw [h] <;> assumption

theorem extend_whole (r : Rect) (lo hi : Point) (h1 : WholePoint r.lo) (h2 : WholePoint r.hi) (h3 : WholePoint lo) (h4 : WholePoint hi) :
    r.extend lo hi = some ⟨⟨min r.lo.x lo.x, min r.lo.y lo.y⟩, ⟨max r.hi.x hi.x, max r.hi.y hi.y⟩⟩ := by
  obtain ⟨a, ea, a1, a2⟩ := whole_min h1.1 h3.1
  obtain ⟨b, eb, b1, b2⟩ := whole_max h2.1 h4.1
  obtain ⟨c, ec, c1, c2⟩ := whole_min h1.2 h3.2
  obtain ⟨d, ed, d1, d2⟩ := whole_max h2.2 h4.2
  unfold Rect.extend
  rw [ea, eb, ec, ed, cut_whole a a1 a2, cut_whole b b1 b2, cut_whole c c1 c2, cut_whole d d1 d2]
  have e1 : int? (b - a) = some (b - a) := by unfold int?; rw [if_pos (by omega)]
  have e2 : int? (d - c) = some (d - c) := by unfold int?; rw [if_pos (by omega)]
  simp only [Option.bind_eq_bind, Option.bind_some, e1, e2]
  unfold rect
  push_cast
  congr 3 <;> ring

/-- **C191** A box that is extended by a point is the smallest that covers both. -/
theorem extend_partial (r : Rect) (p : Point) (hv : Valid r) (h1 : WholePoint r.lo) (h2 : WholePoint r.hi) (h3 : WholePoint p) :
    ∃ r', r.extendPoint p = some r' ∧ Smallest r' [r.lo, r.hi, p] := by
  refine ⟨_, extend_whole r p p h1 h2 h3 h3, ?_, ?_⟩
  · intro q hq
    obtain ⟨v1, v2⟩ := hv
    simp only [List.mem_cons, List.not_mem_nil, or_false] at hq
    rcases hq with rfl | rfl | rfl
    · exact ⟨min_le_left _ _, le_max_of_le_left v1, min_le_left _ _, le_max_of_le_left v2⟩
    · exact ⟨min_le_of_left_le v1, le_max_left _ _, min_le_of_left_le v2, le_max_left _ _⟩
    · exact ⟨min_le_right _ _, le_max_right _ _, min_le_right _ _, le_max_right _ _⟩
  · intro s hs
    obtain ⟨a1, a2, a3, a4⟩ := hs r.lo (by simp)
    obtain ⟨b1, b2, b3, b4⟩ := hs r.hi (by simp)
    obtain ⟨c1, c2, c3, c4⟩ := hs p (by simp)
    exact ⟨⟨le_min a1 c1, min_le_of_left_le a2, le_min a3 c3, min_le_of_left_le a4⟩,
      ⟨le_max_of_le_left b1, max_le b2 c2, le_max_of_le_left b3, max_le b4 c4⟩⟩

/-- **C191** A box that is extended by a box is the smallest that covers both. -/
theorem extend_rect_partial (r t : Rect) (hv : Valid r) (hv' : Valid t) (h1 : WholePoint r.lo) (h2 : WholePoint r.hi) (h3 : WholePoint t.lo)
    (h4 : WholePoint t.hi) : ∃ r', r.extendRect t = some r' ∧ Smallest r' [r.lo, r.hi, t.lo, t.hi] := by
  refine ⟨_, extend_whole r t.lo t.hi h1 h2 h3 h4, ?_, ?_⟩
  · intro q hq
    obtain ⟨v1, v2⟩ := hv
    obtain ⟨w1, w2⟩ := hv'
    simp only [List.mem_cons, List.not_mem_nil, or_false] at hq
    rcases hq with rfl | rfl | rfl | rfl
    · exact ⟨min_le_left _ _, le_max_of_le_left v1, min_le_left _ _, le_max_of_le_left v2⟩
    · exact ⟨min_le_of_left_le v1, le_max_left _ _, min_le_of_left_le v2, le_max_left _ _⟩
    · exact ⟨min_le_right _ _, le_max_of_le_right w1, min_le_right _ _, le_max_of_le_right w2⟩
    · exact ⟨min_le_of_right_le w1, le_max_right _ _, min_le_of_right_le w2, le_max_right _ _⟩
  · intro s hs
    obtain ⟨a1, a2, a3, a4⟩ := hs r.lo (by simp)
    obtain ⟨b1, b2, b3, b4⟩ := hs r.hi (by simp)
    obtain ⟨c1, c2, c3, c4⟩ := hs t.lo (by simp)
    obtain ⟨d1, d2, d3, d4⟩ := hs t.hi (by simp)
    exact ⟨⟨le_min a1 c1, min_le_of_left_le a2, le_min a3 c3, min_le_of_left_le a4⟩,
      ⟨le_max_of_le_left b1, max_le b2 d2, le_max_of_le_left b3, max_le b4 d4⟩⟩

/-- **C191**, the property: a point is in the box that was extended by it. -/
def ExtendStatement : Prop := ∀ (r r' : Rect) (p : Point), Valid r → r.extendPoint p = some r' → Inside p r'

/-- The coordinates are cut to integers. -/
theorem extend_false : ¬ ExtendStatement := by
  intro h
  have e : (Rect.mk ⟨0, 0⟩ ⟨0, 0⟩).extendPoint ⟨1/2, 0⟩ = some ⟨⟨0, 0⟩, ⟨0, 0⟩⟩ := by decide +kernel
  have := (h _ _ _ ⟨le_refl _, le_refl _⟩ e).2.1
  norm_num at this

example : ∃ r', (Rect.mk ⟨0, 0⟩ ⟨2, 3⟩).extendPoint ⟨-5, 7⟩ = some r' ∧ r' = ⟨⟨-5, 0⟩, ⟨2, 7⟩⟩ := ⟨_, rfl, by decide +kernel⟩

/-! ## C192 -/

/-- **C192** The inner padding takes back the outer one. -/
theorem padding_back (r : Rect) (p : Padding) : (r.outer p).inner p = r := by
  unfold Rect.outer Rect.inner rect Rect.width Rect.height
  obtain ⟨⟨a, b⟩, ⟨c, d⟩⟩ := r
  dsimp only
  congr 2 <;> ring

/-- **C192** A box with padding around it has its sides that much further out. -/
theorem padding_out (r : Rect) (p : Padding) :
    (r.outer p).lo.x + p.left = r.lo.x ∧ (r.outer p).lo.y + p.top = r.lo.y ∧ r.hi.x + p.right = (r.outer p).hi.x ∧ r.hi.y + p.bottom = (r.outer p).hi.y := by
  unfold Rect.outer rect Rect.width Rect.height
  dsimp only
  refine ⟨?_, ?_, ?_, ?_⟩ <;> ring

/-- **C192** Points in a box that is moved are those of the box, moved. -/
theorem move_inside (r : Rect) (d p : Point) : Inside ⟨p.x + d.x, p.y + d.y⟩ (r.move d) ↔ Inside p r := by
  unfold Inside Rect.move rect Rect.width Rect.height Point.add
  dsimp only
  constructor <;> rintro ⟨h1, h2, h3, h4⟩ <;> refine ⟨?_, ?_, ?_, ?_⟩ <;> linarith

/-- **C192** Points in a box that is scaled are those of the box, scaled; dividing takes it back. -/
theorem scale_inside (r : Rect) (v : ℚ) (hv : 0 < v) (p : Point) : (Inside ⟨p.x * v, p.y * v⟩ (r.scale v) ↔ Inside p r) ∧ (r.scale v).div v = r := by
  constructor
  · unfold Inside Rect.scale rect Rect.width Rect.height
    dsimp only
    rw [show r.lo.x * v + (r.hi.x - r.lo.x) * v = r.hi.x * v by ring, show r.lo.y * v + (r.hi.y - r.lo.y) * v = r.hi.y * v by ring]
    rw [mul_le_mul_iff_left₀ hv, mul_le_mul_iff_left₀ hv, mul_le_mul_iff_left₀ hv, mul_le_mul_iff_left₀ hv]
  · have hne : v ≠ 0 := ne_of_gt hv
    unfold Rect.scale Rect.div rect Rect.width Rect.height
    obtain ⟨⟨a, b⟩, ⟨c, d⟩⟩ := r
    dsimp only
    congr 2 <;> field_simp <;> ring

/-- **C192** A box around a center has that center, and the size that was given. -/
theorem center_box (c : Point) (w h : ℚ) : (fromCenter c w h).center = c ∧ (fromCenter c w h).width = w ∧ (fromCenter c w h).height = h := by
  unfold fromCenter Rect.center rect Rect.width Rect.height
  obtain ⟨a, b⟩ := c
  dsimp only
  refine ⟨?_, ?_, ?_⟩
  · congr 1 <;> ring
  · ring
  · ring

/-! ## C193 -/

/-- Where a command ends, and whether a subpath begins there. -/
inductive Ends : Command → Bool → Point → Prop
  | move (p : Point) : Ends (.moveTo p) true p
  | line (p : Point) : Ends (.lineTo p) false p
  | quad (c p : Point) : Ends (.quadTo c p) false p
  | cubic (c d p : Point) : Ends (.cubicTo c d p) false p

/-- The last begin of a subpath, or the origin. -/
inductive Began : List Command → Point → Prop
  | none : Began [] ⟨0, 0⟩
  | here (cs : List Command) (p : Point) : Began (cs ++ [.moveTo p]) p
  | before (cs : List Command) (c : Command) (p : Point) : (∀ q, c ≠ .moveTo q) → Began cs p → Began (cs ++ [c]) p

/-- The position after a path: the end of the last command, or the begin of the subpath if that closes it. -/
inductive At : List Command → Point → Prop
  | none : At [] ⟨0, 0⟩
  | ends (cs : List Command) (c : Command) (b : Bool) (p : Point) : Ends c b p → At (cs ++ [c]) p
  | close (cs : List Command) (p : Point) : Began cs p → At (cs ++ [.close]) p

/-- The state after a path. -/
def pen (p : List Command) : Pen := p.foldl Pen.step ⟨⟨0, 0⟩, ⟨0, 0⟩, false⟩

theorem pen_append (p : List Command) (c : Command) : pen (p ++ [c]) = (pen p).step c := by simp [pen, List.foldl_append]

theorem pen_fresh (p : List Command) (h : (pen p).have? = false) : (pen p).current = ⟨0, 0⟩ ∧ (pen p).start = ⟨0, 0⟩ := by
  induction p using List.reverseRecOn with
  | nil => exact ⟨rfl, rfl⟩
  | append_singleton p c ih =>
    rw [pen_append] at h ⊢
    cases c with
    | close =>
      unfold Pen.step at h ⊢
      dsimp only at h ⊢
      split_ifs at h ⊢ with hh
      · exact absurd h (by simp [hh])
      · exact ih (by simpa using hh)
    | _ => simp [Pen.step] at h

theorem pen_began (p : List Command) : Began p (pen p).start := by
  induction p using List.reverseRecOn with
  | nil => exact .none
  | append_singleton p c ih =>
    rw [pen_append]
    cases c with
    | moveTo q => exact .here p q
    | lineTo q => exact .before p _ _ (by simp) ih
    | quadTo a q => exact .before p _ _ (by simp) ih
    | cubicTo a b q => exact .before p _ _ (by simp) ih
    | close =>
      refine .before p _ _ (by simp) ?_
      unfold Pen.step
      dsimp only
      split_ifs <;> exact ih

/-- **C193** The position of a path. -/
theorem position_spec (p : List Command) : At p (position p) := by
  induction p using List.reverseRecOn with
  | nil => exact .none
  | append_singleton p c ih =>
    show At _ (pen (p ++ [c])).current
    rw [pen_append]
    cases c with
    | moveTo q => exact .ends p _ _ _ (.move q)
    | lineTo q => exact .ends p _ _ _ (.line q)
    | quadTo a q => exact .ends p _ _ _ (.quad a q)
    | cubicTo a b q => exact .ends p _ _ _ (.cubic a b q)
    | close =>
      refine .close p _ ?_
      have hb := pen_began p
      unfold Pen.step
      dsimp only
      split_ifs with hh
      · exact hb
      · obtain ⟨h1, h2⟩ := pen_fresh p (by simpa using hh)
        rw [h1, ← h2]
        exact hb

theorem step_map (f : Point → Point) (s : Pen) (c : Command) :
    Pen.step ⟨f s.current, f s.start, s.have?⟩ (c.map f) = ⟨f (s.step c).current, f (s.step c).start, (s.step c).have?⟩ := by
  cases c with
  | close =>
    unfold Pen.step Command.map
    dsimp only
    split_ifs <;> rfl
  | _ => rfl

theorem fold_map (f : Point → Point) (p : List Command) (s : Pen) :
    (p.map (Command.map f)).foldl Pen.step ⟨f s.current, f s.start, s.have?⟩ =
      ⟨f (p.foldl Pen.step s).current, f (p.foldl Pen.step s).start, (p.foldl Pen.step s).have?⟩ := by
  induction p generalizing s with
  | nil => rfl
  | cons c p ih =>
    simp only [List.map_cons, List.foldl_cons]
    rw [step_map]
    exact ih (s.step c)

/-- **C193** The position of a path that is scaled is the position, scaled; the same for dividing. -/
theorem position_scale (p : List Command) (v : ℚ) : position (scalePath p v) = ⟨(position p).x * v, (position p).y * v⟩ ∧
    position (divPath p v) = ⟨(position p).x / v, (position p).y / v⟩ := by
  constructor
  · have := fold_map (fun q => q.scale v) p ⟨⟨0, 0⟩, ⟨0, 0⟩, false⟩
    simp only [Point.scale, zero_mul] at this
    unfold position scalePath Point.scale
    rw [this]
  · have := fold_map (fun q => q.div v) p ⟨⟨0, 0⟩, ⟨0, 0⟩, false⟩
    simp only [Point.div, zero_div] at this
    unfold position divPath Point.div
    rw [this]

/-- **C193** The position of a path that is moved is the position, moved, if the path begins with a point. -/
theorem position_move_partial (a : Point) (p : List Command) (d : Point) :
    position (addPath (.moveTo a :: p) d) = ⟨(position (.moveTo a :: p)).x + d.x, (position (.moveTo a :: p)).y + d.y⟩ ∧
      position (subPath (.moveTo a :: p) d) = ⟨(position (.moveTo a :: p)).x - d.x, (position (.moveTo a :: p)).y - d.y⟩ := by
  constructor
  · have := fold_map (fun q => q.add d) p ⟨a, a, true⟩
    unfold position addPath
    rw [List.map_cons, List.foldl_cons, List.foldl_cons]
    exact congrArg Pen.current this
  · have := fold_map (fun q => q.sub d) p ⟨a, a, true⟩
    unfold position subPath
    rw [List.map_cons, List.foldl_cons, List.foldl_cons]
    exact congrArg Pen.current this

/-- **C193**, the property of paths that are moved. -/
def MoveStatement : Prop := ∀ (p : List Command) (d : Point), p ≠ [] → position (addPath p d) = (position p).add d

/-- A subpath that begins with a line begins at the origin, and that is not moved. -/
theorem position_move_false : ¬ MoveStatement := by
  intro h
  have := h [.lineTo ⟨1, 1⟩, .close] ⟨5, 5⟩ (by simp)
  revert this
  decide +kernel

/-- **C193** After a line through points the position is the last of them, whatever the path was. -/
theorem position_polyline (p : List Command) (ps : List Point) (a : Point) : position (polyline p (ps ++ [a])) = a := by
  cases ps with
  | nil =>
    show (pen (p ++ [.moveTo a])).current = a
    rw [pen_append]
    rfl
  | cons b ps =>
    have : polyline p ((b :: ps) ++ [a]) = (p ++ .moveTo b :: ps.map .lineTo) ++ [.lineTo a] := by simp [polyline]
    rw [this]
    show (pen _).current = a
    rw [pen_append]
    rfl

/-- The points of a command, in order, and its kind. -/
def points : Command → Nat × List Point
  | .moveTo p => (0, [p])
  | .lineTo p => (1, [p])
  | .quadTo c p => (2, [c, p])
  | .cubicTo c d p => (3, [c, d, p])
  | .close => (4, [])

/-- **C193** Moving and scaling a path moves and scales all its points, and changes nothing else. -/
theorem path_points (p : List Command) (d : Point) (v : ℚ) (i : Nat) :
    (addPath p d)[i]?.map points = p[i]?.map (fun c => ((points c).1, (points c).2.map fun q => (⟨q.x + d.x, q.y + d.y⟩ : Point))) ∧
    (subPath p d)[i]?.map points = p[i]?.map (fun c => ((points c).1, (points c).2.map fun q => (⟨q.x - d.x, q.y - d.y⟩ : Point))) ∧
    (scalePath p v)[i]?.map points = p[i]?.map (fun c => ((points c).1, (points c).2.map fun q => (⟨q.x * v, q.y * v⟩ : Point))) ∧
    (divPath p v)[i]?.map points = p[i]?.map (fun c => ((points c).1, (points c).2.map fun q => (⟨q.x / v, q.y / v⟩ : Point))) := by
  refine ⟨?_, ?_, ?_, ?_⟩
  · unfold addPath; rw [List.getElem?_map]; cases p[i]? with
    | none => rfl
    | some c => cases c <;> rfl
  · unfold subPath; rw [List.getElem?_map]; cases p[i]? with
    | none => rfl
    | some c => cases c <;> rfl
  · unfold scalePath; rw [List.getElem?_map]; cases p[i]? with
    | none => rfl
    | some c => cases c <;> rfl
  · unfold divPath; rw [List.getElem?_map]; cases p[i]? with
    | none => rfl
    | some c => cases c <;> rfl

/-- **C193** A line through points keeps the path before, moves to the first point and draws lines to the others. -/
theorem polyline_points (p : List Command) (ps : List Point) :
    (polyline p ps).take p.length = p ∧ ∀ i, (polyline p ps)[p.length + i]?.map points = ps[i]?.map fun q => (if i = 0 then 0 else 1, [q]) := by
  cases ps with
  | nil => exact ⟨by simp [polyline], fun i => by simp [polyline]⟩
  | cons a ps =>
    refine ⟨by simp [polyline], fun i => ?_⟩
    unfold polyline
    rw [List.getElem?_append_right (by omega), Nat.add_sub_cancel_left]
    cases i with
    | zero => rfl
    | succ i =>
      rw [List.getElem?_cons_succ, List.getElem?_cons_succ, List.getElem?_map, Option.map_map]
      rfl

example : position [.moveTo ⟨1, 1⟩, .lineTo ⟨2, 3⟩, .quadTo ⟨0, 0⟩ ⟨4, 4⟩, .close] = ⟨1, 1⟩ := by decide +kernel

end Verif.Geometry
