import Verif.Spec.Area
import Verif.Props.Cut
import Verif.Props.Single

/-!
# `Point.area` (C35), with exact arithmetic
-/

namespace Foronoi

open Real

/-- The area computed for a list of corners. -/
noncomputable def areaOf (l : List (ℝ × ℝ)) : ℝ := shoelace (l.map (·.1)) (l.map (·.2))

theorem foldl_fadd (l : List ℝ) (a : ℝ) : l.foldl Arith.fadd a = a + l.sum := by
  induction l generalizing a with
  | nil => simp
  | cons b l ih => rw [List.foldl_cons, ih, rFadd, List.sum_cons]; ring

theorem dotL_real (x y : List ℝ) : dotL x y = (List.zipWith (· * ·) x y).sum := by
  unfold dotL
  have e : (Arith.fmul : ℝ → ℝ → ℝ) = (· * ·) := by funext a b; exact rFmul a b
  have e0 : (lit 0 : ℝ) = 0 := by simp [lit, rI]
  rw [foldl_fadd, e, e0, zero_add]

theorem pathSum_append (l : List (ℝ × ℝ)) (a : ℝ × ℝ) (r : List (ℝ × ℝ)) :
    pathSum (l ++ a :: r) = pathSum (l ++ [a]) + pathSum (a :: r) := by
  induction l with
  | nil => simp [pathSum]
  | cons b l ih =>
    cases l with
    | nil => simp [pathSum]
    | cons c l =>
      simp only [List.cons_append, pathSum] at ih ⊢
      rw [ih]; ring

theorem pathSum_reverse (l : List (ℝ × ℝ)) : pathSum l.reverse = - pathSum l := by
  induction l with
  | nil => simp [pathSum]
  | cons a l ih =>
    cases l with
    | nil => simp [pathSum]
    | cons b l =>
      simp only [List.reverse_cons, List.append_assoc, List.cons_append, List.nil_append] at ih ⊢
      rw [pathSum_append, ih]
      simp only [pathSum, cross2]
      ring

theorem roll_sum (t : List (ℝ × ℝ)) : ∀ p : ℝ × ℝ,
    (List.zipWith (· * ·) (t.map (·.1)) (p.2 :: t.dropLast.map (·.2))).sum -
      (List.zipWith (· * ·) (t.map (·.2)) (p.1 :: t.dropLast.map (·.1))).sum = - pathSum (p :: t) := by
  induction t with
  | nil => intro p; simp [pathSum]
  | cons q t ih =>
    intro p
    cases t with
    | nil => simp [pathSum, cross2]; ring
    | cons r t =>
      have := ih q
      simp only [List.dropLast_cons₂, List.map_cons, List.zipWith_cons_cons, List.sum_cons, pathSum, cross2] at this ⊢
      linarith

theorem roll1_map {α β : Type} (f : α → β) (l : List α) : roll1 (l.map f) = (roll1 l).map f := by
  unfold roll1
  rw [List.getLast?_map]
  cases l.getLast? with
  | none => simp
  | some a => simp [List.map_dropLast]

theorem fabs_real (x : ℝ) : fabs x = |x| := by
  have := dabs_real x
  unfold dabs at this
  unfold fabs
  have e0 : (lit 0 : ℝ) = 0 := by simp [lit, rI]
  rw [← this, e0, rFsub, rNeg, zero_sub]

theorem areaOf_eq (l : List (ℝ × ℝ)) : areaOf l = |signed2 l| / 2 := by
  have e2 : (lit 2 : ℝ) = 2 := by simp [lit, rI]
  unfold areaOf shoelace
  rw [fabs_real, rFdiv, rFsub, dotL_real, dotL_real, e2, roll1_map, roll1_map]
  cases l with
  | nil => simp [signed2, roll1]
  | cons a t =>
    have hr : roll1 (a :: t) = (a :: t).getLast (by simp) :: (a :: t).dropLast := by
      unfold roll1; rw [List.getLast?_eq_getLast_of_ne_nil (by simp)]
    have hrs := roll_sum (a :: t) ((a :: t).getLast (by simp))
    rw [hr]
    have hm : ∀ (f : ℝ × ℝ → ℝ) (z : ℝ × ℝ) (m : List (ℝ × ℝ)), (z :: m).map f = f z :: m.map f := fun _ _ _ => rfl
    rw [hm (·.2) _ (a :: t).dropLast, hm (·.1) _ (a :: t).dropLast, hrs, abs_neg]
    congr 2
    have hs : (a :: t) = (a :: t).dropLast ++ [(a :: t).getLast (by simp)] := (List.dropLast_append_getLast _).symm
    generalize hz : (a :: t).getLast (by simp) = z at hs
    show pathSum (z :: a :: t) = pathSum ((a :: t) ++ [a])
    generalize hd : (a :: t).dropLast = d at hs
    rw [hs, List.append_assoc]
    show _ = pathSum (d ++ z :: [a])
    rw [pathSum_append, ← hs]
    simp only [pathSum]
    ring

theorem signed2_rotate (u v : List (ℝ × ℝ)) : signed2 (u ++ v) = signed2 (v ++ u) := by
  cases u with
  | nil => simp
  | cons a u =>
    cases v with
    | nil => simp
    | cons b v =>
      have e1 : signed2 ((a :: u) ++ b :: v) = pathSum ((a :: u) ++ b :: (v ++ [a])) := by simp [signed2]
      have e2 : signed2 ((b :: v) ++ a :: u) = pathSum ((b :: v) ++ a :: (u ++ [b])) := by simp [signed2]
      rw [e1, e2, pathSum_append, pathSum_append (b :: v)]
      simp only [List.cons_append]
      ring

theorem signed2_reverse (l : List (ℝ × ℝ)) : signed2 l.reverse = - signed2 l := by
  cases l with
  | nil => simp [signed2]
  | cons a l =>
    rw [List.reverse_cons, signed2_rotate]
    have : signed2 ([a] ++ l.reverse) = pathSum ((a :: l ++ [a]).reverse) := by simp [signed2]
    rw [this, pathSum_reverse]
    rfl

theorem pathSum_translate (c : ℝ × ℝ) (l : List (ℝ × ℝ)) (a b : ℝ × ℝ) :
    pathSum ((a :: l ++ [b]).map (fun p => (p.1 + c.1, p.2 + c.2))) = pathSum (a :: l ++ [b]) + c.1 * (b.2 - a.2) - c.2 * (b.1 - a.1) := by
  induction l generalizing a with
  | nil => simp [pathSum, cross2]; ring
  | cons q l ih =>
    have := ih q
    simp only [List.cons_append, List.map_cons, pathSum, cross2] at this ⊢
    rw [this]; ring

theorem pathSum_scale (k : ℝ) (l : List (ℝ × ℝ)) : pathSum (l.map (fun p => (k * p.1, k * p.2))) = k ^ 2 * pathSum l := by
  induction l with
  | nil => simp [pathSum]
  | cons a l ih =>
    cases l with
    | nil => simp [pathSum]
    | cons b l =>
      simp only [List.map_cons, pathSum, cross2] at ih ⊢
      rw [ih]; ring

/-- C35: the area is non-negative. -/
theorem C35_nonneg (x y : List ℝ) : 0 ≤ shoelace x y := by
  have e2 : (lit 2 : ℝ) = 2 := by simp [lit, rI]
  unfold shoelace
  rw [fabs_real, rFdiv, e2]
  positivity

/-- C35: it does not matter with which vertex the list starts, -/
theorem C35_rotate (u v : List (ℝ × ℝ)) : areaOf (u ++ v) = areaOf (v ++ u) := by
  rw [areaOf_eq, areaOf_eq, signed2_rotate]

/-- nor in which direction it is listed; -/
theorem C35_reverse (l : List (ℝ × ℝ)) : areaOf l.reverse = areaOf l := by
  rw [areaOf_eq, areaOf_eq, signed2_reverse, abs_neg]

/-- moving the polygon does not change the area; -/
theorem C35_translate (c : ℝ × ℝ) (l : List (ℝ × ℝ)) : areaOf (l.map (fun p => (p.1 + c.1, p.2 + c.2))) = areaOf l := by
  rw [areaOf_eq, areaOf_eq]
  cases l with
  | nil => simp
  | cons a l =>
    have e : signed2 ((a :: l).map (fun p => (p.1 + c.1, p.2 + c.2))) = pathSum ((a :: l ++ [a]).map (fun p => (p.1 + c.1, p.2 + c.2))) := by
      simp [signed2]
    rw [e, pathSum_translate]
    congr 2
    simp [signed2]

/-- scaling multiplies it by the square of the factor. -/
theorem C35_scale (k : ℝ) (l : List (ℝ × ℝ)) : areaOf (l.map (fun p => (k * p.1, k * p.2))) = k ^ 2 * areaOf l := by
  rw [areaOf_eq, areaOf_eq]
  cases l with
  | nil => simp [signed2]
  | cons a l =>
    have e : signed2 ((a :: l).map (fun p => (k * p.1, k * p.2))) = pathSum ((a :: l ++ [a]).map (fun p => (k * p.1, k * p.2))) := by
      simp [signed2]
    rw [e, pathSum_scale, abs_mul, abs_of_nonneg (sq_nonneg k)]
    show k ^ 2 * |signed2 (a :: l)| / 2 = _
    ring

/-- The area of a triangle is half the absolute determinant of two of its sides. -/
theorem C35_triangle (a b c : ℝ × ℝ) : areaOf [a, b, c] = |(b.1 - a.1) * (c.2 - a.2) - (b.2 - a.2) * (c.1 - a.1)| / 2 := by
  rw [areaOf_eq]
  congr 2
  simp [signed2, pathSum, cross2]
  ring

/-- The signed areas of the two parts add up when a polygon is cut from `a` to `b`. -/
theorem signed2_split (a b : ℝ × ℝ) (u v : List (ℝ × ℝ)) : signed2 (a :: u ++ b :: v) = signed2 (a :: u ++ [b]) + signed2 (a :: b :: v) := by
  have e1 : signed2 (a :: u ++ b :: v) = pathSum ((a :: u) ++ b :: (v ++ [a])) := by simp [signed2]
  have e2 : signed2 (a :: u ++ [b]) = pathSum ((a :: u) ++ b :: [a]) := by simp [signed2]
  have e3 : signed2 (a :: b :: v) = pathSum (a :: b :: (v ++ [a])) := by simp [signed2]
  rw [e1, e2, e3, pathSum_append, pathSum_append (a :: u) b [a]]
  simp only [pathSum, cross2]
  ring

/-- Cut into triangles from the first corner. -/
theorem signed2_fan (a : ℝ × ℝ) (l : List (ℝ × ℝ)) (h : l.IsChain (fun p q => 0 < rightOf a p q)) :
    signed2 (a :: l) = - 2 * fan a l := by
  induction l with
  | nil => simp [signed2, pathSum, cross2, fan]
  | cons p l ih =>
    cases l with
    | nil => simp [signed2, pathSum, cross2, fan]
    | cons q l =>
      rw [List.isChain_cons_cons] at h
      have := ih h.2
      have e : signed2 (a :: p :: q :: l) = signed2 [a, p, q] + signed2 (a :: q :: l) := signed2_split a q [p] l
      rw [e, this]
      have e3 : signed2 [a, p, q] = - rightOf a p q := by simp [signed2, pathSum, cross2, rightOf]; ring
      rw [e3, fan, abs_of_pos h.1]
      ring

theorem fan_nonneg (a : ℝ × ℝ) (l : List (ℝ × ℝ)) : 0 ≤ fan a l := by
  induction l with
  | nil => simp [fan]
  | cons p l ih =>
    cases l with
    | nil => simp [fan]
    | cons q l => rw [fan]; positivity

theorem convex_chain {a : ℝ × ℝ} {l : List (ℝ × ℝ)} (h : ClockwiseConvex (a :: l)) : l.IsChain (fun p q => 0 < rightOf a p q) := by
  rw [List.isChain_iff_getElem]
  intro i hi
  have := h.2 0 (i + 1) (i + 2) (by omega) (by omega) (by simp; omega)
  have hl : (a :: l).length = l.length + 1 := rfl
  have c0 : corner (a :: l) 0 = a := by simp [corner]
  have c1 : corner (a :: l) (i + 1) = l[i] := by
    unfold corner
    rw [Nat.mod_eq_of_lt (by omega)]
    simp [List.getD_eq_getElem?_getD, List.getElem?_eq_getElem (show i < l.length by omega)]
  have c2 : corner (a :: l) (i + 2) = l[i + 1] := by
    unfold corner
    rw [Nat.mod_eq_of_lt (by omega)]
    simp [List.getD_eq_getElem?_getD, List.getElem?_eq_getElem (show i + 1 < l.length by omega)]
  rw [c0, c1, c2] at this
  exact this

/-- C35: the area of a convex polygon is the sum of the areas of the triangles into which the diagonals from its first corner cut it. -/
theorem C35_convex {a : ℝ × ℝ} {l : List (ℝ × ℝ)} (h : ClockwiseConvex (a :: l)) : areaOf (a :: l) = fan a l := by
  rw [areaOf_eq, signed2_fan a l (convex_chain h), abs_mul, abs_of_nonneg (fan_nonneg a l)]
  norm_num

/-- C35: cutting a convex cell along a diagonal, the areas of the two parts add up. -/
theorem C35_split {a b : ℝ × ℝ} {u v : List (ℝ × ℝ)} (h : ClockwiseConvex (a :: u ++ b :: v)) :
    areaOf (a :: u ++ b :: v) = areaOf (a :: u ++ [b]) + areaOf (a :: b :: v) := by
  have hc := convex_chain (a := a) (l := u ++ b :: v) h
  have h1 : (u ++ [b]).IsChain (fun p q => 0 < rightOf a p q) := by
    have : u ++ b :: v = (u ++ [b]) ++ v := by simp
    rw [this] at hc
    exact hc.left_of_append
  have h2 : (b :: v).IsChain (fun p q => 0 < rightOf a p q) := hc.right_of_append
  have f1 := signed2_fan a _ h1
  have f2 := signed2_fan a _ h2
  rw [areaOf_eq, areaOf_eq, areaOf_eq, signed2_split, List.cons_append, f1, f2]
  have n1 := fan_nonneg a (u ++ [b])
  have n2 := fan_nonneg a (b :: v)
  rw [abs_of_nonpos (by linarith), abs_of_nonpos (by linarith), abs_of_nonpos (by linarith)]
  ring

/-- A square cut along a diagonal. -/
example : areaOf [(0, 1), (1, 1), (1, 0), (0, 0)] = areaOf [(0, 1), (1, 1), (1, 0)] + areaOf [(0, 1), (1, 0), (0, 0)] ∧
    areaOf [(0, 1), (1, 1), (1, 0), (0, 0)] = 1 := by
  constructor
  · refine C35_split (a := (0, 1)) (b := (1, 0)) (u := [(1, 1)]) (v := [(0, 0)]) ⟨by simp, ?_⟩
    intro i j k h1 h2 h3
    simp only [List.cons_append, List.nil_append, List.length_cons, List.length_nil] at h3
    obtain ⟨rfl, rfl, rfl⟩ | ⟨rfl, rfl, rfl⟩ | ⟨rfl, rfl, rfl⟩ | ⟨rfl, rfl, rfl⟩ :
        (i = 0 ∧ j = 1 ∧ k = 2) ∨ (i = 0 ∧ j = 1 ∧ k = 3) ∨ (i = 0 ∧ j = 2 ∧ k = 3) ∨ (i = 1 ∧ j = 2 ∧ k = 3) := by omega
    all_goals norm_num [corner, rightOf]
  · rw [areaOf_eq]; norm_num [signed2, pathSum, cross2, abs_of_neg]

/-! ### The method on the edge structure -/

theorem wp_getXY_go {E : Err → Prop} {d : Dcel ℝ} : ∀ (vs : List Nat) (ps : List (ℝ × ℝ)), vs.map (fun v => (d.vs v).pos) = ps.map some →
    Wp E (getXY.go (K := ℝ) vs) d (fun r d' => d' = d ∧ r = ps)
  | [], ps, h => by
    cases ps with
    | nil => simp [getXY.go, wp_pure]
    | cons p ps => simp at h
  | v :: vs, ps, h => by
    cases ps with
    | nil => simp at h
    | cons p ps =>
      rw [List.map_cons, List.map_cons, List.cons.injEq] at h
      simp only [getXY.go, wp_bind, wp_rdV, wp_deref]
      left
      refine ⟨p, h.1, ?_⟩
      refine wp_mono (wp_getXY_go vs ps h.2) ?_
      rintro r d' ⟨rfl, rfl⟩
      simp [wp_pure, rToF]

/-- `area()` is the area of the polygon formed by the positions of `vertices()`. -/
theorem C35_area {d : Dcel ℝ} {fuel p : Nat} {vs : List Nat} {ps : List (ℝ × ℝ)} (hv : cellVertices fuel p d = .ok (vs, d))
    (hp : vs.map (fun v => (d.vs v).pos) = ps.map some) : area fuel p d = .ok (areaOf ps, d) := by
  have hw : Wp (fun _ => False) (area (K := ℝ) fuel p) d (fun r d' => d' = d ∧ r = areaOf ps) := by
    unfold area getXY
    simp only [wp_bind]
    show Wp _ (cellVertices fuel p) d _
    unfold Wp
    rw [hv]
    show Wp _ (getXY.go vs) d _
    refine wp_mono (wp_getXY_go vs ps hp) ?_
    rintro r d' ⟨rfl, rfl⟩
    exact ⟨rfl, rfl⟩
  cases hr : area (K := ℝ) fuel p d with
  | error err => exact (hw.err hr).elim
  | ok x =>
    obtain ⟨a, d'⟩ := x
    obtain ⟨rfl, rfl⟩ := hw.ok hr
    rfl

variable {pts : Nat → ℝ × ℝ} {ok : List (QE ℝ) → Prop} {q : PQ (QE ℝ)} {poly : Poly ℝ} {s' : St ℝ} {fuel : Nat} {rz : Bool}

/-- C35 on a result: the cell of a single site in a bounding box has the area of the box. -/
theorem C35_single_box (hq : q.Spec evLt ok) {l r b t : ℝ} (hlr : l < r) (hbt : b < t) (hpoly : boundingBox l r b t = .ok poly)
    (h : createDiagram pts q 1 fuel poly rz (initSt poly) = .ok ((), s')) {fuel' : Nat} (hf : 4 ≤ fuel') :
    area fuel' 0 s'.d = .ok ((r - l) * (t - b), s'.d) := by
  have hbx := box_points hlr hbt
  rw [hpoly] at hbx
  have hps : poly.points = [(l, t), (r, t), (r, b), (l, b)] := by cases hbx; rfl
  obtain ⟨bs, vs, _, h2, _, _, _, h6, _⟩ := C32_single_site (l := [(l, t), (r, t), (r, b), (l, b)]) hq hpoly
    (fun _ => by
      refine ⟨?_, by simp⟩
      simp [Prod.ext_iff, hlr.ne, hbt.ne, hlr.ne', hbt.ne']) h (fuel' := fuel') (by simpa using hf)
  have := C35_area h2 h6
  rw [this, hps, areaOf_eq]
  congr 2
  have e : signed2 [(l, t), (r, t), (r, b), (l, b)] = - (2 * ((r - l) * (t - b))) := by
    simp [signed2, pathSum, cross2]; ring
  rw [e, abs_neg, abs_of_nonneg (by nlinarith)]
  ring

end Foronoi
