import Verif.Props.FinalVertices
import Mathlib.Analysis.Convex.Extreme

/-!
# C89: `Site.vertices` lists the corners of the cell clockwise
-/

namespace Foronoi

open scoped List

variable {pts : Nat → ℝ × ℝ} {q : PQ (QE ℝ)} {ok : List (QE ℝ) → Prop} {n : Nat} {poly : Poly ℝ} {s s1 s2 s' : St ℝ} {vs : List Nat} {V : Nat → Nat}
  {cell fuel : Nat} {rz : Bool} {z : Pt}

/-! ### extreme points -/

/-- Not between two other points of the set. -/
def Extr (S : Set Pt) (z : Pt) : Prop := z ∈ S ∧ ∀ x ∈ S, ∀ y ∈ S, ∀ t : ℝ, 0 < t → t < 1 → z = along x y t → x = y

theorem along_self (x : Pt) (t : ℝ) : along x x t = x := Prod.ext (by simp only [along]; ring) (by simp only [along]; ring)

theorem extr_iff {S : Set Pt} : z ∈ Set.extremePoints ℝ S ↔ Extr S z := by
  rw [mem_extremePoints]
  refine and_congr_right fun _ => ?_
  constructor
  · intro h x hx y hy t h0 h1 e
    obtain ⟨rfl, rfl⟩ := h x hx y hy ⟨1 - t, t, by linarith, h0, by ring, by rw [e]; exact Prod.ext (by simp [along]) (by simp [along])⟩
    rfl
  · rintro h x hx y hy ⟨a, b, ha, hb, hab, e⟩
    have e' : z = along x y b := by
      rw [← e, show a = 1 - b by linarith]
      exact Prod.ext (by simp [along]) (by simp [along])
    have := h x hx y hy b hb (by linarith) e'
    subst this
    rw [along_self] at e'
    exact ⟨e'.symm, e'.symm⟩

/-- A function that is zero between two points where it is not negative is zero at both. -/
theorem zero_ends {a b t : ℝ} (h0 : 0 < t) (h1 : t < 1) (ha : 0 ≤ a) (hb : 0 ≤ b) (h : (1 - t) * a + t * b = 0) : a = 0 ∧ b = 0 := by
  have k1 := mul_nonneg (by linarith : 0 ≤ 1 - t) ha
  have k2 := mul_nonneg h0.le hb
  constructor
  · have : (1 - t) * a = 0 := by linarith
    rcases mul_eq_zero.mp this with h | h
    · linarith
    · exact h
  · have : t * b = 0 := by linarith
    rcases mul_eq_zero.mp this with h | h
    · linarith
    · exact h

theorem corner_addlen (l : List Pt) (i : Nat) : corner l (i + l.length) = corner l i := by
  unfold corner; rw [Nat.add_mod_right]

/-- Two sides of a convex polygon that meet at a corner have only the corner in common. -/
theorem corner_extreme {l : List Pt} (hc : ClockwiseConvex l) {x y : Pt} {t : ℝ} (hz : z ∈ l) (hx : InClosed l x) (hy : InClosed l y) (h0 : 0 < t) (h1 : t < 1)
    (e : z = along x y t) : x = y := by
  obtain ⟨k, hk, hke⟩ := List.getElem_of_mem hz
  have h3 := hc.1
  have hz' : corner l k = z := by rw [corner_eq hk, hke]
  -- the side that ends at the corner
  obtain ⟨k', hk', hkk, hne⟩ : ∃ k' < l.length, corner l (k' + 1) = z ∧ 0 < rightOf (corner l k') (corner l k) (corner l (k + 1)) := by
    rcases Nat.eq_zero_or_pos k with h | h
    · subst h
      refine ⟨l.length - 1, by omega, ?_, ?_⟩
      · rw [show l.length - 1 + 1 = 0 + l.length by omega, corner_addlen, hz']
      · have := hc.2 0 1 (l.length - 1) (by omega) (by omega) (by omega)
        unfold rightOf at this ⊢
        linarith
    · refine ⟨k - 1, by omega, by rw [show k - 1 + 1 = k by omega, hz'], ?_⟩
      rcases Nat.lt_or_ge (k + 1) l.length with h2 | h2
      · exact hc.2 (k - 1) k (k + 1) (by omega) (by omega) h2
      · have e1 : corner l (k + 1) = corner l 0 := by rw [show k + 1 = 0 + l.length by omega, corner_addlen]
        rw [e1]
        have := hc.2 0 (k - 1) k (by omega) (by omega) hk
        unfold rightOf at this ⊢
        linarith
  have side : ∀ i < l.length, rightOf (corner l i) (corner l (i + 1)) z = 0 → rightOf (corner l i) (corner l (i + 1)) x = 0 ∧ rightOf (corner l i) (corner l (i + 1)) y = 0 := by
    intro i hi hh
    rw [e, along_rightOf] at hh
    exact zero_ends h0 h1 (hx i hi) (hy i hi) hh
  obtain ⟨a1, a2⟩ := side k hk (by rw [hz']; unfold rightOf; ring)
  obtain ⟨b1, b2⟩ := side k' hk' (by rw [hkk]; unfold rightOf; ring)
  rw [hkk] at b1 b2
  rw [hz'] at a1 a2 hne
  obtain ⟨u, hu⟩ : ∃ u, u = corner l (k + 1) := ⟨_, rfl⟩
  obtain ⟨w, hw⟩ : ∃ w, w = corner l k' := ⟨_, rfl⟩
  rw [← hu] at a1 a2 hne
  rw [← hw] at b1 b2 hne
  unfold rightOf at a1 a2 b1 b2 hne
  have hD : (z.2 - w.2) * (u.1 - w.1) - (z.1 - w.1) * (u.2 - w.2) ≠ 0 := hne.ne'
  refine Prod.ext ?_ ?_ <;> refine mul_left_cancel₀ hD ?_
  · linear_combination (u.1 - z.1) * (b1 - b2) - (z.1 - w.1) * (a1 - a2)
  · linear_combination (u.2 - z.2) * (b1 - b2) - (z.2 - w.2) * (a1 - a2)

/-- The vertices of the diagram in a cell are not between other points of the cell. -/
theorem vertex_extreme (hF : FitsCorners pts n poly) (hd : Distinct pts n) {p : Nat} (hz : DiagramVertex pts n poly z) (hc : InCell pts n poly p z) :
    Extr {z | InCell pts n poly p z} z := by
  refine ⟨hc, fun x hx y hy t h0 h1 e => ?_⟩
  have hP := hF.toFitsPolygon
  have eqd : ∀ o, Nearest pts n o z → dsq (pts o) x = dsq (pts p) x ∧ dsq (pts o) y = dsq (pts p) y := by
    intro o ho
    have hh : dsq (pts o) z - dsq (pts p) z = 0 := sub_eq_zero.mpr (ho.eq hc.2)
    rw [e, along_diff] at hh
    have := zero_ends h0 h1 (sub_nonneg.mpr (hx.2.2 o ho.1)) (sub_nonneg.mpr (hy.2.2 o ho.1)) hh
    exact ⟨sub_eq_zero.mp this.1, sub_eq_zero.mp this.2⟩
  rcases hz with hz | ⟨hb, a, b, hab, ha, hb'⟩ | ⟨_, a, b, c, hab, hbc, hac, ha, hb, hc'⟩
  · exact corner_extreme hP.convex hz hx.1 hy.1 h0 h1 e
  · obtain ⟨o, hop, ho⟩ : ∃ o, o ≠ p ∧ Nearest pts n o z := by
      by_cases h : a = p
      · exact ⟨b, fun hh => hab (h.trans hh.symm), hb'⟩
      · exact ⟨a, h, ha⟩
    by_contra hxy
    obtain ⟨i, hi, hside⟩ := id hb
    have hzero : rightOf (corner poly.points i) (corner poly.points (i + 1)) z = 0 := by
      obtain ⟨u, _, _, rfl⟩ := hside
      unfold rightOf; ring
    rw [e, along_rightOf] at hzero
    obtain ⟨r1, r2⟩ := zero_ends h0 h1 (hx.1 i hi) (hy.1 i hi) hzero
    obtain ⟨d1, d2⟩ := eqd o ho
    have hne : pts p ≠ pts o := fun hh => hop (hd p hc.2.1 o ho.1 hh).symm
    obtain ⟨u, u1, u2⟩ := hF.touch p o z hop.symm hb hc.2 ho
    have u2 : dsq (pts p) u = dsq (pts o) u := u2
    have hu := u1 i hi
    obtain ⟨A, hA⟩ : ∃ A, A = corner poly.points i := ⟨_, rfl⟩
    obtain ⟨B, hB⟩ : ∃ B, B = corner poly.points (i + 1) := ⟨_, rfl⟩
    obtain ⟨P, hP⟩ : ∃ P, P = pts p := ⟨_, rfl⟩
    obtain ⟨O, hO⟩ : ∃ O, O = pts o := ⟨_, rfl⟩
    rw [← hP, ← hO] at d1 d2 u2 hne
    rw [← hA, ← hB] at r1 r2 hu
    -- the direction of the side and of the bisector is that from `x` to `y`
    have n1 : (P.1 - O.1) * (x.1 - y.1) + (P.2 - O.2) * (x.2 - y.2) = 0 := by unfold dsq at d1 d2; linarith
    have n2 : (P.1 - O.1) * (x.1 - u.1) + (P.2 - O.2) * (x.2 - u.2) = 0 := by unfold dsq at d1 u2; linarith
    have par : (x.1 - y.1) * (x.2 - u.2) - (x.2 - y.2) * (x.1 - u.1) = 0 := by
      by_contra hD
      apply hne
      refine Prod.ext (sub_eq_zero.mp (mul_left_cancel₀ hD ?_)) (sub_eq_zero.mp (mul_left_cancel₀ hD ?_))
      · linear_combination (x.2 - u.2) * n1 - (x.2 - y.2) * n2
      · linear_combination (x.1 - y.1) * n2 - (x.1 - u.1) * n1
    have s1 : (B.2 - A.2) * (x.1 - y.1) - (B.1 - A.1) * (x.2 - y.2) = 0 := by unfold rightOf at r1 r2; linarith
    have s2 : rightOf A B u = - ((B.2 - A.2) * (x.1 - u.1) - (B.1 - A.1) * (x.2 - u.2)) := by unfold rightOf at r1 ⊢; linarith
    have hz1 : (x.1 - y.1) * rightOf A B u = 0 := by rw [s2]; linear_combination (B.1 - A.1) * par - (x.1 - u.1) * s1
    have hz2 : (x.2 - y.2) * rightOf A B u = 0 := by rw [s2]; linear_combination (B.2 - A.2) * par - (x.2 - u.2) * s1
    rcases mul_eq_zero.mp hz1 with h | h
    · rcases mul_eq_zero.mp hz2 with h' | h'
      · exact hxy (Prod.ext (by linarith) (by linarith))
      · exact hu.ne' h'
    · exact hu.ne' h
  · obtain ⟨o, r, h1', h2', h3', ho, hr⟩ : ∃ o r, o ≠ p ∧ r ≠ p ∧ o ≠ r ∧ Nearest pts n o z ∧ Nearest pts n r z := by
      by_cases h : a = p
      · exact ⟨b, c, fun hh => hab (h.trans hh.symm), fun hh => hac (h.trans hh.symm), hbc, hb, hc'⟩
      · by_cases h' : b = p
        · exact ⟨a, c, h, fun hh => hbc (h'.trans hh.symm), hac, ha, hc'⟩
        · exact ⟨a, b, h, h', hab, ha, hb⟩
    by_contra hxy
    obtain ⟨d1, d2⟩ := eqd o ho
    obtain ⟨d3, d4⟩ := eqd r hr
    have k1 : pts p ≠ pts o := fun hh => h1' (hd p hc.2.1 o ho.1 hh).symm
    have k2 : pts p ≠ pts r := fun hh => h2' (hd p hc.2.1 r hr.1 hh).symm
    have k3 : pts o ≠ pts r := fun hh => h3' (hd o ho.1 r hr.1 hh)
    refine circle_det (z := x) (R := dsq (pts p) x) rfl d1 d3 k1 k2 k3 ?_
    obtain ⟨P, hP⟩ : ∃ P, P = pts p := ⟨_, rfl⟩
    obtain ⟨O, hO⟩ : ∃ O, O = pts o := ⟨_, rfl⟩
    obtain ⟨R, hR⟩ : ∃ R, R = pts r := ⟨_, rfl⟩
    rw [← hP, ← hO] at d1 d2
    rw [← hP, ← hR] at d3 d4
    rw [← hP, ← hO, ← hR]
    have n1 : (O.1 - P.1) * (x.1 - y.1) + (O.2 - P.2) * (x.2 - y.2) = 0 := by unfold dsq at d1 d2; linarith
    have n2 : (R.1 - P.1) * (x.1 - y.1) + (R.2 - P.2) * (x.2 - y.2) = 0 := by unfold dsq at d3 d4; linarith
    have e1 : (x.1 - y.1) * det P O R = 0 := by unfold det; linear_combination (R.2 - P.2) * n1 - (O.2 - P.2) * n2
    have e2 : (x.2 - y.2) * det P O R = 0 := by unfold det; linear_combination (O.1 - P.1) * n2 - (R.1 - P.1) * n1
    rcases mul_eq_zero.mp e1 with h | h
    · rcases mul_eq_zero.mp e2 with h' | h'
      · exact absurd (Prod.ext (by linarith) (by linarith)) hxy
      · exact h'
    · exact h

namespace Finish

variable (F : Finish pts q ok n poly rz s s1 s2 s' vs V cell)
include F

/-- Half-edges of a cell start at vertices of the diagram. -/
theorem start_vertex {p f : Nat} (hf : OfCell s s1 vs V cell p f) : DiagramVertex pts n poly (startAt s2.d f) := by
  obtain ⟨_, ⟨t, o, hk, hE, hx, _⟩ | ⟨j, hj, _, _, ex, _⟩⟩ := F.B.piece F.hn hf
  · rcases F.B.start hE.lt hx with ⟨_, _, h1, h2⟩ | ⟨h1, _⟩
    · exact Or.inr (Or.inr ⟨h2, h1⟩)
    · obtain ⟨a, ha, _, h2, _⟩ := F.B.start_hd hE.lt hx h1
      rcases F.border_places.mp ⟨a, ha, h2⟩ with h3 | h3
      · exact Or.inl h3
      · exact Or.inr (Or.inl h3)
  · rcases F.border_places.mp ⟨j, hj, ex.symm⟩ with h3 | h3
    · exact Or.inl h3
    · exact Or.inr (Or.inl h3)

/-- The extreme points of a cell are the starts of its half-edges. -/
theorem extreme_starts {p : Nat} {c : Pt} (hmid : Mid pts n poly p c) : Extr {z | InCell pts n poly p z} z ↔ ∃ f, LiveIn s s1 s2 s' vs V cell p f ∧ startAt s2.d f = z := by
  have hP := F.B.fits.toFitsPolygon
  constructor
  · rintro ⟨hc, hx⟩
    by_cases hr : Rim pts n poly p z
    · obtain ⟨f, hf, t, t0, t1, e⟩ := (F.rim hmid).mp hr
      have e' : z = along (startAt s2.d f) (startAt s2.d (nxt s2.d f)) t := e
      have g := (F.B.seg F.hn hf.1).1
      have hA := g _ (between_left _ _)
      have hB := g _ (between_right _ _)
      obtain ⟨_, _, _, _, _, h1, _, h2⟩ := F.step hf
      rcases t0.lt_or_eq with h3 | h3
      · rcases t1.lt_or_eq with h4 | h4
        · have := hx _ ⟨hA.1, hA.2.1⟩ _ ⟨hB.1, hB.2.1⟩ t h3 h4 e'
          rw [← this, along_self] at e'
          exact ⟨f, hf, e'.symm⟩
        · refine ⟨_, h1, ?_⟩
          rw [h2, e', h4]
          exact Prod.ext (by simp [along]) (by simp [along])
      · refine ⟨f, hf, ?_⟩
        rw [e', ← h3]
        exact Prod.ext (by simp [along]) (by simp [along])
    · exfalso
      have hm : Mid pts n poly p z := by
        refine ⟨hc.2.1, (closed_cases hP.convex hc.1).resolve_right fun hb => hr ⟨hc.1, hc.2, Or.inr hb⟩, fun o ho hop => ?_⟩
        by_contra hle
        push Not at hle
        exact hr ⟨hc.1, hc.2, Or.inl ⟨o, hop, ho, fun r hr' => hle.trans (hc.2.2 r hr')⟩⟩
      obtain ⟨e, hl⟩ := F.live_exists hm
      obtain ⟨k, k0, hk⟩ := F.B.period F.hn hl.1
      have hray : ∀ u : Pt, u ≠ z → ∃ w t, 0 < t ∧ InCell pts n poly p w ∧ w.1 - z.1 = t * (u.1 - z.1) ∧ w.2 - z.2 = t * (u.2 - z.2) := by
        intro u hu
        obtain ⟨i, hi, _, w, t, t0, hb, w1, w2⟩ := F.B.ray F.hn hl.1 k0 hk hm hu
        rw [Function.iterate_succ_apply'] at hb
        have := (F.B.seg F.hn (F.B.iter F.hn hl.1 i)).1 w hb
        exact ⟨w, t, t0, ⟨this.1, this.2.1⟩, w1, w2⟩
      obtain ⟨w, t, t0, hw, w1, w2⟩ := hray (z.1 + 1, z.2) (fun hh => by have := congrArg Prod.fst hh; simp at this)
      obtain ⟨v, u, u0, hv, v1, v2⟩ := hray (z.1 - 1, z.2) (fun hh => by have := congrArg Prod.fst hh; simp at this)
      simp only at w1 w2 v1 v2
      have htu : 0 < t + u := by linarith
      have := hx w hw v hv (t / (t + u)) (div_pos t0 htu) ((div_lt_one htu).mpr (by linarith)) (by
        have e1 : w.1 = z.1 + t := by linarith
        have e2 : v.1 = z.1 - u := by linarith
        have e3 : w.2 = z.2 := by linarith
        have e4 : v.2 = z.2 := by linarith
        refine Prod.ext ?_ ?_ <;> simp only [along, e1, e2, e3, e4] <;> field_simp <;> ring)
      have := congrArg Prod.fst this
      linarith
  · rintro ⟨f, hf, rfl⟩
    have := (F.B.seg F.hn hf.1).1 _ (between_left _ _)
    exact vertex_extreme F.B.fits F.B.dist (F.start_vertex hf.1) ⟨this.1, this.2.1⟩

end Finish

/-! ### order -/

/-- If all corners of a closed line are strictly on the right of each of its edges, except the ends of the edge, it is a convex polygon. -/
theorem clockwise_of_edges {l : List Pt} (h3 : 3 ≤ l.length)
    (h : ∀ i < l.length, ∀ k < l.length, k ≠ i → k ≠ (i + 1) % l.length → 0 < rightOf (corner l i) (corner l (i + 1)) (corner l k)) : ClockwiseConvex l := by
  refine ⟨h3, fun i j k hij hjk hk => ?_⟩
  have hfan : ∀ m, i < m → m + 1 < l.length → 0 < rightOf (corner l i) (corner l m) (corner l (m + 1)) := by
    intro m h1 h2
    have := h m (by omega) i (by omega) (by omega) (by rw [Nat.mod_eq_of_lt h2]; omega)
    unfold rightOf at this ⊢
    linarith
  have hbase : ∀ m, i + 1 < m → m < l.length → 0 < rightOf (corner l i) (corner l (i + 1)) (corner l m) := by
    intro m h1 h2
    exact h i (by omega) m h2 (by omega) (by rw [Nat.mod_eq_of_lt (by omega)]; omega)
  obtain ⟨d, rfl⟩ : ∃ d, k = j + 1 + d := ⟨k - (j + 1), by omega⟩
  clear hjk
  induction d with
  | zero => exact hfan j hij hk
  | succ d ih =>
    have ih := ih (by omega)
    rcases Nat.eq_or_lt_of_le (show i + 1 ≤ j from hij) with hj | hj
    · subst hj
      exact hbase _ (by omega) hk
    · have a1 := hbase j hj (by omega)
      have a2 := hbase (j + 1 + d) (by omega) (by omega)
      have a3 := hbase (j + 1 + (d + 1)) (by omega) hk
      have a4 := hfan (j + 1 + d) (by omega) hk
      rw [show j + 1 + d + 1 = j + 1 + (d + 1) by omega] at a4
      refine pos_of_mul_pos_right ?_ a2.le
      have e : rightOf (corner l i) (corner l (i + 1)) (corner l (j + 1 + d)) * rightOf (corner l i) (corner l j) (corner l (j + 1 + (d + 1))) =
          rightOf (corner l i) (corner l j) (corner l (j + 1 + d)) * rightOf (corner l i) (corner l (i + 1)) (corner l (j + 1 + (d + 1))) +
          rightOf (corner l i) (corner l (i + 1)) (corner l j) * rightOf (corner l i) (corner l (j + 1 + d)) (corner l (j + 1 + (d + 1))) := by
        unfold rightOf; ring
      rw [e]
      have := mul_pos ih a3
      have := mul_pos a1 a4
      linarith

theorem on_line {a b c : Pt} (hne : a ≠ b) (h : rightOf a b c = 0) : ∃ t, c = along a b t := by
  have hD : (b.1 - a.1) * (b.1 - a.1) + (b.2 - a.2) * (b.2 - a.2) ≠ 0 := by
    intro hh
    have h1 : b.1 - a.1 = 0 := by nlinarith [mul_self_nonneg (b.1 - a.1), mul_self_nonneg (b.2 - a.2)]
    have h2 : b.2 - a.2 = 0 := by nlinarith [mul_self_nonneg (b.1 - a.1), mul_self_nonneg (b.2 - a.2)]
    exact hne (Prod.ext (by linarith) (by linarith))
  unfold rightOf at h
  obtain ⟨t, ht⟩ : ∃ t, ((b.1 - a.1) * (b.1 - a.1) + (b.2 - a.2) * (b.2 - a.2)) * t = (c.1 - a.1) * (b.1 - a.1) + (c.2 - a.2) * (b.2 - a.2) :=
    ⟨_, mul_div_cancel₀ _ hD⟩
  refine ⟨t, Prod.ext (mul_left_cancel₀ hD ?_) (mul_left_cancel₀ hD ?_)⟩ <;> simp only [along]
  · linear_combination (b.2 - a.2) * h - (b.1 - a.1) * ht
  · linear_combination (-(b.1 - a.1)) * h - (b.2 - a.2) * ht

/-- Of three different points of a set on a line, one is not extreme. -/
theorem three_on_line {S : Set Pt} {a b c : Pt} (ha : Extr S a) (hb : Extr S b) (hc : Extr S c) (hab : a ≠ b) (hbc : b ≠ c) (hac : a ≠ c) : rightOf a b c ≠ 0 := by
  intro h
  obtain ⟨t, e⟩ := on_line hab h
  rcases lt_trichotomy t 0 with h0 | h0 | h0
  · refine hbc (hb.1 |> fun hb' => ha.2 b hb' c hc.1 (1 / (1 - t)) (by apply div_pos <;> linarith) ((div_lt_one (by linarith)).mpr (by linarith)) ?_)
    have : (1 - t) ≠ 0 := by linarith
    rw [e]
    refine Prod.ext ?_ ?_ <;> simp only [along] <;> field_simp <;> ring
  · subst h0
    exact hac (by rw [e]; exact Prod.ext (by simp [along]) (by simp [along]))
  · rcases lt_trichotomy t 1 with h1 | h1 | h1
    · exact hab (hc.2 a ha.1 b hb.1 t h0 h1 e)
    · subst h1
      exact hbc (by rw [e]; exact Prod.ext (by simp [along]) (by simp [along]))
    · refine hac (hb.2 a ha.1 c hc.1 (1 / t) (by apply div_pos <;> linarith) ((div_lt_one (by linarith)).mpr (by linarith)) ?_)
      have : t ≠ 0 := by linarith
      rw [e]
      refine Prod.ext ?_ ?_ <;> simp only [along] <;> field_simp <;> ring

namespace Star

variable {S : Set Pt} {c : Pt} {P : Nat → Pt} {k : Nat} (hS : Star S c P k) (hx : ∀ i < k, Extr S (P i)) (hp : ∀ i < k, P i ≠ P (i + 1))
include hS hx hp

theorem inj {i j : Nat} (hi : i < k) (hj : j < k) (h : P i = P j) : i = j := by
  have hmem : ∀ i < k, P (i + 1) ∈ S := by
    intro i hi
    rcases Nat.lt_or_ge (i + 1) k with h1 | h1
    · exact hS.corners _ h1
    · rw [show i + 1 = k by omega, hS.close]
      exact hS.corners 0 (by omega)
  have a1 := (hS.region _).mp (hmem j hj) i hi
  have a2 := (hS.region _).mp (hmem i hi) j hj
  rw [← h] at a2
  have p1 := hp i hi
  have p2 := hp j hj
  rw [← h] at p2
  obtain ⟨z, hz⟩ : ∃ z, z = P i := ⟨_, rfl⟩
  obtain ⟨a, ha⟩ : ∃ a, a = P (i + 1) := ⟨_, rfl⟩
  obtain ⟨b, hb⟩ : ∃ b, b = P (j + 1) := ⟨_, rfl⟩
  have hon := hS.once i hi j hj
  have hex := (hx i hi).2 a (by rw [ha]; exact hmem i hi) b (by rw [hb]; exact hmem j hj)
  rw [← h] at hon
  rw [← hz, ← ha, ← hb] at hon
  rw [← hz] at hex
  rw [← hz, ← ha, ← hb] at a1 a2
  rw [← hz, ← ha] at p1
  rw [← hz, ← hb] at p2
  obtain ⟨t, e⟩ := on_line p1 (show rightOf z a b = 0 by unfold rightOf at a1 a2 ⊢; linarith)
  have hd : (a.1 - z.1, a.2 - z.2) ≠ ((0, 0) : Pt) := by
    intro hh
    rw [Prod.mk.injEq] at hh
    exact p1 (Prod.ext (by linarith [hh.1]) (by linarith [hh.2]))
  have hnz : ∀ u : ℝ, u ≠ 0 → along z a u ≠ z := by
    intro u hu hh
    have h1 := congrArg Prod.fst hh
    have h2 := congrArg Prod.snd hh
    simp only [along] at h1 h2
    refine hd (Prod.ext ?_ ?_) <;> refine mul_left_cancel₀ hu ?_ <;> simp only [] <;> linarith
  have hna : ∀ u v : ℝ, u ≠ v → along z a u ≠ along z a v := by
    intro u v hu hh
    have h1 := congrArg Prod.fst hh
    have h2 := congrArg Prod.snd hh
    simp only [along] at h1 h2
    refine hd (Prod.ext ?_ ?_) <;> refine mul_left_cancel₀ (sub_ne_zero.mpr hu) ?_ <;> simp only [] <;> linarith
  have hal : a = along z a 1 := Prod.ext (by simp [along]) (by simp [along])
  rcases lt_trichotomy t 0 with h0 | h0 | h0
  · exfalso
    have : (1 - t) ≠ 0 := by linarith
    have hab := hex (1 / (1 - t)) (by apply div_pos <;> linarith) ((div_lt_one (by linarith)).mpr (by linarith)) (by
      rw [e]
      refine Prod.ext ?_ ?_ <;> simp only [along] <;> field_simp <;> ring)
    exact hna 1 t (by linarith) (by rw [← hal, hab]; rw [hab] at e; exact e)
  · subst h0
    exact absurd (by rw [e]; exact Prod.ext (by simp [along]) (by simp [along])) p2
  · obtain ⟨u, hu⟩ : ∃ u, u = min 1 t / 2 := ⟨_, rfl⟩
    have m1 := min_le_left 1 t
    have m2 := min_le_right 1 t
    have m3 : 0 < min 1 t := lt_min one_pos h0
    refine hon (along z a u) ⟨u, by linarith, by linarith, rfl⟩ (hnz u (by linarith)) ?_ ⟨u / t, by apply div_nonneg <;> linarith, (div_le_one h0).mpr (by linarith), ?_⟩
      (hnz u (by linarith)) ?_
    · intro hh; exact hna u 1 (by linarith) (hh.trans hal)
    · rw [e]
      refine Prod.ext ?_ ?_ <;> simp only [along] <;> field_simp <;> ring
    · rw [e]
      exact hna u t (by linarith)

/-- A closed line around a convex set through extreme points, each edge of which has a length, is a convex polygon. -/
theorem polygon : ((List.range k).map P).Nodup ∧ ClockwiseConvex ((List.range k).map P) ∧ ∀ z, z ∈ S ↔ InClosed ((List.range k).map P) z := by
  have hcor : ∀ i < k, corner ((List.range k).map P) i = P i := by
    intro i hi
    rw [corner_eq (by simpa using hi)]
    simp
  have hcor' : ∀ i < k, corner ((List.range k).map P) (i + 1) = P (i + 1) := by
    intro i hi
    rcases Nat.lt_or_ge (i + 1) k with h1 | h1
    · exact hcor _ h1
    · have hk : i + 1 = 0 + ((List.range k).map P).length := by simp; omega
      rw [hk, corner_addlen, hcor 0 (by omega), List.length_map, List.length_range, Nat.zero_add, hS.close]
  have hmem : ∀ i < k, P (i + 1) = P ((i + 1) % k) := by
    intro i hi
    rcases Nat.lt_or_ge (i + 1) k with h1 | h1
    · rw [Nat.mod_eq_of_lt h1]
    · rw [show i + 1 = k by omega, Nat.mod_self, hS.close]
  have k3 : 3 ≤ k := by
    obtain ⟨i, hi, _⟩ := hS.moves
    by_contra hlt
    rcases (by omega : k = 1 ∨ k = 2) with rfl | rfl
    · exact hp 0 (by omega) hS.close.symm
    · have t0 := (hS.turn 0 (by omega)).resolve_left (hp 0 (by omega))
      have t1 := (hS.turn 1 (by omega)).resolve_left (hp 1 (by omega))
      have hc : P (1 + 1) = P 0 := hS.close
      rw [hc] at t1
      simp only [Nat.zero_add] at t0
      unfold rightOf at t0 t1
      linarith
  refine ⟨List.Nodup.map_on (fun i hi j hj e => hS.inj hx hp (List.mem_range.mp hi) (List.mem_range.mp hj) e) List.nodup_range, clockwise_of_edges (by simpa using k3) ?_, fun z => ?_⟩
  · intro i hi m hm h1 h2
    rw [List.length_map, List.length_range] at hi hm h2
    rw [hcor i hi, hcor' i hi, hcor m hm]
    have hlt : (i + 1) % k < k := Nat.mod_lt _ (by omega)
    refine lt_of_le_of_ne ((hS.region _).mp (hS.corners m hm) i hi) (Ne.symm ?_)
    refine three_on_line (hx i hi) (by rw [hmem i hi]; exact hx _ hlt) (hx m hm) (hp i hi) ?_ ?_
    · rw [hmem i hi]
      exact fun hh => h2 (hS.inj hx hp hlt hm hh).symm
    · exact fun hh => h1 (hS.inj hx hp hi hm hh).symm
  · rw [hS.region]
    unfold InClosed
    rw [List.length_map, List.length_range]
    refine forall_congr' fun i => forall_congr' fun hi => ?_
    rw [hcor i hi, hcor' i hi]

end Star

namespace Finish

/-- After the clean-up the half-edges of the cells have a length. -/
theorem live_length (F : Finish pts q ok n poly true s s1 s2 s' vs V cell) {p f : Nat} (hf : LiveIn s s1 s2 s' vs V cell p f) :
    startAt s2.d f ≠ startAt s2.d (nxt s2.d f) := by
  have hcu := F.cu
  simp only [if_true] at hcu
  have hE2 := (F.ofCell_iff.mp hf.1).1
  have hE : EdgesOf s2.d s'.edges f := by
    by_contra hh
    exact hf.2 ⟨hE2, hh⟩
  obtain ⟨_, _, _, t, h1, h2⟩ := F.B.step F.hn hf.1
  have h3 := (F.B.piece F.hn hf.1).1
  intro hh
  rw [← hh] at h2
  rcases hE with hE | ⟨e, hE, he⟩
  · exact (hcu.kept f (hcu.sub.subset hE)).mp hE t h1 (h3.trans h2.symm)
  · have hte := F.twin_twin (hcu.sub.subset hE) he
    rw [h1, Option.some.injEq] at hte
    subst hte
    exact (hcu.kept t (hcu.sub.subset hE)).mp hE f he (h2.trans h3.symm)

theorem vertices (F : Finish pts q ok n poly rz s s1 s2 s' vs V cell) {p fuel' : Nat} (hS' : Shown pts n poly p) (hfuel : s'.d.heCnt ≤ fuel') :
    ∃ l ps, cellVertices fuel' p s'.d = .ok (l, s'.d) ∧ l.map (fun v => (s'.d.vs v).pos) = ps.map some ∧
      (∀ z, z ∈ ps ↔ z ∈ Set.extremePoints ℝ {z | InCell pts n poly p z}) ∧
      (rz = true → ps.Nodup ∧ ClockwiseConvex ps ∧ ∀ z, InCell pts n poly p z ↔ InClosed ps z) := by
  obtain ⟨e, k, he, hl, k0, hke, hkc, hinj, hall⟩ := F.walk hS'
  obtain ⟨c, hc⟩ := hS'.mid
  have hS := F.star hc hl k0 hke hinj hall
  have hbd := F.walk_borders he hl k0 hke (hkc.trans hfuel) hinj
  have hov : ∀ i, ∃ v, (s'.d.he ((nxt s'.d)^[i] e)).origin = .vtx v ∧ (s'.d.vs v).pos = some (startAt s2.d ((nxt s'.d)^[i] e)) :=
    fun i => (F.ends (F.iter hl i)).1
  choose v hv1 hv2 using hov
  have hcv : cellVertices fuel' p s'.d = .ok ((List.range k).map v, s'.d) := by
    have hgo := cellVertices_go (d := s'.d) ((List.range k).map fun i => (nxt s'.d)^[i] e) ((List.range k).map v) (by simp) (by
      intro j b w hb hw
      rw [List.getElem?_map, Option.map_eq_some_iff] at hb hw
      obtain ⟨x, x1, rfl⟩ := hb
      obtain ⟨y, y1, rfl⟩ := hw
      rw [x1, Option.some.injEq] at y1
      subst y1
      exact hv1 x)
    unfold cellVertices
    simp only [bind, StateT.bind, Except.bind, hbd]
    exact hgo
  refine ⟨_, (List.range k).map fun i => startAt s2.d ((nxt s'.d)^[i] e), hcv, ?_, fun z => ?_, ?_⟩
  · rw [List.map_map, List.map_map]
    refine List.map_congr_left fun i _ => ?_
    exact hv2 i
  · rw [extr_iff, F.extreme_starts hc, List.mem_map]
    constructor
    · rintro ⟨i, _, rfl⟩
      exact ⟨_, F.iter hl i, rfl⟩
    · rintro ⟨f, hf, rfl⟩
      obtain ⟨i, hi, rfl⟩ := hall f hf
      exact ⟨i, List.mem_range.mpr hi, rfl⟩
  · intro hrz
    subst hrz
    refine hS.polygon (fun i _ => (F.extreme_starts hc).mpr ⟨_, F.iter hl i, rfl⟩) fun i _ => ?_
    show startAt s2.d ((nxt s'.d)^[i] e) ≠ startAt s2.d ((nxt s'.d)^[i + 1] e)
    rw [Function.iterate_succ_apply']
    obtain ⟨_, _, _, _, _, _, _, h⟩ := F.step (F.iter hl i)
    rw [h]
    exact F.live_length (F.iter hl i)

end Finish

/-- C89: `vertices` of a site lists the corners of its Voronoi cell in the polygon, which are the extreme points of the cell; after the clean-up each of them once
and clockwise, so that the list describes the cell as a convex polygon. -/
theorem C89_site_vertices (hF : FitsCorners pts n poly) (hd : Distinct pts n) (hq : q.Spec evLt ok)
    (h : createDiagram pts q n fuel poly rz (initSt poly) = .ok ((), s')) {p : Nat} (hS : Shown pts n poly p) {fuel' : Nat} (hfuel : s'.d.heCnt ≤ fuel') :
    ∃ l ps, cellVertices fuel' p s'.d = .ok (l, s'.d) ∧ l.map (fun v => (s'.d.vs v).pos) = ps.map some ∧
      (∀ z, z ∈ ps ↔ z ∈ Set.extremePoints ℝ {z | InClosed poly.points z ∧ Nearest pts n p z}) ∧
      (rz = true → ps.Nodup ∧ ClockwiseConvex ps ∧ ∀ z, InClosed poly.points z ∧ Nearest pts n p z ↔ InClosed ps z) := by
  obtain ⟨s, s1, s2, vs, V, cell, F⟩ := create_finish hF hd hq (by have := hS.lt; omega) h
  exact F.vertices hS hfuel

/-- The hypotheses can be met with four sites on a circle: the centre is listed once for each of the four sites, although it was found twice. -/
example : ∃ poly s', boundingBox (-3 : ℝ) 4 98 106 = .ok poly ∧ createDiagram square4 heapq 4 30 poly true (initSt poly) = .ok ((), s') ∧
    ∀ p < 4, ∃ (l : List Nat) (ps : List Pt), cellVertices s'.d.heCnt p s'.d = .ok (l, s'.d) ∧ l.map (fun v => (s'.d.vs v).pos) = ps.map some ∧ ps.count (0, 100) = 1 := by
  have hp := box_points (show (-3 : ℝ) < 4 by norm_num) (show (98 : ℝ) < 106 by norm_num)
  obtain ⟨_, s', _, h, _⟩ := C74_cleanup_succeeds (fuel := 30) (square4_border hp).toFitsCorners square4_distinct C45_event_queue (by norm_num) (by norm_num)
  have hn : ∀ p < 4, Nearest square4 4 p (0, 100) := by
    intro p hp
    refine ⟨hp, fun r hr => ?_⟩
    rcases (by omega : p = 0 ∨ p = 1 ∨ p = 2 ∨ p = 3) with rfl | rfl | rfl | rfl <;> rcases (by omega : r = 0 ∨ r = 1 ∨ r = 2 ∨ r = 3) with rfl | rfl | rfl | rfl <;>
      norm_num [square4, sqDist]
  refine ⟨_, s', hp, h, fun p hp4 => ?_⟩
  obtain ⟨l, ps, h1, h2, h3, h4⟩ := C89_site_vertices (square4_border hp).toFitsCorners square4_distinct C45_event_queue h ((square4_border hp).shown hp4) le_rfl
  refine ⟨l, ps, h1, h2, List.count_eq_one_of_mem (h4 rfl).1 ((h3 _).mpr (extr_iff.mpr ?_))⟩
  have hi : StrictlyInside ([(-3, 106), (4, 106), (4, 98), (-3, 98)] : List Pt) (0, 100) := (box_inside (by norm_num) (by norm_num) _).mpr (by norm_num)
  exact vertex_extreme (square4_border hp).toFitsCorners square4_distinct (Or.inr (Or.inr ⟨hi, 0, 1, 2, by norm_num, by norm_num, by norm_num, hn 0 (by norm_num), hn 1 (by norm_num),
    hn 2 (by norm_num)⟩)) ⟨fun i hi' => (hi i hi').le, hn p hp4⟩

end Foronoi
