import Verif.Proof.Exit
import Verif.Proof.ClipLoop
import Verif.Props.Poly
import Verif.Props.Cut

/-!
# Cutting a segment with a convex polygon: the geometry of `finish_edges`
-/

namespace Foronoi

open Real

variable {l : List Pt} {o e : Pt}

theorem InClosed.between {a b z : Pt} (ha : InClosed l a) (hb : InClosed l b) (h : Between a b z) : InClosed l z :=
  fun i hi => rightOf_between (ha i hi) (hb i hi) h

theorem StrictlyInside.closed {z : Pt} (h : StrictlyInside l z) : InClosed l z := fun i hi => (h i hi).le

theorem OnBoundary.closed (hc : ClockwiseConvex l) {z : Pt} (h : OnBoundary l z) : InClosed l z := by
  obtain ⟨m, hm⟩ := h
  exact fun i hi => boundary_right hc hm hi

theorem not_closed {z : Pt} : StrictlyOutside l z ↔ ¬ InClosed l z := by
  unfold StrictlyOutside InClosed
  push Not
  rfl

/-- In the closed polygon, but not strictly inside: on the border. -/
theorem closed_cases (hc : ClockwiseConvex l) {z : Pt} (h : InClosed l z) : StrictlyInside l z ∨ OnBoundary l z := by
  by_cases hs : StrictlyInside l z
  · exact Or.inl hs
  · unfold StrictlyInside at hs
    push Not at hs
    obtain ⟨i, hi, hle⟩ := hs
    exact Or.inr ⟨i, hi, on_side_of_zero hc hi h (le_antisymm hle (h i hi))⟩

theorem Between.symm {a b z : Pt} (h : Between a b z) : Between b a z := by
  obtain ⟨t, h0, h1, rfl⟩ := h
  exact ⟨1 - t, by linarith, by linarith, Prod.ext (by simp only; ring) (by simp only; ring)⟩

theorem Between.left (a b : Pt) : Between a b a := ⟨0, le_rfl, zero_le_one, Prod.ext (by simp) (by simp)⟩

/-- Segments are convex. -/
theorem Between.mono {a b x y z : Pt} (hx : Between a b x) (hy : Between a b y) (hz : Between x y z) : Between a b z := by
  obtain ⟨t, h0, h1, rfl⟩ := hx
  obtain ⟨u, g0, g1, rfl⟩ := hy
  obtain ⟨k, k0, k1, rfl⟩ := hz
  refine ⟨(1 - k) * t + k * u, ?_, ?_, Prod.ext (by simp only; ring) (by simp only; ring)⟩
  · have := mul_nonneg (by linarith : (0:ℝ) ≤ 1 - k) h0
    have := mul_nonneg k0 g0
    linarith
  · have := mul_nonneg (by linarith : (0:ℝ) ≤ 1 - k) (by linarith : (0:ℝ) ≤ 1 - t)
    have := mul_nonneg k0 (by linarith : (0:ℝ) ≤ 1 - u)
    nlinarith

theorem dsq_ray (o e : Pt) (t : ℝ) : dsq o (o.1 + t * (e.1 - o.1), o.2 + t * (e.2 - o.2)) = t ^ 2 * dsq o e := by unfold dsq; ring

theorem crosses_pos {w : Pt} (h : CrossesAt l o e w) : 0 < dsq o e := by
  obtain ⟨i, hp, _⟩ := h
  refine dsq_pos fun he => hp ?_
  subst he
  unfold Parallel; ring

/-- The end `e` of a ray from `o` that has to be cut: it is outside, or the ray goes up and nothing of the polygon is higher. -/
def RayEnd (l : List Pt) (o e : Pt) : Prop :=
  StrictlyOutside l e ∨ (∀ z, InClosed l z → z.2 ≤ e.2) ∧ e.1 = o.1 ∧ o.2 ≤ e.2

/-- No point of the interior is highest. -/
theorem not_top (hc : ClockwiseConvex l) {y : Pt} (hy : StrictlyInside l y) (h : ∀ z, InClosed l z → z.2 ≤ y.2) : False := by
  obtain ⟨z, h1, ⟨t, h2, h3, h4⟩, h5⟩ := convex_exit hc hy (e := (y.1, y.2 + 1)) (fun hh => by have := h _ hh.closed; simp at this; linarith)
  have h6 := h z (h5.closed hc)
  have ht : t = 0 := by
    rw [h4] at h6
    simp only at h6
    nlinarith
  have : z = y := by rw [h4, ht]; apply Prod.ext <;> simp
  obtain ⟨i, hi, hb⟩ := h5
  have := rightOf_side hb
  have h7 := hy i hi
  simp_all

theorem RayEnd.ne (hc : ClockwiseConvex l) (he : RayEnd l o e) : ¬ StrictlyInside l e := by
  rcases he with he | ⟨he, _⟩
  · exact fun h => not_closed.mp he h.closed
  · exact fun h => not_top hc h he

/-- Nothing of the polygon is beyond the end, seen from a point of the polygon on the ray. -/
theorem RayEnd.beyond (he : RayEnd l o e) (hpos : 0 < dsq o e) {u t : ℝ} (hu1 : u ≤ 1)
    (hw : InClosed l (o.1 + u * (e.1 - o.1), o.2 + u * (e.2 - o.2))) (hz : InClosed l (o.1 + t * (e.1 - o.1), o.2 + t * (e.2 - o.2))) : t ≤ 1 := by
  by_contra hh
  push Not at hh
  rcases he with ⟨j, hj, hneg⟩ | ⟨h1, h2, h3⟩
  · have a1 := hw j hj
    have a2 := hz j hj
    rw [rightOf_ray] at a1 a2
    have h3 := mul_nonneg (by linarith : (0:ℝ) ≤ t - 1) a1
    have h4 := mul_nonneg (by linarith : (0:ℝ) ≤ 1 - u) a2
    have h5 : (t - u) * rightOf (corner l j) (corner l (j + 1)) e < 0 := mul_neg_of_pos_of_neg (by linarith) hneg
    nlinarith
  · have h4 := h1 _ hz
    simp only at h4
    have h5 : o.2 = e.2 := by nlinarith
    unfold dsq at hpos
    rw [h2, h5] at hpos
    simp at hpos

/-- If the end of the ray is outside and some crossing is before it, then all are. -/
theorem cross_within (hc : ClockwiseConvex l) (he : RayEnd l o e) {w0 w : Pt} (h0 : CrossesAt l o e w0) (hd : dsq o w0 ≤ dsq o e)
    (h : CrossesAt l o e w) : ∃ t, 0 < t ∧ t ≤ 1 ∧ w = (o.1 + t * (e.1 - o.1), o.2 + t * (e.2 - o.2)) := by
  have hpos := crosses_pos h0
  obtain ⟨i0, _, ⟨u, hu, rfl⟩, hs0⟩ := h0
  obtain ⟨i, _, ⟨t, ht, rfl⟩, hs⟩ := h
  refine ⟨t, ht, ?_, rfl⟩
  rw [dsq_ray] at hd
  have hu1 : u ≤ 1 := by
    by_contra hh
    push Not at hh
    nlinarith [mul_pos (by linarith : 0 < u - 1) hpos]
  exact he.beyond hpos hu1 (OnBoundary.closed hc ⟨_, hs0⟩) (OnBoundary.closed hc ⟨_, hs⟩)

theorem ray_between {t : ℝ} (h0 : 0 ≤ t) (h1 : t ≤ 1) : Between o e (o.1 + t * (e.1 - o.1), o.2 + t * (e.2 - o.2)) :=
  ⟨t, h0, h1, Prod.ext (by simp only; ring) (by simp only; ring)⟩

/-- A point returned for a ray that ends outside is on the border and not beyond the end. -/
theorem cut_within (hc : ClockwiseConvex l) (he : RayEnd l o e) {z : Pt} (h : intersectionPoint l (fin2 o) (fin2 e) = some (some z)) :
    OnBoundary l z ∧ Between o e z := by
  obtain ⟨r, h', h1, _, h3⟩ := intersectionPoint_real l o e
  rw [h, Option.some.injEq] at h'
  subst h'
  have hz := h1 z rfl
  have hex : ∃ w, CrossesAt l o e w ∧ dsq o w ≤ dsq o e := by
    by_contra hn
    push Not at hn
    exact absurd (h3.mpr hn) (by simp)
  obtain ⟨w, hw, hwd⟩ := hex
  obtain ⟨t, h0, ht1, rfl⟩ := cross_within hc he hw hwd hz
  obtain ⟨i, _, _, hs⟩ := hz
  exact ⟨⟨i, hs⟩, ray_between h0.le ht1⟩

/-- A ray through the interior that ends outside is cut behind all its interior points. -/
theorem cut_through (hc : ClockwiseConvex l) (he : RayEnd l o e) {y : Pt} (hy : StrictlyInside l y) (hb : Between o e y) :
    ∃ z, intersectionPoint l (fin2 o) (fin2 e) = some (some z) ∧ Between o z y := by
  obtain ⟨x, hx1, hx2, _⟩ := convex_exit hc hy (he.ne hc)
  have hxc := (hx1 x).mpr rfl
  obtain ⟨i, hp, ⟨k, hk, hxk⟩, hs⟩ := hxc
  obtain ⟨s, hs0, hs1, hys⟩ := hb
  have hye : y = (o.1 + s * (e.1 - o.1), o.2 + s * (e.2 - o.2)) := by rw [hys]; apply Prod.ext <;> simp only <;> ring
  clear hys
  have hsl : s < 1 := by
    rcases eq_or_lt_of_le hs1 with h | h
    · exfalso
      have : y = e := by rw [hye, h]; apply Prod.ext <;> simp
      exact he.ne hc (this ▸ hy)
    · exact h
  have hτ : x = (o.1 + (s + k * (1 - s)) * (e.1 - o.1), o.2 + (s + k * (1 - s)) * (e.2 - o.2)) := by
    rw [hxk, hye]; apply Prod.ext <;> simp only <;> ring
  have hτ0 : 0 < s + k * (1 - s) := by have := mul_pos hk (by linarith : 0 < 1 - s); linarith
  have hxo : CrossesAt l o e x := by
    refine ⟨i, ?_, ⟨_, hτ0, hτ⟩, hs⟩
    rw [parallel_iff] at hp ⊢
    intro hh
    apply hp
    rw [hye, rightOf_ray, hh]; ring
  have hpos := crosses_pos hxo
  have hτ1 : s + k * (1 - s) ≤ 1 := he.beyond hpos hsl.le (hye ▸ hy.closed) (hτ ▸ OnBoundary.closed hc ⟨_, hs⟩)
  have hxd : dsq o x ≤ dsq o e := by
    rw [hτ, dsq_ray]
    nlinarith [mul_nonneg hτ0.le (by linarith : 0 ≤ 1 - (s + k * (1 - s)))]
  obtain ⟨r, h, h1, h2, h3⟩ := intersectionPoint_real l o e
  cases r with
  | none => exact absurd (h3.mp rfl x hxo) (not_lt.mpr hxd)
  | some z =>
    refine ⟨z, h, ?_⟩
    have hall : ∀ w, CrossesAt l o e w → dsq o w ≤ dsq o e := by
      intro w hw
      obtain ⟨t, t0, t1, rfl⟩ := cross_within hc he hxo hxd hw
      rw [dsq_ray]
      nlinarith [mul_nonneg t0.le (by linarith : 0 ≤ 1 - t)]
    have hfar := h2 z rfl hall x hxo
    obtain ⟨t, t0, t1, rfl⟩ := cross_within hc he hxo hxd (h1 z rfl)
    rw [hτ, dsq_ray, dsq_ray] at hfar
    have hst : s ≤ t := by
      by_contra hh
      push Not at hh
      have h5 : t < s + k * (1 - s) := by have := mul_pos hk (by linarith : 0 < 1 - s); linarith
      have h6 : t ^ 2 < (s + k * (1 - s)) ^ 2 := by nlinarith
      nlinarith [mul_lt_mul_of_pos_right h6 hpos]
    refine ⟨s / t, by positivity, (div_le_one t0).mpr hst, ?_⟩
    rw [hye]
    apply Prod.ext <;> simp only <;> field_simp <;> ring

theorem finO_some (p : Pt) : finO (some p) = fin2 p := rfl

theorem rounds_real (r : Option Pt) : (r.map fun z => (Arith.ofF (Arith.toF z.1), Arith.ofF (Arith.toF z.2))) = r := by
  cases r <;> simp [rOfF, rToF]

/-- What the two cuts leave of an edge with ends `a` and `b`: a part that is in the polygon and contains all its points inside. -/
theorem clip_two {poly : Poly ℝ} (hc : ClockwiseConvex poly.points) {a b : Pt} {va vb xa xb : Option Pt}
    (ha : va = some a ∧ ¬ OnBoundary poly.points a ∨ va = none ∧ RayEnd poly.points b a)
    (hb : vb = some b ∧ ¬ OnBoundary poly.points b ∨ vb = none ∧ RayEnd poly.points a b)
    (h1 : Cut poly va (some (fin2 a)) (some (fin2 b)) xa) (h2 : Cut poly vb (some (fin2 b)) (some (finO xa)) xb) :
    (∀ x y, xa = some x → xb = some y → InClosed poly.points x ∧ InClosed poly.points y ∧ Between a b x ∧ Between a b y ∧ Between x b y) ∧
    (∀ z, StrictlyInside poly.points z → Between a b z → ∃ x y, xa = some x ∧ xb = some y ∧ Between x y z) ∧
    (∀ x, xa = some x → InClosed poly.points x ∧ Between a b x) ∧ ∀ y, xb = some y → InClosed poly.points y ∧ Between a b y := by
  -- one cut
  have key : ∀ {a b : Pt} {va xa : Option Pt}, (va = some a ∧ ¬ OnBoundary poly.points a ∨ va = none ∧ RayEnd poly.points b a) →
      Cut poly va (some (fin2 a)) (some (fin2 b)) xa →
      (∀ x, xa = some x → InClosed poly.points x ∧ Between b a x) ∧
      ∀ z, StrictlyInside poly.points z → Between b a z → ∃ x, xa = some x ∧ Between b x z := by
    intro a b va xa ha h
    rcases h with ⟨p, hv, hin, hx⟩ | ⟨hv, a', b', r', e1, e2, h3, hx⟩
    · rcases ha with ⟨hva, hnb⟩ | ⟨hva, _⟩
      swap
      · rw [hva] at hv; cases hv
      rw [hva, Option.some.injEq] at hv
      subst hv
      have hcl : InClosed poly.points a := by
        by_contra hh
        have := (C31_convex hc a).2 (not_closed.mpr hh)
        rw [hin] at this; cases this
      refine ⟨fun x hx' => ?_, fun z _ hz => ⟨a, hx, hz⟩⟩
      rw [hx, Option.some.injEq] at hx'
      subst hx'
      exact ⟨hcl, (Between.left _ _).symm⟩
    · have hout : RayEnd poly.points b a := by
        rcases ha with ⟨hva, hnb⟩ | ⟨_, h⟩
        · left
          rw [not_closed]
          intro hcl
          have h5 := hv a hva
          rcases closed_cases hc hcl with h6 | h6
          · rw [(C31_convex hc a).1 h6] at h5; cases h5
          · exact hnb h6
        · exact h
      rw [Option.some.injEq] at e1 e2
      rw [rounds_real] at hx
      subst e1; subst e2; subst hx
      refine ⟨fun x hx => ?_, fun z hz hzb => ?_⟩
      · subst hx
        obtain ⟨k1, k2⟩ := cut_within hc hout h3
        exact ⟨k1.closed hc, k2⟩
      · obtain ⟨x, k1, k2⟩ := cut_through hc hout hz hzb
        rw [h3, Option.some.injEq] at k1
        exact ⟨x, k1, k2⟩
  obtain ⟨a1, a2⟩ := key ha h1
  have hb' : ∀ x, xa = some x → (vb = some b ∧ ¬ OnBoundary poly.points b ∨ vb = none ∧ RayEnd poly.points x b) := by
    intro x hx
    rcases hb with hb | ⟨hb1, hb2 | ⟨hb2, hb3, hb4⟩⟩
    · exact Or.inl hb
    · exact Or.inr ⟨hb1, Or.inl hb2⟩
    · obtain ⟨_, t, t0, t1, rfl⟩ := a1 x hx
      refine Or.inr ⟨hb1, Or.inr ⟨hb2, ?_, ?_⟩⟩
      · simp only; rw [hb3]; ring
      · simp only; nlinarith
  have hboth : ∀ x y, xa = some x → xb = some y →
      InClosed poly.points x ∧ InClosed poly.points y ∧ Between a b x ∧ Between a b y ∧ Between x b y := by
    intro x y hx hy
    subst hx
    rw [finO_some] at h2
    obtain ⟨b1, _⟩ := key (hb' x rfl) h2
    obtain ⟨c1, c2⟩ := a1 x rfl
    obtain ⟨c3, c4⟩ := b1 y hy
    have c5 := c2.symm
    exact ⟨c1, c3, c5, c5.mono (Between.left b a).symm c4, c4⟩
  refine ⟨hboth, ?_, fun x hx => ⟨(a1 x hx).1, (a1 x hx).2.symm⟩, ?_⟩
  swap
  · intro y hy
    cases hxa : xa with
    | some x => exact ⟨(hboth x y hxa hy).2.1, (hboth x y hxa hy).2.2.2.1⟩
    | none =>
      subst hxa
      rcases h2 with ⟨p, hv, hin, hx⟩ | ⟨hv, a', b', r', e1, e2, h3, hx⟩
      · rcases hb with ⟨hvb, hnb⟩ | ⟨hvb, _⟩
        swap
        · rw [hvb] at hv; cases hv
        rw [hvb, Option.some.injEq] at hv
        subst hv
        rw [hx, Option.some.injEq] at hy
        subst hy
        refine ⟨?_, (Between.left _ _).symm⟩
        by_contra hh
        have := (C31_convex hc b).2 (not_closed.mpr hh)
        rw [hin] at this; cases this
      · exfalso
        rw [Option.some.injEq] at e2
        subst e2
        rw [rounds_real] at hx
        have : r' = none := by
          unfold intersectionPoint at h3
          simp only [finO, Option.map_none] at h3
          split at h3
          · exact (Option.some.inj h3).symm
          · exact (Option.some.inj h3).symm
        rw [hx, this] at hy
        cases hy
  · intro z hz hzb
    obtain ⟨x, rfl, hx2⟩ := a2 z hz hzb.symm
    rw [finO_some] at h2
    obtain ⟨y, hy, hy2⟩ := (key (hb' x rfl) h2).2 z hz hx2.symm
    exact ⟨x, y, rfl, hy, hy2⟩

end Foronoi
