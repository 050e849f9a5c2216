import Verif.Spec.Formulas
import Verif.Props.Voronoi

/-!
# What the formulas compute with exact arithmetic (C19–C22)
-/

namespace Foronoi

open Real

/-! ### create_circle -/

theorem onOneLine_iff (a b c : Pt) : OnOneLine a b c ↔ det a b c = 0 := by
  constructor
  · rintro ⟨u, v, w, hne, h1, h2, h3⟩
    have e1 : u * (b.1 - a.1) + v * (b.2 - a.2) = 0 := by linarith
    have e2 : u * (c.1 - a.1) + v * (c.2 - a.2) = 0 := by linarith
    have f1 : u * det a b c = 0 := by unfold det; linear_combination (c.2 - a.2) * e1 - (b.2 - a.2) * e2
    have f2 : v * det a b c = 0 := by unfold det; linear_combination (b.1 - a.1) * e2 - (c.1 - a.1) * e1
    rcases hne with h | h
    · exact (mul_eq_zero.mp f1).resolve_left h
    · exact (mul_eq_zero.mp f2).resolve_left h
  · intro h
    unfold det at h
    by_cases hb : b = a
    · by_cases hc : c = a
      · exact ⟨1, 0, a.1, Or.inl one_ne_zero, by ring, by rw [hb]; ring, by rw [hc]; ring⟩
      · refine ⟨c.2 - a.2, -(c.1 - a.1), (c.2 - a.2) * a.1 - (c.1 - a.1) * a.2, ?_, by ring, by rw [hb]; ring, by ring⟩
        by_contra hh
        push Not at hh
        exact hc (Prod.ext (by linarith [hh.2]) (by linarith [hh.1]))
    · refine ⟨b.2 - a.2, -(b.1 - a.1), (b.2 - a.2) * a.1 - (b.1 - a.1) * a.2, ?_, by ring, by ring, by linarith⟩
      by_contra hh
      push Not at hh
      exact hb (Prod.ext (by linarith [hh.2]) (by linarith [hh.1]))

theorem sqDist_eq_dsq (a b : Pt) : sqDist a b = dsq a b := rfl

/-- C19: `create_circle` raises nothing, answers `False` exactly for collinear points, and otherwise returns centre and radius of a
circle through the three points, which is the only one. -/
theorem C19_circle (a b c : ℝ × ℝ) :
    (OnOneLine a b c ∧ createCircle a b c = some none) ∨
    (¬ OnOneLine a b c ∧ ∃ k, createCircle a b c = some (some k) ∧
      (OnCircle (k.x, k.y) k.r a ∧ OnCircle (k.x, k.y) k.r b ∧ OnCircle (k.x, k.y) k.r c) ∧
      ∀ z r, OnCircle z r a → OnCircle z r b → OnCircle z r c → z = (k.x, k.y) ∧ r = k.r) := by
  rw [createCircle_real, onOneLine_iff]
  by_cases h : det a b c = 0
  · exact Or.inl ⟨h, if_pos h⟩
  · right
    refine ⟨h, _, if_neg h, ?_⟩
    obtain ⟨h1, h2⟩ := dsq_center a b c h
    have h0 : ∀ p : Pt, dsq p (ccx a b c, ccy a b c) = dsq a (ccx a b c, ccy a b c) →
        OnCircle (ccx a b c, ccy a b c) (√ (dsq a (ccx a b c, ccy a b c))) p := by
      intro p hp
      exact ⟨sqrt_nonneg _, by rw [sq_sqrt (dsq_nonneg _ _)]; exact hp⟩
    refine ⟨⟨h0 a rfl, h0 b h1, h0 c h2⟩, ?_⟩
    rintro z r ⟨hr, k1⟩ ⟨_, k2⟩ ⟨_, k3⟩
    simp only [sqDist_eq_dsq] at k1 k2 k3
    have hz : z = (ccx a b c, ccy a b c) := center_unique h (k2.trans k1.symm) (k3.trans k1.symm) h1 h2
    refine ⟨hz, ?_⟩
    rw [← hz, k1, sqrt_sq hr]

example : ¬ OnOneLine (0, 0) (2, 0) (0, 2) := by rw [onOneLine_iff]; unfold det; norm_num

/-- The circle through (0,0), (2,0), (0,2). -/
example : ∃ k, createCircle ((0, 0) : ℝ × ℝ) (2, 0) (0, 2) = some (some k) ∧ k.x = 1 ∧ k.y = 1 ∧ k.r = √ 2 := by
  have hn : ¬ OnOneLine (0, 0) (2, 0) (0, 2) := by rw [onOneLine_iff]; unfold det; norm_num
  obtain ⟨h, _⟩ | ⟨_, k, hk, _, hu⟩ := C19_circle (0, 0) (2, 0) (0, 2)
  · exact absurd h hn
  · have hr : √ 2 ^ 2 = (2 : ℝ) := sq_sqrt (by norm_num)
    obtain ⟨h1, h2⟩ := hu (1, 1) (√ 2) ⟨sqrt_nonneg _, by rw [hr]; unfold sqDist; norm_num⟩
      ⟨sqrt_nonneg _, by rw [hr]; unfold sqDist; norm_num⟩ ⟨sqrt_nonneg _, by rw [hr]; unfold sqDist; norm_num⟩
    rw [Prod.ext_iff] at h1
    exact ⟨k, hk, h1.1.symm, h1.2.symm, h2.symm⟩

/-! ### check_clockwise -/

theorem exists_polar {z p : Pt} {r : ℝ} (hr : 0 < r) (hp : OnCircle z r p) : ∃ θ, p = polar z r θ := by
  obtain ⟨h1, h2⟩ := angleR_spec (p.2 - z.2) (p.1 - z.1) r hr (by have := hp.2; unfold sqDist at this; linarith)
  exact ⟨_, Prod.ext (by simp only [polar]; linarith) (by simp only [polar]; linarith)⟩

theorem polar_periodic (z : Pt) (r θ : ℝ) (k : ℤ) : polar z r (θ - k * (2 * π)) = polar z r θ := by
  unfold polar; rw [cos_sub_int_mul_two_pi, sin_sub_int_mul_two_pi]

/-- Any point of the circle is met going clockwise less than one turn. -/
theorem exists_turn {z p : Pt} {r : ℝ} (hr : 0 < r) (hp : OnCircle z r p) (θ : ℝ) :
    ∃ u, 0 ≤ u ∧ u < 2 * π ∧ p = polar z r (θ - u) := by
  obtain ⟨β, hβ⟩ := exists_polar hr hp
  have hpi : 0 < 2 * π := by have := pi_pos; linarith
  refine ⟨toIcoMod hpi 0 (θ - β), ?_, ?_, ?_⟩
  · exact (toIcoMod_mem_Ico hpi 0 (θ - β)).1
  · simpa using (toIcoMod_mem_Ico hpi 0 (θ - β)).2
  · have e : θ - toIcoMod hpi 0 (θ - β) = β - ((-(toIcoDiv hpi 0 (θ - β)) : ℤ) : ℝ) * (2 * π) := by
      have := toIcoMod_add_toIcoDiv_zsmul hpi 0 (θ - β)
      rw [zsmul_eq_mul] at this
      push_cast; linarith
    rw [e, polar_periodic, hβ]

theorem MetClockwise.det_neg {z a b c : Pt} {r : ℝ} (hr : 0 < r) (h : MetClockwise z r a b c) : det a b c < 0 := by
  obtain ⟨θ, u, v, h1, h2, h3, rfl, rfl, rfl⟩ := h
  have key : det (polar z r θ) (polar z r (θ - u)) (polar z r (θ - v)) =
      -(r ^ 2 * (4 * sin ((v - u) / 2) * sin (v / 2) * sin (u / 2))) := by
    rw [← sin_sum]
    unfold det polar
    simp only [sin_sub, cos_sub]
    have c1 := sin_sq_add_cos_sq θ
    linear_combination r ^ 2 * (sin v * cos u - cos v * sin u + sin u - sin v) * (-c1)
  rw [key]
  have s1 : 0 < sin ((v - u) / 2) := sin_pos_of_pos_of_lt_pi (by linarith) (by linarith)
  have s2 : 0 < sin (v / 2) := sin_pos_of_pos_of_lt_pi (by linarith) (by linarith)
  have s3 : 0 < sin (u / 2) := sin_pos_of_pos_of_lt_pi (by linarith) (by linarith)
  have : 0 < r ^ 2 * (4 * sin ((v - u) / 2) * sin (v / 2) * sin (u / 2)) := by positivity
  linarith

theorem det_swap (a b c : Pt) : det a c b = - det a b c := by unfold det; ring

/-- Three different points of a circle are met in one of the two orders. -/
theorem clockwise_cases {z a b c : Pt} {r : ℝ} (hr : 0 < r) (ha : OnCircle z r a) (hb : OnCircle z r b) (hc : OnCircle z r c)
    (hab : a ≠ b) (hac : a ≠ c) (hbc : b ≠ c) : MetClockwise z r a b c ∨ MetClockwise z r a c b := by
  obtain ⟨θ, hθ⟩ := exists_polar hr ha
  obtain ⟨u, u0, u1, hu⟩ := exists_turn hr hb θ
  obtain ⟨v, v0, v1, hv⟩ := exists_turn hr hc θ
  have hu0 : 0 < u := lt_of_le_of_ne u0 (fun hh => hab (by rw [hθ, hu, ← hh, sub_zero]))
  have hv0 : 0 < v := lt_of_le_of_ne v0 (fun hh => hac (by rw [hθ, hv, ← hh, sub_zero]))
  rcases lt_trichotomy u v with h | h | h
  · exact Or.inl ⟨θ, u, v, hu0, h, v1, hθ, hu, hv⟩
  · exact absurd (by rw [hu, hv, h]) hbc
  · exact Or.inr ⟨θ, v, u, hv0, h, u1, hθ, hv, hu⟩

/-- C20: for three different points of a circle around `center`, `check_clockwise` is true exactly if they are met in clockwise order. -/
theorem C20_clockwise {z a b c : ℝ × ℝ} {r : ℝ} (hr : 0 < r) (ha : OnCircle z r a) (hb : OnCircle z r b) (hc : OnCircle z r c)
    (hab : a ≠ b) (hac : a ≠ c) (hbc : b ≠ c) : checkClockwise a b c z = true ↔ MetClockwise z r a b c := by
  have hcase := clockwise_cases hr ha hb hc hab hac hbc
  have hd : det a b c ≠ 0 := by
    rcases hcase with h | h
    · exact (h.det_neg hr).ne
    · have := h.det_neg hr
      rw [det_swap] at this; linarith
  rw [checkClockwise_real hr ha.2 hb.2 hc.2 hd]
  constructor
  · intro h
    rcases hcase with h1 | h1
    · exact h1
    · have := h1.det_neg hr
      rw [det_swap] at this; linarith
  · intro h; exact h.det_neg hr

/-- North, east, south on the unit circle: clockwise; east, north, west: not. -/
example : checkClockwise ((0, 1) : ℝ × ℝ) (1, 0) (0, -1) (0, 0) = true ∧ checkClockwise ((1, 0) : ℝ × ℝ) (0, 1) (-1, 0) (0, 0) = false := by
  have hc : ∀ p : ℝ × ℝ, sqDist p (0, 0) = 1 → OnCircle (0, 0) 1 p := fun p h => ⟨by norm_num, by rw [h]; norm_num⟩
  constructor
  · rw [checkClockwise_real one_pos (hc _ (by unfold sqDist; norm_num)).2 (hc _ (by unfold sqDist; norm_num)).2
      (hc _ (by unfold sqDist; norm_num)).2 (by unfold det; norm_num)]
    unfold det; norm_num
  · rw [← Bool.not_eq_true, checkClockwise_real one_pos (hc _ (by unfold sqDist; norm_num)).2 (hc _ (by unfold sqDist; norm_num)).2
      (hc _ (by unfold sqDist; norm_num)).2 (by unfold det; norm_num)]
    unfold det; norm_num

/-! ### breakpoints -/

/-- C21: for two sites above the sweep line that are not in reverse order at the same height (`does_intersect`), `get_intersection` returns
a point of both parabolas; just left of it the first site's parabola is lower, just right of it the second one's; and it is the only such
point. -/
theorem C21_breakpoint {a b : ℝ × ℝ} {l : ℝ} (ha : l < a.2) (hb : l < b.2) (ho : a.2 = b.2 → a.1 < b.1) (maxY : Option ℝ) :
    ∃ z : ℝ × ℝ, getIntersection a b l maxY = some (z.1, .fin z.2) ∧ OnParabola a l z ∧ OnParabola b l z ∧
      (∃ ε > 0, (∀ x, z.1 - ε < x → x < z.1 → LowerAt a b l x) ∧ ∀ x, z.1 < x → x < z.1 + ε → LowerAt b a l x) ∧
      ∀ w : ℝ × ℝ, OnParabola a l w → OnParabola b l w → (∃ ε > 0, ∀ x, w.1 - ε < x → x < w.1 → LowerAt a b l x) → w = z := by
  have hab : a ≠ b := by rintro rfl; exact lt_irrefl _ (ho rfl)
  have hB := bp_exists ha.le hb.le (Or.inl ha) ho
  obtain ⟨y, hg, hy⟩ := getIntersection_real ha.le hb.le maxY
  have hyv := hy (by rintro ⟨h1, h2 | h2⟩
                     · exact absurd (ho h1) (not_lt.mpr h2.le)
                     · linarith)
  have hpar : ∀ p : Pt, l < p.2 → ∀ x y, OnParabola p l (x, y) → y = par p l x := fun p hp x y h => (onParabola_iff hp).mp h
  have hop := hB.ori_pos hab ha hb
  simp only at hop
  have hk : 0 < 2 * ((a.2 - l) * (b.2 - l)) := by
    have := mul_pos (sub_pos.mpr ha) (sub_pos.mpr hb); linarith
  -- the sign near the breakpoint
  obtain ⟨ε, hε, hs⟩ : ∃ ε > 0, ∀ x, |x - bpX a b l| < ε → 0 < (b.2 - a.2) * (x - bpX a b l) + 2 * ori a b l (bpX a b l) := by
    refine ⟨ori a b l (bpX a b l) / (|b.2 - a.2| + 1), by positivity, fun x hx => ?_⟩
    have h1 : 0 < |b.2 - a.2| + 1 := by positivity
    rw [lt_div_iff₀ h1] at hx
    have h2 : |(b.2 - a.2) * (x - bpX a b l)| < ori a b l (bpX a b l) := by
      rw [abs_mul]
      nlinarith [abs_nonneg (x - bpX a b l)]
    have := neg_abs_le ((b.2 - a.2) * (x - bpX a b l))
    linarith
  refine ⟨(bpX a b l, bpYv a b l), by rw [hg, hyv], ⟨hB.le, hB.ea⟩, ⟨hB.le, hB.eb⟩, ⟨ε, hε, ?_, ?_⟩, ?_⟩
  · intro x h1 h2 y y' hy hy'
    rw [hpar a ha x y hy, hpar b hb x y' hy']
    simp only at h1 h2
    have e := par_sub ha hb ho x
    have := hs x (by rw [abs_lt]; constructor <;> linarith)
    have hneg : (x - bpX a b l) * ((b.2 - a.2) * (x - bpX a b l) + 2 * ori a b l (bpX a b l)) < 0 :=
      mul_neg_of_neg_of_pos (by linarith) this
    rw [← e] at hneg
    have := (pos_iff_neg_of_mul_neg hneg).mp hk
    linarith
  · intro x h1 h2 y y' hy hy'
    rw [hpar b hb x y hy, hpar a ha x y' hy']
    simp only at h1 h2
    have e := par_sub ha hb ho x
    have := hs x (by rw [abs_lt]; constructor <;> linarith)
    have hpos : 0 < (x - bpX a b l) * ((b.2 - a.2) * (x - bpX a b l) + 2 * ori a b l (bpX a b l)) :=
      mul_pos (by linarith) this
    rw [← e] at hpos
    have := (pos_iff_pos_of_mul_pos hpos).mp hk
    linarith
  · rintro w ⟨hw1, hwa⟩ ⟨_, hwb⟩ ⟨δ, hδ, hlow⟩
    rw [sqDist_eq_dsq] at hwa hwb
    have ew := eq_par ha hwa
    have ew' := eq_par hb hwb
    by_cases hx : w.1 = bpX a b l
    · refine Prod.ext hx ?_
      rw [ew, hx]
      have := hB.y_eq ha
      simp only at this ⊢
      exact this.symm
    · exfalso
      have e := par_sub ha hb ho w.1
      rw [← ew, ← ew', sub_self, mul_zero] at e
      have e0 : (b.2 - a.2) * (w.1 - bpX a b l) + 2 * ori a b l (bpX a b l) = 0 :=
        (mul_eq_zero.mp e.symm).resolve_left (sub_ne_zero.mpr hx)
      -- just left of `w` the difference has the sign of -(b.2 - a.2)(x - w.1)(…)
      have hne : w.1 - bpX a b l ≠ 0 := sub_ne_zero.mpr hx
      have hsgn : (b.2 - a.2) * (w.1 - bpX a b l) < 0 := by linarith
      obtain ⟨t, ht0, htδ, htw⟩ : ∃ t, 0 < t ∧ t < δ ∧ t < |w.1 - bpX a b l| := by
        refine ⟨min δ |w.1 - bpX a b l| / 2, ?_, ?_, ?_⟩
        · have : 0 < min δ |w.1 - bpX a b l| := lt_min hδ (abs_pos.mpr hne)
          linarith
        · have : 0 < min δ |w.1 - bpX a b l| := lt_min hδ (abs_pos.mpr hne)
          have := min_le_left δ |w.1 - bpX a b l|
          linarith
        · have : 0 < min δ |w.1 - bpX a b l| := lt_min hδ (abs_pos.mpr hne)
          have := min_le_right δ |w.1 - bpX a b l|
          linarith
      have e1 := par_sub ha hb ho (w.1 - t)
      have hl := hlow (w.1 - t) (by linarith) (by linarith) _ _ ((onParabola_iff ha).mpr rfl) ((onParabola_iff hb).mpr rfl)
      have hneg : 2 * ((a.2 - l) * (b.2 - l)) * (par a l (w.1 - t) - par b l (w.1 - t)) < 0 :=
        mul_neg_of_pos_of_neg hk (by linarith)
      rw [e1] at hneg
      have e2 : (b.2 - a.2) * (w.1 - t - bpX a b l) + 2 * ori a b l (bpX a b l) = -((b.2 - a.2) * t) := by linarith
      rw [e2] at hneg
      -- (X - t) * (b.2 - a.2) > 0 with X the distance; but X and X - t have the same sign
      rcases lt_or_gt_of_ne hne with h | h
      · have hb' : 0 < b.2 - a.2 := by nlinarith
        nlinarith [mul_pos hb' ht0]
      · rw [abs_of_pos h] at htw
        have hb' : b.2 - a.2 < 0 := by nlinarith
        nlinarith [mul_pos (sub_pos.mpr htw) (mul_pos (neg_pos.mpr hb') ht0)]

/-- C21, a new site on the sweep line: the breakpoints on both sides of its arc are the point of the other parabola above it. -/
theorem C21_new_site {a b : ℝ × ℝ} {l : ℝ} (ha : a.2 = l) (hb : l < b.2) (maxY : Option ℝ) :
    ∃ y, getIntersection a b l maxY = some (a.1, .fin y) ∧ getIntersection b a l maxY = some (a.1, .fin y) ∧ OnParabola b l (a.1, y) := by
  have hne : a.2 ≠ b.2 := by rw [ha]; exact hb.ne
  obtain ⟨y, hg, hy⟩ := getIntersection_real (a := a) (b := b) ha.ge hb.le maxY
  obtain ⟨y', hg', hy'⟩ := getIntersection_real (a := b) (b := a) hb.le ha.ge maxY
  have e1 := hy (by rintro ⟨h, _⟩; exact hne h)
  have e2 := hy' (by rintro ⟨h, _⟩; exact hne h.symm)
  rw [bpX_degA hne ha] at hg
  rw [bpX_degB hne.symm ha] at hg'
  have f1 : bpYv a b l = par b l a.1 := by unfold bpYv; rw [if_pos ha, bpX_degA hne ha]
  have f2 : bpYv b a l = par b l a.1 := by unfold bpYv; rw [if_neg (by linarith), bpX_degB hne.symm ha]
  refine ⟨par b l a.1, ?_, ?_, (onParabola_iff hb).mpr rfl⟩
  · rw [hg, e1, f1]
  · rw [hg', e2, f2]

/-- C21, the remaining case: two sites at one height in reverse order have no such breakpoint; the code answers with the middle abscissa
and the height `max_y or inf`. -/
theorem C21_reverse {a b : ℝ × ℝ} {l : ℝ} (h : a.2 = b.2) (hlt : b.1 < a.1) (maxY : Option ℝ) :
    getIntersection a b l maxY = some ((a.1 + b.1) / 2, match maxY with | some m => if m = 0 then .inf else .fin m | none => .inf) := by
  unfold getIntersection
  have h2 : (((2 : ℤ) : ℝ)) ≠ 0 := by norm_num
  simp only [lit, rI, rAdd, Option.bind_eq_bind]
  rw [if_pos h, rDiv _ _ h2, Option.bind_some, if_pos hlt]
  simp only [maxYOr, lit, rI, Int.cast_ofNat, Int.cast_zero]
  cases maxY with
  | none => rfl
  | some m => by_cases hm : m = 0 <;> simp [hm]

/-- (0,4) and (4,2) with the sweep line at 0. -/
example : ∃ z : ℝ × ℝ, getIntersection ((0, 4) : ℝ × ℝ) (4, 2) 0 none = some (z.1, .fin z.2) ∧ OnParabola (0, 4) 0 z ∧ OnParabola (4, 2) 0 z := by
  obtain ⟨z, h, h1, h2, _⟩ := C21_breakpoint (a := (0, 4)) (b := (4, 2)) (l := 0) (by norm_num) (by norm_num) (by norm_num) none
  exact ⟨z, h, h1, h2⟩

/-- (0,4) and (4,4) with the sweep line at 0: the breakpoint is (2, 5/2). -/
example : getIntersection ((0, 4) : ℝ × ℝ) (4, 4) 0 none = some (2, .fin (5 / 2)) := by
  obtain ⟨z, h, h1, h2, h3, h4⟩ := C21_breakpoint (a := (0, 4)) (b := (4, 4)) (l := 0) (by norm_num) (by norm_num) (by norm_num) none
  have e : z = (2, 5 / 2) := by
    obtain ⟨h5, h6⟩ := h1
    obtain ⟨_, h8⟩ := h2
    unfold sqDist at h6 h8
    simp only at h6 h8
    have : z.1 = 2 := by nlinarith
    rw [this] at h6
    exact Prod.ext this (by simp only; nlinarith)
  rw [h, e]

/-! ### arcs -/

/-- C22: `Arc.get_plot` is `None` exactly if the site is on the sweep line, and otherwise the point of its parabola at `x`. -/
theorem C22_plot (p : ℝ × ℝ) (x l : ℝ) :
    (arcPlot p x l = none ↔ p.2 = l) ∧ (∀ y, arcPlot p x l = some y → sqDist p (x, y) = (y - l) ^ 2) ∧
    (l < p.2 → ∃ y, arcPlot p x l = some y ∧ OnParabola p l (x, y) ∧ ∀ y', OnParabola p l (x, y') → y' = y) := by
  rw [arcPlot_real]
  refine ⟨by split <;> simp_all, ?_, ?_⟩
  · intro y hy
    split at hy
    · cases hy
    · rename_i hne
      simp only [Option.some.injEq] at hy
      have h0 : p.2 - l ≠ 0 := sub_ne_zero.mpr hne
      rw [← hy]
      unfold par sqDist
      simp only
      field_simp
      ring
  · intro hp
    rw [if_neg (by linarith)]
    exact ⟨_, rfl, (onParabola_iff hp).mpr rfl, fun y' h => (onParabola_iff hp).mp h⟩

/-- The parabola of (0,2) over the line y = 0 at x = 2 has height 2. -/
example : arcPlot ((0, 2) : ℝ × ℝ) 2 0 = some 2 := by
  obtain ⟨y, h, h1, h2⟩ := (C22_plot (0, 2) 2 0).2.2 (by norm_num)
  rw [h, h2 2 ⟨by norm_num, by unfold sqDist; norm_num⟩]

end Foronoi
