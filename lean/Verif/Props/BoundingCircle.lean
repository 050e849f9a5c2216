import Verif.Model.BoundingCircle
import Verif.Proof.Circle
import Verif.Spec.Voronoi
import Verif.Proof.Wp
import Mathlib.Tactic.LinearCombination

/-!
# The bounding circle (C38, C39)
-/

namespace Foronoi

/-- A point of the line `a x + b y = c`. -/
def OnL (l : ℝ × ℝ × ℝ) (z : ℝ × ℝ) : Prop := l.1 * z.1 + l.2.1 * z.2 = l.2.2

/-- The points of the infinite line through `p` and `q`. -/
def OnLineThrough (p q z : ℝ × ℝ) : Prop := ∃ t : ℝ, z = ((1 - t) * p.1 + t * q.1, (1 - t) * p.2 + t * q.2)

/-- C38: `inside` is the open disc. -/
theorem C38_inside (k : BCirc ℝ) (p : ℝ × ℝ) : insideC k p = true ↔ sqDist k.center p < k.radius ^ 2 := by
  simp only [insideC, rAdd, rSq, rSub, decide_eq_true_eq, sqDist, pow_two]

/-- C38: `get_line` gives the line through two different points: its points are exactly the points of the line. -/
theorem C38_line {p q : ℝ × ℝ} (h : p ≠ q) : ∃ l, getLine p q = some l ∧ ∀ z, OnL l z ↔ OnLineThrough p q z := by
  have h0 : (lit 0 : ℝ) = 0 := by simp [lit, rI]
  have h1 : (lit 1 : ℝ) = 1 := by simp [lit, rI]
  simp only [getLine, rSub, rMul, rAdd, rNeg, h0, h1]
  by_cases hy : q.2 - p.2 = 0
  · rw [if_pos hy]
    have hx : q.1 - p.1 ≠ 0 := fun hx => h (Prod.ext (by linarith) (by linarith))
    refine ⟨_, rfl, fun z => ?_⟩
    simp only [OnL, OnLineThrough, zero_mul, one_mul, zero_add]
    constructor
    · intro hz
      refine ⟨(z.1 - p.1) / (q.1 - p.1), Prod.ext ?_ ?_⟩
      · field_simp; ring
      · have : q.2 = p.2 := by linarith
        rw [this, hz]; ring
    · rintro ⟨t, rfl⟩
      have : q.2 = p.2 := by linarith
      rw [this]; ring
  rw [if_neg hy]
  by_cases hx : q.1 - p.1 = 0
  · rw [if_pos hx]
    refine ⟨_, rfl, fun z => ?_⟩
    simp only [OnL, OnLineThrough, zero_mul, one_mul, add_zero]
    constructor
    · intro hz
      refine ⟨(z.2 - p.2) / (q.2 - p.2), Prod.ext ?_ ?_⟩
      · have : q.1 = p.1 := by linarith
        rw [this, hz]; ring
      · field_simp; ring
    · rintro ⟨t, rfl⟩
      have : q.1 = p.1 := by linarith
      rw [this]; ring
  rw [if_neg hx, rDiv _ _ hx]
  refine ⟨_, rfl, fun z => ?_⟩
  simp only [OnL, OnLineThrough, one_mul]
  constructor
  · intro hz
    refine ⟨(z.1 - p.1) / (q.1 - p.1), Prod.ext ?_ ?_⟩
    · field_simp; ring
    · have : z.2 = p.1 * (-(q.2 - p.2) / (q.1 - p.1)) + p.2 - -(q.2 - p.2) / (q.1 - p.1) * z.1 := by linarith
      simp only
      rw [this]
      field_simp
      ring
  · rintro ⟨t, rfl⟩
    field_simp
    ring

/-- C38: `cut_circle` on a line that meets the circle: it returns the two points (equal if the line is a tangent) at distance `radius`
from the centre, and there are no others. -/
theorem C38_cut {k : BCirc ℝ} {l : ℝ × ℝ × ℝ} (hl : l.1 ≠ 0 ∨ l.2.1 ≠ 0) (hm : ∃ z, OnL l z ∧ sqDist k.center z ≤ k.radius ^ 2) :
    ∃ p1 p2, cutCircle k l = some (p1, p2) ∧ ∀ z, (OnL l z ∧ sqDist k.center z = k.radius ^ 2) ↔ (z = p1 ∨ z = p2) := by
  obtain ⟨⟨cx, cy⟩, r⟩ := k
  obtain ⟨a, b, c⟩ := l
  simp only at hl hm
  set n := a * a + b * b with hn
  have hn0 : 0 < n := by
    rcases hl with h | h
    · have := mul_self_pos.mpr h
      nlinarith [mul_self_nonneg b]
    · have := mul_self_pos.mpr h
      nlinarith [mul_self_nonneg a]
  set d := c - a * cx - b * cy with hd
  have harg : 0 ≤ r * r * n - d * d := by
    obtain ⟨z, h1, h2⟩ := hm
    simp only [OnL, sqDist] at h1 h2
    have e : d = a * (z.1 - cx) + b * (z.2 - cy) := by rw [hd]; linarith
    have : d * d ≤ n * ((cx - z.1) ^ 2 + (cy - z.2) ^ 2) := by
      rw [e, hn]; nlinarith [sq_nonneg (a * (z.2 - cy) - b * (z.1 - cx))]
    nlinarith [mul_le_mul_of_nonneg_left h2 hn0.le]
  set q := Real.sqrt (r * r * n - d * d) with hq
  have hqq : q * q = r * r * n - d * d := Real.mul_self_sqrt harg
  refine ⟨(cx + (a * d + b * q) / n, cy + (b * d - a * q) / n), (cx + (a * d - b * q) / n, cy + (b * d + a * q) / n), ?_, ?_⟩
  · simp only [cutCircle, rSub, rMul, rAdd, rSq]
    rw [← hn, ← hd, rSqrt _ harg, ← hq]
    simp only [Option.bind_eq_bind, Option.bind_some, rDiv _ _ hn0.ne']
  · rintro ⟨x, y⟩
    simp only [OnL, sqDist, Prod.mk.injEq]
    constructor
    · rintro ⟨h1, h2⟩
      -- position along the line
      have e1 : a * (x - cx) + b * (y - cy) = d := by rw [hd]; linarith
      have e2 : (b * (x - cx) - a * (y - cy)) * (b * (x - cx) - a * (y - cy)) = q * q := by
        rw [hqq, ← e1, hn]
        linear_combination (a * a + b * b) * h2
      have hx : x - cx = (a * d + b * (b * (x - cx) - a * (y - cy))) / n := by
        rw [eq_div_iff hn0.ne', ← e1, hn]; ring
      have hy : y - cy = (b * d - a * (b * (x - cx) - a * (y - cy))) / n := by
        rw [eq_div_iff hn0.ne', ← e1, hn]; ring
      rcases mul_self_eq_mul_self_iff.mp e2 with h | h
      · left
        rw [h] at hx hy
        exact ⟨by linarith, by linarith⟩
      · right
        rw [h] at hx hy
        constructor
        · rw [show a * d - b * q = a * d + b * -q from by ring]; linarith
        · rw [show b * d + a * q = b * d - a * -q from by ring]; linarith
    · have key : ∀ s : ℝ, s * s = q * q → a * (cx + (a * d + b * s) / n) + b * (cy + (b * d - a * s) / n) = c ∧
          (cx - (cx + (a * d + b * s) / n)) ^ 2 + (cy - (cy + (b * d - a * s) / n)) ^ 2 = r ^ 2 := by
        intro s hs
        constructor
        · have : a * (cx + (a * d + b * s) / n) + b * (cy + (b * d - a * s) / n) = a * cx + b * cy + d * (a * a + b * b) / n := by ring
          rw [this, ← hn, mul_div_assoc, div_self hn0.ne', hd]; ring
        · have : (cx - (cx + (a * d + b * s) / n)) ^ 2 + (cy - (cy + (b * d - a * s) / n)) ^ 2 = (a * a + b * b) * (d * d + s * s) / (n * n) := by
            field_simp; ring
          rw [this, hs, hqq, ← hn]
          field_simp
          ring
      rintro (⟨rfl, rfl⟩ | ⟨rfl, rfl⟩)
      · exact key q rfl
      · have := key (-q) (by ring)
        simpa only [mul_neg, ← sub_eq_add_neg, sub_neg_eq_add] using this

/-- A line that does not meet the circle: InvalidOperation. -/
theorem C38_miss {k : BCirc ℝ} {l : ℝ × ℝ × ℝ} (hl : l.1 ≠ 0 ∨ l.2.1 ≠ 0) (hm : ∀ z, OnL l z → k.radius ^ 2 < sqDist k.center z) :
    cutCircle k l = none := by
  obtain ⟨⟨cx, cy⟩, r⟩ := k
  obtain ⟨a, b, c⟩ := l
  simp only at hl hm
  set n := a * a + b * b with hn
  have hn0 : 0 < n := by
    rcases hl with h | h
    · have := mul_self_pos.mpr h
      nlinarith [mul_self_nonneg b]
    · have := mul_self_pos.mpr h
      nlinarith [mul_self_nonneg a]
  set d := c - a * cx - b * cy with hd
  have h := hm (cx + a * d / n, cy + b * d / n) (by
    simp only [OnL]
    have : a * (cx + a * d / n) + b * (cy + b * d / n) = a * cx + b * cy + d * (a * a + b * b) / n := by ring
    rw [this, ← hn, mul_div_assoc, div_self hn0.ne', hd]; ring)
  simp only [sqDist] at h
  have e : (cx - (cx + a * d / n)) ^ 2 + (cy - (cy + b * d / n)) ^ 2 = d * d / n := by
    have : (cx - (cx + a * d / n)) ^ 2 + (cy - (cy + b * d / n)) ^ 2 = (a * a + b * b) * (d * d) / (n * n) := by field_simp; ring
    rw [this, ← hn]; field_simp
  rw [e, lt_div_iff₀ hn0] at h
  have harg : r * r * n - d * d < 0 := by nlinarith
  simp only [cutCircle, rSub, rMul, rAdd, rSq]
  rw [← hn, ← hd]
  simp [Arith.sqrt, harg]

theorem onLine_between {p q z : ℝ × ℝ} (h : OnLineThrough p q z) (hpq : p ≠ q) :
    onLine (p.1, .fin p.2) (q.1, .fin q.2) z = true ↔ Between p q z := by
  obtain ⟨t, rfl⟩ := h
  have wk : ∀ u v : ℝ, u ≠ v → (withinK u ((1 - t) * u + t * v) v = true ↔ 0 ≤ t ∧ t ≤ 1) := by
    intro u v huv
    simp only [withinK, Bool.or_eq_true, Bool.and_eq_true, decide_eq_true_eq]
    rcases lt_or_gt_of_ne huv with hlt | hlt
    · constructor
      · rintro (⟨h1, h2⟩ | ⟨h1, h2⟩)
        · exact ⟨by nlinarith, by nlinarith⟩
        · exact ⟨by nlinarith, by nlinarith⟩
      · rintro ⟨h1, h2⟩; left; exact ⟨by nlinarith, by nlinarith⟩
    · constructor
      · rintro (⟨h1, h2⟩ | ⟨h1, h2⟩)
        · exact ⟨by nlinarith, by nlinarith⟩
        · exact ⟨by nlinarith, by nlinarith⟩
      · rintro ⟨h1, h2⟩; right; exact ⟨by nlinarith, by nlinarith⟩
  have hb : Between p q ((1 - t) * p.1 + t * q.1, (1 - t) * p.2 + t * q.2) ↔ 0 ≤ t ∧ t ≤ 1 := by
    constructor
    · rintro ⟨u, h0, h1, he⟩
      simp only [Prod.mk.injEq] at he
      have : t = u := by
        by_contra hne
        have ht : t - u ≠ 0 := sub_ne_zero.mpr hne
        refine hpq (Prod.ext ?_ ?_)
        · exact mul_left_cancel₀ ht (by linarith [he.1])
        · exact mul_left_cancel₀ ht (by linarith [he.2])
      rw [this]; exact ⟨h0, h1⟩
    · rintro ⟨h0, h1⟩; exact ⟨t, h0, h1, rfl⟩
  rw [hb]
  unfold onLine
  by_cases hx : p.1 = q.1
  · rw [if_neg (by simpa using hx)]
    simp only [withinE]
    exact wk _ _ (fun hy => hpq (Prod.ext hx hy))
  · rw [if_pos hx]
    exact wk _ _ hx

/-- C38: the cut of an edge with one end outside or on the circle and the other strictly inside: the one point of the circle between. -/
theorem C38_edge {k : BCirc ℝ} {p q : ℝ × ℝ} (hp : k.radius ^ 2 ≤ sqDist k.center p) (hq : sqDist k.center q < k.radius ^ 2) :
    ∃ w, cutLine k (p.1, .fin p.2) (q.1, .fin q.2) = some (some w) ∧ Between p q w ∧ sqDist k.center w = k.radius ^ 2 ∧
      ∀ w', Between p q w' → sqDist k.center w' = k.radius ^ 2 → w' = w := by
  have hpq : p ≠ q := by rintro rfl; linarith
  obtain ⟨l, hl, hL⟩ := C38_line hpq
  have hqL : OnL l q := (hL q).mpr ⟨1, by ext <;> simp⟩
  have hpL : OnL l p := (hL p).mpr ⟨0, by ext <;> simp⟩
  have hne : l.1 ≠ 0 ∨ l.2.1 ≠ 0 := by
    by_contra hcon
    push Not at hcon
    -- every point would be on the line
    have hz : ∀ z, OnL l z := by
      intro z
      have := hqL
      simp only [OnL, hcon.1, hcon.2, zero_mul, zero_add] at this ⊢
      exact this
    obtain ⟨t, ht⟩ := (hL (p.1 - (q.2 - p.2), p.2 + (q.1 - p.1))).mp (hz _)
    simp only [Prod.mk.injEq] at ht
    have h1 : (q.1 - p.1) ^ 2 + (q.2 - p.2) ^ 2 = 0 := by
      have e1 : -(q.2 - p.2) = t * (q.1 - p.1) := by linarith [ht.1]
      have e2 : q.1 - p.1 = t * (q.2 - p.2) := by linarith [ht.2]
      linear_combination (q.1 - p.1) * e2 - (q.2 - p.2) * e1
    have h2 : q.1 - p.1 = 0 := by nlinarith [sq_nonneg (q.1 - p.1), sq_nonneg (q.2 - p.2)]
    have h3 : q.2 - p.2 = 0 := by nlinarith [sq_nonneg (q.1 - p.1), sq_nonneg (q.2 - p.2)]
    exact hpq (Prod.ext (by linarith) (by linarith))
  obtain ⟨p1, p2, hc, hC⟩ := C38_cut (k := k) hne ⟨q, hqL, hq.le⟩
  -- along the segment: f t = squared distance minus r²
  set f : ℝ → ℝ := fun t => sqDist k.center ((1 - t) * p.1 + t * q.1, (1 - t) * p.2 + t * q.2) - k.radius ^ 2 with hf
  set A := (q.1 - p.1) ^ 2 + (q.2 - p.2) ^ 2 with hA
  have hA0 : 0 < A := by
    rcases lt_or_eq_of_le (add_nonneg (sq_nonneg (q.1 - p.1)) (sq_nonneg (q.2 - p.2))) with h | h
    · exact h
    · exfalso
      have h2 : q.1 - p.1 = 0 := by nlinarith [sq_nonneg (q.1 - p.1), sq_nonneg (q.2 - p.2)]
      have h3 : q.2 - p.2 = 0 := by nlinarith [sq_nonneg (q.1 - p.1), sq_nonneg (q.2 - p.2)]
      exact hpq (Prod.ext (by linarith) (by linarith))
  have f0 : 0 ≤ f 0 := by simp only [hf]; simpa using hp
  have f1 : f 1 < 0 := by simp only [hf]; simpa using hq
  have hconv : ∀ s t : ℝ, f t - f s = (t - s) * (f 1 - f 0 + A * (s + t - 1)) := by
    intro s t; simp only [hf, sqDist, hA]; ring
  -- a root in [0, 1]
  have hroot : ∃ t : ℝ, 0 ≤ t ∧ t < 1 ∧ f t = 0 := by
    have hcont : ContinuousOn f (Set.Icc 0 1) := by
      apply Continuous.continuousOn
      simp only [hf, sqDist]
      fun_prop
    obtain ⟨t, ⟨h0, h1⟩, ht⟩ := intermediate_value_Icc' (by norm_num : (0 : ℝ) ≤ 1) hcont ⟨f1.le, f0⟩
    refine ⟨t, h0, lt_of_le_of_ne h1 ?_, ht⟩
    rintro rfl
    linarith
  obtain ⟨t, ht0, ht1, htf⟩ := hroot
  have huniq : ∀ s : ℝ, 0 ≤ s → s ≤ 1 → f s = 0 → s = t := by
    intro s hs0 hs1 hsf
    by_contra hne'
    have e1 := hconv s t
    rw [htf, hsf, sub_zero] at e1
    have e2 : f 1 - f 0 + A * (s + t - 1) = 0 := by
      rcases mul_eq_zero.mp e1.symm with h | h
      · exact absurd (by linarith) hne'
      · exact h
    have e3 := hconv t 1
    rw [htf, sub_zero] at e3
    have e4 := hconv 0 t
    rw [htf] at e4
    -- f 1 = (1 - t) A (1 - s) ≥ 0
    have : f 1 = (1 - t) * (A * (1 - s)) := by rw [e3]; congr 1; linarith
    have hpos : 0 ≤ (1 - t) * (A * (1 - s)) := mul_nonneg (by linarith) (mul_nonneg hA0.le (by linarith))
    linarith
  set w : ℝ × ℝ := ((1 - t) * p.1 + t * q.1, (1 - t) * p.2 + t * q.2) with hw
  have hwb : Between p q w := ⟨t, ht0, ht1.le, rfl⟩
  have hwd : sqDist k.center w = k.radius ^ 2 := by have := htf; simp only [hf] at this; linarith
  have hun : ∀ w', Between p q w' → sqDist k.center w' = k.radius ^ 2 → w' = w := by
    rintro w' ⟨s, h0, h1, rfl⟩ hd
    have : s = t := huniq s h0 h1 (by simp only [hf]; linarith)
    rw [this]
  refine ⟨w, ?_, hwb, hwd, hun⟩
  have hwp : w = p1 ∨ w = p2 := (hC w).mp ⟨(hL w).mpr ⟨t, rfl⟩, hwd⟩
  have o1 : onLine (p.1, .fin p.2) (q.1, .fin q.2) p1 = true ↔ p1 = w := by
    have hp1 := (hC p1).mpr (Or.inl rfl)
    rw [onLine_between ((hL p1).mp hp1.1) hpq]
    exact ⟨fun h => hun p1 h hp1.2, fun h => h ▸ hwb⟩
  have o2 : onLine (p.1, .fin p.2) (q.1, .fin q.2) p2 = true ↔ p2 = w := by
    have hp2 := (hC p2).mpr (Or.inr rfl)
    rw [onLine_between ((hL p2).mp hp2.1) hpq]
    exact ⟨fun h => hun p2 h hp2.2, fun h => h ▸ hwb⟩
  simp only [cutLine, getLineE, hl, Option.bind_eq_bind, Option.bind_some, hc, chooseCut, o1, o2]
  split_ifs with c1 c2 c2
  · simp only [dist2E, c1, c2]
    split_ifs <;> rfl
  · rw [c1]
  · rw [c2]
  · rcases hwp with h | h
    · exact absurd h.symm c1
    · exact absurd h.symm c2

/-- Non-vacuity: the unit circle, a point outside and the centre. -/
example : ∃ w, cutLine (⟨(0, 0), 1⟩ : BCirc ℝ) (3, .fin 4) (0, .fin 0) = some (some w) ∧ Between (3, 4) (0, 0) w ∧ sqDist (0, 0) w = 1 ^ 2 ∧
    ∀ w', Between (3, 4) (0, 0) w' → sqDist (0, 0) w' = 1 ^ 2 → w' = w :=
  C38_edge (k := ⟨(0, 0), 1⟩) (p := (3, 4)) (q := (0, 0)) (by norm_num [sqDist]) (by norm_num [sqDist])

example : ∃ p1 p2, cutCircle (⟨(0, 0), 5⟩ : BCirc ℝ) (0, 1, 3) = some (p1, p2) ∧
    ∀ z, (OnL (0, 1, 3) z ∧ sqDist (0, 0) z = 5 ^ 2) ↔ (z = p1 ∨ z = p2) :=
  C38_cut (k := ⟨(0, 0), 5⟩) (l := (0, 1, 3)) (Or.inr (by norm_num)) ⟨(0, 3), by norm_num [OnL], by norm_num [sqDist]⟩

section never

variable {K : Type} [LinearOrder K] [Arith K]

theorem wp_true_of_any {σ α : Type} {m : EM σ α} {s : σ} : Wp (fun _ => True) m s (fun _ _ => True) := by
  unfold Wp; split <;> trivial

theorem borderLoopT_err {o e : Nat} {rest : List Nat} {cell : Option Nat} (s : St K) :
    Wp (fun _ => True) (borderLoopT (K := K) (o :: e :: rest) cell) s (fun _ _ => False) := by
  simp only [borderLoopT, wp_bind]
  refine wp_mono wp_true_of_any (fun _ _ _ => ?_)
  refine wp_mono wp_true_of_any (fun _ _ _ => ?_)
  refine wp_mono wp_true_of_any (fun _ _ _ => ?_)
  refine wp_mono wp_true_of_any (fun _ _ _ => ?_)
  refine wp_mono wp_true_of_any (fun _ _ _ => ?_)
  refine wp_mono wp_true_of_any (fun _ _ _ => ?_)
  refine wp_mono wp_true_of_any (fun _ _ _ => ?_)
  refine wp_mono wp_true_of_any (fun _ _ _ => ?_)
  simp

/-- With a bounding circle `create_diagram` never completes: for every arithmetic, every list of sites, every circle and every start
state it raises. -/
theorem C55_circle_raises (pts : Nat → K × K) (q : PQ (QE K)) (n fuel : Nat) (k : BCirc K) (s : St K) :
    ∃ e, createDiagramC pts q n fuel k s = .error e := by
  have h : Wp (fun _ => True) (createDiagramC pts q n fuel k) s (fun _ _ => False) := by
    simp only [createDiagramC, wp_bind]
    refine wp_mono wp_true_of_any (fun _ s1 _ => ?_)
    rw [wp_get]
    refine wp_mono wp_true_of_any (fun _ s2 _ => ?_)
    simp only [finishPolygonT, wp_bind, wp_get]
    cases orderedVertices k.poly s2.d.vs s2.polyVerts with
    | nil => simp
    | cons v0 vs =>
      simp only [wp_bind]
      refine wp_mono wp_true_of_any (fun _ _ _ => ?_)
      refine wp_mono wp_true_of_any (fun _ _ _ => ?_)
      refine wp_mono wp_true_of_any (fun _ s3 _ => ?_)
      cases vs with
      | nil => exact borderLoopT_err _
      | cons v1 vs => exact borderLoopT_err _
  cases he : createDiagramC pts q n fuel k s with
  | error e => exact ⟨e, rfl⟩
  | ok v => exact (Wp.ok h he).elim

end never

end Foronoi
