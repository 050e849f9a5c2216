import Verif.Proof.CompleteRun
import Verif.Props.Voronoi

/-!
# The sweep finds the whole Voronoi diagram (C60–C62)

`C25_vertices` and `C26_edges` say that what the sweep makes belongs to the Voronoi diagram.  Here: nothing is missing when the queue is
empty.  All theorems are for every list of `n` distinct sites over the reals and every priority queue that meets its specification.
-/

namespace Foronoi

open scoped List

variable {pts : Nat → ℝ × ℝ} {q : PQ (QE ℝ)} {ok : List (QE ℝ) → Prop} {n : Nat} {poly : Poly ℝ} {s : St ℝ}

/-- The circle around `z` through its nearest sites, given by its lowest point. -/
theorem nearest_circle {p : Nat} {z : ℝ × ℝ} {S : Set Pt} (hS : S = {x | ∃ p < n, pts p = x}) (h : Nearest pts n p z) :
    ∃ m, Emp S m z ∧ ∀ c, OnC S m z c ↔ ∃ i, Nearest pts n i z ∧ pts i = c := by
  have h0 : 0 ≤ sqDist (pts p) z := by unfold sqDist; positivity
  have hr := Real.sq_sqrt h0
  have hr0 := Real.sqrt_nonneg (sqDist (pts p) z)
  have hpw : ∀ c, pw c (z.2 - √(sqDist (pts p) z)) z = sqDist c z - sqDist (pts p) z := by
    intro c
    have : (z.2 - (z.2 - √(sqDist (pts p) z))) ^ 2 = sqDist (pts p) z := by rw [sub_sub_cancel, hr]
    unfold pw; rw [this]; rfl
  refine ⟨z.2 - √(sqDist (pts p) z), ⟨by linarith, ?_⟩, ?_⟩
  · intro c hc
    rw [hS] at hc
    obtain ⟨i, hi, rfl⟩ := hc
    rw [hpw]
    linarith [h.2 i hi]
  · intro c
    unfold OnC
    rw [hpw, hS]
    constructor
    · rintro ⟨⟨i, hi, rfl⟩, he⟩
      exact ⟨i, ⟨hi, fun d hd => by linarith [h.2 d hd]⟩, rfl⟩
    · rintro ⟨i, hi, rfl⟩
      exact ⟨⟨i, hi.1, rfl⟩, by linarith [h.2 i hi.1, hi.2 p h.1]⟩

/-- C60: when the queue is empty, the positions of the vertices made by the sweep are exactly the Voronoi vertices. -/
theorem C60_vertices (hd : Distinct pts n) (hq : q.Spec evLt ok) (h : Reach pts q n poly s) (hend : s.queue = []) (z : ℝ × ℝ) :
    VoronoiVertex pts n z ↔ ∃ v ∈ s.verts, (s.d.vs v).pos = some z := by
  constructor
  · rintro ⟨a, b, c, hab, hbc, hac, ha, hb, hc⟩
    obtain ⟨hH, _, h3, _⟩ := known_end hd.injOn hq h hend (by have := ha.1; omega)
    obtain ⟨m, hem, hon⟩ := nearest_circle hH ha
    refine h3 z m hem ⟨pts a, pts b, pts c, ?_, ?_, ?_, (hon _).mpr ⟨a, ha, rfl⟩, (hon _).mpr ⟨b, hb, rfl⟩, (hon _).mpr ⟨c, hc, rfl⟩⟩
    · exact fun he => hab (hd a ha.1 b hb.1 he)
    · exact fun he => hbc (hd b hb.1 c hc.1 he)
    · exact fun he => hac (hd a ha.1 c hc.1 he)
  · rintro ⟨v, hv, hz⟩
    obtain ⟨z', h1, h2⟩ := C25_vertices hd hq h v hv
    rw [hz] at h1
    cases h1
    exact h2

/-- A third site cannot be as near as two others at two different points. -/
theorem third_site {p r c : ℝ × ℝ} {z w : ℝ × ℝ} (hpr : p ≠ r) (hzw : z ≠ w) (h1 : sqDist p z = sqDist r z) (h2 : sqDist p w = sqDist r w)
    (h3 : sqDist c z = sqDist p z) (h4 : sqDist c w = sqDist p w) : c = p ∨ c = r := by
  obtain ⟨p1, p2⟩ := p
  obtain ⟨r1, r2⟩ := r
  obtain ⟨c1, c2⟩ := c
  obtain ⟨z1, z2⟩ := z
  obtain ⟨w1, w2⟩ := w
  simp only [sqDist] at h1 h2 h3 h4
  -- the differences are orthogonal to `z - w`
  have e1 : (p1 - r1) * (z1 - w1) + (p2 - r2) * (z2 - w2) = 0 := by linarith
  have e2 : (p1 - c1) * (z1 - w1) + (p2 - c2) * (z2 - w2) = 0 := by linarith
  have e3 : (p1 - r1) * (p1 + r1 - 2 * z1) + (p2 - r2) * (p2 + r2 - 2 * z2) = 0 := by linarith
  have e4 : (p1 - c1) * (p1 + c1 - 2 * z1) + (p2 - c2) * (p2 + c2 - 2 * z2) = 0 := by linarith
  have hcol : (p1 - r1) * (p2 - c2) = (p2 - r2) * (p1 - c1) := by
    by_contra hne
    apply hzw
    have hne' : (p1 - r1) * (p2 - c2) - (p2 - r2) * (p1 - c1) ≠ 0 := sub_ne_zero.mpr hne
    have f1 : ((p1 - r1) * (p2 - c2) - (p2 - r2) * (p1 - c1)) * (z1 - w1) = 0 := by linear_combination (p2 - c2) * e1 - (p2 - r2) * e2
    have f2 : ((p1 - r1) * (p2 - c2) - (p2 - r2) * (p1 - c1)) * (z2 - w2) = 0 := by linear_combination (p1 - r1) * e2 - (p1 - c1) * e1
    have g1 := (mul_eq_zero.mp f1).resolve_left hne'
    have g2 := (mul_eq_zero.mp f2).resolve_left hne'
    exact Prod.ext (by simp only; linarith) (by simp only; linarith)
  -- `c = p + k (r - p)`
  have hD : (p1 - r1) ^ 2 + (p2 - r2) ^ 2 ≠ 0 := by
    intro h0
    apply hpr
    have g1 : (p1 - r1) ^ 2 = 0 := by nlinarith [sq_nonneg (p1 - r1), sq_nonneg (p2 - r2)]
    have g2 : (p2 - r2) ^ 2 = 0 := by nlinarith [sq_nonneg (p1 - r1), sq_nonneg (p2 - r2)]
    have g1 := pow_eq_zero_iff (two_ne_zero) |>.mp g1
    have g2 := pow_eq_zero_iff (two_ne_zero) |>.mp g2
    exact Prod.ext (by simp only; linarith) (by simp only; linarith)
  obtain ⟨k, hk1, hk2⟩ : ∃ k, p1 - c1 = k * (p1 - r1) ∧ p2 - c2 = k * (p2 - r2) := by
    refine ⟨((p1 - c1) * (p1 - r1) + (p2 - c2) * (p2 - r2)) / ((p1 - r1) ^ 2 + (p2 - r2) ^ 2), ?_, ?_⟩
    · field_simp
      linear_combination (-(p2 - r2)) * hcol
    · field_simp
      linear_combination (p1 - r1) * hcol
  have hk : k * (1 - k) * ((p1 - r1) ^ 2 + (p2 - r2) ^ 2) = 0 := by
    have c1e : c1 = p1 - k * (p1 - r1) := by linarith
    have c2e : c2 = p2 - k * (p2 - r2) := by linarith
    rw [c1e, c2e] at e4
    linear_combination e4 - k * e3
  rcases mul_eq_zero.mp ((mul_eq_zero.mp hk).resolve_right hD) with h | h
  · left
    rw [h] at hk1 hk2
    exact Prod.ext (by simp only; linarith) (by simp only; linarith)
  · right
    have : k = 1 := by linarith
    rw [this] at hk1 hk2
    exact Prod.ext (by simp only; linarith) (by simp only; linarith)

/-- The point half way. -/
theorem between_mid (v w : ℝ × ℝ) : Between v w ((v.1 + w.1) / 2, (v.2 + w.2) / 2) :=
  ⟨1 / 2, by norm_num, by norm_num, Prod.ext (by simp only; ring) (by simp only; ring)⟩

/-- C61: two sites that are both nearest at two different points have an edge between them when the queue is empty. -/
theorem C61_edges (hd : Distinct pts n) (hq : q.Spec evLt ok) (h : Reach pts q n poly s) (hend : s.queue = []) {p r : Nat} (hpr : p ≠ r)
    {z w : ℝ × ℝ} (hzw : z ≠ w) (hpz : Nearest pts n p z) (hrz : Nearest pts n r z) (hpw : Nearest pts n p w) (hrw : Nearest pts n r w) :
    ∃ e < s.d.heCnt, Separates s.d e p r := by
  obtain ⟨hH, _, _, h2⟩ := known_end hd.injOn hq h hend (by have := hpz.1; omega)
  have hne : pts p ≠ pts r := fun he => hpr (hd p hpz.1 r hrz.1 he)
  have hpm := hpz.between hpw (between_mid z w)
  have hrm := hrz.between hrw (between_mid z w)
  obtain ⟨m, hem, hon⟩ := nearest_circle hH hpm
  obtain ⟨l', hl'⟩ := h2 _ m hem (pts p) (pts r) hne ((hon _).mpr ⟨p, hpm, rfl⟩) ((hon _).mpr ⟨r, hrm, rfl⟩) (by
    intro c hc
    obtain ⟨i, hi, rfl⟩ := (hon c).mp hc
    -- nearest half way, so nearest at both ends
    have e1 := hi.2 p hpm.1
    have e2 := hpm.2 i hi.1
    have e3 := hpz.2 i hi.1
    have e4 := hpw.2 i hi.1
    have q1 : sqDist (pts i) z = sqDist (pts p) z ∧ sqDist (pts i) w = sqDist (pts p) w := by
      unfold sqDist at *
      simp only at *
      constructor <;> nlinarith
    exact third_site hne hzw (le_antisymm (hpz.2 r hrz.1) (hrz.2 p hpz.1)) (le_antisymm (hpw.2 r hrw.1) (hrw.2 p hpw.1)) q1.1 q1.2)
  obtain ⟨f, t, i, j, ⟨hf, h3, h4, h5⟩, _, h6, h7⟩ := hl' l' le_rfl
  obtain ⟨L, hI⟩ := reach_inv hq h
  have hlt : ∀ k p', (s.names p').isSome → k = p' → k < n := by
    rintro k p' hp rfl
    obtain ⟨x, hx⟩ := Option.isSome_iff_exists.mp hp
    exact (hI.sinv.nmLt _ x hx).2
  obtain ⟨i', g1, g2⟩ := hI.dinv.inc f hf
  obtain ⟨t', g3, g4, _⟩ := hI.dinv.tw f hf
  rw [h3] at g3; cases g3
  obtain ⟨j', g5, g6⟩ := hI.dinv.inc t g4
  rw [h4] at g1; cases g1
  rw [h5] at g5; cases g5
  have hi := hd i (hlt i i g2 rfl) p hpz.1 h6
  have hj := hd j (hlt j j g6 rfl) r hrz.1 h7
  subst hi; subst hj
  exact ⟨f, hf, h4, t, h3, h5⟩

/-- The distance to a site minus that to another one is affine along a line. -/
theorem sqDist_line (c p v w : ℝ × ℝ) (t : ℝ) :
    sqDist c (v.1 + t * (w.1 - v.1), v.2 + t * (w.2 - v.2)) - sqDist p (v.1 + t * (w.1 - v.1), v.2 + t * (w.2 - v.2)) =
      (1 - t) * (sqDist c v - sqDist p v) + t * (sqDist c w - sqDist p w) := by
  unfold sqDist; simp only; ring

/-- A point as far from `p` as from `r` is on the line through two other such points. -/
theorem on_bisector {p r v w z : ℝ × ℝ} (hpr : p ≠ r) (hvw : v ≠ w) (hv : sqDist p v = sqDist r v) (hw : sqDist p w = sqDist r w)
    (hz : sqDist p z = sqDist r z) : ∃ t : ℝ, z = (v.1 + t * (w.1 - v.1), v.2 + t * (w.2 - v.2)) := by
  obtain ⟨p1, p2⟩ := p
  obtain ⟨r1, r2⟩ := r
  obtain ⟨v1, v2⟩ := v
  obtain ⟨w1, w2⟩ := w
  obtain ⟨z1, z2⟩ := z
  simp only [sqDist] at hv hw hz
  have e1 : (p1 - r1) * (w1 - v1) + (p2 - r2) * (w2 - v2) = 0 := by linarith
  have e2 : (p1 - r1) * (z1 - v1) + (p2 - r2) * (z2 - v2) = 0 := by linarith
  have hcol : (w1 - v1) * (z2 - v2) = (w2 - v2) * (z1 - v1) := by
    by_contra hne
    apply hpr
    have hne' : (w1 - v1) * (z2 - v2) - (w2 - v2) * (z1 - v1) ≠ 0 := sub_ne_zero.mpr hne
    have f1 : ((w1 - v1) * (z2 - v2) - (w2 - v2) * (z1 - v1)) * (p1 - r1) = 0 := by linear_combination (z2 - v2) * e1 - (w2 - v2) * e2
    have f2 : ((w1 - v1) * (z2 - v2) - (w2 - v2) * (z1 - v1)) * (p2 - r2) = 0 := by linear_combination (w1 - v1) * e2 - (z1 - v1) * e1
    have g1 := (mul_eq_zero.mp f1).resolve_left hne'
    have g2 := (mul_eq_zero.mp f2).resolve_left hne'
    exact Prod.ext (by simp only; linarith) (by simp only; linarith)
  have hD : (w1 - v1) ^ 2 + (w2 - v2) ^ 2 ≠ 0 := by
    intro h0
    apply hvw
    have g1 : (w1 - v1) ^ 2 = 0 := by nlinarith [sq_nonneg (w1 - v1), sq_nonneg (w2 - v2)]
    have g2 : (w2 - v2) ^ 2 = 0 := by nlinarith [sq_nonneg (w1 - v1), sq_nonneg (w2 - v2)]
    have g1 := pow_eq_zero_iff (two_ne_zero) |>.mp g1
    have g2 := pow_eq_zero_iff (two_ne_zero) |>.mp g2
    exact Prod.ext (by simp only; linarith) (by simp only; linarith)
  refine ⟨((z1 - v1) * (w1 - v1) + (z2 - v2) * (w2 - v2)) / ((w1 - v1) ^ 2 + (w2 - v2) ^ 2), Prod.ext ?_ ?_⟩
  · simp only; field_simp; linear_combination (-(w2 - v2)) * hcol
  · simp only; field_simp; linear_combination (w1 - v1) * hcol

/-- Beyond a Voronoi vertex at one end of a common border of two cells there is no common border. -/
theorem beyond_vertex (hd : Distinct pts n) {p r : Nat} (hpr : p ≠ r) {v w : ℝ × ℝ} (hvw : v ≠ w) (hv : VoronoiVertex pts n v)
    (hpv : Nearest pts n p v) (hrv : Nearest pts n r v) (hpw : Nearest pts n p w) (hrw : Nearest pts n r w) {t : ℝ} (ht : t < 0) :
    ¬ Nearest pts n p (v.1 + t * (w.1 - v.1), v.2 + t * (w.2 - v.2)) := by
  have third : ∃ c, Nearest pts n c v ∧ c ≠ p ∧ c ≠ r := by
    obtain ⟨a, b, c, hab, hbc, hac, ha, hb, hc⟩ := hv
    by_cases h1 : a ≠ p ∧ a ≠ r
    · exact ⟨a, ha, h1⟩
    by_cases h2 : b ≠ p ∧ b ≠ r
    · exact ⟨b, hb, h2⟩
    by_cases h3 : c ≠ p ∧ c ≠ r
    · exact ⟨c, hc, h3⟩
    omega
  obtain ⟨c, hc, hcp, hcr⟩ := third
  intro hz
  have hne : pts p ≠ pts r := fun he => hpr (hd p hpv.1 r hrv.1 he)
  have e1 : sqDist (pts c) v = sqDist (pts p) v := le_antisymm (hc.2 p hpv.1) (hpv.2 c hc.1)
  have e2 := hpw.2 c hc.1
  have e3 := hz.2 c hc.1
  have e4 := sqDist_line (pts c) (pts p) v w t
  rw [e1, sub_self, mul_zero, zero_add] at e4
  have e5 : sqDist (pts c) w = sqDist (pts p) w := by
    nlinarith [mul_nonneg_of_nonpos_of_nonpos ht.le (by linarith : sqDist (pts p) w - sqDist (pts c) w ≤ 0)]
  rcases third_site hne hvw (le_antisymm (hpv.2 r hrv.1) (hrv.2 p hpv.1)) (le_antisymm (hpw.2 r hrw.1) (hrw.2 p hpw.1)) e1 e5 with h | h
  · exact hcp (hd c hc.1 p hpv.1 h)
  · exact hcr (hd c hc.1 r hrv.1 h)

/-- C62: an edge between two vertices at different places is exactly the common border of the cells on its two sides.  This holds in
every reachable state, also with respect to the sites not met yet. -/
theorem C62_bounded_edge (hd : Distinct pts n) (hq : q.Spec evLt ok) (h : Reach pts q n poly s) {e p r v w : Nat} {zv zw : ℝ × ℝ}
    (he : e < s.d.heCnt) (hs : Separates s.d e p r) (hv : StartsAt s.d e v) (hw : EndsAt s.d e w)
    (hzv : (s.d.vs v).pos = some zv) (hzw : (s.d.vs w).pos = some zw) (hne : zv ≠ zw) (z : ℝ × ℝ) :
    Nearest pts n p z ∧ Nearest pts n r z ↔ Between zv zw z := by
  have hB := C26_edges hd hq h he hs hv hw hzv hzw
  constructor
  swap
  · intro hz
    exact ⟨(hB z hz).1, (hB z hz).2.1⟩
  rintro ⟨hp, hr⟩
  obtain ⟨L, hI⟩ := reach_inv hq h
  have hpr : p ≠ r := by
    obtain ⟨h1, t, h2, h3⟩ := hs
    have := hI.dinv.incne e he t h2
    rw [h1, h3] at this
    exact fun hh => this (by rw [hh])
  have hpos : ∀ v z, v ∈ s.verts → (s.d.vs v).pos = some z → VoronoiVertex pts n z := by
    intro v z hv hz
    obtain ⟨z', h1, h2⟩ := C25_vertices hd hq h v hv
    rw [hz] at h1; cases h1; exact h2
  have hvv := hpos v zv (hI.dinv.ovt e he v hv).1 hzv
  have hvw : VoronoiVertex pts n zw := by
    obtain ⟨t, ht, hw'⟩ := hw
    obtain ⟨t', g1, g2, _⟩ := hI.dinv.tw e he
    rw [ht] at g1; cases g1
    exact hpos w zw (hI.dinv.ovt t g2 w hw').1 hzw
  obtain ⟨a1, a2, a3⟩ := hB zv ⟨0, by norm_num, by norm_num, Prod.ext (by simp) (by simp)⟩
  obtain ⟨b1, b2, b3⟩ := hB zw ⟨1, by norm_num, by norm_num, Prod.ext (by simp) (by simp)⟩
  have hne' : pts p ≠ pts r := fun he => hpr (hd p hp.1 r hr.1 he)
  obtain ⟨t, ht⟩ := on_bisector hne' hne a3 b3 (le_antisymm (hp.2 r hr.1) (hr.2 p hp.1))
  refine ⟨t, ?_, ?_, ?_⟩
  · by_contra hlt
    push Not at hlt
    exact beyond_vertex hd hpr hne hvv a1 a2 b1 b2 hlt (ht ▸ hp)
  · by_contra hlt
    push Not at hlt
    refine beyond_vertex hd hpr hne.symm hvw b1 b2 a1 a2 (t := 1 - t) (by linarith) ?_
    have : z = (zw.1 + (1 - t) * (zv.1 - zw.1), zw.2 + (1 - t) * (zv.2 - zw.2)) := by
      rw [ht]; exact Prod.ext (by simp only; ring) (by simp only; ring)
    exact this ▸ hp
  · rw [ht]; exact Prod.ext (by simp only; ring) (by simp only; ring)

/-- Three sites whose circle has its centre at `(1, 1)`. -/
noncomputable def tri3 : Nat → ℝ × ℝ := fun i => if i = 0 then (0, 0) else if i = 1 then (2, 0) else (0, 2)

theorem tri3_distinct : Distinct tri3 3 := by
  intro p hp r hr he
  have h1 : p = 0 ∨ p = 1 ∨ p = 2 := by omega
  have h2 : r = 0 ∨ r = 1 ∨ r = 2 := by omega
  rcases h1 with rfl | rfl | rfl <;> rcases h2 with rfl | rfl | rfl <;> simp [tri3] at he ⊢

theorem tri3_nearest {p : Nat} (hp : p < 3) : Nearest tri3 3 p (1, 1) := by
  refine ⟨hp, fun c hc => ?_⟩
  have h1 : p = 0 ∨ p = 1 ∨ p = 2 := by omega
  have h2 : c = 0 ∨ c = 1 ∨ c = 2 := by omega
  rcases h1 with rfl | rfl | rfl <;> rcases h2 with rfl | rfl | rfl <;> norm_num [tri3, sqDist]

/-- The hypotheses can be met: a run over the reals that ends with a vertex at `(1, 1)` and an edge between sites 0 and 1. -/
example (poly : Poly ℝ) : ∃ s, Reach tri3 heapq 3 poly s ∧ s.queue = [] ∧ (∃ v ∈ s.verts, (s.d.vs v).pos = some (1, 1)) ∧
    ∃ e < s.d.heCnt, Separates s.d e 0 1 := by
  obtain ⟨s, _, _, hr, hend⟩ := C23_no_errors (poly := poly) tri3_distinct C45_event_queue (fuel := 22) (by norm_num)
  refine ⟨s, hr, hend, (C60_vertices tri3_distinct C45_event_queue hr hend (1, 1)).mp
    ⟨0, 1, 2, by norm_num, by norm_num, by norm_num, tri3_nearest (by norm_num), tri3_nearest (by norm_num), tri3_nearest (by norm_num)⟩, ?_⟩
  have hlow : ∀ p < 2, Nearest tri3 3 p (1, -1) := by
    intro p hp
    refine ⟨by omega, fun c hc => ?_⟩
    have h1 : p = 0 ∨ p = 1 := by omega
    have h2 : c = 0 ∨ c = 1 ∨ c = 2 := by omega
    rcases h1 with rfl | rfl <;> rcases h2 with rfl | rfl | rfl <;> norm_num [tri3, sqDist]
  exact C61_edges tri3_distinct C45_event_queue hr hend (by norm_num) (z := (1, 1)) (w := (1, -1)) (by norm_num)
    (tri3_nearest (by norm_num)) (tri3_nearest (by norm_num)) (hlow 0 (by norm_num)) (hlow 1 (by norm_num))

end Foronoi
