import Verif.Proof.Stable
import Verif.Props.TestInputs

/-!
# C136: small changes of a stable input are harmless
-/

namespace Foronoi

open scoped List
open Filter Topology

variable {pts : Nat → ℝ × ℝ} {n : Nat} {m : List (ℝ × ℝ)}

theorem Stable.dist (hS : Stable pts n m) : Distinct pts n := fun p hp r hr e => by
  by_contra hne
  exact hS.distinct p hp r hr hne e

theorem Stable.general (hS : Stable pts n m) : GeneralPosition pts n m := by
  have h3 := hS.convex.1
  refine ⟨hS.convex, hS.diagonal, hS.meets.touch, ?_, ?_, ?_⟩
  · rintro z ⟨p, r, o, hpr, hro, hpo, n1, n2, n3⟩ ⟨i, hi, hz⟩
    exact hS.border i hi p n1.1 r n2.1 o n3.1 hpr hro hpo z hz ⟨n1, n2, n3⟩
  · rintro i hi ⟨lo, hlo, up, hup, hall, l1, l2⟩ p r n1 n2
    obtain ⟨a, ha, rfl⟩ := mem_corner hlo
    obtain ⟨b, hb, rfl⟩ := mem_corner hup
    by_contra hne
    exact hS.first a ha b hb i hi (fun c hc => hall _ (corner_mem (by omega))) l1.le l2 p n1.1 r n2.1 hne ⟨n1, n2⟩
  · rintro p hp r hr ⟨t1, t2, t3⟩
    exfalso
    obtain ⟨t, ht, hall⟩ := hS.top
    have hrt : r ≠ t ∨ p ≠ t := by
      by_contra hh
      push Not at hh
      rw [hh.1, hh.2] at t2
      exact lt_irrefl _ t2
    by_cases hpt : p = t
    · have := hall r hr (fun h => hrt.elim (fun h' => h' h) fun h' => h' hpt)
      rw [hpt] at t1
      linarith
    · have := hall p hp hpt
      rcases t3 t ht with h | h
      · linarith
      · linarith [h.1]

theorem Stable.fits (hS : Stable pts n m) {l : List (ℝ × ℝ)} {poly : Poly ℝ} (hl : l ~ m) (hp : mkPoly l = .ok poly) : FitsBorder pts n poly := by
  have hG := hS.general
  have hcx := hG.convex
  have h3 := hcx.1
  obtain ⟨poly', hp', _, _, hB⟩ := C94_clockwise hcx hl
  rw [hp, Except.ok.injEq] at hp'
  subst hp'
  obtain ⟨lo, hlo, elo⟩ := hB.bottom
  obtain ⟨hi, hhi, ehi⟩ := hB.top
  obtain ⟨a, ha, rfl⟩ := mem_corner hlo
  obtain ⟨b, hb, rfl⟩ := mem_corner hhi
  obtain ⟨g1, g2⟩ := hS.low a ha b hb fun c hc => by
    have := hB.inside _ (corner_mem (i := c) (by omega))
    rw [elo, ehi]
    exact this.2.2
  have hk : (corner m a).2 - |(corner m b).2| = clipLine poly := by rw [elo, ehi]; rfl
  rw [hk] at g2
  have hY0 : poly.maxY ≠ 0 := by rw [← ehi]; exact g1
  have far : ∀ p < n, ∀ z, InClosed m z → sqDist (pts p) z < (z.2 - clipLine poly) ^ 2 := by
    intro p hp z hz
    obtain ⟨c, hc, hle⟩ := hcx.max (2 * (z.1 - (pts p).1)) (-2 * ((pts p).2 - clipLine poly)) hz
    obtain ⟨i, hi, rfl⟩ := mem_corner hc
    have h2 := (g2 p hp).2 i hi
    unfold sqDist at h2 ⊢
    nlinarith [sq_nonneg ((corner m i).1 - z.1)]
  refine (C95_fits_heights hG hl hp hY0 (fun p hp => (g2 p hp).1) (fun p r z _ _ _ h1 _ => Or.inr fun w hw _ => far p h1.1 w hw) fun z hz => ?_).2 hS.meets
  have := (hB.bounds hcx hz).2.2.1
  have hpos := abs_pos.mpr hY0
  obtain ⟨t, ht, _⟩ := hS.top
  exact ⟨by unfold clipLine; linarith, t, ht, far t ht z hz⟩

/-- C136: inputs near a stable input are stable. -/
theorem C136_open (hS : Stable pts n m) : ∃ δ > 0, ∀ (pts2 : Nat → ℝ × ℝ) (m2 : List (ℝ × ℝ)), (∀ i < n, dist (pts2 i) (pts i) < δ) → m2.length = m.length →
    (∀ i, dist (corner m2 i) (corner m i) < δ) → Stable pts2 n m2 := by
  by_contra hcon
  push Not at hcon
  choose P M h1 h2 h3 h4 using fun k : ℕ => hcon (1 / ((k : ℝ) + 1)) (by positivity)
  have hzero : Tendsto (fun k : ℕ => 1 / ((k : ℝ) + 1)) atTop (𝓝 0) := tendsto_one_div_add_atTop_nhds_zero_nat
  have T : Tends P M pts n m := ⟨h2, fun i hi => tendsto_iff_dist_tendsto_zero.mpr (squeeze_zero (fun _ => dist_nonneg) (fun k => (h1 k i hi).le) hzero),
    fun i => tendsto_iff_dist_tendsto_zero.mpr (squeeze_zero (fun _ => dist_nonneg) (fun k => (h3 k i).le) hzero)⟩
  obtain ⟨k, hk⟩ := (T.stable hS).exists
  exact h4 k hk

/-- C136: a stable input gives the right areas. -/
theorem C136_areas (hS : Stable pts n m) {l : List (ℝ × ℝ)} (hl : l ~ m) {q : PQ (QE ℝ)} {ok : List (QE ℝ) → Prop} (hq : q.Spec evLt ok) {fuel : Nat}
    (hfuel : 7 * n < fuel) (rz : Bool) : ∃ poly s', mkPoly l = .ok poly ∧ createDiagram pts q n fuel poly rz (initSt poly) = .ok ((), s') ∧
      ∀ p < n, ∃ a, area s'.d.heCnt p s'.d = .ok (a, s'.d) ∧ 0 < a ∧ MeasureTheory.volume {z | InClosed m z ∧ Nearest pts n p z} = ENNReal.ofReal a := by
  obtain ⟨poly, hp, ⟨r, hr⟩, _, _⟩ := C94_clockwise hS.convex hl
  have hB := hS.fits hl hp
  have hn : 0 < n := by obtain ⟨t, ht, _⟩ := hS.top; omega
  have hpos : 0 < m.length := by have := hS.convex.1; omega
  obtain ⟨s0, s1, r0, r1, _⟩ := C74_cleanup_succeeds (fuel := fuel) hB.toFitsCorners hS.dist hq hn hfuel
  have hrun : ∃ s', createDiagram pts q n fuel poly rz (initSt poly) = .ok ((), s') := by
    cases rz
    · exact ⟨s0, r0⟩
    · exact ⟨s1, r1⟩
  obtain ⟨s', hs'⟩ := hrun
  refine ⟨poly, s', hp, hs', fun p hpn => ?_⟩
  obtain ⟨a, h1, h2, h3⟩ := C72_area hB.toFitsCorners hS.dist hq hs' (hB.shown hpn) le_rfl
  obtain ⟨_, h4⟩ := area_volume hB.toFitsCorners hS.dist hq hs' hpn le_rfl h1
  refine ⟨a, h1, h2, ?_⟩
  rw [← h4]
  congr 1
  ext z
  show InClosed _ z ∧ _ ↔ InClosed _ z ∧ _
  rw [hr, closed_rotate hpos]

/-- **C136**: for every input near enough to a stable one, with its corners in any order, the polygon is made, `create_diagram` succeeds with and without clean-up, and all
areas are near those of the cells of the stable input. -/
theorem C136_stable (hS : Stable pts n m) {ε : ℝ} (hε : 0 < ε) : ∃ δ > 0, ∀ (pts2 : Nat → ℝ × ℝ) (m2 l2 : List (ℝ × ℝ)), (∀ i < n, dist (pts2 i) (pts i) < δ) →
    m2.length = m.length → (∀ i, dist (corner m2 i) (corner m i) < δ) → l2 ~ m2 → ∀ (q : PQ (QE ℝ)) (ok : List (QE ℝ) → Prop) (fuel : Nat) (rz : Bool), q.Spec evLt ok →
    7 * n < fuel → ∃ poly s', mkPoly l2 = .ok poly ∧ createDiagram pts2 q n fuel poly rz (initSt poly) = .ok ((), s') ∧
      ∀ p < n, ∃ b, area s'.d.heCnt p s'.d = .ok (b, s'.d) ∧ |b - (MeasureTheory.volume {z | InClosed m z ∧ Nearest pts n p z}).toReal| < ε := by
  obtain ⟨δ0, hδ0, hopen⟩ := C136_open hS
  by_contra hcon
  push Not at hcon
  choose P M L h1 h2 h3 h4 q ok fuel rz h5 h6 h7 using fun k : ℕ => hcon (1 / ((k : ℝ) + 1)) (by positivity)
  have hzero : Tendsto (fun k : ℕ => 1 / ((k : ℝ) + 1)) atTop (𝓝 0) := tendsto_one_div_add_atTop_nhds_zero_nat
  have T : Tends P M pts n m := ⟨h2, fun i hi => tendsto_iff_dist_tendsto_zero.mpr (squeeze_zero (fun _ => dist_nonneg) (fun k => (h1 k i hi).le) hzero),
    fun i => tendsto_iff_dist_tendsto_zero.mpr (squeeze_zero (fun _ => dist_nonneg) (fun k => (h3 k i).le) hzero)⟩
  obtain ⟨N, hN⟩ := eventually_atTop.mp (T.stable hS)
  -- from `N` on all inputs are stable; the areas converge for each of the finitely many sites
  have hvol : ∀ p < n, ∀ᶠ k in atTop, |(MeasureTheory.volume {z | InClosed (M k) z ∧ Nearest (P k) n p z}).toReal -
      (MeasureTheory.volume {z | InClosed m z ∧ Nearest pts n p z}).toReal| < ε := by
    intro p hp
    have hc := cells_converge (P := fun k => P (k + N)) (M := fun k => M (k + N)) hS.convex (fun k => h2 (k + N)) (fun i hi => (T.sites i hi).comp (tendsto_add_atTop_nat N))
      (fun i => (T.corners i).comp (tendsto_add_atTop_nat N)) (fun k => (hN (k + N) (by omega)).convex) hS.dist hp
    have hfin : MeasureTheory.volume {z | InClosed m z ∧ Nearest pts n p z} ≠ ⊤ := by
      obtain ⟨_, _, _, _, hh⟩ := C136_areas hS (List.Perm.refl m) C45_event_queue (Nat.lt_succ_self (7 * n)) true
      obtain ⟨a, _, _, e⟩ := hh p hp
      rw [e]
      exact ENNReal.ofReal_ne_top
    have := (ENNReal.tendsto_toReal hfin).comp hc
    obtain ⟨K, hK⟩ := Metric.tendsto_atTop.mp this ε hε
    refine eventually_atTop.mpr ⟨K + N, fun k hk => ?_⟩
    have := hK (k - N) (by omega)
    simp only [Function.comp, Real.dist_eq, show k - N + N = k by omega] at this
    exact this
  obtain ⟨K, hK⟩ := eventually_atTop.mp (eventually_lt_nat hvol)
  have hSk := hN (N + K) (by omega)
  obtain ⟨poly, s', g1, g2, g3⟩ := C136_areas hSk (h4 (N + K)) (h5 (N + K)) (h6 (N + K)) (rz (N + K))
  obtain ⟨p, hp, hbad⟩ := h7 (N + K) poly s' g1 g2
  obtain ⟨b, b1, b2, b3⟩ := g3 p hp
  have := hK (N + K) (by omega) p hp
  rw [b3, ENNReal.toReal_ofReal b2.le] at this
  exact absurd (hbad b b1) (not_le.mpr this)

open Check in
/-- Three sites for the example. -/
def steadySites : List QPt := [(1, 11), (2, 13), (4, 12)]

open Check in
/-- A square for the example. -/
def steadyBox : List QPt := [(0, 10), (0, 15), (5, 15), (5, 10)]

open Check in
theorem steady_input : Input steadySites steadyBox := by decide +kernel

open Check in
/-- C136: three sites in a square are a stable input. -/
theorem C136_example : Stable (realSites steadySites) 3 (steadyBox.map real) := by
  have hG := check_general steady_input
  have hd := check_distinct steady_input.2.1.2.1
  have hlen : (steadyBox.map real).length = 4 := rfl
  have c0 : corner (steadyBox.map real) 0 = (0, 10) := by rw [corner_cast]; show real (0, 10) = _; simp [real]
  have c1 : corner (steadyBox.map real) 1 = (0, 15) := by rw [corner_cast]; show real (0, 15) = _; simp [real]
  have c2 : corner (steadyBox.map real) 2 = (5, 15) := by rw [corner_cast]; show real (5, 15) = _; simp [real]
  have c3 : corner (steadyBox.map real) 3 = (5, 10) := by rw [corner_cast]; show real (5, 10) = _; simp [real]
  have c4 : corner (steadyBox.map real) 4 = (0, 10) := by rw [corner_cast]; show real (0, 10) = _; simp [real]
  have p0 : realSites steadySites 0 = (1, 11) := by show real (1, 11) = _; simp [real]
  have p1 : realSites steadySites 1 = (2, 13) := by show real (2, 13) = _; simp [real]
  have p2 : realSites steadySites 2 = (4, 12) := by show real (4, 12) = _; simp [real]
  have hext : ∀ a < 4, ∀ b < 4, Extremes (steadyBox.map real) a b → (corner (steadyBox.map real) a).2 = 10 ∧ (corner (steadyBox.map real) b).2 = 15 := by
    intro a ha b hb h
    have e0 := (h 0 (by rw [hlen]; omega)).1
    have e1 := (h 1 (by rw [hlen]; omega)).2
    rw [c0] at e0
    rw [c1] at e1
    constructor
    · interval_cases a <;> simp only [c0, c1, c2, c3] at e0 ⊢ <;> first | (exfalso; norm_num at e0; done) | norm_num
    · interval_cases b <;> simp only [c0, c1, c2, c3] at e1 ⊢ <;> first | (exfalso; norm_num at e1; done) | norm_num
  refine ⟨fun p hp r hr hne e => hne (hd p hp r hr e), ⟨1, by omega, ?_⟩, hG.convex, hG.diagonal, check_meet hG.convex steady_input.2.1, ?_, ?_, ?_⟩
  · intro o ho hne
    interval_cases o
    · rw [p0, p1]; norm_num
    · exact absurd rfl hne
    · rw [p2, p1]; norm_num
  · rintro i hi p hp r hr o ho hpr hro hpo z hz ⟨n1, n2, n3⟩
    exact hG.border z ⟨p, r, o, hpr, hro, hpo, n1, n2, n3⟩ ⟨i, hi, hz⟩
  · intro a ha b hb i hi hE h1 h2 p hp r hr hne ⟨n1, n2⟩
    rw [hlen] at ha hb hi
    obtain ⟨ea, eb⟩ := hext a ha b hb hE
    rw [ea, eb] at h1 h2
    have hi0 : i = 0 := by
      interval_cases i
      · rfl
      · rw [c1] at h1; norm_num at h1
      · rw [c2] at h1; norm_num at h1
      · rw [c4] at h2; norm_num at h2
    subst hi0
    rw [c1] at n1 n2
    have q1 := n1.2 1 (by omega)
    have q2 := n2.2 1 (by omega)
    have only : ∀ s < 3, sqDist (realSites steadySites s) (0, 15) ≤ sqDist (realSites steadySites 1) (0, 15) → s = 1 := by
      intro s hs h
      interval_cases s
      · rw [p0, p1] at h; norm_num [sqDist] at h
      · rfl
      · rw [p2, p1] at h; norm_num [sqDist] at h
    exact hne ((only p hp q1).trans (only r hr q2).symm)
  · intro a ha b hb hE
    rw [hlen] at ha hb ⊢
    obtain ⟨ea, eb⟩ := hext a ha b hb hE
    rw [ea, eb]
    refine ⟨by norm_num, fun p hp => ?_⟩
    rw [abs_of_pos (by norm_num : (0 : ℝ) < 15)]
    interval_cases p
    all_goals
      refine ⟨by simp only [p0, p1, p2]; norm_num, fun c hc => ?_⟩
      interval_cases c <;> simp only [p0, p1, p2, c0, c1, c2, c3, sqDist] <;> norm_num

open Check in
/-- The hypotheses of C135 are met by these sites and the square. -/
example : ∃ poly s', mkPoly (steadyBox.map real) = .ok poly ∧ FitsCorners (realSites steadySites) 3 poly ∧ Distinct (realSites steadySites) 3 ∧
    createDiagram (realSites steadySites) heapq 3 22 poly true (initSt poly) = .ok ((), s') ∧ ∀ p < 3, ∃ a, area s'.d.heCnt p s'.d = .ok (a, s'.d) := by
  obtain ⟨poly, s', h1, h2, h3⟩ := C136_areas C136_example (List.Perm.refl _) C45_event_queue (fuel := 22) (by omega) true
  exact ⟨poly, s', h1, (C136_example.fits (List.Perm.refl _) h1).toFitsCorners, C136_example.dist, h2, fun p hp => (h3 p hp).imp fun a h => h.1⟩

end Foronoi
