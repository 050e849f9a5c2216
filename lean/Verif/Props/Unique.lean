import Verif.Proof.Unique
import Verif.Props.Whole

/-!
# No edge of the Voronoi diagram is found twice (C69)
-/

namespace Foronoi

open scoped List

variable {pts : Nat → ℝ × ℝ} {q : PQ (QE ℝ)} {ok : List (QE ℝ) → Prop} {n : Nat} {poly : Poly ℝ} {s : St ℝ}

/-- An edge of positive length has a point ahead of the vertex at which it starts. -/
theorem edge_further (hd : Distinct pts n) (hq : q.Spec evLt ok) (h : Reach pts q n poly s) (hend : s.queue = []) {e t i j v : Nat} {zv : Pt}
    (h1 : Edg s.d e t i j) (hlen : HasLength s.d e) (hv : StartsAt s.d e v) (hzv : (s.d.vs v).pos = some zv) :
    ∃ w, Nearest pts n i w ∧ Nearest pts n j w ∧ 0 < ahead (pts i) (pts j) zv w := by
  obtain ⟨L0, hI0⟩ := reach_inv hq h
  obtain ⟨hH, ⟨L, l, hI, hG, hK, _, _⟩, _⟩ := known_end hd.injOn hq h hend (by have := (h1.site_lt hI0).1; omega)
  have h2 := h1.symm hI.dinv
  have hne := h1.pts_ne hd.injOn hI
  obtain ⟨n1, n2⟩ := start_bisector hd hq h h1 hv hzv
  have hD := dsq_pos hne
  unfold dsq at hD
  cases ht : (s.d.he t).origin with
  | vtx u =>
    obtain ⟨zu, hzu, _⟩ := C25_vertices hd hq h u (hI.dinv.ovt t h2.lt u ht).1
    obtain ⟨m1, m2⟩ := start_bisector hd hq h h2 ht hzu
    refine ⟨zu, m2, m1, ?_⟩
    have hr := hK.runs e t i j h1 zv zu (Or.inl ⟨v, hv, hzv⟩) (Or.inl ⟨u, ht, hzu⟩)
    have ha := hr.ahead
    rcases eq_or_lt_of_le ha with h0 | h0
    · exfalso
      have hb := fwd_of_ahead hne.symm (n2.eq n1) (m1.eq m2) (z := zv) (v := zu) (by rw [ahead_swap, ← h0]; simp)
      exact hlen ⟨v, u, zv, hv, ⟨t, h1.tw, ht⟩, hzv, by rw [hzu, hr.antisymm hne.symm hb]⟩
    · exact h0
  | bp b =>
    have hbis : sqDist (pts j) zv = sqDist (pts i) zv := n2.eq n1
    obtain ⟨w, k1, k2, k3⟩ := side_point hd hq h hend h2
      (z := (zv.1 + ((pts j).2 - (pts i).2), zv.2 + ((pts i).1 - (pts j).1))) (by
        unfold sqDist at hbis; unfold dsq; simp only; linear_combination hbis) (by
        intro u zu hu; rw [ht] at hu; cases hu)
    refine ⟨w, k2, k1, ?_⟩
    have k4 := k3.ahead
    rw [ahead_swap, ahead_flip] at k4
    unfold ahead at k4 ⊢
    simp only at k4
    nlinarith

/-- One edge behind the other: both have no length, or one of them has none. -/
theorem behind_absurd (hd : Distinct pts n) (hq : q.Spec evLt ok) (h : Reach pts q n poly s) (hend : s.queue = []) {e t e' t' p r : Nat} {l : ℝ}
    (h1 : Edg s.d e t p r) (h1' : Edg s.d e' t' p r) (hlen : HasLength s.d e) (hlen' : HasLength s.d e')
    (hB : Behind pts s.d s.bps l e t' p r) : False := by
  obtain ⟨L, hI⟩ := reach_inv hq h
  have hne := h1.pts_ne hd.injOn hI
  have h2' := h1'.symm hI.dinv
  obtain ⟨hM, ⟨v', hv'⟩, hF⟩ := hB
  obtain ⟨z', hz', _⟩ := C25_vertices hd hq h v' (hI.dinv.ovt t' h2'.lt v' hv').1
  obtain ⟨n1, n2⟩ := start_bisector hd hq h h2' hv' hz'
  have hbis : sqDist (pts r) z' = sqDist (pts p) z' := n1.eq n2
  cases ho : (s.d.he e).origin with
  | vtx v =>
    obtain ⟨z, hz, _⟩ := C25_vertices hd hq h v (hI.dinv.ovt e h1.lt v ho).1
    have h3 := (hF z z' (Or.inl ⟨v, ho, hz⟩) (Or.inl ⟨v', hv', hz'⟩)).ahead
    obtain ⟨w, w1, w2, w3⟩ := edge_further hd hq h hend h1 hlen ho hz
    have h4 := ((C64_edge_exact hd hq h hend h1'.lt ⟨h1'.inc, t', h1'.tw, h1'.tinc⟩ hlen' w).mpr ⟨w1, w2⟩).stop v' z' ⟨t', h1'.tw, hv'⟩ hz'
    unfold ahead at h3 h4 w3
    linarith
  | bp b =>
    obtain ⟨hpair, _⟩ := h1.pair hI.dinv ho
    have hm := hM b ho
    rw [hpair] at hm
    simp only at hm
    -- one step further along the bisector
    obtain ⟨m0, hm0⟩ := bp_far (a := pts r) (b := pts p) (z := (z'.1 + ((pts p).2 - (pts r).2), z'.2 - ((pts p).1 - (pts r).1))) hne.symm (by
      unfold sqDist at hbis; unfold dsq; simp only; linear_combination hbis)
    have b1 : min (min l m0) (min (pts r).2 (pts p).2) - 1 ≤ l := by linarith [min_le_left (min l m0) (min (pts r).2 (pts p).2), min_le_left l m0]
    have b2 : min (min l m0) (min (pts r).2 (pts p).2) - 1 ≤ m0 := by linarith [min_le_left (min l m0) (min (pts r).2 (pts p).2), min_le_right l m0]
    have b3 : min (min l m0) (min (pts r).2 (pts p).2) - 1 < (pts r).2 := by
      linarith [min_le_right (min l m0) (min (pts r).2 (pts p).2), min_le_left (pts r).2 (pts p).2]
    have b4 : min (min l m0) (min (pts r).2 (pts p).2) - 1 < (pts p).2 := by
      linarith [min_le_right (min l m0) (min (pts r).2 (pts p).2), min_le_right (pts r).2 (pts p).2]
    generalize min (min l m0) (min (pts r).2 (pts p).2) - 1 = m at b1 b2 b3 b4
    have hbp := bp_exists (a := pts r) (b := pts p) b3.le b4.le (Or.inl b3) (by
      intro hy
      by_contra hcon
      push Not at hcon
      rcases eq_or_lt_of_le hcon with hx | hx
      · exact hne (Prod.ext hx hy.symm)
      · exact hm ⟨hy, hx⟩)
    have f1 := hm0 m b2 _ hbp
    have f2 := hF _ z' (Or.inr ⟨b, ho, m, b1, by rw [hpair]; exact hbp⟩) (Or.inl ⟨v', hv', hz'⟩)
    have f3 := (f1.trans f2).ahead
    have hD := dsq_pos hne
    unfold dsq at hD
    unfold ahead at f3
    simp only at f3
    nlinarith

/-- C69: when the queue is empty, no edge is there twice: two half-edges of the same cell that separate it from the same other cell are
the same half-edge, unless one of them has both its ends at the same place. -/
theorem C69_no_duplicate (hd : Distinct pts n) (hq : q.Spec evLt ok) (h : Reach pts q n poly s) (hend : s.queue = []) {e e' p r : Nat}
    (he : e < s.d.heCnt) (he' : e' < s.d.heCnt) (hs : Separates s.d e p r) (hs' : Separates s.d e' p r) (hlen : HasLength s.d e)
    (hlen' : HasLength s.d e') : e = e' := by
  obtain ⟨L, hI⟩ := reach_inv hq h
  obtain ⟨t, h1, _⟩ := sep_edg hq h he hs
  obtain ⟨t', h1', _⟩ := sep_edg hq h he' hs'
  by_contra hne
  rcases reach_apart hd.injOn hq h with h0 | ⟨l, _, hU⟩
  · obtain ⟨k, hk⟩ := Option.isSome_iff_exists.mp (h1.site_lt hI).2
    have := (hI.sinv.nmLt p k hk).1
    omega
  · rcases hU.apart e t e' t' p r h1 h1' hne with hB | hB
    · exact behind_absurd hd hq h hend h1 h1' hlen hlen' hB
    · exact behind_absurd hd hq h hend h1' h1 hlen' hlen hB

/-- C69 with C64: for two sites that are both nearest at two different points there is exactly one half-edge of positive length between
their cells, on either side. -/
theorem C69_edge_unique (hd : Distinct pts n) (hq : q.Spec evLt ok) (h : Reach pts q n poly s) (hend : s.queue = []) {p r : Nat} (hpr : p ≠ r)
    {z w : ℝ × ℝ} (hzw : z ≠ w) (hpz : Nearest pts n p z) (hrz : Nearest pts n r z) (hpw : Nearest pts n p w) (hrw : Nearest pts n r w) :
    ∃! e, e < s.d.heCnt ∧ Separates s.d e p r ∧ HasLength s.d e := by
  obtain ⟨e, h1, h2, h3⟩ := C64_edge_exists hd hq h hend hpr hzw hpz hrz hpw hrw
  exact ⟨e, ⟨h1, h2, h3⟩, fun e' ⟨k1, k2, k3⟩ => C69_no_duplicate hd hq h hend k1 h1 k2 h2 k3 h3⟩

/-- The hypotheses can be met: three sites, a run over the reals that ends; of the half-edges of site 0 exactly one separates it from
site 1. -/
example (poly : Poly ℝ) : ∃ s, Reach tri3 heapq 3 poly s ∧ s.queue = [] ∧
    ∃! e, e < s.d.heCnt ∧ Separates s.d e 0 1 ∧ HasLength s.d e := by
  obtain ⟨s, _, _, hr, hend⟩ := C23_no_errors (poly := poly) tri3_distinct C45_event_queue (fuel := 22) (by norm_num)
  have hlow : ∀ y : ℝ, y ≤ 1 → ∀ p < 2, Nearest tri3 3 p (1, y) := by
    intro y hy p hp
    refine ⟨by omega, fun c hc => ?_⟩
    have h1 : p = 0 ∨ p = 1 := by omega
    have h2 : c = 0 ∨ c = 1 ∨ c = 2 := by omega
    rcases h1 with rfl | rfl <;> rcases h2 with rfl | rfl | rfl <;> norm_num [tri3, sqDist] <;> nlinarith
  exact ⟨s, hr, hend, C69_edge_unique tri3_distinct C45_event_queue hr hend (by norm_num) (z := (1, 1)) (w := (1, -1))
    (by norm_num) (hlow 1 le_rfl 0 (by norm_num)) (hlow 1 le_rfl 1 (by norm_num)) (hlow _ (by norm_num) 0 (by norm_num))
    (hlow _ (by norm_num) 1 (by norm_num))⟩

end Foronoi
