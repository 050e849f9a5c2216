import Verif.Props.Complete
import Verif.Spec.Edges

/-!
# At the end of the sweep the half-edges are the Voronoi diagram (C64)

Also the edges that are not bounded on one side or on both sides: the part of the bisector on the right side of their vertices is the
common border of the two cells.
-/

namespace Foronoi

open scoped List

variable {pts : Nat → ℝ × ℝ} {q : PQ (QE ℝ)} {ok : List (QE ℝ) → Prop} {n : Nat} {poly : Poly ℝ} {s : St ℝ}

theorem ahead_swap (p r v z : Pt) : ahead p r v z = - ahead p r z v := by unfold ahead; ring

theorem ahead_flip (p r v z : Pt) : ahead p r v z = - ahead r p v z := by unfold ahead; ring

theorem Fwd.ahead {a b z v : Pt} (h : Fwd a b z v) : 0 ≤ ahead b a v z := by
  obtain ⟨k, h1, h2, h3⟩ := h
  have e1 : z.1 - v.1 = k * (b.2 - a.2) := by linarith
  have e2 : z.2 - v.2 = -k * (b.1 - a.1) := by linarith
  unfold Foronoi.ahead
  rw [e1, e2]
  nlinarith [mul_nonneg (neg_nonneg.mpr h1) (add_nonneg (sq_nonneg (b.2 - a.2)) (sq_nonneg (b.1 - a.1)))]

theorem fwd_of_ahead {a b z v : Pt} (hab : a ≠ b) (hz : dsq a z = dsq b z) (hv : dsq a v = dsq b v) (h : 0 ≤ ahead b a v z) : Fwd a b z v := by
  rcases fwd_total hab hz hv with h1 | h1
  · exact h1
  · have h2 := h1.ahead
    rw [ahead_swap] at h2
    obtain ⟨k, h3, h4, h5⟩ := h1
    have h0 : Foronoi.ahead b a v z = 0 := by linarith
    unfold Foronoi.ahead at h0
    rw [h4, h5] at h0
    have hD := dsq_pos hab
    unfold dsq at hD
    have hk : k * ((a.1 - b.1) ^ 2 + (a.2 - b.2) ^ 2) = 0 := by linear_combination h0
    have hk := (mul_eq_zero.mp hk).resolve_right hD.ne'
    subst hk
    have : z = v := Prod.ext (by linarith) (by linarith)
    rw [this]; exact Fwd.refl ..

/-- A point between two others on the bisector. -/
theorem Fwd.between {a b z u w : Pt} (h1 : Fwd a b z u) (h2 : Fwd b a z w) : Between u w z := by
  obtain ⟨k, h3, h4, h5⟩ := h1
  obtain ⟨k', h6, h7, h8⟩ := h2
  rcases eq_or_lt_of_le (add_nonpos h3 h6) with h0 | h0
  · have e1 : k = 0 := by linarith
    subst e1
    exact ⟨0, le_rfl, zero_le_one, Prod.ext (by simp only; linarith) (by simp only; linarith)⟩
  · refine ⟨k / (k + k'), div_nonneg_of_nonpos h3 h0.le, (div_le_one_of_neg h0).mpr (by linarith), Prod.ext ?_ ?_⟩
    · have : u.1 = z.1 - k * (b.2 - a.2) := by linarith
      have e2 : w.1 = z.1 - k' * (a.2 - b.2) := by linarith
      simp only
      rw [this, e2]
      field_simp [h0.ne]
      ring
    · have : u.2 = z.2 + k * (b.1 - a.1) := by linarith
      have e2 : w.2 = z.2 + k' * (a.1 - b.1) := by linarith
      simp only
      rw [this, e2]
      field_simp [h0.ne]
      ring

/-- High above the topmost row two neighbours of the row are nearest. -/
theorem above_nearest {a b : Pt} (hab : a.2 = b.2) (hlt : b.1 < a.1) : ∀ n : Nat,
    (∀ c < n, (pts c).2 < a.2 ∨ ((pts c).2 = a.2 ∧ ((pts c).1 ≤ b.1 ∨ a.1 ≤ (pts c).1))) →
    ∃ Y0, ∀ Y ≥ Y0, ∀ c < n, dsq a ((a.1 + b.1) / 2, Y) ≤ dsq (pts c) ((a.1 + b.1) / 2, Y) := by
  intro n
  induction n with
  | zero => exact fun _ => ⟨0, by simp⟩
  | succ n ih =>
    intro h
    obtain ⟨Y0, hY⟩ := ih fun c hc => h c (by omega)
    have key : ∃ Y1, ∀ Y ≥ Y1, dsq a ((a.1 + b.1) / 2, Y) ≤ dsq (pts n) ((a.1 + b.1) / 2, Y) := by
      rcases h n (by omega) with hl | ⟨h1, h2⟩
      · refine ⟨(dsq a ((a.1 + b.1) / 2, 0) - dsq (pts n) ((a.1 + b.1) / 2, 0)) / (2 * (a.2 - (pts n).2)), fun Y hY => ?_⟩
        rw [ge_iff_le, div_le_iff₀ (by linarith)] at hY
        unfold dsq at hY ⊢
        simp only at hY ⊢
        nlinarith
      · refine ⟨0, fun Y _ => ?_⟩
        unfold dsq
        simp only
        rw [h1]
        rcases h2 with h2 | h2 <;> nlinarith
    obtain ⟨Y1, hY1⟩ := key
    refine ⟨max Y0 Y1, fun Y h1 c hc => ?_⟩
    rcases Nat.lt_succ_iff_lt_or_eq.mp hc with hc | rfl
    · exact hY Y (le_trans (le_max_left _ _) h1) c hc
    · exact hY1 Y (le_trans (le_max_right _ _) h1)

/-- Common facts about a half-edge that separates two cells. -/
theorem sep_edg (hq : q.Spec evLt ok) (h : Reach pts q n poly s) {e p r : Nat} (he : e < s.d.heCnt) (hs : Separates s.d e p r) :
    ∃ t, Edg s.d e t p r ∧ Edg s.d t e r p := by
  obtain ⟨L, hI⟩ := reach_inv hq h
  obtain ⟨h1, t, h2, h3⟩ := hs
  have : Edg s.d e t p r := ⟨he, h2, h1, h3⟩
  exact ⟨t, this, this.symm hI.dinv⟩

/-- The vertices of an edge are on its bisector. -/
theorem start_bisector (hd : Distinct pts n) (hq : q.Spec evLt ok) (h : Reach pts q n poly s) {e t i j v : Nat} (he : Edg s.d e t i j)
    (hv : (s.d.he e).origin = .vtx v) {zv : Pt} (hzv : (s.d.vs v).pos = some zv) : Nearest pts n i zv ∧ Nearest pts n j zv := by
  obtain ⟨L, hI⟩ := reach_inv hq h
  refine ⟨C25_nearest hd hq h he.lt hv he.inc hzv, ?_⟩
  have hL := C07_links hq h
  have ht := he.symm hI.dinv
  obtain ⟨f, hf⟩ := Option.isSome_iff_exists.mp ((hL.next_iff t ht.lt).mpr ⟨v, e, ht.tw, hv⟩)
  obtain ⟨v', ⟨e', k1, k2⟩, g2⟩ := hL.joins t ht.lt f hf
  rw [ht.tw, Option.some.injEq] at k1
  subst k1
  rw [hv] at k2
  cases k2
  exact C25_nearest hd hq h (hL.next_prev t ht.lt f hf).1 g2 (by rw [hL.same_cell t ht.lt f hf]; exact ht.inc) hzv

theorem Nearest.eq {i j : Nat} {z : Pt} (h1 : Nearest pts n i z) (h2 : Nearest pts n j z) : sqDist (pts i) z = sqDist (pts j) z :=
  le_antisymm (h1.2 j h2.1) (h2.2 i h1.1)

/-- On the origin's side of every half-edge there is a point, as far away as one likes up to the vertex, that is nearest to both sites. -/
theorem side_point (hd : Distinct pts n) (hq : q.Spec evLt ok) (h : Reach pts q n poly s) (hend : s.queue = []) {e t i j : Nat}
    (he : Edg s.d e t i j) {z : Pt} (hz : dsq (pts i) z = dsq (pts j) z)
    (ho : ∀ v zv, (s.d.he e).origin = .vtx v → (s.d.vs v).pos = some zv → Fwd (pts j) (pts i) z zv) :
    ∃ z1, Nearest pts n i z1 ∧ Nearest pts n j z1 ∧ Fwd (pts j) (pts i) z z1 := by
  obtain ⟨L0, hI0⟩ := reach_inv hq h
  have hin := (he.site_lt hI0).1
  obtain ⟨hH, ⟨L, l, hI, hG, hK, hE, _⟩, _⟩ := known_end hd.injOn hq h hend (by omega)
  have hjn := ((he.symm hI.dinv).site_lt hI).1
  have hne := he.pts_ne hd.injOn hI
  have hall : ∀ c < n, pts c ∈ Handled pts s := fun c hc => by rw [hH]; exact ⟨c, hc, rfl⟩
  cases horg : (s.d.he e).origin with
  | vtx v =>
    obtain ⟨hv, _⟩ := hI.dinv.ovt e he.lt v horg
    obtain ⟨zv, hzv, _⟩ := C25_vertices hd hq h v hv
    obtain ⟨h1, h2⟩ := start_bisector hd hq h he horg hzv
    exact ⟨zv, h1, h2, ho v zv horg hzv⟩
  | bp b =>
    obtain ⟨hpair, _⟩ := he.pair hI.dinv horg
    rcases hK.live e he.lt b horg with ⟨k, hk⟩ | hA
    · obtain ⟨m0, hm0⟩ := bp_far hne.symm hz.symm
      obtain ⟨P, R, hL⟩ := List.append_of_mem hk
      have hb : BOk s.og s.pr s.arcCnt s.bpCnt L := hI.beach
      obtain ⟨P', n1, a1, n2, a2, R', e1, e2, e3⟩ := (hL ▸ hb).bp_cases
      have e3 : (s.bps b).pair = (s.og a1, s.og a2) := e3
      rw [hpair, Prod.mk.injEq] at e3
      have hap : ∃ B C, apts pts s L = B ++ pts j :: pts i :: C := by
        refine ⟨apts pts s P', apts pts s R', ?_⟩
        rw [hL, e1, e2, e3.1, e3.2]
        simp [apts]
      obtain ⟨B, C, hBC⟩ := hap
      have hEm := hE (min (l - 1) m0) (lt_of_le_of_lt (min_le_left _ _) (by linarith))
      have hbp := hEm.bp hBC
      have hout : ∀ c < n, dsq (pts j) (bpX (pts j) (pts i) (min (l - 1) m0), bpYv (pts j) (pts i) (min (l - 1) m0)) ≤
          dsq (pts c) (bpX (pts j) (pts i) (min (l - 1) m0), bpYv (pts j) (pts i) (min (l - 1) m0)) := by
        intro c hc
        have := hEm.out hBC (hall c hc)
        unfold pw at this
        rw [hbp.ea]; linarith
      refine ⟨_, ⟨hin, fun c hc => ?_⟩, ⟨hjn, hout⟩, hm0 _ (min_le_right _ _) _ hbp⟩
      have := hout c hc
      rw [hbp.ea, ← hbp.eb] at this
      exact this
    · rw [hpair] at hA
      obtain ⟨h1, h2, h3⟩ := hA
      obtain ⟨Y0, hY0⟩ := above_nearest (pts := pts) h1 h2 n fun c hc => h3 _ (hall c hc)
      have hzx : z.1 = ((pts j).1 + (pts i).1) / 2 := by
        have h1 : (pts j).2 = (pts i).2 := h1
        have h2 : (pts i).1 < (pts j).1 := h2
        have hz' := hz
        unfold dsq at hz'
        rw [h1] at hz'
        have e : ((pts j).1 - (pts i).1) * (2 * z.1 - ((pts j).1 + (pts i).1)) = 0 := by linear_combination hz'
        have := (mul_eq_zero.mp e).resolve_left (by linarith)
        linarith
      have hge := hY0 (max Y0 z.2) (le_max_left _ _)
      have hsame : dsq (pts i) (((pts j).1 + (pts i).1) / 2, max Y0 z.2) = dsq (pts j) (((pts j).1 + (pts i).1) / 2, max Y0 z.2) := by
        have h1 : (pts j).2 = (pts i).2 := h1
        unfold dsq; simp only; rw [h1]; ring
      refine ⟨(((pts j).1 + (pts i).1) / 2, max Y0 z.2), ⟨hin, fun c hc => ?_⟩, ⟨hjn, hge⟩, ?_⟩
      · show dsq _ _ ≤ dsq _ _
        rw [hsame]; exact hge c hc
      · have h1 : (pts j).2 = (pts i).2 := h1
        have h2 : (pts i).1 < (pts j).1 := h2
        refine ⟨(max Y0 z.2 - z.2) / ((pts i).1 - (pts j).1), div_nonpos_of_nonneg_of_nonpos (by linarith [le_max_right Y0 z.2]) (by linarith), ?_, ?_⟩
        · simp only; rw [h1, hzx]; ring
        · simp only
          rw [div_mul_cancel₀ _ (by linarith : (pts i).1 - (pts j).1 < 0).ne]

/-- C64: when the queue is empty, every point of every edge, also of one that is not bounded, is nearest to the sites of both cells. -/
theorem C64_points_nearest (hd : Distinct pts n) (hq : q.Spec evLt ok) (h : Reach pts q n poly s) (hend : s.queue = []) {e p r : Nat}
    (he : e < s.d.heCnt) (hs : Separates s.d e p r) {z : ℝ × ℝ} (hz : OnEdge pts s.d e p r z) : Nearest pts n p z ∧ Nearest pts n r z := by
  obtain ⟨L, hI⟩ := reach_inv hq h
  obtain ⟨t, h1, h2⟩ := sep_edg hq h he hs
  have hne := h1.pts_ne hd.injOn hI
  obtain ⟨z1, a1, a2, a3⟩ := side_point hd hq h hend h1 hz.bisector fun v zv hv hzv =>
    fwd_of_ahead hne.symm hz.bisector.symm ((start_bisector hd hq h h1 hv hzv).2.eq (start_bisector hd hq h h1 hv hzv).1) (hz.start v zv hv hzv)
  obtain ⟨z2, b1, b2, b3⟩ := side_point hd hq h hend h2 hz.bisector.symm fun v zv hv hzv => by
    refine fwd_of_ahead hne hz.bisector ?_ ?_
    · obtain ⟨k1, k2⟩ := start_bisector hd hq h h2 hv hzv
      exact k2.eq k1
    · have := hz.stop v zv ⟨t, h1.tw, hv⟩ hzv
      rw [ahead_flip] at this
      linarith
  have hb := a3.between b3
  exact ⟨a1.between b2 hb, a2.between b1 hb⟩

/-- The edge does not have both its ends at the same place.  (Edges of length zero are made where more than three sites are on an empty
circle.) -/
def HasLength (d : Dcel ℝ) (e : Nat) : Prop :=
  ¬ ∃ v w z, StartsAt d e v ∧ EndsAt d e w ∧ (d.vs v).pos = some z ∧ (d.vs w).pos = some z

/-- A point further along the edge. -/
theorem further (hd : Distinct pts n) (hq : q.Spec evLt ok) (h : Reach pts q n poly s) (hend : s.queue = []) {e t i j v : Nat} {zv : Pt}
    (h1 : Edg s.d e t i j) (hlen : HasLength s.d e) (hv : StartsAt s.d e v) (hzv : (s.d.vs v).pos = some zv) :
    ∃ w, Nearest pts n i w ∧ Nearest pts n j w ∧ 0 < ahead (pts i) (pts j) zv w := by
  obtain ⟨n1, n2⟩ := start_bisector hd hq h h1 hv hzv
  obtain ⟨hH, ⟨L, l, hI, hG, hK, _, _⟩, _⟩ := known_end hd.injOn hq h hend (by have := n1.1; omega)
  have h2 := h1.symm hI.dinv
  have hne := h1.pts_ne hd.injOn hI
  have hD := dsq_pos hne
  unfold dsq at hD
  cases ht : (s.d.he t).origin with
  | vtx u =>
    obtain ⟨zu, hzu, _⟩ := C25_vertices hd hq h u (hI.dinv.ovt t h2.lt u ht).1
    obtain ⟨m1, m2⟩ := start_bisector hd hq h h2 ht hzu
    refine ⟨zu, m2, m1, ?_⟩
    have hr := hK.runs e t i j h1 zv zu (Or.inl ⟨v, hv, hzv⟩) (Or.inl ⟨u, ht, hzu⟩)
    have ha := hr.ahead
    rcases eq_or_lt_of_le ha with h0 | h0
    · exfalso
      have hb := fwd_of_ahead hne.symm (n2.eq n1) (m1.eq m2) (z := zv) (v := zu) (by rw [ahead_swap, ← h0]; simp)
      exact hlen ⟨v, u, zv, hv, ⟨t, h1.tw, ht⟩, hzv, by rw [hzu, hr.antisymm hne.symm hb]⟩
    · exact h0
  | bp b =>
    have hbis : sqDist (pts j) zv = sqDist (pts i) zv := n2.eq n1
    obtain ⟨w, k1, k2, k3⟩ := side_point hd hq h hend h2
      (z := (zv.1 + ((pts j).2 - (pts i).2), zv.2 + ((pts i).1 - (pts j).1))) (by
        unfold sqDist at hbis; unfold dsq; simp only; linear_combination hbis) (by
        intro u zu hu; rw [ht] at hu; cases hu)
    refine ⟨w, k2, k1, ?_⟩
    have k4 := k3.ahead
    rw [ahead_swap, ahead_flip] at k4
    unfold ahead at k4 ⊢
    simp only at k4
    nlinarith

/-- Nothing of the common border of two cells is behind the start of an edge between them. -/
theorem start_ok (hd : Distinct pts n) (hq : q.Spec evLt ok) (h : Reach pts q n poly s) (hend : s.queue = []) {e t i j v : Nat} {zv z : Pt}
    (h1 : Edg s.d e t i j) (hlen : HasLength s.d e) (hv : StartsAt s.d e v) (hzv : (s.d.vs v).pos = some zv)
    (hi : Nearest pts n i z) (hj : Nearest pts n j z) : 0 ≤ ahead (pts i) (pts j) zv z := by
  obtain ⟨hH, ⟨L, l, hI, hG, hK, _, _⟩, _⟩ := known_end hd.injOn hq h hend (by have := hi.1; omega)
  have h2 := h1.symm hI.dinv
  have hne := h1.pts_ne hd.injOn hI
  obtain ⟨n1, n2⟩ := start_bisector hd hq h h1 hv hzv
  have hD := dsq_pos hne
  unfold dsq at hD
  have hvm := (hI.dinv.ovt e h1.lt v hv).1
  obtain ⟨zv', hzv', hvv⟩ := C25_vertices hd hq h v hvm
  rw [hzv, Option.some.injEq] at hzv'
  subst hzv'
  obtain ⟨w, w1, w2, w3⟩ := further hd hq h hend h1 hlen hv hzv
  by_contra hlt
  push Not at hlt
  have hvw : zv ≠ w := by
    rintro rfl
    unfold ahead at w3; simp at w3
  obtain ⟨k, hk⟩ := on_bisector hne hvw (n1.eq n2) (w1.eq w2) (hi.eq hj)
  have hkn : k < 0 := by
    rw [hk] at hlt
    unfold ahead at hlt w3
    simp only at hlt w3
    by_contra hcon
    push Not at hcon
    nlinarith [mul_nonneg hcon w3.le]
  have hij : i ≠ j := h1.ne hI.dinv
  exact beyond_vertex hd hij hvw hvv n1 n2 w1 w2 hkn (hk ▸ hi)

/-- C64: an edge of positive length is exactly the common border of the two cells, also if it is not bounded. -/
theorem C64_edge_exact (hd : Distinct pts n) (hq : q.Spec evLt ok) (h : Reach pts q n poly s) (hend : s.queue = []) {e p r : Nat}
    (he : e < s.d.heCnt) (hs : Separates s.d e p r) (hlen : HasLength s.d e) (z : ℝ × ℝ) :
    OnEdge pts s.d e p r z ↔ Nearest pts n p z ∧ Nearest pts n r z := by
  constructor
  · exact C64_points_nearest hd hq h hend he hs
  rintro ⟨hp, hr⟩
  obtain ⟨t, h1, h2⟩ := sep_edg hq h he hs
  refine ⟨hp.eq hr, fun v zv hv hzv => start_ok hd hq h hend h1 hlen hv hzv hp hr, ?_⟩
  rintro w zw ⟨t', ht', hw⟩ hzw
  rw [h1.tw, Option.some.injEq] at ht'
  subst ht'
  have := start_ok hd hq h hend h2 (e := t) (v := w) (fun ⟨v1, w1, z1, a1, ⟨e', a2, a2'⟩, a3, a4⟩ => by
    rw [h2.tw, Option.some.injEq] at a2
    subst a2
    exact hlen ⟨w1, v1, z1, a2', ⟨t, h1.tw, a1⟩, a4, a3⟩) hw hzw hr hp
  rw [ahead_flip] at this
  linarith

/-- C64: whenever two sites are both nearest at two different points, an edge of positive length separates their cells; by
`C64_edge_exact` it is the common border. -/
theorem C64_edge_exists (hd : Distinct pts n) (hq : q.Spec evLt ok) (h : Reach pts q n poly s) (hend : s.queue = []) {p r : Nat} (hpr : p ≠ r)
    {z w : ℝ × ℝ} (hzw : z ≠ w) (hpz : Nearest pts n p z) (hrz : Nearest pts n r z) (hpw : Nearest pts n p w) (hrw : Nearest pts n r w) :
    ∃ e < s.d.heCnt, Separates s.d e p r ∧ HasLength s.d e := by
  obtain ⟨hH, ⟨L, l, hI, _⟩, _, h2⟩ := known_end hd.injOn hq h hend (by have := hpz.1; omega)
  have hne : pts p ≠ pts r := fun he => hpr (hd p hpz.1 r hrz.1 he)
  have hpm := hpz.between hpw (between_mid z w)
  have hrm := hrz.between hrw (between_mid z w)
  obtain ⟨m, hem, hon⟩ := nearest_circle hH hpm
  have honly : ∀ i, Nearest pts n i ((z.1 + w.1) / 2, (z.2 + w.2) / 2) → pts i = pts p ∨ pts i = pts r := by
    intro i hi
    have e1 := hi.2 p hpm.1
    have e2 := hpm.2 i hi.1
    have e3 := hpz.2 i hi.1
    have e4 := hpw.2 i hi.1
    have q1 : sqDist (pts i) z = sqDist (pts p) z ∧ sqDist (pts i) w = sqDist (pts p) w := by
      unfold sqDist at *
      simp only at *
      constructor <;> nlinarith
    exact third_site hne hzw (hpz.eq hrz) (hpw.eq hrw) q1.1 q1.2
  obtain ⟨l', hl'⟩ := h2 _ m hem (pts p) (pts r) hne ((hon _).mpr ⟨p, hpm, rfl⟩) ((hon _).mpr ⟨r, hrm, rfl⟩) (by
    intro c hc
    obtain ⟨i, hi, rfl⟩ := (hon c).mp hc
    exact honly i hi)
  obtain ⟨f, t, i, j, h1, hc, h6, h7⟩ := hl' l' le_rfl
  have hi := hd i (h1.site_lt hI).1 p hpz.1 h6
  have hj := hd j ((h1.symm hI.dinv).site_lt hI).1 r hrz.1 h7
  subst hi; subst hj
  refine ⟨f, h1.lt, ⟨h1.inc, t, h1.tw, h1.tinc⟩, ?_⟩
  rintro ⟨v, u, x, hv, ⟨t', ht', hu⟩, hvx, hux⟩
  rw [h1.tw, Option.some.injEq] at ht'
  subst ht'
  have k1 := hc.org x (Or.inl ⟨v, hv, hvx⟩)
  have k2 := hc.tgt x (Or.inl ⟨u, hu, hux⟩)
  have hx := k1.antisymm hne.symm k2.swap
  obtain ⟨x', hx', ⟨a, b, c, hab, hbc, hac, ha, hb, hc'⟩⟩ := C25_vertices hd hq h v (hI.dinv.ovt f h1.lt v hv).1
  rw [hvx, Option.some.injEq] at hx'
  subst hx'
  rw [← hx] at ha hb hc'
  have oa := (honly a ha).imp (hd a ha.1 i hpz.1) (hd a ha.1 j hrz.1)
  have ob := (honly b hb).imp (hd b hb.1 i hpz.1) (hd b hb.1 j hrz.1)
  have oc := (honly c hc').imp (hd c hc'.1 i hpz.1) (hd c hc'.1 j hrz.1)
  omega

/-- The hypotheses can be met: three sites, a run over the reals that ends, and the unbounded edge between sites 0 and 1, to which
`(1, -100)` belongs and `(1, 2)` does not. -/
example (poly : Poly ℝ) : ∃ s, Reach tri3 heapq 3 poly s ∧ s.queue = [] ∧ ∃ e < s.d.heCnt, Separates s.d e 0 1 ∧
    OnEdge tri3 s.d e 0 1 (1, -100) ∧ ¬ OnEdge tri3 s.d e 0 1 (1, 2) := by
  obtain ⟨s, _, _, hr, hend⟩ := C23_no_errors (poly := poly) tri3_distinct C45_event_queue (fuel := 22) (by norm_num)
  have hlow : ∀ y : ℝ, y ≤ 1 → ∀ p < 2, Nearest tri3 3 p (1, y) := by
    intro y hy p hp
    refine ⟨by omega, fun c hc => ?_⟩
    have h1 : p = 0 ∨ p = 1 := by omega
    have h2 : c = 0 ∨ c = 1 ∨ c = 2 := by omega
    rcases h1 with rfl | rfl <;> rcases h2 with rfl | rfl | rfl <;> norm_num [tri3, sqDist] <;> nlinarith
  obtain ⟨e, he, hs, hl⟩ := C64_edge_exists tri3_distinct C45_event_queue hr hend (p := 0) (r := 1) (by norm_num) (z := (1, 1)) (w := (1, -1))
    (by norm_num) (hlow 1 le_rfl 0 (by norm_num)) (hlow 1 le_rfl 1 (by norm_num)) (hlow _ (by norm_num) 0 (by norm_num))
    (hlow _ (by norm_num) 1 (by norm_num))
  have hx := C64_edge_exact tri3_distinct C45_event_queue hr hend he hs hl
  refine ⟨s, hr, hend, e, he, hs, (hx _).mpr ⟨hlow _ (by norm_num) 0 (by norm_num), hlow _ (by norm_num) 1 (by norm_num)⟩, fun hc => ?_⟩
  have := ((hx _).mp hc).1.2 2 (by norm_num)
  norm_num [tri3, sqDist] at this

end Foronoi
