import Verif.Proof.CellCycle

/-!
# There is one closed chain per cell, and the first edge is on it
-/

namespace Foronoi

open scoped List

variable {pts : Nat → ℝ × ℝ} {q : PQ (QE ℝ)} {ok : List (QE ℝ) → Prop} {n : Nat} {poly : Poly ℝ} {s s1 s2 : St ℝ} {vs : List Nat} {V : Nat → Nat} {cell : Nat}

theorem mid_ne {x y : Pt} (h : x ≠ y) : ((x.1 + y.1) / 2, (x.2 + y.2) / 2) ≠ x ∧ ((x.1 + y.1) / 2, (x.2 + y.2) / 2) ≠ y := by
  constructor
  · intro hh
    apply h
    obtain ⟨h1, h2⟩ := Prod.ext_iff.mp hh
    simp only at h1 h2
    exact Prod.ext (by linarith) (by linarith)
  · intro hh
    apply h
    obtain ⟨h1, h2⟩ := Prod.ext_iff.mp hh
    simp only at h1 h2
    exact Prod.ext (by linarith) (by linarith)

/-- Points strictly between consecutive points of the ring are in the order of the keys. -/
theorem Ring.key_between {l : List Pt} {c : Pt} {P : Nat → Pt} {m : Nat} (hl : ClockwiseConvex l) (hc : StrictlyInside l c) (hk : KeySorted c l)
    (hr : Ring c l P m) {j : Nat} (hj : j < m) {z : Pt} (hb : Between (P j) (P (j + 1)) z) (h1 : z ≠ P j) (h2 : z ≠ P (j + 1)) :
    (j + 1 < m → orderKey c (P j) < orderKey c z ∧ orderKey c z < orderKey c (P (j + 1))) ∧
    (j + 1 = m → orderKey c (P j) < orderKey c z ∨ orderKey c z < orderKey c (P 0)) := by
  obtain ⟨⟨k, s1, s2⟩, ht⟩ := hr.step hl hc hk hj
  obtain ⟨s3, t1, t2⟩ := side_turn_between hc s1 s2 ht hb
  have u1 := key_of_turn (side_turn hc s1 s3 (Ne.symm h1) t1 hc)
  have u2 := key_of_turn (side_turn hc s3 s2 h2 t2 hc)
  obtain ⟨x0, x1⟩ := key_range c (P j)
  obtain ⟨y0, y1⟩ := key_range c z
  constructor
  · intro h
    have hs := hr.sorted _ _ (Nat.le_succ j) h
    rcases u1 with ⟨a, b⟩ | a <;> rcases u2 with ⟨a', b'⟩ | a'
    · exact ⟨a, a'⟩
    · linarith
    · linarith
    · linarith
  · intro h
    rw [h, hr.close] at u2
    have g1 := hr.sorted 0 j (Nat.zero_le _) hj
    have g2 := (key_range c (P 0)).1
    rcases u1 with ⟨a, b⟩ | a <;> rcases u2 with ⟨a', b'⟩ | a'
    · exact Or.inl a
    · exact Or.inl a
    · exact Or.inr a'
    · linarith

theorem Ring.unique {l : List Pt} {c : Pt} {P : Nat → Pt} {m : Nat} (hl : ClockwiseConvex l) (hc : StrictlyInside l c) (hk : KeySorted c l)
    (hr : Ring c l P m) {i j : Nat} (hi : i < m) (hj : j < m) {z : Pt} (hb : Between (P i) (P (i + 1)) z) (h1 : z ≠ P i) (h2 : z ≠ P (i + 1))
    (hb' : Between (P j) (P (j + 1)) z) (h1' : z ≠ P j) (h2' : z ≠ P (j + 1)) : i = j := by
  obtain ⟨a1, a2⟩ := hr.key_between hl hc hk hi hb h1 h2
  obtain ⟨b1, b2⟩ := hr.key_between hl hc hk hj hb' h1' h2'
  rcases lt_trichotomy i j with h | h | h
  · exfalso
    obtain ⟨c1, c2⟩ := a1 (by omega)
    have d1 := hr.sorted (i + 1) j (by omega) hj
    have d2 := hr.sorted 0 i (by omega) hi
    rcases Nat.lt_or_ge (j + 1) m with h' | h'
    · obtain ⟨e1, e2⟩ := b1 h'
      linarith
    · rcases b2 (by omega) with e | e <;> linarith
  · exact h
  · exfalso
    obtain ⟨c1, c2⟩ := b1 (by omega)
    have d1 := hr.sorted (j + 1) i (by omega) hi
    have d2 := hr.sorted 0 j (by omega) hj
    rcases Nat.lt_or_ge (i + 1) m with h' | h'
    · obtain ⟨e1, e2⟩ := a1 h'
      linarith
    · rcases a2 (by omega) with e | e <;> linarith

namespace Closing

variable (B : Closing pts q ok n poly s s1 s2 vs V cell)
include B

/-- A point on a kept half-edge and on the border is an end of it, and a point of the ring. -/
theorem on_both {f t i o : Nat} (hE : Edg s.d f t i o) {x y z : Pt} (hx : opos s1.d f = some x) (hy : opos s1.d t = some y) (hz : OnBoundary poly.points z)
    (hb : Between x y z) : (z = x ∨ z = y) ∧ ∃ j < vs.length, place s1.d (V j) = z := by
  have hF := B.fits.toFitsPolygon
  obtain ⟨L, hI⟩ := reach_inv B.spec B.reach
  have het := hE.symm hI.dinv
  obtain ⟨_, ⟨w, w1, w2⟩, _, hpts⟩ := (B.half hE).2.2.1 x y hx hy
  have := border_end (hpts x (between_left _ _)).1 (hpts y (between_right _ _)).1 hz hb w1 w2
  refine ⟨this, ?_⟩
  rcases this with rfl | rfl
  · obtain ⟨j, hj, _, h, _⟩ := B.start_hd hE.lt hx hz
    exact ⟨j, hj, h⟩
  · obtain ⟨j, hj, _, h, _⟩ := B.start_hd het.lt hy hz
    exact ⟨j, hj, h⟩

/-- Two half-edges of a cell that share a point which is not an end of the first are the same. -/
theorem seg_unique (hn : 0 < n) {p f g : Nat} (hf : OfCell s s1 vs V cell p f) (hg : OfCell s s1 vs V cell p g)
    (hne : startAt s2.d f ≠ startAt s2.d (nxt s2.d f)) (hne' : startAt s2.d g ≠ startAt s2.d (nxt s2.d g))
    {z : Pt} (hbf : Between (startAt s2.d f) (startAt s2.d (nxt s2.d f)) z) (z1 : z ≠ startAt s2.d f) (z2 : z ≠ startAt s2.d (nxt s2.d f))
    (hb : Between (startAt s2.d g) (startAt s2.d (nxt s2.d g)) z) : f = g := by
  have hF := B.fits.toFitsPolygon
  obtain ⟨L, hI⟩ := reach_inv B.spec B.reach
  obtain ⟨u, u0, u1, hu⟩ : ∃ u : ℝ, 0 < u ∧ u < 1 ∧ z = along (startAt s2.d f) (startAt s2.d (nxt s2.d f)) u := by
    obtain ⟨u, u0, u1, hu⟩ := hbf
    refine ⟨u, lt_of_le_of_ne u0 fun h => z1 ?_, lt_of_le_of_ne u1 fun h => z2 ?_, hu⟩
    · rw [hu, ← h]; refine Prod.ext ?_ ?_ <;> simp
    · rw [hu, h]; refine Prod.ext ?_ ?_ <;> simp
  have hrf := ((B.seg hn hf).1 _ hbf)
  obtain ⟨_, ⟨t, o, hk, hE, hx, hy⟩ | ⟨j, hj, ef, hl, ex, ey⟩⟩ := B.piece hn hf
  · obtain ⟨_, ⟨t', o', hk', hE', hx', hy'⟩ | ⟨j', hj', eg, hl', ex', ey'⟩⟩ := B.piece hn hg
    · have l1 := (B.kept_place hE hx hy).2 hne
      have l2 := (B.kept_place hE' hx' hy').2 hne'
      obtain ⟨_, _, _, hpts⟩ := (B.half hE).2.2.1 _ _ hx hy
      obtain ⟨_, _, _, hpts'⟩ := (B.half hE').2.2.1 _ _ hx' hy'
      have hoo : o' = o := by
        obtain ⟨_, a1, a2⟩ := hpts _ (between_left _ _)
        obtain ⟨_, b1, b2⟩ := hpts _ (between_right _ _)
        obtain ⟨_, c1, c2⟩ := hpts' _ hb
        -- the difference to `o'` vanishes in the middle, so it vanishes at both ends
        have d1 : dsq (pts p) (startAt s2.d f) ≤ dsq (pts o') (startAt s2.d f) := a1.2 o' c2.1
        have d2 : dsq (pts p) (startAt s2.d (nxt s2.d f)) ≤ dsq (pts o') (startAt s2.d (nxt s2.d f)) := b1.2 o' c2.1
        have d3 : dsq (pts p) _ = dsq (pts o') _ := c1.eq c2
        have e := along_diff (pts p) (pts o') (startAt s2.d f) (startAt s2.d (nxt s2.d f)) u
        rw [← hu, ← d3, sub_self] at e
        have k1 := mul_nonneg (sub_pos.mpr u1).le (sub_nonneg.mpr d1)
        have k2 := mul_nonneg u0.le (sub_nonneg.mpr d2)
        have e1 : dsq (pts o') (startAt s2.d f) = dsq (pts p) (startAt s2.d f) := by
          have : (1 - u) * (dsq (pts o') (startAt s2.d f) - dsq (pts p) (startAt s2.d f)) = 0 := by linarith
          rcases mul_eq_zero.mp this with h | h <;> linarith
        have e2 : dsq (pts o') (startAt s2.d (nxt s2.d f)) = dsq (pts p) (startAt s2.d (nxt s2.d f)) := by
          have : u * (dsq (pts o') (startAt s2.d (nxt s2.d f)) - dsq (pts p) (startAt s2.d (nxt s2.d f))) = 0 := by linarith
          rcases mul_eq_zero.mp this with h | h <;> linarith
        rcases third_site (hE.pts_ne B.dist.injOn hI) hne (a1.eq a2) (b1.eq b2) e1 e2 with h | h
        · exact absurd (B.dist _ c2.1 _ a1.1 h).symm (hE'.ne hI.dinv)
        · exact B.dist _ c2.1 _ a2.1 h
      subst hoo
      exact C69_no_duplicate B.dist B.spec B.reach B.done hE.lt hE'.lt ⟨hE.inc, t, hE.tw, hE.tinc⟩ ⟨hE'.inc, t', hE'.tw, hE'.tinc⟩ l1 l2
    · exfalso
      rw [ex', ey'] at hb
      obtain ⟨⟨k, s1', s2'⟩, hturn⟩ := B.ring.step hF.convex B.fits.center B.keySorted hj'
      have hon := (side_turn_between B.fits.center s1' s2' hturn hb).1
      rcases (B.on_both hE hx hy ⟨k, hon⟩ hbf).1 with h | h
      · exact z1 h
      · exact z2 h
  · have hbf' := hbf
    rw [ex, ey] at hbf'
    rw [ex] at z1
    rw [ey] at z2
    obtain ⟨⟨k, s1', s2'⟩, hturn⟩ := B.ring.step hF.convex B.fits.center B.keySorted hj
    have hon : OnBoundary poly.points _ := ⟨k, (side_turn_between B.fits.center s1' s2' hturn hbf').1⟩
    have hnot : ∀ i < vs.length, place s1.d (V i) ≠ z := by
      intro i hi h
      rcases B.ring.empty hF.convex B.fits.center B.keySorted hj hi (by rw [h]; exact hbf') with hh | hh
      · exact z1 (h.symm.trans hh)
      · exact z2 (h.symm.trans hh)
    obtain ⟨_, ⟨t', o', hk', hE', hx', hy'⟩ | ⟨j', hj', eg, hl', ex', ey'⟩⟩ := B.piece hn hg
    · exfalso
      obtain ⟨i, hi, h⟩ := (B.on_both hE' hx' hy' hon hb).2
      exact hnot i hi h
    · rw [ex', ey'] at hb
      have hvm : ∃ i < vs.length, V (j' + 1) = V i := by
        rcases Nat.lt_or_ge (j' + 1) vs.length with h | h
        · exact ⟨j' + 1, h, rfl⟩
        · exact ⟨0, by omega, by rw [show j' + 1 = vs.length by omega, B.fp.V_end]⟩
      obtain ⟨i, hi, hvi⟩ := hvm
      have : j = j' := B.ring.unique hF.convex B.fits.center B.keySorted hj hj' hbf' z1 z2 hb (hnot j' hj').symm (by rw [hvi]; exact (hnot i hi).symm)
      rw [ef, eg, this]

/-- The half-edges of a cell are one closed chain. -/
theorem one_chain (hn : 0 < n) {p f g : Nat} {c : Pt} (hm : Mid pts n poly p c) (hf : OfCell s s1 vs V cell p f) (hg : OfCell s s1 vs V cell p g) : ∃ i, (nxt s2.d)^[i] g = f := by
  obtain ⟨k, hk, hkf⟩ := B.period hn hf
  obtain ⟨m, hm0, hmg⟩ := B.period hn hg
  obtain ⟨j, hj, hne⟩ := B.moves hn hf hk hkf
  have hf' := B.iter hn hf j
  rw [Function.iterate_succ_apply'] at hne
  have hrim := (B.seg hn hf').1 _ (between_mid _ _)
  have hzc : (((startAt s2.d ((nxt s2.d)^[j] f)).1 + (startAt s2.d (nxt s2.d ((nxt s2.d)^[j] f))).1) / 2,
      ((startAt s2.d ((nxt s2.d)^[j] f)).2 + (startAt s2.d (nxt s2.d ((nxt s2.d)^[j] f))).2) / 2) ≠ c := fun hh => hm.not_rim (hh ▸ hrim)
  obtain ⟨i, hi, hne', w, t, t0, hb, h1, h2⟩ := B.ray hn hg hm0 hmg hm hzc
  have hg' := B.iter hn hg i
  rw [Function.iterate_succ_apply'] at hne' hb
  have hw := rim_unique hm hrim ((B.seg hn hg').1 _ hb) t0 h1 h2
  rw [hw] at hb
  have heq := B.seg_unique hn hf' hg' hne hne' (between_mid _ _) (mid_ne hne).1 (mid_ne hne).2 hb
  refine ⟨(k - j) + i, ?_⟩
  rw [Function.iterate_add_apply, ← heq, ← Function.iterate_add_apply, Nat.sub_add_cancel hj.le, hkf]

end Closing

end Foronoi
