import Verif.Proof.CellNext
import Verif.Proof.SweepCycle
import Verif.Props.Unique
import Mathlib.Dynamics.PeriodicPts.Defs

/-!
# The half-edges of a cell form one closed chain
-/

namespace Foronoi

open scoped List

variable {pts : Nat → ℝ × ℝ} {q : PQ (QE ℝ)} {ok : List (QE ℝ) → Prop} {n : Nat} {poly : Poly ℝ} {s s1 s2 : St ℝ} {vs : List Nat} {V : Nat → Nat} {cell : Nat}

/-! ### the cell as a set of points -/

/-- A point of the cell of `p` in the polygon, but not in its interior. -/
def Rim (pts : Nat → ℝ × ℝ) (n : Nat) (poly : Poly ℝ) (p : Nat) (z : Pt) : Prop :=
  InClosed poly.points z ∧ Nearest pts n p z ∧ ((∃ o, o ≠ p ∧ Nearest pts n o z) ∨ OnBoundary poly.points z)

/-- A point in the interior of the cell. -/
structure Mid (pts : Nat → ℝ × ℝ) (n : Nat) (poly : Poly ℝ) (p : Nat) (c : Pt) : Prop where
  lt : p < n
  inside : StrictlyInside poly.points c
  near : ∀ o < n, o ≠ p → dsq (pts p) c < dsq (pts o) c

theorem Mid.nearest {p : Nat} {c : Pt} (h : Mid pts n poly p c) : Nearest pts n p c := by
  refine ⟨h.lt, fun o ho => ?_⟩
  by_cases e : o = p
  · rw [e]
  · exact (h.near o ho e).le

/-- From an interior point to a point of the cell: all points on the way are interior. -/
theorem Mid.along {p : Nat} {c z : Pt} (h : Mid pts n poly p c) (hz : InClosed poly.points z) (hp : Nearest pts n p z) {t : ℝ} (t0 : 0 < t) (t1 : t ≤ 1) :
    Mid pts n poly p (along z c t) := by
  refine ⟨h.lt, along_inside hz h.inside t0 t1, fun o ho hne => ?_⟩
  have e := along_diff (pts p) (pts o) z c t
  have h1 := h.near o ho hne
  have h2 : dsq (pts p) z ≤ dsq (pts o) z := hp.2 o ho
  have h3 := mul_pos t0 (sub_pos.mpr h1)
  have h4 := mul_nonneg (by linarith : 0 ≤ 1 - t) (sub_nonneg.mpr h2)
  linarith

theorem Mid.not_rim {p : Nat} {c : Pt} (h : Mid pts n poly p c) : ¬ Rim pts n poly p c := by
  rintro ⟨_, _, ⟨o, h1, h2⟩ | h1⟩
  · exact absurd (h2.2 p h.lt) (not_le.mpr (h.near o h2.1 h1))
  · exact h1.not_inside h.inside

theorem Shown.mid {p : Nat} (hS : Shown pts n poly p) : ∃ c, Mid pts n poly p c := by
  obtain ⟨c, h1, h2⟩ := hS.part
  exact ⟨c, hS.lt, h1, h2⟩

/-- Every cell with a part in the polygon is shown if this holds for all cells. -/
theorem FitsBorder.shown (hF : FitsBorder pts n poly) {p : Nat} (hp : p < n) : Shown pts n poly p := by
  refine ⟨hp, hF.meets p hp, ?_⟩
  rcases Nat.lt_or_ge n 2 with h2 | h2
  · refine Or.inr fun R => ⟨((pts p).1 + (|R| + 1), (pts p).2), ⟨hp, fun o ho => ?_⟩, ?_⟩
    · have : o = p := by omega
      rw [this]
    · have e : sqDist (pts p) ((pts p).1 + (|R| + 1), (pts p).2) = (|R| + 1) ^ 2 := by unfold sqDist; simp only; ring
      rw [e]
      have := le_abs_self R
      have := abs_nonneg R
      nlinarith
  · obtain ⟨o, ho, hop⟩ : ∃ o < n, o ≠ p := ⟨if p = 0 then 1 else 0, by split <;> omega, by split <;> omega⟩
    obtain ⟨c, c1, c2⟩ := hF.meets o ho
    exact Or.inl ⟨c, c1, fun h => absurd (h.2 o ho) (not_le.mpr (c2 p hp hop.symm))⟩

/-- Near a point in the interior one is in the interior. -/
theorem inside_near {l : List Pt} {z : Pt} (hz : StrictlyInside l z) (u : Pt) : ∃ t : ℝ, 0 < t ∧ t ≤ 1 ∧ StrictlyInside l (along z u t) := by
  have hopen : IsOpen {t : ℝ | ∀ i < l.length, 0 < rightOf (corner l i) (corner l (i + 1)) (along z u t)} := by
    have e : {t : ℝ | ∀ i < l.length, 0 < rightOf (corner l i) (corner l (i + 1)) (along z u t)} =
        ⋂ i ∈ Finset.range l.length, {t : ℝ | 0 < rightOf (corner l i) (corner l (i + 1)) (along z u t)} := by
      ext t; simp
    rw [e]
    refine isOpen_biInter_finset fun i _ => isOpen_lt continuous_const ?_
    unfold rightOf along
    fun_prop
  obtain ⟨ε, e0, he⟩ := Metric.isOpen_iff.mp hopen 0 (by
    intro i hi
    have : along z u 0 = z := by refine Prod.ext ?_ ?_ <;> simp [along]
    rw [this]; exact hz i hi)
  refine ⟨min (ε / 2) 1, by positivity, min_le_right _ _, he ?_⟩
  rw [Metric.mem_ball, Real.dist_eq, sub_zero, abs_of_pos (by positivity)]
  exact (min_le_left _ _).trans_lt (by linarith)

/-- On the way from a point of a cell to its site one is in the interior of the cell. -/
theorem toward_site (hd : Distinct pts n) {p : Nat} {z : Pt} (hz : Nearest pts n p z) {t : ℝ} (t0 : 0 < t) (t1 : t ≤ 1) {o : Nat} (ho : o < n) (hop : o ≠ p) :
    dsq (pts p) (along z (pts p) t) < dsq (pts o) (along z (pts p) t) := by
  have e := along_diff (pts p) (pts o) z (pts p) t
  have h1 : dsq (pts p) z ≤ dsq (pts o) z := hz.2 o ho
  have h2 := dsq_pos (fun hh : pts o = pts p => hop (hd o ho p hz.1 hh))
  have h3 : dsq (pts p) (pts p) = 0 := by unfold dsq; ring
  have h4 := mul_pos t0 h2
  have h5 := mul_nonneg (by linarith : 0 ≤ 1 - t) (sub_nonneg.mpr h1)
  rw [h3] at e
  linarith

/-- A cell that meets the polygon has a part in its interior. -/
theorem mid_of_cell (hF : FitsCorners pts n poly) (hd : Distinct pts n) {p : Nat} {z : Pt} (hz : InClosed poly.points z) (hp : Nearest pts n p z) :
    ∃ c, Mid pts n poly p c := by
  have key : ∀ {z : Pt}, StrictlyInside poly.points z → Nearest pts n p z → ∃ c, Mid pts n poly p c := by
    intro z h1 h2
    obtain ⟨t, t0, t1, ht⟩ := inside_near h1 (pts p)
    exact ⟨_, h2.1, ht, fun o ho hop => toward_site hd h2 t0 t1 ho hop⟩
  rcases closed_cases hF.convex hz with h | h
  · exact key h hp
  by_cases hc : Nearest pts n p poly.center
  · exact key hF.center hc
  obtain ⟨t, o, t0, t1, hop, n1, n2⟩ := nearest_lost hp hc
  rcases t0.lt_or_eq with t0 | t0
  · exact key (along_inside hz hF.center t0 t1.le) n1
  · have e : along z poly.center t = z := by
      rw [← t0]; refine Prod.ext ?_ ?_ <;> simp [along]
    rw [e] at n2
    obtain ⟨u, u1, u2⟩ := hF.touch p o z hop.symm h hp n2
    obtain ⟨ε, e0, e1, hst⟩ := nearest_stay hop.symm hp n2 (fun hv => hF.border z hv h) u2
    exact key (along_inside hz u1 e0 e1) (hst ε e0.le le_rfl).1

/-- On a ray from an interior point there is at most one point of the rim. -/
theorem rim_unique {p : Nat} {c z w : Pt} (h : Mid pts n poly p c) (hz : Rim pts n poly p z) (hw : Rim pts n poly p w) {t : ℝ} (t0 : 0 < t)
    (h1 : w.1 - c.1 = t * (z.1 - c.1)) (h2 : w.2 - c.2 = t * (z.2 - c.2)) : w = z := by
  rcases lt_trichotomy t 1 with ht | ht | ht
  · have : w = along z c (1 - t) := Prod.ext (by simp only [along]; linarith) (by simp only [along]; linarith)
    exact absurd hw (this ▸ (h.along hz.1 hz.2.1 (by linarith) (by linarith)).not_rim)
  · subst ht
    exact Prod.ext (by linarith) (by linarith)
  · have hi : 0 < 1 - 1 / t := by
      have : 1 / t < 1 := (div_lt_one t0).mpr ht
      linarith
    have : z = along w c (1 - 1 / t) := by
      have e1 : z.1 - c.1 = (w.1 - c.1) / t := by rw [h1]; field_simp
      have e2 : z.2 - c.2 = (w.2 - c.2) / t := by rw [h2]; field_simp
      refine Prod.ext ?_ ?_ <;> simp only [along]
      · linear_combination e1
      · linear_combination e2
    exact absurd hz (this ▸ (h.along hw.1 hw.2.1 hi (by have : 0 < 1 / t := by positivity
                                                        linarith)).not_rim)

/-! ### the chain -/

/-- The next half-edge. -/
def nxt (d : Dcel ℝ) (f : Nat) : Nat := ((d.he f).next).getD f

/-- Where a half-edge starts. -/
def startAt (d : Dcel ℝ) (f : Nat) : Pt := (opos d f).getD (0, 0)

namespace Closing

variable (B : Closing pts q ok n poly s s1 s2 vs V cell)
include B

theorem step (hn : 0 < n) {p f : Nat} (hf : OfCell s s1 vs V cell p f) :
    OfCell s s1 vs V cell p (nxt s2.d f) ∧ (s2.d.he f).next = some (nxt s2.d f) ∧ (s2.d.he (nxt s2.d f)).prev = some f ∧
      ∃ t, (s2.d.he f).twin = some t ∧ opos s2.d t = some (startAt s2.d (nxt s2.d f)) := by
  obtain ⟨g, t, y, h1, h2, h3, h4, h5, h6, _⟩ := B.cell_next hn hf
  have e : nxt s2.d f = g := by unfold nxt; rw [h2]; rfl
  rw [e]
  refine ⟨h1, h2, h3, t, h4, ?_⟩
  unfold startAt
  rw [h5, h6]; rfl

theorem cell_lt {p f : Nat} (hf : OfCell s s1 vs V cell p f) : f < s2.d.heCnt := by
  have := B.fp.binv.heCnt
  have := B.heCnt
  rcases hf with ⟨h, _⟩ | ⟨j, hj, rfl, _⟩
  · have := B.kept_lt h
    omega
  · omega

theorem iter (hn : 0 < n) {p f : Nat} (hf : OfCell s s1 vs V cell p f) (i : Nat) : OfCell s s1 vs V cell p ((nxt s2.d)^[i] f) := by
  induction i with
  | zero => exact hf
  | succ i ih => rw [Function.iterate_succ_apply']; exact (B.step hn ih).1

/-- The half-edges of a cell are on closed chains. -/
theorem period (hn : 0 < n) {p f : Nat} (hf : OfCell s s1 vs V cell p f) : ∃ k, 0 < k ∧ (nxt s2.d)^[k] f = f := by
  classical
  let S := {f : Nat // OfCell s s1 vs V cell p f}
  have hfin : Finite S := Set.Finite.to_subtype (Set.Finite.subset (Set.finite_Iio s2.d.heCnt) fun f hf => B.cell_lt hf)
  let N : S → S := fun f => ⟨nxt s2.d f.1, (B.step hn f.2).1⟩
  have hinj : Function.Injective N := by
    intro a b hab
    have e : nxt s2.d a.1 = nxt s2.d b.1 := congrArg Subtype.val hab
    have h1 := (B.step hn a.2).2.2.1
    have h2 := (B.step hn b.2).2.2.1
    rw [e, h2, Option.some.injEq] at h1
    exact Subtype.ext h1.symm
  obtain ⟨k, hk, hp⟩ := hinj.mem_periodicPts ⟨f, hf⟩
  have hit : ∀ (i : Nat) (x : S), (N^[i] x).1 = (nxt s2.d)^[i] x.1 := by
    intro i
    induction i with
    | zero => exact fun _ => rfl
    | succ i ih => intro x; rw [Function.iterate_succ_apply, Function.iterate_succ_apply, ih]
  refine ⟨k, hk, ?_⟩
  have := congrArg Subtype.val hp
  rw [hit] at this
  exact this

/-- The two ends of a kept half-edge. -/
theorem kept_place {f t i o : Nat} (hE : Edg s.d f t i o) {x y : Pt} (hx : opos s1.d f = some x) (hy : opos s1.d t = some y) :
    (x = y → ¬ HasLength s.d f ∧ StrictlyInside poly.points y) ∧ (x ≠ y → HasLength s.d f) := by
  obtain ⟨L, hI⟩ := reach_inv B.spec B.reach
  have het := hE.symm hI.dinv
  obtain ⟨_, ⟨z, hz, hzb⟩, hb, _⟩ := (B.half hE).2.2.1 x y hx hy
  constructor
  · rintro rfl
    have hxz : z = x := by
      obtain ⟨u, _, _, hu⟩ := hzb
      rw [hu]; apply Prod.ext <;> simp only <;> ring
    rw [hxz] at hz
    refine ⟨?_, hz⟩
    rcases B.start hE.lt hx with ⟨_, ⟨v, _, g1, g2⟩, _⟩ | ⟨g1, _⟩
    · rcases B.start het.lt hy with ⟨_, ⟨w, _, k1, k2⟩, _⟩ | ⟨k1, _⟩
      · exact fun hh => hh ⟨v, w, x, g1, ⟨t, hE.tw, k1⟩, g2, k2⟩
      · exact absurd hz k1.not_inside
    · exact absurd hz g1.not_inside
  · intro hne
    rcases B.start hE.lt hx with ⟨_, ⟨v, _, g1, g2⟩, _⟩ | ⟨g1, _⟩
    · rcases B.start het.lt hy with ⟨_, ⟨w, _, k1, k2⟩, _⟩ | ⟨k1, _⟩
      · rintro ⟨v', w', z, a1, ⟨t', a2, a3⟩, a4, a5⟩
        rw [hE.tw, Option.some.injEq] at a2
        subst a2
        have e1 : v = v' := Org.vtx.inj (g1.symm.trans a1)
        have e2 : w = w' := Org.vtx.inj (k1.symm.trans a3)
        subst e1 e2
        rw [g2, Option.some.injEq] at a4
        rw [k2, Option.some.injEq] at a5
        exact hne (a4.trans a5.symm)
      · exact hb (Or.inr k1)
    · exact hb (Or.inl g1)

/-- The piece of the rim that a half-edge of the cell covers: part of the border to another cell, or of the border of the polygon. -/
theorem piece (hn : 0 < n) {p f : Nat} (hf : OfCell s s1 vs V cell p f) : opos s2.d f = some (startAt s2.d f) ∧
    ((∃ t o, EdgesOf s.d s1.edges f ∧ Edg s.d f t p o ∧ opos s1.d f = some (startAt s2.d f) ∧ opos s1.d t = some (startAt s2.d (nxt s2.d f))) ∨
      ∃ j < vs.length, f = s1.d.heCnt + 2 * j + 1 ∧ cellSeq s1.d V (some cell) j = some p ∧ startAt s2.d f = place s1.d (V j) ∧
        startAt s2.d (nxt s2.d f) = place s1.d (V (j + 1))) := by
  obtain ⟨L, hI⟩ := reach_inv B.spec B.reach
  obtain ⟨_, _, _, t2, h1, h2⟩ := B.step hn hf
  rcases hf with ⟨hk, hp⟩ | ⟨j, hj, rfl, hl⟩
  · obtain ⟨t, i, o, hE⟩ := B.edg (B.kept_lt hk)
    have e := hE.inc
    rw [hp, Option.some.injEq] at e
    subst e
    have het := hE.symm hI.dinv
    obtain ⟨x, hx⟩ := Option.isSome_iff_exists.mp ((B.half hE).1.mpr hk)
    have hx2 : opos s2.d f = some x := by rw [B.opos2 hE.lt, hx]
    have ex : startAt s2.d f = x := by unfold startAt; rw [hx2]; rfl
    rw [B.twin2 hE.lt, hE.tw, Option.some.injEq] at h1
    subst h1
    rw [B.opos2 het.lt] at h2
    rw [ex]
    exact ⟨hx2, Or.inl ⟨t, o, hk, hE, hx, h2⟩⟩
  · obtain ⟨b1, _, _, b4, b5⟩ := B.border hj
    have ex : startAt s2.d (s1.d.heCnt + 2 * j + 1) = place s1.d (V j) := by
      show (opos s2.d (s1.d.heCnt + 2 * j + 1)).getD (0, 0) = _
      rw [b4]; rfl
    rw [b1, Option.some.injEq] at h1
    subst h1
    rw [b5, Option.some.injEq] at h2
    rw [ex]
    exact ⟨b4, Or.inr ⟨j, hj, rfl, hl, rfl, h2.symm⟩⟩

theorem seg (hn : 0 < n) {p f : Nat} (hf : OfCell s s1 vs V cell p f) :
    (∀ z, Between (startAt s2.d f) (startAt s2.d (nxt s2.d f)) z → Rim pts n poly p z) ∧
    (∀ c, Mid pts n poly p c → startAt s2.d f = startAt s2.d (nxt s2.d f) ∨ 0 < rightOf c (startAt s2.d f) (startAt s2.d (nxt s2.d f))) ∧
    ∀ z, InClosed poly.points z → Nearest pts n p z → 0 ≤ rightOf (startAt s2.d f) (startAt s2.d (nxt s2.d f)) z := by
  have hF := B.fits.toFitsPolygon
  obtain ⟨L, hI⟩ := reach_inv B.spec B.reach
  obtain ⟨_, ⟨t, o, hk, hE, hx, hy⟩ | ⟨j, hj, _, hl, ex, ey⟩⟩ := B.piece hn hf
  · obtain ⟨hfw, _, _, hpts⟩ := (B.half hE).2.2.1 _ _ hx hy
    obtain ⟨_, m1, m2⟩ := hpts _ (between_left _ _)
    have heq : dsq (pts p) (startAt s2.d f) = dsq (pts o) (startAt s2.d f) := m1.eq m2
    have hpo : o ≠ p := (hE.ne hI.dinv).symm
    refine ⟨fun z hz => ⟨(hpts z hz).1, (hpts z hz).2.1, Or.inl ⟨o, hpo, (hpts z hz).2.2⟩⟩, fun c hc => ?_, fun z _ hz => ?_⟩
    · by_cases hxy : startAt s2.d f = startAt s2.d (nxt s2.d f)
      · exact Or.inl hxy
      right
      have hlt := hc.near o m2.1 hpo
      obtain ⟨k, k0, h1, h2⟩ := hfw
      have hkn : k < 0 := by
        refine lt_of_le_of_ne k0 fun hk0 => hxy ?_
        subst hk0
        exact Prod.ext (by linarith) (by linarith)
      have e : rightOf c (startAt s2.d f) (startAt s2.d (nxt s2.d f)) = -k * ((dsq (pts o) c - dsq (pts p) c) / 2) := by
        have e1 : (startAt s2.d (nxt s2.d f)).1 = (startAt s2.d f).1 + k * ((pts p).2 - (pts o).2) := by linarith
        have e2 : (startAt s2.d (nxt s2.d f)).2 = (startAt s2.d f).2 - k * ((pts p).1 - (pts o).1) := by linarith
        unfold rightOf
        unfold dsq at heq ⊢
        rw [e1, e2]
        linear_combination (-k / 2) * heq
      rw [e]
      exact mul_pos (by linarith) (by linarith)
    · by_contra hcon
      push Not at hcon
      exact absurd (hz.2 o m2.1) (not_le.mpr (nearer_left hfw heq hcon))
  · rw [ex, ey]
    obtain ⟨⟨k, s1', s2'⟩, hturn⟩ := B.ring.step hF.convex B.fits.center B.keySorted hj
    obtain ⟨p', l1, l2⟩ := B.labels hn hj
    rw [hl, Option.some.injEq] at l1
    subst l1
    refine ⟨fun z hz => ?_, fun c hc => ?_, fun z hz _ => ?_⟩
    · have hon := (side_turn_between B.fits.center s1' s2' hturn hz).1
      have hb : OnBoundary poly.points z := ⟨k, hon⟩
      exact ⟨hb.closed hF.convex, l2 z hz, Or.inr hb⟩
    · by_cases hne : place s1.d (V j) = place s1.d (V (j + 1))
      · exact Or.inl hne
      · exact Or.inr (side_turn B.fits.center s1' s2' hne hturn hc.inside)
    · have hg := B.fits.center k s1'.1
      have hz := hz k s1'.1
      obtain ⟨_, u, u0, u1, eu⟩ := s1'
      obtain ⟨_, v, v0, v1, ev⟩ := s2'
      rw [eu, ev] at hturn ⊢
      rw [rightOf_params] at hturn
      have : 0 ≤ v - u := by
        by_contra hh
        push Not at hh
        have := mul_neg_of_neg_of_pos hh hg
        have e : v - u = 0 := by
          by_contra
          linarith
        linarith
      have e : rightOf ((1 - u) * (corner poly.points k).1 + u * (corner poly.points (k + 1)).1, (1 - u) * (corner poly.points k).2 + u * (corner poly.points (k + 1)).2)
          ((1 - v) * (corner poly.points k).1 + v * (corner poly.points (k + 1)).1, (1 - v) * (corner poly.points k).2 + v * (corner poly.points (k + 1)).2) z =
          (v - u) * rightOf (corner poly.points k) (corner poly.points (k + 1)) z := by unfold rightOf; ring
      rw [e]
      exact mul_nonneg this hz

/-- A border edge without a length is followed by a half-edge with a length. -/
theorem flat_next (hn : 0 < n) {p j : Nat} (hj : j < vs.length) (hl : cellSeq s1.d V (some cell) j = some p) (h : place s1.d (V j) = place s1.d (V (j + 1))) :
    startAt s2.d (nxt s2.d (s1.d.heCnt + 2 * j + 1)) ≠ startAt s2.d (nxt s2.d (nxt s2.d (s1.d.heCnt + 2 * j + 1))) := by
  have hf : OfCell s s1 vs V cell p (s1.d.heCnt + 2 * j + 1) := Or.inr ⟨j, hj, rfl, hl⟩
  obtain ⟨_, h1, _, h2, _⟩ := B.flat_border hj h
  obtain ⟨g1, g2, _⟩ := B.step hn hf
  rcases B.kind h1 with ⟨k1, _⟩ | ⟨k1, _, c, k2, k3, _, k4⟩
  · rw [k1] at h2; cases h2
  rw [B.fp.binv.nextE j hj, k2, Option.getD_some, Option.some.injEq] at g2
  rw [← g2] at g1 ⊢
  intro he
  obtain ⟨_, ⟨t, o, _, hE, hx, hy⟩ | ⟨j', _, h', _⟩⟩ := B.piece hn g1
  · have := ((B.kept_place hE hx hy).1 he).2
    rw [← he] at this
    rw [hx, Option.some.injEq] at k4
    rw [k4] at this
    exact k1.not_inside this
  · have := B.heCnt
    omega

/-- A closed chain of half-edges of a cell does not stay at one place. -/
theorem moves (hn : 0 < n) {p f k : Nat} (hf : OfCell s s1 vs V cell p f) (hk : 0 < k) (hc : (nxt s2.d)^[k] f = f) :
    ∃ i < k, startAt s2.d ((nxt s2.d)^[i] f) ≠ startAt s2.d ((nxt s2.d)^[i + 1] f) := by
  obtain ⟨L, hI⟩ := reach_inv B.spec B.reach
  by_contra hcon
  push Not at hcon
  have hall : ∀ i, startAt s2.d ((nxt s2.d)^[i] f) = startAt s2.d (nxt s2.d ((nxt s2.d)^[i] f)) := by
    intro i
    have hper : Function.IsPeriodicPt (nxt s2.d) k f := hc
    rw [← hper.iterate_mod_apply i, ← Function.iterate_succ_apply' (nxt s2.d)]
    exact hcon _ (Nat.mod_lt _ hk)
  have key : ∀ i < k, (nxt s2.d)^[i] f < s.d.heCnt ∧ ¬ HasLength s.d ((nxt s2.d)^[i] f) ∧ (s.d.he ((nxt s2.d)^[i] f)).next = some ((nxt s2.d)^[i + 1] f) := by
    intro i hi
    have hg := B.iter hn hf i
    have he := hcon i hi
    rw [Function.iterate_succ_apply'] at he ⊢
    obtain ⟨_, ⟨t, o, hk, hE, hx, hy⟩ | ⟨j, hj, ef, hl, ex, ey⟩⟩ := B.piece hn hg
    · obtain ⟨h1, h2⟩ := (B.kept_place hE hx hy).1 he
      refine ⟨hE.lt, h1, ?_⟩
      obtain ⟨g, t', y, _, c2, _, c4, c5, _, c7⟩ := B.cell_next hn hg
      have eg : nxt s2.d ((nxt s2.d)^[i] f) = g := by unfold nxt at c2 ⊢; rw [c2]; rfl
      rw [B.twin2 hE.lt, hE.tw, Option.some.injEq] at c4
      subst c4
      have het := hE.symm hI.dinv
      rw [B.opos2 het.lt, hy, Option.some.injEq] at c5
      rw [← c5] at c7
      rw [(c7 hk h2).2, eg]
    · rw [ex, ey] at he
      have h1 := B.flat_next hn hj hl he
      rw [← ef, ← Function.iterate_succ_apply' (nxt s2.d)] at h1
      exact absurd (hall (i + 1)) h1
  obtain ⟨i, hi, hlen⟩ := sweep_cycle B.dist B.spec B.reach (F := fun i => (nxt s2.d)^[i] f) hk hc (key 0 hk).1 fun i hi => (key i hi).2.2
  exact (key i hi).2.1 hlen

/-- Every ray from the interior of the cell meets every closed chain. -/
theorem ray (hn : 0 < n) {p f k : Nat} (hf : OfCell s s1 vs V cell p f) (hk : 0 < k) (hc : (nxt s2.d)^[k] f = f) {c z : Pt} (hm : Mid pts n poly p c) (hz : z ≠ c) :
    ∃ i < k, startAt s2.d ((nxt s2.d)^[i] f) ≠ startAt s2.d ((nxt s2.d)^[i + 1] f) ∧ ∃ w t, 0 < t ∧
      Between (startAt s2.d ((nxt s2.d)^[i] f)) (startAt s2.d ((nxt s2.d)^[i + 1] f)) w ∧ w.1 - c.1 = t * (z.1 - c.1) ∧ w.2 - c.2 = t * (z.2 - c.2) := by
  obtain ⟨i, hi, hcone⟩ := winding (c := c) (P := fun i => startAt s2.d ((nxt s2.d)^[i] f)) (k := k) (by simp only [hc]; rfl) (fun i hi => by
    rw [Function.iterate_succ_apply']
    exact (B.seg hn (B.iter hn hf i)).2.1 c hm) (B.moves hn hf hk hc) z
  refine ⟨i, hi, ?_, hcone.meets hz⟩
  intro he
  have := hcone.1
  rw [he] at this
  revert this; unfold rightOf; intro h; ring_nf at h; exact lt_irrefl _ h

end Closing

end Foronoi
