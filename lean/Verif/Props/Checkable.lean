import Verif.Spec.Checkable
import Verif.Props.Corners
import Verif.Props.CleanTotal
import Verif.Props.AnySites
import Verif.Proof.ExtremeMax
import Verif.Proof.Along

/-!
# C130: a condition that can be evaluated, and the example of the README
-/

namespace Foronoi

open scoped List
open Check

/-- A point with rational coordinates. -/
def real (z : QPt) : ℝ × ℝ := ((z.1 : ℝ), (z.2 : ℝ))

/-- The sites of a list. -/
def realSites (S : List QPt) : Nat → ℝ × ℝ := fun i => real (S.getD i (0, 0))

theorem rightOf_cast (a b z : QPt) : rightOf (real a) (real b) (real z) = ((side a b z : ℚ) : ℝ) := by
  unfold rightOf real side; push_cast; ring

theorem sqDist_cast (a b : QPt) : sqDist (real a) (real b) = ((dist2 a b : ℚ) : ℝ) := by
  unfold sqDist real dist2; push_cast; ring

theorem det_cast (a b c : QPt) : det (real a) (real b) (real c) = ((twice a b c : ℚ) : ℝ) := by
  unfold det real twice; push_cast; ring

theorem getD_elem {α : Type} {l : List α} {i : Nat} (d : α) (h : i < l.length) : l.getD i d = l[i] := by
  rw [List.getD_eq_getElem?_getD, List.getElem?_eq_getElem h, Option.getD_some]

theorem corner_cast (m : List QPt) (i : Nat) : corner (m.map real) i = real (cnr m i) := by
  unfold corner cnr
  rw [List.length_map]
  have : ((0, 0) : ℝ × ℝ) = real (0, 0) := by simp [real]
  rw [this, List.getD_eq_getElem?_getD, List.getD_eq_getElem?_getD, List.getElem?_map]
  cases m[i % m.length]? <;> rfl

theorem inside_cast {m : List QPt} {z : QPt} : StrictlyInside (m.map real) (real z) ↔ ∀ i < m.length, 0 < side (cnr m i) (cnr m (i + 1)) z := by
  unfold StrictlyInside
  simp only [List.length_map, corner_cast, rightOf_cast, Rat.cast_pos]

theorem real_inj {a b : QPt} (h : real a = real b) : a = b := by
  have h1 := congrArg Prod.fst h
  have h2 := congrArg Prod.snd h
  exact Prod.ext (Rat.cast_injective h1) (Rat.cast_injective h2)

theorem centre_cast {a b c : QPt} (h : twice a b c ≠ 0) :
    dist2 b (centre a b c) = dist2 a (centre a b c) ∧ dist2 c (centre a b c) = dist2 a (centre a b c) := by
  unfold dist2 centre
  have h2 : 2 * twice a b c ≠ 0 := mul_ne_zero (by norm_num) h
  generalize hD : 2 * twice a b c = D at *
  have hD' : D = 2 * ((b.1 - a.1) * (c.2 - a.2) - (b.2 - a.2) * (c.1 - a.1)) := by rw [← hD]; rfl
  constructor
  · simp only
    field_simp
    rw [hD']
    ring
  · simp only
    field_simp
    rw [hD']
    ring

variable {S m : List QPt}

theorem site_mem {p : Nat} (hp : p < S.length) : ∃ s ∈ S, realSites S p = real s ∧ S[p] = s :=
  ⟨S[p], List.getElem_mem _, by unfold realSites; rw [getD_elem _ hp], rfl⟩

theorem nearest_mem {p : Nat} {z : ℝ × ℝ} (h : Nearest (realSites S) S.length p z) {o : QPt} (ho : o ∈ S) : sqDist (realSites S p) z ≤ sqDist (real o) z := by
  obtain ⟨i, hi, e⟩ := List.getElem_of_mem ho
  have := h.2 i hi
  unfold realSites at this ⊢
  rwa [getD_elem _ hi, e] at this

theorem check_distinct (h : S.Nodup) : Distinct (realSites S) S.length := by
  intro p hp r hr e
  unfold realSites at e
  rw [getD_elem _ hp, getD_elem _ hr] at e
  exact (List.Nodup.getElem_inj_iff h).mp (real_inj e)

/-- A point to which three different sites are nearest is the centre of their circle. -/
theorem vertex_centre (hS : S.Nodup) {p r o : Nat} {z : ℝ × ℝ} (hpr : p ≠ r) (hpo : p ≠ o) (hro : r ≠ o) (h1 : Nearest (realSites S) S.length p z)
    (h2 : Nearest (realSites S) S.length r z) (h3 : Nearest (realSites S) S.length o z) :
    ∃ a ∈ S, ∃ b ∈ S, ∃ c ∈ S, realSites S p = real a ∧ realSites S r = real b ∧ twice a b c ≠ 0 ∧ z = real (centre a b c) ∧
      ∀ o ∈ S, dist2 a (centre a b c) ≤ dist2 o (centre a b c) := by
  have hd := check_distinct hS
  have hab : realSites S p ≠ realSites S r := fun e => hpr (hd p h1.1 r h2.1 e)
  have hac : realSites S p ≠ realSites S o := fun e => hpo (hd p h1.1 o h3.1 e)
  have hbc : realSites S r ≠ realSites S o := fun e => hro (hd r h2.1 o h3.1 e)
  have e1 : sqDist (realSites S r) z = sqDist (realSites S p) z := le_antisymm (h2.2 p h1.1) (h1.2 r h2.1)
  have e2 : sqDist (realSites S o) z = sqDist (realSites S p) z := le_antisymm (h3.2 p h1.1) (h1.2 o h3.1)
  have hdet := circle_det (z := z) (R := sqDist (realSites S p) z) rfl e1 e2 hab hac hbc
  obtain ⟨a, ha, ea, _⟩ := site_mem h1.1
  obtain ⟨b, hb, eb, _⟩ := site_mem h2.1
  obtain ⟨c, hc, ec, _⟩ := site_mem h3.1
  rw [ea, eb, ec, det_cast] at hdet
  have ht : twice a b c ≠ 0 := fun h => hdet (by rw [h]; simp)
  obtain ⟨c1, c2⟩ := centre_cast ht
  have hz : z = real (centre a b c) := by
    rw [← det_cast] at hdet
    rw [ea, eb] at e1
    rw [ea, ec] at e2
    refine center_unique hdet e1 e2 ?_ ?_
    · show sqDist _ _ = sqDist _ _
      rw [sqDist_cast, sqDist_cast, c1]
    · show sqDist _ _ = sqDist _ _
      rw [sqDist_cast, sqDist_cast, c2]
  refine ⟨a, ha, b, hb, c, hc, ea, eb, ht, hz, fun o ho => ?_⟩
  have := nearest_mem h1 ho
  rw [ea, hz, sqDist_cast, sqDist_cast] at this
  exact_mod_cast this

theorem another_site {z : ℝ × ℝ} (hz : VoronoiVertex (realSites S) S.length z) (p r : Nat) : ∃ o, p ≠ o ∧ r ≠ o ∧ Nearest (realSites S) S.length o z := by
  obtain ⟨x, y, w, hxy, hyw, hxw, m1, m2, m3⟩ := hz
  by_cases c1 : x = p ∨ x = r
  · by_cases c2 : y = p ∨ y = r
    · exact ⟨w, by omega, by omega, m3⟩
    · exact ⟨y, by omega, by omega, m2⟩
  · exact ⟨x, by omega, by omega, m1⟩

theorem above_cast {k : ℚ} {s z : QPt} (h : AboveLine k s z) : (k : ℝ) < (real z).2 ∧ sqDist (real s) (real z) < ((real z).2 - k) ^ 2 := by
  obtain ⟨h1, h2⟩ := h
  rw [sqDist_cast]
  simp only [real]
  exact ⟨by exact_mod_cast h1, by exact_mod_cast h2⟩

/-- A site that is nearer to all corners than a line is nearer to all points of the polygon. -/
theorem above_all (hcx : ClockwiseConvex (m.map real)) {k : ℚ} {s : QPt} (h : ∀ c ∈ m, AboveLine k s c) {z : ℝ × ℝ} (hz : InClosed (m.map real) z) :
    sqDist (real s) z < (z.2 - k) ^ 2 := by
  obtain ⟨c, hc, hle⟩ := hcx.max (2 * (z.1 - (real s).1)) (-2 * ((real s).2 - k)) hz
  obtain ⟨c, hc', rfl⟩ := List.mem_map.mp hc
  obtain ⟨_, h2⟩ := above_cast (h c hc')
  unfold sqDist at h2 ⊢
  nlinarith [sq_nonneg ((real c).1 - z.1)]

/-- The coefficients of a half-plane as real numbers. -/
def realHalf (c : Half) : ℝ × ℝ × ℝ := ((c.1 : ℝ), (c.2.1 : ℝ), (c.2.2 : ℝ))

theorem value_cast (c : Half) (z : QPt) : affine (realHalf c) (real z) = ((value c z : ℚ) : ℝ) := by
  unfold affine realHalf real value; push_cast; ring

theorem sideHalf_cast (p q : QPt) (z : ℝ × ℝ) : affine (realHalf (sideHalf p q)) z = rightOf (real p) (real q) z := by
  unfold affine realHalf sideHalf rightOf real; push_cast; ring

theorem nearHalf_cast (p o : QPt) (z : ℝ × ℝ) : affine (realHalf (nearHalf p o)) z = sqDist (real o) z - sqDist (real p) z := by
  unfold affine realHalf nearHalf sqDist real; push_cast; ring

theorem meet_cast {c d : Half} (h : cross c d ≠ 0) {z : ℝ × ℝ} (h1 : affine (realHalf c) z = 0) (h2 : affine (realHalf d) z = 0) : z = real (common c d) := by
  have h' : ((cross c d : ℚ) : ℝ) ≠ 0 := by exact_mod_cast h
  have e : ((cross c d : ℚ) : ℝ) = c.1 * d.2.1 - c.2.1 * d.1 := by unfold cross; push_cast; ring
  simp only [affine, realHalf] at h1 h2
  refine Prod.ext ?_ ?_
  · simp only [real, common]
    push_cast
    rw [eq_div_iff h', e]
    linear_combination (d.2.1 : ℝ) * h1 - (c.2.1 : ℝ) * h2
  · simp only [real, common]
    push_cast
    rw [eq_div_iff h', e]
    linear_combination -(d.1 : ℝ) * h1 + (c.1 : ℝ) * h2

/-- If the corners of an intersection of half-planes in a box are nearer to `p` than to a line, all its points are. -/
theorem above_corners {k : ℚ} {p : QPt} {cs : List Half} (h : CornersAbove k p cs) {x0 x1 y0 y1 : ℝ}
    (hb : ∀ z, (∀ c ∈ cs, 0 ≤ affine (realHalf c) z) → x0 ≤ z.1 ∧ z.1 ≤ x1 ∧ y0 ≤ z.2 ∧ z.2 ≤ y1) {z : ℝ × ℝ} (hz : ∀ c ∈ cs, 0 ≤ affine (realHalf c) z) :
    sqDist (real p) z < (z.2 - k) ^ 2 := by
  have hcl : IsClosed {z : ℝ × ℝ | ∀ c ∈ cs.map realHalf, 0 ≤ affine c z} := by
    simp only [Set.setOf_forall]
    exact isClosed_iInter fun c => isClosed_iInter fun _ => isClosed_le continuous_const (by unfold affine; fun_prop)
  have hcomp : IsCompact {z : ℝ × ℝ | ∀ c ∈ cs.map realHalf, 0 ≤ affine c z} :=
    (isCompact_Icc (a := ((x0, y0) : ℝ × ℝ)) (b := (x1, y1))).of_isClosed_subset hcl fun w hw => by
      obtain ⟨h1, h2, h3, h4⟩ := hb w fun c hc => hw _ (List.mem_map_of_mem hc)
      exact ⟨⟨h1, h3⟩, ⟨h2, h4⟩⟩
  have key := negative_at_corners (K := {z : ℝ × ℝ | ∀ c ∈ cs.map realHalf, 0 ≤ affine c z}) (fun _ => Iff.rfl) hcomp (p.1 : ℝ) (2 * (k - p.2)) (p.2 ^ 2 - k ^ 2)
    (fun c hc d hd hne w hw h1 h2 => by
      obtain ⟨c, hc', rfl⟩ := List.mem_map.mp hc
      obtain ⟨d, hd', rfl⟩ := List.mem_map.mp hd
      have hne' : cross c d ≠ 0 := fun h0 => hne (by
        have : ((cross c d : ℚ) : ℝ) = 0 := by rw [h0]; simp
        unfold cross at this
        push_cast at this
        exact this)
      have e := meet_cast hne' h1 h2
      rcases h c hc' d hd' with h0 | ⟨e', he', h0⟩ | h0
      · exact absurd h0 hne'
      · have := hw _ (List.mem_map_of_mem he')
        rw [e, value_cast] at this
        have : 0 ≤ value e' (common c d) := by exact_mod_cast this
        linarith
      · have := (above_cast h0).2
        rw [← e] at this
        unfold sqDist real at this
        simp only at this
        nlinarith) z (by
      intro c hc
      obtain ⟨c, hc', rfl⟩ := List.mem_map.mp hc
      exact hz c hc')
  unfold sqDist real
  simp only
  nlinarith

theorem sideHalves_cast {cs : List Half} {z : ℝ × ℝ} : (∀ c ∈ sideHalves m ++ cs, 0 ≤ affine (realHalf c) z) ↔ InClosed (m.map real) z ∧ ∀ c ∈ cs, 0 ≤ affine (realHalf c) z := by
  constructor
  · intro h
    refine ⟨fun i hi => ?_, fun c hc => h c (List.mem_append_right _ hc)⟩
    rw [List.length_map] at hi
    rw [corner_cast, corner_cast, ← sideHalf_cast]
    exact h _ (List.mem_append_left _ (List.mem_map.mpr ⟨i, List.mem_range.mpr hi, rfl⟩))
  · rintro ⟨h1, h2⟩ c hc
    rcases List.mem_append.mp hc with hc | hc
    · obtain ⟨i, hi, rfl⟩ := List.mem_map.mp hc
      rw [sideHalf_cast, ← corner_cast, ← corner_cast]
      exact h1 i (by rw [List.length_map]; exact List.mem_range.mp hi)
    · exact h2 c hc

/-- A convex polygon has an interior point. -/
theorem ClockwiseConvex.interior {l : List (ℝ × ℝ)} (h : ClockwiseConvex l) : ∃ w, StrictlyInside l w := by
  have h3 := h.1
  have self : ∀ i, corner l (i + l.length) = corner l i := fun i => by unfold corner; rw [Nat.add_mod_right]
  have key : ∀ i < l.length, ∀ k < l.length, 0 ≤ rightOf (corner l i) (corner l (i + 1)) (corner l k) ∧
      (k ≠ i → k ≠ (i + 1) % l.length → 0 < rightOf (corner l i) (corner l (i + 1)) (corner l k)) := by
    intro i hi k hk
    have pos : k ≠ i → k ≠ (i + 1) % l.length → 0 < rightOf (corner l i) (corner l (i + 1)) (corner l k) := by
      intro h1 h2
      by_cases hlt : i + 1 < l.length
      · rw [Nat.mod_eq_of_lt hlt] at h2
        rcases lt_or_gt_of_ne h1 with hki | hki
        · rw [← self k]
          exact h.cyc (by omega) (by omega) (by omega)
        · exact h.cyc (by omega) (by omega) (by omega)
      · have : i + 1 = l.length := by omega
        rw [this, Nat.mod_self] at h2
        rw [← self k]
        exact h.cyc (by omega) (by omega) (by omega)
    refine ⟨?_, pos⟩
    by_cases h1 : k = i
    · subst h1; unfold rightOf; apply le_of_eq; ring
    by_cases h2 : k = (i + 1) % l.length
    · have e : corner l k = corner l (i + 1) := by
        unfold corner
        rw [h2, Nat.mod_mod]
      rw [e]; unfold rightOf; apply le_of_eq; ring
    · exact (pos h1 h2).le
  refine ⟨(((corner l 0).1 + (corner l 1).1 + (corner l 2).1) / 3, ((corner l 0).2 + (corner l 1).2 + (corner l 2).2) / 3), fun i hi => ?_⟩
  obtain ⟨a0, a1⟩ := key i hi 0 (by omega)
  obtain ⟨b0, b1⟩ := key i hi 1 (by omega)
  obtain ⟨c0, c1⟩ := key i hi 2 (by omega)
  have e : rightOf (corner l i) (corner l (i + 1)) (((corner l 0).1 + (corner l 1).1 + (corner l 2).1) / 3, ((corner l 0).2 + (corner l 1).2 + (corner l 2).2) / 3) =
      (rightOf (corner l i) (corner l (i + 1)) (corner l 0) + rightOf (corner l i) (corner l (i + 1)) (corner l 1) + rightOf (corner l i) (corner l (i + 1)) (corner l 2)) / 3 := by
    unfold rightOf; ring
  rw [e]
  have hx : (0 ≠ i ∧ 0 ≠ (i + 1) % l.length) ∨ (1 ≠ i ∧ 1 ≠ (i + 1) % l.length) ∨ (2 ≠ i ∧ 2 ≠ (i + 1) % l.length) := by omega
  rcases hx with ⟨u, v⟩ | ⟨u, v⟩ | ⟨u, v⟩
  · have := a1 u v; linarith
  · have := b1 u v; linarith
  · have := c1 u v; linarith

theorem check_meet (hcx : ClockwiseConvex (m.map real)) (h : Sites S m) : AllMeet (realSites S) S.length (m.map real) := by
  obtain ⟨w, hw⟩ := hcx.interior
  intro p hp
  refine meets_of_sites hw (fun o ho => ?_) (check_distinct h.2.1) hp
  obtain ⟨s, hs, e, _⟩ := site_mem ho
  intro i hi
  rw [List.length_map] at hi
  rw [e, corner_cast, corner_cast, rightOf_cast]
  exact_mod_cast h.2.2 s hs i hi

theorem check_general (h : Input S m) : GeneralPosition (realSites S) S.length (m.map real) := by
  obtain ⟨⟨h3, hconv, hdiag⟩, hS, _, hC, hf⟩ := h
  have hlen : (m.map real).length = m.length := List.length_map _
  have hmem : ∀ i, cnr m i ∈ m := fun i => by
    unfold cnr
    rw [getD_elem _ (Nat.mod_lt _ (by omega))]
    exact List.getElem_mem _
  have hcx : ClockwiseConvex (m.map real) := by
    refine ⟨by rw [hlen]; exact h3, fun i j k hij hjk hk => ?_⟩
    rw [hlen] at hk
    rw [corner_cast, corner_cast, corner_cast, rightOf_cast, Rat.cast_pos]
    exact hconv i (by omega) j (by omega) k hk hij hjk
  refine ⟨hcx, ?_, (check_meet hcx hS).touch, ?_, ?_, ?_⟩
  · intro i hi hD
    rw [hlen] at hi
    obtain ⟨c, hc, hh⟩ := hdiag i hi
    rw [corner_cast, corner_cast] at hD
    have h1 := hD.1 _ (List.mem_map_of_mem (f := real) hc)
    have h2 := hD.2 _ (List.mem_map_of_mem (f := real) hc)
    simp only [real, ← Rat.cast_min, ← Rat.cast_max, Rat.cast_le] at h1 h2
    rcases hh with hh | hh | hh | hh
    · exact absurd h1.1 (not_le.mpr hh)
    · exact absurd h1.2 (not_le.mpr hh)
    · exact absurd h2.1 (not_le.mpr hh)
    · exact absurd h2.2 (not_le.mpr hh)
  · rintro z ⟨p, r, o, hpr, hro, hpo, n1, n2, n3⟩ hb
    obtain ⟨a, ha, b, hb', c, hc, _, _, ht, rfl, hnear⟩ := vertex_centre hS.2.1 hpr hpo hro n1 n2 n3
    rcases hC a ha b hb' c hc ht with ⟨o, ho, hlt⟩ | ⟨hh | ⟨i, hi, hh⟩, _⟩
    · exact absurd (hnear o ho) (not_le.mpr hlt)
    · exact hb.not_inside (inside_cast.mpr hh)
    · have := hb.closed hcx i (by rw [hlen]; exact hi)
      rw [corner_cast, corner_cast, rightOf_cast] at this
      have : 0 ≤ side (cnr m i) (cnr m (i + 1)) (centre a b c) := by exact_mod_cast this
      linarith
  · rintro i hi ⟨lo, hlo, hi', hhi, hall, l1, l2⟩ p r n1 n2
    rw [hlen] at hi
    obtain ⟨lo, hlo', rfl⟩ := List.mem_map.mp hlo
    obtain ⟨hi', hhi', rfl⟩ := List.mem_map.mp hhi
    rw [corner_cast] at l1 l2 n1 n2
    by_contra hne
    obtain ⟨a, ha, ea, _⟩ := site_mem n1.1
    obtain ⟨b, hb, eb, _⟩ := site_mem n2.1
    have hab : a ≠ b := fun e => hne (check_distinct hS.2.1 p n1.1 r n2.1 (by rw [ea, eb, e]))
    obtain ⟨o, ho, hlt⟩ := hf i hi lo hlo' hi' hhi' ⟨(fun c hc => by
      have := hall _ (List.mem_map_of_mem (f := real) hc)
      simpa only [real, Rat.cast_le] using this), (by
        simp only [real] at l1
        exact_mod_cast l1), (by
        simp only [real] at l2
        exact_mod_cast l2)⟩ a ha b hb hab
    have g1 := nearest_mem n1 ho
    have g2 := nearest_mem n2 ho
    rw [ea, sqDist_cast, sqDist_cast, Rat.cast_le] at g1
    rw [eb, sqDist_cast, sqDist_cast, Rat.cast_le] at g2
    rcases hlt with hlt | hlt <;> linarith
  · intro p hp r hr hT z hz n1 n2
    obtain ⟨t1, t2, t3⟩ := hT
    have hpr : p ≠ r := by
      rintro rfl
      exact lt_irrefl _ t2
    obtain ⟨o, hpo, hro, n3⟩ := another_site hz p r
    obtain ⟨a, ha, b, hb, c, hc, ea, eb, ht, rfl, hnear⟩ := vertex_centre hS.2.1 hpr hpo hro n1 n2 n3
    rcases hC a ha b hb c hc ht with ⟨o, ho, hlt⟩ | ⟨_, ⟨o, ho, hlt⟩ | hne | ⟨t, ht', hle⟩⟩
    · exact absurd (hnear o ho) (not_le.mpr hlt)
    · obtain ⟨k, hk, e⟩ := List.getElem_of_mem ho
      have := t3 k hk
      have ek : realSites S k = real o := by unfold realSites; rw [getD_elem _ hk, e]
      rw [ea, ek] at this
      have hlt' : (a.2 : ℝ) < o.2 := by exact_mod_cast hlt
      simp only [real] at this
      rcases this with h | ⟨h, _⟩ <;> linarith
    · rw [ea, eb] at t1
      exact absurd (Rat.cast_injective t1) hne
    · exact ⟨real t, List.mem_map_of_mem ht', by simp only [real]; exact_mod_cast hle⟩

/-- **C130**: sites and corners with rational coordinates that meet the condition, which can be evaluated, fit the polygon. -/
theorem C130_fits (h : Input S m) {l : List (ℝ × ℝ)} {poly : Poly ℝ} (hl : l ~ m.map real) (hp : mkPoly l = .ok poly) :
    FitsBorder (realSites S) S.length poly ∧ Distinct (realSites S) S.length := by
  have hG := check_general h
  obtain ⟨hCo, hS, ⟨lo, hlo, t, ht, hall, ht0, hL1, hcov, hL2⟩, _, _⟩ := h
  have hcx := hG.convex
  obtain ⟨poly', hp', _, _, hB⟩ := C94_clockwise hcx hl
  rw [hp, Except.ok.injEq] at hp'
  subst hp'
  have hY : poly.maxY = (t.2 : ℝ) := by
    obtain ⟨c, hc, e⟩ := hB.top
    obtain ⟨c, hc', rfl⟩ := List.mem_map.mp hc
    refine le_antisymm ?_ (hB.inside _ (List.mem_map_of_mem (f := real) ht)).2.2.2
    rw [← e]
    simp only [real]
    exact_mod_cast (hall c hc').2
  have hX : poly.minY = (lo.2 : ℝ) := by
    obtain ⟨c, hc, e⟩ := hB.bottom
    obtain ⟨c, hc', rfl⟩ := List.mem_map.mp hc
    refine le_antisymm (hB.inside _ (List.mem_map_of_mem (f := real) hlo)).2.2.1 ?_
    rw [← e]
    simp only [real]
    exact_mod_cast (hall c hc').1
  have hk : clipLine poly = ((lo.2 - |t.2| : ℚ) : ℝ) := by
    unfold clipLine
    rw [hX, hY]
    push_cast
    rfl
  have hY0 : poly.maxY ≠ 0 := by
    rw [hY]
    exact_mod_cast ht0
  refine ⟨(C95_fits_heights hG hl hp hY0 ?_ ?_ ?_).2 (check_meet hcx hS), check_distinct hS.2.1⟩
  · intro p hpn
    obtain ⟨s, hs, e, _⟩ := site_mem hpn
    rw [e, hk]
    simp only [real]
    exact_mod_cast hL1 s hs
  · intro p r z hpr _ hz n1 n2
    obtain ⟨o, hpo, hro, n3⟩ := another_site hz p r
    obtain ⟨a, ha, b, hb, c, hc, ea, eb, ht, rfl, hnear⟩ := vertex_centre hS.2.1 hpr hpo hro n1 n2 n3
    rw [ea, hk]
    rcases hL2 a ha b hb c hc ht with ⟨o, ho, hlt⟩ | hh | hh | hh
    · exact absurd (hnear o ho) (not_le.mpr hlt)
    · exact Or.inl (above_cast hh)
    · exact Or.inr fun w hw _ => above_all hcx hh hw
    · refine Or.inr fun w hw he => above_corners hh (fun z hz => hB.bounds hcx (sideHalves_cast.mp hz).1) (sideHalves_cast.mpr ⟨hw, fun c hc => ?_⟩)
      rw [eb] at he
      simp only [List.mem_cons, List.not_mem_nil, or_false] at hc
      rcases hc with rfl | rfl <;> rw [nearHalf_cast] <;> linarith
  · intro z hz
    have := (hB.bounds hcx hz).2.2.1
    have hpos := abs_pos.mpr hY0
    refine ⟨by unfold clipLine; linarith, ?_⟩
    rcases hcov with ⟨s0, hs0, hcov⟩ | hcov
    case inr =>
      obtain ⟨p, hpn⟩ := nearest_exists (pts := realSites S) (List.length_pos_of_ne_nil hS.1) z
      obtain ⟨a, ha, ea, _⟩ := site_mem hpn.1
      refine ⟨p, hpn.1, ?_⟩
      rw [ea, hk]
      refine above_corners (hcov a ha) (fun z hz => hB.bounds hcx (sideHalves_cast.mp hz).1) (sideHalves_cast.mpr ⟨hz, fun c hc => ?_⟩)
      obtain ⟨o, ho, rfl⟩ := List.mem_map.mp hc
      have := nearest_mem hpn ho
      rw [nearHalf_cast]
      rw [ea] at this
      linarith
    obtain ⟨i, hi, e⟩ := List.getElem_of_mem hs0
    refine ⟨i, hi, ?_⟩
    have ei : realSites S i = real s0 := by unfold realSites; rw [getD_elem _ hi, e]
    rw [ei, hk]
    exact above_all hcx hcov hz

/-- C130: for such an input, with the corners in any order, the polygon is made, `create_diagram` succeeds with and without the clean-up, and the areas are positive and
those of the Voronoi cells. -/
theorem C130_areas (h : Input S m) {l : List (ℝ × ℝ)} (hl : l ~ m.map real) {q : PQ (QE ℝ)} {ok : List (QE ℝ) → Prop} (hq : q.Spec evLt ok) {fuel : Nat}
    (hfuel : 7 * S.length < fuel) (rz : Bool) : ∃ poly s', mkPoly l = .ok poly ∧ createDiagram (realSites S) q S.length fuel poly rz (initSt poly) = .ok ((), s') ∧
      ∀ p < S.length, ∃ a, area s'.d.heCnt p s'.d = .ok (a, s'.d) ∧ 0 < a ∧
        MeasureTheory.volume {z | InClosed (m.map real) z ∧ Nearest (realSites S) S.length p z} = ENNReal.ofReal a := by
  have hG := check_general h
  obtain ⟨poly, hp, ⟨r, hr⟩, _, _⟩ := C94_clockwise hG.convex hl
  obtain ⟨hB, hd⟩ := C130_fits h hl hp
  have hn : 0 < S.length := List.length_pos_of_ne_nil h.2.1.1
  have hpos : 0 < (m.map real).length := by have := hG.convex.1; omega
  obtain ⟨s0, s1, r0, r1, _⟩ := C74_cleanup_succeeds (fuel := fuel) hB.toFitsCorners hd hq hn hfuel
  have hrun : ∃ s', createDiagram (realSites S) q S.length fuel poly rz (initSt poly) = .ok ((), s') := by
    cases rz
    · exact ⟨s0, r0⟩
    · exact ⟨s1, r1⟩
  obtain ⟨s', hs'⟩ := hrun
  refine ⟨poly, s', hp, hs', fun p hpn => ?_⟩
  obtain ⟨a, h1, h2, h3, h4⟩ := C119_area hB.toFitsCorners hd hq hs' hpn (by
    have hS := hB.shown hpn
    rcases hS.notAll with ⟨z, h1, h2⟩ | h1
    · refine Or.inr fun hh => ?_
      rcases hh with hh | hh
      · obtain ⟨c, h3, h4⟩ := hS.part
        refine hh c ⟨h3.closed, hS.lt, fun o ho => ?_⟩
        by_cases hne : o = p
        · rw [hne]
        · exact (h4 o ho hne).le
      · exact h2 (hh z h1)
    · exact Or.inl h1) le_rfl
  refine ⟨a, h1, h3.mpr ?_, ?_⟩
  · obtain ⟨c, c1, c2⟩ := hB.meets p hpn
    refine ⟨c, c1.closed, hpn, fun o ho => ?_⟩
    by_cases hne : o = p
    · rw [hne]
    · exact (c2 o ho hne).le
  · rw [← h4]
    congr 1
    ext z
    show InClosed _ z ∧ _ ↔ InClosed _ z ∧ _
    rw [hr, closed_rotate hpos]

/-- The sites of examples/quickstart.py and of the README. -/
def quickSites : List QPt := [(5 / 2, 5 / 2), (4, 15 / 2), (15 / 2, 5 / 2), (6, 15 / 2), (4, 4), (3, 3), (6, 3)]

/-- Its polygon. -/
def quickPolygon : List QPt := [(5 / 2, 10), (5, 10), (10, 5), (10, 5 / 2), (5, 0), (5 / 2, 0), (0, 5 / 2), (0, 5)]

set_option maxRecDepth 100000 in
/-- C130: the example of the README meets the condition. -/
theorem C130_quickstart : Input quickSites quickPolygon := by decide +kernel

end Foronoi
