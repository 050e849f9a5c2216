import Verif.Proof.Clipped
import Verif.Spec.Clipping

/-!
# Points on a segment to an interior point
-/

namespace Foronoi

variable {pts : Nat → Pt} {n : Nat} {l : List Pt}

/-- The point at parameter `t` on the way from `z` to `w`. -/
def along (z w : Pt) (t : ℝ) : Pt := ((1 - t) * z.1 + t * w.1, (1 - t) * z.2 + t * w.2)

theorem along_between {z w : Pt} {t : ℝ} (h0 : 0 ≤ t) (h1 : t ≤ 1) : Between z w (along z w t) := ⟨t, h0, h1, rfl⟩

theorem along_diff (p r z w : Pt) (t : ℝ) : dsq r (along z w t) - dsq p (along z w t) = (1 - t) * (dsq r z - dsq p z) + t * (dsq r w - dsq p w) := by
  unfold dsq along; simp only; ring

theorem along_rightOf (p r z w : Pt) (t : ℝ) : rightOf p r (along z w t) = (1 - t) * rightOf p r z + t * rightOf p r w := by
  unfold rightOf along; simp only; ring

/-- Points on the way to a point strictly inside are strictly inside. -/
theorem along_inside {z w : Pt} (hz : InClosed l z) (hw : StrictlyInside l w) {t : ℝ} (h0 : 0 < t) (h1 : t ≤ 1) : StrictlyInside l (along z w t) := by
  intro i hi
  rw [along_rightOf]
  have := mul_nonneg (by linarith : 0 ≤ 1 - t) (hz i hi)
  have := mul_pos h0 (hw i hi)
  linarith

/-- The bisector of two points of a polygon passes through its interior. -/
theorem bisector_inside {w p r : Pt} (hw : StrictlyInside l w) (hp : InClosed l p) (hr : InClosed l r) (hne : p ≠ r) :
    ∃ u, StrictlyInside l u ∧ dsq p u = dsq r u := by
  have hpos := dsq_pos hne
  have key : ∀ p r : Pt, InClosed l p → 0 < dsq p r → dsq r w < dsq p w → ∃ u, StrictlyInside l u ∧ dsq p u = dsq r u := by
    intro p r hp hpos hlt
    have e0 : dsq p p = 0 := by unfold dsq; ring
    have e1 : dsq r p = dsq p r := by unfold dsq; ring
    set A := dsq p r with hA
    set B := dsq p w - dsq r w with hB
    have hBp : 0 < B := by rw [hB]; linarith
    refine ⟨along p w (A / (A + B)), along_inside hp hw (by positivity) ((div_le_one (by linarith)).mpr (by linarith)), ?_⟩
    have := along_diff p r p w (A / (A + B))
    rw [e0, e1] at this
    have e2 : dsq r w - dsq p w = -B := by rw [hB]; ring
    rw [e2] at this
    have e3 : (1 - A / (A + B)) * (A - 0) + A / (A + B) * -B = 0 := by
      field_simp
      ring
    rw [e3] at this
    linarith
  rcases lt_trichotomy (dsq p w) (dsq r w) with h | h | h
  · obtain ⟨u, h1, h2⟩ := key r p hr (by have : dsq r p = dsq p r := by unfold dsq; ring
                                         rw [this]; exact hpos) h
    exact ⟨u, h1, h2.symm⟩
  · exact ⟨w, hw, h⟩
  · exact key p r hp hpos h

/-- Sites in the polygon: their bisectors pass through its interior. -/
theorem touch_of_sites {w : Pt} (hw : StrictlyInside l w) (hs : ∀ p < n, InClosed l (pts p)) {p r : Nat} (hp : p < n) (hr : r < n) :
    ∃ u, StrictlyInside l u ∧ sqDist (pts p) u = sqDist (pts r) u := by
  by_cases h : pts p = pts r
  · exact ⟨w, hw, by rw [h]⟩
  · exact bisector_inside hw (hs p hp) (hs r hr) h

/-- Cells with a part in the interior: their bisectors pass through it. -/
theorem touch_of_meets {p r : Nat} {c d : Pt} (hc : StrictlyInside l c) (hd : StrictlyInside l d) (h1 : sqDist (pts p) c < sqDist (pts r) c)
    (h2 : sqDist (pts r) d < sqDist (pts p) d) : ∃ u, StrictlyInside l u ∧ sqDist (pts p) u = sqDist (pts r) u := by
  have h1 : dsq (pts p) c < dsq (pts r) c := h1
  have h2 : dsq (pts r) d < dsq (pts p) d := h2
  set A := dsq (pts r) c - dsq (pts p) c with hA
  set B := dsq (pts p) d - dsq (pts r) d with hB
  have a0 : 0 < A := by rw [hA]; linarith
  have b0 : 0 < B := by rw [hB]; linarith
  refine ⟨along c d (A / (A + B)), along_inside (fun i hi => (hc i hi).le) hd (by positivity) ((div_le_one (by linarith)).mpr (by linarith)), ?_⟩
  have e := along_diff (pts p) (pts r) c d (A / (A + B))
  have e2 : dsq (pts r) d - dsq (pts p) d = -B := by rw [hB]; ring
  rw [e2, ← hA] at e
  have e3 : (1 - A / (A + B)) * A + A / (A + B) * -B = 0 := by
    field_simp
    ring
  rw [e3] at e
  have : dsq (pts p) (along c d (A / (A + B))) = dsq (pts r) (along c d (A / (A + B))) := by linarith
  exact this

/-- Sites in the polygon: every cell has a part in its interior. -/
theorem meets_of_sites {w : Pt} (hw : StrictlyInside l w) (hs : ∀ p < n, InClosed l (pts p)) (hd : Distinct pts n) {p : Nat} (hp : p < n) :
    ∃ c, StrictlyInside l c ∧ ∀ o < n, o ≠ p → sqDist (pts p) c < sqDist (pts o) c := by
  have key : ∀ m ≤ n, ∃ ε : ℝ, 0 < ε ∧ ε ≤ 1 ∧ ∀ t, 0 < t → t ≤ ε → ∀ o < m, o ≠ p → dsq (pts p) (along (pts p) w t) < dsq (pts o) (along (pts p) w t) := by
    intro m
    induction m with
    | zero => exact fun _ => ⟨1, one_pos, le_rfl, fun _ _ _ o ho => by omega⟩
    | succ m ih =>
      intro hm
      obtain ⟨ε, e0, e1, he⟩ := ih (by omega)
      by_cases hmp : m = p
      · refine ⟨ε, e0, e1, fun t t0 t1 o ho hne => he t t0 t1 o (by omega) hne⟩
      · have hne : pts m ≠ pts p := fun hh => hmp (hd m (by omega) p hp hh)
        have hpos := dsq_pos hne
        set B := dsq (pts m) w - dsq (pts p) w with hB
        have hden : 0 < dsq (pts m) (pts p) + |B| := by have := abs_nonneg B; linarith
        refine ⟨min ε (dsq (pts m) (pts p) / (2 * (dsq (pts m) (pts p) + |B|))), lt_min e0 (div_pos hpos (by linarith)), le_trans (min_le_left _ _) e1,
          fun t t0 t1 o ho hne => ?_⟩
        rcases Nat.lt_succ_iff_lt_or_eq.mp ho with ho | rfl
        · exact he t t0 (le_trans t1 (min_le_left _ _)) o ho hne
        · have e := along_diff (pts p) (pts o) (pts p) w t
          rw [← hB] at e
          have h0 : dsq (pts p) (pts p) = 0 := by unfold dsq; ring
          rw [h0] at e
          have ht := le_trans t1 (min_le_right _ _)
          rw [le_div_iff₀ (by linarith)] at ht
          have hab := neg_abs_le B
          have := mul_nonneg t0.le (by linarith : 0 ≤ B + |B|)
          nlinarith
  obtain ⟨ε, e0, e1, he⟩ := key n le_rfl
  exact ⟨along (pts p) w ε, along_inside (hs p hp) hw e0 e1, he ε e0 le_rfl⟩

end Foronoi
