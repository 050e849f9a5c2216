import Verif.Proof.Parabola

/-!
# `Breakpoint.get_intersection` and `Arc.get_plot` over the reals
-/

namespace Foronoi

theorem bpX_degA {a b : Pt} {l : ℝ} (h : a.2 ≠ b.2) (ha : a.2 = l) : bpX a b l = a.1 := by
  have hne : a.2 - b.2 ≠ 0 := sub_ne_zero.mpr h
  unfold bpX
  rw [if_neg h, ha, sub_self, zero_mul, Real.sqrt_zero]
  rw [ha] at hne
  rw [div_eq_iff hne]; ring

theorem bpX_degB {a b : Pt} {l : ℝ} (h : a.2 ≠ b.2) (hb : b.2 = l) : bpX a b l = b.1 := by
  have hne : a.2 - b.2 ≠ 0 := sub_ne_zero.mpr h
  unfold bpX
  rw [if_neg h, hb, sub_self, mul_zero, mul_zero, Real.sqrt_zero]
  rw [hb] at hne
  rw [div_eq_iff hne]; ring

theorem bpY_real {p : Pt} {l : ℝ} (h : l < p.2) (x : ℝ) : bpY p x l = some (.fin (par p l x)) := by
  have h0 : p.2 - l ≠ 0 := by linarith
  have h1 : (2 : ℝ) * (p.2 - l) ≠ 0 := by simpa using h0
  unfold bpY
  simp only [lit, rI, rMul, rSub, rAdd, rSq, Int.cast_ofNat, Int.cast_zero, Int.cast_one, if_neg h1, rDiv _ _ h1, Option.bind_eq_bind,
    Option.bind_some, Option.some.injEq, Ext.fin.injEq]
  unfold par
  field_simp
  ring

theorem bpQuad_real {a b : Pt} {l : ℝ} (ha : l ≤ a.2) (hb : l ≤ b.2) (h : a.2 ≠ b.2) :
    bpQuad a.1 a.2 b.1 b.2 (2 * (a.2 - l)) (2 * (b.2 - l)) l = some (bpX a b l) := by
  have hA : 0 ≤ a.2 - l := by linarith
  have hB : 0 ≤ b.2 - l := by linarith
  have hne : a.2 - b.2 ≠ 0 := sub_ne_zero.mpr h
  have hu : 2 * (a.2 - l) - 2 * (b.2 - l) ≠ 0 := by
    intro hh; exact hne (by linarith)
  have e : bpRootArg a.1 a.2 b.1 b.2 (2 * (a.2 - l)) (2 * (b.2 - l)) l = 2 ^ 2 * ((a.2 - l) * (b.2 - l) * dsq a b) := by
    simp only [bpRootArg, lit, rI, rMul, rSub, rAdd, rSq, dsq]; push_cast; ring
  have h0 : 0 ≤ 2 ^ 2 * ((a.2 - l) * (b.2 - l) * dsq a b) := by
    have := dsq_nonneg a b; positivity
  have es : Real.sqrt (2 ^ 2 * ((a.2 - l) * (b.2 - l) * dsq a b)) = 2 * (Real.sqrt ((a.2 - l) * (b.2 - l)) * Real.sqrt (dsq a b)) := by
    rw [Real.sqrt_mul (by norm_num), Real.sqrt_sq (by norm_num), Real.sqrt_mul (mul_nonneg hA hB)]
  unfold bpQuad
  rw [e, rSqrt _ h0, es]
  simp only [Option.bind_eq_bind, Option.bind_some, rSub, rNeg, rMul, rAdd, rDiv _ _ hu, Option.some.injEq]
  unfold bpX
  rw [if_neg h, div_eq_div_iff hu hne]
  ring

/-- What `get_intersection` returns when the sweep line is not above the two sites. -/
theorem getIntersection_real {a b : Pt} {l : ℝ} (ha : l ≤ a.2) (hb : l ≤ b.2) (maxY : Option ℝ) :
    ∃ y, getIntersection a b l maxY = some (bpX a b l, y) ∧
      (¬ (a.2 = b.2 ∧ (b.1 < a.1 ∨ a.2 = l)) → y = .fin (bpYv a b l)) := by
  unfold getIntersection
  simp only [lit, rI, rMul, rSub, rAdd, Option.bind_eq_bind]
  by_cases h : a.2 = b.2
  · have hx : bpX a b l = (a.1 + b.1) / 2 := if_pos h
    have h2 : (((2 : ℤ) : ℝ)) ≠ 0 := by norm_num
    rw [if_pos h, rDiv _ _ h2, Option.bind_some]
    have e2 : ((2 : ℤ) : ℝ) = 2 := by norm_num
    rw [e2, ← hx]
    split
    · rename_i hlt
      exact ⟨_, rfl, fun hn => absurd ⟨h, Or.inl hlt⟩ hn⟩
    · rename_i hlt
      by_cases hal : a.2 = l
      · refine ⟨.inf, ?_, fun hn => absurd ⟨h, Or.inr hal⟩ hn⟩
        simp [bpY, lit, rI, rMul, rSub, hal]
      · have hal' : l < a.2 := lt_of_le_of_ne ha (Ne.symm hal)
        refine ⟨.fin (bpYv a b l), ?_, fun _ => rfl⟩
        rw [bpY_real hal', Option.bind_some]
        simp [bpYv, hal]
  · rw [if_neg h]
    by_cases hal : a.2 = l
    · have hbl : l < b.2 := lt_of_le_of_ne hb (fun hh => h (by linarith))
      rw [if_pos hal, bpY_real hbl, Option.bind_some]
      refine ⟨.fin (bpYv a b l), ?_, fun _ => rfl⟩
      simp [bpYv, hal, bpX_degA h hal]
    · have hal' : l < a.2 := lt_of_le_of_ne ha (Ne.symm hal)
      rw [if_neg hal]
      by_cases hbl : b.2 = l
      · rw [if_pos hbl, bpY_real hal', Option.bind_some]
        refine ⟨.fin (bpYv a b l), ?_, fun _ => rfl⟩
        simp [bpYv, hal, bpX_degB h hbl]
      · rw [if_neg hbl]
        have e2 : ((2 : ℤ) : ℝ) = 2 := by norm_num
        rw [e2, bpQuad_real ha hb h, Option.bind_some, bpY_real hal', Option.bind_some]
        refine ⟨.fin (bpYv a b l), ?_, fun _ => rfl⟩
        simp [bpYv, hal]

theorem getIntersection_isSome {a b : Pt} {l : ℝ} (ha : l ≤ a.2) (hb : l ≤ b.2) (maxY : Option ℝ) :
    (getIntersection a b l maxY).map (·.1) = some (bpX a b l) := by
  obtain ⟨y, h, _⟩ := getIntersection_real ha hb maxY
  rw [h]; rfl

theorem createCircle_isSome (a b c : Pt) : (createCircle a b c).isSome := by
  rw [createCircle_real]; split <;> rfl

theorem arcPlot_real (p : Pt) (x l : ℝ) : arcPlot p x l = if p.2 = l then none else some (par p l x) := by
  unfold arcPlot
  simp only [rToF, rFsub, rFmul, rFadd, rFdiv, lit, rI, Int.cast_zero, sub_eq_zero]
  by_cases h : p.2 = l
  · simp [h]
  · rw [if_neg h, if_neg h]
    congr 1
    unfold par
    congr 1
    ring

end Foronoi
