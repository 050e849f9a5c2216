import Verif.Proof.Circle
import Mathlib.Topology.Order.IntermediateValue
import Mathlib.Topology.Algebra.Order.Field

/-!
# Parabolas and breakpoints, over the reals

`par p l` is the parabola with focus `p` and directrix `y = l`.  `Bp a b l z`: the point `z` is the breakpoint between an arc of `a`
(left) and an arc of `b` (right) when the sweep line is at `l`.
-/

namespace Foronoi

/-- Height of the parabola with focus `p` and directrix `y = l`. -/
noncomputable def par (p : Pt) (l x : ℝ) : ℝ := ((x - p.1) ^ 2 + p.2 ^ 2 - l ^ 2) / (2 * (p.2 - l))

/-- Power of `p` with respect to the circle around `z` touching the line `y = l`. -/
def pw (p : Pt) (l : ℝ) (z : Pt) : ℝ := dsq p z - (z.2 - l) ^ 2

theorem pw_par {p : Pt} {l : ℝ} (h : l < p.2) (x y : ℝ) : pw p l (x, y) = 2 * (p.2 - l) * (par p l x - y) := by
  have : p.2 - l ≠ 0 := by linarith
  unfold pw par dsq
  field_simp
  ring

theorem pw_deg {p : Pt} {l : ℝ} (h : p.2 = l) (z : Pt) : pw p l z = (z.1 - p.1) ^ 2 := by
  unfold pw dsq; rw [h]; ring

theorem par_le_iff {p q : Pt} {l x : ℝ} (hq : l < q.2) : par p l x ≤ par q l x ↔ 0 ≤ pw q l (x, par p l x) := by
  rw [pw_par hq]
  have : 0 < 2 * (q.2 - l) := by linarith
  rw [mul_nonneg_iff_of_pos_left this, sub_nonneg]

theorem par_lt_iff {p q : Pt} {l x : ℝ} (hq : l < q.2) : par p l x < par q l x ↔ 0 < pw q l (x, par p l x) := by
  rw [pw_par hq]
  have : 0 < 2 * (q.2 - l) := by linarith
  rw [mul_pos_iff_of_pos_left this, sub_pos]

theorem dsq_par {p : Pt} {l : ℝ} (h : l < p.2) (x : ℝ) : dsq p (x, par p l x) = (par p l x - l) ^ 2 := by
  have := pw_par h x (par p l x)
  simp only [sub_self, mul_zero, pw] at this
  linarith

theorem par_ge {p : Pt} {l : ℝ} (h : l < p.2) (x : ℝ) : l < par p l x := by
  have h1 : 0 < p.2 - l := by linarith
  unfold par
  rw [lt_div_iff₀ (by linarith)]
  nlinarith [sq_nonneg (x - p.1), sq_pos_of_pos h1]

/-- A point as far from `p` as from the line lies on the parabola. -/
theorem eq_par {p z : Pt} {l : ℝ} (h : l < p.2) (hz : dsq p z = (z.2 - l) ^ 2) : z.2 = par p l z.1 := by
  have h1 := pw_par h z.1 z.2
  have h2 : pw p l (z.1, z.2) = 0 := by unfold pw; simp only; rw [← hz]; simp
  rw [h2] at h1
  have : 2 * (p.2 - l) ≠ 0 := by linarith
  have := (mul_eq_zero.mp h1.symm).resolve_left this
  linarith

/-- Orientation of a breakpoint: nonnegative if left of `x` the arc of `a` is the lower one. -/
def ori (a b : Pt) (l x : ℝ) : ℝ := (x - a.1) * (b.2 - l) - (x - b.1) * (a.2 - l)

/-- `z` is the breakpoint between the arc of `a` and, right of it, the arc of `b`. -/
structure Bp (a b : Pt) (l : ℝ) (z : Pt) : Prop where
  ea : dsq a z = (z.2 - l) ^ 2
  eb : dsq b z = (z.2 - l) ^ 2
  le : l ≤ z.2
  or : 0 ≤ ori a b l z.1

theorem dsq_comm (a b : Pt) : dsq a b = dsq b a := by unfold dsq; ring

theorem dsq_nonneg (a b : Pt) : 0 ≤ dsq a b := by unfold dsq; positivity

theorem dsq_pos {a b : Pt} (h : a ≠ b) : 0 < dsq a b := by
  refine lt_of_le_of_ne (dsq_nonneg a b) fun h0 => h ?_
  unfold dsq at h0
  have h1 : a.1 - b.1 = 0 := by nlinarith [sq_nonneg (a.1 - b.1), sq_nonneg (a.2 - b.2)]
  have h2 : a.2 - b.2 = 0 := by nlinarith [sq_nonneg (a.1 - b.1), sq_nonneg (a.2 - b.2)]
  exact Prod.ext (by linarith) (by linarith)

/-- The square of the orientation only depends on the heights and the distance of the sites. -/
theorem Bp.ori_sq {a b z : Pt} {l : ℝ} (h : Bp a b l z) : ori a b l z.1 ^ 2 = (a.2 - l) * (b.2 - l) * dsq a b := by
  have e1 := h.ea
  have e2 := h.eb
  unfold dsq ori at *
  -- with p = x - a.1, q = x - b.1: p² + A² = 2ρA, q² + B² = 2ρB
  linear_combination ((b.2 - l) * (b.2 - l) - (a.2 - l) * (b.2 - l)) * e1 + ((a.2 - l) * (a.2 - l) - (a.2 - l) * (b.2 - l)) * e2

/-- The breakpoint abscissa. -/
noncomputable def bpX (a b : Pt) (l : ℝ) : ℝ :=
  if a.2 = b.2 then (a.1 + b.1) / 2
  else (b.1 * (a.2 - l) - a.1 * (b.2 - l) - Real.sqrt ((a.2 - l) * (b.2 - l)) * Real.sqrt (dsq a b)) / (a.2 - b.2)

theorem bpX_continuous (a b : Pt) : Continuous (bpX a b) := by
  unfold bpX
  split
  · exact continuous_const
  · fun_prop

theorem Bp.ori_eq {a b z : Pt} {l : ℝ} (h : Bp a b l z) (ha : l ≤ a.2) (hb : l ≤ b.2) :
    ori a b l z.1 = Real.sqrt ((a.2 - l) * (b.2 - l)) * Real.sqrt (dsq a b) := by
  have hA : 0 ≤ a.2 - l := by linarith
  have hB : 0 ≤ b.2 - l := by linarith
  rw [← Real.sqrt_mul (mul_nonneg hA hB), ← h.ori_sq, Real.sqrt_sq h.or]

/-- The breakpoint is unique. -/
theorem Bp.x_eq {a b z : Pt} {l : ℝ} (h : Bp a b l z) (hab : a ≠ b) (ha : l ≤ a.2) (hb : l ≤ b.2) : z.1 = bpX a b l := by
  unfold bpX
  split
  · rename_i h2
    have e1 := h.ea.trans h.eb.symm
    unfold dsq at e1
    rw [h2] at e1
    have h1 : a.1 - b.1 ≠ 0 := fun hh => hab (Prod.ext (by linarith) h2)
    have : (a.1 - b.1) * (2 * z.1 - (a.1 + b.1)) = 0 := by linear_combination -e1
    have := (mul_eq_zero.mp this).resolve_left h1
    linarith
  · rename_i h2
    have hne : a.2 - b.2 ≠ 0 := fun hh => h2 (by linarith)
    rw [← h.ori_eq ha hb, eq_div_iff hne]
    unfold ori; ring

theorem Bp.y_eq {a b z : Pt} {l : ℝ} (h : Bp a b l z) (ha : l < a.2) : z.2 = par a l z.1 := eq_par ha h.ea

theorem Bp.y_eq' {a b z : Pt} {l : ℝ} (h : Bp a b l z) (hb : l < b.2) : z.2 = par b l z.1 := eq_par hb h.eb

theorem Bp.unique {a b z w : Pt} {l : ℝ} (h : Bp a b l z) (h' : Bp a b l w) (hab : a ≠ b) (ha : l ≤ a.2) (hb : l ≤ b.2)
    (hn : l < a.2 ∨ l < b.2) : z = w := by
  have e : z.1 = w.1 := (h.x_eq hab ha hb).trans (h'.x_eq hab ha hb).symm
  refine Prod.ext e ?_
  rcases hn with hn | hn
  · rw [h.y_eq hn, h'.y_eq hn, e]
  · rw [h.y_eq' hn, h'.y_eq' hn, e]

/-- The ordinate of the breakpoint. -/
noncomputable def bpYv (a b : Pt) (l : ℝ) : ℝ := if a.2 = l then par b l (bpX a b l) else par a l (bpX a b l)

/-- The breakpoint exists. -/
theorem bp_exists {a b : Pt} {l : ℝ} (ha : l ≤ a.2) (hb : l ≤ b.2) (hn : l < a.2 ∨ l < b.2) (ho : a.2 = b.2 → a.1 < b.1) :
    Bp a b l (bpX a b l, bpYv a b l) := by
  have hA : 0 ≤ a.2 - l := by linarith
  have hB : 0 ≤ b.2 - l := by linarith
  by_cases h2 : a.2 = b.2
  · -- same height
    have hla : l < a.2 := by rcases hn with h | h <;> linarith
    have hlb : l < b.2 := by linarith
    have hx : bpX a b l = (a.1 + b.1) / 2 := if_pos h2
    have hpe : par a l ((a.1 + b.1) / 2) = par b l ((a.1 + b.1) / 2) := by
      unfold par; rw [h2]; congr 2; ring
    unfold bpYv
    rw [if_neg (by linarith), hx]
    refine ⟨dsq_par hla _, ?_, (par_ge hla _).le, ?_⟩
    · rw [hpe]; exact dsq_par hlb _
    · have := ho h2
      unfold ori; rw [h2]
      have : ((a.1 + b.1) / 2 - a.1) * (b.2 - l) - ((a.1 + b.1) / 2 - b.1) * (b.2 - l) = (b.1 - a.1) * (b.2 - l) := by ring
      rw [this]
      exact mul_nonneg (by linarith) hB
  · have hne : a.2 - b.2 ≠ 0 := fun hh => h2 (by linarith)
    set σ := Real.sqrt ((a.2 - l) * (b.2 - l)) * Real.sqrt (dsq a b) with hσ
    have hσ2 : σ ^ 2 = (a.2 - l) * (b.2 - l) * dsq a b := by
      rw [hσ, mul_pow, Real.sq_sqrt (mul_nonneg hA hB), Real.sq_sqrt (dsq_nonneg a b)]
    have hσ0 : 0 ≤ σ := by positivity
    set x := bpX a b l with hx
    have hx' : x * (a.2 - b.2) = b.1 * (a.2 - l) - a.1 * (b.2 - l) - σ := by
      rw [hx]; unfold bpX; rw [if_neg h2, ← hσ, div_mul_cancel₀ _ hne]
    have ho' : ori a b l x = σ := by unfold ori; linarith
    -- the two parabolas meet
    have key : (a.2 - l) * (x - b.1) ^ 2 - (b.2 - l) * (x - a.1) ^ 2 = (a.2 - l) * (b.2 - l) * (a.2 - b.2) := by
      have h3 : (a.2 - b.2) * ((a.2 - l) * (x - b.1) ^ 2 - (b.2 - l) * (x - a.1) ^ 2) =
          (a.2 - b.2) * ((a.2 - l) * (b.2 - l) * (a.2 - b.2)) := by
        have e : ori a b l x ^ 2 = (a.2 - l) * (b.2 - l) * dsq a b := by rw [ho', hσ2]
        unfold ori dsq at e
        linear_combination e
      exact mul_left_cancel₀ hne h3
    have hpp : l < a.2 → l < b.2 → par a l x = par b l x := by
      intro h3 h4
      have h5 : a.2 - l ≠ 0 := by linarith
      have h6 : b.2 - l ≠ 0 := by linarith
      unfold par
      rw [div_eq_div_iff (by simpa using h5) (by simpa using h6)]
      linear_combination (-2) * key
    have hdegA : a.2 = l → x = a.1 := by
      intro h3
      have h4 : b.2 - l ≠ 0 := fun hh => h2 (by linarith)
      have : (b.2 - l) * (x - a.1) ^ 2 = 0 := by rw [h3] at key; linear_combination -key
      have := (mul_eq_zero.mp this).resolve_left h4
      have := pow_eq_zero_iff (two_ne_zero) |>.mp this
      linarith
    have hdegB : b.2 = l → x = b.1 := by
      intro h3
      have h4 : a.2 - l ≠ 0 := fun hh => h2 (by linarith)
      have : (a.2 - l) * (x - b.1) ^ 2 = 0 := by rw [h3] at key; linear_combination key
      have := (mul_eq_zero.mp this).resolve_left h4
      have := pow_eq_zero_iff (two_ne_zero) |>.mp this
      linarith
    unfold bpYv
    rw [← hx]
    by_cases h3 : a.2 = l
    · have hlb : l < b.2 := lt_of_le_of_ne hb (fun hh => h2 (by linarith))
      rw [if_pos h3]
      refine ⟨?_, dsq_par hlb _, (par_ge hlb _).le, by rw [ho']; exact hσ0⟩
      have := hdegA h3
      unfold dsq; simp only; rw [this, h3]; ring
    · have hla : l < a.2 := lt_of_le_of_ne ha (Ne.symm h3)
      rw [if_neg h3]
      refine ⟨dsq_par hla _, ?_, (par_ge hla _).le, by rw [ho']; exact hσ0⟩
      by_cases h4 : b.2 = l
      · have := hdegB h4
        unfold dsq; simp only; rw [this, h4]; ring
      · have hlb : l < b.2 := lt_of_le_of_ne hb (Ne.symm h4)
        rw [hpp hla hlb]; exact dsq_par hlb _

/-! ### the pencil of circles through two sites -/

/-- Another form of the orientation. -/
theorem ori_eq (a b z : Pt) (l : ℝ) : ori a b l z.1 =
    (b.1 - a.1) * (z.2 - l) - (-(z.1 - a.1) * (b.2 - a.2) + (z.2 - a.2) * (b.1 - a.1)) := by unfold ori; ring

/-- Two points on the bisector differ by a multiple of its direction. -/
theorem bisector_dir {a b z w : Pt} (hab : a ≠ b) (hz : dsq a z = dsq b z) (hw : dsq a w = dsq b w) :
    ∃ k : ℝ, w.1 - z.1 = -k * (b.2 - a.2) ∧ w.2 - z.2 = k * (b.1 - a.1) := by
  have hd := dsq_pos hab
  have h0 : (b.1 - a.1) * (w.1 - z.1) + (b.2 - a.2) * (w.2 - z.2) = 0 := by
    unfold dsq at hz hw; linear_combination hw / 2 - hz / 2
  refine ⟨(-(w.1 - z.1) * (b.2 - a.2) + (w.2 - z.2) * (b.1 - a.1)) / dsq a b, ?_, ?_⟩
  · field_simp; unfold dsq; linear_combination (b.1 - a.1) * h0
  · field_simp; unfold dsq; linear_combination (b.2 - a.2) * h0

/-- Cauchy-Schwarz for two radii. -/
theorem radii {a z w : Pt} {r s : ℝ} (hr : 0 ≤ r) (hs : 0 ≤ s) (hz : dsq a z = r ^ 2) (hw : dsq a w = s ^ 2) :
    (a.1 - z.1) * (a.1 - w.1) + (a.2 - z.2) * (a.2 - w.2) ≤ r * s := by
  apply le_of_sq_le_sq _ (mul_nonneg hr hs)
  rw [mul_pow, ← hz, ← hw]; unfold dsq
  nlinarith [sq_nonneg ((a.1 - z.1) * (a.2 - w.2) - (a.2 - z.2) * (a.1 - w.1))]
where
  le_of_sq_le_sq {x y : ℝ} (h : x ^ 2 ≤ y ^ 2) (hy : 0 ≤ y) : x ≤ y := abs_le_of_sq_le_sq' h hy |>.2

/-- Going down the bisector from a breakpoint: the level sinks and the orientation stays. -/
theorem pencil_down {a b z w : Pt} {l m k : ℝ} (hab : a ≠ b) (hz : Bp a b l z)
    (hw : dsq a w = (w.2 - m) ^ 2) (hm : m ≤ w.2)
    (h1 : w.1 - z.1 = -k * (b.2 - a.2)) (h2 : w.2 - z.2 = k * (b.1 - a.1)) (hk : k ≤ 0) : m ≤ l ∧ 0 ≤ ori a b m w.1 := by
  have hρz : 0 ≤ z.2 - l := by linarith [hz.le]
  have hρw : 0 ≤ w.2 - m := by linarith
  have hρ0 : 0 < z.2 - l := by
    refine lt_of_le_of_ne hρz fun h0 => hab ?_
    have e1 := hz.ea; have e2 := hz.eb
    rw [← h0] at e1 e2
    have : ∀ p : Pt, dsq p z = 0 ^ 2 → p = z := by
      intro p hp; by_contra hne
      have := dsq_pos hne; rw [hp] at this; norm_num at this
    rw [this a e1, this b e2]
  have cs := radii hρz hρw hz.ea hw
  have hO := hz.or
  rw [ori_eq] at hO ⊢
  have hd : dsq a b = (b.1 - a.1) ^ 2 + (b.2 - a.2) ^ 2 := by unfold dsq; ring
  have hw1 : w.1 = z.1 - k * (b.2 - a.2) := by linarith
  have hw2 : w.2 = z.2 + k * (b.1 - a.1) := by linarith
  have eza := hz.ea
  constructor
  · -- (z.2 - l) * (l - m) ≥ 0
    have : 0 ≤ (z.2 - l) * (l - m) := by
      unfold dsq at eza
      have e : (z.2 - l) * (l - m) = ((z.2 - l) * (w.2 - m) - ((a.1 - z.1) * (a.1 - w.1) + (a.2 - z.2) * (a.2 - w.2))) +
          (-k) * ((b.1 - a.1) * (z.2 - l) - (-(z.1 - a.1) * (b.2 - a.2) + (z.2 - a.2) * (b.1 - a.1))) := by
        rw [hw1, hw2]; linear_combination eza
      rw [e]
      have := mul_nonneg (neg_nonneg.mpr hk) hO
      linarith
    by_contra hcon
    have := mul_pos hρ0 (by linarith : 0 < m - l)
    linarith
  · -- the radii differ by at most the distance of the centres
    have hdiff : ((w.2 - m) - (z.2 - l)) ^ 2 ≤ k ^ 2 * dsq a b := by
      have : ((w.2 - m) - (z.2 - l)) ^ 2 = dsq a w + dsq a z - 2 * ((z.2 - l) * (w.2 - m)) := by rw [hw, eza]; ring
      rw [this]
      have e : k ^ 2 * dsq a b = dsq a w + dsq a z - 2 * ((a.1 - z.1) * (a.1 - w.1) + (a.2 - z.2) * (a.2 - w.2)) := by
        rw [hd]; unfold dsq; rw [hw1, hw2]; ring
      rw [e]; linarith
    have hb : |(b.1 - a.1) * ((w.2 - m) - (z.2 - l))| ≤ -k * dsq a b := by
      apply abs_le_of_sq_le_sq
      · have h3 : (b.1 - a.1) ^ 2 ≤ dsq a b := by rw [hd]; nlinarith [sq_nonneg (b.2 - a.2)]
        rw [mul_pow, mul_pow, neg_sq]
        have := mul_le_mul h3 hdiff (sq_nonneg _) (dsq_nonneg a b)
        nlinarith
      · exact mul_nonneg (by linarith) (dsq_nonneg a b)
    have hb' := (abs_le.mp hb).1
    have e : (b.1 - a.1) * (w.2 - m) - (-(w.1 - a.1) * (b.2 - a.2) + (w.2 - a.2) * (b.1 - a.1)) =
        ((b.1 - a.1) * (z.2 - l) - (-(z.1 - a.1) * (b.2 - a.2) + (z.2 - a.2) * (b.1 - a.1))) +
        (b.1 - a.1) * ((w.2 - m) - (z.2 - l)) - k * dsq a b := by
      rw [hd, hw1, hw2]; ring
    rw [e]; linarith

/-- A clockwise triple whose third site is outside the circle at the breakpoint of the first two: the circle through the three sites
lies below, and is the circle at the breakpoint of the first two sites later in the sweep. -/
theorem pencil_cw {a b c z w : Pt} {l m : ℝ} (hab : a ≠ b) (hz : Bp a b l z) (hcw : det a b c < 0) (hout : 0 ≤ pw c l z)
    (wa : dsq a w = (w.2 - m) ^ 2) (wb : dsq b w = (w.2 - m) ^ 2) (wc : dsq c w = (w.2 - m) ^ 2) (hm : m ≤ w.2) :
    m ≤ l ∧ Bp a b m w := by
  obtain ⟨k, h1, h2⟩ := bisector_dir hab (hz.ea.trans hz.eb.symm) (wa.trans wb.symm)
  have hk : k ≤ 0 := by
    by_contra hcon
    push Not at hcon
    have e : pw c l z = 2 * k * det a b c := by
      have hw1 : w.1 = z.1 - k * (b.2 - a.2) := by linarith
      have hw2 : w.2 = z.2 + k * (b.1 - a.1) := by linarith
      have e1 := wa.trans wc.symm
      have e2 := hz.ea
      unfold pw
      rw [← e2]
      unfold dsq at *; unfold det
      rw [hw1, hw2] at e1
      linear_combination -e1
    rw [e] at hout
    have := mul_pos hcon (neg_pos.mpr hcw)
    linarith
  obtain ⟨h3, h4⟩ := pencil_down hab hz wa hm h1 h2 hk
  exact ⟨h3, wa, wb, hm, h4⟩

/-- Breakpoints of two sites at two levels: how the power of a third site changes. -/
theorem pencil_power {a b c z w : Pt} {l m : ℝ} (hab : a ≠ b) (hz : Bp a b l z) (hw : Bp a b m w) (hlt : m < l) :
    ∃ k : ℝ, 0 < k ∧ pw c m w = pw c l z + 2 * k * det a b c := by
  obtain ⟨k, h1, h2⟩ := bisector_dir hab (hw.ea.trans hw.eb.symm) (hz.ea.trans hz.eb.symm)
  refine ⟨k, ?_, ?_⟩
  · by_contra hcon
    push Not at hcon
    have := (pencil_down hab hw hz.ea hz.le h1 h2 hcon).1
    linarith
  · have e1 := hz.ea
    have e2 := hw.ea
    have hz1 : z.1 = w.1 - k * (b.2 - a.2) := by linarith
    have hz2 : z.2 = w.2 + k * (b.1 - a.1) := by linarith
    unfold pw
    rw [← e1, ← e2]
    unfold dsq det
    rw [hz1, hz2]
    ring

/-! ### three sites meeting in a point -/

theorem Bp.pos {a b z : Pt} {l : ℝ} (h : Bp a b l z) (hab : a ≠ b) : l < z.2 := by
  refine lt_of_le_of_ne h.le fun h0 => hab ?_
  have e1 := h.ea; have e2 := h.eb
  rw [← h0, sub_self] at e1 e2
  have : ∀ p : Pt, dsq p z = 0 ^ 2 → p = z := by
    intro p hp; by_contra hne
    have := dsq_pos hne; rw [hp] at this; norm_num at this
  rw [this a e1, this b e2]

theorem Bp.ori_pos {a b z : Pt} {l : ℝ} (h : Bp a b l z) (hab : a ≠ b) (ha : l < a.2) (hb : l < b.2) : 0 < ori a b l z.1 := by
  refine lt_of_le_of_ne h.or fun h0 => ?_
  have := h.ori_sq
  rw [← h0] at this
  have h1 := mul_pos (mul_pos (sub_pos.mpr ha) (sub_pos.mpr hb)) (dsq_pos hab)
  linarith

theorem ori_trans (a b c : Pt) (l x : ℝ) :
    ori a c l x * (b.2 - l) = ori a b l x * (c.2 - l) + ori b c l x * (a.2 - l) := by unfold ori; ring

/-- The orientation of three sites on a circle touching the line from above. -/
theorem det_ori {a b c z : Pt} {l : ℝ} (ha : dsq a z = (z.2 - l) ^ 2) (hb : dsq b z = (z.2 - l) ^ 2) (hc : dsq c z = (z.2 - l) ^ 2) :
    2 * (z.2 - l) * ((a.2 - l) * (b.2 - l) * (c.2 - l)) * det a b c = -(ori a b l z.1 * ori b c l z.1 * ori a c l z.1) := by
  -- write p = x - a.1, A = a.2 - l, …, with p² + A² = 2ρA
  have key : ∀ p q s A B C ρ : ℝ, p ^ 2 + A ^ 2 = 2 * ρ * A → q ^ 2 + B ^ 2 = 2 * ρ * B → s ^ 2 + C ^ 2 = 2 * ρ * C →
      2 * ρ * (A * B * C) * ((p - q) * (C - A) - (B - A) * (p - s)) = -((p * B - q * A) * (q * C - s * B) * (p * C - s * A)) := by
    intro p q s A B C ρ h1 h2 h3
    linear_combination (q * B * C ^ 2 - s * B ^ 2 * C) * h1 + (s * A ^ 2 * C - p * A * C ^ 2) * h2 + (p * A * B ^ 2 - q * A ^ 2 * B) * h3
  have := key (z.1 - a.1) (z.1 - b.1) (z.1 - c.1) (a.2 - l) (b.2 - l) (c.2 - l) (z.2 - l)
    (by unfold dsq at ha; linear_combination ha) (by unfold dsq at hb; linear_combination hb)
    (by unfold dsq at hc; linear_combination hc)
  unfold det ori
  linear_combination this

/-- Two breakpoints in the same point: the three sites are clockwise and the outer two have a breakpoint there, too. -/
theorem meet {a b c z : Pt} {l : ℝ} (hab : a ≠ b) (hbc : b ≠ c) (h1 : Bp a b l z) (h2 : Bp b c l z) (ha : l ≤ a.2) (hb : l < b.2)
    (hc : l ≤ c.2) (hac : l < a.2 ∨ l < c.2) : det a b c < 0 ∧ Bp a c l z ∧ (l < a.2 → l < c.2 → 0 < ori a c l z.1) := by
  have hρ := h1.pos hab
  have hB : 0 < b.2 - l := by linarith
  have htr := ori_trans a b c l z.1
  have hor : 0 ≤ ori a c l z.1 := by
    have h3 : 0 ≤ ori a c l z.1 * (b.2 - l) := by
      rw [htr]
      exact add_nonneg (mul_nonneg h1.or (by linarith)) (mul_nonneg h2.or (by linarith))
    exact nonneg_of_mul_nonneg_left h3 hB
  -- a site on the line is the lowest point of the circle
  have hdeg : ∀ p : Pt, p.2 = l → dsq p z = (z.2 - l) ^ 2 → p.1 = z.1 := by
    intro p hp hd
    unfold dsq at hd; rw [hp] at hd
    have : (p.1 - z.1) ^ 2 = 0 := by linear_combination hd
    have := pow_eq_zero_iff two_ne_zero |>.mp this
    linarith
  rcases eq_or_lt_of_le ha with hA | hA
  · -- `a` on the line
    have hC : l < c.2 := by rcases hac with h | h <;> linarith
    have e1 := hdeg a hA.symm h1.ea
    have e2 : det a b c = -ori b c l z.1 := by unfold det ori; rw [e1, ← hA]; ring
    refine ⟨?_, ⟨h1.ea, h2.eb, h1.le, hor⟩, fun h => absurd h (by linarith)⟩
    have := h2.ori_pos hbc hb hC
    linarith
  · rcases eq_or_lt_of_le hc with hC | hC
    · have e1 := hdeg c hC.symm h2.eb
      have e2 : det a b c = -ori a b l z.1 := by unfold det ori; rw [e1, ← hC]; ring
      refine ⟨?_, ⟨h1.ea, h2.eb, h1.le, hor⟩, fun _ h => absurd h (by linarith)⟩
      have := h1.ori_pos hab hA hb
      linarith
    · have p1 := h1.ori_pos hab hA hb
      have p2 := h2.ori_pos hbc hb hC
      have p3 : 0 < ori a c l z.1 := by
        have h3 : 0 < ori a c l z.1 * (b.2 - l) := by
          rw [htr]
          exact add_pos (mul_pos p1 (by linarith)) (mul_pos p2 (by linarith))
        exact pos_of_mul_pos_left h3 hB.le
      refine ⟨?_, ⟨h1.ea, h2.eb, h1.le, hor⟩, fun _ _ => p3⟩
      have e := det_ori h1.ea h1.eb h2.eb
      have hprod : 0 < 2 * (z.2 - l) * ((a.2 - l) * (b.2 - l) * (c.2 - l)) := by
        have := mul_pos (mul_pos (sub_pos.mpr hA) hB) (sub_pos.mpr hC)
        have h5 : 0 < 2 * (z.2 - l) := by linarith
        exact mul_pos h5 this
      have hpos : 0 < ori a b l z.1 * ori b c l z.1 * ori a c l z.1 := mul_pos (mul_pos p1 p2) p3
      by_contra hcon
      push Not at hcon
      have := mul_nonneg hprod.le hcon
      linarith

/-! ### comparing two parabolas -/

theorem par_sub {a b : Pt} {l : ℝ} (ha : l < a.2) (hb : l < b.2) (ho : a.2 = b.2 → a.1 < b.1) (x : ℝ) :
    2 * ((a.2 - l) * (b.2 - l)) * (par a l x - par b l x) =
      (x - bpX a b l) * ((b.2 - a.2) * (x - bpX a b l) + 2 * ori a b l (bpX a b l)) := by
  have h := bp_exists ha.le hb.le (Or.inl ha) ho
  have e1 := h.y_eq ha
  have e2 := h.y_eq' hb
  simp only at e1 e2
  have e := e1.symm.trans e2
  have h1 : a.2 - l ≠ 0 := by linarith
  have h2 : b.2 - l ≠ 0 := by linarith
  generalize bpX a b l = X at *
  unfold par at *
  unfold ori
  rw [div_eq_div_iff (by simpa using h1) (by simpa using h2)] at e
  field_simp
  linear_combination e / 2

/-- Where an arc of a lower site is below an arc of a higher one. -/
theorem between_of_lt {p q : Pt} {l x : ℝ} (hp : l < p.2) (hpq : p.2 < q.2) (h : par p l x < par q l x) :
    bpX q p l < x ∧ x < bpX p q l := by
  have hq : l < q.2 := by linarith
  have hAB : 0 < (p.2 - l) * (q.2 - l) := mul_pos (by linarith) (by linarith)
  constructor
  · have e := par_sub hq hp (fun hh => absurd hh (by linarith)) x
    have hb := bp_exists hq.le hp.le (Or.inl hq) (fun hh => absurd hh (by linarith) : q.2 = p.2 → q.1 < p.1)
    have ho := hb.or
    simp only at ho
    by_contra hcon
    push Not at hcon
    have h1 : 0 < 2 * ((q.2 - l) * (p.2 - l)) * (par q l x - par p l x) :=
      mul_pos (by linarith [mul_comm (q.2 - l) (p.2 - l)]) (by linarith)
    rw [e] at h1
    have h2 : 0 ≤ (p.2 - q.2) * (x - bpX q p l) := mul_nonneg_of_nonpos_of_nonpos (by linarith) (by linarith)
    have : (x - bpX q p l) * ((p.2 - q.2) * (x - bpX q p l) + 2 * ori q p l (bpX q p l)) ≤ 0 :=
      mul_nonpos_of_nonpos_of_nonneg (by linarith) (by linarith)
    linarith
  · have e := par_sub hp hq (fun hh => absurd hh (by linarith)) x
    have hb := bp_exists hp.le hq.le (Or.inl hp) (fun hh => absurd hh (by linarith) : p.2 = q.2 → p.1 < q.1)
    have ho := hb.or
    simp only at ho
    by_contra hcon
    push Not at hcon
    have h1 : 2 * ((p.2 - l) * (q.2 - l)) * (par p l x - par q l x) < 0 := mul_neg_of_pos_of_neg (by linarith) (by linarith)
    rw [e] at h1
    have h2 : 0 ≤ (q.2 - p.2) * (x - bpX p q l) := mul_nonneg (by linarith) (by linarith)
    have : 0 ≤ (x - bpX p q l) * ((q.2 - p.2) * (x - bpX p q l) + 2 * ori p q l (bpX p q l)) :=
      mul_nonneg (by linarith) (by linarith)
    linarith

/-- Below its own site an arc is below those of all higher sites. -/
theorem par_self_lt {p q : Pt} {l : ℝ} (hp : l < p.2) (hpq : p.2 ≤ q.2) (hne : p ≠ q) : par p l p.1 < par q l p.1 := by
  rw [par_lt_iff (by linarith)]
  have e : par p l p.1 = (p.2 + l) / 2 := by
    unfold par
    have : p.2 - l ≠ 0 := by linarith
    field_simp; ring
  rw [e]
  unfold pw dsq
  simp only
  by_cases h : q.1 = p.1
  · have h2 : p.2 < q.2 := lt_of_le_of_ne hpq fun hh => hne (Prod.ext h.symm hh)
    rw [h]; nlinarith
  · have : 0 < (q.1 - p.1) ^ 2 := by have := sub_ne_zero.mpr h; positivity
    nlinarith

/-! ### sliding along a ray -/

/-- The point of slope `m` on the parabola of `p`. -/
def slideX (p : Pt) (m l : ℝ) : ℝ := p.1 + m * (p.2 - l)

/-- If an arc is lowest at a point then going back in the sweep along the ray to its site it is strictly lowest. -/
theorem slide {p c : Pt} {l l' x : ℝ} (hp : l < p.2) (hl : l < l') (hl' : l' < p.2) (hne : c ≠ p)
    (h : 0 ≤ pw c l (x, par p l x)) :
    0 < pw c l' (slideX p ((x - p.1) / (p.2 - l)) l', par p l' (slideX p ((x - p.1) / (p.2 - l)) l')) := by
  have hA : 0 < p.2 - l := by linarith
  have hA' : 0 < p.2 - l' := by linarith
  set m := (x - p.1) / (p.2 - l) with hm
  have hx : x = p.1 + m * (p.2 - l) := by rw [hm]; field_simp; ring
  have ey : par p l x = l + (p.2 - l) * (1 + m ^ 2) / 2 := by
    unfold par; rw [hx]; field_simp; ring
  have ey' : par p l' (slideX p m l') = l' + (p.2 - l') * (1 + m ^ 2) / 2 := by
    unfold par slideX; field_simp; ring
  rw [ey'] ; rw [ey] at h
  have hd := dsq_pos hne
  have key : (p.2 - l) * pw c l' (slideX p m l', l' + (p.2 - l') * (1 + m ^ 2) / 2) =
      (p.2 - l') * pw c l (x, l + (p.2 - l) * (1 + m ^ 2) / 2) + (l' - l) * dsq c p := by
    unfold pw dsq slideX; simp only; rw [hx]; ring
  have : 0 < (p.2 - l) * pw c l' (slideX p m l', l' + (p.2 - l') * (1 + m ^ 2) / 2) := by
    rw [key]
    have h1 := mul_nonneg hA'.le h
    have h2 := mul_pos (sub_pos.mpr hl) hd
    linarith
  exact pos_of_mul_pos_right this hA.le

/-- If an arc is lowest left of a point where it meets another one then it has the larger slope there. -/
theorem slope_of_left {p q : Pt} {l x y : ℝ} (hp : l < p.2) (hq : l < q.2) (hy : y < x) (he : par p l x = par q l x)
    (h : ∀ t, y ≤ t → t ≤ x → par p l t ≤ par q l t) : 0 ≤ ori p q l x := by
  have hA : 0 < p.2 - l := by linarith
  have hB : 0 < q.2 - l := by linarith
  by_contra hcon
  push Not at hcon
  -- difference of the parabolas near x
  have key : ∀ t, 2 * ((p.2 - l) * (q.2 - l)) * (par p l t - par q l t) = (t - x) * ((q.2 - p.2) * (t - x) + 2 * ori p q l x) := by
    intro t
    unfold par at *
    unfold ori
    rw [div_eq_div_iff (by linarith) (by linarith)] at he
    field_simp
    linear_combination he / 2
  set O := ori p q l x with hO
  -- choose t close to x
  obtain ⟨ε, hε, h1, h2⟩ : ∃ ε > 0, ε ≤ x - y ∧ ε * |q.2 - p.2| < -2 * O := by
    refine ⟨min (x - y) (-O / (|q.2 - p.2| + 1)), ?_, min_le_left _ _, ?_⟩
    · refine lt_min (by linarith) (div_pos (by linarith) (by positivity))
    · have hpos : 0 < |q.2 - p.2| + 1 := by positivity
      have h3 : min (x - y) (-O / (|q.2 - p.2| + 1)) * |q.2 - p.2| ≤ -O / (|q.2 - p.2| + 1) * |q.2 - p.2| :=
        mul_le_mul_of_nonneg_right (min_le_right _ _) (abs_nonneg _)
      have h4 : -O / (|q.2 - p.2| + 1) * |q.2 - p.2| ≤ -O := by
        rw [div_mul_eq_mul_div, div_le_iff₀ hpos]
        nlinarith [abs_nonneg (q.2 - p.2)]
      linarith
  have h3 := h (x - ε) (by linarith) (by linarith)
  have h4 := key (x - ε)
  have e : x - ε - x = -ε := by ring
  rw [e] at h4
  have h5 : 2 * ((p.2 - l) * (q.2 - l)) * (par p l (x - ε) - par q l (x - ε)) ≤ 0 :=
    mul_nonpos_of_nonneg_of_nonpos (by positivity) (by linarith)
  rw [h4] at h5
  have h6 : (q.2 - p.2) * -ε + 2 * O < 0 := by
    have := neg_abs_le (q.2 - p.2)
    nlinarith
  have : 0 < -ε * ((q.2 - p.2) * -ε + 2 * O) := mul_pos_of_neg_of_neg (by linarith) h6
  linarith

end Foronoi
