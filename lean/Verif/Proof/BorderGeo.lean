import Verif.Proof.Exit
import Verif.Proof.Clipped

/-!
# Points on the border of a convex polygon in angular order around a point inside
-/

namespace Foronoi

open Real

variable {l : List Pt} {c : Pt}

/-! ### sorting keys and turns -/

theorem key_range (c p : Pt) : 0 ≤ orderKey c p ∧ orderKey c p < 360 := ⟨(orderKey_dir c p).1, (orderKey_dir c p).2.1⟩

theorem key_turn (c p q : Pt) : ∃ r s : ℝ, 0 ≤ r ∧ 0 ≤ s ∧ (p ≠ c → 0 < r) ∧ (q ≠ c → 0 < s) ∧
    rightOf c p q = r * s * sin ((orderKey c q - orderKey c p) * π / 180) := by
  obtain ⟨_, _, r, hr, p1, p2⟩ := orderKey_dir c p
  obtain ⟨_, _, s, hs, q1, q2⟩ := orderKey_dir c q
  refine ⟨r, s, hr, hs, ?_, ?_, ?_⟩
  · intro hne
    refine lt_of_le_of_ne hr fun h => hne ?_
    rw [← h] at p1 p2
    exact Prod.ext (by rw [p1]; ring) (by rw [p2]; ring)
  · intro hne
    refine lt_of_le_of_ne hs fun h => hne ?_
    rw [← h] at q1 q2
    exact Prod.ext (by rw [q1]; ring) (by rw [q2]; ring)
  · have e : (orderKey c q - orderKey c p) * π / 180 = orderKey c q * π / 180 - orderKey c p * π / 180 := by ring
    rw [e, sin_sub]
    unfold rightOf
    rw [p1, p2, q1, q2]
    ring

theorem deg_nonneg {d : ℝ} (h : (0 ≤ d ∧ d ≤ 180) ∨ (-360 ≤ d ∧ d ≤ -180)) : 0 ≤ sin (d * π / 180) := by
  have hp := pi_pos
  rcases h with ⟨h0, h1⟩ | ⟨h0, h1⟩
  · exact sin_nonneg_of_nonneg_of_le_pi (by positivity) (by nlinarith)
  · have : sin (d * π / 180) = sin ((d + 360) * π / 180) := by
      have e : (d + 360) * π / 180 = d * π / 180 + 2 * π := by ring
      rw [e, sin_add_two_pi]
    rw [this]
    exact sin_nonneg_of_nonneg_of_le_pi (by nlinarith) (by nlinarith)

theorem deg_pos {d : ℝ} (h0 : -360 < d) (h1 : d < 360) (h : 0 < sin (d * π / 180)) : (0 < d ∧ d < 180) ∨ d < -180 := by
  by_contra hcon
  push Not at hcon
  obtain ⟨h2, h3⟩ := hcon
  have hp := pi_pos
  rcases lt_or_ge 0 d with hd | hd
  · have h4 := h2 hd
    have e : sin (d * π / 180) = - sin ((d - 180) * π / 180) := by
      have e : d * π / 180 = (d - 180) * π / 180 + π := by ring
      rw [e, sin_add_pi]
    have := sin_nonneg_of_nonneg_of_le_pi (x := (d - 180) * π / 180) (by nlinarith) (by nlinarith)
    linarith
  · have := sin_nonneg_of_nonneg_of_le_pi (x := -(d * π / 180)) (by nlinarith) (by nlinarith)
    rw [sin_neg] at this
    linarith

/-- A turn to the right, in terms of the keys. -/
theorem key_of_turn {p q : Pt} (h : 0 < rightOf c p q) :
    (orderKey c p < orderKey c q ∧ orderKey c q < orderKey c p + 180) ∨ orderKey c q + 180 < orderKey c p := by
  obtain ⟨r, s, hr, hs, _, _, e⟩ := key_turn c p q
  obtain ⟨p0, p1⟩ := key_range c p
  obtain ⟨q0, q1⟩ := key_range c q
  rw [e] at h
  have hsin : 0 < sin ((orderKey c q - orderKey c p) * π / 180) := by
    by_contra hh
    push Not at hh
    have := mul_nonneg hr hs
    nlinarith
  rcases deg_pos (by linarith) (by linarith) hsin with ⟨h1, h2⟩ | h1
  · left; constructor <;> linarith
  · right; linarith

theorem turn_of_key {p q : Pt} (h : (orderKey c p ≤ orderKey c q ∧ orderKey c q ≤ orderKey c p + 180) ∨ orderKey c q + 180 ≤ orderKey c p) :
    0 ≤ rightOf c p q := by
  obtain ⟨r, s, hr, hs, _, _, e⟩ := key_turn c p q
  obtain ⟨p0, p1⟩ := key_range c p
  obtain ⟨q0, q1⟩ := key_range c q
  rw [e]
  refine mul_nonneg (mul_nonneg hr hs) (deg_nonneg ?_)
  rcases h with ⟨h1, h2⟩ | h1
  · left; constructor <;> linarith
  · right; constructor <;> linarith

/-! ### cones -/

theorem inside_of_comb (hc : StrictlyInside l c) {x y z : Pt} (hx : InClosed l x) (hy : InClosed l y) {a b : ℝ} (ha : 0 ≤ a) (hb : 0 ≤ b)
    (hab : a + b < 1) (h1 : z.1 = c.1 + a * (x.1 - c.1) + b * (y.1 - c.1)) (h2 : z.2 = c.2 + a * (x.2 - c.2) + b * (y.2 - c.2)) : StrictlyInside l z := by
  intro i hi
  have e : rightOf (corner l i) (corner l (i + 1)) z = (1 - a - b) * rightOf (corner l i) (corner l (i + 1)) c +
      a * rightOf (corner l i) (corner l (i + 1)) x + b * rightOf (corner l i) (corner l (i + 1)) y := by
    unfold rightOf; rw [h1, h2]; ring
  rw [e]
  have := mul_pos (by linarith : 0 < 1 - a - b) (hc i hi)
  have := mul_nonneg ha (hx i hi)
  have := mul_nonneg hb (hy i hi)
  linarith

theorem OnBoundary.not_inside {z : Pt} (h : OnBoundary l z) : ¬ StrictlyInside l z := by
  obtain ⟨i, hi, hs⟩ := h
  intro hh
  have := hh i hi
  rw [rightOf_side hs] at this
  exact lt_irrefl _ this

/-- A point of the border in the cone spanned by a side is on that side. -/
theorem side_of_cone (hl : ClockwiseConvex l) (hc : StrictlyInside l c) {i : Nat} (hi : i < l.length) {z : Pt} (hz : OnBoundary l z)
    (h1 : 0 ≤ rightOf c (corner l i) z) (h2 : 0 ≤ rightOf c z (corner l (i + 1))) : OnSide l i z := by
  have hg : 0 < rightOf c (corner l i) (corner l (i + 1)) := by rw [rightOf_cycle]; exact hc i hi
  set X := corner l i with hX
  set Y := corner l (i + 1) with hY
  set g := rightOf c X Y with hgd
  have hXc : InClosed l X := OnBoundary.closed hl ⟨i, hi, Between.left _ _⟩
  have hYc : InClosed l Y := OnBoundary.closed hl ⟨i, hi, (Between.left _ _).symm⟩
  have e1 : z.1 = c.1 + (rightOf c z Y / g) * (X.1 - c.1) + (rightOf c X z / g) * (Y.1 - c.1) := by
    field_simp
    rw [hgd]; unfold rightOf; ring
  have e2 : z.2 = c.2 + (rightOf c z Y / g) * (X.2 - c.2) + (rightOf c X z / g) * (Y.2 - c.2) := by
    field_simp
    rw [hgd]; unfold rightOf; ring
  have ha : 0 ≤ rightOf c z Y / g := div_nonneg h2 hg.le
  have hb : 0 ≤ rightOf c X z / g := div_nonneg h1 hg.le
  have hclosed := hz.closed hl
  have hle : rightOf c z Y / g + rightOf c X z / g ≤ 1 := by
    have h3 := hclosed i hi
    have e3 : rightOf X Y z = g - rightOf c z Y - rightOf c X z := by rw [hgd]; unfold rightOf; ring
    rw [← add_div, div_le_one hg]
    rw [← hX, ← hY, e3] at h3
    linarith
  rcases lt_or_eq_of_le hle with hlt | heq
  · exact absurd (inside_of_comb hc hXc hYc ha hb hlt e1 e2) hz.not_inside
  · refine ⟨hi, rightOf c X z / g, hb, by linarith, ?_⟩
    have : rightOf c z Y / g = 1 - rightOf c X z / g := by linarith
    rw [this] at e1 e2
    exact Prod.ext (by rw [e1]; simp only; ring) (by rw [e2]; simp only; ring)

/-- The order of two points on one side. -/
theorem same_direction {c a b : Pt} (hb : b ≠ c) (h : orderKey c a = orderKey c b) : ∃ t : ℝ, 0 ≤ t ∧ a = (c.1 + t * (b.1 - c.1), c.2 + t * (b.2 - c.2)) := by
  obtain ⟨_, _, r, hr, a1, a2⟩ := orderKey_dir c a
  obtain ⟨_, _, s, hs, b1, b2⟩ := orderKey_dir c b
  have hs' : s ≠ 0 := by
    rintro rfl
    exact hb (Prod.ext (by rw [b1]; ring) (by rw [b2]; ring))
  refine ⟨r / s, div_nonneg hr hs, Prod.ext ?_ ?_⟩
  · simp only
    rw [a1, b1, h]
    field_simp
    ring
  · simp only
    rw [a2, b2, h]
    field_simp
    ring

/-- Border points with the same key are equal. -/
theorem key_inj (hl : ClockwiseConvex l) (hc : StrictlyInside l c) {x y : Pt} (hx : OnBoundary l x) (hy : OnBoundary l y) (h : orderKey c x = orderKey c y) : x = y := by
  have key : ∀ {x y : Pt}, OnBoundary l x → OnBoundary l y → ∀ {t : ℝ}, 0 ≤ t → x = (c.1 + t * (y.1 - c.1), c.2 + t * (y.2 - c.2)) → 1 ≤ t := by
    intro x y hx hy t t0 e
    by_contra ht
    push Not at ht
    refine hx.not_inside (inside_of_comb hc (hy.closed hl) (hy.closed hl) t0 le_rfl (by linarith) (?_ : x.1 = _ + 0 * (y.1 - c.1)) (?_ : x.2 = _ + 0 * (y.2 - c.2)))
    · rw [e]; simp
    · rw [e]; simp
  have hne : ∀ {x : Pt}, OnBoundary l x → x ≠ c := fun hx hh => hx.not_inside (hh ▸ hc)
  obtain ⟨t, t0, e⟩ := same_direction (hne hy) h
  have t1 := key hx hy t0 e
  have t2 : 1 ≤ t⁻¹ := by
    refine key hy hx (inv_nonneg.mpr t0) ?_
    have : t ≠ 0 := by linarith
    rw [e]
    apply Prod.ext <;> simp only <;> field_simp <;> ring
  have t3 : t = 1 := le_antisymm ((one_le_inv₀ (by linarith)).mp t2) t1
  rw [e, t3]
  apply Prod.ext <;> simp only <;> ring

theorem side_param {i : Nat} {x : Pt} (h : OnSide l i x) : ∃ s : ℝ, 0 ≤ s ∧ s ≤ 1 ∧
    x = ((1 - s) * (corner l i).1 + s * (corner l (i + 1)).1, (1 - s) * (corner l i).2 + s * (corner l (i + 1)).2) := h.2

theorem rightOf_params (c A B : Pt) (s t : ℝ) : rightOf c ((1 - s) * A.1 + s * B.1, (1 - s) * A.2 + s * B.2) ((1 - t) * A.1 + t * B.1, (1 - t) * A.2 + t * B.2) =
    (t - s) * rightOf A B c := by
  unfold rightOf; ring

/-- On one side, a point that is not before `x` and not after `y` is between them. -/
theorem side_between (hc : StrictlyInside l c) {i : Nat} {x y z : Pt} (hx : OnSide l i x) (hy : OnSide l i y) (hz : OnSide l i z)
    (h1 : 0 ≤ rightOf c x z) (h2 : 0 ≤ rightOf c z y) : Between x y z := by
  have hg := hc i hx.1
  obtain ⟨_, s, s0, s1, rfl⟩ := hx
  obtain ⟨_, t, t0, t1, rfl⟩ := hy
  obtain ⟨_, u, u0, u1, rfl⟩ := hz
  rw [rightOf_params] at h1 h2
  have hsu : s ≤ u := by
    by_contra hh
    push Not at hh
    nlinarith
  have hut : u ≤ t := by
    by_contra hh
    push Not at hh
    nlinarith
  rcases eq_or_lt_of_le (hsu.trans hut) with heq | hlt
  · have : u = s := by linarith
    rw [this]
    exact Between.left _ _
  · have hne : t - s ≠ 0 := by linarith
    refine ⟨(u - s) / (t - s), div_nonneg (by linarith) (by linarith), ?_, ?_⟩
    · rw [div_le_one (by linarith)]; linarith
    · refine Prod.ext ?_ ?_ <;> simp only <;> field_simp <;> ring


/-! ### the sides in the order of the keys -/

/-- The corners are listed in the order of their keys. -/
def KeySorted (c : Pt) (l : List Pt) : Prop := l.Pairwise (fun p r => orderKey c p ≤ orderKey c r)

theorem corner_eq {i : Nat} (hi : i < l.length) : corner l i = l[i] := by
  unfold corner
  rw [Nat.mod_eq_of_lt hi]
  simp [hi]

theorem KeySorted.le (hk : KeySorted c l) {i j : Nat} (hij : i ≤ j) (hj : j < l.length) : orderKey c (corner l i) ≤ orderKey c (corner l j) := by
  rcases eq_or_lt_of_le hij with rfl | hij
  · exact le_refl _
  · have := List.pairwise_iff_getElem.1 hk i j (by omega) hj hij
    rw [corner_eq (by omega), corner_eq hj]
    exact this

theorem side_key (hc : StrictlyInside l c) (hk : KeySorted c l) {i : Nat} (hi : i + 1 < l.length) :
    orderKey c (corner l i) < orderKey c (corner l (i + 1)) ∧ orderKey c (corner l (i + 1)) < orderKey c (corner l i) + 180 := by
  have h : 0 < rightOf c (corner l i) (corner l (i + 1)) := by rw [rightOf_cycle]; exact hc i (by omega)
  rcases key_of_turn h with h | h
  · exact h
  · have := hk.le (Nat.le_succ i) hi
    linarith

theorem wrap_key (hc : StrictlyInside l c) (hk : KeySorted c l) (hl : 0 < l.length) :
    orderKey c (corner l 0) + 180 < orderKey c (corner l (l.length - 1)) := by
  have e : corner l (l.length - 1 + 1) = corner l 0 := by rw [Nat.sub_add_cancel hl, ← corner_mod l l.length, Nat.mod_self]
  have h : 0 < rightOf c (corner l (l.length - 1)) (corner l 0) := by
    have := hc (l.length - 1) (by omega)
    rw [e] at this
    rw [rightOf_cycle]; exact this
  have := hk.le (Nat.zero_le (l.length - 1)) (by omega)
  rcases key_of_turn h with h | h
  · linarith
  · exact h

theorem key_lt (hc : StrictlyInside l c) (hk : KeySorted c l) {i j : Nat} (hij : i < j) (hj : j < l.length) :
    orderKey c (corner l i) < orderKey c (corner l j) :=
  (side_key hc hk (by omega)).1.trans_le (hk.le hij hj)

/-- Border points in the order of their keys with no corner between the outer ones. -/
theorem triple (hl : ClockwiseConvex l) (hc : StrictlyInside l c) (hk : KeySorted c l) {x z y : Pt} (hx : OnBoundary l x) (hz : OnBoundary l z)
    (hy : OnBoundary l y) (h1 : orderKey c x ≤ orderKey c z) (h2 : orderKey c z ≤ orderKey c y)
    (hn : ∀ k < l.length, orderKey c (corner l k) ≤ orderKey c x ∨ orderKey c y ≤ orderKey c (corner l k)) :
    (∃ i, OnSide l i x ∧ OnSide l i z ∧ OnSide l i y) ∧ 0 ≤ rightOf c x z ∧ 0 ≤ rightOf c z y ∧ 0 ≤ rightOf c x y := by
  have hl3 := hl.1
  have hw := wrap_key hc hk (by omega)
  obtain ⟨x0, x1⟩ := key_range c x
  obtain ⟨y0, y1⟩ := key_range c y
  obtain ⟨z0, z1⟩ := key_range c z
  obtain ⟨a0, a1⟩ := key_range c (corner l 0)
  obtain ⟨b0, b1⟩ := key_range c (corner l (l.length - 1))
  have e : corner l (l.length - 1 + 1) = corner l 0 := by rw [Nat.sub_add_cancel (by omega), ← corner_mod l l.length, Nat.mod_self]
  by_cases hS : ∃ k, k < l.length ∧ orderKey c (corner l k) ≤ orderKey c x
  · obtain ⟨k, ⟨hkl, hkx⟩, hmax⟩ : ∃ k, (k < l.length ∧ orderKey c (corner l k) ≤ orderKey c x) ∧
        ∀ m, k < m → ¬ (m < l.length ∧ orderKey c (corner l m) ≤ orderKey c x) := by
      obtain ⟨k, hk1⟩ := hS
      have hP : ∃ m, m ≤ l.length ∧ (m < l.length ∧ orderKey c (corner l m) ≤ orderKey c x) := ⟨k, hk1.1.le, hk1⟩
      refine ⟨Nat.findGreatest (fun m => m < l.length ∧ orderKey c (corner l m) ≤ orderKey c x) l.length, ?_, ?_⟩
      · exact Nat.findGreatest_spec (P := fun m => m < l.length ∧ orderKey c (corner l m) ≤ orderKey c x) hk1.1.le hk1
      · intro m hm hh
        exact Nat.findGreatest_is_greatest hm hh.1.le hh
    rcases Nat.lt_or_ge (k + 1) l.length with hk1 | hk1
    · have h3 : orderKey c y ≤ orderKey c (corner l (k + 1)) := by
        rcases hn (k + 1) hk1 with h | h
        · exact absurd ⟨hk1, h⟩ (hmax _ (Nat.lt_succ_self _))
        · exact h
      obtain ⟨s1, s2⟩ := side_key hc hk hk1
      refine ⟨⟨k, ?_, ?_, ?_⟩, ?_, ?_, ?_⟩
      · exact side_of_cone hl hc hkl hx (turn_of_key (by left; constructor <;> linarith)) (turn_of_key (by left; constructor <;> linarith))
      · exact side_of_cone hl hc hkl hz (turn_of_key (by left; constructor <;> linarith)) (turn_of_key (by left; constructor <;> linarith))
      · exact side_of_cone hl hc hkl hy (turn_of_key (by left; constructor <;> linarith)) (turn_of_key (by left; constructor <;> linarith))
      all_goals exact turn_of_key (by left; constructor <;> linarith)
    · have hkk : k = l.length - 1 := by omega
      subst hkk
      refine ⟨⟨l.length - 1, ?_, ?_, ?_⟩, ?_, ?_, ?_⟩
      · exact side_of_cone hl hc hkl hx (turn_of_key (by left; constructor <;> linarith)) (by rw [e]; exact turn_of_key (by right; linarith))
      · exact side_of_cone hl hc hkl hz (turn_of_key (by left; constructor <;> linarith)) (by rw [e]; exact turn_of_key (by right; linarith))
      · exact side_of_cone hl hc hkl hy (turn_of_key (by left; constructor <;> linarith)) (by rw [e]; exact turn_of_key (by right; linarith))
      all_goals exact turn_of_key (by left; constructor <;> linarith)
  · push Not at hS
    have hkl : l.length - 1 < l.length := by omega
    have h3 : orderKey c y ≤ orderKey c (corner l 0) := by
      rcases hn 0 (by omega) with h | h
      · exact absurd h (not_le.2 (hS 0 (by omega)))
      · exact h
    refine ⟨⟨l.length - 1, ?_, ?_, ?_⟩, ?_, ?_, ?_⟩
    · exact side_of_cone hl hc hkl hx (turn_of_key (by right; linarith)) (by rw [e]; exact turn_of_key (by left; constructor <;> linarith))
    · exact side_of_cone hl hc hkl hz (turn_of_key (by right; linarith)) (by rw [e]; exact turn_of_key (by left; constructor <;> linarith))
    · exact side_of_cone hl hc hkl hy (turn_of_key (by right; linarith)) (by rw [e]; exact turn_of_key (by left; constructor <;> linarith))
    all_goals exact turn_of_key (by left; constructor <;> linarith)

/-- The same where the keys start again from the beginning. -/
theorem triple_wrap (hl : ClockwiseConvex l) (hc : StrictlyInside l c) (hk : KeySorted c l) {x z y : Pt} (hx : OnBoundary l x) (hz : OnBoundary l z)
    (hy : OnBoundary l y) (h1 : orderKey c x ≤ orderKey c z ∨ orderKey c z ≤ orderKey c y)
    (hn1 : ∀ k < l.length, orderKey c (corner l k) ≤ orderKey c x) (hn2 : ∀ k < l.length, orderKey c y ≤ orderKey c (corner l k)) :
    (∃ i, OnSide l i x ∧ OnSide l i z ∧ OnSide l i y) ∧ 0 ≤ rightOf c x z ∧ 0 ≤ rightOf c z y ∧ 0 ≤ rightOf c x y := by
  have hl3 := hl.1
  have hw := wrap_key hc hk (by omega)
  obtain ⟨x0, x1⟩ := key_range c x
  obtain ⟨y0, y1⟩ := key_range c y
  obtain ⟨z0, z1⟩ := key_range c z
  obtain ⟨a0, a1⟩ := key_range c (corner l 0)
  obtain ⟨b0, b1⟩ := key_range c (corner l (l.length - 1))
  have e : corner l (l.length - 1 + 1) = corner l 0 := by rw [Nat.sub_add_cancel (by omega), ← corner_mod l l.length, Nat.mod_self]
  have hkl : l.length - 1 < l.length := by omega
  have f1 := hn1 _ hkl
  have f2 := hn2 0 (by omega)
  refine ⟨⟨l.length - 1, ?_, ?_, ?_⟩, ?_, ?_, ?_⟩
  · exact side_of_cone hl hc hkl hx (turn_of_key (by left; constructor <;> linarith)) (by rw [e]; exact turn_of_key (by right; linarith))
  · rcases h1 with h1 | h1
    · exact side_of_cone hl hc hkl hz (turn_of_key (by left; constructor <;> linarith)) (by rw [e]; exact turn_of_key (by right; linarith))
    · exact side_of_cone hl hc hkl hz (turn_of_key (by right; linarith)) (by rw [e]; exact turn_of_key (by left; constructor <;> linarith))
  · exact side_of_cone hl hc hkl hy (turn_of_key (by right; linarith)) (by rw [e]; exact turn_of_key (by left; constructor <;> linarith))
  · rcases h1 with h1 | h1
    · exact turn_of_key (by left; constructor <;> linarith)
    · exact turn_of_key (by right; linarith)
  · rcases h1 with h1 | h1
    · exact turn_of_key (by right; linarith)
    · exact turn_of_key (by left; constructor <;> linarith)
  · exact turn_of_key (by right; linarith)

/-- A cyclic list of border points in the order of the keys, containing all corners. -/
structure Ring (c : Pt) (l : List Pt) (P : Nat → Pt) (m : Nat) : Prop where
  pos : 0 < m
  on : ∀ j < m, OnBoundary l (P j)
  sorted : ∀ i j, i ≤ j → j < m → orderKey c (P i) ≤ orderKey c (P j)
  corners : ∀ k < l.length, ∃ j < m, P j = corner l k
  close : P m = P 0

variable {P : Nat → Pt} {m : Nat}

theorem Ring.gap (hr : Ring c l P m) {j : Nat} (hj : j + 1 < m) : ∀ k < l.length, orderKey c (corner l k) ≤ orderKey c (P j) ∨
    orderKey c (P (j + 1)) ≤ orderKey c (corner l k) := by
  intro k hk
  obtain ⟨i, hi, e⟩ := hr.corners k hk
  rw [← e]
  rcases Nat.lt_or_ge j i with h | h
  · right; exact hr.sorted _ _ h hi
  · left; exact hr.sorted _ _ h (by omega)

theorem Ring.first (hr : Ring c l P m) : ∀ k < l.length, orderKey c (P 0) ≤ orderKey c (corner l k) := by
  intro k hk
  obtain ⟨i, hi, e⟩ := hr.corners k hk
  rw [← e]
  exact hr.sorted _ _ (Nat.zero_le _) hi

theorem Ring.last (hr : Ring c l P m) : ∀ k < l.length, orderKey c (corner l k) ≤ orderKey c (P (m - 1)) := by
  intro k hk
  obtain ⟨i, hi, e⟩ := hr.corners k hk
  rw [← e]
  exact hr.sorted _ _ (by omega) (by omega)

/-- Two consecutive points of the ring are on one side of the polygon, in clockwise order. -/
theorem Ring.step (hl : ClockwiseConvex l) (hc : StrictlyInside l c) (hk : KeySorted c l) (hr : Ring c l P m) {j : Nat} (hj : j < m) :
    (∃ i, OnSide l i (P j) ∧ OnSide l i (P (j + 1))) ∧ 0 ≤ rightOf c (P j) (P (j + 1)) := by
  rcases Nat.lt_or_ge (j + 1) m with h | h
  · obtain ⟨⟨i, h1, _, h2⟩, _, _, h3⟩ := triple hl hc hk (hr.on j hj) (hr.on j hj) (hr.on _ h) le_rfl (hr.sorted _ _ (Nat.le_succ j) h) (hr.gap h)
    exact ⟨⟨i, h1, h2⟩, h3⟩
  · have hjm : j = m - 1 := by omega
    have e : P (j + 1) = P 0 := by rw [hjm, Nat.sub_add_cancel hr.pos, hr.close]
    rw [e]
    rw [hjm]
    obtain ⟨⟨i, h1, _, h2⟩, _, _, h3⟩ := triple_wrap hl hc hk (hr.on _ (by omega)) (hr.on (m - 1) (by omega)) (hr.on 0 hr.pos) (Or.inl le_rfl) hr.last hr.first
    exact ⟨⟨i, h1, h2⟩, h3⟩

/-- Every border point is between two consecutive points of the ring. -/
theorem Ring.cover (hl : ClockwiseConvex l) (hc : StrictlyInside l c) (hk : KeySorted c l) (hr : Ring c l P m) {z : Pt} (hz : OnBoundary l z) :
    ∃ j < m, Between (P j) (P (j + 1)) z := by
  have hwrap : (orderKey c (P (m - 1)) ≤ orderKey c z ∨ orderKey c z ≤ orderKey c (P 0)) → ∃ j < m, Between (P j) (P (j + 1)) z := by
    intro h
    obtain ⟨⟨i, h1, h2, h3⟩, g1, g2, _⟩ := triple_wrap hl hc hk (hr.on _ (Nat.sub_lt hr.pos Nat.one_pos)) hz (hr.on 0 hr.pos) h hr.last hr.first
    refine ⟨m - 1, Nat.sub_lt hr.pos Nat.one_pos, ?_⟩
    rw [Nat.sub_add_cancel hr.pos, hr.close]
    exact side_between hc h1 h3 h2 g1 g2
  by_cases h0 : orderKey c z ≤ orderKey c (P 0)
  · exact hwrap (Or.inr h0)
  · push Not at h0
    obtain ⟨k, ⟨hkm, hkz⟩, hmax⟩ : ∃ k, (k < m ∧ orderKey c (P k) ≤ orderKey c z) ∧ ∀ i, k < i → ¬ (i < m ∧ orderKey c (P i) ≤ orderKey c z) := by
      refine ⟨Nat.findGreatest (fun i => i < m ∧ orderKey c (P i) ≤ orderKey c z) m, ?_, ?_⟩
      · exact Nat.findGreatest_spec (P := fun i => i < m ∧ orderKey c (P i) ≤ orderKey c z) (Nat.zero_le _) ⟨hr.pos, h0.le⟩
      · intro i hi hh
        exact Nat.findGreatest_is_greatest hi hh.1.le hh
    rcases Nat.lt_or_ge (k + 1) m with h | h
    · have h3 : orderKey c z ≤ orderKey c (P (k + 1)) := by
        by_contra hh
        exact hmax _ (Nat.lt_succ_self _) ⟨h, (not_le.1 hh).le⟩
      obtain ⟨⟨i, h1, h2, h4⟩, g1, g2, _⟩ := triple hl hc hk (hr.on k hkm) hz (hr.on _ h) hkz h3 (hr.gap h)
      exact ⟨k, hkm, side_between hc h1 h4 h2 g1 g2⟩
    · have : k = m - 1 := by omega
      subst this
      exact hwrap (Or.inl hkz)

/-- Two different points on one side: the clockwise order is seen from every point inside. -/
theorem side_turn (hc : StrictlyInside l c) {i : Nat} {x y : Pt} (hx : OnSide l i x) (hy : OnSide l i y) (hne : x ≠ y) (h : 0 ≤ rightOf c x y)
    {w : Pt} (hw : StrictlyInside l w) : 0 < rightOf w x y := by
  have hg := hc i hx.1
  have hg' := hw i hx.1
  obtain ⟨_, s, s0, s1, rfl⟩ := hx
  obtain ⟨_, t, t0, t1, rfl⟩ := hy
  rw [rightOf_params] at h ⊢
  refine mul_pos ?_ hg'
  have hst : s ≠ t := fun hh => hne (by rw [hh])
  have : 0 ≤ t - s := by
    by_contra hh
    push Not at hh
    nlinarith
  exact lt_of_le_of_ne this fun hh => hst (by linarith)

theorem side_turn_between (hc : StrictlyInside l c) {i : Nat} {x y z : Pt} (hx : OnSide l i x) (hy : OnSide l i y) (h : 0 ≤ rightOf c x y)
    (hz : Between x y z) : OnSide l i z ∧ 0 ≤ rightOf c x z ∧ 0 ≤ rightOf c z y := by
  obtain ⟨hi, hx1⟩ := hx
  obtain ⟨_, hy1⟩ := hy
  obtain ⟨u, u0, u1, rfl⟩ := hz
  refine ⟨⟨hi, ?_⟩, ?_, ?_⟩
  · obtain ⟨s, s0, s1, rfl⟩ := hx1
    obtain ⟨t, t0, t1, rfl⟩ := hy1
    refine ⟨(1 - u) * s + u * t, ?_, ?_, ?_⟩
    · have := mul_nonneg (by linarith : 0 ≤ 1 - u) s0
      have := mul_nonneg u0 t0
      linarith
    · nlinarith
    · refine Prod.ext ?_ ?_ <;> simp only <;> ring
  · have : rightOf c x ((1 - u) * x.1 + u * y.1, (1 - u) * x.2 + u * y.2) = u * rightOf c x y := by unfold rightOf; ring
    rw [this]; exact mul_nonneg u0 h
  · have : rightOf c ((1 - u) * x.1 + u * y.1, (1 - u) * x.2 + u * y.2) y = (1 - u) * rightOf c x y := by unfold rightOf; ring
    rw [this]; exact mul_nonneg (by linarith) h

/-- The clockwise order of two points on a side. -/
theorem side_order (hc : StrictlyInside l c) {i : Nat} {x y : Pt} (hx : OnSide l i x) (hy : OnSide l i y) (h : 0 ≤ rightOf c x y) :
    Between x (corner l (i + 1)) y := by
  have hg := hc i hx.1
  obtain ⟨_, s, s0, s1, rfl⟩ := hx
  obtain ⟨_, t, t0, t1, rfl⟩ := hy
  rw [rightOf_params] at h
  have hst : s ≤ t := by
    by_contra hh
    push Not at hh
    have := mul_neg_of_neg_of_pos (by linarith : t - s < 0) hg
    linarith
  rcases eq_or_lt_of_le s1 with rfl | hs
  · have : t = 1 := le_antisymm t1 hst
    subst this
    exact ⟨0, le_rfl, zero_le_one, by apply Prod.ext <;> simp⟩
  · refine ⟨(t - s) / (1 - s), div_nonneg (by linarith) (by linarith), (div_le_one (by linarith)).mpr (by linarith), ?_⟩
    have : (1 : ℝ) - s ≠ 0 := by linarith
    apply Prod.ext <;> simp only <;> field_simp <;> ring

/-- No point of the ring is strictly between two consecutive ones. -/
theorem Ring.empty (hl : ClockwiseConvex l) (hc : StrictlyInside l c) (hk : KeySorted c l) (hr : Ring c l P m) {j i : Nat} (hj : j < m) (hi : i < m)
    (hb : Between (P j) (P (j + 1)) (P i)) : P i = P j ∨ P i = P (j + 1) := by
  by_contra hcon
  push Not at hcon
  obtain ⟨n1, n2⟩ := hcon
  obtain ⟨⟨k, s1, s2⟩, ht⟩ := hr.step hl hc hk hj
  obtain ⟨s3, t1, t2⟩ := side_turn_between hc s1 s2 ht hb
  have u1 := side_turn hc s1 s3 (Ne.symm n1) t1 hc
  have u2 := side_turn hc s3 s2 n2 t2 hc
  obtain ⟨x0, x1⟩ := key_range c (P i)
  obtain ⟨y0, y1⟩ := key_range c (P (m - 1))
  obtain ⟨z0, z1⟩ := key_range c (P 0)
  have k1 := key_of_turn u1
  have k2 := key_of_turn u2
  rcases Nat.lt_or_ge (j + 1) m with h | h
  · have hs := hr.sorted _ _ (Nat.le_succ j) h
    have hlt : orderKey c (P j) < orderKey c (P i) ∧ orderKey c (P i) < orderKey c (P (j + 1)) := by
      rcases k1 with ⟨a, b⟩ | a <;> rcases k2 with ⟨a', b'⟩ | a'
      · exact ⟨a, a'⟩
      · linarith
      · linarith
      · linarith
    rcases Nat.lt_or_ge j i with hh | hh
    · exact absurd (hr.sorted _ _ hh hi) (not_le.2 hlt.2)
    · exact absurd (hr.sorted _ _ hh hj) (not_le.2 hlt.1)
  · have hjm : j = m - 1 := by omega
    have e : P (j + 1) = P 0 := by rw [hjm, Nat.sub_add_cancel hr.pos, hr.close]
    rw [e] at k2
    rw [hjm] at k1
    have g1 := hr.sorted 0 i (Nat.zero_le _) hi
    have g2 := hr.sorted i (m - 1) (by omega) (by omega)
    rcases k1 with ⟨a, b⟩ | a <;> rcases k2 with ⟨a', b'⟩ | a' <;> linarith

end Foronoi
