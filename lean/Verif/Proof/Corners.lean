import Verif.Proof.BorderGeo
import Verif.Spec.Moved
import Verif.Props.Single
import Verif.Props.VisBeach
import Mathlib.Data.List.Rotate

/-!
# The corners of a convex polygon around a point in it, and the box around it
-/

namespace Foronoi

open scoped List

variable {m : List Pt} {c : Pt}

theorem corner_add (l : List Pt) (i : Nat) : corner l (i + l.length) = corner l i := by
  unfold corner; rw [Nat.add_mod_right]

theorem corner_mem {i : Nat} (hm : 0 < m.length) : corner m i ∈ m := by
  rw [← corner_mod, corner_eq (Nat.mod_lt _ hm)]
  exact List.getElem_mem _

theorem mem_corner {z : Pt} (h : z ∈ m) : ∃ i < m.length, z = corner m i := by
  obtain ⟨i, hi, e⟩ := List.getElem_of_mem h
  exact ⟨i, hi, by rw [corner_eq hi, e]⟩

theorem corner_rotate (m : List Pt) (k i : Nat) (hm : 0 < m.length) : corner (m.rotate k) i = corner m (i + k) := by
  have hlen : (m.rotate k).length = m.length := List.length_rotate ..
  rw [← corner_mod (m.rotate k) i, ← corner_mod m (i + k), hlen, corner_eq (by rw [hlen]; exact Nat.mod_lt _ hm), corner_eq (Nat.mod_lt _ hm), List.getElem_rotate]
  congr 1
  rw [Nat.add_mod, Nat.mod_mod, ← Nat.add_mod]

/-- Three corners in cyclic order make a right turn. -/
theorem ClockwiseConvex.cyc (h : ClockwiseConvex m) : ∀ {i j k : Nat}, i < j → j < k → k < i + m.length →
    0 < rightOf (corner m i) (corner m j) (corner m k) := by
  obtain ⟨h3, h⟩ := h
  have base : ∀ {i j k : Nat}, i < m.length → i < j → j < k → k < i + m.length → 0 < rightOf (corner m i) (corner m j) (corner m k) := by
    intro i j k hi hij hjk hk
    rcases Nat.lt_or_ge k m.length with h1 | h1
    · exact h i j k hij hjk h1
    · obtain ⟨k', rfl⟩ := Nat.exists_eq_add_of_le' h1
      rw [corner_add]
      rcases Nat.lt_or_ge j m.length with h2 | h2
      · rw [rightOf_cycle, rightOf_cycle]
        exact h k' i j (by omega) hij h2
      · obtain ⟨j', rfl⟩ := Nat.exists_eq_add_of_le' h2
        rw [corner_add, rightOf_cycle]
        exact h j' k' i (by omega) (by omega) hi
  intro i
  induction i using Nat.strong_induction_on with
  | _ i ih =>
    intro j k hij hjk hk
    rcases Nat.lt_or_ge i m.length with h1 | h1
    · exact base h1 hij hjk hk
    · obtain ⟨i', rfl⟩ := Nat.exists_eq_add_of_le' h1
      obtain ⟨j', rfl⟩ := Nat.exists_eq_add_of_le' (show m.length ≤ j by omega)
      obtain ⟨k', rfl⟩ := Nat.exists_eq_add_of_le' (show m.length ≤ k by omega)
      rw [corner_add, corner_add, corner_add]
      exact ih i' (by omega) (by omega) (by omega) (by omega)

theorem ClockwiseConvex.rotate (h : ClockwiseConvex m) (r : Nat) : ClockwiseConvex (m.rotate r) := by
  have h3 := h.1
  refine ⟨by rw [List.length_rotate]; exact h3, fun i j k hij hjk hk => ?_⟩
  rw [List.length_rotate] at hk
  rw [corner_rotate m r _ (by omega), corner_rotate m r _ (by omega), corner_rotate m r _ (by omega)]
  exact h.cyc (by omega) (by omega) (by omega)

/-- A linear function takes its maximum over a convex polygon at a corner. -/
theorem ClockwiseConvex.max (h : ClockwiseConvex m) (a b : ℝ) {z : Pt} (hz : InClosed m z) : ∃ p ∈ m, a * z.1 + b * z.2 ≤ a * p.1 + b * p.2 := by
  have h3 := h.1
  obtain ⟨k, hk, hmax⟩ := (Finset.range m.length).exists_max_image (fun k => a * (corner m k).1 + b * (corner m k).2) ⟨0, Finset.mem_range.mpr (by omega)⟩
  rw [Finset.mem_range] at hk
  have hmax' : ∀ i, a * (corner m i).1 + b * (corner m i).2 ≤ a * (corner m k).1 + b * (corner m k).2 := by
    intro i
    rw [← corner_mod m i]
    exact hmax _ (Finset.mem_range.mpr (Nat.mod_lt _ (by omega)))
  refine ⟨corner m k, corner_mem (by omega), ?_⟩
  have e : corner m (k + (m.length - 1) + 1) = corner m k := by
    rw [show k + (m.length - 1) + 1 = k + m.length by omega, corner_add]
  have hD : 0 < rightOf (corner m k) (corner m (k + 1)) (corner m (k + (m.length - 1))) := h.cyc (by omega) (by omega) (by omega)
  have g1 := hz k hk
  have g2 : 0 ≤ rightOf (corner m (k + (m.length - 1))) (corner m k) z := by
    have := hz ((k + (m.length - 1)) % m.length) (Nat.mod_lt _ (by omega))
    rw [corner_mod, ← corner_mod m (_ + 1), Nat.mod_add_mod, corner_mod, e] at this
    exact this
  have f1 := hmax' (k + 1)
  have f2 := hmax' (k + (m.length - 1))
  set M := corner m k
  set N := corner m (k + 1)
  set P := corner m (k + (m.length - 1))
  have key : rightOf M N P * (a * (z.1 - M.1) + b * (z.2 - M.2)) =
      rightOf M N z * (a * (P.1 - M.1) + b * (P.2 - M.2)) + rightOf P M z * (a * (N.1 - M.1) + b * (N.2 - M.2)) := by
    unfold rightOf; ring
  have k1 : rightOf M N z * (a * (P.1 - M.1) + b * (P.2 - M.2)) ≤ 0 := mul_nonpos_of_nonneg_of_nonpos g1 (by linarith)
  have k2 : rightOf P M z * (a * (N.1 - M.1) + b * (N.2 - M.2)) ≤ 0 := mul_nonpos_of_nonneg_of_nonpos g2 (by linarith)
  by_contra hh
  push Not at hh
  have : 0 < rightOf M N P * (a * (z.1 - M.1) + b * (z.2 - M.2)) := mul_pos hD (by linarith)
  linarith

/-! ### the order around a point of the polygon that is not a corner -/

theorem key_height {p : Pt} (h : 180 < orderKey c p) : p.2 < c.2 := by
  have hp := Real.pi_pos
  obtain ⟨h0, h1, r, hr, e1, e2⟩ := orderKey_dir c p
  have hs : Real.sin (orderKey c p * Real.pi / 180) < 0 := by
    have e : orderKey c p * Real.pi / 180 = (orderKey c p - 180) * Real.pi / 180 + Real.pi := by ring
    rw [e, Real.sin_add_pi]
    have := Real.sin_pos_of_pos_of_lt_pi (x := (orderKey c p - 180) * Real.pi / 180) (by nlinarith) (by nlinarith)
    linarith
  rcases hr.eq_or_lt with hr | hr
  · exfalso
    have : orderKey c p = 180 := by
      have e : p = c := Prod.ext (by rw [e1, ← hr]; ring) (by rw [e2, ← hr]; ring)
      rw [e, orderKey_real]
      simp only [sub_self]
      have : (⟨0, 0⟩ : ℂ) = 0 := rfl
      rw [this, Complex.arg_zero]
      ring
    linarith
  · nlinarith

theorem key_height' {p : Pt} (h : orderKey c p ≤ 180) : c.2 ≤ p.2 := by
  have hp := Real.pi_pos
  obtain ⟨h0, h1, r, hr, e1, e2⟩ := orderKey_dir c p
  have hs := Real.sin_nonneg_of_nonneg_of_le_pi (x := orderKey c p * Real.pi / 180) (by positivity) (by nlinarith)
  nlinarith [mul_nonneg hr hs]

/-- Between opposite points the key changes by half a turn. -/
theorem key_opposite {p q : Pt} (hp : p ≠ c) (hq : q ≠ c) (hb : Between p q c) : orderKey c q = orderKey c p + 180 ∨ orderKey c p = orderKey c q + 180 := by
  have hpi := Real.pi_pos
  obtain ⟨t, t0, t1, hc⟩ := hb
  have c1 := congrArg Prod.fst hc
  have c2 := congrArg Prod.snd hc
  simp only at c1 c2
  have ht0 : t ≠ 0 := by
    rintro rfl
    exact hp (Prod.ext (by rw [c1]; ring) (by rw [c2]; ring))
  have ht1 : t ≠ 1 := by
    rintro rfl
    exact hq (Prod.ext (by rw [c1]; ring) (by rw [c2]; ring))
  have hpos : 0 < t := lt_of_le_of_ne t0 (Ne.symm ht0)
  have hlt : t < 1 := lt_of_le_of_ne t1 ht1
  obtain ⟨p0, p1, r, hr, e1, e2⟩ := orderKey_dir c p
  obtain ⟨q0, q1, s, hs, e3, e4⟩ := orderKey_dir c q
  have hr' : 0 < r := by
    refine lt_of_le_of_ne hr fun h => hp ?_
    rw [← h] at e1 e2
    exact Prod.ext (by rw [e1]; ring) (by rw [e2]; ring)
  have hs' : 0 < s := by
    refine lt_of_le_of_ne hs fun h => hq ?_
    rw [← h] at e3 e4
    exact Prod.ext (by rw [e3]; ring) (by rw [e4]; ring)
  set α := orderKey c p * Real.pi / 180 with hα
  set β := orderKey c q * Real.pi / 180 with hβ
  have f1 : (1 - t) * r * Real.cos α + t * s * Real.cos β = 0 := by rw [e1, e3] at c1; linarith
  have f2 : (1 - t) * r * Real.sin α + t * s * Real.sin β = 0 := by rw [e2, e4] at c2; linarith
  have hA : 0 < (1 - t) * r := mul_pos (by linarith) hr'
  have hB : 0 < t * s := mul_pos hpos hs'
  have hcos : Real.cos (β - α) < 0 := by
    rw [Real.cos_sub]
    have e : (t * s) * (Real.cos β * Real.cos α + Real.sin β * Real.sin α) = -((1 - t) * r) := by
      have := Real.sin_sq_add_cos_sq α
      linear_combination Real.cos α * f1 + Real.sin α * f2 - (1 - t) * r * this
    by_contra hh
    push Not at hh
    nlinarith [mul_nonneg hB.le hh]
  have hsin : Real.sin (β - α) = 0 := by
    rw [Real.sin_sub]
    have e : (t * s) * (Real.sin β * Real.cos α - Real.cos β * Real.sin α) = 0 := by
      linear_combination Real.cos α * f2 - Real.sin α * f1
    rcases mul_eq_zero.mp e with h | h
    · linarith
    · exact h
  obtain ⟨k, hk⟩ := Real.sin_eq_zero_iff.mp hsin
  have hk' : (k : ℝ) * 180 = orderKey c q - orderKey c p := by
    rw [hα, hβ] at hk
    have : (k : ℝ) * Real.pi * 180 = (orderKey c q - orderKey c p) * Real.pi := by linarith
    have h2 : ((k : ℝ) * 180 - (orderKey c q - orderKey c p)) * Real.pi = 0 := by linarith
    rcases mul_eq_zero.mp h2 with h | h
    · linarith
    · linarith
  have hk1 : k < 2 := by
    have : (k : ℝ) < 2 := by linarith
    exact_mod_cast this
  have hk2 : -2 < k := by
    have : (-2 : ℝ) < k := by linarith
    exact_mod_cast this
  have : k = -1 ∨ k = 0 ∨ k = 1 := by omega
  rcases this with rfl | rfl | rfl
  · right; push_cast at hk'; linarith
  · exfalso
    push_cast at hk
    rw [zero_mul] at hk
    rw [← hk, Real.cos_zero] at hcos
    linarith
  · left; push_cast at hk'; linarith

/-- From one corner to the next the key grows by at most half a turn, or starts again on a side that crosses the height of `c` upwards. -/
theorem corner_step (hm : ClockwiseConvex m) (hc : InClosed m c) (hne : c ∉ m) (hlow : ∃ p ∈ m, p.2 < c.2) (i : Nat) :
    orderKey c (corner m i) < orderKey c (corner m (i + 1)) ∨ ((corner m i).2 < c.2 ∧ c.2 ≤ (corner m (i + 1)).2) := by
  have h3 := hm.1
  have side : ∀ {z : Pt}, InClosed m z → 0 ≤ rightOf (corner m i) (corner m (i + 1)) z := by
    intro z hz
    have := hz (i % m.length) (Nat.mod_lt _ (by omega))
    rw [corner_mod, ← corner_mod m (_ + 1), Nat.mod_add_mod, corner_mod] at this
    exact this
  have hp : corner m i ≠ c := fun h => hne (h ▸ corner_mem (by omega))
  have hq : corner m (i + 1) ≠ c := fun h => hne (h ▸ corner_mem (by omega))
  have r1 := key_range c (corner m i)
  have r2 := key_range c (corner m (i + 1))
  have fin : orderKey c (corner m (i + 1)) + 180 ≤ orderKey c (corner m i) → ((corner m i).2 < c.2 ∧ c.2 ≤ (corner m (i + 1)).2) := by
    intro h
    rcases (show 180 ≤ orderKey c (corner m i) by linarith).eq_or_lt with h' | h'
    · exfalso
      obtain ⟨_, _, r, hr, e1, e2⟩ := orderKey_dir c (corner m i)
      obtain ⟨_, _, s, hs, e3, e4⟩ := orderKey_dir c (corner m (i + 1))
      have h0 : orderKey c (corner m (i + 1)) = 0 := by linarith
      have ea : (180 : ℝ) * Real.pi / 180 = Real.pi := by ring
      have eb : (0 : ℝ) * Real.pi / 180 = 0 := by ring
      rw [← h', ea, Real.cos_pi] at e1
      rw [← h', ea, Real.sin_pi] at e2
      rw [h0, eb, Real.cos_zero] at e3
      rw [h0, eb, Real.sin_zero] at e4
      obtain ⟨p, hp1, hp2⟩ := hlow
      obtain ⟨k, hk, rfl⟩ := mem_corner hp1
      have := side (OnBoundary.closed hm ⟨k, hk, Between.left _ _⟩)
      unfold rightOf at this
      rw [e1, e2, e3, e4] at this
      have hrs : 0 < r + s := by
        rcases hr.eq_or_lt with h | h
        · exfalso
          exact hp (Prod.ext (by rw [e1, ← h]; ring) (by rw [e2]; ring))
        · linarith
      nlinarith
    · exact ⟨key_height h', key_height' (by linarith)⟩
  rcases (side hc).eq_or_lt with h | h
  · have hb : Between (corner m i) (corner m (i + 1)) c := by
      have := on_side_of_zero hm (Nat.mod_lt i (by omega : 0 < m.length)) hc (z := c)
        (by rw [corner_mod, ← corner_mod m (_ + 1), Nat.mod_add_mod, corner_mod]; exact h.symm)
      rw [corner_mod, ← corner_mod m (_ + 1), Nat.mod_add_mod, corner_mod] at this
      exact this
    rcases key_opposite hp hq hb with h | h
    · left; linarith
    · right; exact fin h.ge
  · rw [← rightOf_cycle] at h
    rcases key_of_turn h with ⟨h1, h2⟩ | h1
    · left; exact h1
    · right; exact fin h1.le

/-- A convex polygon crosses each height upwards only once. -/
theorem up_once (hm : ClockwiseConvex m) {y : ℝ} {i j : Nat} (hij : i < j) (hj : j < i + m.length) (h1 : (corner m i).2 < y)
    (h2 : y ≤ (corner m (i + 1)).2) (h3 : (corner m j).2 < y) (h4 : y ≤ (corner m (j + 1)).2) : False := by
  have a1 : i + 1 ≠ j := by rintro rfl; linarith
  have a2 : j + 1 ≠ i + m.length := by
    intro h
    rw [h, corner_add] at h4
    linarith
  have t1 := hm.cyc (show i < i + 1 by omega) (show i + 1 < j by omega) (by omega)
  have t2 := hm.cyc (show i < j by omega) (show j < j + 1 by omega) (by omega)
  have t3 := hm.cyc (show i < i + 1 by omega) (show i + 1 < j + 1 by omega) (by omega)
  have t4 := hm.cyc (show i + 1 < j by omega) (show j < j + 1 by omega) (by omega)
  set A := corner m i
  set B := corner m (i + 1)
  set C := corner m j
  set D := corner m (j + 1)
  have key : rightOf B C D * (A.2 - y) + rightOf A B D * (C.2 - y) = rightOf A C D * (B.2 - y) + rightOf A B C * (D.2 - y) := by
    unfold rightOf; ring
  have k1 := mul_pos t4 (by linarith : 0 < y - A.2)
  have k2 := mul_pos t3 (by linarith : 0 < y - C.2)
  have k3 := mul_nonneg t2.le (by linarith : 0 ≤ B.2 - y)
  have k4 := mul_nonneg t1.le (by linarith : 0 ≤ D.2 - y)
  linarith

/-- Seen from a point of the polygon, the corners of a convex polygon, suitably rotated, have increasing keys. -/
theorem rotated_sorted (hm : ClockwiseConvex m) (hc : InClosed m c) (hne : c ∉ m) (hlow : ∃ p ∈ m, p.2 < c.2) :
    ∃ r, (m.rotate r).Pairwise (fun p q => orderKey c p < orderKey c q) := by
  have h3 := hm.1
  obtain ⟨i, hi⟩ : ∃ i, ¬ orderKey c (corner m i) < orderKey c (corner m (i + 1)) := by
    by_contra hh
    push Not at hh
    have : ∀ k, orderKey c (corner m 0) < orderKey c (corner m (k + 1)) := by
      intro k
      induction k with
      | zero => exact hh 0
      | succ k ih => exact ih.trans (hh _)
    have h1 := this (m.length - 1)
    rw [Nat.sub_add_cancel (by omega), show m.length = 0 + m.length by omega, corner_add] at h1
    exact lt_irrefl _ h1
  have hup := (corner_step hm hc hne hlow i).resolve_left hi
  refine ⟨i + 1, ?_⟩
  have hstep : ∀ j, j + 1 < m.length → orderKey c (corner (m.rotate (i + 1)) j) < orderKey c (corner (m.rotate (i + 1)) (j + 1)) := by
    intro j hj
    rw [corner_rotate m _ _ (by omega), corner_rotate m _ _ (by omega), show j + 1 + (i + 1) = j + (i + 1) + 1 by omega]
    rcases corner_step hm hc hne hlow (j + (i + 1)) with h | h
    · exact h
    · exact (up_once hm (show i < j + (i + 1) by omega) (by omega) hup.1 hup.2 h.1 h.2).elim
  have hlen : (m.rotate (i + 1)).length = m.length := List.length_rotate ..
  rw [List.pairwise_iff_getElem]
  intro a b ha hb hab
  rw [← corner_eq ha, ← corner_eq hb]
  clear ha
  induction b with
  | zero => omega
  | succ b ih =>
    have hb' : b + 1 < m.length := by omega
    rcases Nat.lt_or_ge a b with h | h
    · exact (ih (by omega) h).trans (hstep b hb')
    · rw [show a = b by omega]
      exact hstep b hb'

/-- Sorting by the key yields the corners of a convex polygon in clockwise order. -/
theorem sorted_rotated (hm : ClockwiseConvex m) (hc : InClosed m c) (hne : c ∉ m) (hlow : ∃ p ∈ m, p.2 < c.2) {l : List Pt} (hl : l ~ m)
    (hs : l.Pairwise (fun p q => orderKey c p ≤ orderKey c q)) : ∃ r, l = m.rotate r := by
  obtain ⟨r, hr⟩ := rotated_sorted hm hc hne hlow
  refine ⟨r, List.Perm.eq_of_pairwise ?_ hs (hr.imp le_of_lt) (hl.trans (List.rotate_perm m r).symm)⟩
  intro a b ha hb h1 h2
  have ha' : a ∈ m.rotate r := List.mem_rotate.mpr (hl.mem_iff.mp ha)
  obtain ⟨x, hx, rfl⟩ := List.getElem_of_mem ha'
  obtain ⟨y, hy, rfl⟩ := List.getElem_of_mem hb
  have hr' := List.pairwise_iff_getElem.mp hr
  rcases lt_trichotomy x y with h | h | h
  · exact absurd (hr' x y hx hy h) (not_lt.mpr h2)
  · subst h; rfl
  · exact absurd (hr' y x hy hx h) (not_lt.mpr h1)

/-! ### the box around the polygon -/

theorem listMin_get {L : List ℝ} (h : L ≠ []) : ∃ x ∈ L, listMin L = some x ∧ ∀ y ∈ L, x ≤ y := by
  rcases listMin_spec L with ⟨h1, _⟩ | h1
  · exact absurd h1 h
  · exact h1

theorem listMax_get {L : List ℝ} (h : L ≠ []) : ∃ x ∈ L, listMax L = some x ∧ ∀ y ∈ L, y ≤ x := by
  cases L with
  | nil => exact absurd rfl h
  | cons a L =>
    have key : ∀ (L : List ℝ) (a : ℝ), a ≤ L.foldl max a ∧ (L.foldl max a = a ∨ L.foldl max a ∈ L) ∧ ∀ y ∈ L, y ≤ L.foldl max a := by
      intro L
      induction L with
      | nil => intro a; simp
      | cons b L ih =>
        intro a
        obtain ⟨h1, h2, h3⟩ := ih (max a b)
        simp only [List.foldl_cons, List.mem_cons]
        refine ⟨(le_max_left _ _).trans h1, ?_, ?_⟩
        · rcases h2 with h2 | h2
          · rw [h2]
            rcases max_choice a b with h | h
            · exact Or.inl h
            · exact Or.inr (Or.inl h)
          · exact Or.inr (Or.inr h2)
        · rintro y (rfl | hy)
          · exact (le_max_right _ _).trans h1
          · exact h3 y hy
    obtain ⟨h1, h2, h3⟩ := key L a
    refine ⟨L.foldl max a, ?_, rfl, ?_⟩
    · rcases h2 with h2 | h2
      · rw [h2]; exact List.mem_cons_self
      · exact List.mem_cons_of_mem _ h2
    · intro y hy
      rcases List.mem_cons.mp hy with rfl | hy
      · exact h1
      · exact h3 y hy

theorem mkPoly_box {l : List Pt} (h : l ≠ []) : ∃ poly, mkPoly l = .ok poly ∧ BoxOf l poly := by
  have h1 : l.map (·.1) ≠ [] := by simpa using h
  have h2 : l.map (·.2) ≠ [] := by simpa using h
  obtain ⟨a, a1, a2, a3⟩ := listMin_get h1
  obtain ⟨b, b1, b2, b3⟩ := listMax_get h1
  obtain ⟨c, c1, c2, c3⟩ := listMin_get h2
  obtain ⟨d, d1, d2, d3⟩ := listMax_get h2
  have e2 : (lit 2 : ℝ) ≠ 0 := by simp [lit, rI]
  have e2' : (lit 2 : ℝ) = 2 := by simp [lit, rI]
  unfold mkPoly
  rw [a2, b2, c2, d2]
  simp only [rAdd, rDiv _ _ e2]
  refine ⟨_, rfl, ?_, ?_, ?_, ?_, ?_, ?_⟩
  · simpa using a1
  · simpa using b1
  · simpa using c1
  · simpa using d1
  · exact fun p hp => ⟨a3 _ (List.mem_map_of_mem hp), b3 _ (List.mem_map_of_mem hp), c3 _ (List.mem_map_of_mem hp), d3 _ (List.mem_map_of_mem hp)⟩
  · simp only [e2']

/-- The side from corner `i` to the next is a diagonal of the box. -/
def Diagonal (poly : Poly ℝ) (a b : Pt) : Prop :=
  (a.1 = poly.minX ∧ b.1 = poly.maxX ∨ a.1 = poly.maxX ∧ b.1 = poly.minX) ∧ (a.2 = poly.minY ∧ b.2 = poly.maxY ∨ a.2 = poly.maxY ∧ b.2 = poly.minY)

variable {poly : Poly ℝ}

/-- An affine function that is not negative at the corners is not negative at the centre of the box; and if it is zero there, it is zero at
two corners which are opposite corners of the box. -/
theorem BoxOf.affine (h : BoxOf m poly) {a b g : ℝ} (hf : ∀ p ∈ m, 0 ≤ a * p.1 + b * p.2 + g) :
    0 ≤ a * poly.center.1 + b * poly.center.2 + g ∧ (a ≠ 0 → b ≠ 0 → a * poly.center.1 + b * poly.center.2 + g = 0 →
      ∃ p ∈ m, ∃ q ∈ m, a * p.1 + b * p.2 + g = 0 ∧ a * q.1 + b * q.2 + g = 0 ∧ Diagonal poly p q) := by
  obtain ⟨L, hL, eL⟩ := h.left
  obtain ⟨R, hR, eR⟩ := h.right
  obtain ⟨B, hB, eB⟩ := h.bottom
  obtain ⟨T, hT, eT⟩ := h.top
  have c1 : poly.center.1 = (poly.maxX + poly.minX) / 2 := by rw [h.center]
  have c2 : poly.center.2 = (poly.maxY + poly.minY) / 2 := by rw [h.center]
  rw [c1, c2]
  obtain ⟨L1, L2, L3, L4⟩ := h.inside L hL
  obtain ⟨R1, R2, R3, R4⟩ := h.inside R hR
  obtain ⟨B1, B2, B3, B4⟩ := h.inside B hB
  obtain ⟨T1, T2, T3, T4⟩ := h.inside T hT
  have fL := hf L hL
  have fR := hf R hR
  have fB := hf B hB
  have fT := hf T hT
  have key : ∀ {x y : Pt}, x ∈ m → y ∈ m → 0 ≤ a * x.1 + b * x.2 + g → 0 ≤ a * y.1 + b * y.2 + g →
      ∀ {u v : ℝ}, 0 ≤ u → 0 ≤ v → (a ≠ 0 → b ≠ 0 → u = 0 → v = 0 → Diagonal poly x y) →
      a * ((poly.maxX + poly.minX) / 2) + b * ((poly.maxY + poly.minY) / 2) + g =
        ((a * x.1 + b * x.2 + g) + (a * y.1 + b * y.2 + g)) / 2 + u + v →
      0 ≤ a * ((poly.maxX + poly.minX) / 2) + b * ((poly.maxY + poly.minY) / 2) + g ∧ (a ≠ 0 → b ≠ 0 →
        a * ((poly.maxX + poly.minX) / 2) + b * ((poly.maxY + poly.minY) / 2) + g = 0 →
        ∃ p ∈ m, ∃ q ∈ m, a * p.1 + b * p.2 + g = 0 ∧ a * q.1 + b * q.2 + g = 0 ∧ Diagonal poly p q) := by
    intro x y hx hy fx fy u v hu hv hd e
    refine ⟨by rw [e]; linarith, fun ha hb h0 => ⟨x, hx, y, hy, by linarith, by linarith, hd ha hb (by linarith) (by linarith)⟩⟩
  rcases le_total 0 a with ha | ha <;> rcases le_total 0 b with hb | hb
  · refine key hL hB fL fB (u := a * (poly.maxX - B.1) / 2) (v := b * (poly.maxY - L.2) / 2) (by nlinarith) (by nlinarith) ?_
      (by rw [← eL, ← eB]; ring)
    intro ha' hb' hu hv
    have hu' : poly.maxX - B.1 = 0 := (mul_eq_zero.mp (by linarith : a * (poly.maxX - B.1) = 0)).resolve_left ha'
    have hv' : poly.maxY - L.2 = 0 := (mul_eq_zero.mp (by linarith : b * (poly.maxY - L.2) = 0)).resolve_left hb'
    exact ⟨by left; exact ⟨eL, by linarith⟩, by right; exact ⟨by linarith, eB⟩⟩
  · refine key hL hT fL fT (u := a * (poly.maxX - T.1) / 2) (v := b * (poly.minY - L.2) / 2) (by nlinarith) (by nlinarith) ?_
      (by rw [← eL, ← eT]; ring)
    intro ha' hb' hu hv
    have hu' : poly.maxX - T.1 = 0 := (mul_eq_zero.mp (by linarith : a * (poly.maxX - T.1) = 0)).resolve_left ha'
    have hv' : poly.minY - L.2 = 0 := (mul_eq_zero.mp (by linarith : b * (poly.minY - L.2) = 0)).resolve_left hb'
    exact ⟨by left; exact ⟨eL, by linarith⟩, by left; exact ⟨by linarith, eT⟩⟩
  · refine key hR hB fR fB (u := a * (poly.minX - B.1) / 2) (v := b * (poly.maxY - R.2) / 2) (by nlinarith) (by nlinarith) ?_
      (by rw [← eR, ← eB]; ring)
    intro ha' hb' hu hv
    have hu' : poly.minX - B.1 = 0 := (mul_eq_zero.mp (by linarith : a * (poly.minX - B.1) = 0)).resolve_left ha'
    have hv' : poly.maxY - R.2 = 0 := (mul_eq_zero.mp (by linarith : b * (poly.maxY - R.2) = 0)).resolve_left hb'
    exact ⟨by right; exact ⟨eR, by linarith⟩, by right; exact ⟨by linarith, eB⟩⟩
  · refine key hR hT fR fT (u := a * (poly.minX - T.1) / 2) (v := b * (poly.minY - R.2) / 2) (by nlinarith) (by nlinarith) ?_
      (by rw [← eR, ← eT]; ring)
    intro ha' hb' hu hv
    have hu' : poly.minX - T.1 = 0 := (mul_eq_zero.mp (by linarith : a * (poly.minX - T.1) = 0)).resolve_left ha'
    have hv' : poly.minY - R.2 = 0 := (mul_eq_zero.mp (by linarith : b * (poly.minY - R.2) = 0)).resolve_left hb'
    exact ⟨by right; exact ⟨eR, by linarith⟩, by left; exact ⟨by linarith, eT⟩⟩

theorem rightOf_coeff (a b z : Pt) : rightOf a b z = (b.2 - a.2) * z.1 + (-(b.1 - a.1)) * z.2 + (-(b.2 - a.2) * a.1 + (b.1 - a.1) * a.2) := by
  unfold rightOf; ring

theorem corners_closed (hm : ClockwiseConvex m) {p : Pt} (hp : p ∈ m) : InClosed m p := by
  obtain ⟨k, hk, rfl⟩ := mem_corner hp
  exact OnBoundary.closed hm ⟨k, hk, Between.left _ _⟩

/-- The box of a convex polygon has width and height. -/
theorem BoxOf.size (hm : ClockwiseConvex m) (h : BoxOf m poly) : poly.minX < poly.maxX ∧ poly.minY < poly.maxY := by
  obtain ⟨h3, hc⟩ := hm
  have h012 := hc 0 1 2 (by omega) (by omega) (by omega)
  obtain ⟨A1, A2, A3, A4⟩ := h.inside (corner m 0) (corner_mem (by omega))
  obtain ⟨B1, B2, B3, B4⟩ := h.inside (corner m 1) (corner_mem (by omega))
  obtain ⟨C1, C2, C3, C4⟩ := h.inside (corner m 2) (corner_mem (by omega))
  unfold rightOf at h012
  constructor
  · by_contra hh
    push Not at hh
    have e1 : (corner m 1).1 - (corner m 0).1 = 0 := by linarith
    have e2 : (corner m 2).1 - (corner m 0).1 = 0 := by linarith
    rw [e1, e2] at h012
    simp at h012
  · by_contra hh
    push Not at hh
    have e1 : (corner m 1).2 - (corner m 0).2 = 0 := by linarith
    have e2 : (corner m 2).2 - (corner m 0).2 = 0 := by linarith
    rw [e1, e2] at h012
    simp at h012

/-- The centre of the box is in the polygon. -/
theorem BoxOf.closed (hm : ClockwiseConvex m) (h : BoxOf m poly) : InClosed m poly.center := by
  intro i hi
  rw [rightOf_coeff]
  refine (h.affine fun p hp => ?_).1
  rw [← rightOf_coeff]
  exact corners_closed hm hp i hi

/-- It is on the line of a side only if the side is a diagonal of the box. -/
theorem BoxOf.side_zero (hm : ClockwiseConvex m) (h : BoxOf m poly) {i : Nat} (hi : i < m.length)
    (h0 : rightOf (corner m i) (corner m (i + 1)) poly.center = 0) : Diagonal poly (corner m i) (corner m (i + 1)) := by
  have hne := corner_ne hm hi
  obtain ⟨s1, s2⟩ := h.size hm
  have hpos := fun {p : Pt} (hp : p ∈ m) => corners_closed hm hp i hi
  have haff := (h.affine (a := (corner m (i + 1)).2 - (corner m i).2) (b := -((corner m (i + 1)).1 - (corner m i).1)) fun p hp => by
    rw [← rightOf_coeff]; exact hpos hp).2
  have c1 : poly.center.1 = (poly.maxX + poly.minX) / 2 := by rw [h.center]
  have c2 : poly.center.2 = (poly.maxY + poly.minY) / 2 := by rw [h.center]
  by_cases ha : (corner m (i + 1)).2 - (corner m i).2 = 0
  · exfalso
    obtain ⟨B, hB, eB⟩ := h.bottom
    obtain ⟨T, hT, eT⟩ := h.top
    have hb : (corner m (i + 1)).1 - (corner m i).1 ≠ 0 := fun hb => hne (Prod.ext (by linarith) (by linarith))
    have f1 := hpos hB
    have f2 := hpos hT
    unfold rightOf at f1 f2 h0
    rw [ha, zero_mul, zero_sub] at f1 f2 h0
    have h0' : poly.center.2 - (corner m i).2 = 0 := (mul_eq_zero.mp (by linarith : ((corner m (i + 1)).1 - (corner m i).1) * (poly.center.2 - (corner m i).2) = 0)).resolve_left hb
    rcases lt_or_gt_of_ne hb with hb | hb <;> nlinarith
  by_cases hb : (corner m (i + 1)).1 - (corner m i).1 = 0
  · exfalso
    obtain ⟨B, hB, eB⟩ := h.left
    obtain ⟨T, hT, eT⟩ := h.right
    have f1 := hpos hB
    have f2 := hpos hT
    unfold rightOf at f1 f2 h0
    rw [hb, zero_mul, sub_zero] at f1 f2 h0
    have h0' : poly.center.1 - (corner m i).1 = 0 := (mul_eq_zero.mp h0).resolve_left ha
    rcases lt_or_gt_of_ne ha with hb | hb <;> nlinarith
  obtain ⟨p, hp, q, hq, fp, fq, hD⟩ := haff ha (neg_ne_zero.mpr hb) (by rw [← rightOf_coeff]; exact h0)
  rw [← rightOf_coeff] at fp fq
  have hends : ∀ {p : Pt}, p ∈ m → rightOf (corner m i) (corner m (i + 1)) p = 0 → p = corner m i ∨ p = corner m (i + 1) := by
    intro p hp fp
    obtain ⟨k, hk, rfl⟩ := mem_corner hp
    by_contra hh
    push Not at hh
    have := hm.side_lt hi hk (fun e => hh.1 (by rw [e])) (fun e => hh.2 (by rw [e, corner_mod]))
    linarith
  have hpq : p ≠ q := by
    rintro rfl
    rcases hD.1 with ⟨e1, e2⟩ | ⟨e1, e2⟩ <;> linarith
  rcases hends hp fp with rfl | rfl <;> rcases hends hq fq with rfl | rfl
  · exact absurd rfl hpq
  · exact hD
  · obtain ⟨d1, d2⟩ := hD
    exact ⟨d1.symm.imp And.symm And.symm, d2.symm.imp And.symm And.symm⟩
  · exact absurd rfl hpq

theorem BoxOf.not_corner (hm : ClockwiseConvex m) (h : BoxOf m poly) : poly.center ∉ m := by
  intro hc
  obtain ⟨k, hk, e⟩ := mem_corner hc
  obtain ⟨s1, s2⟩ := h.size hm
  have c1 : poly.center.1 = (poly.maxX + poly.minX) / 2 := by rw [h.center]
  have hD := h.side_zero hm hk (by rw [e]; exact (rightOf_self _ _).1)
  rw [← e] at hD
  rcases hD.1 with ⟨e1, _⟩ | ⟨e1, _⟩ <;> linarith

/-- It is strictly inside unless a side is a diagonal of the box. -/
theorem BoxOf.inside_center (hm : ClockwiseConvex m) (h : BoxOf m poly) (hd : ∀ i < m.length, ¬ Diagonal poly (corner m i) (corner m (i + 1))) :
    StrictlyInside m poly.center :=
  fun i hi => lt_of_le_of_ne (h.closed hm i hi) fun h0 => hd i hi (h.side_zero hm hi h0.symm)

/-- The polygon is in the box. -/
theorem BoxOf.bounds (hm : ClockwiseConvex m) (h : BoxOf m poly) {z : Pt} (hz : InClosed m z) :
    poly.minX ≤ z.1 ∧ z.1 ≤ poly.maxX ∧ poly.minY ≤ z.2 ∧ z.2 ≤ poly.maxY := by
  obtain ⟨p, hp, e1⟩ := hm.max (-1) 0 hz
  obtain ⟨q, hq, e2⟩ := hm.max 1 0 hz
  obtain ⟨r, hr, e3⟩ := hm.max 0 (-1) hz
  obtain ⟨s, hs, e4⟩ := hm.max 0 1 hz
  have := (h.inside p hp).1
  have := (h.inside q hq).2.1
  have := (h.inside r hr).2.2.1
  have := (h.inside s hs).2.2.2
  refine ⟨?_, ?_, ?_, ?_⟩ <;> linarith

end Foronoi
