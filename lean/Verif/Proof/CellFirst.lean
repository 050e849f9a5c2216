import Verif.Proof.CellWhole

/-!
# The first edge of every site is on the chain of its cell
-/

namespace Foronoi

open scoped List

variable {pts : Nat → ℝ × ℝ} {q : PQ (QE ℝ)} {ok : List (QE ℝ) → Prop} {n : Nat} {poly : Poly ℝ} {s s1 s2 : St ℝ} {vs : List Nat} {V : Nat → Nat} {cell : Nat}

theorem Via.path {K : Type} [LinearOrder K] [Arith K] {d : Dcel K} {X : Nat → Prop} {x y : Nat} (h : Via d X x y) :
    ∃ (F : Nat → Nat) (k : Nat), 0 < k ∧ F 0 = x ∧ F k = y ∧ (∀ i < k, (d.he (F i)).next = some (F (i + 1))) ∧ ∀ i, 0 < i → i < k → X (F i) := by
  induction h with
  | @one x y h =>
    refine ⟨fun i => if i = 0 then x else y, 1, one_pos, rfl, rfl, fun i hi => ?_, fun i h1 h2 => by omega⟩
    have : i = 0 := by omega
    subst this
    exact h
  | @step x g y h1 h2 _ ih =>
    obtain ⟨F, k, a1, a2, a3, a4, a5⟩ := ih
    refine ⟨fun i => if i = 0 then x else F (i - 1), k + 1, by omega, rfl, ?_, ?_, ?_⟩
    · show (if k + 1 = 0 then x else F (k + 1 - 1)) = y
      rw [if_neg (by omega), Nat.add_sub_cancel, a3]
    · intro i hi
      show (d.he (if i = 0 then x else F (i - 1))).next = some (if i + 1 = 0 then x else F (i + 1 - 1))
      rw [if_neg (by omega : ¬ i + 1 = 0), Nat.add_sub_cancel]
      by_cases h0 : i = 0
      · rw [if_pos h0, h0, a2, h1]
      · rw [if_neg h0, a4 (i - 1) (by omega), Nat.sub_add_cancel (by omega)]
    · intro i h0 hi
      show X (if i = 0 then x else F (i - 1))
      rw [if_neg (by omega)]
      by_cases h1 : i = 1
      · rw [h1, a2]; exact h2
      · exact a5 (i - 1) (by omega) (by omega)

/-- Seen from a point nearer to `i`, the bisector is run through clockwise. -/
theorem fwd_turn {pi pj x y c : Pt} (hf : Fwd pj pi y x) (hx : dsq pi x = dsq pj x) (hc : dsq pi c < dsq pj c) : x = y ∨ 0 < rightOf c x y := by
  by_cases hxy : x = y
  · exact Or.inl hxy
  right
  obtain ⟨k, k0, h1, h2⟩ := hf
  have hkn : k < 0 := by
    refine lt_of_le_of_ne k0 fun hk0 => hxy ?_
    subst hk0
    exact Prod.ext (by linarith) (by linarith)
  have e : rightOf c x y = -k * ((dsq pj c - dsq pi c) / 2) := by
    have e1 : y.1 = x.1 + k * (pi.2 - pj.2) := by linarith
    have e2 : y.2 = x.2 - k * (pi.1 - pj.1) := by linarith
    unfold rightOf
    unfold dsq at hx ⊢
    rw [e1, e2]
    linear_combination (-k / 2) * hx
  rw [e]
  exact mul_pos (by linarith) (by linarith)

/-- Two neighbours: a site and the one nearest to it are the only nearest sites half way between them. -/
theorem neighbour (hd : Distinct pts n) {p : Nat} (hp : p < n) (h2 : 2 ≤ n) :
    ∃ o, o ≠ p ∧ o < n ∧ ∃ z w, z ≠ w ∧ Nearest pts n p z ∧ Nearest pts n o z ∧ Nearest pts n p w ∧ Nearest pts n o w := by
  classical
  have hne : ((Finset.range n).filter (· ≠ p)).Nonempty := by
    refine ⟨if p = 0 then 1 else 0, ?_⟩
    rw [Finset.mem_filter, Finset.mem_range]
    split <;> omega
  obtain ⟨o, ho, hmin⟩ := Finset.exists_min_image _ (fun o => dsq (pts o) (pts p)) hne
  rw [Finset.mem_filter, Finset.mem_range] at ho
  obtain ⟨hon, hop⟩ := ho
  have hmin : ∀ c < n, c ≠ p → dsq (pts o) (pts p) ≤ dsq (pts c) (pts p) := fun c hc hcp =>
    hmin c (by rw [Finset.mem_filter, Finset.mem_range]; exact ⟨hc, hcp⟩)
  set m : Pt := (((pts p).1 + (pts o).1) / 2, ((pts p).2 + (pts o).2) / 2) with hm
  have heq : dsq (pts p) m = dsq (pts o) m := by unfold dsq; rw [hm]; simp only; ring
  have hquart : dsq (pts p) m = dsq (pts o) (pts p) / 4 := by unfold dsq; rw [hm]; simp only; ring
  -- other sites are farther
  have hfar : ∀ c < n, c ≠ p → c ≠ o → dsq (pts p) m < dsq (pts c) m := by
    intro c hc h1 h2
    by_contra hcon
    push Not at hcon
    have hco : pts c ≠ pts o := fun hh => h2 (hd c hc o hon hh)
    have k1 := hmin c hc h1
    have k2 := dsq_pos hco
    have e : dsq (pts c) (pts p) + dsq (pts c) (pts o) = 2 * dsq (pts c) m + 2 * dsq (pts p) m := by
      unfold dsq; rw [hm]; simp only; ring
    linarith
  have hle : ∀ c < n, dsq (pts p) m ≤ dsq (pts c) m := by
    intro c hc
    by_cases h1 : c = p
    · rw [h1]
    · by_cases h2 : c = o
      · rw [h2, heq]
      · exact (hfar c hc h1 h2).le
  have n1 : Nearest pts n p m := ⟨hp, hle⟩
  have n2 : Nearest pts n o m := ⟨hon, fun c hc => by
    show dsq _ _ ≤ dsq _ _
    rw [← heq]; exact hle c hc⟩
  have only : ∀ a, Nearest pts n a m → a = p ∨ a = o := by
    intro a ha
    by_contra hcon
    push Not at hcon
    exact absurd (ha.2 p hp) (not_le.mpr (hfar a ha.1 hcon.1 hcon.2))
  have hv : ¬ VoronoiVertex pts n m := by
    rintro ⟨a, b, c, h1, h2, h3, ha, hb, hc⟩
    have := only a ha
    have := only b hb
    have := only c hc
    grind
  have hpo : pts p ≠ pts o := fun hh => hop (hd p hp o hon hh).symm
  obtain ⟨ε, e0, e1, hst⟩ := nearest_stay (u := (m.1 + ((pts p).2 - (pts o).2), m.2 - ((pts p).1 - (pts o).1))) (Ne.symm hop) n1 n2 hv (by
    unfold dsq; rw [hm]; simp only; ring)
  obtain ⟨k1, k2, _⟩ := hst ε e0.le le_rfl
  refine ⟨o, hop, hon, m, _, ?_, n1, n2, k1, k2⟩
  intro hh
  obtain ⟨g1, g2⟩ := Prod.ext_iff.mp hh
  simp only [along] at g1 g2
  have g1 : ε * ((pts p).2 - (pts o).2) = 0 := by linarith
  have g2 : ε * ((pts p).1 - (pts o).1) = 0 := by linarith
  have g1 := (mul_eq_zero.mp g1).resolve_left e0.ne'
  have g2 := (mul_eq_zero.mp g2).resolve_left e0.ne'
  exact hpo (Prod.ext (by linarith) (by linarith))

theorem sqDist_between {p x y w : Pt} (h : Between x y w) : sqDist p w ≤ max (sqDist p x) (sqDist p y) := by
  obtain ⟨u, u0, u1, rfl⟩ := h
  have h1 := le_max_left (sqDist p x) (sqDist p y)
  have h2 := le_max_right (sqDist p x) (sqDist p y)
  have e : sqDist p ((1 - u) * x.1 + u * y.1, (1 - u) * x.2 + u * y.2) = (1 - u) * sqDist p x + u * sqDist p y - u * (1 - u) * sqDist x y := by
    unfold sqDist; simp only; ring
  have h3 : 0 ≤ u * (1 - u) * sqDist x y := mul_nonneg (mul_nonneg u0 (by linarith)) (by unfold sqDist; positivity)
  rw [e]
  nlinarith [mul_le_mul_of_nonneg_left h1 (by linarith : 0 ≤ 1 - u), mul_le_mul_of_nonneg_left h2 u0]

/-- On the way from an inner point of a cell to a point of the cell the border of the cell is not crossed. -/
theorem before_rim {p o : Nat} {c z w : Pt} (hop : o ≠ p) (hm : ∀ o < n, o ≠ p → dsq (pts p) c < dsq (pts o) c) {u : ℝ} (u0 : 0 < u)
    (e1 : w.1 - c.1 = u * (z.1 - c.1)) (e2 : w.2 - c.2 = u * (z.2 - c.2)) (hw : Nearest pts n o w) (hp : p < n) (hz : Nearest pts n p z) : 1 ≤ u := by
  by_contra hh
  push Not at hh
  have ew : w = along c z u := Prod.ext (by simp only [along]; linarith) (by simp only [along]; linarith)
  have hd := along_diff (pts p) (pts o) c z u
  rw [← ew] at hd
  have g1 : dsq (pts o) w ≤ dsq (pts p) w := hw.2 p hp
  have g2 := mul_pos (sub_pos.mpr hh) (sub_pos.mpr (hm o hw.1 hop))
  have g3 : dsq (pts p) z ≤ dsq (pts o) z := hz.2 o hw.1
  have g4 := mul_nonneg u0.le (sub_nonneg.mpr g3)
  linarith

namespace Closing

variable (B : Closing pts q ok n poly s s1 s2 vs V cell)
include B

/-- A closed chain of the sweep runs around every inner point of its cell. -/
theorem cycle_meets {p : Nat} {F : Nat → Nat} {k : Nat} (hk : 0 < k) (hc : F k = F 0) (h0 : F 0 < s.d.heCnt) (hp : (s.d.he (F 0)).incident = some p)
    (hnx : ∀ i < k, (s.d.he (F i)).next = some (F (i + 1))) {c : Pt} (hm : ∀ o < n, o ≠ p → dsq (pts p) c < dsq (pts o) c) :
    ∃ R : ℝ, ∀ z, z ≠ c → ∃ i < k, ∃ t o, Edg s.d (F i) t p o ∧ HasLength s.d (F i) ∧ ∃ w u, 0 < u ∧ w.1 - c.1 = u * (z.1 - c.1) ∧ w.2 - c.2 = u * (z.2 - c.2) ∧
      Nearest pts n p w ∧ Nearest pts n o w ∧ sqDist (pts p) w ≤ R := by
  obtain ⟨L, hI⟩ := reach_inv B.spec B.reach
  have hlt : ∀ i ≤ k, F i < s.d.heCnt ∧ (s.d.he (F i)).incident = some p := by
    intro i
    induction i with
    | zero => exact fun _ => ⟨h0, hp⟩
    | succ i ih =>
      intro hi
      obtain ⟨a1, a2⟩ := ih (by omega)
      obtain ⟨b1, _, b3, _⟩ := hI.dinv.nx _ a1 _ (hnx i (by omega))
      exact ⟨b1, by rw [b3, a2]⟩
  -- places
  have hpl : ∀ i, ∃ z, i ≤ k → ∃ v, v ∈ s.verts ∧ StartsAt s.d (F i) v ∧ (s.d.vs v).pos = some z := by
    intro i
    by_cases hi : i ≤ k
    · cases i with
      | zero =>
        obtain ⟨v, z, h1, h2, _, h4⟩ := next_place B.dist B.spec B.reach (hlt (k - 1) (by omega)).1 (hnx (k - 1) (by omega))
        rw [Nat.sub_add_cancel hk, hc] at h2
        exact ⟨z, fun _ => ⟨v, h1, h2, h4⟩⟩
      | succ i =>
        obtain ⟨v, z, h1, h2, _, h4⟩ := next_place B.dist B.spec B.reach (hlt i (by omega)).1 (hnx i (by omega))
        exact ⟨z, fun _ => ⟨v, h1, h2, h4⟩⟩
    · exact ⟨(0, 0), fun h => absurd h hi⟩
  choose P hP using hpl
  have hseg : ∀ i < k, ∃ t o, Edg s.d (F i) t p o ∧ Fwd (pts o) (pts p) (P (i + 1)) (P i) ∧ dsq (pts p) (P i) = dsq (pts o) (P i) ∧
      (∀ z, Between (P i) (P (i + 1)) z → Nearest pts n p z ∧ Nearest pts n o z) ∧ (P i ≠ P (i + 1) → HasLength s.d (F i)) := by
    intro i hi
    obtain ⟨t, a, o, hE⟩ := B.edg (hlt i hi.le).1
    have e := hE.inc
    rw [(hlt i hi.le).2, Option.some.injEq] at e
    subst e
    have het := hE.symm hI.dinv
    obtain ⟨v, v1, v2, v3⟩ := hP i hi.le
    obtain ⟨w, w1, w2, w3⟩ := hP (i + 1) hi
    obtain ⟨t2, o2, w', _, _, d1, d2⟩ := next_turn B.spec B.reach hE (hnx i hi)
    have : w' = w := Org.vtx.inj (d2.symm.trans w2)
    subst this
    obtain ⟨z1, g1, g2⟩ := C25_vertices B.dist B.spec B.reach v v1
    rw [v3, Option.some.injEq] at g1
    subst g1
    obtain ⟨z2, g1, g3⟩ := C25_vertices B.dist B.spec B.reach w' w1
    rw [w3, Option.some.injEq] at g1
    subst g1
    obtain ⟨m1, m2⟩ := start_bisector B.dist B.spec B.reach hE v2 v3
    obtain ⟨m3, m4⟩ := start_bisector B.dist B.spec B.reach het d1 w3
    have ka : EndKind pts n poly s (F i) p o (P i) := .vtx v2 v3 g2 m1 m2
    have kb : EndKind pts n poly s t o p (P (i + 1)) := .vtx d1 w3 g3 m3 m4
    have hfw := vtx_fwd B.dist B.spec B.reach B.done hE v2 v3 d1 w3
    refine ⟨t, o, hE, hfw, m1.eq m2, fun z hz => ends_nearest B.dist B.spec B.reach B.done hE ka kb hfw hz, ?_⟩
    rintro hne ⟨v', w2', z, k1, ⟨t', k2, k3⟩, k4, k5⟩
    rw [hE.tw, Option.some.injEq] at k2
    subst k2
    have e1 : v' = v := Org.vtx.inj (k1.symm.trans v2)
    have e2 : w2' = w' := Org.vtx.inj (k3.symm.trans d1)
    subst e1 e2
    rw [v3, Option.some.injEq] at k4
    rw [w3, Option.some.injEq] at k5
    exact hne (k4.trans k5.symm)
  have hPk : P k = P 0 := by
    obtain ⟨v, _, v2, v3⟩ := hP k le_rfl
    obtain ⟨w, _, w2, w3⟩ := hP 0 (Nat.zero_le _)
    rw [hc] at v2
    have : v = w := Org.vtx.inj (v2.symm.trans w2)
    subst this
    rw [v3, Option.some.injEq] at w3
    exact w3
  have hmv : ∃ i < k, P i ≠ P (i + 1) := by
    obtain ⟨i, hi, hlen⟩ := sweep_cycle B.dist B.spec B.reach hk hc h0 hnx
    refine ⟨i, hi, fun he => hlen ?_⟩
    obtain ⟨t, o, hE, _⟩ := hseg i hi
    obtain ⟨v, v1, v2, v3⟩ := hP i hi.le
    obtain ⟨w, w1, w2, w3⟩ := hP (i + 1) hi
    obtain ⟨t2, o2, w', _, _, d1, d2⟩ := next_turn B.spec B.reach hE (hnx i hi)
    have : w' = w := Org.vtx.inj (d2.symm.trans w2)
    subst this
    exact ⟨v, w', P i, v2, ⟨t, hE.tw, d1⟩, v3, by rw [w3, he]⟩
  refine ⟨∑ i ∈ Finset.range (k + 1), sqDist (pts p) (P i), fun z hzc => ?_⟩
  obtain ⟨i, hi, hcone⟩ := winding hPk (fun i hi => by
    obtain ⟨t, o, hE, h1, h2, _⟩ := hseg i hi
    exact fwd_turn h1 h2 (hm o ((hE.symm hI.dinv).site_lt hI).1 (hE.ne hI.dinv).symm)) hmv z
  obtain ⟨w, t, t0, hb, e1, e2⟩ := hcone.meets hzc
  obtain ⟨t', o, hE, h1, h2, h3, h4⟩ := hseg i hi
  obtain ⟨m1, m2⟩ := h3 w hb
  have hlen : HasLength s.d (F i) := by
    refine h4 fun he => ?_
    have := hcone.1
    rw [he] at this
    revert this; unfold rightOf; intro h; ring_nf at h; exact lt_irrefl _ h
  refine ⟨i, hi, t', o, hE, hlen, w, t, t0, e1, e2, m1, m2, (sqDist_between hb).trans (max_le ?_ ?_)⟩
  · exact Finset.single_le_sum (f := fun i => sqDist (pts p) (P i)) (fun j _ => by unfold sqDist; positivity) (Finset.mem_range.mpr (by omega))
  · exact Finset.single_le_sum (f := fun i => sqDist (pts p) (P i)) (fun j _ => by unfold sqDist; positivity) (Finset.mem_range.mpr (by omega))

/-- A cell with a closed chain in the sweep is bounded. -/
theorem cycle_bounded {p : Nat} {F : Nat → Nat} {k : Nat} (hk : 0 < k) (hc : F k = F 0) (h0 : F 0 < s.d.heCnt) (hp : (s.d.he (F 0)).incident = some p)
    (hnx : ∀ i < k, (s.d.he (F i)).next = some (F (i + 1))) : ¬ FarCell pts n p := by
  obtain ⟨L, hI⟩ := reach_inv B.spec B.reach
  have hpn : p < n := by
    obtain ⟨t, i, o, hE⟩ := B.edg h0
    have e := hE.inc
    rw [hp, Option.some.injEq] at e
    rw [e]
    exact (hE.site_lt hI).1
  have hm : ∀ o < n, o ≠ p → dsq (pts p) (pts p) < dsq (pts o) (pts p) := by
    intro o ho hop
    have := dsq_pos (fun hh : pts o = pts p => hop (B.dist o ho p hpn hh))
    have e : dsq (pts p) (pts p) = 0 := by unfold dsq; ring
    linarith
  obtain ⟨R, hR⟩ := B.cycle_meets hk hc h0 hp hnx hm
  intro hfar
  obtain ⟨z, hz, hzR⟩ := hfar (max R 0)
  have hzp : z ≠ pts p := by
    rintro rfl
    have e : sqDist (pts p) (pts p) = 0 := by unfold sqDist; ring
    have := le_max_right R 0
    linarith
  obtain ⟨i, hi, t, o, hE, _, w, u, u0, e1, e2, m1, m2, hwR⟩ := hR z hzp
  have hu := before_rim (hE.ne hI.dinv).symm hm u0 e1 e2 m2 hpn hz
  have e : sqDist (pts p) w = u ^ 2 * sqDist (pts p) z := by
    have x1 : w.1 = (pts p).1 + u * (z.1 - (pts p).1) := by linarith
    have x2 : w.2 = (pts p).2 + u * (z.2 - (pts p).2) := by linarith
    unfold sqDist; rw [x1, x2]; ring
  have h1 := le_max_left R 0
  have h2 : 0 ≤ sqDist (pts p) z := by unfold sqDist; positivity
  have h3 : 1 ≤ u ^ 2 := by nlinarith
  nlinarith

/-- A closed chain of the sweep does not disappear in clipping if its cell is shown: a half-edge on the way to a point outside the cell is kept. -/
theorem some_kept {p : Nat} (hS : Shown pts n poly p) {F : Nat → Nat} {k : Nat} (hk : 0 < k) (hc : F k = F 0) (h0 : F 0 < s.d.heCnt) (hp : (s.d.he (F 0)).incident = some p)
    (hnx : ∀ i < k, (s.d.he (F i)).next = some (F (i + 1))) : ∃ i < k, EdgesOf s.d s1.edges (F i) := by
  obtain ⟨L, hI⟩ := reach_inv B.spec B.reach
  obtain ⟨c, hm⟩ := hS.mid
  rcases hS.notAll with ⟨z, z1, z2⟩ | hfar
  rotate_left
  · exact absurd hfar (B.cycle_bounded hk hc h0 hp hnx)
  have hzc : z ≠ c := by rintro rfl; exact z2 hm.nearest
  obtain ⟨R, hR⟩ := B.cycle_meets hk hc h0 hp hnx hm.near
  obtain ⟨i, hi, t', o, hE, hlen, w, t, t0, e1, e2, m1, m2, _⟩ := hR z hzc
  refine ⟨i, hi, ?_⟩
  have ht1 : t < 1 := by
    by_contra hh
    push Not at hh
    refine z2 ⟨hm.lt, fun o0 hon => ?_⟩
    by_cases hop : o0 = p
    · rw [hop]
    have hi0 : 0 < 1 / t := by positivity
    have hi1 : 1 / t ≤ 1 := (div_le_one t0).mpr hh
    have ez : z = along w c (1 - 1 / t) := by
      have e1 : z.1 - c.1 = (w.1 - c.1) / t := by rw [e1]; field_simp
      have e2 : z.2 - c.2 = (w.2 - c.2) / t := by rw [e2]; field_simp
      refine Prod.ext ?_ ?_ <;> simp only [along]
      · linear_combination e1
      · linear_combination e2
    have hd := along_diff (pts p) (pts o0) w c (1 - 1 / t)
    rw [← ez] at hd
    have g1 : dsq (pts p) w ≤ dsq (pts o0) w := m1.2 o0 hon
    have g2 := hm.near o0 hon hop
    have g5 := mul_nonneg hi0.le (sub_nonneg.mpr g1)
    have g6 := mul_nonneg (by linarith : 0 ≤ 1 - 1 / t) (sub_nonneg.mpr g2.le)
    have : 1 - (1 - 1 / t) = 1 / t := by ring
    rw [this] at hd
    show dsq _ _ ≤ dsq _ _
    linarith
  have hw : StrictlyInside poly.points w := by
    have : w = along z c (1 - t) := Prod.ext (by simp only [along]; linarith) (by simp only [along]; linarith)
    rw [this]
    exact along_inside (fun i hi => (z1 i hi).le) hm.inside (by linarith) (by linarith)
  obtain ⟨x, y, hx, _⟩ := (B.half hE).2.2.2 w hw m1 m2 hlen
  exact (B.half hE).1.mp (by rw [hx]; rfl)

/-- A cell with an edge that is not bounded, or without edges, meets the border of the polygon. -/
theorem meets_border {p : Nat} {c : Pt} (hm : Mid pts n poly p c) (h : s.d.fe p = none ∨ ∃ y < s.d.heCnt, (s.d.he y).next = none ∧ (s.d.he y).incident = some p) :
    ∃ z, OnBoundary poly.points z ∧ Nearest pts n p z := by
  have hp := hm.lt
  have hF := B.fits.toFitsPolygon
  obtain ⟨L, hI⟩ := reach_inv B.spec B.reach
  rcases h with h | ⟨y, hy, hnx, hinc⟩
  · rcases Nat.lt_or_ge n 2 with h2 | h2
    · refine ⟨_, B.ring.on 0 B.ring.pos, hp, fun c hc => ?_⟩
      have : c = p := by omega
      rw [this]
    · exfalso
      obtain ⟨o, hop, hon, z, w, hzw, a1, a2, a3, a4⟩ := neighbour B.dist hp h2
      obtain ⟨e, he, hs, _⟩ := C64_edge_exists B.dist B.spec B.reach B.done hop.symm hzw a1 a2 a3 a4
      have := hI.dinv.feAll e he p hs.1
      rw [h] at this
      cases this
  · obtain ⟨t, i, o, hE⟩ := B.edg hy
    have e := hE.inc
    rw [hinc, Option.some.injEq] at e
    subst e
    have het := hE.symm hI.dinv
    obtain ⟨b, hb⟩ := (hI.dinv.nxn y hy t hE.tw).mp hnx
    obtain ⟨_, _, E⟩ := edge_ends hF B.dist B.spec B.reach B.done hE
    obtain ⟨x, hx, n1, _⟩ := E.out (Or.inr (by unfold opos; rw [hb]))
    obtain ⟨z, _, hz, hzb⟩ := convex_exit hF.convex hm.inside hx
    exact ⟨z, hzb, hm.nearest.between n1 hz⟩

/-- After clipping, the first edge of a cell has been kept, or it is a deleted half-edge that is its own successor. -/
theorem first_kept {p x : Nat} (hfe : s1.d.fe p = some x) : OfCell s s1 vs V cell p x ∨
    (x < s.d.heCnt ∧ (s.d.he x).incident = some p ∧ ¬ EdgesOf s.d s1.edges x ∧ (s2.d.he x).next = some x) := by
  obtain ⟨L, hI⟩ := reach_inv B.spec B.reach
  have hb := B.fp.binv
  have hl := B.lnk
  obtain ⟨h1, h2⟩ := B.clip.ok.fe p x hfe
  rw [B.heCnt] at h1
  rw [B.clip.keeps.inc] at h2
  by_cases hk : EdgesOf s.d s1.edges x
  · exact Or.inl (Or.inl ⟨hk, h2⟩)
  right
  have hX : s.d.heCnt ≤ x ∨ EdgesOf s.d s.edges x ∧ ¬ EdgesOf s.d s1.edges x := Or.inr ⟨B.all h1, hk⟩
  refine ⟨h1, h2, hk, ?_⟩
  rw [hb.nextK x (by rw [B.heCnt]; exact h1), (hl.fe p x hfe).resolve_left fun h => h hX]
  intro j hj c hc ht
  rcases B.kind hj with ⟨h, _⟩ | ⟨_, _, f, hf, hfl, _, hop⟩
  · rw [h] at hc; cases hc
  · rw [hf, Option.some.injEq] at hc
    subst hc
    obtain ⟨t, i, o, hE⟩ := B.edg hfl
    rw [B.clip.keeps.twin, hE.tw, Option.some.injEq] at ht
    subst ht
    have hkf := (B.half hE).1.mp (by rw [hop]; rfl)
    refine hk ?_
    rcases hkf with h | ⟨e, h, he⟩
    · exact Or.inr ⟨f, h, hE.tw⟩
    · obtain ⟨t', i', o', hE'⟩ := B.edg (hI.dinv.elt e (B.clip.sub.subset h))
      have := hE'.tw
      rw [he, Option.some.injEq] at this
      subst this
      have := (hE'.symm hI.dinv).tw
      rw [hE.tw, Option.some.injEq] at this
      subst this
      exact Or.inl h

/-- Every site with a shown cell has a first edge, and it belongs to its cell. -/
theorem first (hn : 0 < n) {p : Nat} (hS : Shown pts n poly p) : ∃ e, s2.d.fe p = some e ∧ OfCell s s1 vs V cell p e := by
  obtain ⟨L, hI⟩ := reach_inv B.spec B.reach
  have hb := B.fp.binv
  have hl := B.lnk
  cases hfe : s1.d.fe p with
  | some x =>
    refine ⟨x, by rw [hb.feK p (by rw [hfe]; rfl), hfe], Or.inl ?_⟩
    obtain ⟨h1, h2⟩ := B.clip.ok.fe p x hfe
    rw [B.heCnt] at h1
    rw [B.clip.keeps.inc] at h2
    refine ⟨?_, h2⟩
    by_contra hcon
    have hX : s.d.heCnt ≤ x ∨ EdgesOf s.d s.edges x ∧ ¬ EdgesOf s.d s1.edges x := Or.inr ⟨B.all h1, hcon⟩
    rcases hl.fe p x hfe with h | h
    · exact h hX
    · obtain ⟨F, k, k0, e0, ek, hnx, hXs⟩ := (hl.via x x h).path
      obtain ⟨i, hi, hkept⟩ := B.some_kept hS k0 (ek.trans e0.symm) (by rw [e0]; exact h1) (by rw [e0]; exact h2) hnx
      have hlt := B.kept_lt hkept
      have : s.d.heCnt ≤ F i ∨ EdgesOf s.d s.edges (F i) ∧ ¬ EdgesOf s.d s1.edges (F i) := by
        by_cases h0 : i = 0
        · rw [h0, e0]; exact hX
        · exact hXs i (by omega) hi
      rcases this with h | ⟨_, h⟩
      · omega
      · exact h hkept
  | none =>
    have hm : s.d.fe p = none ∨ ∃ y < s.d.heCnt, (s.d.he y).next = none ∧ (s.d.he y).incident = some p := by
      have hP : ClosedCells s.d (· < s.d.heCnt) :=
        ⟨fun x hx g hg => ⟨(hI.dinv.nx x hx g hg).1, (hI.dinv.nx x hx g hg).2.2.1⟩, fun q x hx => ⟨(hI.dinv.fe q x hx).1, (hI.dinv.fe q x hx).2⟩⟩
      rcases hl.feN p hfe with h | ⟨x, y, h1, h2, h3⟩
      · exact Or.inl h
      · obtain ⟨h4, h5⟩ := hP.fe p x h1
        rcases h2 with h2 | h2
        · rw [h2] at h3; exact Or.inr ⟨x, h4, h3, h5⟩
        · obtain ⟨h6, h7⟩ := h2.closed hP h4
          exact Or.inr ⟨y, h6, h3, h7.trans h5⟩
    obtain ⟨c, hmid⟩ := hS.mid
    obtain ⟨z, hz, hpz⟩ := B.meets_border hmid hm
    obtain ⟨j, hj, hlab, _⟩ := B.cover hn hz hpz
    obtain ⟨e, he⟩ := Option.isSome_iff_exists.mp (hb.feA j hj p hlab)
    refine ⟨e, he, ?_⟩
    rcases hb.feN p e he with h | h
    · rw [hfe] at h; cases h
    · exact Or.inr h

end Closing

end Foronoi
