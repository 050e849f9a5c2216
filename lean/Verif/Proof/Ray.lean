import Verif.Proof.Convex

/-!
# Cutting a ray with the sides of a polygon, with exact arithmetic
-/

namespace Foronoi

open Real

theorem mag_real (v : Pt) : magnitude v = √ (v.1 * v.1 + v.2 * v.2) := by
  simp only [magnitude, rFsqrt, rFadd, rFmul]

theorem mag_zero {v : Pt} : magnitude v = 0 ↔ v = (0, 0) := by
  rw [mag_real, sqrt_eq_zero (add_nonneg (mul_self_nonneg _) (mul_self_nonneg _))]
  constructor
  · intro h
    have h1 : v.1 = 0 := by nlinarith [mul_self_nonneg v.1, mul_self_nonneg v.2]
    have h2 : v.2 = 0 := by nlinarith [mul_self_nonneg v.1, mul_self_nonneg v.2]
    exact Prod.ext h1 h2
  · rintro rfl; simp

/-- `line_ray_intersection_point`, exactly. -/
theorem lineRay_real (o e p q z : Pt) : lineRay o e p q = some z ↔ ¬ Parallel o e p q ∧ OnRay o e z ∧ Between p q z := by
  have h0 : (lit 0 : ℝ) = 0 := by simp [lit, rI]
  have h1 : (lit 1 : ℝ) = 1 := by simp [lit, rI]
  unfold lineRay
  simp only [rToF, rFsub, rFadd, rFmul, rFdiv, norm, fdot, fcross, h0, h1]
  by_cases hm : magnitude (e.1 - o.1, e.2 - o.2) = 0
  · -- the ray has no direction
    have hv := mag_zero.mp hm
    have e1 : e.1 - o.1 = 0 := congrArg Prod.fst hv
    have e2 : e.2 - o.2 = 0 := congrArg Prod.snd hv
    rw [if_pos hm, if_pos (by rw [e1, e2]; ring)]
    constructor
    · intro h; cases h
    · rintro ⟨h, _⟩
      exact (h (by unfold Parallel; rw [e1, e2]; ring)).elim
  · rw [if_neg hm]
    have hM : 0 < magnitude (e.1 - o.1, e.2 - o.2) := lt_of_le_of_ne (by rw [mag_real]; positivity) (Ne.symm hm)
    generalize magnitude (e.1 - o.1, e.2 - o.2) = M at hm hM
    simp only
    by_cases hpar : Parallel o e p q
    · rw [if_pos]
      · constructor
        · intro h; cases h
        · rintro ⟨h, _⟩; exact (h hpar).elim
      · unfold Parallel at hpar
        field_simp
        linarith
    · have hd : (q.1 - p.1) * (0 - (e.2 - o.2) / M) + (q.2 - p.2) * ((e.1 - o.1) / M) ≠ 0 := by
        intro h
        apply hpar
        unfold Parallel
        field_simp at h
        linarith
      rw [if_neg hd]
      set D := (q.2 - p.2) * (e.1 - o.1) - (q.1 - p.1) * (e.2 - o.2) with hD
      have hDd : (q.1 - p.1) * (0 - (e.2 - o.2) / M) + (q.2 - p.2) * ((e.1 - o.1) / M) = D / M := by rw [hD]; field_simp; ring
      have hD0 : D ≠ 0 := by
        intro h; rw [hDd, h, zero_div] at hd; exact hd rfl
      rw [hDd]
      set t := ((q.1 - p.1) * (o.2 - p.2) - (q.2 - p.2) * (o.1 - p.1)) / D with ht
      set u := ((o.1 - p.1) * (-(e.2 - o.2)) + (o.2 - p.2) * (e.1 - o.1)) / D with hu
      have et : ((q.1 - p.1) * (o.2 - p.2) - (q.2 - p.2) * (o.1 - p.1)) / (D / M) = t * M := by rw [ht]; field_simp
      have eu : ((o.1 - p.1) * (0 - (e.2 - o.2) / M) + (o.2 - p.2) * ((e.1 - o.1) / M)) / (D / M) = u := by rw [hu]; field_simp; ring
      rw [et, eu]
      have hcoinc : ∀ t' u' : ℝ, o.1 + t' * (e.1 - o.1) = (1 - u') * p.1 + u' * q.1 → o.2 + t' * (e.2 - o.2) = (1 - u') * p.2 + u' * q.2 →
          t' = t ∧ u' = u := by
        intro t' u' g1 g2
        constructor
        · rw [ht, eq_div_iff hD0, hD]; linear_combination (q.2 - p.2) * g1 - (q.1 - p.1) * g2
        · rw [hu, eq_div_iff hD0, hD]; linear_combination (e.2 - o.2) * g1 - (e.1 - o.1) * g2
      have hz1 : o.1 + t * (e.1 - o.1) = (1 - u) * p.1 + u * q.1 := by rw [ht, hu]; field_simp; rw [hD]; ring
      have hz2 : o.2 + t * (e.2 - o.2) = (1 - u) * p.2 + u * q.2 := by rw [ht, hu]; field_simp; rw [hD]; ring
      have ez1 : o.1 + t * M * ((e.1 - o.1) / M) = o.1 + t * (e.1 - o.1) := by field_simp
      have ez2 : o.2 + t * M * ((e.2 - o.2) / M) = o.2 + t * (e.2 - o.2) := by field_simp
      rw [ez1, ez2]
      constructor
      · intro h
        split at h
        · rename_i hc
          obtain rfl := Option.some.inj h
          refine ⟨hpar, ⟨t, ?_, rfl⟩, ⟨u, hc.2.1, hc.2.2, by rw [hz1, hz2]⟩⟩
          exact pos_of_mul_pos_left hc.1 hM.le
        · cases h
      · rintro ⟨_, ⟨t', h1, hz⟩, ⟨u', h2, h3, hz'⟩⟩
        rw [hz] at hz'
        obtain ⟨rfl, rfl⟩ := hcoinc t' u' (congrArg Prod.fst hz') (congrArg Prod.snd hz')
        rw [if_pos ⟨mul_pos h1 hM, h2, h3⟩, hz]

/-- The arguments of `_get_intersection_point` as coordinates. -/
abbrev fin2 (p : Pt) : Option (ℝ × Ext ℝ) := some (p.1, .fin p.2)

theorem algIntersection_real (o e p q : Pt) : algIntersection (fin2 o) (fin2 e) p q = lineRay o e p q := by
  simp only [algIntersection, fin2]
  cases h : lineRay (o.1, o.2) (e.1, e.2) p q with
  | none => rfl
  | some z => rfl

theorem mem_borderHits (o e z : Pt) : ∀ L : List Pt, z ∈ borderHits (fin2 o) (fin2 e) L ↔
    ∃ i, i + 1 < L.length ∧ lineRay o e (L.getD i (0, 0)) (L.getD (i + 1) (0, 0)) = some z
  | [] => by simp [borderHits]
  | [_] => by simp [borderHits]
  | p :: q :: rest => by
    have ih := mem_borderHits o e z (q :: rest)
    have key : (∃ i, i + 1 < (p :: q :: rest).length ∧ lineRay o e ((p :: q :: rest).getD i (0, 0)) ((p :: q :: rest).getD (i + 1) (0, 0)) = some z) ↔
        (lineRay o e p q = some z ∨ z ∈ borderHits (fin2 o) (fin2 e) (q :: rest)) := by
      rw [ih]
      constructor
      · rintro ⟨i, hi, h⟩
        cases i with
        | zero => exact Or.inl h
        | succ i => exact Or.inr ⟨i, by simpa using hi, h⟩
      · rintro (h | ⟨i, hi, h⟩)
        · exact ⟨0, by simp, h⟩
        · exact ⟨i + 1, by simpa using hi, h⟩
    rw [key, borderHits, algIntersection_real]
    cases h : lineRay o e p q with
    | none => simp
    | some w => simp [eq_comm]

/-- The crossings of the ray with the sides that are not parallel to it. -/
def CrossesAt (l : List Pt) (o e z : Pt) : Prop :=
  ∃ i, ¬ Parallel o e (corner l i) (corner l (i + 1)) ∧ OnRay o e z ∧ OnSide l i z

theorem mem_hits (l : List Pt) (o e z : Pt) : z ∈ borderHits (fin2 o) (fin2 e) (l ++ l.take 1) ↔ CrossesAt l o e z := by
  rw [mem_borderHits]
  unfold CrossesAt OnSide
  by_cases hl : l = []
  · subst hl; simp
  · have hpos := List.length_pos_iff.mpr hl
    have h1 : (l ++ l.take 1).length = l.length + 1 := by simp; omega
    rw [h1]
    constructor
    · rintro ⟨i, hi, h⟩
      rw [getD_closed l (by omega) hl, getD_closed l (by omega) hl, lineRay_real] at h
      exact ⟨i, h.1, h.2.1, by omega, h.2.2⟩
    · rintro ⟨i, h2, h3, hi, h4⟩
      refine ⟨i, by omega, ?_⟩
      rw [getD_closed l (by omega) hl, getD_closed l (by omega) hl, lineRay_real]
      exact ⟨h2, h3, h4⟩

theorem distance_real (p q : Pt) : distance p q = some (√ (dsq p q)) := by
  have e : Arith.add (Arith.sq (Arith.sub q.1 p.1)) (Arith.sq (Arith.sub q.2 p.2)) = dsq p q := by
    simp only [rAdd, rSq, rSub, dsq]; ring
  unfold distance
  rw [e, rSqrt _ (by unfold dsq; positivity)]

theorem mapM_distance (o : Pt) : ∀ hits : List Pt, hits.mapM (fun p => distance o p) = some (hits.map fun p => √ (dsq o p))
  | [] => by simp
  | a :: l => by
    rw [List.mapM_cons, mapM_distance o l, distance_real]
    rfl

/-- The position returned by `argmax`. -/
theorem argmax_go_spec : ∀ (l : List ℝ) (i : Nat) (m : ℝ) (best : Nat), (argmax.go l i m best = best ∧ ∀ b ∈ l, b ≤ m) ∨
    (∃ k v, l[k]? = some v ∧ argmax.go l i m best = i + k ∧ m < v ∧ ∀ b ∈ l, b ≤ v)
  | [], i, m, best => Or.inl ⟨rfl, by simp⟩
  | b :: l, i, m, best => by
    rw [argmax.go]
    by_cases h : m < b
    · rw [if_pos h]
      rcases argmax_go_spec l (i + 1) b i with ⟨h1, h2⟩ | ⟨k, v, h1, h2, h3, h4⟩
      · exact Or.inr ⟨0, b, rfl, by rw [h1]; rfl, h, by
          intro c hc; rcases List.mem_cons.mp hc with rfl | hc
          · exact le_rfl
          · exact h2 c hc⟩
      · exact Or.inr ⟨k + 1, v, h1, by rw [h2]; omega, h.trans h3, by
          intro c hc; rcases List.mem_cons.mp hc with rfl | hc
          · exact h3.le
          · exact h4 c hc⟩
    · rw [if_neg h]
      rcases argmax_go_spec l (i + 1) m best with ⟨h1, h2⟩ | ⟨k, v, h1, h2, h3, h4⟩
      · exact Or.inl ⟨h1, by
          intro c hc; rcases List.mem_cons.mp hc with rfl | hc
          · exact not_lt.mp h
          · exact h2 c hc⟩
      · exact Or.inr ⟨k + 1, v, h1, by rw [h2]; omega, h3, by
          intro c hc; rcases List.mem_cons.mp hc with rfl | hc
          · exact (not_lt.mp h).trans h3.le
          · exact h4 c hc⟩

theorem argmax_spec {l : List ℝ} {k : Nat} (h : argmax l = some k) : ∃ v, l[k]? = some v ∧ ∀ b ∈ l, b ≤ v := by
  cases l with
  | nil => cases h
  | cons a l =>
    rw [argmax] at h
    obtain rfl := Option.some.inj h
    rcases argmax_go_spec l 1 a 0 with ⟨h1, h2⟩ | ⟨k, v, h1, h2, h3, h4⟩
    · rw [h1]
      refine ⟨a, rfl, ?_⟩
      intro c hc; rcases List.mem_cons.mp hc with rfl | hc
      · exact le_rfl
      · exact h2 c hc
    · rw [h2]
      refine ⟨v, by rw [Nat.add_comm]; exact h1, ?_⟩
      intro c hc; rcases List.mem_cons.mp hc with rfl | hc
      · exact h3.le
      · exact h4 c hc

theorem argmax_none {l : List ℝ} (h : argmax l = none) : l = [] := by
  cases l with
  | nil => rfl
  | cons a l => simp [argmax] at h

/-- `_get_intersection_point` on finite coordinates raises nothing. -/
theorem intersectionPoint_real (l : List Pt) (o e : Pt) : ∃ r, intersectionPoint l (fin2 o) (fin2 e) = some r ∧
    (∀ z, r = some z → CrossesAt l o e z) ∧
    (∀ z, r = some z → (∀ w, CrossesAt l o e w → dsq o w ≤ dsq o e) → ∀ w, CrossesAt l o e w → dsq o w ≤ dsq o z) ∧
    (r = none ↔ ∀ w, CrossesAt l o e w → dsq o e < dsq o w) := by
  have hlen : ∀ {x y : Pt}, √ (dsq o x) ≤ √ (dsq o y) ↔ dsq o x ≤ dsq o y := by
    intro x y; exact sqrt_le_sqrt_iff (by unfold dsq; positivity)
  unfold intersectionPoint
  cases hh : borderHits (fin2 o) (fin2 e) (l ++ l.take 1) with
  | nil =>
    have hno : ∀ w, ¬ CrossesAt l o e w := by
      intro w hw
      have := (mem_hits l o e w).mpr hw
      rw [hh] at this
      cases this
    exact ⟨none, rfl, by simp, by simp, by simp only [true_iff]; exact fun w hw => (hno w hw).elim⟩
  | cons a H =>
    have hmem : ∀ w, w ∈ a :: H ↔ CrossesAt l o e w := by intro w; rw [← hh]; exact mem_hits l o e w
    simp only [fin2]
    rw [distance_real, mapM_distance]
    simp only [Option.bind_eq_bind, Option.bind_some]
    have eo : ((o.1, o.2) : Pt) = o := rfl
    have ee : ((e.1, e.2) : Pt) = e := rfl
    rw [eo, ee]
    cases ha : argmax (((a :: H).map fun p => √ (dsq o p)).filter fun d => decide (d ≤ √ (dsq o e))) with
    | none =>
      refine ⟨none, rfl, by simp, by simp, ?_⟩
      simp only [true_iff]
      intro w hw
      have h0 := argmax_none ha
      rw [List.filter_eq_nil_iff] at h0
      have := h0 _ (List.mem_map.mpr ⟨w, (hmem w).mpr hw, rfl⟩)
      rw [decide_eq_true_iff, hlen] at this
      exact not_le.mp this
    | some k =>
      obtain ⟨v, hv, hmax⟩ := argmax_spec ha
      have hkl : k < (a :: H).length := by
        have h1 := (List.getElem?_eq_some_iff.mp hv).1
        have h2 := List.length_filter_le (fun d => decide (d ≤ √ (dsq o e))) ((a :: H).map fun p => √ (dsq o p))
        rw [List.length_map] at h2
        omega
      refine ⟨(a :: H)[k]?, rfl, ?_, ?_, ?_⟩
      · intro z hz
        exact (hmem z).mp (List.mem_of_getElem? hz)
      · intro z hz hall w hw
        have hf : ((a :: H).map fun p => √ (dsq o p)).filter (fun d => decide (d ≤ √ (dsq o e))) = (a :: H).map fun p => √ (dsq o p) := by
          rw [List.filter_eq_self]
          intro d hd
          obtain ⟨x, hx, rfl⟩ := List.mem_map.mp hd
          rw [decide_eq_true_iff, hlen]
          exact hall x ((hmem x).mp hx)
        rw [hf] at hv hmax
        have h1 := hmax _ (List.mem_map.mpr ⟨w, (hmem w).mpr hw, rfl⟩)
        rw [List.getElem?_map, hz] at hv
        obtain rfl := Option.some.inj hv
        exact hlen.mp h1
      · constructor
        · intro h
          rw [List.getElem?_eq_none_iff] at h
          omega
        · intro h
          exfalso
          have h1 := List.mem_filter.mp (List.mem_of_getElem? hv)
          obtain ⟨x, hx, rfl⟩ := List.mem_map.mp h1.1
          have h2 := h1.2
          rw [decide_eq_true_iff, hlen] at h2
          exact absurd (h x ((hmem x).mp hx)) (not_lt.mpr h2)

end Foronoi
