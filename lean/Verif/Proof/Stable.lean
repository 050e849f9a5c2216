import Verif.Spec.Stable
import Verif.Props.Continuous

/-!
# Stable inputs stay stable
-/

namespace Foronoi

open Filter Topology

variable {pts : Nat → ℝ × ℝ} {n : Nat} {m : List (ℝ × ℝ)}

/-- What holds near each point of a compact set from some time on holds for all of them from some time on. -/
theorem compact_eventually {ι X : Type} [TopologicalSpace X] {K : Set X} (hK : IsCompact K) {l : Filter ι} {Q : ι → X → Prop}
    (h : ∀ x ∈ K, ∀ᶠ y in l ×ˢ 𝓝 x, Q y.1 y.2) : ∀ᶠ i in l, ∀ x ∈ K, Q i x := by
  refine hK.induction_on (p := fun s => ∀ᶠ i in l, ∀ x ∈ s, Q i x) (by simp) (fun s t hst ht => ht.mono fun i hi x hx => hi x (hst hx))
    (fun s t hs ht => (hs.and ht).mono fun i hi x hx => hx.elim (hi.1 x) (hi.2 x)) fun x hx => ?_
  obtain ⟨U, hU, V, hV, hUV⟩ := eventually_prod_iff.mp (h x hx)
  exact ⟨{y | V y}, mem_nhdsWithin_of_mem_nhds hV, hU.mono fun i hi y hy => hUV hi hy⟩

theorem eventually_lt_nat {ι : Type} {l : Filter ι} {N : Nat} {Q : ι → Nat → Prop} (h : ∀ i < N, ∀ᶠ k in l, Q k i) : ∀ᶠ k in l, ∀ i < N, Q k i := by
  have : ∀ᶠ k in l, ∀ i ∈ Finset.range N, Q k i := (Finset.eventually_all _).mpr fun i hi => h i (Finset.mem_range.mp hi)
  exact this.mono fun k hk i hi => hk i (Finset.mem_range.mpr hi)

variable {P : ℕ → Nat → ℝ × ℝ} {M : ℕ → List (ℝ × ℝ)}

/-- A sequence of inputs that tends to `pts`, `m`. -/
structure Tends (P : ℕ → Nat → ℝ × ℝ) (M : ℕ → List (ℝ × ℝ)) (pts : Nat → ℝ × ℝ) (n : Nat) (m : List (ℝ × ℝ)) : Prop where
  len : ∀ k, (M k).length = m.length
  sites : ∀ i < n, Tendsto (fun k => P k i) atTop (𝓝 (pts i))
  corners : ∀ i, Tendsto (fun k => corner (M k) i) atTop (𝓝 (corner m i))

namespace Tends

theorem cx (T : Tends P M pts n m) (i : Nat) : Tendsto (fun k => (corner (M k) i).1) atTop (𝓝 (corner m i).1) := (continuous_fst.tendsto _).comp (T.corners i)

theorem cy (T : Tends P M pts n m) (i : Nat) : Tendsto (fun k => (corner (M k) i).2) atTop (𝓝 (corner m i).2) := (continuous_snd.tendsto _).comp (T.corners i)

theorem sx (T : Tends P M pts n m) {i : Nat} (hi : i < n) : Tendsto (fun k => (P k i).1) atTop (𝓝 (pts i).1) := (continuous_fst.tendsto _).comp (T.sites i hi)

theorem sy (T : Tends P M pts n m) {i : Nat} (hi : i < n) : Tendsto (fun k => (P k i).2) atTop (𝓝 (pts i).2) := (continuous_snd.tendsto _).comp (T.sites i hi)

theorem dist {ι : Type} {l : Filter ι} (T : Tends P M pts n m) {f : ι → ℕ} {g : ι → ℝ × ℝ} {z : ℝ × ℝ} (hf : Tendsto f l atTop) (hg : Tendsto g l (𝓝 z)) {p : Nat} (hp : p < n) :
    Tendsto (fun i => sqDist (P (f i) p) (g i)) l (𝓝 (sqDist (pts p) z)) := by
  have h1 := (T.sx hp).comp hf
  have h2 := (T.sy hp).comp hf
  have h3 := (continuous_fst.tendsto _).comp hg
  have h4 := (continuous_snd.tendsto _).comp hg
  exact ((h1.sub h3).pow 2).add ((h2.sub h4).pow 2)

/-- If one of some sites is not nearest to `z`, this is so for the same reason later on. -/
theorem notNearest {ι : Type} {l : Filter ι} (T : Tends P M pts n m) {f : ι → ℕ} {g : ι → ℝ × ℝ} {z : ℝ × ℝ} (hf : Tendsto f l atTop) (hg : Tendsto g l (𝓝 z)) {p : Nat} (hp : p < n)
    (h : ¬ Nearest pts n p z) : ∀ᶠ i in l, ¬ Nearest (P (f i)) n p (g i) := by
  obtain ⟨o, ho, hlt⟩ : ∃ o < n, sqDist (pts o) z < sqDist (pts p) z := by
    by_contra hh
    push Not at hh
    exact h ⟨hp, hh⟩
  exact ((T.dist hf hg ho).eventually_lt (T.dist hf hg hp) hlt).mono fun i hi hh => absurd (hh.2 o ho) (not_le.mpr hi)

theorem rightOf {a b c : Nat} (T : Tends P M pts n m) : Tendsto (fun k => Foronoi.rightOf (corner (M k) a) (corner (M k) b) (corner (M k) c)) atTop
    (𝓝 (Foronoi.rightOf (corner m a) (corner m b) (corner m c))) :=
  (((T.cy b).sub (T.cy a)).mul ((T.cx c).sub (T.cx a))).sub (((T.cx b).sub (T.cx a)).mul ((T.cy c).sub (T.cy a)))

theorem notExtremes (T : Tends P M pts n m) {a b : Nat} (h : ¬ Extremes m a b) : ∀ᶠ k in atTop, ¬ Extremes (M k) a b := by
  unfold Extremes at h
  push Not at h
  obtain ⟨c, hc, h⟩ := h
  by_cases h1 : (corner m a).2 ≤ (corner m c).2
  · refine ((T.cy b).eventually_lt (T.cy c) (h h1)).mono fun k hk hh => ?_
    exact absurd (hh c (by rw [T.len k]; exact hc)).2 (not_le.mpr hk)
  · refine ((T.cy c).eventually_lt (T.cy a) (not_le.mp h1)).mono fun k hk hh => ?_
    exact absurd (hh c (by rw [T.len k]; exact hc)).1 (not_le.mpr hk)

theorem mid (T : Tends P M pts n m) (a b : Nat) : Tendsto (fun k => ((corner (M k) a).2 + (corner (M k) b).2) / 2) atTop (𝓝 (((corner m a).2 + (corner m b).2) / 2)) :=
  ((T.cy a).add (T.cy b)).div_const 2

theorem stable (T : Tends P M pts n m) (hS : Stable pts n m) : ∀ᶠ k in atTop, Stable (P k) n (M k) := by
  have hlt : ∀ {k i}, i < (M k).length → i < m.length := fun {k i} hi => by rw [← T.len k]; exact hi
  have e1 : ∀ᶠ k in atTop, ∀ p < n, ∀ r < n, p ≠ r → P k p ≠ P k r :=
    eventually_lt_nat fun p hp => eventually_lt_nat fun r hr => by
      by_cases hne : p = r
      · exact Eventually.of_forall fun k h => absurd hne h
      · exact (((T.sites p hp).sub (T.sites r hr)).eventually_ne (sub_ne_zero.mpr (hS.distinct p hp r hr hne))).mono fun k hk _ => sub_ne_zero.mp hk
  have e2 : ∀ᶠ k in atTop, ∃ t < n, ∀ o < n, o ≠ t → (P k o).2 < (P k t).2 := by
    obtain ⟨t, ht, hall⟩ := hS.top
    refine Eventually.mono (eventually_lt_nat (Q := fun k o => o ≠ t → (P k o).2 < (P k t).2) fun o ho => ?_) fun k hk => ⟨t, ht, hk⟩
    by_cases hne : o = t
    · exact Eventually.of_forall fun k h => absurd hne h
    · exact ((T.sy ho).eventually_lt (T.sy ht) (hall o ho hne)).mono fun k hk _ => hk
  have e3 : ∀ᶠ k in atTop, ∀ i < m.length, ∀ j < m.length, ∀ l < m.length, i < j → j < l → 0 < Foronoi.rightOf (corner (M k) i) (corner (M k) j) (corner (M k) l) :=
    eventually_lt_nat fun i hi => eventually_lt_nat fun j hj => eventually_lt_nat fun l hl => by
      by_cases h : i < j ∧ j < l
      · exact (T.rightOf.eventually (lt_mem_nhds (hS.convex.2 i j l h.1 h.2 hl))).mono fun k hk _ _ => hk
      · exact Eventually.of_forall fun k h1 h2 => absurd ⟨h1, h2⟩ h
  have e4 : ∀ᶠ k in atTop, ∀ i < m.length, ¬ BoxDiagonal (M k) (corner (M k) i) (corner (M k) (i + 1)) := by
    refine eventually_lt_nat fun i hi => ?_
    have h := hS.diagonal i hi
    have hpos : 0 < m.length := by omega
    have mem : ∀ {k c}, c < m.length → corner (M k) c ∈ M k := fun {k c} hc => by
      unfold corner
      rw [getD_elem _ (Nat.mod_lt _ (by rw [T.len k]; exact hpos))]
      exact List.getElem_mem _
    have ex : ∃ c < m.length, (corner m c).1 < min (corner m i).1 (corner m (i + 1)).1 ∨ max (corner m i).1 (corner m (i + 1)).1 < (corner m c).1 ∨
        (corner m c).2 < min (corner m i).2 (corner m (i + 1)).2 ∨ max (corner m i).2 (corner m (i + 1)).2 < (corner m c).2 := by
      by_contra hh
      push Not at hh
      refine h ⟨fun p hp => ?_, fun p hp => ?_⟩
      all_goals
        obtain ⟨c, hc, rfl⟩ := List.getElem_of_mem hp
        have e : corner m c = m[c] := by unfold corner; rw [Nat.mod_eq_of_lt hc, getD_elem _ hc]
        have := hh c hc
        rw [e] at this
      · exact ⟨this.1, this.2.1⟩
      · exact ⟨this.2.2.1, this.2.2.2⟩
    obtain ⟨c, hc, h1 | h1 | h1 | h1⟩ := ex
    · exact ((T.cx c).eventually_lt ((T.cx i).min (T.cx (i + 1))) h1).mono fun k hk hh => absurd (hh.1 _ (mem hc)).1 (not_le.mpr hk)
    · exact (((T.cx i).max (T.cx (i + 1))).eventually_lt (T.cx c) h1).mono fun k hk hh => absurd (hh.1 _ (mem hc)).2 (not_le.mpr hk)
    · exact ((T.cy c).eventually_lt ((T.cy i).min (T.cy (i + 1))) h1).mono fun k hk hh => absurd (hh.2 _ (mem hc)).1 (not_le.mpr hk)
    · exact (((T.cy i).max (T.cy (i + 1))).eventually_lt (T.cy c) h1).mono fun k hk hh => absurd (hh.2 _ (mem hc)).2 (not_le.mpr hk)
  have e5 : ∀ᶠ k in atTop, AllMeet (P k) n (M k) := by
    refine eventually_lt_nat fun p hp => ?_
    obtain ⟨c, c1, c2⟩ := hS.meets p hp
    have g1 : ∀ᶠ k in atTop, ∀ i < m.length, 0 < Foronoi.rightOf (corner (M k) i) (corner (M k) (i + 1)) c := eventually_lt_nat fun i hi =>
      ((((T.cy (i + 1)).sub (T.cy i)).mul (tendsto_const_nhds.sub (T.cx i))).sub (((T.cx (i + 1)).sub (T.cx i)).mul (tendsto_const_nhds.sub (T.cy i)))).eventually
        (lt_mem_nhds (c1 i hi))
    have g2 : ∀ᶠ k in atTop, ∀ o < n, o ≠ p → sqDist (P k p) c < sqDist (P k o) c := eventually_lt_nat fun o ho => by
      by_cases hne : o = p
      · exact Eventually.of_forall fun k h => absurd hne h
      · exact ((T.dist tendsto_id tendsto_const_nhds hp).eventually_lt (T.dist tendsto_id tendsto_const_nhds ho) (c2 o ho hne)).mono fun k hk _ => hk
    filter_upwards [g1, g2] with k k1 k2
    exact ⟨c, fun i hi => k1 i (hlt hi), k2⟩
  have e6 : ∀ᶠ k in atTop, ∀ i < m.length, ∀ p < n, ∀ r < n, ∀ o < n, p ≠ r → r ≠ o → p ≠ o →
      ∀ z, Between (corner (M k) i) (corner (M k) (i + 1)) z → ¬ (Nearest (P k) n p z ∧ Nearest (P k) n r z ∧ Nearest (P k) n o z) :=
    eventually_lt_nat fun i hi => eventually_lt_nat fun p hp => eventually_lt_nat fun r hr => eventually_lt_nat fun o ho => by
      by_cases hne : p ≠ r ∧ r ≠ o ∧ p ≠ o
      case neg => exact Eventually.of_forall fun k h1 h2 h3 => absurd ⟨h1, h2, h3⟩ hne
      have key := compact_eventually (l := atTop) (isCompact_Icc (a := (0 : ℝ)) (b := 1))
        (Q := fun k t => ¬ (Nearest (P k) n p (along (corner (M k) i) (corner (M k) (i + 1)) t) ∧ Nearest (P k) n r (along (corner (M k) i) (corner (M k) (i + 1)) t) ∧
          Nearest (P k) n o (along (corner (M k) i) (corner (M k) (i + 1)) t))) fun t ht => by
        have hz := hS.border i hi p hp r hr o ho hne.1 hne.2.1 hne.2.2 (along (corner m i) (corner m (i + 1)) t) (along_between ht.1 ht.2)
        have hg : Tendsto (fun y : ℕ × ℝ => along (corner (M y.1) i) (corner (M y.1) (i + 1)) y.2) (atTop ×ˢ 𝓝 t) (𝓝 (along (corner m i) (corner m (i + 1)) t)) := by
          have t1 : Tendsto (fun y : ℕ × ℝ => y.2) (atTop ×ˢ 𝓝 t) (𝓝 t) := tendsto_snd
          have a1 := (T.cx i).comp (tendsto_fst (f := atTop) (g := 𝓝 t))
          have a2 := (T.cy i).comp (tendsto_fst (f := atTop) (g := 𝓝 t))
          have a3 := (T.cx (i + 1)).comp (tendsto_fst (f := atTop) (g := 𝓝 t))
          have a4 := (T.cy (i + 1)).comp (tendsto_fst (f := atTop) (g := 𝓝 t))
          exact (((tendsto_const_nhds.sub t1).mul a1).add (t1.mul a3)).prodMk_nhds (((tendsto_const_nhds.sub t1).mul a2).add (t1.mul a4))
        by_cases n1 : Nearest pts n p (along (corner m i) (corner m (i + 1)) t)
        · by_cases n2 : Nearest pts n r (along (corner m i) (corner m (i + 1)) t)
          · exact (T.notNearest tendsto_fst hg ho fun n3 => hz ⟨n1, n2, n3⟩).mono fun y hy hh => hy hh.2.2
          · exact (T.notNearest tendsto_fst hg hr n2).mono fun y hy hh => hy hh.2.1
        · exact (T.notNearest tendsto_fst hg hp n1).mono fun y hy hh => hy hh.1
      refine key.mono fun k hk _ _ _ z hz => ?_
      obtain ⟨t, t0, t1, rfl⟩ := hz
      exact hk t ⟨t0, t1⟩
  have e7 : ∀ᶠ k in atTop, ∀ a < m.length, ∀ b < m.length, ∀ i < m.length, Extremes (M k) a b → (corner (M k) i).2 ≤ ((corner (M k) a).2 + (corner (M k) b).2) / 2 →
      ((corner (M k) a).2 + (corner (M k) b).2) / 2 ≤ (corner (M k) (i + 1)).2 → ∀ p < n, ∀ r < n, p ≠ r →
      ¬ (Nearest (P k) n p (corner (M k) (i + 1)) ∧ Nearest (P k) n r (corner (M k) (i + 1))) :=
    eventually_lt_nat fun a ha => eventually_lt_nat fun b hb => eventually_lt_nat fun i hi => by
      by_cases h1 : Extremes m a b
      case neg => exact (T.notExtremes h1).mono fun k hk hh => absurd hh hk
      by_cases h2 : (corner m i).2 ≤ ((corner m a).2 + (corner m b).2) / 2
      case neg => exact ((T.mid a b).eventually_lt (T.cy i) (not_le.mp h2)).mono fun k hk _ hh => absurd hh (not_le.mpr hk)
      by_cases h3 : ((corner m a).2 + (corner m b).2) / 2 ≤ (corner m (i + 1)).2
      case neg => exact ((T.cy (i + 1)).eventually_lt (T.mid a b) (not_le.mp h3)).mono fun k hk _ _ hh => absurd hh (not_le.mpr hk)
      have key : ∀ᶠ k in atTop, ∀ p < n, ∀ r < n, p ≠ r → ¬ (Nearest (P k) n p (corner (M k) (i + 1)) ∧ Nearest (P k) n r (corner (M k) (i + 1))) :=
        eventually_lt_nat fun p hp => eventually_lt_nat fun r hr => by
          by_cases hne : p = r
          · exact Eventually.of_forall fun k h => absurd hne h
          by_cases n1 : Nearest pts n p (corner m (i + 1))
          · exact (T.notNearest tendsto_id (T.corners (i + 1)) hr fun n2 => hS.first a ha b hb i hi h1 h2 h3 p hp r hr hne ⟨n1, n2⟩).mono fun k hk _ hh => hk hh.2
          · exact (T.notNearest tendsto_id (T.corners (i + 1)) hp n1).mono fun k hk _ hh => hk hh.1
      exact key.mono fun k hk _ _ _ => hk
  have e8 : ∀ᶠ k in atTop, ∀ a < m.length, ∀ b < m.length, Extremes (M k) a b → (corner (M k) b).2 ≠ 0 ∧ ∀ p < n, (corner (M k) a).2 - |(corner (M k) b).2| < (P k p).2 ∧
      ∀ c < m.length, sqDist (P k p) (corner (M k) c) < ((corner (M k) c).2 - ((corner (M k) a).2 - |(corner (M k) b).2|)) ^ 2 :=
    eventually_lt_nat fun a ha => eventually_lt_nat fun b hb => by
      by_cases h1 : Extremes m a b
      case neg => exact (T.notExtremes h1).mono fun k hk hh => absurd hh hk
      obtain ⟨g1, g2⟩ := hS.low a ha b hb h1
      have hk := (T.cy a).sub (T.cy b).abs
      have f1 := (T.cy b).eventually_ne g1
      have f2 : ∀ᶠ k in atTop, ∀ p < n, (corner (M k) a).2 - |(corner (M k) b).2| < (P k p).2 ∧
          ∀ c < m.length, sqDist (P k p) (corner (M k) c) < ((corner (M k) c).2 - ((corner (M k) a).2 - |(corner (M k) b).2|)) ^ 2 :=
        eventually_lt_nat fun p hp => (hk.eventually_lt (T.sy hp) (g2 p hp).1).and (eventually_lt_nat fun c hc =>
          (T.dist tendsto_id (T.corners c) hp).eventually_lt (((T.cy c).sub hk).pow 2) ((g2 p hp).2 c hc))
      filter_upwards [f1, f2] with k k1 k2 _
      exact ⟨k1, k2⟩
  filter_upwards [e1, e2, e3, e4, e5, e6, e7, e8] with k k1 k2 k3 k4 k5 k6 k7 k8
  have hk := T.len k
  refine ⟨k1, k2, ⟨by rw [hk]; exact hS.convex.1, fun i j l hij hjl hl => k3 i (by omega) j (by omega) l (by omega) hij hjl⟩, ?_, k5, ?_, ?_, ?_⟩
  · rw [hk]; exact k4
  · rw [hk]; exact k6
  · rw [hk]; exact k7
  · rw [hk]; exact k8

end Tends

end Foronoi
