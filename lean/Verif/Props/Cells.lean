import Verif.Proof.CellDone

/-!
# C71: `Site.borders` walks around the Voronoi cell
-/

namespace Foronoi

open scoped List

variable {pts : Nat → ℝ × ℝ} {q : PQ (QE ℝ)} {ok : List (QE ℝ) → Prop} {n fuel : Nat} {rz : Bool} {poly : Poly ℝ} {s s1 s2 s' : St ℝ} {vs : List Nat} {V : Nat → Nat} {cell : Nat}

theorem create_finish (hF : FitsCorners pts n poly) (hd : Distinct pts n) (hq : q.Spec evLt ok) (hn : 0 < n)
    (h : createDiagram pts q n fuel poly rz (initSt poly) = .ok ((), s')) : ∃ s s1 s2 vs V cell, Finish pts q ok n poly rz s s1 s2 s' vs V cell := by
  obtain ⟨s, s1, s2, vs, V, cell, B, _, hed, hcu⟩ := create_closing hF hd hq hn h
  exact ⟨s, s1, s2, vs, V, cell, B, hn, hed, hcu⟩

theorem walk_mod {d : Dcel ℝ} {e k : Nat} (hke : (nxt d)^[k] e = e) : ∀ i < k, (nxt d)^[i + 1] e = (nxt d)^[(i + 1) % k] e := by
  intro i hi
  rcases Nat.lt_or_ge (i + 1) k with h1 | h1
  · rw [Nat.mod_eq_of_lt h1]
  · have : i + 1 = k := by omega
    rw [this, Nat.mod_self, hke]; rfl

namespace Finish

variable (F : Finish pts q ok n poly rz s s1 s2 s' vs V cell)
include F

theorem live_lt {p f : Nat} (hf : LiveIn s s1 s2 s' vs V cell p f) : f < s'.d.heCnt := by
  have h1 := F.B.cell_lt hf.1
  have h2 : s'.d.heCnt = s2.d.heCnt := by
    have hcu := F.cu
    cases rz with
    | false => simp only [Bool.false_eq_true, if_false] at hcu; rw [hcu]
    | true => simp only [if_true] at hcu; exact hcu.same.heCnt
  omega

/-- Both ends of a half-edge of the result. -/
theorem ends {p f : Nat} (hf : LiveIn s s1 s2 s' vs V cell p f) : OriginAt s'.d f (startAt s2.d f) ∧ TargetAt s'.d f (startAt s2.d (nxt s2.d f)) := by
  obtain ⟨_, _, _, t, h1, h2⟩ := F.B.step F.hn hf.1
  refine ⟨originAt_iff.mpr (by rw [F.op, (F.B.piece F.hn hf.1).1]), (targetAt_iff (by rw [F.twin, h1])).mpr (by rw [F.op, h2])⟩

theorem ends_eq {p f : Nat} (hf : LiveIn s s1 s2 s' vs V cell p f) {a b : Pt} (ha : OriginAt s'.d f a) (hb : TargetAt s'.d f b) :
    a = startAt s2.d f ∧ b = startAt s2.d (nxt s2.d f) := by
  obtain ⟨_, _, _, t, h1, h2⟩ := F.B.step F.hn hf.1
  rw [originAt_iff, F.op, (F.B.piece F.hn hf.1).1, Option.some.injEq] at ha
  rw [targetAt_iff (by rw [F.twin, h1]), F.op, h2, Option.some.injEq] at hb
  exact ⟨ha.symm, hb.symm⟩

/-- The walk around a cell from one of its edges. -/
theorem walk_from {p e : Nat} {c : Pt} (hm : Mid pts n poly p c) (hl : LiveIn s s1 s2 s' vs V cell p e) : ∃ k, 0 < k ∧ (nxt s'.d)^[k] e = e ∧ k ≤ s'.d.heCnt ∧
    (∀ i < k, ∀ j < k, (nxt s'.d)^[i] e = (nxt s'.d)^[j] e → i = j) ∧ ∀ f, LiveIn s s1 s2 s' vs V cell p f → ∃ i < k, (nxt s'.d)^[i] e = f := by
  classical
  obtain ⟨k', k0', hk'⟩ := F.period hm hl
  have hper : e ∈ Function.periodicPts (nxt s'.d) := ⟨k', k0', hk'⟩
  obtain ⟨k, hk⟩ : ∃ k, k = Function.minimalPeriod (nxt s'.d) e := ⟨_, rfl⟩
  have k0 : 0 < k := by rw [hk]; exact Function.minimalPeriod_pos_of_mem_periodicPts hper
  have hke : (nxt s'.d)^[k] e = e := by rw [hk]; exact Function.iterate_minimalPeriod
  have hinj : ∀ i < k, ∀ j < k, (nxt s'.d)^[i] e = (nxt s'.d)^[j] e → i = j := by
    intro i hi j hj hij
    rw [hk] at hi hj
    exact (Function.iterate_eq_iterate_iff_of_lt_minimalPeriod hi hj).mp hij
  refine ⟨k, k0, hke, ?_, hinj, ?_⟩
  · have : ((Finset.range k).image fun i => (nxt s'.d)^[i] e).card = k := by
      rw [Finset.card_image_of_injOn, Finset.card_range]
      intro i hi j hj hij
      exact hinj i (Finset.mem_range.mp hi) j (Finset.mem_range.mp hj) hij
    have h2 : ((Finset.range k).image fun i => (nxt s'.d)^[i] e) ⊆ Finset.range s'.d.heCnt := by
      intro x hx
      obtain ⟨i, _, rfl⟩ := Finset.mem_image.mp hx
      exact Finset.mem_range.mpr (F.live_lt (F.iter hl i))
    have h3 := Finset.card_le_card h2
    rw [this, Finset.card_range] at h3
    exact h3
  · intro f hf
    obtain ⟨i, hi⟩ := F.one_chain hm hf hl
    refine ⟨i % k, Nat.mod_lt _ k0, ?_⟩
    rw [← hi, hk]
    exact Function.iterate_mod_minimalPeriod_eq

/-- The walk around a cell. -/
theorem walk {p : Nat} (hS : Shown pts n poly p) : ∃ e k, s'.d.fe p = some e ∧ LiveIn s s1 s2 s' vs V cell p e ∧ 0 < k ∧ (nxt s'.d)^[k] e = e ∧ k ≤ s'.d.heCnt ∧
    (∀ i < k, ∀ j < k, (nxt s'.d)^[i] e = (nxt s'.d)^[j] e → i = j) ∧ ∀ f, LiveIn s s1 s2 s' vs V cell p f → ∃ i < k, (nxt s'.d)^[i] e = f := by
  obtain ⟨c, hm⟩ := hS.mid
  obtain ⟨e, he, hl⟩ := F.first hS
  obtain ⟨k, h⟩ := F.walk_from hm hl
  exact ⟨e, k, he, hl, h⟩

theorem walk_next {p e : Nat} (hl : LiveIn s s1 s2 s' vs V cell p e) (i : Nat) : (s'.d.he ((nxt s'.d)^[i] e)).next = some ((nxt s'.d)^[i + 1] e) := by
  rw [Function.iterate_succ_apply']
  exact (F.step (F.iter hl i)).choose_spec.2.1

/-- `borders` is that walk. -/
theorem walk_borders {p e k fuel' : Nat} (he : s'.d.fe p = some e) (hl : LiveIn s s1 s2 s' vs V cell p e) (k0 : 0 < k) (hke : (nxt s'.d)^[k] e = e)
    (hkc : k ≤ fuel') (hinj : ∀ i < k, ∀ j < k, (nxt s'.d)^[i] e = (nxt s'.d)^[j] e → i = j) :
    borders fuel' p s'.d = .ok ((List.range k).map fun i => (nxt s'.d)^[i] e, s'.d) := by
  have hnx := F.walk_next hl
  have hmod := walk_mod hke
  have hloop := bordersLoop_cycle (d := s'.d) (m := k) (B := fun i => (nxt s'.d)^[i] e) k0 (fun j hj hh => hinj j hj 0 k0 hh)
    (fun j hj => by rw [hnx j, hmod j hj]) (k - 1) 0 fuel' [e] (by omega) (by omega)
  have hlist : [e] ++ (List.range (k - 1)).map (fun i => (nxt s'.d)^[0 + 1 + i] e) = (List.range k).map fun i => (nxt s'.d)^[i] e := by
    obtain ⟨m, rfl⟩ : ∃ m, k = m + 1 := ⟨k - 1, by omega⟩
    rw [List.range_succ_eq_map, List.map_cons, List.map_map, Nat.add_sub_cancel]
    simp only [Function.iterate_zero, id_eq, List.singleton_append, List.cons.injEq, true_and]
    refine List.map_congr_left fun i _ => ?_
    show _ = (nxt s'.d)^[i + 1] e
    rw [show 0 + 1 + i = i + 1 by omega]
  rw [← hlist, ← hloop]
  simp only [borders, bind, StateT.bind, Except.bind, rdFE, he]
  rfl

/-- A cell with a part in the interior of the polygon has a half-edge in the result. -/
theorem live_exists {p : Nat} {c : Pt} (hc : Mid pts n poly p c) : ∃ e, LiveIn s s1 s2 s' vs V cell p e := by
  by_cases h : ∃ z, StrictlyInside poly.points z ∧ ¬ Nearest pts n p z
  · obtain ⟨e, _, hl⟩ := F.first ⟨hc.lt, ⟨c, hc.inside, hc.near⟩, Or.inl h⟩
    exact ⟨e, hl⟩
  push Not at h
  have hn : Nearest pts n p (place s1.d (V 0)) := by
    refine ⟨hc.lt, fun o ho => ?_⟩
    by_contra hlt
    push Not at hlt
    have hon := F.B.ring.on 0 F.B.ring.pos
    obtain ⟨t, t0, t1, ht⟩ : ∃ t : ℝ, 0 < t ∧ t ≤ 1 ∧ sqDist (pts o) (along (place s1.d (V 0)) c t) < sqDist (pts p) (along (place s1.d (V 0)) c t) := by
      obtain ⟨A, hA⟩ : ∃ A, A = dsq (pts p) (place s1.d (V 0)) - dsq (pts o) (place s1.d (V 0)) := ⟨_, rfl⟩
      obtain ⟨D, hD⟩ : ∃ D, D = |dsq (pts o) c - dsq (pts p) c| := ⟨_, rfl⟩
      have hA0 : 0 < A := by rw [hA]; exact sub_pos.mpr hlt
      have hD0 : 0 ≤ D := by rw [hD]; exact abs_nonneg _
      have hAD : 0 < A + D + 1 := by linarith
      refine ⟨A / (A + D + 1) / 2, by positivity, ?_, ?_⟩
      · rw [div_div, div_le_one (by positivity)]; linarith
      · have e := along_diff (pts p) (pts o) (place s1.d (V 0)) c (A / (A + D + 1) / 2)
        obtain ⟨t, ht⟩ : ∃ t, t = A / (A + D + 1) / 2 := ⟨_, rfl⟩
        have h1 : t * (A + D + 1) = A / 2 := by rw [ht]; field_simp
        have h2 : 0 < t := by rw [ht]; positivity
        rw [← ht] at e ⊢
        have h3 : dsq (pts o) c - dsq (pts p) c ≤ D := by rw [hD]; exact le_abs_self _
        show dsq _ _ < dsq _ _
        nlinarith [mul_le_mul_of_nonneg_left h3 h2.le, mul_pos h2 hA0]
    exact absurd ((h _ (along_inside (hon.closed F.B.fits.convex) hc.inside t0 t1)).2 o ho) (not_le.mpr ht)
  obtain ⟨j, hj, hlab, _⟩ := F.B.cover F.hn (F.B.ring.on 0 F.B.ring.pos) hn
  obtain ⟨i, hl⟩ := F.some_live (p := p) (Or.inr ⟨j, hj, rfl, hlab⟩)
  exact ⟨_, hl⟩

/-- The Voronoi cell is the set of points on the right of all its edges. -/
theorem region {p : Nat} {c : Pt} (hc : Mid pts n poly p c) {z : Pt} : InCell pts n poly p z ↔
    ∀ f, LiveIn s s1 s2 s' vs V cell p f → 0 ≤ rightOf (startAt s2.d f) (startAt s2.d (nxt s2.d f)) z := by
  constructor
  · intro h f hf
    exact (F.B.seg F.hn hf.1).2.2 z h.1 h.2
  · intro h
    by_cases hzc : z = c
    · rw [hzc]
      exact ⟨hc.inside.closed, hc.nearest⟩
    obtain ⟨e, hl⟩ := F.live_exists hc
    obtain ⟨k, k0, hk⟩ := F.B.period F.hn hl.1
    obtain ⟨i, hi, hne, w, t, t0, hb, w1, w2⟩ := F.B.ray F.hn hl.1 k0 hk hc hzc
    obtain ⟨f, hfe⟩ : ∃ f, f = (nxt s2.d)^[i] e := ⟨_, rfl⟩
    have hfc : OfCell s s1 vs V cell p f := by rw [hfe]; exact F.B.iter F.hn hl.1 i
    rw [Function.iterate_succ_apply', ← hfe] at hne hb
    have hlive : LiveIn s s1 s2 s' vs V cell p f := ⟨hfc, fun hg => hne (F.gone_stays hfc hg)⟩
    obtain ⟨g1, g2, _⟩ := F.B.seg F.hn hfc
    have hw := g1 w hb
    have hcpos : 0 < rightOf c (startAt s2.d f) (startAt s2.d (nxt s2.d f)) := (g2 c hc).resolve_left hne
    have hz0 := h f hlive
    have hw0 : rightOf (startAt s2.d f) (startAt s2.d (nxt s2.d f)) w = 0 := by
      obtain ⟨u, _, _, rfl⟩ := hb
      unfold rightOf; ring
    have e1 : rightOf (startAt s2.d f) (startAt s2.d (nxt s2.d f)) w = (1 - t) * rightOf c (startAt s2.d f) (startAt s2.d (nxt s2.d f)) +
        t * rightOf (startAt s2.d f) (startAt s2.d (nxt s2.d f)) z := by
      have x1 : w.1 = c.1 + t * (z.1 - c.1) := by linarith
      have x2 : w.2 = c.2 + t * (z.2 - c.2) := by linarith
      unfold rightOf
      rw [x1, x2]; ring
    have ht1 : 1 ≤ t := by
      by_contra hcon
      push Not at hcon
      have := mul_pos (sub_pos.mpr hcon) hcpos
      have := mul_nonneg t0.le hz0
      linarith
    have hzb : z = along c w (1 / t) := by
      have : t ≠ 0 := t0.ne'
      refine Prod.ext ?_ ?_ <;> simp only [along]
      · have : w.1 - c.1 = t * (z.1 - c.1) := w1
        field_simp
        linarith
      · field_simp
        linarith
    have hcw : z = along w c (1 - 1 / t) := by
      rw [hzb]
      refine Prod.ext ?_ ?_ <;> simp only [along] <;> ring
    have h1t : 0 ≤ 1 - 1 / t := by
      have : 1 / t ≤ 1 := by rw [div_le_one t0]; exact ht1
      linarith
    rcases h1t.lt_or_eq with h0 | h0
    · have hm := hc.along hw.1 hw.2.1 h0 (by have : 0 < 1 / t := by positivity
                                             linarith)
      rw [← hcw] at hm
      exact ⟨hm.inside.closed, hm.nearest⟩
    · rw [← h0] at hcw
      have : z = w := by
        rw [hcw]
        refine Prod.ext ?_ ?_ <;> simp [along]
      rw [this]
      exact ⟨hw.1, hw.2.1⟩

theorem rim_point {p f : Nat} (hf : LiveIn s s1 s2 s' vs V cell p f) {z : Pt} (hz : Between (startAt s2.d f) (startAt s2.d (nxt s2.d f)) z) :
    InCell pts n poly p z ∧ ((∃ o, o ≠ p ∧ Nearest pts n o z) ∨ OnBoundary poly.points z) := by
  obtain ⟨h1, h2, h3⟩ := (F.B.seg F.hn hf.1).1 z hz
  exact ⟨⟨h1, h2⟩, h3⟩

/-- The rim of the cell is covered by its edges. -/
theorem rim {p : Nat} {c : Pt} (hc : Mid pts n poly p c) {z : Pt} : Rim pts n poly p z ↔
    ∃ f, LiveIn s s1 s2 s' vs V cell p f ∧ Between (startAt s2.d f) (startAt s2.d (nxt s2.d f)) z := by
  constructor
  · intro h
    have hzc : z ≠ c := by rintro rfl; exact hc.not_rim h
    obtain ⟨e, hl⟩ := F.live_exists hc
    obtain ⟨k, k0, hk⟩ := F.B.period F.hn hl.1
    obtain ⟨i, hi, hne, w, t, t0, hb, w1, w2⟩ := F.B.ray F.hn hl.1 k0 hk hc hzc
    obtain ⟨f, hfe⟩ : ∃ f, f = (nxt s2.d)^[i] e := ⟨_, rfl⟩
    have hfc : OfCell s s1 vs V cell p f := by rw [hfe]; exact F.B.iter F.hn hl.1 i
    rw [Function.iterate_succ_apply', ← hfe] at hne hb
    refine ⟨f, ⟨hfc, fun hg => hne (F.gone_stays hfc hg)⟩, ?_⟩
    have := rim_unique hc h ((F.B.seg F.hn hfc).1 w hb) t0 w1 w2
    rw [← this]; exact hb
  · rintro ⟨f, hf, hb⟩
    exact (F.B.seg F.hn hf.1).1 z hb

/-- The walk finds the half-edges of the cell. -/
theorem around_of {p e k : Nat} (hl : LiveIn s s1 s2 s' vs V cell p e) (k0 : 0 < k) (hke : (nxt s'.d)^[k] e = e)
    (hinj : ∀ i < k, ∀ j < k, (nxt s'.d)^[i] e = (nxt s'.d)^[j] e → i = j) (hall : ∀ f, LiveIn s s1 s2 s' vs V cell p f → ∃ i < k, (nxt s'.d)^[i] e = f) :
    Around s'.d s'.edges p ((List.range k).map fun i => (nxt s'.d)^[i] e) := by
  have hnx := F.walk_next hl
  have hmod := walk_mod hke
  have hget : ∀ i x, ((List.range k).map fun i => (nxt s'.d)^[i] e)[i]? = some x → i < k ∧ x = (nxt s'.d)^[i] e := by
    intro i x hx
    rw [List.getElem?_map, Option.map_eq_some_iff] at hx
    obtain ⟨a, h1, h2⟩ := hx
    obtain ⟨h3, h4⟩ := List.getElem?_eq_some_iff.mp h1
    rw [List.length_range] at h3
    rw [List.getElem_range] at h4
    subst h4
    exact ⟨h3, h2.symm⟩
  refine ⟨?_, ?_, ?_, ?_, ?_⟩
  · rw [Ne, List.map_eq_nil_iff, List.range_eq_nil]; omega
  · refine List.Nodup.map_on ?_ List.nodup_range
    intro i hi j hj hij
    exact hinj i (List.mem_range.mp hi) j (List.mem_range.mp hj) hij
  · intro f
    rw [F.live_iff]
    constructor
    · intro hf
      obtain ⟨i, _, rfl⟩ := List.mem_map.mp hf
      exact F.iter hl i
    · intro hf
      obtain ⟨i, hi, rfl⟩ := hall f hf
      exact List.mem_map.mpr ⟨i, List.mem_range.mpr hi, rfl⟩
  · intro i x y hx hy
    rw [List.length_map, List.length_range] at hy
    obtain ⟨i1, rfl⟩ := hget i x hx
    obtain ⟨i2, rfl⟩ := hget _ y hy
    rw [← hmod i i1]
    refine ⟨hnx i, ?_⟩
    rw [Function.iterate_succ_apply']
    exact (F.step (F.iter hl i)).choose_spec.2.2.2.2.2.1
  · intro i x y hx hy
    rw [List.length_map, List.length_range] at hy
    obtain ⟨i1, rfl⟩ := hget i x hx
    obtain ⟨i2, rfl⟩ := hget _ y hy
    rw [← hmod i i1, Function.iterate_succ_apply']
    obtain ⟨m, _, _, _, _, h1, _, h2⟩ := F.step (F.iter hl i)
    refine ⟨_, (F.ends (F.iter hl i)).2, ?_⟩
    rw [← h2]
    exact (F.ends h1).1

/-- All half-edges of a cell, in order. -/
theorem around {p f : Nat} (hf : HalfEdgeOf s'.d s'.edges f) (hp : (s'.d.he f).incident = some p) : ∃ l, Around s'.d s'.edges p l := by
  have hl := F.live_iff.mp ⟨hf, hp⟩
  obtain ⟨h1, h2⟩ := (F.rim_point hl (between_left _ _)).1
  obtain ⟨c, hm⟩ := mid_of_cell F.B.fits F.B.dist h1 h2
  obtain ⟨k, k0, hke, _, hinj, hall⟩ := F.walk_from hm hl
  exact ⟨_, F.around_of hl k0 hke hinj hall⟩

end Finish

/-- C71: `borders` of a site with a shown cell finds all half-edges of its cell, each once, in an order in which each starts where the one before ends. -/
theorem C71_borders (hF : FitsCorners pts n poly) (hd : Distinct pts n) (hq : q.Spec evLt ok)
    (h : createDiagram pts q n fuel poly rz (initSt poly) = .ok ((), s')) {p : Nat} (hS : Shown pts n poly p) {fuel' : Nat} (hfuel : s'.d.heCnt ≤ fuel') :
    ∃ l, borders fuel' p s'.d = .ok (l, s'.d) ∧ Around s'.d s'.edges p l := by
  obtain ⟨s, s1, s2, vs, V, cell, F⟩ := create_finish hF hd hq (Nat.zero_lt_of_lt hS.lt) h
  obtain ⟨e, k, he, hl, k0, hke, hkc, hinj, hall⟩ := F.walk hS
  exact ⟨_, F.walk_borders he hl k0 hke (hkc.trans hfuel) hinj, F.around_of hl k0 hke hinj hall⟩

/-- C71: the points on the right of all edges of a cell are the points of the polygon to which its site is nearest. -/
theorem C71_region (hF : FitsCorners pts n poly) (hd : Distinct pts n) (hq : q.Spec evLt ok)
    (h : createDiagram pts q n fuel poly rz (initSt poly) = .ok ((), s')) {p : Nat} (hS : Shown pts n poly p) {fuel' : Nat} (hfuel : s'.d.heCnt ≤ fuel') {l : List Nat}
    (hl : borders fuel' p s'.d = .ok (l, s'.d)) (z : ℝ × ℝ) : InCell pts n poly p z ↔ RightOfAll s'.d l z := by
  obtain ⟨l', h1, h2⟩ := C71_borders hF hd hq h hS hfuel
  rw [hl, Except.ok.injEq, Prod.mk.injEq] at h1
  obtain ⟨rfl, _⟩ := h1
  obtain ⟨s, s1, s2, vs, V, cell, F⟩ := create_finish hF hd hq (Nat.zero_lt_of_lt hS.lt) h
  obtain ⟨c, hc⟩ := hS.mid
  rw [F.region hc]
  constructor
  · intro h3 e he a b ha hb
    have hlive := F.live_iff.mp ((h2.all e).mp he)
    obtain ⟨rfl, rfl⟩ := F.ends_eq hlive ha hb
    have := h3 e hlive
    unfold rightOf at this
    linarith
  · intro h3 f hf
    have := h3 f ((h2.all f).mpr (F.live_iff.mpr hf)) _ _ (F.ends hf).1 (F.ends hf).2
    unfold rightOf
    linarith

/-- C71: the points on the edges of a cell are the points of the cell that have another nearest site or are on the border of the polygon. -/
theorem C71_rim (hF : FitsCorners pts n poly) (hd : Distinct pts n) (hq : q.Spec evLt ok)
    (h : createDiagram pts q n fuel poly rz (initSt poly) = .ok ((), s')) {p : Nat} (hS : Shown pts n poly p) {fuel' : Nat} (hfuel : s'.d.heCnt ≤ fuel') {l : List Nat}
    (hl : borders fuel' p s'.d = .ok (l, s'.d)) (z : ℝ × ℝ) :
    OnSomeEdge s'.d l z ↔ InCell pts n poly p z ∧ ((∃ o, o ≠ p ∧ Nearest pts n o z) ∨ OnBoundary poly.points z) := by
  obtain ⟨l', h1, h2⟩ := C71_borders hF hd hq h hS hfuel
  rw [hl, Except.ok.injEq, Prod.mk.injEq] at h1
  obtain ⟨rfl, _⟩ := h1
  obtain ⟨s, s1, s2, vs, V, cell, F⟩ := create_finish hF hd hq (Nat.zero_lt_of_lt hS.lt) h
  have : InCell pts n poly p z ∧ ((∃ o, o ≠ p ∧ Nearest pts n o z) ∨ OnBoundary poly.points z) ↔ Rim pts n poly p z := and_assoc
  obtain ⟨c, hc⟩ := hS.mid
  rw [this, F.rim hc]
  constructor
  · rintro ⟨e, he, a, b, ha, hb, hz⟩
    have hlive := F.live_iff.mp ((h2.all e).mp he)
    obtain ⟨rfl, rfl⟩ := F.ends_eq hlive ha hb
    exact ⟨e, hlive, hz⟩
  · rintro ⟨f, hf, hz⟩
    exact ⟨f, (h2.all f).mpr (F.live_iff.mpr hf), _, _, (F.ends hf).1, (F.ends hf).2, hz⟩

/-- The hypotheses can be met: three sites in a box; the cell of site 0 contains the site, and its edges pass through the Voronoi vertex. -/
example : ∃ poly s' l, boundingBox (-1 : ℝ) 3 99 104 = .ok poly ∧ createDiagram high3 heapq 3 22 poly false (initSt poly) = .ok ((), s') ∧
    FitsBorder high3 3 poly ∧ borders s'.d.heCnt 0 s'.d = .ok (l, s'.d) ∧ Around s'.d s'.edges 0 l ∧ RightOfAll s'.d l (high3 0) := by
  have hp := box_points (show (-1 : ℝ) < 3 by norm_num) (show (99 : ℝ) < 104 by norm_num)
  have hF := high3_border hp
  obtain ⟨⟨s', hs'⟩, _⟩ := C58_create_succeeds high3_distinct C45_event_queue (by norm_num) (by simp) (fun i hi => (hF.low i hi).le) (fuel := 22) (by norm_num)
  obtain ⟨l, h1, h2⟩ := C71_borders hF.toFitsCorners high3_distinct C45_event_queue hs' (p := 0) (hF.shown (by norm_num)) le_rfl
  refine ⟨_, s', l, hp, hs', hF, h1, h2, (C71_region hF.toFitsCorners high3_distinct C45_event_queue hs' (hF.shown (by norm_num)) le_rfl h1 _).mp ⟨(box_closed (by norm_num) (by norm_num) _).mpr (by norm_num [high3]), ?_⟩⟩
  refine ⟨by norm_num, fun c hc => ?_⟩
  rcases (by omega : c = 0 ∨ c = 1 ∨ c = 2) with rfl | rfl | rfl <;> norm_num [high3, sqDist]

end Foronoi
