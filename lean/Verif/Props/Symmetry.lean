import Verif.Proof.Symmetry

/-!
# C126: the same sites in another order, at another place, in another unit

The result does not depend on the order in which the sites are given, and it follows a change of unit and a move to the right or left.  (It does not follow a
move up or down: C96, C122.)

# C127: more sites
-/

namespace Foronoi

open scoped List

variable {pts : Nat → ℝ × ℝ} {q q2 : PQ (QE ℝ)} {ok ok2 : List (QE ℝ) → Prop} {n fuel fuel2 : Nat} {rz rz2 : Bool} {poly : Poly ℝ} {s' s2' : St ℝ} {k c : ℝ}
  {σ : Equiv.Perm Nat}

/-- C126: if the sites fit the polygon, they fit it in another order and together with it at another place and in another unit; and the polygon there is the one
that the constructor makes of the moved corners. -/
theorem C126_fits (hk : 0 < k) (hσ : Permutes σ n) (hF : FitsCorners pts n poly) {l : List Pt} (hl : mkPoly l = .ok poly) :
    mkPoly (l.map (sim k c)) = .ok (simPoly k c poly) ∧ FitsCorners (simSites k c σ pts) n (simPoly k c poly) :=
  ⟨mkPoly_sim hk hl, fits_sim hk hσ hF⟩

/-- C126: the areas.  Either there is no area in both cases, or the areas differ by the square of the unit. -/
theorem C126_areas (hk : 0 < k) (hσ : Permutes σ n) (hF : FitsCorners pts n poly) (hd : Distinct pts n) (hq : q.Spec evLt ok) (hq2 : q2.Spec evLt ok2)
    (h : createDiagram pts q n fuel poly rz (initSt poly) = .ok ((), s'))
    (h2 : createDiagram (simSites k c σ pts) q2 n fuel2 (simPoly k c poly) rz2 (initSt (simPoly k c poly)) = .ok ((), s2'))
    {i : Nat} (hi : i < n) {f f2 : Nat} (hf : s'.d.heCnt ≤ f) (hf2 : s2'.d.heCnt ≤ f2) :
    (area f (σ i) s'.d = .error .attr ∧ area f2 i s2'.d = .error .attr) ∨
    ∃ a, area f (σ i) s'.d = .ok (a, s'.d) ∧ area f2 i s2'.d = .ok (k ^ 2 * a, s2'.d) := by
  have hF2 := fits_sim (c := c) hk hσ hF
  have hd2 := distinct_sim (c := c) hk hσ hd
  have hσi := (hσ i).mpr hi
  by_cases hb : FarCell pts n (σ i) ∨ ¬ NothingOrAll pts n poly (σ i)
  · right
    obtain ⟨a, h3, h4, _, h5⟩ := C119_area hF hd hq h hσi hb hf
    obtain ⟨b, h6, h7, _, h8⟩ := C119_area hF2 hd2 hq2 h2 hi (by rw [farCell_sim hk hσ, nothingOrAll_sim hk hσ]; exact hb) hf2
    refine ⟨a, h3, ?_⟩
    have e := volume_sim (c := c) hk (S := {z | InClosed poly.points z ∧ Nearest pts n (σ i) z})
      (T := {z | InClosed (simPoly k c poly).points z ∧ Nearest (simSites k c σ pts) n i z}) fun z => inCell_sim (poly := poly) hk hσ
    rw [h5, h8, ← ENNReal.ofReal_mul (by positivity), ENNReal.ofReal_eq_ofReal_iff h7 (by positivity)] at e
    rw [h6, e]
  · left
    push Not at hb
    exact ⟨(C119_no_area hF hd hq h hσi hb.1 hb.2 hf).1,
      (C119_no_area hF2 hd2 hq2 h2 hi (by rw [farCell_sim hk hσ]; exact hb.1) ((nothingOrAll_sim hk hσ).mpr hb.2) hf2).1⟩

/-- C126: the places of the vertices. -/
theorem C126_vertices (hk : 0 < k) (hσ : Permutes σ n) (hF : FitsCorners pts n poly) (hd : Distinct pts n) (hq : q.Spec evLt ok) (hq2 : q2.Spec evLt ok2) (hn : 0 < n)
    (h : createDiagram pts q n fuel poly rz (initSt poly) = .ok ((), s'))
    (h2 : createDiagram (simSites k c σ pts) q2 n fuel2 (simPoly k c poly) rz2 (initSt (simPoly k c poly)) = .ok ((), s2')) (z : Pt) :
    (∃ v ∈ s'.verts, (s'.d.vs v).pos = some z) ↔ ∃ v ∈ s2'.verts, (s2'.d.vs v).pos = some (sim k c z) := by
  obtain ⟨a1, a2, _⟩ := C88_final_vertices hF hd hq hn h
  obtain ⟨b1, b2, _⟩ := C88_final_vertices (fits_sim (c := c) hk hσ hF) (distinct_sim (c := c) hk hσ hd) hq2 hn h2
  constructor
  · rintro ⟨v, hv, hp⟩
    obtain ⟨w, h3, h4⟩ := a1 v hv
    rw [hp, Option.some.injEq] at h3
    subst h3
    exact b2 _ ((diagramVertex_sim hk hσ).mpr h4)
  · rintro ⟨v, hv, hp⟩
    obtain ⟨w, h3, h4⟩ := b1 v hv
    rw [hp, Option.some.injEq] at h3
    subst h3
    exact a2 _ ((diagramVertex_sim hk hσ).mp h4)

/-- C126: the lines that are drawn. -/
theorem C126_lines (hk : 0 < k) (hσ : Permutes σ n) (hF : FitsCorners pts n poly) (hd : Distinct pts n) (hq : q.Spec evLt ok) (hq2 : q2.Spec evLt ok2) (hn : 0 < n)
    (h : createDiagram pts q n fuel poly rz (initSt poly) = .ok ((), s'))
    (h2 : createDiagram (simSites k c σ pts) q2 n fuel2 (simPoly k c poly) rz2 (initSt (simPoly k c poly)) = .ok ((), s2'))
    (cv cv2 : Canvas ℝ) (labels labels2 : Bool) :
    ∃ ds ds2, plotEdges pts cv s' labels = .ok ds ∧ plotEdges (simSites k c σ pts) cv2 s2' labels2 = .ok ds2 ∧
      ∀ z, OnLine ds z ↔ OnLine ds2 (sim k c z) := by
  obtain ⟨ds, h3, h4⟩ := C86_final_picture hF hd hq hn h cv labels
  obtain ⟨ds2, h5, h6⟩ := C86_final_picture (fits_sim (c := c) hk hσ hF) (distinct_sim (c := c) hk hσ hd) hq2 hn h2 cv2 labels2
  refine ⟨ds, ds2, h3, h5, fun z => ?_⟩
  rw [h4, h6]
  refine and_congr (closed_sim hk).symm (or_congr ?_ (boundary_sim hk).symm)
  exact ⟨fun ⟨p, r, h1, h2, h3⟩ => ⟨σ.symm p, σ.symm r, σ.symm.injective.ne h1, (nearest_sim' hk hσ).mpr h2, (nearest_sim' hk hσ).mpr h3⟩,
    fun ⟨p, r, h1, h2, h3⟩ => ⟨σ p, σ r, σ.injective.ne h1, (nearest_sim hk hσ).mp h2, (nearest_sim hk hσ).mp h3⟩⟩

/-- C126, with the same unit at the same place: the order in which the sites are given, the way in which the queue breaks ties and `remove_zero_length_edges` have
no influence on the areas. -/
theorem C126_order (hσ : Permutes σ n) (hF : FitsCorners pts n poly) (hd : Distinct pts n) (hq : q.Spec evLt ok) (hq2 : q2.Spec evLt ok2)
    (h : createDiagram pts q n fuel poly rz (initSt poly) = .ok ((), s'))
    (h2 : createDiagram (fun i => pts (σ i)) q2 n fuel2 poly rz2 (initSt poly) = .ok ((), s2'))
    {i : Nat} (hi : i < n) {f f2 : Nat} (hf : s'.d.heCnt ≤ f) (hf2 : s2'.d.heCnt ≤ f2) :
    (area f (σ i) s'.d = .error .attr ∧ area f2 i s2'.d = .error .attr) ∨
    ∃ a, area f (σ i) s'.d = .ok (a, s'.d) ∧ area f2 i s2'.d = .ok (a, s2'.d) := by
  have e0 : sim 1 0 = id := by funext z; simp [sim]
  have e1 : simSites 1 0 σ pts = fun i => pts (σ i) := by funext i; simp [simSites, e0]
  have e2 : simPoly 1 0 poly = poly := by simp [simPoly, e0]
  have := C126_areas (k := 1) (c := 0) one_pos hσ hF hd hq hq2 h (by rw [e1, e2]; exact h2) hi hf hf2
  simpa using this

/-- The hypotheses of C126 can be met: the sites of C119 with the first and the last one swapped, everything at half the size and moved to the right.  The area of
the former first site is a quarter of what it was, and the former last site has no area. -/
example : ∃ poly s' s2', ∃ a : ℝ, boundingBox (0 : ℝ) 4 100 104 = .ok poly ∧ createDiagram out4 heapq 4 29 poly false (initSt poly) = .ok ((), s') ∧
    createDiagram (simSites (1 / 2) 7 (Equiv.swap 0 3) out4) heapq 4 29 (simPoly (1 / 2) 7 poly) true (initSt (simPoly (1 / 2) 7 poly)) = .ok ((), s2') ∧ 0 < a ∧
    area s'.d.heCnt 0 s'.d = .ok (a, s'.d) ∧ area s2'.d.heCnt 3 s2'.d = .ok (a / 4, s2'.d) ∧ area s2'.d.heCnt 0 s2'.d = .error .attr := by
  have hp := box_points (show (0 : ℝ) < 4 by norm_num) (show (100 : ℝ) < 104 by norm_num)
  have hF := out4_corners hp
  have hσ : Permutes (Equiv.swap 0 3) 4 := fun i => by
    rcases eq_or_ne i 0 with rfl | h0
    · simp
    rcases eq_or_ne i 3 with rfl | h3
    · simp
    rw [Equiv.swap_apply_of_ne_of_ne h0 h3]
  have hk : (0 : ℝ) < 1 / 2 := by norm_num
  obtain ⟨⟨s', hs'⟩, _⟩ := C58_create_succeeds out4_distinct C45_event_queue (by norm_num) (by simp) (fun i hi => (hF.low i hi).le) (fuel := 29) (by norm_num)
  generalize hpo : (⟨[((0 : ℝ), (104 : ℝ)), (4, 104), (4, 100), (0, 100)], _, _, _, _, _⟩ : Poly ℝ) = poly at hp hF hs'
  have hpts : poly.points = [((0 : ℝ), (104 : ℝ)), (4, 104), (4, 100), (0, 100)] := by rw [← hpo]
  have hF2 := fits_sim (c := 7) hk hσ hF
  obtain ⟨_, s2', _, hs2', _⟩ := C74_cleanup_succeeds hF2 (distinct_sim (c := 7) hk hσ out4_distinct) C45_event_queue (by norm_num) (fuel := 29) (by norm_num)
  obtain ⟨a, h1, _, h3, _⟩ := C119_area hF out4_distinct C45_event_queue hs' (show 0 < 4 by norm_num) (Or.inl out4_far0) le_rfl
  have ha : 0 < a := h3.mpr ⟨(2, 102), by rw [hpts]; exact (box_closed (by norm_num) (by norm_num) _).mpr (by norm_num), by norm_num, fun o ho => by
    rcases Nat.eq_zero_or_pos o with rfl | h
    · exact le_rfl
    · exact (out4_first (by norm_num) (by norm_num) (by norm_num) (by norm_num) ho (by omega)).le⟩
  have hno := (C119_no_area hF out4_distinct C45_event_queue hs' (p := 3) (by norm_num) out4_far3 (Or.inl fun z hz => by
    obtain ⟨h1, h2, h3, h4⟩ := (box_closed (show (0 : ℝ) < 4 by norm_num) (show (100 : ℝ) < 104 by norm_num) z).mp (hpts ▸ hz.1)
    exact absurd (out4_only h1 h2 h3 h4 hz.2) (by norm_num)) le_rfl).1
  refine ⟨poly, s', s2', a, hp, hs', hs2', ha, h1, ?_, ?_⟩
  · rcases C126_areas hk hσ hF out4_distinct C45_event_queue C45_event_queue hs' hs2' (i := 3) (by norm_num) le_rfl le_rfl with ⟨h4, _⟩ | ⟨b, h4, h5⟩
    · rw [Equiv.swap_apply_right, h1] at h4; cases h4
    · rw [Equiv.swap_apply_right, h1, Except.ok.injEq, Prod.mk.injEq] at h4
      rw [h5, ← h4.1]
      congr 2; ring
  · rcases C126_areas hk hσ hF out4_distinct C45_event_queue C45_event_queue hs' hs2' (i := 0) (by norm_num) le_rfl le_rfl with ⟨_, h4⟩ | ⟨b, h4, h5⟩
    · exact h4
    · rw [Equiv.swap_apply_left, hno] at h4; cases h4

/-! ### C127 -/

theorem nearest_fewer {m : Nat} (hm : n ≤ m) {p : Nat} (hp : p < n) {z : Pt} (h : Nearest pts m p z) : Nearest pts n p z :=
  ⟨hp, fun o ho => h.2 o (ho.trans_le hm)⟩

/-- C127: with more sites, no area gets larger; and if the cells of the new sites contain nothing of the polygon, the areas stay as they are. -/
theorem C127_more_sites {m : Nat} (hm : n ≤ m) (hF : FitsCorners pts n poly) (hF2 : FitsCorners pts m poly) (hd : Distinct pts m) (hq : q.Spec evLt ok)
    (hq2 : q2.Spec evLt ok2) (h : createDiagram pts q n fuel poly rz (initSt poly) = .ok ((), s')) (h2 : createDiagram pts q2 m fuel2 poly rz2 (initSt poly) = .ok ((), s2'))
    {p : Nat} (hp : p < n) {f f2 : Nat} {a b : ℝ} (hf : s'.d.heCnt ≤ f) (hf2 : s2'.d.heCnt ≤ f2) (ha : area f p s'.d = .ok (a, s'.d))
    (hb : area f2 p s2'.d = .ok (b, s2'.d)) : b ≤ a ∧ ((∀ r, n ≤ r → r < m → ∀ z, ¬ InCell pts m poly r z) → b = a) := by
  have hdn : Distinct pts n := fun p hp r hr => hd p (hp.trans_le hm) r (hr.trans_le hm)
  have v1 : 0 ≤ a ∧ MeasureTheory.volume {z | InClosed poly.points z ∧ Nearest pts n p z} = ENNReal.ofReal a := by
    by_cases hc : FarCell pts n p ∨ ¬ NothingOrAll pts n poly p
    · obtain ⟨x, h3, h4, _, h5⟩ := C119_area hF hdn hq h hp hc hf
      rw [ha, Except.ok.injEq, Prod.mk.injEq] at h3
      exact h3.1 ▸ ⟨h4, h5⟩
    · push Not at hc
      rw [(C119_no_area hF hdn hq h hp hc.1 hc.2 hf).1] at ha; cases ha
  have v2 : 0 ≤ b ∧ MeasureTheory.volume {z | InClosed poly.points z ∧ Nearest pts m p z} = ENNReal.ofReal b := by
    by_cases hc : FarCell pts m p ∨ ¬ NothingOrAll pts m poly p
    · obtain ⟨x, h3, h4, _, h5⟩ := C119_area hF2 hd hq2 h2 (hp.trans_le hm) hc hf2
      rw [hb, Except.ok.injEq, Prod.mk.injEq] at h3
      exact h3.1 ▸ ⟨h4, h5⟩
    · push Not at hc
      rw [(C119_no_area hF2 hd hq2 h2 (hp.trans_le hm) hc.1 hc.2 hf2).1] at hb; cases hb
  constructor
  · have := MeasureTheory.measure_mono (μ := MeasureTheory.volume) (s := {z | InClosed poly.points z ∧ Nearest pts m p z})
      (t := {z | InClosed poly.points z ∧ Nearest pts n p z}) fun z hz => ⟨hz.1, nearest_fewer hm hp hz.2⟩
    rw [v1.2, v2.2] at this
    exact (ENNReal.ofReal_le_ofReal_iff v1.1).mp this
  · intro hno
    have e : {z | InClosed poly.points z ∧ Nearest pts m p z} = {z | InClosed poly.points z ∧ Nearest pts n p z} := by
      ext z
      refine and_congr_right fun hz => ⟨nearest_fewer hm hp, fun hz2 => ?_⟩
      obtain ⟨o, ho⟩ := nearest_exists (pts := pts) (n := m) (by omega) z
      rcases lt_or_ge o n with h3 | h3
      · exact ⟨hp.trans_le hm, fun x hx => (hz2.2 o h3).trans (ho.2 x hx)⟩
      · exact absurd ⟨hz, ho⟩ (hno o h3 ho.1 z)
    exact (ENNReal.ofReal_eq_ofReal_iff v2.1 v1.1).mp (by rw [← v2.2, e, v1.2])

/-- The hypotheses of C127 can be met: the first site of C119 alone, and with the other three, whose cells contain nothing of the box. -/
example : ∃ poly s' s2', ∃ a : ℝ, boundingBox (0 : ℝ) 4 100 104 = .ok poly ∧ createDiagram out4 heapq 1 29 poly true (initSt poly) = .ok ((), s') ∧
    createDiagram out4 heapq 4 29 poly true (initSt poly) = .ok ((), s2') ∧ 0 < a ∧ area s'.d.heCnt 0 s'.d = .ok (a, s'.d) ∧ area s2'.d.heCnt 0 s2'.d = .ok (a, s2'.d) := by
  have hp := box_points (show (0 : ℝ) < 4 by norm_num) (show (100 : ℝ) < 104 by norm_num)
  have hF2 := out4_corners hp
  have one : ∀ {p z}, Nearest out4 1 p z → p = 0 := fun h => by have := h.1; omega
  have hF : ∀ po, boundingBox 0 4 100 104 = .ok po → FitsCorners out4 1 po := fun po hp => by
    refine fits_corners_far (by norm_num) (by norm_num) (by norm_num) ?_ ?_ ?_ ?_ ?_ hp
    · intro p hp z h1 h2 h3 h4
      obtain rfl : p = 0 := by omega
      norm_num [out4, sqDist]; nlinarith
    · intro p r z hne hz h1 h2
      exact absurd ((one h1).trans (one h2).symm) hne
    · rintro z ⟨a, b, c, hab, _, _, ha, hb, _⟩ hz
      exact hab ((one ha).trans (one hb).symm)
    · intro p r z ht _ hn1 hn2
      obtain rfl := one hn1
      obtain rfl := one hn2
      exact absurd ht.2.1 (lt_irrefl _)
    · intro p r h1 h2
      rw [one h1, one h2]
  have hF := hF _ hp
  have hd1 : Distinct out4 1 := fun i hi j hj _ => by omega
  obtain ⟨_, s', _, hs', _⟩ := C74_cleanup_succeeds hF hd1 C45_event_queue (by norm_num) (fuel := 29) (by norm_num)
  obtain ⟨_, s2', _, hs2', _⟩ := C74_cleanup_succeeds hF2 out4_distinct C45_event_queue (by norm_num) (fuel := 29) (by norm_num)
  obtain ⟨a, h1, _, h3, _⟩ := C119_area hF2 out4_distinct C45_event_queue hs2' (show 0 < 4 by norm_num) (Or.inl out4_far0) le_rfl
  have hfar : FarCell out4 1 0 := fun R => by
    obtain ⟨z, hz, hR⟩ := out4_far0 R
    exact ⟨z, nearest_fewer (by norm_num) (by norm_num) hz, hR⟩
  obtain ⟨b, h4, _⟩ := C119_area hF hd1 C45_event_queue hs' (show 0 < 1 by norm_num) (Or.inl hfar) le_rfl
  have e := (C127_more_sites (show 1 ≤ 4 by norm_num) hF hF2 out4_distinct C45_event_queue C45_event_queue hs' hs2' (by norm_num) le_rfl le_rfl h4 h1).2 fun r hr _ z hz => by
    obtain ⟨g1, g2, g3, g4⟩ := (box_closed (show (0 : ℝ) < 4 by norm_num) (show (100 : ℝ) < 104 by norm_num) z).mp hz.1
    have := out4_only g1 g2 g3 g4 hz.2
    omega
  refine ⟨_, s', s2', a, hp, hs', hs2', h3.mpr ⟨(2, 102), (box_closed (by norm_num) (by norm_num) _).mpr (by norm_num), by norm_num, fun o ho => ?_⟩, by rw [h4, e], h1⟩
  rcases Nat.eq_zero_or_pos o with rfl | h
  · exact le_rfl
  · exact (out4_first (by norm_num) (by norm_num) (by norm_num) (by norm_num) ho (by omega)).le

end Foronoi
