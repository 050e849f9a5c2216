import Verif.Proof.Loop
import Verif.Props.Connected
import Verif.Props.SiteVertices

/-!
# C93: the number of vertices and edges of the finished diagram
-/

namespace Foronoi

open Filter Topology
open scoped List

variable {pts : Nat → ℝ × ℝ} {q : PQ (QE ℝ)} {ok : List (QE ℝ) → Prop} {n : Nat} {poly : Poly ℝ} {s s1 s2 s' : St ℝ} {vs : List Nat} {V : Nat → Nat}
  {cell fuel : Nat} {rz : Bool} {z : Pt}

theorem nearest_form {p r : Nat} {v : Pt} (hp : Nearest pts n p v) (hr : Nearest pts n r v) (z : Pt) :
    sqDist (pts r) z - sqDist (pts p) z = 2 * (((pts p).1 - (pts r).1) * (z.1 - v.1) + ((pts p).2 - (pts r).2) * (z.2 - v.2)) := by
  have e : sqDist (pts r) v = sqDist (pts p) v := le_antisymm (hr.2 p hp.1) (hp.2 r hr.1)
  unfold sqDist at e ⊢
  linear_combination e

/-- Above a point the nearest of the sites nearest to it is the highest, and of the highest the leftmost. -/
theorem top_site (hn : 0 < n) {v : Pt} (he : Enters {z | InClosed poly.points z} v) : ∃ p, Nearest pts n p v ∧ Enters {z | InCell pts n poly p z} v := by
  classical
  have hne : ((Finset.range n).filter fun p => Nearest pts n p v).Nonempty := by
    obtain ⟨p, hp, hmin⟩ := (Finset.range n).exists_min_image (fun p => sqDist (pts p) v) ⟨0, Finset.mem_range.mpr hn⟩
    exact ⟨p, Finset.mem_filter.mpr ⟨hp, Finset.mem_range.mp hp, fun c hc => hmin c (Finset.mem_range.mpr hc)⟩⟩
  obtain ⟨p, hp, hmin⟩ := Finset.exists_min_image _ (fun p => toLex ((-(pts p).2, (pts p).1) : ℝ × ℝ)) hne
  have hpv := (Finset.mem_filter.mp hp).2
  refine ⟨p, hpv, ?_⟩
  have hall : ∀ c ∈ Set.Iio n, ∀ᶠ t in 𝓝[>] (0 : ℝ), sqDist (pts p) (above v t) ≤ sqDist (pts c) (above v t) := by
    intro c hc
    rcases (hpv.2 c hc).lt_or_eq with h | h
    · have h1 : Tendsto (fun t : ℝ => sqDist (pts c) (above v t) - sqDist (pts p) (above v t)) (𝓝[>] 0)
          (𝓝 (sqDist (pts c) (above v 0) - sqDist (pts p) (above v 0))) := by
        refine (Continuous.tendsto ?_ 0).mono_left nhdsWithin_le_nhds
        unfold sqDist above
        fun_prop
      have h2 : above v 0 = v := by unfold above; simp
      rw [h2] at h1
      exact (h1.eventually (lt_mem_nhds (sub_pos.mpr h))).mono fun t ht => (sub_pos.mp ht).le
    · have hc' : Nearest pts n c v := ⟨hc, fun r hr => by rw [← h]; exact hpv.2 r hr⟩
      have hk := hmin c (Finset.mem_filter.mpr ⟨Finset.mem_range.mpr hc, hc'⟩)
      rw [Prod.Lex.toLex_le_toLex] at hk
      have hf : ∀ᶠ t in 𝓝[>] (0 : ℝ), 0 ≤ ((pts p).2 - (pts c).2) + t * ((pts c).1 - (pts p).1) := by
        rw [small_form]
        rcases hk with hk | ⟨hk, hk'⟩
        · left; simp only at hk; linarith
        · right; simp only at hk hk'; constructor <;> linarith
      filter_upwards [hf, small] with t h1 h2
      rw [← sub_nonneg, nearest_form hpv hc']
      have : (2 : ℝ) * (((pts p).1 - (pts c).1) * ((above v t).1 - v.1) + ((pts p).2 - (pts c).2) * ((above v t).2 - v.2)) =
          2 * t * (((pts p).2 - (pts c).2) + t * ((pts c).1 - (pts p).1)) := by unfold above; simp only; ring
      rw [this]
      exact mul_nonneg (by linarith) h1
  have := (eventually_all_finite (Set.finite_Iio n)).mpr hall
  filter_upwards [he, this] with t h1 h2
  exact ⟨h1, hpv.1, h2⟩

theorem enters_inside (h : StrictlyInside poly.points z) : Enters {z | InClosed poly.points z} z := by
  have : ∀ i ∈ Set.Iio poly.points.length, ∀ᶠ t in 𝓝[>] (0 : ℝ), 0 ≤ rightOf (corner poly.points i) (corner poly.points (i + 1)) (above z t) :=
    fun i hi => (right_above (h i hi).le).mpr (Or.inl (h i hi))
  exact (eventually_all_finite (Set.finite_Iio _)).mpr this

/-- The sites of two chains that both go down at a point. -/
theorem same_site (hd : Distinct pts n) {L L' : Finset Nat} {nx a nx' a'} {o o' : Pt} {p p' : Nat} (hL : Loop L nx a {z | InCell pts n poly p z} o)
    (hL' : Loop L' nx' a' {z | InCell pts n poly p' z} o') {f f' : Nat} (hf : f ∈ L) (hf' : f' ∈ L') (h1 : Loop.Down nx a f) (h2 : Loop.Down nx a (nx f))
    (h1' : Loop.Down nx' a' f') (h2' : Loop.Down nx' a' (nx' f')) (e : a (nx f) = a' (nx' f')) : p = p' := by
  have m : InCell pts n poly p (a (nx f)) := hL.mem _ (hL.next _ hf)
  have m' : InCell pts n poly p' (a (nx f)) := by rw [e]; exact hL'.mem _ (hL'.next _ hf')
  have k1 := hL.form hf h1 h2 (u := (pts p).1 - (pts p').1) (w := (pts p).2 - (pts p').2) (fun z hz => by
    have := nearest_form m.2 m'.2 z
    have := hz.2.2 p' m'.2.1
    linarith)
  have k2 := hL'.form hf' h1' h2' (u := (pts p').1 - (pts p).1) (w := (pts p').2 - (pts p).2) (fun z hz => by
    rw [← e]
    have := nearest_form m'.2 m.2 z
    have := hz.2.2 p m.2.1
    linarith)
  refine hd p m.2.1 p' m'.2.1 (Prod.ext ?_ ?_)
  · rcases k1 with k1 | ⟨k1, k1'⟩ <;> rcases k2 with k2 | ⟨k2, k2'⟩ <;> linarith
  · rcases k1 with k1 | ⟨k1, k1'⟩ <;> rcases k2 with k2 | ⟨k2, k2'⟩ <;> linarith

open Classical in
/-- The vertices of the border that are followed by an edge with a length. -/
noncomputable def ringSet (d : Dcel ℝ) (m : Nat) (V : Nat → Nat) : Finset Nat := (Finset.range m).filter fun j => place d (V j) ≠ place d (V (j + 1))

open Classical in
/-- The next of them. -/
noncomputable def ringNext (d : Dcel ℝ) (m : Nat) (V : Nat → Nat) (j : Nat) : Nat :=
  if place d (V ((j + 1) % m)) = place d (V ((j + 1) % m + 1)) then (j + 2) % m else (j + 1) % m

theorem mem_ringSet {d : Dcel ℝ} {m j : Nat} : j ∈ ringSet d m V ↔ j < m ∧ place d (V j) ≠ place d (V (j + 1)) := by
  unfold ringSet
  rw [Finset.mem_filter, Finset.mem_range]

theorem Closing.ring_next (B : Closing pts q ok n poly s s1 s2 vs V cell) {j : Nat} (hj : j < vs.length) :
    ringNext s1.d vs.length V j ∈ ringSet s1.d vs.length V ∧ place s1.d (V (ringNext s1.d vs.length V j)) = place s1.d (V (j + 1)) := by
  have hm := B.ring.pos
  have hnx : place s1.d (V ((j + 1) % vs.length)) = place s1.d (V (j + 1)) := by
    rcases Nat.lt_or_ge (j + 1) vs.length with h | h
    · rw [Nat.mod_eq_of_lt h]
    · have : j + 1 = vs.length := by omega
      rw [this, Nat.mod_self]
      exact B.ring.close.symm
  have hlt := Nat.mod_lt (j + 1) hm
  rw [mem_ringSet]
  unfold ringNext
  split_ifs with h
  · obtain ⟨h1, h2, _, _, _, _, h3⟩ := B.flat_border hlt h
    have e : (j + 1) % vs.length = j + 1 := by
      rcases Nat.lt_or_ge (j + 1) vs.length with h | h
      · exact Nat.mod_eq_of_lt h
      · rw [show j + 1 = vs.length by omega, Nat.mod_self] at h1
        omega
    rw [e] at h h2 h3
    rw [Nat.mod_eq_of_lt h2]
    exact ⟨⟨h2, h3⟩, h.symm⟩
  · exact ⟨⟨hlt, h⟩, hnx⟩

/-- The chain of the border. -/
theorem Closing.border_loop (B : Closing pts q ok n poly s s1 s2 vs V cell) :
    Loop (ringSet s1.d vs.length V) (ringNext s1.d vs.length V) (fun j => place s1.d (V j)) {z | InClosed poly.points z} poly.center := by
  have hm := B.ring.pos
  have hP := B.fits.toFitsPolygon
  have hprev : ∀ g ∈ ringSet s1.d vs.length V, ∃ f ∈ ringSet s1.d vs.length V, ringNext s1.d vs.length V f = g := by
    intro g hg
    obtain ⟨hg, hne⟩ := mem_ringSet.mp hg
    have h2 := B.two_le
    rcases Nat.eq_zero_or_pos g with rfl | h
    · have e : (vs.length - 1 + 1) % vs.length = 0 := by rw [Nat.sub_add_cancel hm, Nat.mod_self]
      refine ⟨vs.length - 1, mem_ringSet.mpr ⟨by omega, fun hh => ?_⟩, ?_⟩
      · have := (B.flat_border (by omega) hh).2.1
        omega
      · unfold ringNext
        rw [e, if_neg hne]
    · by_cases hh : place s1.d (V (g - 1)) = place s1.d (V (g - 1 + 1))
      · obtain ⟨h3, _, _, _, _, h4, _⟩ := B.flat_border (by omega) hh
        refine ⟨g - 2, mem_ringSet.mpr ⟨by omega, by rw [show g - 2 = g - 1 - 1 by omega, show g - 1 - 1 + 1 = g - 1 by omega]; exact h4⟩, ?_⟩
        unfold ringNext
        rw [show g - 2 + 1 = g - 1 by omega, show g - 2 + 2 = g by omega, Nat.mod_eq_of_lt (show g - 1 < vs.length by omega), if_pos hh, Nat.mod_eq_of_lt hg]
      · refine ⟨g - 1, mem_ringSet.mpr ⟨by omega, hh⟩, ?_⟩
        unfold ringNext
        rw [Nat.sub_add_cancel h, Nat.mod_eq_of_lt hg, if_neg hne]
  refine ⟨?_, fun f hf => (B.ring_next (mem_ringSet.mp hf).1).1, hprev, ?_, ?_, ?_, ?_, ?_, ?_⟩
  · exact ⟨_, (B.ring_next hm).1⟩
  · intro f hf g hg h
    exact Finset.injOn_of_surjOn_of_card_le (s := ringSet s1.d vs.length V) (t := ringSet s1.d vs.length V) (ringNext s1.d vs.length V)
      (fun f hf => (B.ring_next (mem_ringSet.mp hf).1).1) (fun g hg => hprev g hg) le_rfl hf hg h
  · intro f hf g hg h
    obtain ⟨f1, f2⟩ := mem_ringSet.mp hf
    obtain ⟨g1, g2⟩ := mem_ringSet.mp hg
    exact B.inj_turn f1 g1 f2 g2 h
  · intro f hf
    obtain ⟨hf, hne⟩ := mem_ringSet.mp hf
    rw [(B.ring_next hf).2, rightOf_cyc]
    obtain ⟨⟨i, h1, h2⟩, h3⟩ := B.ring.step hP.convex B.fits.center B.keySorted hf
    exact side_turn B.fits.center h1 h2 hne h3 B.fits.center
  · intro f hf
    exact (B.ring.on f (mem_ringSet.mp hf).1).closed hP.convex
  · exact B.fits.center.closed
  · intro f hf z hz
    obtain ⟨hf, hne⟩ := mem_ringSet.mp hf
    rw [(B.ring_next hf).2]
    obtain ⟨⟨i, h1, h2⟩, h3⟩ := B.ring.step hP.convex B.fits.center B.keySorted hf
    have hg := B.fits.center i h1.1
    have hzi := hz i h1.1
    obtain ⟨_, a, _, _, ea⟩ := h1
    obtain ⟨_, b, _, _, eb⟩ := h2
    rw [ea, eb, rightOf_params] at h3
    rw [rightOf_cyc, ea, eb, rightOf_params]
    exact mul_nonneg (nonneg_of_mul_nonneg_left h3 hg) hzi

namespace Finish

variable (F : Finish pts q ok n poly true s s1 s2 s' vs V cell)
include F

open Classical in
/-- The half-edges of a cell. -/
noncomputable def cellSet (_ : Finish pts q ok n poly true s s1 s2 s' vs V cell) (p : Nat) : Finset Nat := (Finset.range s2.d.heCnt).filter (LiveIn s s1 s2 s' vs V cell p)

theorem mem_cellSet {p f : Nat} : f ∈ F.cellSet p ↔ LiveIn s s1 s2 s' vs V cell p f := by
  classical
  unfold cellSet
  rw [Finset.mem_filter, Finset.mem_range]
  exact ⟨fun h => h.2, fun h => ⟨F.B.cell_lt h.1, h⟩⟩

theorem succ_start {p f : Nat} (hf : LiveIn s s1 s2 s' vs V cell p f) : startAt s2.d (nxt s'.d f) = startAt s2.d (nxt s2.d f) := by
  obtain ⟨_, _, _, _, _, _, _, h⟩ := F.step hf
  exact h

/-- The chain of a cell. -/
theorem cell_loop {p : Nat} {z : Pt} (hz : InCell pts n poly p z) : ∃ o, Loop (F.cellSet p) (nxt s'.d) (startAt s2.d) {z | InCell pts n poly p z} o := by
  obtain ⟨c, hc⟩ := mid_of_cell F.B.fits F.B.dist hz.1 hz.2
  obtain ⟨e, hl⟩ := F.live_exists hc
  obtain ⟨k, k0, hke, hkc, hinj, hall⟩ := F.walk_from hc hl
  have hS := F.star hc hl k0 hke hinj hall
  have hmv : ∀ i < k, startAt s2.d ((nxt s'.d)^[i] e) ≠ startAt s2.d ((nxt s'.d)^[i + 1] e) := by
    intro i _
    rw [Function.iterate_succ_apply', F.succ_start (F.iter hl i)]
    exact F.live_length (F.iter hl i)
  have hex : ∀ i < k, Extr {z | InCell pts n poly p z} (startAt s2.d ((nxt s'.d)^[i] e)) := fun i _ => (F.extreme_starts hc).mpr ⟨_, F.iter hl i, rfl⟩
  refine ⟨c, ⟨e, F.mem_cellSet.mpr hl⟩, ?_, ?_, ?_, ?_, ?_, ?_, ?_, ?_⟩
  · intro f hf
    obtain ⟨_, _, _, _, _, h, _⟩ := F.step (F.mem_cellSet.mp hf)
    exact F.mem_cellSet.mpr h
  · intro g hg
    obtain ⟨i, hi, rfl⟩ := hall g (F.mem_cellSet.mp hg)
    rcases Nat.eq_zero_or_pos i with rfl | h
    · refine ⟨(nxt s'.d)^[k - 1] e, F.mem_cellSet.mpr (F.iter hl _), ?_⟩
      rw [← Function.iterate_succ_apply' (nxt s'.d), Nat.succ_eq_add_one, Nat.sub_add_cancel k0, hke]; rfl
    · refine ⟨(nxt s'.d)^[i - 1] e, F.mem_cellSet.mpr (F.iter hl _), ?_⟩
      rw [← Function.iterate_succ_apply' (nxt s'.d), Nat.succ_eq_add_one, Nat.sub_add_cancel h]
  · intro f hf g hg h
    obtain ⟨_, _, _, _, _, _, h1, _⟩ := F.step (F.mem_cellSet.mp hf)
    obtain ⟨_, _, _, _, _, _, h2, _⟩ := F.step (F.mem_cellSet.mp hg)
    rw [h, h2, Option.some.injEq] at h1
    exact h1.symm
  · intro f hf g hg h
    obtain ⟨i, hi, rfl⟩ := hall f (F.mem_cellSet.mp hf)
    obtain ⟨j, hj, rfl⟩ := hall g (F.mem_cellSet.mp hg)
    have := hS.inj hex hmv hi hj h
    rw [this]
  · intro f hf
    have hf := F.mem_cellSet.mp hf
    rw [F.succ_start hf, rightOf_cyc]
    exact ((F.B.seg F.hn hf.1).2.1 c hc).resolve_left (F.live_length hf)
  · intro f hf
    have := (F.B.seg F.hn (F.mem_cellSet.mp hf).1).1 _ (between_left _ _)
    exact ⟨this.1, this.2.1⟩
  · exact ⟨hc.inside.closed, hc.nearest⟩
  · intro f hf z hz
    have hf := F.mem_cellSet.mp hf
    rw [F.succ_start hf]
    exact (F.B.seg F.hn hf.1).2.2 z hz.1 hz.2

theorem cell_point {p f : Nat} (hf : f ∈ F.cellSet p) : InCell pts n poly p (startAt s2.d f) := by
  have := (F.B.seg F.hn (F.mem_cellSet.mp hf).1).1 _ (between_left _ _)
  exact ⟨this.1, this.2.1⟩

/-- A vertex of the diagram on the border or inside that belongs to a cell. -/
theorem enters_cells {v : Pt} (hv : DiagramVertex pts n poly v) (he : Enters {z | InClosed poly.points z} v) : ∃ p < n, ∃ f ∈ F.cellSet p,
    Loop.Down (nxt s'.d) (startAt s2.d) f ∧ Loop.Down (nxt s'.d) (startAt s2.d) (nxt s'.d f) ∧ startAt s2.d (nxt s'.d f) = v := by
  have hP := F.B.fits.toFitsPolygon
  obtain ⟨p, hp, hpe⟩ := top_site (pts := pts) F.hn he
  have hc : InClosed poly.points v := by
    rcases hv with h | ⟨h, _⟩ | ⟨h, _⟩
    · obtain ⟨k, hk, e⟩ := List.getElem_of_mem h
      exact OnBoundary.closed hP.convex ⟨k, hk, by rw [← e, ← corner_eq hk]; exact between_left _ _⟩
    · exact h.closed hP.convex
    · exact h.closed
  obtain ⟨c, hm⟩ := mid_of_cell F.B.fits F.B.dist hc hp
  obtain ⟨g, hg, rfl⟩ := (F.extreme_starts hm).mp (vertex_extreme F.B.fits F.B.dist hv ⟨hc, hp⟩)
  obtain ⟨o, hL⟩ := F.cell_loop ⟨hc, hp⟩
  obtain ⟨f, hf, rfl⟩ := hL.prev g (F.mem_cellSet.mpr hg)
  exact ⟨p, hp.1, f, hf, (hL.down_of_enters hf hpe).1, (hL.down_of_enters hf hpe).2, rfl⟩

theorem down_enters {p f : Nat} (hf : f ∈ F.cellSet p) (h1 : Loop.Down (nxt s'.d) (startAt s2.d) f)
    (h2 : Loop.Down (nxt s'.d) (startAt s2.d) (nxt s'.d f)) : Enters {z | InClosed poly.points z} (startAt s2.d (nxt s'.d f)) := by
  obtain ⟨o, hL⟩ := F.cell_loop (F.cell_point hf)
  exact (eventually_all_finite (Set.finite_Iio poly.points.length)).mpr fun i hi => hL.half_above hf h1 h2 fun z hz => hz.1 i hi

open Classical in
/-- Above the points where two half-edges of a cell go down the polygon continues, and all vertices with this property are found once. -/
theorem count_inner (P : Finset Pt) (hP : ∀ z, z ∈ P ↔ DiagramVertex pts n poly z) :
    (((Finset.range n).biUnion F.cellSet).filter fun f => Loop.Down (nxt s'.d) (startAt s2.d) f ∧ Loop.Down (nxt s'.d) (startAt s2.d) (nxt s'.d f)).card =
      (P.filter (Enters {z | InClosed poly.points z})).card := by
  refine Finset.card_bij (fun f _ => startAt s2.d (nxt s'.d f)) ?_ ?_ ?_
  · intro f hf
    obtain ⟨h1, h2, h3⟩ := Finset.mem_filter.mp hf
    obtain ⟨p, hp, hf⟩ := Finset.mem_biUnion.mp h1
    obtain ⟨o, hL⟩ := F.cell_loop (F.cell_point hf)
    exact Finset.mem_filter.mpr ⟨(hP _).mpr (F.start_vertex (F.mem_cellSet.mp (hL.next f hf)).1), F.down_enters hf h2 h3⟩
  · intro f hf g hg h
    obtain ⟨h1, h2, h3⟩ := Finset.mem_filter.mp hf
    obtain ⟨p, hp, hf⟩ := Finset.mem_biUnion.mp h1
    obtain ⟨k1, k2, k3⟩ := Finset.mem_filter.mp hg
    obtain ⟨r, hr, hg⟩ := Finset.mem_biUnion.mp k1
    obtain ⟨o, hL⟩ := F.cell_loop (F.cell_point hf)
    obtain ⟨o', hL'⟩ := F.cell_loop (F.cell_point hg)
    have := same_site F.B.dist hL hL' hf hg h2 h3 k2 k3 h
    subst this
    exact hL.once f hf g hg (hL.inj _ (hL.next f hf) _ (hL.next g hg) h)
  · intro v hv
    obtain ⟨h1, h2⟩ := Finset.mem_filter.mp hv
    obtain ⟨p, hp, f, hf, k1, k2, rfl⟩ := F.enters_cells ((hP v).mp h1) h2
    exact ⟨f, Finset.mem_filter.mpr ⟨Finset.mem_biUnion.mpr ⟨p, Finset.mem_range.mpr hp, hf⟩, k1, k2⟩, rfl⟩

open Classical in
theorem count_cells : (((Finset.range n).biUnion F.cellSet).filter (Loop.Down (nxt s'.d) (startAt s2.d))).card = (cellsIn pts n poly).card +
    (((Finset.range n).biUnion F.cellSet).filter fun f => Loop.Down (nxt s'.d) (startAt s2.d) f ∧ Loop.Down (nxt s'.d) (startAt s2.d) (nxt s'.d f)).card := by
  have hdis : ∀ (Q : Nat → Prop) [DecidablePred Q], (((Finset.range n).biUnion F.cellSet).filter Q).card = ∑ p ∈ Finset.range n, ((F.cellSet p).filter Q).card := by
    intro Q _
    rw [Finset.filter_biUnion, Finset.card_biUnion]
    intro p _ r _ hpr
    rw [Function.onFun, Finset.disjoint_left]
    intro f hf hf'
    have h1 := F.mem_cellSet.mp (Finset.mem_filter.mp hf).1
    have h2 := F.mem_cellSet.mp (Finset.mem_filter.mp hf').1
    have e1 := (F.ofCell_iff.mp h1.1).2
    rw [(F.ofCell_iff.mp h2.1).2, Option.some.injEq] at e1
    exact hpr e1.symm
  rw [hdis, hdis]
  have : ∀ p ∈ Finset.range n, ((F.cellSet p).filter (Loop.Down (nxt s'.d) (startAt s2.d))).card = (if ∃ z, InCell pts n poly p z then 1 else 0) +
      ((F.cellSet p).filter fun f => Loop.Down (nxt s'.d) (startAt s2.d) f ∧ Loop.Down (nxt s'.d) (startAt s2.d) (nxt s'.d f)).card := by
    intro p hp
    split_ifs with h
    · obtain ⟨z, hz⟩ := h
      obtain ⟨o, hL⟩ := F.cell_loop hz
      exact hL.count
    · have : F.cellSet p = ∅ := Finset.eq_empty_of_forall_notMem fun f hf => h ⟨_, F.cell_point hf⟩
      simp [this]
  rw [Finset.sum_congr rfl this, Finset.sum_add_distrib, Finset.sum_boole]
  rfl

open Classical in
/-- The vertices above which the polygon does not continue are those of the border where it does not go down. -/
theorem count_border (P : Finset Pt) (hP : ∀ z, z ∈ P ↔ DiagramVertex pts n poly z) : (P.filter fun v => ¬ Enters {z | InClosed poly.points z} v).card =
    1 + ((ringSet s1.d vs.length V).filter fun j => ¬ Loop.Down (ringNext s1.d vs.length V) (fun j => place s1.d (V j)) j).card := by
  have hL := F.B.border_loop
  have hc := hL.count
  have h1 := Finset.card_filter_add_card_filter_not (s := ringSet s1.d vs.length V) (Loop.Down (ringNext s1.d vs.length V) (fun j => place s1.d (V j)))
  have h2 := Finset.card_filter_add_card_filter_not (s := ringSet s1.d vs.length V) (fun f => Loop.Down (ringNext s1.d vs.length V) (fun j => place s1.d (V j)) f ∧
    Loop.Down (ringNext s1.d vs.length V) (fun j => place s1.d (V j)) (ringNext s1.d vs.length V f))
  have h3 : ((ringSet s1.d vs.length V).filter fun f => ¬ (Loop.Down (ringNext s1.d vs.length V) (fun j => place s1.d (V j)) f ∧
      Loop.Down (ringNext s1.d vs.length V) (fun j => place s1.d (V j)) (ringNext s1.d vs.length V f))).card = (P.filter fun v => ¬ Enters {z | InClosed poly.points z} v).card := by
    refine Finset.card_bij (fun j _ => place s1.d (V (ringNext s1.d vs.length V j))) ?_ ?_ ?_
    · intro j hj
      obtain ⟨k1, k2⟩ := Finset.mem_filter.mp hj
      refine Finset.mem_filter.mpr ⟨(hP _).mpr ?_, fun he => k2 (hL.down_of_enters k1 he)⟩
      rcases F.border_places.mp ⟨_, (mem_ringSet.mp (hL.next j k1)).1, rfl⟩ with h | h
      · exact Or.inl h
      · exact Or.inr (Or.inl h)
    · intro j hj i hi h
      have k1 := (Finset.mem_filter.mp hj).1
      have k2 := (Finset.mem_filter.mp hi).1
      exact hL.once j k1 i k2 (hL.inj _ (hL.next j k1) _ (hL.next i k2) h)
    · intro v hv
      obtain ⟨k1, k2⟩ := Finset.mem_filter.mp hv
      have : ∃ j < vs.length, place s1.d (V j) = v := by
        rcases (hP v).mp k1 with h | h | ⟨h, _⟩
        · exact F.border_places.mpr (Or.inl h)
        · exact F.border_places.mpr (Or.inr h)
        · exact absurd (enters_inside h) k2
      obtain ⟨g, hg, hne, rfl⟩ := F.B.turn_at this
      obtain ⟨f, hf, rfl⟩ := hL.prev g (mem_ringSet.mpr ⟨hg, hne⟩)
      refine ⟨f, Finset.mem_filter.mpr ⟨hf, fun ⟨d1, d2⟩ => k2 ?_⟩, rfl⟩
      exact (eventually_all_finite (Set.finite_Iio poly.points.length)).mpr fun i hi => hL.half_above hf d1 d2 fun z hz => hz i hi
  omega

theorem has_twin {e : Nat} (he : EdgesOf s2.d s2.edges e) : ∃ t, (s2.d.he e).twin = some t ∧ EdgesOf s2.d s2.edges t ∧ (s2.d.he t).twin = some e := by
  have key : ∀ {e}, e ∈ s2.edges → ∃ t, (s2.d.he e).twin = some t := by
    intro e he
    rcases F.old_or_new.mp (Or.inl he) with h3 | ⟨j, hj, rfl | rfl⟩
    · obtain ⟨t, _, _, k⟩ := F.B.edg (F.B.kept_lt h3)
      exact ⟨t, by rw [F.B.twin2 (F.B.kept_lt h3), k.tw]⟩
    · exact ⟨_, (F.B.fp.binv.newE j hj).1⟩
    · exact ⟨_, (F.B.fp.binv.newT j hj).1⟩
  rcases he with h | ⟨a, h, ht⟩
  · obtain ⟨t, ht⟩ := key h
    exact ⟨t, ht, Or.inr ⟨e, h, ht⟩, F.twin_twin h ht⟩
  · exact ⟨a, F.twin_twin h ht, Or.inl h, ht⟩

theorem half_listed {e t : Nat} (he : e ∈ s2.edges) (ht : (s2.d.he e).twin = some t) : t ∉ s2.edges := by
  have B := F.B
  obtain ⟨L, hI⟩ := reach_inv B.spec B.reach
  intro hte
  rw [F.edges, List.mem_append] at he hte
  have hlt : ∀ e ∈ s1.edges, e < s.d.heCnt := fun e he => hI.dinv.elt e (B.clip.sub.subset he)
  have hb := B.heCnt
  rcases he with h | h
  · have h1 := hlt e h
    rw [B.twin2 h1] at ht
    have h2 : t < s.d.heCnt := by
      obtain ⟨t', _, _, k⟩ := B.edg h1
      have := k.tw
      rw [ht, Option.some.injEq] at this
      rw [this]; exact (k.symm hI.dinv).lt
    rcases hte with g | g
    · exact (hI.dinv.etw e h1 t ht).mp (B.clip.sub.subset h) (B.clip.sub.subset g)
    · obtain ⟨j, _, rfl⟩ := List.mem_map.mp g
      omega
  · obtain ⟨j, hj, rfl⟩ := List.mem_map.mp h
    rw [(B.fp.binv.newE j (List.mem_range.mp hj)).1, Option.some.injEq] at ht
    subst ht
    rcases hte with g | g
    · have := hlt _ g
      omega
    · obtain ⟨i, _, e⟩ := List.mem_map.mp g
      omega

/-- Where a half-edge starts. -/
theorem org_start {f : Nat} (hf : EdgesOf s2.d s2.edges f) : opos s2.d f = some (startAt s2.d f) := by
  unfold startAt
  rcases F.old_or_new.mp hf with h3 | ⟨j, hj, rfl | rfl⟩
  · obtain ⟨t, i, _, k⟩ := F.B.edg (F.B.kept_lt h3)
    rw [F.B.opos2 k.lt]
    obtain ⟨x, hx⟩ := Option.isSome_iff_exists.mp ((F.B.half k).1.mpr h3)
    rw [hx]; rfl
  · rw [(F.B.border hj).2.2.2.1]; rfl
  · rw [(F.B.border hj).2.2.2.2]; rfl

/-- A half-edge of the result belongs to a cell or is outside of the border. -/
theorem in_or_out {f : Nat} (hf : EdgesOf s2.d s'.edges f) : (∃ p < n, LiveIn s s1 s2 s' vs V cell p f) ∨ ∃ j < vs.length, f = s1.d.heCnt + 2 * j := by
  have hf2 : EdgesOf s2.d s2.edges f := EdgesOf.sub (fun e he => (cleaned F.cu).2.2.2.1 e he) hf
  have key : ∀ p, (s2.d.he f).incident = some p → ∃ p < n, LiveIn s s1 s2 s' vs V cell p f := by
    intro p hp
    have h := F.ofCell_iff.mpr ⟨hf2, hp⟩
    exact ⟨p, ((F.B.seg F.hn h).1 _ (between_left _ _)).2.1.1, h, fun hg => hg.2 hf⟩
  rcases F.old_or_new.mp hf2 with h3 | ⟨j, hj, rfl | rfl⟩
  · obtain ⟨t, i, _, k⟩ := F.B.edg (F.B.kept_lt h3)
    exact Or.inl (key i (by rw [F.B.inc2 k.lt, k.inc]))
  · obtain ⟨i, hi, _⟩ := F.B.labels F.hn hj
    exact Or.inl (key i (by rw [(F.B.border hj).2.2.1, hi]))
  · exact Or.inr ⟨j, hj, rfl⟩

open Classical in
theorem count_edges (hnd : s2.edges.Nodup) : s'.edges.length = (((Finset.range n).biUnion F.cellSet).filter (Loop.Down (nxt s'.d) (startAt s2.d))).card +
    ((ringSet s1.d vs.length V).filter fun j => ¬ Loop.Down (ringNext s1.d vs.length V) (fun j => place s1.d (V j)) j).card := by
  have hcu := F.cu
  simp only [if_true] at hcu
  have hL := F.B.border_loop
  have hnd' : s'.edges.Nodup := hcu.sub.nodup hnd
  rw [← List.toFinset_card_of_nodup hnd']
  -- the other half
  obtain ⟨tw, htw⟩ : ∃ tw : Nat → Nat, tw = fun f => ((s2.d.he f).twin).getD 0 := ⟨_, rfl⟩
  have tw1 : ∀ {f t}, (s2.d.he f).twin = some t → tw f = t := fun h => by rw [htw]; simp only [h, Option.getD_some]
  have hsub : ∀ {e}, e ∈ s'.edges → e ∈ s2.edges := fun he => hcu.sub.subset he
  have htt : ∀ {e}, EdgesOf s2.d s2.edges e → tw (tw e) = e ∧ (s2.d.he e).twin = some (tw e) := by
    intro e he
    obtain ⟨t, h1, _, h2⟩ := F.has_twin he
    rw [tw1 h1, tw1 h2]
    exact ⟨rfl, h1⟩
  -- going down
  obtain ⟨dn, hdn⟩ : ∃ dn : Nat → Prop, dn = fun f => lexLt (startAt s2.d (tw f)) (startAt s2.d f) := ⟨_, rfl⟩
  have hlen : ∀ {e}, e ∈ s'.edges → startAt s2.d (tw e) ≠ startAt s2.d e := by
    intro e he hh
    obtain ⟨t, h1, h2, _⟩ := F.has_twin (Or.inl (hsub he))
    rw [tw1 h1] at hh
    refine (hcu.kept e (hsub he)).mp he t h1 ?_
    rw [F.org_start (Or.inl (hsub he)), F.org_start h2, hh]
  have d1 : ∀ {p f}, LiveIn s s1 s2 s' vs V cell p f → (dn f ↔ Loop.Down (nxt s'.d) (startAt s2.d) f) := by
    intro p f hf
    obtain ⟨_, _, _, t, h1, h2⟩ := F.B.step F.hn hf.1
    have : startAt s2.d t = startAt s2.d (nxt s2.d f) := by
      conv_lhs => unfold startAt
      rw [h2]; rfl
    rw [hdn]
    unfold Loop.Down
    simp only
    rw [tw1 h1, this, F.succ_start hf]
  have hlen' : ∀ {f}, EdgesOf s2.d s'.edges f → startAt s2.d (tw f) ≠ startAt s2.d f := by
    rintro f (h | ⟨e, h, ht⟩)
    · exact hlen h
    · have := hlen h
      rw [← tw1 ht, (htt (Or.inl (hsub h))).1]
      exact this.symm
  have d2 : ∀ {j}, j ∈ ringSet s1.d vs.length V → (dn (s1.d.heCnt + 2 * j) ↔ ¬ Loop.Down (ringNext s1.d vs.length V) (fun j => place s1.d (V j)) j) := by
    intro j hj
    obtain ⟨hj, hne⟩ := mem_ringSet.mp hj
    obtain ⟨_, _, _, h4, h5⟩ := F.B.border hj
    rw [hdn]
    unfold Loop.Down
    simp only
    rw [tw1 (F.B.fp.binv.newT j hj).1, (F.B.ring_next hj).2, not_lexLt hne.symm]
    unfold startAt
    rw [h4, h5]; rfl
  have hX : (((Finset.range n).biUnion F.cellSet).filter (Loop.Down (nxt s'.d) (startAt s2.d))).card +
      ((ringSet s1.d vs.length V).filter fun j => ¬ Loop.Down (ringNext s1.d vs.length V) (fun j => place s1.d (V j)) j).card =
      ((((Finset.range n).biUnion F.cellSet).filter (Loop.Down (nxt s'.d) (startAt s2.d))) ∪
        (((ringSet s1.d vs.length V).filter fun j => ¬ Loop.Down (ringNext s1.d vs.length V) (fun j => place s1.d (V j)) j).image fun j => s1.d.heCnt + 2 * j)).card := by
    rw [Finset.card_union_of_disjoint, Finset.card_image_of_injective _ (fun a b h => by omega)]
    rw [Finset.disjoint_left]
    intro f hf hf'
    obtain ⟨p, _, hp⟩ := Finset.mem_biUnion.mp (Finset.mem_filter.mp hf).1
    obtain ⟨j, hj, rfl⟩ := Finset.mem_image.mp hf'
    have hj := (mem_ringSet.mp (Finset.mem_filter.mp hj).1).1
    have := (F.ofCell_iff.mp (F.mem_cellSet.mp hp).1).2
    rw [(F.B.border hj).2.1] at this
    cases this
  rw [hX]
  have hmem : ∀ f, f ∈ ((((Finset.range n).biUnion F.cellSet).filter (Loop.Down (nxt s'.d) (startAt s2.d))) ∪
        (((ringSet s1.d vs.length V).filter fun j => ¬ Loop.Down (ringNext s1.d vs.length V) (fun j => place s1.d (V j)) j).image fun j => s1.d.heCnt + 2 * j)) ↔
      EdgesOf s2.d s'.edges f ∧ dn f := by
    intro f
    rw [Finset.mem_union, Finset.mem_filter, Finset.mem_biUnion, Finset.mem_image]
    constructor
    · rintro (⟨⟨p, hp, hf⟩, hd⟩ | ⟨j, hj, rfl⟩)
      · have hf := F.mem_cellSet.mp hf
        refine ⟨?_, (d1 hf).mpr hd⟩
        by_contra hh
        exact hf.2 ⟨(F.ofCell_iff.mp hf.1).1, hh⟩
      · obtain ⟨hj', hd⟩ := Finset.mem_filter.mp hj
        obtain ⟨hj, hne⟩ := mem_ringSet.mp hj'
        refine ⟨?_, (d2 hj').mpr hd⟩
        refine Or.inr ⟨s1.d.heCnt + 2 * j + 1, ?_, (F.B.border hj).1⟩
        have he : s1.d.heCnt + 2 * j + 1 ∈ s2.edges := by
          rw [F.edges]
          exact List.mem_append_right _ (List.mem_map.mpr ⟨j, List.mem_range.mpr hj, rfl⟩)
        refine (hcu.kept _ he).mpr fun t ht hh => hne (F.flat_border hj (Or.inr fun t' ht' => ?_))
        rw [ht, Option.some.injEq] at ht'
        rw [← ht', hh]
    · rintro ⟨hf, hd⟩
      rcases F.in_or_out hf with ⟨p, hp, hl⟩ | ⟨j, hj, rfl⟩
      · exact Or.inl ⟨⟨p, Finset.mem_range.mpr hp, F.mem_cellSet.mpr hl⟩, (d1 hl).mp hd⟩
      · have hj' : j ∈ ringSet s1.d vs.length V := by
          refine mem_ringSet.mpr ⟨hj, fun hh => hlen' hf ?_⟩
          obtain ⟨_, _, _, h4, h5⟩ := F.B.border hj
          rw [tw1 (F.B.fp.binv.newT j hj).1]
          unfold startAt
          rw [h4, h5, hh]
        exact Or.inr ⟨j, Finset.mem_filter.mpr ⟨hj', (d2 hj').mp hd⟩, rfl⟩
  refine Finset.card_bij (fun e _ => if dn e then e else tw e) ?_ ?_ ?_
  · intro e he
    have he := List.mem_toFinset.mp he
    rw [hmem]
    obtain ⟨t1, t2⟩ := htt (Or.inl (hsub he))
    by_cases hd : dn e
    · rw [if_pos hd]
      exact ⟨Or.inl he, hd⟩
    · rw [if_neg hd]
      refine ⟨Or.inr ⟨e, he, t2⟩, ?_⟩
      rw [hdn] at hd ⊢
      simp only [t1] at hd ⊢
      exact (not_lexLt (hlen he)).mp hd
  · intro e he e' he' h
    have he := List.mem_toFinset.mp he
    have he' := List.mem_toFinset.mp he'
    obtain ⟨t1, t2⟩ := htt (Or.inl (hsub he))
    obtain ⟨t1', t2'⟩ := htt (Or.inl (hsub he'))
    by_cases hd : dn e <;> by_cases hd' : dn e'
    · rwa [if_pos hd, if_pos hd'] at h
    · rw [if_pos hd, if_neg hd'] at h
      exact absurd (hsub he) (h ▸ F.half_listed (hsub he') t2')
    · rw [if_neg hd, if_pos hd'] at h
      exact absurd (hsub he') (h ▸ F.half_listed (hsub he) t2)
    · rw [if_neg hd, if_neg hd'] at h
      rw [← t1, h, t1']
  · intro f hf
    obtain ⟨h1, h2⟩ := (hmem f).mp hf
    rcases h1 with h1 | ⟨e, h1, h3⟩
    · exact ⟨f, List.mem_toFinset.mpr h1, if_pos h2⟩
    · refine ⟨e, List.mem_toFinset.mpr h1, ?_⟩
      have e1 := tw1 h3
      have e2 := (htt (Or.inl (hsub h1))).1
      rw [if_neg, e1]
      rw [hdn] at h2 ⊢
      simp only at h2 ⊢
      rw [e1]
      rw [← e1, e2, e1] at h2
      exact lexLt_asymm h2

theorem edges_nodup : s2.edges.Nodup := by
  obtain ⟨L, hI⟩ := reach_inv F.B.spec F.B.reach
  rw [F.edges, List.nodup_append']
  refine ⟨F.B.clip.sub.nodup hI.dinv.end_, List.nodup_range.map fun a b h => by omega, fun e h1 h2 => ?_⟩
  have := hI.dinv.elt e (F.B.clip.sub.subset h1)
  have := F.B.heCnt
  obtain ⟨j, _, rfl⟩ := List.mem_map.mp h2
  omega

/-- The clean-up removes as many vertices as edges. -/
theorem removed (hv1 : s1.verts = s.verts) : s2.verts.length + s'.edges.length = s'.verts.length + s2.edges.length := by
  classical
  have hcu := F.cu
  simp only [if_true] at hcu
  have hdist := (F.safe hv1).dist
  have hv := hcu.left hdist (F.nodup2 hv1)
  have hnv' : s'.verts.Nodup := hcu.verts.nodup (F.nodup2 hv1)
  have hne' : s'.edges.Nodup := hcu.sub.nodup F.edges_nodup
  have hk : ∀ e ∈ s2.edges, e ∈ s'.edges ↔ ¬ Flat s2.d e := by
    intro e he
    rw [hcu.kept e he]
    obtain ⟨t, ht, _⟩ := F.has_twin (Or.inl he)
    constructor
    · intro h hf
      exact h t ht (hf t ht)
    · intro h t' ht' hh
      refine h fun t'' ht'' => ?_
      rw [ht', Option.some.injEq] at ht''
      rw [← ht'', hh]
  have h1 := Finset.card_filter_add_card_filter_not (s := s2.edges.toFinset) (Flat s2.d)
  have h2 := Finset.card_filter_add_card_filter_not (s := s2.verts.toFinset) (fun v => ∃ e ∈ s2.edges, Flat s2.d e ∧ (s2.d.he e).origin = .vtx v)
  have e1 : s2.edges.toFinset.filter (fun e => ¬ Flat s2.d e) = s'.edges.toFinset := by
    ext e
    rw [Finset.mem_filter, List.mem_toFinset, List.mem_toFinset]
    exact ⟨fun h => (hk e h.1).mpr h.2, fun h => ⟨hcu.sub.subset h, (hk e (hcu.sub.subset h)).mp h⟩⟩
  have e2 : s2.verts.toFinset.filter (fun v => ¬ ∃ e ∈ s2.edges, Flat s2.d e ∧ (s2.d.he e).origin = .vtx v) = s'.verts.toFinset := by
    ext v
    have : v ∈ s'.verts ↔ v ∈ s2.verts ∧ ∀ e ∈ s2.edges, Flat s2.d e → (s2.d.he e).origin ≠ .vtx v := hv v
    rw [Finset.mem_filter, List.mem_toFinset, List.mem_toFinset, this]
    refine and_congr_right fun _ => ?_
    push Not
    rfl
  have e3 : (s2.edges.toFinset.filter (Flat s2.d)).card = (s2.verts.toFinset.filter (fun v => ∃ e ∈ s2.edges, Flat s2.d e ∧ (s2.d.he e).origin = .vtx v)).card := by
    have ho : ∀ e ∈ s2.edges, ∃ v ∈ s2.verts, (s2.d.he e).origin = .vtx v := fun e he => F.org2 hv1 (Or.inl he)
    choose! o ho1 ho2 using ho
    refine Finset.card_bij (fun e _ => o e) ?_ ?_ ?_
    · intro e he
      obtain ⟨k1, k2⟩ := Finset.mem_filter.mp he
      have k1 := List.mem_toFinset.mp k1
      exact Finset.mem_filter.mpr ⟨List.mem_toFinset.mpr (ho1 e k1), e, k1, k2, ho2 e k1⟩
    · intro e he f hf h
      obtain ⟨k1, k2⟩ := Finset.mem_filter.mp he
      obtain ⟨k3, k4⟩ := Finset.mem_filter.mp hf
      have k1 := List.mem_toFinset.mp k1
      have k3 := List.mem_toFinset.mp k3
      exact hdist e k1 f k3 k2 k4 (by rw [ho2 e k1, ho2 f k3, h])
    · intro v hv
      obtain ⟨_, e, k1, k2, k3⟩ := Finset.mem_filter.mp hv
      refine ⟨e, Finset.mem_filter.mpr ⟨List.mem_toFinset.mpr k1, k2⟩, ?_⟩
      have := ho2 e k1
      rw [k3, Org.vtx.injEq] at this
      exact this.symm
  rw [e1, List.toFinset_card_of_nodup hne', List.toFinset_card_of_nodup F.edges_nodup] at h1
  rw [e2, List.toFinset_card_of_nodup hnv', List.toFinset_card_of_nodup (F.nodup2 hv1)] at h2
  omega

/-- Half-edges are counted at the vertices where they start. -/
theorem degrees (hv1 : s1.verts = s.verts) : 2 * s2.edges.length = ∑ v ∈ s2.verts.toFinset, (s2.d.vs v).conn.length := by
  classical
  obtain ⟨tw, htw⟩ : ∃ tw : Nat → Nat, tw = fun f => ((s2.d.he f).twin).getD 0 := ⟨_, rfl⟩
  have tw1 : ∀ {f t}, (s2.d.he f).twin = some t → tw f = t := fun h => by rw [htw]; simp only [h, Option.getD_some]
  have hH : s2.verts.toFinset.biUnion (fun v => (s2.d.vs v).conn.toFinset) = s2.edges.toFinset ∪ s2.edges.toFinset.image tw := by
    ext f
    rw [Finset.mem_biUnion, Finset.mem_union, List.mem_toFinset, Finset.mem_image]
    constructor
    · rintro ⟨v, hv, hf⟩
      rcases (((F.conn2 hv1 (List.mem_toFinset.mp hv)).2 f).mp (List.mem_toFinset.mp hf)).1 with h | ⟨e, he, h⟩
      · exact Or.inl h
      · exact Or.inr ⟨e, List.mem_toFinset.mpr he, tw1 h⟩
    · intro h
      have hf : EdgesOf s2.d s2.edges f := by
        rcases h with h | ⟨e, he, rfl⟩
        · exact Or.inl h
        · obtain ⟨t, ht, _⟩ := F.has_twin (Or.inl (List.mem_toFinset.mp he))
          exact Or.inr ⟨e, List.mem_toFinset.mp he, by rw [tw1 ht, ht]⟩
      obtain ⟨v, hv, ho⟩ := F.org2 hv1 hf
      exact ⟨v, List.mem_toFinset.mpr hv, List.mem_toFinset.mpr (((F.conn2 hv1 hv).2 f).mpr ⟨hf, ho⟩)⟩
  have h1 : (s2.verts.toFinset.biUnion fun v => (s2.d.vs v).conn.toFinset).card = ∑ v ∈ s2.verts.toFinset, (s2.d.vs v).conn.length := by
    rw [Finset.card_biUnion]
    · exact Finset.sum_congr rfl fun v hv => List.toFinset_card_of_nodup (F.conn2 hv1 (List.mem_toFinset.mp hv)).1
    · intro v hv w hw hne
      rw [Function.onFun, Finset.disjoint_left]
      intro f hf hf'
      have k1 := (((F.conn2 hv1 (List.mem_toFinset.mp hv)).2 f).mp (List.mem_toFinset.mp hf)).2
      have k2 := (((F.conn2 hv1 (List.mem_toFinset.mp hw)).2 f).mp (List.mem_toFinset.mp hf')).2
      rw [k1, Org.vtx.injEq] at k2
      exact hne k2
  rw [← h1, hH, Finset.card_union_of_disjoint, Finset.card_image_of_injOn, List.toFinset_card_of_nodup F.edges_nodup]
  · omega
  · intro e he f hf h
    obtain ⟨t, t1, _, t2⟩ := F.has_twin (Or.inl (List.mem_toFinset.mp he))
    obtain ⟨u, u1, _, u2⟩ := F.has_twin (Or.inl (List.mem_toFinset.mp hf))
    rw [tw1 t1, tw1 u1] at h
    rw [h, u2, Option.some.injEq] at t2
    exact t2.symm
  · rw [Finset.disjoint_left]
    intro f hf hf'
    obtain ⟨e, he, rfl⟩ := Finset.mem_image.mp hf'
    have he := List.mem_toFinset.mp he
    obtain ⟨t, ht, _⟩ := F.has_twin (Or.inl he)
    rw [tw1 ht] at hf
    exact F.half_listed he ht (List.mem_toFinset.mp hf)

/-- The vertices made for the corners of the polygon. -/
theorem corner_verts : (s2.verts.toFinset.filter fun v => v < poly.points.length).card = poly.points.length := by
  have : (s2.verts.toFinset.filter fun v => v < poly.points.length) = Finset.range poly.points.length := by
    ext v
    rw [Finset.mem_filter, List.mem_toFinset, Finset.mem_range]
    exact ⟨fun h => h.2, fun h => ⟨(F.corner_mem h).1, h⟩⟩
  rw [this, Finset.card_range]

end Finish

/-- C93, with the clean-up. -/
theorem euler_clean (hF : FitsCorners pts n poly) (hd : Distinct pts n) (hq : q.Spec evLt ok) (hn : 0 < n)
    (h : createDiagram pts q n fuel poly true (initSt poly) = .ok ((), s')) : s'.verts.length + (cellsIn pts n poly).card = s'.edges.length + 1 := by
  classical
  obtain ⟨s, s1, s2, vs, V, cell, F, hv1⟩ := create_finish_verts hF hd hq hn h
  obtain ⟨v1, v2, v3⟩ := C88_final_vertices hF hd hq hn h
  obtain ⟨v3, v4⟩ := v3 rfl
  choose! pl hp1 hp2 using v1
  have hP : ∀ z, z ∈ s'.verts.toFinset.image pl ↔ DiagramVertex pts n poly z := by
    intro z
    rw [Finset.mem_image]
    constructor
    · rintro ⟨v, hv, rfl⟩
      exact hp2 v (List.mem_toFinset.mp hv)
    · intro hz
      obtain ⟨v, hv, e⟩ := v2 z hz
      refine ⟨v, List.mem_toFinset.mpr hv, ?_⟩
      rw [hp1 v hv, Option.some.injEq] at e
      exact e
  have hc : (s'.verts.toFinset.image pl).card = s'.verts.length := by
    rw [Finset.card_image_of_injOn, List.toFinset_card_of_nodup v3]
    intro v hv w hw e
    have hv := List.mem_toFinset.mp hv
    have hw := List.mem_toFinset.mp hw
    exact v4 v hv w hw (by rw [hp1 v hv, hp1 w hw, e])
  have h1 := F.count_inner _ hP
  have h2 := F.count_border _ hP
  have h3 := F.count_cells
  have h4 := F.count_edges F.edges_nodup
  have h5 := Finset.card_filter_add_card_filter_not (s := s'.verts.toFinset.image pl) (Enters {z | InClosed poly.points z})
  rw [hc] at h5
  rw [h3] at h4
  rw [← h5, h4]
  rw [h1, h2]
  omega

/-- C93: vertices, edges and cells in the polygon of the finished diagram satisfy Euler's formula, with and without the clean-up. -/
theorem C93_euler (hF : FitsCorners pts n poly) (hd : Distinct pts n) (hq : q.Spec evLt ok) (hn : 0 < n)
    (h : createDiagram pts q n fuel poly rz (initSt poly) = .ok ((), s')) : s'.verts.length + (cellsIn pts n poly).card = s'.edges.length + 1 := by
  cases rz with
  | true => exact euler_clean hF hd hq hn h
  | false =>
    obtain ⟨s, s1, s2, s3, vs, V, cell, F, h1, h2, _, hcu, _, _, hv1⟩ := clean_run hF hd hq hn h
    have F' : Finish pts q ok n poly true s s1 s2 s3 vs V cell := ⟨F.B, F.hn, F.edges, by simp only [if_true]; exact hcu⟩
    have k1 := euler_clean hF hd hq hn h1
    have k2 := F'.removed hv1
    have e1 : s'.verts = s2.verts := by rw [h2]
    have e2 : s'.edges = s2.edges := by rw [h2]
    rw [e1, e2]
    omega

/-- C93: without the clean-up the numbers of vertices and edges depend only on the numbers of cells in the polygon and of corners. -/
theorem C93_counts (hF : FitsCorners pts n poly) (hd : Distinct pts n) (hq : q.Spec evLt ok) (hn : 0 < n)
    (h : createDiagram pts q n fuel poly false (initSt poly) = .ok ((), s')) :
    s'.verts.length + 2 = 2 * (cellsIn pts n poly).card + poly.points.length ∧ s'.edges.length + 3 = 3 * (cellsIn pts n poly).card + poly.points.length := by
  classical
  have k1 := C93_euler hF hd hq hn h
  obtain ⟨s, s1, s2, s3, vs, V, cell, F, _, h2, _, hcu, _, _, hv1⟩ := clean_run hF hd hq hn h
  have F' : Finish pts q ok n poly true s s1 s2 s3 vs V cell := ⟨F.B, F.hn, F.edges, by simp only [if_true]; exact hcu⟩
  have e1 : s'.verts = s2.verts := by rw [h2]
  have e2 : s'.edges = s2.edges := by rw [h2]
  rw [e1, e2] at k1 ⊢
  have k2 := F'.degrees hv1
  have k3 : ∀ v ∈ s2.verts.toFinset, (s2.d.vs v).conn.length + (if v < poly.points.length then 1 else 0) = 3 := by
    intro v hv
    obtain ⟨z, z1, h | h⟩ := F'.degree2 hv1 (List.mem_toFinset.mp hv)
    · rw [if_pos h.1, h.2.2]
    · rw [if_neg (by omega), h.2.1]
  have k4 := Finset.sum_congr rfl k3
  rw [Finset.sum_add_distrib, ← k2, Finset.sum_boole, F'.corner_verts, Finset.sum_const, List.toFinset_card_of_nodup (F'.nodup2 hv1)] at k4
  simp only [Nat.cast_id, smul_eq_mul] at k4
  omega

/-- C93: the size of the finished diagram is linear in the numbers of cells in the polygon and corners. -/
theorem C93_linear (hF : FitsCorners pts n poly) (hd : Distinct pts n) (hq : q.Spec evLt ok) (hn : 0 < n)
    (h : createDiagram pts q n fuel poly rz (initSt poly) = .ok ((), s')) (hf : 7 * n < fuel) :
    s'.verts.length + 2 ≤ 2 * (cellsIn pts n poly).card + poly.points.length ∧ s'.edges.length + 3 ≤ 3 * (cellsIn pts n poly).card + poly.points.length := by
  cases rz with
  | false =>
    obtain ⟨h1, h2⟩ := C93_counts hF hd hq hn h
    exact ⟨h1.le, h2.le⟩
  | true =>
    obtain ⟨s0, s3, h0, h3, hsub, _⟩ := C74_cleanup_succeeds (fuel := fuel) hF hd hq hn hf
    rw [h, Except.ok.injEq, Prod.mk.injEq] at h3
    obtain ⟨_, rfl⟩ := h3
    have k1 := C93_euler hF hd hq hn h
    obtain ⟨h1, h2⟩ := C93_counts hF hd hq hn h0
    have := hsub.length_le
    omega

/-- Without restriction on the sites there are not more cells than sites, and with `FitsBorder` all of them are in the polygon. -/
theorem C93_cells : (cellsIn pts n poly).card ≤ n ∧ (FitsBorder pts n poly → (cellsIn pts n poly).card = n) := by
  classical
  refine ⟨(Finset.card_filter_le _ _).trans_eq (Finset.card_range n), fun hF => ?_⟩
  unfold cellsIn
  rw [Finset.filter_true_of_mem, Finset.card_range]
  intro p hp
  obtain ⟨c, hm⟩ := (hF.shown (Finset.mem_range.mp hp)).mid
  exact ⟨c, hm.inside.closed, hm.nearest⟩

/-- The hypotheses can be met with four sites on a circle in a rectangle: ten vertices and thirteen edges. -/
example : ∃ poly s', boundingBox (-3 : ℝ) 4 98 106 = .ok poly ∧ createDiagram square4 heapq 4 30 poly false (initSt poly) = .ok ((), s') ∧
    s'.verts.length = 10 ∧ s'.edges.length = 13 := by
  have hp := box_points (show (-3 : ℝ) < 4 by norm_num) (show (98 : ℝ) < 106 by norm_num)
  obtain ⟨s', _, h, _⟩ := C74_cleanup_succeeds (fuel := 30) (square4_border hp).toFitsCorners square4_distinct C45_event_queue (by norm_num) (by norm_num)
  obtain ⟨h1, h2⟩ := C93_counts (square4_border hp).toFitsCorners square4_distinct C45_event_queue (by norm_num) h
  rw [C93_cells.2 (square4_border hp)] at h1 h2
  refine ⟨_, s', hp, h, ?_, ?_⟩
  · simp only [List.length_cons, List.length_nil] at h1; omega
  · simp only [List.length_cons, List.length_nil] at h2; omega

end Foronoi
