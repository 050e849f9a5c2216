import Verif.Proof.BorderCells
import Mathlib.Topology.MetricSpace.ProperSpace
import Mathlib.Topology.Instances.Real.Lemmas

/-!
# The cells along the border: every border edge is labelled with the cell it belongs to
-/

namespace Foronoi

open scoped List

/-- A segment is closed. -/
theorem between_limit {x y z u : Pt} {ε : ℝ} (h0 : 0 < ε) (h : ∀ t, 0 < t → t ≤ ε → Between x y (along z u t)) : Between x y z := by
  have hc : IsClosed {w : Pt | Between x y w} := by
    have : {w : Pt | Between x y w} = (fun t : ℝ => (((1 - t) * x.1 + t * y.1, (1 - t) * x.2 + t * y.2) : Pt)) '' Set.Icc 0 1 := by
      ext w
      constructor
      · rintro ⟨t, t0, t1, e⟩
        exact ⟨t, ⟨t0, t1⟩, e.symm⟩
      · rintro ⟨t, ⟨t0, t1⟩, e⟩
        exact ⟨t, t0, t1, e.symm⟩
    rw [this]
    refine (isCompact_Icc.image ?_).isClosed
    fun_prop
  have hcont : Continuous (fun t : ℝ => along z u t) := by
    unfold along
    fun_prop
  have hpre : IsClosed ((fun t : ℝ => along z u t) ⁻¹' {w : Pt | Between x y w}) := hc.preimage hcont
  have hsub : Set.Ioc 0 ε ⊆ (fun t : ℝ => along z u t) ⁻¹' {w : Pt | Between x y w} := fun t ht => h t ht.1 ht.2
  have hcl := hpre.closure_subset_iff.mpr hsub
  rw [closure_Ioc h0.ne] at hcl
  have := hcl (show (0 : ℝ) ∈ Set.Icc 0 ε from ⟨le_rfl, h0.le⟩)
  have e : along z u 0 = z := by unfold along; apply Prod.ext <;> simp
  have h2 : Between x y (along z u 0) := this
  rwa [e] at h2

/-- A border point of a segment in the polygon that passes through the interior is an end of the segment. -/
theorem border_end {l : List Pt} {x y z w : Pt} (hx : InClosed l x) (hy : InClosed l y) (hz : OnBoundary l z) (hb : Between x y z)
    (hw : StrictlyInside l w) (hbw : Between x y w) : z = x ∨ z = y := by
  obtain ⟨k, hk, hs⟩ := hz
  obtain ⟨u, u0, u1, rfl⟩ := hb
  obtain ⟨v, v0, v1, rfl⟩ := hbw
  have hz0 : rightOf (corner l k) (corner l (k + 1)) ((1 - u) * x.1 + u * y.1, (1 - u) * x.2 + u * y.2) = 0 := rightOf_side hs
  have hw0 := hw k hk
  have hx0 := hx k hk
  have hy0 := hy k hk
  have e : ∀ u : ℝ, rightOf (corner l k) (corner l (k + 1)) ((1 - u) * x.1 + u * y.1, (1 - u) * x.2 + u * y.2) =
      (1 - u) * rightOf (corner l k) (corner l (k + 1)) x + u * rightOf (corner l k) (corner l (k + 1)) y := by
    intro u; unfold rightOf; ring
  rw [e] at hz0 hw0
  rcases eq_or_lt_of_le u0 with h | h
  · left; subst h; apply Prod.ext <;> simp
  rcases eq_or_lt_of_le u1 with h' | h'
  · right; subst h'; apply Prod.ext <;> simp
  exfalso
  have a1 := mul_nonneg (by linarith : 0 ≤ 1 - u) hx0
  have a2 := mul_nonneg u0 hy0
  have b1 : (1 - u) * rightOf (corner l k) (corner l (k + 1)) x = 0 := by linarith
  have b2 : u * rightOf (corner l k) (corner l (k + 1)) y = 0 := by linarith
  rcases mul_eq_zero.mp b1 with c | c
  · linarith
  rcases mul_eq_zero.mp b2 with d | d
  · linarith
  rw [c, d] at hw0
  linarith

variable {pts : Nat → ℝ × ℝ} {q : PQ (QE ℝ)} {ok : List (QE ℝ) → Prop} {n : Nat} {poly : Poly ℝ} {s : St ℝ} {d1 : Dcel ℝ} {r pv : List Nat}

namespace Clipping

section
variable (C : Clipping pts q ok n poly s d1 r pv)
include C

/-- A border point between two cells is the end of the edge between them. -/
theorem crossing {z : Pt} (hz : OnBoundary poly.points z) {p o : Nat} (hpo : p ≠ o) (hp : Nearest pts n p z) (ho : Nearest pts n o z) :
    ∃ f t i j, Edg s.d f t i j ∧ (i = p ∧ j = o ∨ i = o ∧ j = p) ∧ opos d1 f = some z := by
  have hF := C.fits.toFitsPolygon
  have hcl : InClosed poly.points z := hz.closed hF.convex
  have hnv : ¬ VoronoiVertex pts n z := fun hv => hF.border z hv hz
  have hne : pts p ≠ pts o := fun hh => hpo (C.dist p hp.1 o ho.1 hh)
  obtain ⟨u, u1, u2⟩ := hF.touch p o z hpo hz hp ho
  obtain ⟨ε, e0, e1, h3⟩ := nearest_stay hpo hp ho hnv u2
  have hin : ∀ t, 0 < t → t ≤ ε → StrictlyInside poly.points (along z u t) := fun t h0 h1 => along_inside hcl u1 h0 (h1.trans e1)
  obtain ⟨m1, m2, _⟩ := h3 ε e0.le le_rfl
  have hzw : z ≠ along z u ε := by
    intro hh
    have := hin ε e0 le_rfl
    rw [← hh] at this
    exact hz.not_inside this
  obtain ⟨e, he, hs, hlen⟩ := C64_edge_exists C.dist C.spec C.reach C.done hpo hzw hp ho m1 m2
  obtain ⟨t, hE, hE'⟩ := sep_edg C.spec C.reach he hs
  obtain ⟨_, _, k3, k4⟩ := C.half hE
  obtain ⟨x, y, hx, hy, _⟩ := k4 _ (hin ε e0 le_rfl) m1 m2 hlen
  have hb : Between x y z := by
    refine between_limit (u := u) e0 fun t h0 h1 => ?_
    obtain ⟨m1, m2, _⟩ := h3 t h0.le h1
    obtain ⟨x', y', hx', hy', hb⟩ := k4 _ (hin t h0 h1) m1 m2 hlen
    rw [hx, Option.some.injEq] at hx'
    rw [hy, Option.some.injEq] at hy'
    exact hx' ▸ hy' ▸ hb
  obtain ⟨_, ⟨w, w1, w2⟩, _, k5⟩ := k3 x y hx hy
  rcases border_end (k5 x (between_left x y)).1 (k5 y (between_right x y)).1 hz hb w1 w2 with h | h
  · exact ⟨e, t, p, o, hE, Or.inl ⟨rfl, rfl⟩, by rw [h]; exact hx⟩
  · exact ⟨t, e, o, p, hE', Or.inr ⟨rfl, rfl⟩, by rw [h]; exact hy⟩

end

end Clipping

theorem nearest_exists (hn : 0 < n) (z : Pt) : ∃ i, Nearest pts n i z := by
  obtain ⟨i, hi, hm⟩ := Finset.exists_min_image (Finset.range n) (fun c => dsq (pts c) z) ⟨0, Finset.mem_range.mpr hn⟩
  exact ⟨i, Finset.mem_range.mp hi, fun c hc => hm c (Finset.mem_range.mpr hc)⟩

/-- The indices of two elements in the order of a sublist. -/
theorem pair_index {α : Type} {a b : α} {l : List α} (h : [a, b] <+ l) : ∃ i j, i < j ∧ j < l.length ∧ l[i]? = some a ∧ l[j]? = some b := by
  obtain ⟨f, hf⟩ := List.sublist_iff_exists_fin_orderEmbedding_get_eq.mp h
  refine ⟨f 0, f 1, Fin.lt_def.mp (f.strictMono (by simp)), (f 1).isLt, ?_, ?_⟩
  · have := hf 0
    simp at this
    rw [this]; simp
  · have := hf 1
    simp at this
    rw [this]; simp

/-- The border is closed: `V 0, …, V (m-1)` are the border vertices in order. -/
structure Closing (pts : Nat → ℝ × ℝ) (q : PQ (QE ℝ)) (ok : List (QE ℝ) → Prop) (n : Nat) (poly : Poly ℝ) (s s1 s2 : St ℝ) (vs : List Nat) (V : Nat → Nat)
    (cell : Nat) : Prop extends Clipping pts q ok n poly s s1.d s1.edges s1.polyVerts where
  fp : FP pts n poly s1 s2 vs V cell

variable {s1 s2 : St ℝ} {vs : List Nat} {V : Nat → Nat} {cell : Nat}

/-- The place of a vertex. -/
def place (d : Dcel ℝ) (v : Nat) : Pt := (d.vs v).pos.getD (0, 0)

namespace Closing

variable (B : Closing pts q ok n poly s s1 s2 vs V cell)
include B

theorem mem {j : Nat} (hj : j < vs.length) : V j ∈ s1.polyVerts ∧ (s1.d.vs (V j)).pos = some (place s1.d (V j)) := by
  have h := B.fp.V_eq j hj
  have hm : V j ∈ vs := List.mem_of_getElem? h
  have := B.fp.perm.mem_iff.mp hm
  rw [List.mem_filter] at this
  obtain ⟨p, hp⟩ := Option.isSome_iff_exists.mp this.2
  refine ⟨this.1, ?_⟩
  unfold place
  rw [hp]; rfl

theorem mem_of {v : Nat} (hv : v ∈ s1.polyVerts) (hp : (s1.d.vs v).pos.isSome) : ∃ j < vs.length, V j = v := by
  have : v ∈ vs := B.fp.perm.mem_iff.mpr (List.mem_filter.mpr ⟨hv, hp⟩)
  obtain ⟨j, hj, e⟩ := List.getElem_of_mem this
  refine ⟨j, hj, ?_⟩
  have := B.fp.V_eq j hj
  rw [List.getElem?_eq_getElem hj, e, Option.some.injEq] at this
  exact this.symm

theorem keySorted : KeySorted poly.center poly.points := by
  obtain ⟨l, hl⟩ := B.fits.made
  exact (mkPoly_ok hl).2

/-- A border vertex is a corner, without edges, or the end of one edge. -/
theorem kind {j : Nat} (hj : j < vs.length) :
    (hd s1.d (V j) = none ∧ ∃ k < poly.points.length, V j = k ∧ place s1.d (V j) = corner poly.points k) ∨
    (OnBoundary poly.points (place s1.d (V j)) ∧ s.d.vCnt ≤ V j ∧ ∃ f, hd s1.d (V j) = some f ∧ f < s.d.heCnt ∧ (s1.d.he f).origin = .vtx (V j) ∧
      opos s1.d f = some (place s1.d (V j))) := by
  obtain ⟨L, hI⟩ := reach_inv B.spec B.reach
  have hc := reach_corner B.spec B.reach
  obtain ⟨m1, m2⟩ := B.mem hj
  have hvc := hI.dinv.vcnt
  rcases B.clip.from_ _ m1 with h | ⟨h1, f, h2, h3⟩
  · left
    rw [hc.pv, List.mem_range] at h
    constructor
    · have : (s1.d.vs (V j)).conn = [] := by
        refine List.eq_nil_iff_forall_not_mem.mpr fun c hc => ?_
        have := B.clip.keeps.conn (V j) (by omega) c hc
        rw [hI.dinv.poly _ h] at this
        cases this
      rw [hd, this]; rfl
    · refine ⟨V j, h, rfl, ?_⟩
      rw [B.clip.keeps.pos _ (by omega), hc.pos _ h, List.getElem?_eq_getElem h, Option.some.injEq] at m2
      rw [corner_eq h, m2]
  · right
    have hf : f < s.d.heCnt := by
      rcases h2 with h | ⟨a, ha, h⟩
      · exact hI.dinv.elt f h
      · obtain ⟨t, b1, b2, _⟩ := hI.dinv.tw a (hI.dinv.elt a ha)
        rw [h, Option.some.injEq] at b1
        exact b1 ▸ b2
    have hx : opos s1.d f = some (place s1.d (V j)) := by rw [opos_vtx h3, m2]
    rcases B.start hf hx with ⟨g1, ⟨v, g2, g3, _⟩, _⟩ | ⟨g1, v, g2, g3, g4, g5⟩
    · rw [h3, g3] at g1
      cases g1
      have := (hI.dinv.vts _ g2).2.1
      omega
    · rw [h3] at g4
      cases g4
      exact ⟨g1, h1, f, by rw [hd, g5]; rfl, hf, h3, hx⟩

theorem ring : Ring poly.center poly.points (fun j => place s1.d (V j)) vs.length where
  pos := List.length_pos_iff.mpr B.fp.ne
  on j hj := by
    rcases B.kind hj with ⟨_, k, h1, _, h2⟩ | ⟨h, _⟩
    · show OnBoundary _ (place s1.d (V j))
      rw [h2]
      exact ⟨k, h1, between_left _ _⟩
    · exact h
  sorted i j hij hj := by
    rcases eq_or_lt_of_le hij with rfl | hlt
    · exact le_rfl
    have h := List.pairwise_iff_getElem.mp B.fp.sorted i j (by omega) hj hlt
    have e : ∀ k (hk : k < vs.length), vs[k] = V k := by
      intro k hk
      have := B.fp.V_eq k hk
      rw [List.getElem?_eq_getElem hk, Option.some.injEq] at this
      exact this
    rw [e i (by omega), e j hj] at h
    exact h _ _ (B.mem (by omega)).2 (B.mem hj).2
  corners k hk := by
    obtain ⟨L, hI⟩ := reach_inv B.spec B.reach
    have hc := reach_corner B.spec B.reach
    have hvc := hI.dinv.vcnt
    have hpos : (s1.d.vs k).pos = some (corner poly.points k) := by
      rw [B.clip.keeps.pos _ (by omega), hc.pos _ hk, List.getElem?_eq_getElem hk, corner_eq hk]
    obtain ⟨new, p1, _⟩ := B.clip.split
    obtain ⟨j, hj, e⟩ := B.mem_of (v := k) (by rw [p1, hc.pv]; exact List.mem_append_left _ (List.mem_range.mpr hk)) (by rw [hpos]; rfl)
    refine ⟨j, hj, ?_⟩
    show place s1.d (V j) = _
    rw [e]; unfold place; rw [hpos]; rfl
  close := by show place s1.d (V vs.length) = _; rw [B.fp.V_end]

/-- On the border between two consecutive vertices one site is nearest. -/
theorem one_cell (hn : 0 < n) {j : Nat} (hj : j < vs.length) :
    ∃ i, ∀ z, Between (place s1.d (V j)) (place s1.d (V (j + 1))) z → Nearest pts n i z := by
  have hF := B.fits.toFitsPolygon
  obtain ⟨L, hI⟩ := reach_inv B.spec B.reach
  have hr := B.ring
  obtain ⟨⟨k, s1', s2'⟩, ht⟩ := hr.step hF.convex B.fits.center B.keySorted hj
  by_cases hne : place s1.d (V j) = place s1.d (V (j + 1))
  · obtain ⟨i, hi⟩ := nearest_exists (pts := pts) hn (place s1.d (V j))
    refine ⟨i, fun z hz => ?_⟩
    rw [← hne] at hz
    exact hi.between hi hz
  refine nearest_segment hn fun t t0 t1 p o hp ho => ?_
  by_contra hpo
  have hb : Between (place s1.d (V j)) (place s1.d (V (j + 1))) (along (place s1.d (V j)) (place s1.d (V (j + 1))) t) := along_between t0.le t1.le
  obtain ⟨s3', _, _⟩ := side_turn_between B.fits.center s1' s2' ht hb
  obtain ⟨f, t', i, o', hE, _, hx⟩ := B.crossing ⟨k, s3'⟩ hpo hp ho
  obtain ⟨v, hv, hv'⟩ : ∃ v ∈ s1.polyVerts, (s1.d.he f).origin = .vtx v := by
    rcases B.start hE.lt hx with ⟨_, _, _, h⟩ | ⟨_, v, h1, _, h2, _⟩
    · exact absurd h (OnBoundary.not_inside ⟨k, s3'⟩)
    · exact ⟨v, h1, h2⟩
  rw [opos_vtx hv'] at hx
  obtain ⟨j', hj', e⟩ := B.mem_of hv (by rw [hx]; rfl)
  have hpl : place s1.d (V j') = along (place s1.d (V j)) (place s1.d (V (j + 1))) t := by unfold place at *; rw [e, hx]; rfl
  have hemp := hr.empty hF.convex B.fits.center B.keySorted hj hj' (by show Between _ _ (place s1.d (V j')); rw [hpl]; exact hb)
  have h1 : along (place s1.d (V j)) (place s1.d (V (j + 1))) t = place s1.d (V j) ∨ along (place s1.d (V j)) (place s1.d (V (j + 1))) t = place s1.d (V (j + 1)) := by
    rw [← hpl]; exact hemp
  apply hne
  unfold along at h1
  rcases h1 with h1 | h1
  · have a1 := congrArg Prod.fst h1
    have a2 := congrArg Prod.snd h1
    simp only at a1 a2
    exact Prod.ext (mul_left_cancel₀ t0.ne' (by linarith)) (mul_left_cancel₀ t0.ne' (by linarith))
  · have a1 := congrArg Prod.fst h1
    have a2 := congrArg Prod.snd h1
    simp only at a1 a2
    have t2 : 1 - t ≠ 0 := by linarith
    exact Prod.ext (mul_left_cancel₀ t2 (by linarith)) (mul_left_cancel₀ t2 (by linarith))

/-- At the end of an edge on the border, the cell after it is the one of the twin. -/
theorem after_end {j : Nat} (hj : j < vs.length) {f t i o : Nat} (hE : Edg s.d f t i o) (hf : hd s1.d (V j) = some f)
    (hx : opos s1.d f = some (place s1.d (V j))) (hb : OnBoundary poly.points (place s1.d (V j))) (hne : place s1.d (V j) ≠ place s1.d (V (j + 1))) :
    dsq (pts o) (place s1.d (V (j + 1))) < dsq (pts i) (place s1.d (V (j + 1))) := by
  have hF := B.fits.toFitsPolygon
  obtain ⟨⟨k, s1', s2'⟩, ht⟩ := B.ring.step hF.convex B.fits.center B.keySorted hj
  obtain ⟨k1, k2, k3, _⟩ := B.half hE
  obtain ⟨L, hI⟩ := reach_inv B.spec B.reach
  have hy : (opos s1.d t).isSome := by
    have h1 := k1.mp (by rw [hx]; rfl)
    exact (B.half (hE.symm hI.dinv)).1.mpr (k2.mp h1)
  obtain ⟨y, hy⟩ := Option.isSome_iff_exists.mp hy
  obtain ⟨g1, ⟨w, g2, g3⟩, _, g4⟩ := k3 _ _ hx hy
  obtain ⟨_, n1, n2⟩ := g4 _ (between_left _ _)
  refine nearer_left g1 (n1.eq n2) ?_
  have hpos := side_turn B.fits.center s1' s2' hne ht g2
  obtain ⟨u, u0, u1, rfl⟩ := g3
  have e : ∀ x y Q : Pt, rightOf ((1 - u) * x.1 + u * y.1, (1 - u) * x.2 + u * y.2) x Q = - (u * rightOf x y Q) := by
    intro x y Q; unfold rightOf; ring
  have hpos' : 0 < - (u * rightOf (place s1.d (V j)) y (place s1.d (V (j + 1)))) := by rw [← e]; exact hpos
  by_contra hh
  push Not at hh
  have := mul_nonneg u0 hh
  linarith

theorem start_hd {f : Nat} (hf : f < s.d.heCnt) {z : Pt} (hx : opos s1.d f = some z) (hz : OnBoundary poly.points z) :
    ∃ j < vs.length, hd s1.d (V j) = some f ∧ place s1.d (V j) = z ∧ (s1.d.he f).origin = .vtx (V j) := by
  rcases B.start hf hx with ⟨_, _, _, h⟩ | ⟨_, v, h1, _, h2, h3⟩
  · exact absurd h hz.not_inside
  · rw [opos_vtx h2] at hx
    obtain ⟨j, hj, e⟩ := B.mem_of h1 (by rw [hx]; rfl)
    exact ⟨j, hj, by rw [e, hd, h3]; rfl, by rw [e, place, hx]; rfl, by rw [e, h2]⟩

/-- Both ends of a kept edge. -/
theorem ends {f t i o : Nat} (hE : Edg s.d f t i o) {x : Pt} (hx : opos s1.d f = some x) : ∃ y, opos s1.d t = some y := by
  obtain ⟨L, hI⟩ := reach_inv B.spec B.reach
  obtain ⟨k1, k2, _⟩ := B.half hE
  have h1 := k1.mp (by rw [hx]; rfl)
  exact Option.isSome_iff_exists.mp ((B.half (hE.symm hI.dinv)).1.mpr (k2.mp h1))

/-- At the end of an edge the two sites of the edge are nearest. -/
theorem near_two {f : Nat} {z : Pt} (hf : f < s.d.heCnt) (hx : opos s1.d f = some z) :
    ∃ t a b, Edg s.d f t a b ∧ Nearest pts n a z ∧ Nearest pts n b z := by
  obtain ⟨t, a, b, hE⟩ := B.edg hf
  obtain ⟨y, hy⟩ := B.ends hE hx
  obtain ⟨_, _, _, k4⟩ := (B.half hE).2.2.1 _ _ hx hy
  exact ⟨t, a, b, hE, (k4 _ (between_left _ _)).2⟩

/-- Two border vertices at the same place: one is a corner and the other the end of an edge. -/
theorem same {i j : Nat} (hi : i < vs.length) (hj : j < vs.length) (h : place s1.d (V i) = place s1.d (V j)) :
    i = j ∨ (hd s1.d (V i) = none ∧ (hd s1.d (V j)).isSome) ∨ ((hd s1.d (V i)).isSome ∧ hd s1.d (V j) = none) := by
  have hF := B.fits.toFitsPolygon
  obtain ⟨L, hI⟩ := reach_inv B.spec B.reach
  rcases B.kind hi with ⟨k1, k, g2, e1, g3⟩ | ⟨g1, _, f, g2, g3, g4, g5⟩ <;> rcases B.kind hj with ⟨k1', k', g2', e1', g3'⟩ | ⟨g1', _, f', g2', g3', g4', g5'⟩
  · left
    refine B.fp.pre.inj i hi j hj ?_
    rw [e1, e1']
    rw [h, g3'] at g3
    rcases lt_trichotomy k k' with hh | hh | hh
    · have := key_lt B.fits.center B.keySorted hh g2'
      rw [g3] at this
      exact absurd this (lt_irrefl _)
    · exact hh
    · have := key_lt B.fits.center B.keySorted hh g2
      rw [g3] at this
      exact absurd this (lt_irrefl _)
  · exact Or.inr (Or.inl ⟨k1, by rw [g2']; rfl⟩)
  · exact Or.inr (Or.inr ⟨by rw [g2]; rfl, k1'⟩)
  · left
    refine B.fp.pre.inj i hi j hj ?_
    obtain ⟨t, a, b, hE, n1, n2⟩ := B.near_two g3 g5
    obtain ⟨t', a', b', hE', n1', n2'⟩ := B.near_two g3' g5'
    obtain ⟨y, hy⟩ := B.ends hE g5
    obtain ⟨y', hy'⟩ := B.ends hE' g5'
    obtain ⟨_, ⟨w, w1, w2⟩, hlen, _⟩ := (B.half hE).2.2.1 _ _ g5 hy
    obtain ⟨_, _, hlen', _⟩ := (B.half hE').2.2.1 _ _ g5' hy'
    have hab := hE.ne hI.dinv
    have hab' := hE'.ne hI.dinv
    rw [← h] at n1' n2'
    have ha : a' = a ∨ a' = b := by
      by_contra hh
      push Not at hh
      exact hF.border _ ⟨a', a, b, hh.1, hab, hh.2, n1', n1, n2⟩ g1
    have hb : b' = a ∨ b' = b := by
      by_contra hh
      push Not at hh
      exact hF.border _ ⟨b', a, b, hh.1, hab, hh.2, n2', n1, n2⟩ g1
    have hcase : a' = a ∧ b' = b ∨ a' = b ∧ b' = a := by grind
    rcases hcase with ⟨rfl, rfl⟩ | ⟨rfl, rfl⟩
    · have := C69_no_duplicate B.dist B.spec B.reach B.done g3 g3' ⟨hE.inc, t, hE.tw, hE.tinc⟩ ⟨hE'.inc, t', hE'.tw, hE'.tinc⟩ (hlen (Or.inl g1)) (hlen' (Or.inl g1'))
      subst this
      rw [g4] at g4'
      exact Org.vtx.inj g4'
    · exfalso
      have hEt := hE.symm hI.dinv
      have := C69_no_duplicate B.dist B.spec B.reach B.done hEt.lt g3' ⟨hEt.inc, f, hEt.tw, hEt.tinc⟩ ⟨hE'.inc, t', hE'.tw, hE'.tinc⟩
        (hasLength_twin hEt.tw hE.tw (hlen (Or.inl g1))) (hlen' (Or.inl g1'))
      subst this
      rw [hy, Option.some.injEq] at g5'
      rw [g5', ← h] at w2
      obtain ⟨u, _, _, hu⟩ := w2
      have : w = place s1.d (V i) := by rw [hu]; apply Prod.ext <;> simp only <;> ring
      exact g1.not_inside (this ▸ w1)

/-- If two border vertices are at the same place, then the first is a corner, not the first one of the polygon, and the second, which
follows it, is the end of an edge. -/
theorem tie {i j : Nat} (hij : i < j) (hj : j < vs.length) (h : place s1.d (V i) = place s1.d (V j)) :
    0 < i ∧ j = i + 1 ∧ hd s1.d (V i) = none ∧ (hd s1.d (V j)).isSome ∧ ∃ k, 0 < k ∧ k < poly.points.length ∧ V i = k ∧ place s1.d (V i) = corner poly.points k := by
  have hF := B.fits.toFitsPolygon
  have hi : i < vs.length := by omega
  obtain ⟨L, hI⟩ := reach_inv B.spec B.reach
  have hc := reach_corner B.spec B.reach
  obtain ⟨new, p1, _, p3⟩ := B.clip.split
  rw [hc.pv] at p1
  have hvc := hI.dinv.vcnt
  have notFirst : ∀ {i j : Nat}, i < vs.length → j < vs.length → place s1.d (V i) = place s1.d (V j) → hd s1.d (V i) = none → (hd s1.d (V j)).isSome →
      ∃ k, 0 < k ∧ k < poly.points.length ∧ V i = k ∧ place s1.d (V i) = corner poly.points k := by
    intro i j hi hj h h1 h2
    rcases B.kind hi with ⟨_, k, g2, e1, g3⟩ | ⟨_, _, f, g2, _⟩
    · refine ⟨k, Nat.pos_of_ne_zero ?_, g2, e1, g3⟩
      rintro rfl
      rcases B.kind hj with ⟨g1', _⟩ | ⟨g1', _, f', g2', g3', g4', g5'⟩
      · rw [g1'] at h2; cases h2
      obtain ⟨t, a, b, hE, n1, n2⟩ := B.near_two g3' g5'
      rw [← h, g3] at n1 n2
      exact hE.ne hI.dinv (B.fits.first a b n1 n2)
    · rw [g2] at h1; cases h1
  have order : hd s1.d (V i) = none ∧ (hd s1.d (V j)).isSome := by
    rcases B.same hi hj h with h' | h' | ⟨h1, h2⟩
    · omega
    · exact h'
    exfalso
    obtain ⟨k, k0, k1, k2, k3⟩ := notFirst hj hi h.symm h2 h1
    have hsub : [V j, V i] <+ vs := by
      rw [B.fp.ord]
      refine ordered_stable poly s1.d.vs ?_ (B.mem hj).2 (B.mem hi).2 (by rw [h])
      rw [p1]
      refine (List.singleton_sublist.mpr ?_).append (List.singleton_sublist.mpr ?_)
      · rw [k2]; exact List.mem_range.mpr k1
      · have := (B.mem hi).1
        rw [p1] at this
        rcases List.mem_append.mp this with h' | h'
        · exfalso
          rcases B.kind hi with ⟨g1, _⟩ | ⟨_, g1, _⟩
          · rw [g1] at h1; cases h1
          · have := List.mem_range.mp h'; omega
        · exact h'
    obtain ⟨a, b, hab, hb, ea, eb⟩ := pair_index hsub
    have e1 := B.fp.V_eq a (by omega)
    have e2 := B.fp.V_eq b hb
    rw [ea, Option.some.injEq] at e1
    rw [eb, Option.some.injEq] at e2
    have := B.fp.pre.inj _ hj _ (by omega) e1
    have := B.fp.pre.inj _ hi _ (by omega) e2
    omega
  obtain ⟨k, k0, k1, k2, k3⟩ := notFirst hi hj h order.1 order.2
  refine ⟨?_, ?_, order.1, order.2, k, k0, k1, k2, k3⟩
  · obtain ⟨i0, h0, e0⟩ := B.ring.corners 0 (by omega)
    by_contra hh
    have hi0 : i = 0 := by omega
    have := B.ring.sorted 0 i0 (Nat.zero_le _) h0
    rw [e0] at this
    have h2 := key_lt B.fits.center B.keySorted k0 k1
    rw [← k3, hi0] at h2
    exact absurd h2 (not_lt.mpr this)
  · by_contra hne
    have h1 := B.ring.sorted i (i + 1) (by omega) (by omega)
    have h2 := B.ring.sorted (i + 1) j (by omega) hj
    have he : place s1.d (V i) = place s1.d (V (i + 1)) := by
      refine key_inj hF.convex B.fits.center (B.ring.on i hi) (B.ring.on (i + 1) (by omega)) (le_antisymm h1 ?_)
      show _ ≤ orderKey poly.center (place s1.d (V i))
      rw [h]; exact h2
    have c1 := B.same hi (show i + 1 < vs.length by omega) he
    have c2 := B.same (show i + 1 < vs.length by omega) hj (he.symm.trans h)
    obtain ⟨o1, o2⟩ := order
    rcases c1 with c1 | ⟨_, c1⟩ | ⟨c1, _⟩
    · omega
    · rcases c2 with c2 | ⟨c2, _⟩ | ⟨_, c2⟩
      · omega
      · rw [c2] at c1; cases c1
      · rw [c2] at o2; cases o2
    · rw [o1] at c1; cases c1

theorem two_le : 2 ≤ vs.length := by
  by_contra hh
  have hF := B.fits.toFitsPolygon
  have h3 := hF.convex.1
  obtain ⟨i, hi, e1⟩ := B.ring.corners 0 (by omega)
  obtain ⟨j, hj, e2⟩ := B.ring.corners 1 (by omega)
  have : i = j := by omega
  subst this
  rw [e1] at e2
  have := key_lt B.fits.center B.keySorted (i := 0) (j := 1) (by omega) (by omega)
  rw [e2] at this
  exact absurd this (lt_irrefl _)

/-- A border edge without a length leads from a corner to the end of an edge; the border edges before and after it have a length. -/
theorem flat_border {j : Nat} (hj : j < vs.length) (h : place s1.d (V j) = place s1.d (V (j + 1))) :
    0 < j ∧ j + 1 < vs.length ∧ hd s1.d (V j) = none ∧ (hd s1.d (V (j + 1))).isSome ∧ (∃ k, 0 < k ∧ k < poly.points.length ∧ V j = k ∧ place s1.d (V j) = corner poly.points k) ∧
      place s1.d (V (j - 1)) ≠ place s1.d (V j) ∧ place s1.d (V (j + 1)) ≠ place s1.d (V (j + 2)) := by
  have h2 := B.two_le
  have hj1 : j + 1 < vs.length := by
    by_contra h1
    have e : j + 1 = vs.length := by omega
    rw [e, B.fp.V_end] at h
    have := B.tie (by omega) hj h.symm
    omega
  obtain ⟨t1, _, t2, t3, t4⟩ := B.tie (Nat.lt_succ_self j) hj1 h
  refine ⟨t1, hj1, t2, t3, t4, ?_, ?_⟩
  · intro hh
    obtain ⟨_, _, _, t5, _⟩ := B.tie (by omega : j - 1 < j) hj hh
    rw [t2] at t5; cases t5
  · intro hh
    rcases Nat.lt_or_ge (j + 2) vs.length with h1 | h1
    · obtain ⟨_, _, t5, _⟩ := B.tie (Nat.lt_succ_self (j + 1)) h1 hh
      rw [t5] at t3; cases t3
    · rw [show j + 2 = vs.length by omega, B.fp.V_end] at hh
      have := B.tie (by omega) hj1 hh.symm
      omega

/-- A border edge from the end of an edge has a length. -/
theorem edge_ne {j : Nat} (hj : j < vs.length) (h : hd s1.d (V j) ≠ none) : place s1.d (V j) ≠ place s1.d (V (j + 1)) :=
  fun hh => h (B.flat_border hj hh).2.2.1

/-- If no corner is between two cells, then all border edges have a length. -/
theorem edge_ne' (hN : NoTies pts n poly) {j : Nat} (hj : j < vs.length) : place s1.d (V j) ≠ place s1.d (V (j + 1)) := by
  intro hh
  obtain ⟨L, hI⟩ := reach_inv B.spec B.reach
  obtain ⟨_, h1, _, h2, ⟨k, _, h3, _, h4⟩, _⟩ := B.flat_border hj hh
  rcases B.kind h1 with ⟨g1, _⟩ | ⟨_, _, f, _, g3, _, g5⟩
  · rw [g1] at h2; cases h2
  · obtain ⟨t, a, b, hE, n1, n2⟩ := B.near_two g3 g5
    rw [← hh, h4] at n1 n2
    exact hE.ne hI.dinv (hN k h3 a b n1 n2)

theorem inj (hN : NoTies pts n poly) {i j : Nat} (hi : i < vs.length) (hj : j < vs.length) (h : place s1.d (V i) = place s1.d (V j)) : i = j := by
  by_contra hne
  rcases Nat.lt_or_gt_of_ne hne with h' | h'
  · obtain ⟨_, rfl, _⟩ := B.tie h' hj h
    exact B.edge_ne' hN hi h
  · obtain ⟨_, rfl, _⟩ := B.tie h' hi h.symm
    exact B.edge_ne' hN hj h.symm

/-- Vertices of the border that are followed by an edge with a length are at different places, -/
theorem inj_turn {i j : Nat} (hi : i < vs.length) (hj : j < vs.length) (h1 : place s1.d (V i) ≠ place s1.d (V (i + 1))) (h2 : place s1.d (V j) ≠ place s1.d (V (j + 1)))
    (h : place s1.d (V i) = place s1.d (V j)) : i = j := by
  by_contra hne
  rcases Nat.lt_or_gt_of_ne hne with h' | h'
  · obtain ⟨_, rfl, _⟩ := B.tie h' hj h
    exact h1 h
  · obtain ⟨_, rfl, _⟩ := B.tie h' hi h.symm
    exact h2 h.symm

/-- and at every place of the border is such a vertex. -/
theorem turn_at {z : Pt} (h : ∃ j < vs.length, place s1.d (V j) = z) : ∃ j < vs.length, place s1.d (V j) ≠ place s1.d (V (j + 1)) ∧ place s1.d (V j) = z := by
  obtain ⟨j, hj, rfl⟩ := h
  by_cases hh : place s1.d (V j) = place s1.d (V (j + 1))
  · obtain ⟨_, h1, _, _, _, _, h2⟩ := B.flat_border hj hh
    exact ⟨j + 1, h1, h2, hh.symm⟩
  · exact ⟨j, hj, hh, rfl⟩

/-- Two cells meet at a corner that is not the end of an edge only if the next vertex is at the same place. -/
theorem corner_cell {j : Nat} (hj : j < vs.length) (h1 : hd s1.d (V j) = none) (hne : place s1.d (V j) ≠ place s1.d (V (j + 1))) {a b : Nat}
    (ha : Nearest pts n a (place s1.d (V j))) (hb : Nearest pts n b (place s1.d (V j))) : a = b := by
  by_contra hab
  obtain ⟨f, t, i, o, hE, _, hx⟩ := B.crossing (B.ring.on j hj) hab ha hb
  obtain ⟨j', hj', g1, g2, _⟩ := B.start_hd hE.lt hx (B.ring.on j hj)
  rcases Nat.lt_trichotomy j j' with h | h | h
  · obtain ⟨_, rfl, _⟩ := B.tie h hj' g2.symm
    exact hne g2.symm
  · rw [h, g1] at h1; cases h1
  · obtain ⟨_, _, h2, _⟩ := B.tie h hj g2
    rw [g1] at h2; cases h2

/-- The last border edge with a length before a border vertex. -/
theorem back {k : Nat} (hk : k < vs.length) : ∃ j < vs.length, place s1.d (V j) ≠ place s1.d (V (j + 1)) ∧ place s1.d (V (j + 1)) = place s1.d (V (k + 1)) ∧
    cellSeq s1.d V (some cell) j = cellSeq s1.d V (some cell) k ∧ (j = k ∨ k = j + 1 ∧ place s1.d (V k) = place s1.d (V (k + 1))) := by
  by_cases h : place s1.d (V k) = place s1.d (V (k + 1))
  · obtain ⟨h1, h2, h3, _, _, h4, _⟩ := B.flat_border hk h
    obtain ⟨j, rfl⟩ : ∃ j, k = j + 1 := ⟨k - 1, by omega⟩
    refine ⟨j, by omega, h4, h, ?_, Or.inr ⟨rfl, h⟩⟩
    show _ = nextCell s1.d (V (j + 1)) (cellSeq s1.d V (some cell) j)
    unfold nextCell; unfold hd at h3; rw [h3]
  · exact ⟨k, hk, h, rfl, rfl, Or.inl rfl⟩

/-- The site noted for the border edge from `V j` is nearest on all of it. -/
theorem labels (hn : 0 < n) {j : Nat} (hj : j < vs.length) :
    ∃ i, cellSeq s1.d V (some cell) j = some i ∧ ∀ z, Between (place s1.d (V j)) (place s1.d (V (j + 1))) z → Nearest pts n i z := by
  have hF := B.fits.toFitsPolygon
  obtain ⟨L, hI⟩ := reach_inv B.spec B.reach
  -- from the site nearest at the vertex before looking at the edge there
  have step : ∀ j, j < vs.length → ∀ c, Nearest pts n c (place s1.d (V j)) →
      ∃ i, nextCell s1.d (V j) (some c) = some i ∧ ∀ z, Between (place s1.d (V j)) (place s1.d (V (j + 1))) z → Nearest pts n i z := by
    intro j hj c hc
    obtain ⟨i0, h0⟩ := B.one_cell hn hj
    have h0l := h0 _ (between_left _ _)
    have h0r := h0 _ (between_right _ _)
    rcases B.kind hj with ⟨g1, k, g2, _, g3⟩ | ⟨g1, _, f, g2, g3, g4, g5⟩
    · refine ⟨c, ?_, ?_⟩
      · unfold nextCell; unfold hd at g1; rw [g1]
      · by_cases hne : place s1.d (V j) = place s1.d (V (j + 1))
        · intro z hz
          rw [← hne] at hz
          exact hc.between hc hz
        · rw [← B.corner_cell hj g1 hne h0l hc]; exact h0
    · obtain ⟨t, i, o, hE⟩ := B.edg g3
      refine ⟨o, ?_, ?_⟩
      · unfold nextCell; unfold hd at g2; rw [g2]
        simp only
        rw [B.clip.keeps.twin, hE.tw, Option.bind_some, B.clip.keeps.inc, hE.tinc]
      · obtain ⟨k1, k2, k3, _⟩ := B.half hE
        have hy : (opos s1.d t).isSome := by
          have h1 := k1.mp (by rw [g5]; rfl)
          exact (B.half (hE.symm hI.dinv)).1.mpr (k2.mp h1)
        obtain ⟨y, hy⟩ := Option.isSome_iff_exists.mp hy
        obtain ⟨_, _, _, k4⟩ := k3 _ _ g5 hy
        obtain ⟨_, n1, n2⟩ := k4 _ (between_left _ _)
        by_cases hne : place s1.d (V j) = place s1.d (V (j + 1))
        · intro z hz
          rw [← hne] at hz
          exact n2.between n2 hz
        have hlt := B.after_end hj hE g2 g5 g1 hne
        have : i0 = o := by
          by_contra hio
          by_cases hii : i0 = i
          · rw [hii] at h0r
            exact absurd (h0r.2 o n2.1) (not_le.mpr hlt)
          · exact hF.border _ ⟨i0, i, o, hii, hE.ne hI.dinv, hio, h0l, n1, n2⟩ g1
        rw [← this]; exact h0
  induction j with
  | zero =>
    refine step 0 hj cell ?_
    obtain ⟨h1, h2⟩ := B.fp.close _ (B.mem hj).2
    refine ⟨h1, fun c hc => ?_⟩
    obtain ⟨a, b, e1, e2, e3⟩ := h2 c hc
    rw [distance_real, Option.some.injEq] at e1 e2
    rw [← e1, ← e2] at e3
    have e4 := (Real.sqrt_le_sqrt_iff (dsq_nonneg _ _)).mp e3
    have comm : ∀ a b : Pt, dsq a b = dsq b a := by intro a b; unfold dsq; ring
    show dsq (pts cell) _ ≤ dsq (pts c) _
    rw [comm (pts cell), comm (pts c)]
    exact e4
  | succ j ih =>
    obtain ⟨i, h1, h2⟩ := ih (by omega)
    show ∃ i, nextCell s1.d (V (j + 1)) (cellSeq s1.d V (some cell) j) = some i ∧ _
    rw [h1]
    exact step _ hj i (h2 _ (between_right _ _))

/-- At the end of an edge on the border, the cell before it is its own. -/
theorem before_end {j : Nat} (hj : j < vs.length) {f t i o : Nat} (hE : Edg s.d f t i o) (hx : opos s1.d f = some (place s1.d (V (j + 1))))
    (hne : place s1.d (V j) ≠ place s1.d (V (j + 1))) : dsq (pts i) (place s1.d (V j)) < dsq (pts o) (place s1.d (V j)) := by
  have hF := B.fits.toFitsPolygon
  obtain ⟨⟨k, s1', s2'⟩, ht⟩ := B.ring.step hF.convex B.fits.center B.keySorted hj
  obtain ⟨y, hy⟩ := B.ends hE hx
  obtain ⟨g1, ⟨w, g2, g3⟩, _, g4⟩ := (B.half hE).2.2.1 _ _ hx hy
  obtain ⟨_, n1, n2⟩ := g4 _ (between_left _ _)
  refine nearer_right g1 (n1.eq n2) ?_
  have hpos := side_turn B.fits.center s1' s2' hne ht g2
  obtain ⟨u, u0, u1, rfl⟩ := g3
  have e : ∀ x y Q : Pt, rightOf ((1 - u) * x.1 + u * y.1, (1 - u) * x.2 + u * y.2) Q x = u * rightOf x y Q := by
    intro x y Q; unfold rightOf; ring
  have hpos' : 0 < u * rightOf (place s1.d (V (j + 1))) y (place s1.d (V j)) := by rw [← e]; exact hpos
  by_contra hh
  push Not at hh
  have := mul_nonneg u0 (neg_nonneg.mpr hh)
  linarith

/-- Every border point is on a border edge, with a length, of each site nearest to it. -/
theorem cover (hn : 0 < n) {z : Pt} (hz : OnBoundary poly.points z) {p : Nat} (hp : Nearest pts n p z) :
    ∃ j < vs.length, cellSeq s1.d V (some cell) j = some p ∧ Between (place s1.d (V j)) (place s1.d (V (j + 1))) z ∧ place s1.d (V j) ≠ place s1.d (V (j + 1)) := by
  have hF := B.fits.toFitsPolygon
  obtain ⟨L, hI⟩ := reach_inv B.spec B.reach
  obtain ⟨j, hj, hb, hlen⟩ : ∃ j < vs.length, Between (place s1.d (V j)) (place s1.d (V (j + 1))) z ∧ place s1.d (V j) ≠ place s1.d (V (j + 1)) := by
    obtain ⟨k, hk, hb⟩ := B.ring.cover hF.convex B.fits.center B.keySorted hz
    obtain ⟨j, hj, g1, g2, _, rfl | ⟨_, g3⟩⟩ := B.back hk
    · exact ⟨j, hj, hb, g1⟩
    · refine ⟨j, hj, ?_, g1⟩
      have hb : Between (place s1.d (V k)) (place s1.d (V (k + 1))) z := hb
      rw [g3] at hb
      have e : z = place s1.d (V (j + 1)) := by
        obtain ⟨u, _, _, rfl⟩ := hb
        rw [g2]; apply Prod.ext <;> simp only <;> ring
      rw [e]; exact between_right _ _
  obtain ⟨i, h1, h2⟩ := B.labels hn hj
  by_cases hip : i = p
  · subst hip; exact ⟨j, hj, h1, hb, hlen⟩
  obtain ⟨f, t, a, b, hE, hab, hx⟩ := B.crossing hz hip (h2 z hb) hp
  obtain ⟨j', hj', g1, g2, g3⟩ := B.start_hd hE.lt hx hz
  have hnext : ∀ c, nextCell s1.d (V j') c = some b := by
    intro c
    unfold nextCell; unfold hd at g1; rw [g1]
    simp only
    rw [B.clip.keeps.twin, hE.tw, Option.bind_some, B.clip.keeps.inc, hE.tinc]
  have hc : p = b ∨ p = a := by grind
  rcases hc with rfl | rfl
  · refine ⟨j', hj', ?_, by rw [g2]; exact between_left _ _, B.edge_ne hj' (by rw [g1]; exact Option.some_ne_none _)⟩
    cases j' with
    | zero => exact hnext _
    | succ j' => exact hnext _
  · -- the edge before
    obtain ⟨k', hk', hV⟩ : ∃ k < vs.length, V (k + 1) = V j' := by
      cases j' with
      | zero => exact ⟨vs.length - 1, by omega, by rw [Nat.sub_add_cancel (by omega), B.fp.V_end]⟩
      | succ j' => exact ⟨j', by omega, rfl⟩
    obtain ⟨k, hk, hkne, hpl, _⟩ := B.back hk'
    rw [hV, g2] at hpl
    obtain ⟨c, c1, c2⟩ := B.labels hn hk
    have hlt := B.before_end hk hE (by rw [hpl]; exact hx) hkne
    have c3 := c2 _ (between_left _ _)
    have c4 := c2 _ (between_right _ _)
    rw [hpl] at c4
    have hb' : Nearest pts n b z := by
      rcases hab with ⟨_, rfl⟩ | ⟨_, rfl⟩
      · exact hp
      · exact h2 z hb
    have : c = p := by
      by_contra hcp
      by_cases hcb : c = b
      · rw [hcb] at c3
        exact absurd (c3.2 p hp.1) (not_le.mpr hlt)
      · exact hF.border z ⟨c, p, b, hcp, hE.ne hI.dinv, hcb, c4, hp, hb'⟩ hz
    subst this
    exact ⟨k, hk, c1, by rw [hpl]; exact between_right _ _, hkne⟩

end Closing

end Foronoi
