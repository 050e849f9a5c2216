import Verif.Proof.Nearby
import Verif.Props.Unique
import Verif.Props.Single

/-!
# The cells along the border
-/

namespace Foronoi

open scoped List

variable {pts : Nat → ℝ × ℝ} {q : PQ (QE ℝ)} {ok : List (QE ℝ) → Prop} {n : Nat} {poly : Poly ℝ} {s : St ℝ} {d1 : Dcel ℝ} {r pv : List Nat}

/-- `FE` for the records only: `d1` arises from the finished sweep `s` by clipping, `r` are the edges kept, `pv` the border vertices. -/
structure ClipD (pts : Nat → ℝ × ℝ) (poly : Poly ℝ) (s : St ℝ) (d1 : Dcel ℝ) (r pv : List Nat) : Prop where
  ok : DOk d1
  keeps : Keeps (EdgesOf s.d s.edges) s.d d1
  sub : r <+ s.edges
  good : ∀ e ∈ r, Good poly d1 e ∧ ∀ t, (s.d.he e).twin = some t → Good poly d1 t
  pos : ∀ e ∈ s.edges, ∀ t, (s.d.he e).twin = some t → ∃ a b, Cut poly (opos s.d e) (rawO pts poly s.bps s.d e) (rawO pts poly s.bps s.d t) a ∧
    Cut poly (opos s.d t) (rawO pts poly s.bps s.d t) (some (finO a)) b ∧ opos d1 e = a ∧ opos d1 t = b ∧ (e ∈ r ↔ a.isSome ∧ b.isSome)
  split : ∃ new, pv = s.polyVerts ++ new ∧ new.Nodup ∧ ∀ v ∈ new, s.d.vCnt ≤ v ∧ v < d1.vCnt ∧
    ((d1.vs v).conn = [] ∨ ∃ c < s.d.heCnt, (d1.vs v).conn = [c] ∧ (d1.he c).origin = .vtx v ∧ EdgesOf s.d r c)
  from_ : ∀ v ∈ pv, v ∈ s.polyVerts ∨ s.d.vCnt ≤ v ∧ ∃ f, EdgesOf s.d s.edges f ∧ (d1.he f).origin = .vtx v
  org : ∀ f, EdgesOf s.d s.edges f → ((d1.he f).origin = (s.d.he f).origin ∧ ∃ p, opos s.d f = some p ∧ inside poly.points p = some true) ∨
    (∀ p, opos s.d f = some p → inside poly.points p = some false) ∧ ∃ v ∈ pv, s.d.vCnt ≤ v ∧ (d1.he f).origin = .vtx v
  links : ∀ d0 X, Lnk d0 X s.d → (∀ f, EdgesOf s.d s.edges f → ¬ X f) → Lnk d0 (fun f => X f ∨ EdgesOf s.d s.edges f ∧ ¬ EdgesOf s.d r f) d1

/-- A finished sweep and what clipping makes of it. -/
structure Clipping (pts : Nat → ℝ × ℝ) (q : PQ (QE ℝ)) (ok : List (QE ℝ) → Prop) (n : Nat) (poly : Poly ℝ) (s : St ℝ) (d1 : Dcel ℝ) (r pv : List Nat) : Prop where
  fits : FitsCorners pts n poly
  dist : Distinct pts n
  spec : q.Spec evLt ok
  reach : Reach pts q n poly s
  done : s.queue = []
  clip : ClipD pts poly s d1 r pv

theorem between_left (x y : Pt) : Between x y x := ⟨0, le_rfl, zero_le_one, by apply Prod.ext <;> simp⟩

theorem between_right (x y : Pt) : Between x y y := ⟨1, zero_le_one, le_rfl, by apply Prod.ext <;> simp⟩

theorem hasLength_twin {d : Dcel ℝ} {f t : Nat} (h1 : (d.he f).twin = some t) (h2 : (d.he t).twin = some f) (h : HasLength d t) : HasLength d f := by
  rintro ⟨v, w, z, g1, ⟨t', g2, g3⟩, g4, g5⟩
  rw [h1, Option.some.injEq] at g2
  subst g2
  exact h ⟨w, v, z, g3, ⟨f, h2, g1⟩, g5, g4⟩

variable (C : Clipping pts q ok n poly s d1 r pv)
include C

namespace Clipping

theorem all {f : Nat} (hf : f < s.d.heCnt) : EdgesOf s.d s.edges f := by
  obtain ⟨L, hI⟩ := reach_inv C.spec C.reach
  obtain ⟨t, ht, htl, _, htt⟩ := hI.dinv.tw f hf
  by_cases h : f ∈ s.edges
  · exact Or.inl h
  · refine Or.inr ⟨t, ?_, htt⟩
    by_contra hh
    exact h ((hI.dinv.etw f hf t ht).mpr hh)

/-- A point of the polygon on the edge between `i` and `j`, at or between its ends: the edge passes through the interior. -/
theorem passes {f t i j : Nat} (hE : Edg s.d f t i j) {a b x : Pt} (E : Ends pts n poly s f t i j a b)
    (hx : InClosed poly.points x) (hb : Between a b x) : StrictlyInside poly.points x ∨ OnBoundary poly.points x ∧ ¬ VoronoiVertex pts n x ∧
      HasLength s.d f ∧ ∃ z, StrictlyInside poly.points z ∧ Nearest pts n i z ∧ Nearest pts n j z := by
  have hF := C.fits.toFitsPolygon
  obtain ⟨L, hI⟩ := reach_inv C.spec C.reach
  rcases closed_cases hF.convex hx with h | h
  · exact Or.inl h
  right
  have hnv : ¬ VoronoiVertex pts n x := fun hv => hF.border x hv h
  have hin := (hE.site_lt hI).1
  have hjn := ((hE.symm hI.dinv).site_lt hI).1
  have hij := hE.ne hI.dinv
  have hne : pts i ≠ pts j := fun hh => hij (C.dist i hin j hjn hh)
  obtain ⟨n1, n2⟩ := E.near x hb hx
  refine ⟨h, hnv, ?_, ?_⟩
  · rintro ⟨v, w, z, g1, ⟨t', g2, g3⟩, g4, g5⟩
    rw [hE.tw, Option.some.injEq] at g2
    subst g2
    have hvv := (hI.dinv.ovt f hE.lt v g1).1
    obtain ⟨z', hz', hvz⟩ := C25_vertices C.dist C.spec C.reach v hvv
    rw [g4, Option.some.injEq] at hz'
    subst hz'
    have ha : a = z := (E.va z (by rw [opos_vtx g1, g4])).1
    have hbz : b = z := (E.vb z (by rw [opos_vtx g3, g5])).1
    obtain ⟨u, _, _, hu⟩ := hb
    have : x = z := by rw [hu, ha, hbz]; apply Prod.ext <;> simp only <;> ring
    exact hnv (this ▸ hvz)
  · obtain ⟨u, u1, u2⟩ := hF.touch i j x hij h n1 n2
    obtain ⟨ε, e0, e1, h3⟩ := nearest_stay hij n1 n2 hnv u2
    obtain ⟨m1, m2, _⟩ := h3 ε e0.le le_rfl
    exact ⟨_, along_inside hx u1 e0 e1, m1, m2⟩

/-- A half-edge that has an end after clipping is kept, and what is kept is the part of the common border in the polygon. -/
theorem half {f t i j : Nat} (hE : Edg s.d f t i j) :
    ((opos d1 f).isSome ↔ EdgesOf s.d r f) ∧ (EdgesOf s.d r f ↔ EdgesOf s.d r t) ∧
    (∀ x y, opos d1 f = some x → opos d1 t = some y → Fwd (pts j) (pts i) y x ∧ (∃ z, StrictlyInside poly.points z ∧ Between x y z) ∧
      (OnBoundary poly.points x ∨ OnBoundary poly.points y → HasLength s.d f) ∧ ∀ z, Between x y z → InClosed poly.points z ∧ Nearest pts n i z ∧ Nearest pts n j z) ∧
    ∀ z, StrictlyInside poly.points z → Nearest pts n i z → Nearest pts n j z → HasLength s.d f →
      ∃ x y, opos d1 f = some x ∧ opos d1 t = some y ∧ Between x y z := by
  have hF := C.fits.toFitsPolygon
  obtain ⟨L, hI⟩ := reach_inv C.spec C.reach
  -- a listed edge
  have key : ∀ {e t i j : Nat}, Edg s.d e t i j → e ∈ s.edges →
      ((opos d1 e).isSome ↔ e ∈ r) ∧ ((opos d1 t).isSome ↔ e ∈ r) ∧
      (∀ x y, opos d1 e = some x → opos d1 t = some y → Fwd (pts j) (pts i) y x ∧ (∃ z, StrictlyInside poly.points z ∧ Between x y z) ∧
        (OnBoundary poly.points x ∨ OnBoundary poly.points y → HasLength s.d e) ∧ ∀ z, Between x y z → InClosed poly.points z ∧ Nearest pts n i z ∧ Nearest pts n j z) ∧
      ∀ z, StrictlyInside poly.points z → Nearest pts n i z → Nearest pts n j z → HasLength s.d e →
        ∃ x y, opos d1 e = some x ∧ opos d1 t = some y ∧ Between x y z := by
    intro e t i j hE he
    have het := hE.symm hI.dinv
    have hin := (hE.site_lt hI).1
    have hjn := (het.site_lt hI).1
    have hne : pts i ≠ pts j := fun hh => hE.ne hI.dinv (C.dist i hin j hjn hh)
    obtain ⟨xa, xb, h1, h2, h3, h4, h5⟩ := C.clip.pos e he t hE.tw
    obtain ⟨_, k2⟩ := edge_clip hF C.dist C.spec C.reach C.done hE h1 h2
    obtain ⟨a, b, E⟩ := edge_ends hF C.dist C.spec C.reach C.done hE
    rw [E.ra, E.rb] at h1
    rw [E.rb] at h2
    obtain ⟨c1, c2, c3, c4⟩ := clip_two hF.convex E.ca E.cb h1 h2
    have part : ∀ z, StrictlyInside poly.points z → Nearest pts n i z → Nearest pts n j z → HasLength s.d e →
        ∃ x y, xa = some x ∧ xb = some y ∧ Between x y z := by
      intro z hz n1 n2 hlen
      have hon := (C64_edge_exact C.dist C.spec C.reach C.done hE.lt ⟨hE.inc, t, hE.tw, hE.tinc⟩ hlen z).mpr ⟨n1, n2⟩
      refine k2 z hz n1 n2 ?_ ?_
      · intro v zv hv hzv
        obtain ⟨m1, m2⟩ := start_bisector C.dist C.spec C.reach hE hv hzv
        exact fwd_of_ahead hne.symm (n2.eq n1) (m2.eq m1) (hon.start v zv hv hzv)
      · intro v zv hv hzv
        obtain ⟨m1, m2⟩ := start_bisector C.dist C.spec C.reach het hv hzv
        refine fwd_of_ahead hne (n1.eq n2) (m2.eq m1) ?_
        have := hon.stop v zv ⟨t, hE.tw, hv⟩ hzv
        rw [ahead_flip]; linarith
    have any : ∀ x, InClosed poly.points x → Between a b x → xa.isSome ∧ xb.isSome := by
      intro x hx hb
      have : ∃ x y z, xa = some x ∧ xb = some y ∧ Between x y z := by
        rcases C.passes hE E hx hb with h | ⟨_, _, hlen, z, z1, z2, z3⟩
        · obtain ⟨x', y', e1, e2, e3⟩ := c2 x h hb
          exact ⟨x', y', x, e1, e2, e3⟩
        · obtain ⟨x', y', e1, e2, e3⟩ := part z z1 z2 z3 hlen
          exact ⟨x', y', z, e1, e2, e3⟩
      obtain ⟨x', y', _, e1, e2, _⟩ := this
      rw [e1, e2]; exact ⟨rfl, rfl⟩
    have ha : xa.isSome → xa.isSome ∧ xb.isSome := by
      intro h
      obtain ⟨x, hx⟩ := Option.isSome_iff_exists.mp h
      exact any x (c3 x hx).1 (c3 x hx).2
    have hb : xb.isSome → xa.isSome ∧ xb.isSome := by
      intro h
      obtain ⟨x, hx⟩ := Option.isSome_iff_exists.mp h
      exact any x (c4 x hx).1 (c4 x hx).2
    rw [h3, h4]
    refine ⟨⟨fun h => h5.mpr (ha h), fun h => (h5.mp h).1⟩, ⟨fun h => h5.mpr (hb h), fun h => (h5.mp h).2⟩, ?_, part⟩
    intro x y hx hy
    obtain ⟨d1, d2, d3, d4, d5⟩ := c1 x y hx hy
    obtain ⟨_, f1⟩ := (E.fwd x d3 d1).sub d3
    refine ⟨(f1.sub d5).1, ?_, ?_, fun z hz => ⟨d1.between d2 hz, E.near z (d3.mono d4 hz) (d1.between d2 hz)⟩⟩
    · rcases C.passes hE E d1 d3 with h | ⟨_, _, hlen, z, z1, z2, z3⟩
      · exact ⟨x, h, between_left x y⟩
      · obtain ⟨x', y', e1, e2, e3⟩ := part z z1 z2 z3 hlen
        rw [hx, Option.some.injEq] at e1
        rw [hy, Option.some.injEq] at e2
        exact ⟨z, z1, e1 ▸ e2 ▸ e3⟩
    · rintro (h | h)
      · rcases C.passes hE E d1 d3 with h' | ⟨_, _, hlen, _⟩
        · exact absurd h' h.not_inside
        · exact hlen
      · rcases C.passes hE E d2 d4 with h' | ⟨_, _, hlen, _⟩
        · exact absurd h' h.not_inside
        · exact hlen
  have hmem : ∀ {e t : Nat}, (s.d.he e).twin = some t → (s.d.he t).twin = some e → e ∈ s.edges → (EdgesOf s.d r e ↔ e ∈ r) ∧ (EdgesOf s.d r t ↔ e ∈ r) := by
    intro e t h1 h2 he
    have hel := hI.dinv.elt e he
    have ht : t ∉ s.edges := (hI.dinv.etw e hel t h1).mp he
    constructor
    · refine ⟨?_, Or.inl⟩
      rintro (h | ⟨a, ha, h⟩)
      · exact h
      · obtain ⟨_, b1, _, _, b2⟩ := hI.dinv.tw a (hI.dinv.elt a (C.clip.sub.subset ha))
        rw [h, Option.some.injEq] at b1
        subst b1
        rw [h1, Option.some.injEq] at b2
        subst b2
        exact absurd (C.clip.sub.subset ha) ht
    · refine ⟨?_, fun h => Or.inr ⟨e, h, h1⟩⟩
      rintro (h | ⟨a, ha, h⟩)
      · exact absurd (C.clip.sub.subset h) ht
      · obtain ⟨_, b1, _, _, b2⟩ := hI.dinv.tw a (hI.dinv.elt a (C.clip.sub.subset ha))
        rw [h, Option.some.injEq] at b1
        subst b1
        rw [h2, Option.some.injEq] at b2
        subst b2
        exact ha
  have het := hE.symm hI.dinv
  by_cases hf : f ∈ s.edges
  · obtain ⟨k1, k2, k3, k4⟩ := key hE hf
    obtain ⟨m1, m2⟩ := hmem hE.tw het.tw hf
    rw [m1, m2]
    exact ⟨k1, Iff.rfl, k3, k4⟩
  · have ht : t ∈ s.edges := by
      by_contra hh
      exact hf ((hI.dinv.etw f hE.lt t hE.tw).mpr hh)
    obtain ⟨k1, k2, k3, k4⟩ := key het ht
    obtain ⟨m1, m2⟩ := hmem het.tw hE.tw ht
    rw [m1, m2]
    refine ⟨k2, Iff.rfl, fun x y hx hy => ?_, fun z hz n1 n2 hlen => ?_⟩
    · obtain ⟨g1, ⟨z, g3, g4⟩, g5, g2⟩ := k3 y x hy hx
      exact ⟨g1.swap, ⟨z, g3, g4.symm⟩, fun h => hasLength_twin hE.tw het.tw (g5 h.symm), fun z hz => ⟨(g2 z hz.symm).1, (g2 z hz.symm).2.2, (g2 z hz.symm).2.1⟩⟩
    · obtain ⟨x, y, e1, e2, e3⟩ := k4 z hz n2 n1 (hasLength_twin het.tw hE.tw hlen)
      exact ⟨y, x, e2, e1, e3.symm⟩

theorem kept_lt {f : Nat} (h : EdgesOf s.d r f) : f < s.d.heCnt := by
  obtain ⟨L, hI⟩ := reach_inv C.spec C.reach
  rcases h with h | ⟨a, ha, h⟩
  · exact hI.dinv.elt f (C.clip.sub.subset h)
  · obtain ⟨t, b1, b2, _⟩ := hI.dinv.tw a (hI.dinv.elt a (C.clip.sub.subset ha))
    rw [h, Option.some.injEq] at b1
    exact b1 ▸ b2

theorem edg {f : Nat} (hf : f < s.d.heCnt) : ∃ t i j, Edg s.d f t i j := by
  obtain ⟨L, hI⟩ := reach_inv C.spec C.reach
  obtain ⟨t, ht, htl, _, htt⟩ := hI.dinv.tw f hf
  obtain ⟨i, hi, _⟩ := hI.dinv.inc f hf
  obtain ⟨j, hj, _⟩ := hI.dinv.inc t htl
  exact ⟨t, i, j, hf, ht, hi, hj⟩

theorem vCnt_corners {v : Nat} (hv : v ∈ s.polyVerts) : v < s.d.vCnt := by
  obtain ⟨L, hI⟩ := reach_inv C.spec C.reach
  have hc := reach_corner C.spec C.reach
  rw [hc.pv] at hv
  have := List.mem_range.mp hv
  have := hI.dinv.vcnt
  omega

/-- Where a kept half-edge starts: at a Voronoi vertex inside the polygon, as before, or at its own vertex on the border. -/
theorem start {f : Nat} (hf : f < s.d.heCnt) {x : Pt} (hx : opos d1 f = some x) :
    ((d1.he f).origin = (s.d.he f).origin ∧ (∃ v ∈ s.verts, (s.d.he f).origin = .vtx v ∧ (s.d.vs v).pos = some x) ∧ VoronoiVertex pts n x ∧ StrictlyInside poly.points x) ∨
    (OnBoundary poly.points x ∧ ∃ v ∈ pv, s.d.vCnt ≤ v ∧ (d1.he f).origin = .vtx v ∧ (d1.vs v).conn = [f]) := by
  have hF := C.fits.toFitsPolygon
  obtain ⟨L, hI⟩ := reach_inv C.spec C.reach
  obtain ⟨t, i, j, hE⟩ := C.edg hf
  obtain ⟨k1, k2, k3, _⟩ := C.half hE
  have hkept : EdgesOf s.d r f := k1.mp (by rw [hx]; rfl)
  rcases C.clip.org f (C.all hf) with ⟨h1, p, h2, h3⟩ | ⟨h1, v, h2, h3, h4⟩
  · left
    cases ho : (s.d.he f).origin with
    | bp b => unfold opos at h2; rw [ho] at h2; cases h2
    | vtx v =>
      rw [opos_vtx ho] at h2
      have hvv := (hI.dinv.ovt f hf v ho).1
      obtain ⟨z, hz, hvz⟩ := C25_vertices C.dist C.spec C.reach v hvv
      rw [h2, Option.some.injEq] at hz
      subst hz
      rw [opos_vtx (h1.trans ho), C.clip.keeps.pos v (hI.dinv.vts v hvv).2.1, h2, Option.some.injEq] at hx
      subst hx
      refine ⟨by rw [h1, ho], ⟨v, hvv, rfl, h2⟩, hvz, ?_⟩
      by_contra hns
      by_cases hcl : InClosed poly.points p
      · rcases closed_cases hF.convex hcl with h | h
        · exact hns h
        · exact hF.border p hvz h
      · have := (C31_convex hF.convex p).2 (not_closed.mpr hcl)
        rw [h3] at this; cases this
  · right
    constructor
    · -- the cut
      have hcut : ∃ va a b, Cut poly va (some (fin2 a)) (some (fin2 b)) (some x) ∧ va = opos s.d f := by
        by_cases hfe : f ∈ s.edges
        · obtain ⟨xa, xb, c1, c2, c3, c4, c5⟩ := C.clip.pos f hfe t hE.tw
          obtain ⟨a, ra, _⟩ := end_kind hF C.dist C.spec C.reach C.done hE
          obtain ⟨b, rb, _⟩ := end_kind hF C.dist C.spec C.reach C.done (hE.symm hI.dinv)
          rw [← c3, hx, ra, rb] at c1
          exact ⟨_, a, b, c1, rfl⟩
        · have ht : t ∈ s.edges := by
            by_contra hh
            exact hfe ((hI.dinv.etw f hE.lt t hE.tw).mpr hh)
          obtain ⟨xa, xb, c1, c2, c3, c4, c5⟩ := C.clip.pos t ht f (hE.symm hI.dinv).tw
          have : xa.isSome := by
            rw [← c3]
            exact (C.half (hE.symm hI.dinv)).1.mpr (k2.mp hkept)
          obtain ⟨y, hy⟩ := Option.isSome_iff_exists.mp this
          obtain ⟨a, ra, _⟩ := end_kind hF C.dist C.spec C.reach C.done hE
          rw [← c4, hx, ra, hy, finO_some] at c2
          exact ⟨_, a, y, c2, rfl⟩
      obtain ⟨va, a, b, hc, hva⟩ := hcut
      rcases cut_kind hc with h5 | h5
      · rcases hc with ⟨p, g1, g2, _⟩ | ⟨_, a', b', r', e1, e2, h6, h7⟩
        · rw [hva] at g1
          have := h1 p g1
          rw [g2] at this; cases this
        · rw [Option.some.injEq] at e1 e2
          subst e1; subst e2
          rw [rounds_real] at h7
          obtain ⟨r'', h8, h9, _⟩ := intersectionPoint_real poly.points b a
          rw [h6, Option.some.injEq] at h8
          subst h8
          obtain ⟨k, _, _, hs⟩ := h9 x h7.symm
          exact ⟨k, hs⟩
      · exact h5
    · refine ⟨v, h2, h3, h4, ?_⟩
      have hg : Good poly d1 f := by
        rcases hkept with h | ⟨a, ha, h⟩
        · exact (C.clip.good f h).1
        · exact (C.clip.good a ha).2 f h
      obtain ⟨w, p, g1, _, _, g2, _⟩ := hg
      rw [h4] at g1
      cases g1
      obtain ⟨new, p1, _, p3⟩ := C.clip.split
      have hvn : v ∈ new := by
        rw [p1] at h2
        rcases List.mem_append.mp h2 with h | h
        · have := C.vCnt_corners h; omega
        · exact h
      rcases (p3 v hvn).2.2 with h | ⟨c, _, h, _⟩
      · rw [h] at g2; cases g2
      · rw [h] at g2 ⊢
        rw [List.mem_singleton] at g2
        rw [g2]

end Clipping

end Foronoi
