import Verif.Proof.BorderLabels

/-!
# The links of the finished diagram

The half-edges of a cell (those of the sweep that were kept and the border edges labelled with the cell) are mapped to each other by
`next`, and each ends where its successor starts.
-/

namespace Foronoi

open scoped List

variable {pts : Nat → ℝ × ℝ} {q : PQ (QE ℝ)} {ok : List (QE ℝ) → Prop} {n : Nat} {poly : Poly ℝ} {s s1 s2 : St ℝ} {vs : List Nat} {V : Nat → Nat} {cell : Nat}

/-- The half-edges of the cell of `p` in the finished diagram. -/
def OfCell (s s1 : St ℝ) (vs : List Nat) (V : Nat → Nat) (cell p f : Nat) : Prop :=
  (EdgesOf s.d s1.edges f ∧ (s.d.he f).incident = some p) ∨ ∃ j < vs.length, f = s1.d.heCnt + 2 * j + 1 ∧ cellSeq s1.d V (some cell) j = some p

namespace Closing

variable (B : Closing pts q ok n poly s s1 s2 vs V cell)
include B

theorem lnk : Lnk s.d (fun f => s.d.heCnt ≤ f ∨ EdgesOf s.d s.edges f ∧ ¬ EdgesOf s.d s1.edges f) s1.d := by
  obtain ⟨L, hI⟩ := reach_inv B.spec B.reach
  refine B.clip.links s.d (s.d.heCnt ≤ ·) ⟨?_, ?_, ?_, ?_, ?_, ?_, ?_, ?_⟩ ?_
  · intro x hx g hg
    obtain ⟨h1, h2, _⟩ := hI.dinv.nx x (by omega) g hg
    exact ⟨h2, by omega⟩
  · intro x hx f hf
    exact (hI.dinv.pv x (by omega) f hf).2
  · exact fun x g hg => .one hg
  · exact fun f g hg _ => hg
  · intro q x hx
    left
    have := (hI.dinv.fe q x hx).1
    omega
  · exact fun x hn => Or.inl hn
  · exact fun q x hx => Or.inl hx
  · exact fun q hq => Or.inl hq
  · rintro f (h | ⟨a, ha, h⟩)
    · have := hI.dinv.elt f h
      omega
    · obtain ⟨t, b1, b2, _⟩ := hI.dinv.tw a (hI.dinv.elt a ha)
      rw [h, Option.some.injEq] at b1
      omega

theorem heCnt : s1.d.heCnt = s.d.heCnt := B.clip.keeps.heCnt

theorem opos2 {f : Nat} (hf : f < s.d.heCnt) : opos s2.d f = opos s1.d f := by
  have hb := B.fp.binv
  rw [← B.heCnt] at hf
  unfold opos
  rw [hb.org f hf]
  cases (s1.d.he f).origin with
  | bp b => rfl
  | vtx v => exact hb.pos v

theorem twin2 {f : Nat} (hf : f < s.d.heCnt) : (s2.d.he f).twin = (s.d.he f).twin := by
  rw [B.fp.binv.twin f (by rw [B.heCnt]; exact hf), B.clip.keeps.twin]

theorem inc2 {f : Nat} (hf : f < s.d.heCnt) : (s2.d.he f).incident = (s.d.he f).incident := by
  rw [B.fp.binv.inc f (by rw [B.heCnt]; exact hf), B.clip.keeps.inc]

/-- The border edges of the result. -/
theorem border {j : Nat} (hj : j < vs.length) :
    (s2.d.he (s1.d.heCnt + 2 * j + 1)).twin = some (s1.d.heCnt + 2 * j) ∧ (s2.d.he (s1.d.heCnt + 2 * j)).incident = none ∧
    (s2.d.he (s1.d.heCnt + 2 * j + 1)).incident = cellSeq s1.d V (some cell) j ∧
    opos s2.d (s1.d.heCnt + 2 * j + 1) = some (place s1.d (V j)) ∧ opos s2.d (s1.d.heCnt + 2 * j) = some (place s1.d (V (j + 1))) := by
  have hb := B.fp.binv
  obtain ⟨a1, a2, a3⟩ := hb.newE j hj
  obtain ⟨b1, b2, b3⟩ := hb.newT j hj
  refine ⟨a1, b3, a3, ?_, ?_⟩
  · rw [opos_vtx a2, hb.pos, (B.mem hj).2]
  · rw [opos_vtx b2, hb.pos]
    rcases Nat.lt_or_ge (j + 1) vs.length with h | h
    · exact (B.mem h).2
    · have : j + 1 = vs.length := by omega
      rw [this, B.fp.V_end]
      exact (B.mem (by omega)).2

/-- The label at the end of an edge is that of its twin's site. -/
theorem label_at {j f t i o : Nat} (hE : Edg s.d f t i o) (hf : hd s1.d (V j) = some f) : cellSeq s1.d V (some cell) j = some o := by
  have hnext : ∀ c, nextCell s1.d (V j) c = some o := by
    intro c
    unfold nextCell; unfold hd at hf; rw [hf]
    simp only
    rw [B.clip.keeps.twin, hE.tw, Option.bind_some, B.clip.keeps.inc, hE.tinc]
  cases j with
  | zero => exact hnext _
  | succ j => exact hnext _

/-- The label before the end of an edge is its own site. -/
theorem label_before (hn : 0 < n) {j f t i o : Nat} (hj : j < vs.length) (hE : Edg s.d f t i o) (hx : opos s1.d f = some (place s1.d (V (j + 1))))
    (hz : OnBoundary poly.points (place s1.d (V (j + 1)))) : cellSeq s1.d V (some cell) j = some i := by
  have hF := B.fits.toFitsPolygon
  obtain ⟨L, hI⟩ := reach_inv B.spec B.reach
  obtain ⟨k, hk, hne, hpl, hlab, _⟩ := B.back hj
  rw [← hpl] at hx hz
  rw [← hlab]
  obtain ⟨c, c1, c2⟩ := B.labels hn hk
  have hlt := B.before_end hk hE hx hne
  have c3 := c2 _ (between_left _ _)
  have c4 := c2 _ (between_right _ _)
  obtain ⟨y, hy⟩ := B.ends hE hx
  obtain ⟨_, _, _, k4⟩ := (B.half hE).2.2.1 _ _ hx hy
  obtain ⟨_, n1, n2⟩ := k4 _ (between_left _ _)
  have : c = i := by
    by_contra hcp
    by_cases hcb : c = o
    · rw [hcb] at c3
      exact absurd (c3.2 i n1.1) (not_le.mpr hlt)
    · exact hF.border _ ⟨c, i, o, hcp, hE.ne hI.dinv, hcb, c4, n1, n2⟩ hz
  rw [c1, this]

/-- From each half-edge of a cell `next` leads to another one, which starts where it ends. -/
theorem cell_next' (hn : 0 < n) {p f : Nat} (hf : OfCell s s1 vs V cell p f) :
    ∃ g t y, (s2.d.he g).origin = (s2.d.he t).origin ∧ OfCell s s1 vs V cell p g ∧ (s2.d.he f).next = some g ∧ (s2.d.he g).prev = some f ∧ (s2.d.he f).twin = some t ∧ opos s2.d t = some y ∧
      opos s2.d g = some y ∧ (EdgesOf s.d s1.edges f → StrictlyInside poly.points y → EdgesOf s.d s1.edges g ∧ (s.d.he f).next = some g) := by
  have hF := B.fits.toFitsPolygon
  obtain ⟨L, hI⟩ := reach_inv B.spec B.reach
  have hb := B.fp.binv
  have hl := B.lnk
  rcases hf with ⟨hk, hp⟩ | ⟨j, hj, rfl, hp⟩
  · have hfl := B.kept_lt hk
    obtain ⟨t, i, o, hE⟩ := B.edg hfl
    have hip : i = p := by
      have := hE.inc
      rw [hp, Option.some.injEq] at this
      exact this.symm
    subst hip
    have hEt := hE.symm hI.dinv
    have hkt : EdgesOf s.d s1.edges t := (B.half hE).2.1.mp hk
    obtain ⟨y, hy⟩ := Option.isSome_iff_exists.mp ((B.half hEt).1.mpr hkt)
    rcases B.start hEt.lt hy with ⟨g1, ⟨v, g2, g3, g4⟩, _, g5⟩ | ⟨g1, v, g2, g3, g4, g5⟩
    · -- a vertex inside
      have hnn : (s.d.he f).next ≠ none := by
        intro hh
        obtain ⟨b, hb⟩ := (hI.dinv.nxn f hfl t hE.tw).mp hh
        rw [g3] at hb
        cases hb
      obtain ⟨g, hg⟩ := Option.ne_none_iff_exists'.mp hnn
      obtain ⟨m1, m2, m3, m4⟩ := hI.dinv.nx f hfl g hg
      have m5 : (s.d.he g).origin = .vtx v := by rw [m4 t hE.tw, g3]
      have hgo : (s1.d.he g).origin = .vtx v := by
        rcases B.clip.org g (B.all m1) with ⟨h1, _⟩ | ⟨h1, _⟩
        · exact h1.trans m5
        · have h2 := h1 y (by rw [opos_vtx m5, g4])
          have h3 := (C31_convex hF.convex y).1 g5
          rw [h2] at h3
          cases h3
      have hgy : opos s1.d g = some y := by
        have hv := (hI.dinv.vts v g2).2.1
        rw [opos_vtx hgo, B.clip.keeps.pos v hv, g4]
      obtain ⟨t', a, b, hEg⟩ := B.edg m1
      have hkg : EdgesOf s.d s1.edges g := (B.half hEg).1.mp (by rw [hgy]; rfl)
      have hX : ¬ (s.d.heCnt ≤ g ∨ EdgesOf s.d s.edges g ∧ ¬ EdgesOf s.d s1.edges g) := by
        rintro (h | ⟨_, h⟩)
        · omega
        · exact h hkg
      have hXf : ¬ (s.d.heCnt ≤ f ∨ EdgesOf s.d s.edges f ∧ ¬ EdgesOf s.d s1.edges f) := by
        rintro (h | ⟨_, h⟩)
        · omega
        · exact h hk
      have hnx1 := hl.stay f g hg hX
      have hpv1 := (hl.nx f hXf g hnx1).1
      have hvlt := (hI.dinv.vts v g2).2.1
      refine ⟨g, t, y, by rw [hb.org g (by rw [B.heCnt]; exact m1), hb.org t (by rw [B.heCnt]; exact hEt.lt), hgo, g1, g3], Or.inl ⟨hkg, by rw [m3, hp]⟩, ?_, ?_, by rw [B.twin2 hfl, hE.tw], by rw [B.opos2 hEt.lt, hy], by rw [B.opos2 m1, hgy], fun _ _ => ⟨hkg, hg⟩⟩
      · rw [hb.nextK f (by rw [B.heCnt]; exact hfl), hnx1]
        intro j hj c hc ht
        rw [B.clip.keeps.twin] at ht
        rcases B.kind hj with ⟨h1, _⟩ | ⟨_, h2, f', h3, h4, h5, _⟩
        · rw [h1] at hc; cases hc
        · rw [h3, Option.some.injEq] at hc
          subst hc
          obtain ⟨t'', b1, _, _, b2⟩ := hI.dinv.tw f' h4
          rw [ht, Option.some.injEq] at b1
          subst b1
          rw [hE.tw, Option.some.injEq] at b2
          subst b2
          rw [g1, g3] at h5
          cases h5
          omega
      · rw [hb.prevK g (by rw [B.heCnt]; exact m1), hpv1]
        intro j hj hc
        obtain ⟨j', hj', hV⟩ : ∃ j' < vs.length, V (j + 1) = V j' := by
          rcases Nat.lt_or_ge (j + 1) vs.length with h | h
          · exact ⟨j + 1, h, rfl⟩
          · exact ⟨0, by omega, by rw [show j + 1 = vs.length by omega, B.fp.V_end]⟩
        rw [hV] at hc
        rcases B.kind hj' with ⟨h1, _⟩ | ⟨h0, _, f', h3, h4, h5, h6⟩
        · rw [h1] at hc; cases hc
        · rw [h3, Option.some.injEq] at hc
          subst hc
          rw [hgy, Option.some.injEq] at h6
          rw [← h6] at h0
          exact h0.not_inside g5
    · -- on the border
      obtain ⟨j, hj, h1, h2, h3⟩ := B.start_hd hEt.lt hy g1
      obtain ⟨b1, b2, b3, b4, b5⟩ := B.border hj
      have htw : (s1.d.he t).twin = some f := by rw [B.clip.keeps.twin, hEt.tw]
      refine ⟨s1.d.heCnt + 2 * j + 1, t, y, by rw [(hb.newE j hj).2.1, hb.org t (by rw [B.heCnt]; exact hEt.lt), h3], Or.inr ⟨j, hj, rfl, B.label_at hEt h1⟩, hb.nextO j hj t f h1 htw, ?_, by rw [B.twin2 hfl, hE.tw],
        by rw [B.opos2 hEt.lt, hy], by rw [b4, h2], fun _ hs => absurd hs g1.not_inside⟩
      rw [hb.prevE j hj, h1]
      simp only
      rw [htw]; rfl
  · obtain ⟨b1, b2, b3, b4, b5⟩ := B.border hj
    obtain ⟨j', hj', hV, hnext⟩ : ∃ j' < vs.length, V (j + 1) = V j' ∧ (j' = j + 1 ∨ j + 1 = vs.length ∧ j' = 0) := by
      rcases Nat.lt_or_ge (j + 1) vs.length with h | h
      · exact ⟨j + 1, h, rfl, Or.inl rfl⟩
      · exact ⟨0, by omega, by rw [show j + 1 = vs.length by omega, B.fp.V_end], Or.inr ⟨by omega, rfl⟩⟩
    have hnk : ¬ EdgesOf s.d s1.edges (s1.d.heCnt + 2 * j + 1) := by
      intro hh
      have := B.kept_lt hh
      have := B.heCnt
      omega
    rcases B.kind hj' with ⟨h1, k, h2, h3, h4⟩ | ⟨h0, _, f', h3, h4, h5, h6⟩
    · refine ⟨s1.d.heCnt + 2 * j' + 1, s1.d.heCnt + 2 * j, place s1.d (V (j + 1)), by rw [(hb.newE j' hj').2.1, (hb.newT j hj).2.1, hV], Or.inr ⟨j', hj', rfl, ?_⟩, ?_, ?_, b1, b5, ?_, fun h => absurd h hnk⟩
      · rcases hnext with rfl | ⟨h5, rfl⟩
        · show nextCell s1.d (V (j + 1)) (cellSeq s1.d V (some cell) j) = _
          unfold nextCell; unfold hd at h1; rw [h1, hp]
        · obtain ⟨c, c1, c2⟩ := B.labels hn hj
          obtain ⟨c', c1', c2'⟩ := B.labels hn hj'
          rw [c1, Option.some.injEq] at hp
          have e1 := c2 _ (between_right _ _)
          have e2 := c2' _ (between_left _ _)
          rw [hV] at e1
          rw [c1', ← hp, B.corner_cell hj' h1 (fun hh => by have := (B.flat_border hj' hh).1; omega) e2 e1]
      · rw [hb.nextE j hj, hV, h1]
        simp only [Option.getD_none]
        rcases hnext with rfl | ⟨h5, rfl⟩
        · rw [if_pos hj']
        · rw [if_neg (by omega), if_pos trivial]
      · rw [hb.prevE j' hj', h1]
        simp only
        have := B.two_le
        rcases hnext with rfl | ⟨h5, rfl⟩
        · rw [if_neg (by omega), Nat.add_sub_cancel]
        · rw [if_pos rfl, if_pos ⟨trivial, by omega⟩]
          congr 1; omega
      · rw [(B.border hj').2.2.2.1, hV]
    · obtain ⟨t', a, b, hEf⟩ := B.edg h4
      have hx' : opos s1.d f' = some (place s1.d (V (j + 1))) := by rw [hV]; exact h6
      have hlab := B.label_before hn hj hEf hx' (by rw [hV]; exact h0)
      rw [hp, Option.some.injEq] at hlab
      subst hlab
      refine ⟨f', s1.d.heCnt + 2 * j, place s1.d (V (j + 1)), by rw [hb.org f' (by rw [B.heCnt]; exact h4), h5, (hb.newT j hj).2.1, hV], Or.inl ⟨(B.half hEf).1.mp (by rw [h6]; rfl), hEf.inc⟩, ?_, ?_, b1, b5, by rw [B.opos2 h4, hx'],
        fun h => absurd h hnk⟩
      · rw [hb.nextE j hj, hV, h3]; rfl
      · exact hb.prevC j hj f' (by rw [hV]; exact h3)

theorem cell_next (hn : 0 < n) {p f : Nat} (hf : OfCell s s1 vs V cell p f) :
    ∃ g t y, OfCell s s1 vs V cell p g ∧ (s2.d.he f).next = some g ∧ (s2.d.he g).prev = some f ∧ (s2.d.he f).twin = some t ∧ opos s2.d t = some y ∧
      opos s2.d g = some y ∧ (EdgesOf s.d s1.edges f → StrictlyInside poly.points y → EdgesOf s.d s1.edges g ∧ (s.d.he f).next = some g) := by
  obtain ⟨g, t, y, _, h⟩ := B.cell_next' hn hf
  exact ⟨g, t, y, h⟩

end Closing

end Foronoi
