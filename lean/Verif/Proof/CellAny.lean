import Verif.Props.Euler
import Verif.Props.CellArea

/-!
# Sites without a part in the polygon, and sites whose cell covers it
-/

namespace Foronoi

open scoped List

variable {pts : Nat → ℝ × ℝ} {q : PQ (QE ℝ)} {ok : List (QE ℝ) → Prop} {n : Nat} {rz : Bool} {poly : Poly ℝ} {s s1 s2 s' : St ℝ} {vs : List Nat} {V : Nat → Nat} {cell : Nat}

theorem Via.self {K : Type} [LinearOrder K] [Arith K] {d : Dcel K} {X : Nat → Prop} {x y : Nat} (h : Via d X x y) (hx : (d.he x).next = some x) : y = x := by
  induction h with
  | one h => rw [hx, Option.some.injEq] at h; exact h.symm
  | step h1 _ _ ih =>
    rw [hx, Option.some.injEq] at h1
    subst h1
    exact ih hx

theorem FarBorder.far {p r : Nat} (h : FarBorder pts n p r) : FarCell pts n r := by
  intro R
  obtain ⟨z, h1, h2, h3⟩ := h R
  exact ⟨z, h2, lt_of_lt_of_le h3 (h1.2 r h2.1)⟩

theorem far_alone {p : Nat} (h1 : n < 2) (hp : p < n) : FarCell pts n p := by
  intro R
  refine ⟨((pts p).1 + (|R| + 1), (pts p).2), ⟨hp, fun c hc => ?_⟩, ?_⟩
  · have : c = p := by omega
    rw [this]
  · have := le_abs_self R
    have := abs_nonneg R
    unfold sqDist
    simp only
    nlinarith

namespace Closing

variable (B : Closing pts q ok n poly s s1 s2 vs V cell)
include B

/-- A cell with an edge without successor is not bounded. -/
theorem far_open {p y : Nat} (hy : y < s.d.heCnt) (hnx : (s.d.he y).next = none) (hinc : (s.d.he y).incident = some p) : FarCell pts n p := by
  obtain ⟨L, hI⟩ := reach_inv B.spec B.reach
  obtain ⟨t, i, o, hE⟩ := B.edg hy
  have e := hE.inc
  rw [hinc, Option.some.injEq] at e
  subst e
  have het := hE.symm hI.dinv
  obtain ⟨b, hb⟩ := (hI.dinv.nxn y hy t hE.tw).mp hnx
  have hpn := (hE.site_lt hI).1
  have hon := (het.site_lt hI).1
  have hne : pts o ≠ pts p := fun hh => hE.ne hI.dinv (B.dist o hon p hpn hh).symm
  have key : ∀ z, dsq (pts p) z = dsq (pts o) z → (∀ v zv, StartsAt s.d y v → (s.d.vs v).pos = some zv → zv = z) → FarCell pts n p := by
    intro z hz hst
    refine FarBorder.far (p := o) (far_border (z := z) hne fun w hw => ?_)
    refine on_nearest B.dist B.spec B.reach B.done het ?_ ?_ ?_
    · exact (hw.bisector hz).symm
    · intro v zv hv _
      unfold StartsAt at hv
      rw [hb] at hv; cases hv
    · intro v zv hv hzv
      rw [hst v zv hv hzv]
      exact hw
  cases ho : (s.d.he y).origin with
  | vtx v =>
    have hv := (hI.dinv.ovt y hy v ho).1
    obtain ⟨zv, hzv, _⟩ := C25_vertices B.dist B.spec B.reach v hv
    obtain ⟨m1, m2⟩ := start_bisector B.dist B.spec B.reach hE ho hzv
    refine key zv (m1.eq m2) fun v' zv' hv' hzv' => ?_
    have : v' = v := Org.vtx.inj (hv'.symm.trans ho)
    subst this
    rw [hzv, Option.some.injEq] at hzv'
    exact hzv'.symm
  | bp c =>
    refine key (((pts p).1 + (pts o).1) / 2, ((pts p).2 + (pts o).2) / 2) (by unfold dsq; simp only; ring) fun v zv hv _ => ?_
    unfold StartsAt at hv
    rw [ho] at hv; cases hv

/-- A deleted first edge is on a closed chain of the sweep. -/
theorem deleted_first {p x : Nat} (hfe : s1.d.fe p = some x) (hk : ¬ EdgesOf s.d s1.edges x) : ¬ FarCell pts n p ∧ ∃ v, (s1.d.he x).origin = .vtx v ∧ (s1.d.vs v).pos = none := by
  obtain ⟨L, hI⟩ := reach_inv B.spec B.reach
  have hl := B.lnk
  obtain ⟨h1, h2⟩ := B.clip.ok.fe p x hfe
  rw [B.heCnt] at h1
  rw [B.clip.keeps.inc] at h2
  have hX : s.d.heCnt ≤ x ∨ EdgesOf s.d s.edges x ∧ ¬ EdgesOf s.d s1.edges x := Or.inr ⟨B.all h1, hk⟩
  constructor
  · rcases hl.fe p x hfe with h | h
    · exact absurd hX h
    · obtain ⟨F, k, k0, e0, ek, hnx, _⟩ := (hl.via x x h).path
      exact B.cycle_bounded k0 (ek.trans e0.symm) (by rw [e0]; exact h1) (by rw [e0]; exact h2) hnx
  · obtain ⟨t, i, o, hE⟩ := B.edg h1
    have hno : opos s1.d x = none := by
      by_contra hh
      exact hk ((B.half hE).1.mp (Option.isSome_iff_ne_none.mpr hh))
    obtain ⟨v, hv⟩ : ∃ v, (s1.d.he x).origin = .vtx v := by
      rcases B.clip.org x (B.all h1) with ⟨h3, p', h4, _⟩ | ⟨_, v, _, _, h3⟩
      · unfold opos at h4
        rw [h3]
        cases ho : (s.d.he x).origin with
        | vtx v => exact ⟨v, rfl⟩
        | bp b => rw [ho] at h4; cases h4
      · exact ⟨v, h3⟩
    refine ⟨v, hv, ?_⟩
    unfold opos at hno
    rw [hv] at hno
    exact hno

/-- The first edge of a bounded cell of which no edge is kept. -/
theorem first_deleted {p : Nat} (hp : p < n) (hb : ¬ FarCell pts n p) (hno : ∀ x, EdgesOf s.d s1.edges x → (s.d.he x).incident ≠ some p) :
    ∃ x, s1.d.fe p = some x ∧ x < s.d.heCnt ∧ ¬ EdgesOf s.d s1.edges x ∧ (s2.d.he x).next = some x := by
  obtain ⟨L, hI⟩ := reach_inv B.spec B.reach
  have hl := B.lnk
  cases hfe : s1.d.fe p with
  | some x =>
    rcases B.first_kept hfe with (⟨h1, h2⟩ | ⟨j, hj, e, _⟩) | ⟨h1, _, h3, h4⟩
    · exact absurd h2 (hno x h1)
    · have := (B.clip.ok.fe p x hfe).1
      omega
    · exact ⟨x, rfl, h1, h3, h4⟩
  | none =>
    exfalso
    have hm : s.d.fe p = none ∨ ∃ y < s.d.heCnt, (s.d.he y).next = none ∧ (s.d.he y).incident = some p := by
      have hP : ClosedCells s.d (· < s.d.heCnt) :=
        ⟨fun x hx g hg => ⟨(hI.dinv.nx x hx g hg).1, (hI.dinv.nx x hx g hg).2.2.1⟩, fun q x hx => ⟨(hI.dinv.fe q x hx).1, (hI.dinv.fe q x hx).2⟩⟩
      rcases hl.feN p hfe with h | ⟨x, y, h1, h2, h3⟩
      · exact Or.inl h
      · obtain ⟨h4, h5⟩ := hP.fe p x h1
        rcases h2 with h2 | h2
        · rw [h2] at h3; exact Or.inr ⟨x, h4, h3, h5⟩
        · obtain ⟨h6, h7⟩ := h2.closed hP h4
          exact Or.inr ⟨y, h6, h3, h7.trans h5⟩
    rcases hm with h | ⟨y, hy, hnx, hinc⟩
    · rcases Nat.lt_or_ge n 2 with h2 | h2
      · exact hb (far_alone h2 hp)
      · obtain ⟨o, hop, hon, z, w, hzw, a1, a2, a3, a4⟩ := neighbour B.dist hp h2
        obtain ⟨e, he, hs, _⟩ := C64_edge_exists B.dist B.spec B.reach B.done hop.symm hzw a1 a2 a3 a4
        have := hI.dinv.feAll e he p hs.1
        rw [h] at this
        cases this
    · exact hb (B.far_open hy hnx hinc)

end Closing

namespace Finish

variable (F : Finish pts q ok n poly rz s s1 s2 s' vs V cell)
include F

/-- The first edge of a bounded cell of which no edge is kept is not part of the result, but still there. -/
theorem first_lost (hv1 : s1.verts = s.verts) {p : Nat} (hp : p < n) (hb : ¬ FarCell pts n p) (hno : ∀ x, EdgesOf s.d s1.edges x → (s.d.he x).incident ≠ some p) :
    ∃ x v, s'.d.fe p = some x ∧ (s'.d.he x).next = some x ∧ (s'.d.he x).origin = .vtx v ∧ (s'.d.vs v).pos = none ∧ x < s'.d.heCnt := by
  obtain ⟨x, h1, h2, h3, h4⟩ := F.B.first_deleted hp hb hno
  have hfe2 : s2.d.fe p = some x := by rw [F.B.fp.binv.feK p (by rw [h1]; rfl), h1]
  have hl := F.lnk
  obtain ⟨_, v, hv, hpos⟩ := F.B.deleted_first h1 h3
  have ho2 : (s2.d.he x).origin = .vtx v := by rw [F.B.fp.binv.org x (by rw [F.B.heCnt]; exact h2), hv]
  have hp2 : (s2.d.vs v).pos = none := by rw [F.B.fp.binv.pos, hpos]
  refine ⟨x, v, ?_, ?_, ?_, ?_, ?_⟩
  · cases hfe : s'.d.fe p with
    | none =>
      exfalso
      rcases hl.feN p hfe with h | ⟨x', y, g1, g2, g3⟩
      · rw [hfe2] at h; cases h
      · rw [hfe2, Option.some.injEq] at g1
        subst g1
        rcases g2 with rfl | g2
        · rw [h4] at g3; cases g3
        · rw [g2.self h4, h4] at g3; cases g3
    | some x' =>
      rcases hl.feS p x' hfe with h | ⟨y, g1, _, g3⟩
      · rw [hfe2] at h; exact h.symm
      · rw [hfe2, Option.some.injEq] at g1
        subst g1
        rw [g3.self h4]
  · cases hnx : (s'.d.he x).next with
    | none =>
      exfalso
      rcases hl.nn x hnx with h | ⟨y, g1, _, g3⟩
      · rw [h4] at h; cases h
      · rw [g1.self h4, h4] at g3; cases g3
    | some g => rw [(hl.via x g hnx).self h4]
  · cases rz with
    | false =>
      have hcu := F.cu
      simp only [Bool.false_eq_true, if_false] at hcu
      rw [hcu]
      exact ho2
    | true =>
      have hcu := F.cu
      simp only [if_true] at hcu
      refine hcu.stay (F.safe hv1).dist x v ho2 fun e he _ hh => ?_
      have := F.org_start (Or.inl he)
      unfold opos at this
      rw [hh] at this
      simp only at this
      rw [hp2] at this
      cases this
  · cases rz with
    | false =>
      have hcu := F.cu
      simp only [Bool.false_eq_true, if_false] at hcu
      rw [hcu]
      exact hp2
    | true =>
      have hcu := F.cu
      simp only [if_true] at hcu
      rw [hcu.same.pos]
      exact hp2
  · have h5 : s'.d.heCnt = s2.d.heCnt := by
      have hcu := F.cu
      cases rz with
      | false => simp only [Bool.false_eq_true, if_false] at hcu; rw [hcu]
      | true => simp only [if_true] at hcu; exact hcu.same.heCnt
    rw [h5, F.B.fp.binv.heCnt, F.B.heCnt]
    omega

/-- A site with an unbounded cell outside of the polygon has no first edge. -/
theorem first_none {p : Nat} (hb : FarCell pts n p) (hno : ∀ z, ¬ InCell pts n poly p z) : s'.d.fe p = none := by
  have h2 : s2.d.fe p = none := by
    cases hfe : s2.d.fe p with
    | none => rfl
    | some x =>
      exfalso
      have key : OfCell s s1 vs V cell p x → False := by
        intro h
        have := (F.B.seg F.hn h).1 _ (between_left _ _)
        exact hno _ ⟨this.1, this.2.1⟩
      rcases F.B.fp.binv.feN p x hfe with h | h
      · rcases F.B.first_kept h with h' | ⟨_, _, h3, _⟩
        · exact key h'
        · exact (F.B.deleted_first h h3).1 hb
      · exact key (Or.inr h)
  cases hfe : s'.d.fe p with
  | none => rfl
  | some x =>
    rcases F.lnk.feS p x hfe with h | ⟨y, g1, _⟩
    · rw [h2] at h; cases h
    · rw [h2] at g1; cases g1

end Finish

end Foronoi
