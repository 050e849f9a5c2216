import Verif.Props.Whole
import Verif.Proof.Winding

/-!
# Following `next` during the sweep

Around a vertex the cells are in clockwise order.  So a closed chain of half-edges of one cell cannot stay at one place.
-/

namespace Foronoi

open scoped List

variable {pts : Nat → ℝ × ℝ} {q : PQ (QE ℝ)} {ok : List (QE ℝ) → Prop} {n : Nat} {poly : Poly ℝ} {s : St ℝ}

theorem det_ne {a b c : Pt} (h : det a b c < 0) : a ≠ b ∧ b ≠ c ∧ a ≠ c := by
  refine ⟨?_, ?_, ?_⟩ <;> · rintro rfl; revert h; unfold det; intro h; ring_nf at h; exact lt_irrefl _ h

/-- The cells across two consecutive half-edges of a cell: a turn to the right around its site. -/
theorem next_turn (hq : q.Spec evLt ok) (h : Reach pts q n poly s) {f t a o g : Nat} (hE : Edg s.d f t a o) (hn : (s.d.he f).next = some g) :
    ∃ t' o' v, Edg s.d g t' a o' ∧ 0 < rightOf (pts a) (pts o) (pts o') ∧ (s.d.he t).origin = .vtx v ∧ (s.d.he g).origin = .vtx v := by
  obtain ⟨L, hI⟩ := reach_inv hq h
  have het := hE.symm hI.dinv
  obtain ⟨g1, g2, g3, g4⟩ := hI.dinv.nx f hE.lt g hn
  have g4 := g4 t hE.tw
  have ginc : (s.d.he g).incident = some a := by rw [g3, hE.inc]
  cases hv : (s.d.he t).origin with
  | bp b =>
    have := (hI.dinv.nxn f hE.lt t hE.tw).mpr ⟨b, hv⟩
    rw [hn] at this; cases this
  | vtx v =>
    rw [hv] at g4
    obtain ⟨hvv, hct⟩ := hI.dinv.ovt t het.lt v hv
    obtain ⟨_, hcg⟩ := hI.dinv.ovt g g1 v g4
    obtain ⟨_, _, p, x, r, e1, e2, e3, ho⟩ := hI.dinv.vts v hvv
    obtain ⟨m, ev, hev, _⟩ := ho.pos
    obtain ⟨hdet, _⟩ := mkEv_spec hev 0
    simp only at hdet
    obtain ⟨n1, n2, n3⟩ := det_ne hdet
    have n1 : p ≠ x := fun hh => n1 (by rw [hh])
    have n2 : x ≠ r := fun hh => n2 (by rw [hh])
    have n3 : p ≠ r := fun hh => n3 (by rw [hh])
    obtain ⟨⟨t1, a1, b1⟩, ⟨t2, a2, b2⟩, ⟨t3, a3, b3⟩⟩ := ho.tinc
    obtain ⟨i1, i2, i3⟩ := ho.inc
    have mem : ∀ e, e ∈ (s.d.vs v).conn → e = e1 ∨ e = e2 ∨ e = e3 := by
      intro e he
      rcases ho.conn with hc | hc <;> rw [hc] at he <;> simp only [List.mem_cons, List.not_mem_nil, or_false] at he <;> grind
    have hti := het.inc
    have htt := het.tw
    have htf := het.tinc
    obtain ⟨tg, c1, c2, _⟩ := hI.dinv.tw g g1
    have fin : ∀ o', (s.d.he tg).incident = some o' → 0 < rightOf (pts a) (pts o) (pts o') →
        ∃ t' o' v', Edg s.d g t' a o' ∧ 0 < rightOf (pts a) (pts o) (pts o') ∧ Org.vtx v = .vtx v' ∧ (s.d.he g).origin = .vtx v' :=
      fun o' k1 k2 => ⟨tg, o', v, ⟨g1, c1, ginc, k1⟩, k2, rfl, g4⟩
    have hr : ∀ a b c : Pt, rightOf a b c = - det a b c := by intro a b c; unfold rightOf det; ring
    have hr' : ∀ a b c : Pt, rightOf a b c = - det c a b := by intro a b c; unfold rightOf det; ring
    have hr'' : ∀ a b c : Pt, rightOf a b c = - det b c a := by intro a b c; unfold rightOf det; ring
    rcases mem t hct with rfl | rfl | rfl
    · rw [i1, Option.some.injEq] at hti
      rw [a1, Option.some.injEq] at htt
      rw [htt, htf, Option.some.injEq] at b1
      subst hti b1
      rcases mem g hcg with rfl | rfl | rfl
      · rw [i1, Option.some.injEq] at ginc; exact absurd ginc.symm n1
      · rw [i2, Option.some.injEq] at ginc; exact absurd ginc.symm n3
      · rw [a3, Option.some.injEq] at c1
        subst c1
        exact fin r b3 (by rw [hr]; linarith)
    · rw [i2, Option.some.injEq] at hti
      rw [a2, Option.some.injEq] at htt
      rw [htt, htf, Option.some.injEq] at b2
      subst hti b2
      rcases mem g hcg with rfl | rfl | rfl
      · rw [a1, Option.some.injEq] at c1
        subst c1
        exact fin p b1 (by rw [hr']; linarith)
      · rw [i2, Option.some.injEq] at ginc; exact absurd ginc.symm n2
      · rw [i3, Option.some.injEq] at ginc; exact absurd ginc n1
    · rw [i3, Option.some.injEq] at hti
      rw [a3, Option.some.injEq] at htt
      rw [htt, htf, Option.some.injEq] at b3
      subst hti b3
      rcases mem g hcg with rfl | rfl | rfl
      · rw [i1, Option.some.injEq] at ginc; exact absurd ginc n2
      · rw [a2, Option.some.injEq] at c1
        subst c1
        exact fin x b2 (by rw [hr'']; linarith)
      · rw [i3, Option.some.injEq] at ginc; exact absurd ginc n3

/-- The place of the origin, if it is a vertex. -/
theorem next_place (hd : Distinct pts n) (hq : q.Spec evLt ok) (h : Reach pts q n poly s) {f g : Nat} (hf : f < s.d.heCnt) (hn : (s.d.he f).next = some g) :
    ∃ v z, v ∈ s.verts ∧ StartsAt s.d g v ∧ EndsAt s.d f v ∧ (s.d.vs v).pos = some z := by
  obtain ⟨L, hI⟩ := reach_inv hq h
  obtain ⟨t, k1, k2, _⟩ := hI.dinv.tw f hf
  obtain ⟨a, k3, _⟩ := hI.dinv.inc f hf
  obtain ⟨o, k4, _⟩ := hI.dinv.inc t k2
  obtain ⟨t', o', v, _, _, h1, h2⟩ := next_turn hq h ⟨hf, k1, k3, k4⟩ hn
  have hv := (hI.dinv.ovt t k2 v h1).1
  obtain ⟨z, hz, _⟩ := C25_vertices hd hq h v hv
  exact ⟨v, z, hv, h2, ⟨t, k1, h1⟩, hz⟩

/-- A closed chain of half-edges of the sweep has an edge of positive length. -/
theorem sweep_cycle (hd : Distinct pts n) (hq : q.Spec evLt ok) (h : Reach pts q n poly s) {F : Nat → Nat} {k : Nat} (hk : 0 < k) (hc : F k = F 0)
    (h0 : F 0 < s.d.heCnt) (hn : ∀ i < k, (s.d.he (F i)).next = some (F (i + 1))) : ∃ i < k, HasLength s.d (F i) := by
  obtain ⟨L, hI⟩ := reach_inv hq h
  by_contra hcon
  push Not at hcon
  have hlt : ∀ i ≤ k, F i < s.d.heCnt := by
    intro i
    induction i with
    | zero => exact fun _ => h0
    | succ i ih => exact fun hi => (hI.dinv.nx _ (ih (by omega)) _ (hn i (by omega))).1
  obtain ⟨t, k1, k2, _⟩ := hI.dinv.tw (F 0) h0
  obtain ⟨a, k3, _⟩ := hI.dinv.inc (F 0) h0
  have hinc : ∀ i ≤ k, (s.d.he (F i)).incident = some a := by
    intro i
    induction i with
    | zero => exact fun _ => k3
    | succ i ih => exact fun hi => by rw [(hI.dinv.nx _ (hlt i (by omega)) _ (hn i (by omega))).2.2.1, ih (by omega)]
  -- the cells across
  have hacross : ∀ i, ∃ o, i ≤ k → ∃ t, Edg s.d (F i) t a o := by
    intro i
    by_cases hi : i ≤ k
    · obtain ⟨t, k1, k2, _⟩ := hI.dinv.tw (F i) (hlt i hi)
      obtain ⟨o, k4, _⟩ := hI.dinv.inc t k2
      exact ⟨o, fun _ => ⟨t, hlt i hi, k1, hinc i hi, k4⟩⟩
    · exact ⟨0, fun hh => absurd hh hi⟩
  choose o ho using hacross
  have huniq : ∀ {f t t' o o' : Nat}, Edg s.d f t a o → Edg s.d f t' a o' → o = o' := by
    intro f t t' o o' h1 h2
    have e := h1.tw
    rw [h2.tw, Option.some.injEq] at e
    subst e
    have e := h1.tinc
    rw [h2.tinc, Option.some.injEq] at e
    exact e.symm
  have hok : o k = o 0 := by
    obtain ⟨t1, e1⟩ := ho k le_rfl
    obtain ⟨t2, e2⟩ := ho 0 (Nat.zero_le _)
    rw [hc] at e1
    exact huniq e1 e2
  -- the common place
  have hplace : ∃ z, ∀ i ≤ k, ∃ v, StartsAt s.d (F i) v ∧ (s.d.vs v).pos = some z := by
    obtain ⟨v, w, z, g1, _, g3, _⟩ := not_not.mp (hcon 0 hk)
    refine ⟨z, fun i => ?_⟩
    induction i with
    | zero => exact fun _ => ⟨v, g1, g3⟩
    | succ i ih =>
      intro hi
      obtain ⟨v1, a1, a2⟩ := ih (by omega)
      obtain ⟨v2, w2, z2, b1, b2, b3, b4⟩ := not_not.mp (hcon i (by omega))
      obtain ⟨v3, z3, _, c1, c2, c3⟩ := next_place hd hq h (hlt i (by omega)) (hn i (by omega))
      have e1 : v1 = v2 := Org.vtx.inj (a1.symm.trans b1)
      subst e1
      rw [a2, Option.some.injEq] at b3
      subst b3
      obtain ⟨t4, d1, d2⟩ := b2
      obtain ⟨t5, d3, d4⟩ := c2
      rw [d1, Option.some.injEq] at d3
      subst d3
      have e2 : w2 = v3 := Org.vtx.inj (d2.symm.trans d4)
      subst e2
      exact ⟨w2, c1, b4⟩
  obtain ⟨z, hz⟩ := hplace
  refine circle_order (a := pts a) (z := z) (O := fun i => pts (o i)) hk ?_ ?_ (by simp only [hok])
  · intro i hi
    obtain ⟨t, e⟩ := ho i hi
    obtain ⟨v, hv, hvz⟩ := hz i hi
    obtain ⟨m1, m2⟩ := start_bisector hd hq h e hv hvz
    exact ⟨(e.pts_ne hd.injOn hI).symm, m2.eq m1⟩
  · intro i hi
    obtain ⟨t, e⟩ := ho i hi.le
    obtain ⟨t', e'⟩ := ho (i + 1) hi
    obtain ⟨t2, o2, _, e2, hturn, _⟩ := next_turn hq h e (hn i hi)
    rw [huniq e' e2]
    exact hturn

/-- An edge of length zero: four sites are nearest to its place. -/
theorem zero_four (hd : Distinct pts n) (hq : q.Spec evLt ok) (h : Reach pts q n poly s) {f : Nat} (hf : f < s.d.heCnt) (hz : ¬ HasLength s.d f) :
    ∃ v z a b c e, StartsAt s.d f v ∧ (s.d.vs v).pos = some z ∧ a ≠ b ∧ a ≠ c ∧ a ≠ e ∧ b ≠ c ∧ b ≠ e ∧ c ≠ e ∧
      Nearest pts n a z ∧ Nearest pts n b z ∧ Nearest pts n c z ∧ Nearest pts n e z := by
  obtain ⟨L, hI⟩ := reach_inv hq h
  obtain ⟨v, w, z, g1, ⟨t, g2, g3⟩, g4, g5⟩ := not_not.mp hz
  obtain ⟨a, k3, _⟩ := hI.dinv.inc f hf
  obtain ⟨t', k1, k2, k5, k6⟩ := hI.dinv.tw f hf
  rw [g2, Option.some.injEq] at k1
  subst k1
  obtain ⟨o, k4, _⟩ := hI.dinv.inc t k2
  have hE : Edg s.d f t a o := ⟨hf, g2, k3, k4⟩
  -- the next one
  obtain ⟨g, hg⟩ : ∃ g, (s.d.he f).next = some g := by
    refine Option.ne_none_iff_exists'.mp fun hh => ?_
    obtain ⟨b, hb⟩ := (hI.dinv.nxn f hf t g2).mp hh
    rw [show (s.d.he t).origin = .vtx w from g3] at hb; cases hb
  obtain ⟨t2, o2, v2, e2, turn2, p2, q2⟩ := next_turn hq h hE hg
  have : v2 = w := Org.vtx.inj (p2.symm.trans g3)
  subst this
  -- the previous one
  obtain ⟨f0, hf0⟩ : ∃ f0, (s.d.he f).prev = some f0 := by
    refine Option.ne_none_iff_exists'.mp fun hh => ?_
    obtain ⟨b, hb⟩ := (hI.dinv.pvn f hf).mp hh
    rw [show (s.d.he f).origin = .vtx v from g1] at hb; cases hb
  obtain ⟨hf0l, hnx0⟩ := hI.dinv.pv f hf f0 hf0
  obtain ⟨t0, m1, m2, _⟩ := hI.dinv.tw f0 hf0l
  obtain ⟨o0, m4, _⟩ := hI.dinv.inc t0 m2
  have m3 := (hI.dinv.nx f0 hf0l f hnx0).2.2.1
  have hE0 : Edg s.d f0 t0 a o0 := ⟨hf0l, m1, by rw [← m3, k3], m4⟩
  obtain ⟨t3, o3, v3, e3, turn3, p3, q3⟩ := next_turn hq h hE0 hnx0
  have : v3 = v := Org.vtx.inj (q3.symm.trans g1)
  subst this
  have : o3 = o := by
    have e := e3.tw
    rw [g2, Option.some.injEq] at e
    subst e
    have e := e3.tinc
    rw [k4, Option.some.injEq] at e
    exact e.symm
  subst this
  obtain ⟨n1, n2⟩ := start_bisector hd hq h hE g1 g4
  obtain ⟨n3, n4⟩ := start_bisector hd hq h e2 q2 g5
  obtain ⟨n5, n6⟩ := start_bisector hd hq h (hE0.symm hI.dinv) p3 g4
  refine ⟨v3, z, a, o3, o2, o0, g1, g4, hE.ne hI.dinv, e2.ne hI.dinv, hE0.ne hI.dinv, ?_, ?_, ?_, n1, n2, n4, n5⟩
  · rintro rfl
    revert turn2; unfold rightOf; intro h; ring_nf at h; exact lt_irrefl _ h
  · rintro rfl
    revert turn3; unfold rightOf; intro h; ring_nf at h; exact lt_irrefl _ h
  · rintro rfl
    have : rightOf (pts a) (pts o2) (pts o3) = - rightOf (pts a) (pts o3) (pts o2) := by unfold rightOf; ring
    linarith

end Foronoi
