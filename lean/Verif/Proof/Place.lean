import Verif.Props.Unique
import Verif.Proof.SweepCycle
import Verif.Proof.ZeroEdges
import Verif.Proof.CellCycle

/-!
# Vertices at the same place

Where more than three sites are nearest, the sweep makes several vertices at one place.  They are connected by edges of length zero.
-/

namespace Foronoi

open scoped List

variable {pts : Nat → Pt} {q : PQ (QE ℝ)} {ok : List (QE ℝ) → Prop} {n : Nat} {poly : Poly ℝ} {s : St ℝ} {z : Pt}

/-- A point of a circle is not between others. -/
theorem mixture {x y u b : Pt} {w1 w2 w3 R : ℝ} (h1 : 0 < w1) (h2 : 0 ≤ w2) (h3 : 0 < w3) (e1 : w1 * x.1 + w2 * y.1 + w3 * u.1 = (w1 + w2 + w3) * b.1)
    (e2 : w1 * x.2 + w2 * y.2 + w3 * u.2 = (w1 + w2 + w3) * b.2) (hx : dsq x z = R) (hy : dsq y z = R) (hu : dsq u z = R) (hb : dsq b z = R) : x = u := by
  have key : w1 * w2 * dsq x y + w1 * w3 * dsq x u + w2 * w3 * dsq y u = 0 := by
    unfold dsq at *
    linear_combination (w1 + w2 + w3) * w1 * hx + (w1 + w2 + w3) * w2 * hy + (w1 + w2 + w3) * w3 * hu - (w1 + w2 + w3) ^ 2 * hb
      - (w1 * x.1 + w2 * y.1 + w3 * u.1 - (w1 + w2 + w3) * z.1 + (w1 + w2 + w3) * (b.1 - z.1)) * e1
      - (w1 * x.2 + w2 * y.2 + w3 * u.2 - (w1 + w2 + w3) * z.2 + (w1 + w2 + w3) * (b.2 - z.2)) * e2
  by_contra hne
  have k1 := mul_pos (mul_pos h1 h3) (dsq_pos hne)
  have k2 : 0 ≤ dsq x y := by unfold dsq; positivity
  have k3 : 0 ≤ dsq y u := by unfold dsq; positivity
  nlinarith [mul_nonneg (mul_nonneg h1.le h2) k2, mul_nonneg (mul_nonneg h2 h3.le) k3]

theorem chord_left {a b c d : Pt} {R : ℝ} (ha : dsq a z = R) (hb : dsq b z = R) (hc : dsq c z = R) (hd : dsq d z = R) (h1 : det a b c < 0)
    (h2 : det c b d < 0) : det a b d < 0 := by
  by_contra h
  push Not at h
  have h3 : 0 < det b c d := by unfold det at *; linarith
  have := mixture (z := z) (x := a) (y := c) (u := d) (b := b) h3 h (neg_pos.mpr h1) (by unfold det; ring) (by unfold det; ring) ha hc hd hb
  subst this
  unfold det at *
  linarith

theorem chord_right {a b c d : Pt} {R : ℝ} (ha : dsq a z = R) (hb : dsq b z = R) (hc : dsq c z = R) (hd : dsq d z = R) (h1 : det a b c < 0)
    (h2 : det a c d < 0) : det a b d < 0 := by
  by_contra h
  push Not at h
  have := mixture (z := z) (x := b) (y := c) (u := d) (b := a) (neg_pos.mpr h2) h (neg_pos.mpr h1) (by unfold det; ring) (by unfold det; ring) hb hc hd ha
  subst this
  unfold det at *
  linarith

/-- Three points of a circle are not on a line. -/
theorem circle_det {a b c : Pt} {R : ℝ} (ha : dsq a z = R) (hb : dsq b z = R) (hc : dsq c z = R) (hab : a ≠ b) (hac : a ≠ c) (hbc : b ≠ c) : det a b c ≠ 0 := by
  intro h
  have hw : z ≠ (z.1 + (b.2 - a.2), z.2 - (b.1 - a.1)) := by
    intro hh
    have e1 := congrArg Prod.fst hh
    have e2 := congrArg Prod.snd hh
    simp only at e1 e2
    exact hab (Prod.ext (by linarith) (by linarith))
  rcases third_site (c := c) hab hw (by rw [show sqDist a z = R from ha, show sqDist b z = R from hb])
      (by unfold sqDist; unfold dsq at ha hb; simp only; linear_combination ha - hb)
      (by rw [show sqDist c z = R from hc, show sqDist a z = R from ha])
      (by unfold sqDist; unfold dsq at ha hc; unfold det at h; simp only; linear_combination hc - ha + 2 * h) with h1 | h1
  · exact hac h1.symm
  · exact hbc h1.symm

/-- Two vertices at `z` are the ends of an edge. -/
def ZStep (s : St ℝ) (z : Pt) (v w : Nat) : Prop :=
  ∃ f t i j, Edg s.d f t i j ∧ (s.d.he f).origin = .vtx v ∧ (s.d.he t).origin = .vtx w ∧ (s.d.vs v).pos = some z ∧ (s.d.vs w).pos = some z

abbrev Linked (s : St ℝ) (z : Pt) : Nat → Nat → Prop := Relation.ReflTransGen (ZStep s z)

theorem Linked.symm (hq : q.Spec evLt ok) (h : Reach pts q n poly s) {v w : Nat} (hl : Linked s z v w) : Linked s z w v := by
  obtain ⟨L, hI⟩ := reach_inv hq h
  induction hl with
  | refl => exact Relation.ReflTransGen.refl
  | tail _ h2 ih =>
    obtain ⟨f, t, i, j, hE, h1, h2, h3, h4⟩ := h2
    exact Relation.ReflTransGen.head ⟨t, f, j, i, hE.symm hI.dinv, h2, h1, h4, h3⟩ ih

/-- The half-edge `f` of the cell of `p` starts at the vertex `v`, at `z`. -/
structure Corner (s : St ℝ) (z : Pt) (p v f : Nat) : Prop where
  lt : f < s.d.heCnt
  st : StartsAt s.d f v
  inc : (s.d.he f).incident = some p
  pos : (s.d.vs v).pos = some z

/-- Along the cell one comes to an edge of positive length. -/
theorem Corner.walk (hd : Distinct pts n) (hq : q.Spec evLt ok) (h : Reach pts q n poly s) {p v f : Nat} (hc : Corner s z p v f) :
    ∃ w g, Corner s z p w g ∧ HasLength s.d g ∧ Linked s z v w := by
  obtain ⟨L, hI⟩ := reach_inv hq h
  have hL := C07_links hq h
  by_contra hno
  push Not at hno
  have hstep : ∀ w g, Corner s z p w g → Linked s z v w → (s.d.he g).next = some (nxt s.d g) ∧ ¬ HasLength s.d g ∧
      ∃ w', Corner s z p w' (nxt s.d g) ∧ Linked s z v w' := by
    intro w g hg hl
    have hnl : ¬ HasLength s.d g := fun hh => hno w g hg hh hl
    obtain ⟨v1, w1, z1, a1, ⟨t, a2, a3⟩, a4, a5⟩ := not_not.mp hnl
    have hst := hg.st
    unfold StartsAt at hst a1
    rw [hst, Org.vtx.injEq] at a1
    subst a1
    rw [hg.pos, Option.some.injEq] at a4
    subst a4
    obtain ⟨g', hg'⟩ := Option.isSome_iff_exists.mp ((hL.next_iff g hg.lt).mpr ⟨w1, t, a2, a3⟩)
    obtain ⟨v', ⟨t', b1, b2⟩, b3⟩ := hL.joins g hg.lt g' hg'
    rw [a2, Option.some.injEq] at b1
    subst b1
    rw [a3, Org.vtx.injEq] at b2
    subst b2
    have hn : nxt s.d g = g' := by unfold nxt; rw [hg']; rfl
    obtain ⟨o, ho, _⟩ := hI.dinv.inc t (by obtain ⟨t', k1, k2, _⟩ := hI.dinv.tw g hg.lt; rw [a2, Option.some.injEq] at k1; rw [k1]; exact k2)
    rw [hn]
    refine ⟨hg', hnl, w1, ⟨(hL.next_prev g hg.lt g' hg').1, b3, by rw [hL.same_cell g hg.lt g' hg']; exact hg.inc, a5⟩, hl.tail ?_⟩
    exact ⟨g, t, p, o, ⟨hg.lt, a2, hg.inc, ho⟩, hst, a3, hg.pos, a5⟩
  have hall : ∀ i, ∃ w, Corner s z p w ((nxt s.d)^[i] f) ∧ Linked s z v w := by
    intro i
    induction i with
    | zero => exact ⟨v, hc, Relation.ReflTransGen.refl⟩
    | succ i ih =>
      obtain ⟨w, h1, h2⟩ := ih
      obtain ⟨_, _, w', h3, h4⟩ := hstep w _ h1 h2
      rw [Function.iterate_succ_apply']
      exact ⟨w', h3, h4⟩
  have hlt : ∀ i, (nxt s.d)^[i] f < s.d.heCnt := fun i => by obtain ⟨w, h1, _⟩ := hall i; exact h1.lt
  obtain ⟨i, j, hij, heq⟩ := Finite.exists_ne_map_eq_of_infinite fun i : ℕ => (⟨(nxt s.d)^[i] f, hlt i⟩ : Fin s.d.heCnt)
  simp only [Fin.mk.injEq] at heq
  have main : ∀ i j, i < j → (nxt s.d)^[i] f = (nxt s.d)^[j] f → False := by
    intro i j hij heq
    obtain ⟨k, _, hk⟩ := sweep_cycle hd hq h (F := fun k => (nxt s.d)^[i + k] f) (k := j - i) (by omega)
      (by simp only [Nat.add_zero]; rw [show i + (j - i) = j by omega]; exact heq.symm) (hlt _) (by
        intro k _
        obtain ⟨w, h1, h2⟩ := hall (i + k)
        show (s.d.he _).next = some ((nxt s.d)^[i + k + 1] f)
        rw [Function.iterate_succ_apply']
        exact (hstep w _ h1 h2).1)
    obtain ⟨w, h1, h2⟩ := hall (i + k)
    exact (hstep w _ h1 h2).2.1 hk
  rcases lt_or_gt_of_ne hij with h1 | h1
  · exact main i j h1 heq
  · exact main j i h1 heq.symm

theorem Corner.edg (hq : q.Spec evLt ok) (h : Reach pts q n poly s) {p v f : Nat} (hc : Corner s z p v f) : ∃ t o, Edg s.d f t p o := by
  obtain ⟨L, hI⟩ := reach_inv hq h
  obtain ⟨t, k1, k2, _⟩ := hI.dinv.tw f hc.lt
  obtain ⟨o, k3, _⟩ := hI.dinv.inc t k2
  exact ⟨t, o, hc.lt, k1, hc.inc, k3⟩

/-- The neighbour across an edge of positive length turns least. -/
theorem ahead_det {p o x y : Pt} (hpo : p ≠ o) (h1 : dsq p z = dsq o z) (h2 : dsq p y = dsq o y) (ha : 0 < ahead p o z y) (h3 : dsq p z = dsq x z)
    (h4 : dsq p y ≤ dsq x y) : 0 ≤ det p o x := by
  obtain ⟨k, k1, k2, k3⟩ := fwd_of_ahead hpo.symm h2.symm h1.symm ha.le
  have e1 : y.1 - z.1 = k * (p.2 - o.2) := by linarith
  have e2 : y.2 - z.2 = -k * (p.1 - o.1) := by linarith
  have hk : k < 0 := by
    rcases eq_or_lt_of_le k1 with h0 | h0
    · subst h0
      unfold ahead at ha
      rw [e1, e2] at ha
      simp at ha
    · exact h0
  have h5 : k * det p o x ≤ 0 := by
    unfold det dsq at *
    have : (x.1 - p.1) * (y.1 - z.1) + (x.2 - p.2) * (y.2 - z.2) ≤ 0 := by nlinarith
    rw [e1, e2] at this
    linarith
  by_contra hcon
  push Not at hcon
  nlinarith [mul_pos_of_neg_of_neg hk hcon]

theorem nearest_ne (hd : Distinct pts n) {a b : Nat} (ha : Nearest pts n a z) (hb : Nearest pts n b z) (hab : a ≠ b) : pts a ≠ pts b :=
  fun he => hab (hd a ha.1 b hb.1 he)

/-- At each place one edge of positive length of a cell starts. -/
theorem Corner.unique (hd : Distinct pts n) (hq : q.Spec evLt ok) (h : Reach pts q n poly s) (hend : s.queue = []) {p v f w g : Nat}
    (hf : Corner s z p v f) (hg : Corner s z p w g) (lf : HasLength s.d f) (lg : HasLength s.d g) : f = g := by
  obtain ⟨L, hI⟩ := reach_inv hq h
  obtain ⟨t, o, hE⟩ := hf.edg hq h
  obtain ⟨t', o', hE'⟩ := hg.edg hq h
  obtain ⟨n1, n2⟩ := start_bisector hd hq h hE hf.st hf.pos
  obtain ⟨_, n3⟩ := start_bisector hd hq h hE' hg.st hg.pos
  by_cases ho : o = o'
  · subst ho
    exact C69_no_duplicate hd hq h hend hf.lt hg.lt ⟨hE.inc, t, hE.tw, hE.tinc⟩ ⟨hE'.inc, t', hE'.tw, hE'.tinc⟩ lf lg
  exfalso
  obtain ⟨y, y1, y2, y3⟩ := further hd hq h hend hE lf hf.st hf.pos
  obtain ⟨x, x1, x2, x3⟩ := further hd hq h hend hE' lg hg.st hg.pos
  have d1 := ahead_det (x := pts o') (hE.pts_ne hd.injOn hI) (n1.eq n2) (y1.eq y2) y3 (n1.eq n3) (y1.2 o' n3.1)
  have d2 := ahead_det (x := pts o) (hE'.pts_ne hd.injOn hI) (n1.eq n3) (x1.eq x2) x3 (n1.eq n2) (x1.2 o n2.1)
  refine circle_det (z := z) (R := dsq (pts p) z) rfl (n2.eq n1) (n3.eq n1) (hE.pts_ne hd.injOn hI) (hE'.pts_ne hd.injOn hI) (nearest_ne hd n2 n3 ho) ?_
  refine le_antisymm ?_ d1
  have : det (pts p) (pts o') (pts o) = - det (pts p) (pts o) (pts o') := by unfold det; ring
  linarith

/-- All vertices at `z` where the cell of `p` is are connected. -/
theorem Corner.linked (hd : Distinct pts n) (hq : q.Spec evLt ok) (h : Reach pts q n poly s) (hend : s.queue = []) {p v f w g : Nat}
    (hf : Corner s z p v f) (hg : Corner s z p w g) : Linked s z v w := by
  obtain ⟨v', f', a1, a2, a3⟩ := hf.walk hd hq h
  obtain ⟨w', g', b1, b2, b3⟩ := hg.walk hd hq h
  have := a1.unique hd hq h hend b1 a2 b2
  subst this
  have : v' = w' := Org.vtx.inj (a1.st.symm.trans b1.st)
  subst this
  exact a3.trans (b3.symm hq h)

/-- Near `z`, on the right of the chord from `a` to `b`, these two are nearest if no other site nearest to `z` is on the right. -/
theorem chord_point {a b : Nat} (ha : Nearest pts n a z) (hb : Nearest pts n b z) (hno : ∀ c, Nearest pts n c z → 0 ≤ det (pts a) (pts b) (pts c)) :
    ∃ k > 0, Nearest pts n a (z.1 + k * ((pts b).2 - (pts a).2), z.2 - k * ((pts b).1 - (pts a).1)) ∧
      Nearest pts n b (z.1 + k * ((pts b).2 - (pts a).2), z.2 - k * ((pts b).1 - (pts a).1)) := by
  have key : ∀ m ≤ n, ∃ k0 > 0, ∀ k, 0 < k → k ≤ k0 → ∀ c < m,
      sqDist (pts a) (z.1 + k * ((pts b).2 - (pts a).2), z.2 - k * ((pts b).1 - (pts a).1)) ≤
        sqDist (pts c) (z.1 + k * ((pts b).2 - (pts a).2), z.2 - k * ((pts b).1 - (pts a).1)) := by
    intro m
    induction m with
    | zero => exact fun _ => ⟨1, one_pos, fun k _ _ c hc => by omega⟩
    | succ m ih =>
      intro hm
      obtain ⟨k0, k1, k2⟩ := ih (by omega)
      have hone : ∃ k0 > 0, ∀ k, 0 < k → k ≤ k0 → sqDist (pts a) (z.1 + k * ((pts b).2 - (pts a).2), z.2 - k * ((pts b).1 - (pts a).1)) ≤
          sqDist (pts m) (z.1 + k * ((pts b).2 - (pts a).2), z.2 - k * ((pts b).1 - (pts a).1)) := by
        have hid : ∀ k, sqDist (pts m) (z.1 + k * ((pts b).2 - (pts a).2), z.2 - k * ((pts b).1 - (pts a).1)) -
            sqDist (pts a) (z.1 + k * ((pts b).2 - (pts a).2), z.2 - k * ((pts b).1 - (pts a).1)) =
            sqDist (pts m) z - sqDist (pts a) z + 2 * k * det (pts a) (pts b) (pts m) := by
          intro k
          unfold sqDist det
          ring
        rcases eq_or_lt_of_le (ha.2 m (by omega)) with h0 | h0
        · refine ⟨1, one_pos, fun k hk _ => ?_⟩
          have := hno m ⟨by omega, fun c hc => by rw [← h0]; exact ha.2 c hc⟩
          have := hid k
          nlinarith [mul_nonneg hk.le (hno m ⟨by omega, fun c hc => by rw [← h0]; exact ha.2 c hc⟩)]
        · have hD : 0 < 2 * |det (pts a) (pts b) (pts m)| + 1 := by positivity
          refine ⟨(sqDist (pts m) z - sqDist (pts a) z) / (2 * |det (pts a) (pts b) (pts m)| + 1), div_pos (by linarith) hD, fun k hk hk' => ?_⟩
          rw [le_div_iff₀ hD] at hk'
          have := hid k
          nlinarith [mul_le_mul_of_nonneg_left (neg_abs_le (det (pts a) (pts b) (pts m))) hk.le]
      obtain ⟨k3, k4, k5⟩ := hone
      refine ⟨min k0 k3, lt_min k1 k4, fun k hk hk' c hc => ?_⟩
      rcases Nat.lt_succ_iff_lt_or_eq.mp hc with hc | rfl
      · exact k2 k hk (hk'.trans (min_le_left _ _)) c hc
      · exact k5 k hk (hk'.trans (min_le_right _ _))
  obtain ⟨k0, k1, k2⟩ := key n le_rfl
  have hA : Nearest pts n a (z.1 + k0 * ((pts b).2 - (pts a).2), z.2 - k0 * ((pts b).1 - (pts a).1)) := ⟨ha.1, k2 k0 k1 le_rfl⟩
  refine ⟨k0, k1, hA, hb.1, fun c hc => ?_⟩
  have e : sqDist (pts b) (z.1 + k0 * ((pts b).2 - (pts a).2), z.2 - k0 * ((pts b).1 - (pts a).1)) =
      sqDist (pts a) (z.1 + k0 * ((pts b).2 - (pts a).2), z.2 - k0 * ((pts b).1 - (pts a).1)) := by
    have := ha.eq hb
    unfold sqDist at *
    simp only
    linear_combination -this
  rw [e]
  exact hA.2 c hc

/-- If no site nearest to `z` is on the right of the chord from `a` to `b`, an edge between their cells starts at `z`. -/
theorem chord_edge (hd : Distinct pts n) (hq : q.Spec evLt ok) (h : Reach pts q n poly s) (hend : s.queue = []) (hz : VoronoiVertex pts n z) {a b : Nat}
    (hab : a ≠ b) (ha : Nearest pts n a z) (hb : Nearest pts n b z) (hno : ∀ c, Nearest pts n c z → 0 ≤ det (pts a) (pts b) (pts c)) :
    ∃ v f t, Edg s.d f t a b ∧ StartsAt s.d f v ∧ (s.d.vs v).pos = some z := by
  obtain ⟨L, hI⟩ := reach_inv hq h
  obtain ⟨k, k0, y1, y2⟩ := chord_point ha hb hno
  obtain ⟨y, hy⟩ : ∃ y : Pt, y = (z.1 + k * ((pts b).2 - (pts a).2), z.2 - k * ((pts b).1 - (pts a).1)) := ⟨_, rfl⟩
  rw [← hy] at y1 y2
  have hne := nearest_ne hd ha hb hab
  have hD := dsq_pos hne
  have hah : 0 < ahead (pts a) (pts b) z y := by
    have : ahead (pts a) (pts b) z y = k * dsq (pts a) (pts b) := by
      rw [hy]; unfold ahead dsq; simp only; ring
    rw [this]; exact mul_pos k0 hD
  have hzy : z ≠ y := by
    rintro rfl
    unfold ahead at hah; simp at hah
  obtain ⟨e, he, hs, hlen⟩ := C64_edge_exists hd hq h hend hab hzy ha hb y1 y2
  obtain ⟨t, h1, _⟩ := sep_edg hq h he hs
  have hon := (C64_edge_exact hd hq h hend he hs hlen z).mpr ⟨ha, hb⟩
  cases ho : (s.d.he e).origin with
  | vtx v =>
    obtain ⟨zv, hzv, _⟩ := C25_vertices hd hq h v (hI.dinv.ovt e he v ho).1
    obtain ⟨n1, n2⟩ := start_bisector hd hq h h1 ho hzv
    obtain ⟨c, hc⟩ := on_bisector hne hzy (ha.eq hb) (y1.eq y2) (n1.eq n2)
    have h2 := hon.start v zv ho hzv
    have h3 : ahead (pts a) (pts b) zv z = - c * ahead (pts a) (pts b) z y := by
      rw [hc]; unfold ahead; simp only; ring
    rw [h3] at h2
    have hc0 : c ≤ 0 := by
      by_contra hcon
      push Not at hcon
      nlinarith [mul_pos hcon hah]
    rcases eq_or_lt_of_le hc0 with h0 | h0
    · refine ⟨v, e, t, h1, ho, ?_⟩
      rw [hzv, hc, h0]
      simp
    · exact absurd (hc ▸ n1) (beyond_vertex hd hab hzy hz ha hb y1 y2 h0)
  | bp c =>
    exfalso
    have hm : OnEdge pts s.d e a b (z.1 + -1 * (y.1 - z.1), z.2 + -1 * (y.2 - z.2)) := by
      refine ⟨?_, fun v zv hv => ?_, fun w zw hw hzw => ?_⟩
      · have e1 := ha.eq hb
        have e2 := y1.eq y2
        unfold sqDist at *
        simp only
        linear_combination 2 * e1 - e2
      · unfold StartsAt at hv
        rw [ho] at hv; cases hv
      · have e1 := hon.stop w zw hw hzw
        unfold ahead at *
        simp only
        linarith
    exact beyond_vertex hd hab hzy hz ha hb y1 y2 (by norm_num) (C64_points_nearest hd hq h hend he hs hm).1

/-- So both cells are at the same vertex. -/
theorem chord_corners (hd : Distinct pts n) (hq : q.Spec evLt ok) (h : Reach pts q n poly s) (hend : s.queue = []) (hz : VoronoiVertex pts n z) {a b : Nat}
    (hab : a ≠ b) (ha : Nearest pts n a z) (hb : Nearest pts n b z) (hno : ∀ c, Nearest pts n c z → 0 ≤ det (pts a) (pts b) (pts c)) :
    ∃ v f g, Corner s z a v f ∧ Corner s z b v g := by
  obtain ⟨v, f, t, hE, h1, h2⟩ := chord_edge hd hq h hend hz hab ha hb hno
  obtain ⟨L, hI⟩ := reach_inv hq h
  have hL := C07_links hq h
  have ht := hE.symm hI.dinv
  obtain ⟨g, hg⟩ := Option.isSome_iff_exists.mp ((hL.next_iff t ht.lt).mpr ⟨v, f, ht.tw, h1⟩)
  obtain ⟨v', ⟨e', k1, k2⟩, k3⟩ := hL.joins t ht.lt g hg
  rw [ht.tw, Option.some.injEq] at k1
  subst k1
  unfold StartsAt at h1
  rw [h1, Org.vtx.injEq] at k2
  subst k2
  exact ⟨v, f, g, ⟨hE.lt, h1, hE.inc, h2⟩, (hL.next_prev t ht.lt g hg).1, k3, by rw [hL.same_cell t ht.lt g hg]; exact ht.inc, h2⟩

open Classical in
/-- Going around the circle. -/
theorem around_circle {P : Nat → Prop} (hstep : ∀ a b, a ≠ b → Nearest pts n a z → Nearest pts n b z → P a →
    (∀ c, Nearest pts n c z → 0 ≤ det (pts a) (pts b) (pts c)) → P b) :
    ∀ (m a b : Nat), ((Finset.range n).filter fun c => Nearest pts n c z ∧ det (pts a) (pts b) (pts c) < 0).card ≤ m →
      Nearest pts n a z → Nearest pts n b z → P a → P b := by
  intro m
  induction m with
  | zero =>
    intro a b hm ha hb hP
    by_cases hab : a = b
    · exact hab ▸ hP
    refine hstep a b hab ha hb hP fun c hc => ?_
    by_contra hcon
    push Not at hcon
    have hmem : c ∈ (Finset.range n).filter fun c => Nearest pts n c z ∧ det (pts a) (pts b) (pts c) < 0 :=
      Finset.mem_filter.mpr ⟨Finset.mem_range.mpr hc.1, hc, hcon⟩
    have := Finset.card_pos.mpr ⟨c, hmem⟩
    omega
  | succ m ih =>
    intro a b hm ha hb hP
    by_cases hab : a = b
    · exact hab ▸ hP
    by_cases hex : ∃ c, Nearest pts n c z ∧ det (pts a) (pts b) (pts c) < 0
    · obtain ⟨c, hc, hdet⟩ := hex
      have hcm : c ∈ (Finset.range n).filter fun c => Nearest pts n c z ∧ det (pts a) (pts b) (pts c) < 0 :=
        Finset.mem_filter.mpr ⟨Finset.mem_range.mpr hc.1, hc, hdet⟩
      have hsm : ∀ x y, (∀ d, Nearest pts n d z → det (pts x) (pts y) (pts d) < 0 → det (pts a) (pts b) (pts d) < 0) →
          det (pts x) (pts y) (pts c) = 0 → ((Finset.range n).filter fun d => Nearest pts n d z ∧ det (pts x) (pts y) (pts d) < 0).card ≤ m := by
        intro x y h1 h2
        have : ((Finset.range n).filter fun d => Nearest pts n d z ∧ det (pts x) (pts y) (pts d) < 0) ⊂
            (Finset.range n).filter fun c => Nearest pts n c z ∧ det (pts a) (pts b) (pts c) < 0 := by
          refine Finset.ssubset_iff_subset_ne.mpr ⟨fun d hd => ?_, fun he => ?_⟩
          · obtain ⟨k1, k2, k3⟩ := Finset.mem_filter.mp hd
            exact Finset.mem_filter.mpr ⟨k1, k2, h1 d k2 k3⟩
          · rw [← he] at hcm
            have := (Finset.mem_filter.mp hcm).2.2
            linarith
        have := Finset.card_lt_card this
        omega
      have hPc : P c := ih a c (hsm a c (fun d hd hdd => chord_right (z := z) (R := dsq (pts a) z) rfl (hb.eq ha) (hc.eq ha) (hd.eq ha) hdet hdd)
        (by unfold det; ring)) ha hc hP
      exact ih c b (hsm c b (fun d hd hdd => chord_left (z := z) (R := dsq (pts a) z) rfl (hb.eq ha) (hc.eq ha) (hd.eq ha) hdet hdd)
        (by unfold det; ring)) hc hb hPc
    · push Not at hex
      exact hstep a b hab ha hb hP hex

theorem corner_nearest (hd : Distinct pts n) (hq : q.Spec evLt ok) (h : Reach pts q n poly s) {p v f : Nat} (hc : Corner s z p v f) : Nearest pts n p z :=
  C25_nearest hd hq h hc.lt hc.st hc.inc hc.pos

/-- After the sweep the vertices at the same place are connected by edges of length zero. -/
theorem place_linked (hd : Distinct pts n) (hq : q.Spec evLt ok) (h : Reach pts q n poly s) (hend : s.queue = []) {v w : Nat} (hv : v ∈ s.verts)
    (hw : w ∈ s.verts) (hvz : (s.d.vs v).pos = some z) (hwz : (s.d.vs w).pos = some z) : Linked s z v w := by
  obtain ⟨L, hI⟩ := reach_inv hq h
  have hcor : ∀ v ∈ s.verts, (s.d.vs v).pos = some z → ∃ p f, Corner s z p v f := by
    intro v hv hz
    obtain ⟨_, _, p, x, r, e1, e2, e3, hk⟩ := hI.dinv.vts v hv
    exact ⟨x, e1, hk.lt.1, hk.org.1, hk.inc.1, hz⟩
  obtain ⟨p, f, hf⟩ := hcor v hv hvz
  obtain ⟨r, g, hg⟩ := hcor w hw hwz
  have hvor : VoronoiVertex pts n z := by
    obtain ⟨z', k1, k2⟩ := C25_vertices hd hq h v hv
    rw [hvz, Option.some.injEq] at k1
    rw [k1]; exact k2
  have := around_circle (pts := pts) (n := n) (z := z) (P := fun r => ∀ w g, Corner s z r w g → Linked s z v w) (by
    intro a b hab ha hb hP hno w g hg
    obtain ⟨u, f1, g1, c1, c2⟩ := chord_corners hd hq h hend hvor hab ha hb hno
    exact (hP u f1 c1).trans (c2.linked hd hq h hend hg)) _ p r le_rfl (corner_nearest hd hq h hf) (corner_nearest hd hq h hg)
    (fun w g hg => hf.linked hd hq h hend hg)
  exact this w g hg

end Foronoi
