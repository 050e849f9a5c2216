import Verif.Props.VisFinal
import Verif.Props.LostVertex

/-!
# C110: the arrows drawn for outgoing edges of the finished diagram
-/

namespace Foronoi

open scoped List

variable {pts : Nat → ℝ × ℝ} {q : PQ (QE ℝ)} {ok : List (QE ℝ) → Prop} {n : Nat} {poly : Poly ℝ} {s s1 s2 s' : St ℝ} {vs : List Nat} {V : Nat → Nat}
  {cell fuel : Nat} {rz : Bool}

/-- `c` is the point at distance `scale` from `a` in the direction of `b`. -/
def Towards (a b : Pt) (scale : ℝ) (c : Pt) : Prop :=
  sqDist a c = scale ^ 2 ∧ ∃ k, 0 ≤ k ∧ c = (a.1 + k * (b.1 - a.1), a.2 + k * (b.2 - a.2))

theorem Towards.unique {a b c c' : Pt} {scale : ℝ} (hne : a ≠ b) (h : Towards a b scale c) (h' : Towards a b scale c') : c = c' := by
  obtain ⟨h1, k, hk, rfl⟩ := h
  obtain ⟨h2, k', hk', rfl⟩ := h'
  have hD : 0 < (b.1 - a.1) ^ 2 + (b.2 - a.2) ^ 2 := by
    by_contra hh
    have q1 := sq_nonneg (b.1 - a.1)
    have q2 := sq_nonneg (b.2 - a.2)
    have w1 : (b.1 - a.1) ^ 2 = 0 := by linarith
    have w2 : (b.2 - a.2) ^ 2 = 0 := by linarith
    rw [sq_eq_zero_iff] at w1 w2
    exact hne (Prod.ext (by linarith) (by linarith))
  have hk2 : k ^ 2 = k' ^ 2 := by
    unfold sqDist at h1 h2
    simp only at h1 h2
    have : (k ^ 2 - k' ^ 2) * ((b.1 - a.1) ^ 2 + (b.2 - a.2) ^ 2) = 0 := by linear_combination h1 - h2
    rcases mul_eq_zero.mp this with h | h
    · linarith
    · exact absurd h hD.ne'
  have : k = k' := by
    rcases sq_eq_sq_iff_eq_or_eq_neg.mp hk2 with h | h
    · exact h
    · linarith
  rw [this]

theorem plotOutgoing_opos {cv : Canvas ℝ} {e t : Nat} {a b : Pt} {scale : ℝ} (hs : 0 ≤ scale) (ht : (s.d.he e).twin = some t) (ha : opos s.d e = some a)
    (hb : opos s.d t = some b) : ∃ x, plotOutgoing pts cv s scale e = .ok x ∧
      ∀ d, d ∈ x ↔ a ≠ b ∧ ∃ c, Towards a b scale c ∧ d = .arrow a c .edgeDirection := by
  unfold plotOutgoing
  rw [originsOf_opos ht ha hb]
  simp only [bind, Except.bind, lit, rI, rAdd, rMul, rSub, rSq, pure, Except.pure]
  have h0 : (0 : ℝ) ≤ (b.1 - a.1) * (b.1 - a.1) + (b.2 - a.2) * (b.2 - a.2) := by nlinarith
  rw [rSqrt _ h0]
  simp only [exA]
  have hr := Real.sq_sqrt h0
  have hr0 := Real.sqrt_nonneg ((b.1 - a.1) * (b.1 - a.1) + (b.2 - a.2) * (b.2 - a.2))
  generalize Real.sqrt ((b.1 - a.1) * (b.1 - a.1) + (b.2 - a.2) * (b.2 - a.2)) = r at hr hr0
  have hz : r = 0 ↔ a = b := by
    constructor
    · intro h
      rw [h] at hr
      have w1 : (b.1 - a.1) * (b.1 - a.1) = 0 := by nlinarith
      have w2 : (b.2 - a.2) * (b.2 - a.2) = 0 := by nlinarith
      rw [mul_self_eq_zero] at w1 w2
      exact Prod.ext (by linarith) (by linarith)
    · rintro rfl
      have : r ^ 2 = 0 := by rw [hr]; ring
      exact sq_eq_zero_iff.mp this
  by_cases h : r = 0
  · rw [if_pos (by simpa using h)]
    refine ⟨_, rfl, fun d => ?_⟩
    simp [hz.mp h]
  · rw [if_neg (by simpa using h), rDiv _ _ h, rDiv _ _ h]
    have hne : a ≠ b := fun hh => h (hz.mpr hh)
    refine ⟨_, rfl, fun d => ?_⟩
    have hT : Towards a b scale (a.1 + (b.1 - a.1) / r * scale, a.2 + (b.2 - a.2) / r * scale) := by
      refine ⟨?_, scale / r, div_nonneg hs hr0, Prod.ext (by simp only; ring) (by simp only; ring)⟩
      unfold sqDist
      simp only
      have : (a.1 - (a.1 + (b.1 - a.1) / r * scale)) ^ 2 + (a.2 - (a.2 + (b.2 - a.2) / r * scale)) ^ 2 =
          ((b.1 - a.1) * (b.1 - a.1) + (b.2 - a.2) * (b.2 - a.2)) * scale ^ 2 / r ^ 2 := by field_simp; ring
      rw [this, ← hr]
      field_simp
    simp only [List.mem_singleton]
    constructor
    · rintro rfl
      exact ⟨hne, _, hT, rfl⟩
    · rintro ⟨_, c, hc, rfl⟩
      rw [hc.unique hne hT]

theorem Finish.half_ends (F : Finish pts q ok n poly rz s s1 s2 s' vs V cell) {e : Nat} (he : HalfEdgeOf s'.d s'.edges e) :
    ∃ t a b, (s'.d.he e).twin = some t ∧ opos s'.d e = some a ∧ opos s'.d t = some b := by
  rcases he with he | ⟨f, hf, h5⟩
  · obtain ⟨t, p, a, b, hl⟩ := F.listed he
    exact ⟨t, a, b, hl.tw, hl.org, hl.torg⟩
  · obtain ⟨t, p, a, b, hl⟩ := F.listed hf
    rw [hl.tw, Option.some.injEq] at h5
    subst h5
    exact ⟨f, b, a, hl.ttw, hl.torg, hl.org⟩

/-- **C110**: `plot_outgoing_edges` on the finished diagram draws exactly one arrow for each half-edge with a length that starts at a listed vertex: the
arrow starts at the vertex, has the length `scale` and the direction of the half-edge.  Without the clean-up these are all half-edges with a length. -/
theorem C110_arrows (hF : FitsCorners pts n poly) (hd : Distinct pts n) (hq : q.Spec evLt ok) (hn : 0 < n)
    (h : createDiagram pts q n fuel poly rz (initSt poly) = .ok ((), s')) (cv : Canvas ℝ) {scale : ℝ} (hs : 0 ≤ scale) :
    ∃ ds, plotOutgoingEdges pts cv s' scale = .ok ds ∧
      (∀ d, d ∈ ds ↔ ∃ e v a b c, HalfEdgeOf s'.d s'.edges e ∧ StartsAt s'.d e v ∧ v ∈ s'.verts ∧ OriginAt s'.d e a ∧ TargetAt s'.d e b ∧ a ≠ b ∧
        Towards a b scale c ∧ d = .arrow a c .edgeDirection) ∧
      (rz = false → ∀ e, HalfEdgeOf s'.d s'.edges e → ∃ v ∈ s'.verts, StartsAt s'.d e v) := by
  obtain ⟨hc, _⟩ := C90_connected hF hd hq hn h
  obtain ⟨s, s1, s2, vs, V, cell, F, hv1⟩ := create_finish_verts hF hd hq hn h
  have hone : ∀ e, HalfEdgeOf s'.d s'.edges e → ∃ x, plotOutgoing pts cv s' scale e = .ok x ∧ ∀ d, d ∈ x ↔ ∃ a b c, OriginAt s'.d e a ∧ TargetAt s'.d e b ∧
      a ≠ b ∧ Towards a b scale c ∧ d = .arrow a c .edgeDirection := by
    intro e he
    obtain ⟨t, a, b, h1, h2, h3⟩ := F.half_ends he
    obtain ⟨x, h4, h5⟩ := plotOutgoing_opos (pts := pts) (cv := cv) hs h1 h2 h3
    refine ⟨x, h4, fun d => (h5 d).trans ?_⟩
    constructor
    · rintro ⟨h6, c, h7, h8⟩
      exact ⟨a, b, c, originAt_iff.mpr h2, (targetAt_iff h1).mpr h3, h6, h7, h8⟩
    · rintro ⟨a', b', c, ha, hb, h6, h7, h8⟩
      rw [originAt_iff, h2, Option.some.injEq] at ha
      rw [targetAt_iff h1, h3, Option.some.injEq] at hb
      subst ha hb
      exact ⟨h6, c, h7, h8⟩
  have hv : ∀ v ∈ s'.verts, ∃ x, drawEach (plotOutgoing pts cv s' scale) (s'.d.vs v).conn = .ok x ∧
      ∀ d, d ∈ x ↔ ∃ e ∈ (s'.d.vs v).conn, ∃ y, plotOutgoing pts cv s' scale e = .ok y ∧ d ∈ y := by
    intro v hv
    refine drawEach_ex _ fun e he => ?_
    obtain ⟨x, hx, _⟩ := hone e (((hc v hv).2 e).mp he).1
    exact ⟨x, hx⟩
  obtain ⟨ds, hds, hmem⟩ := drawEach_ex (f := fun v => drawEach (plotOutgoing pts cv s' scale) (s'.d.vs v).conn) s'.verts fun v h => by
    obtain ⟨x, hx, _⟩ := hv v h
    exact ⟨x, hx⟩
  refine ⟨ds, hds, fun d => ?_, fun hrz e he => ?_⟩
  · rw [hmem]
    constructor
    · rintro ⟨v, h1, x, h2, h3⟩
      obtain ⟨x', h4, h5⟩ := hv v h1
      rw [h2, Except.ok.injEq] at h4
      subst h4
      obtain ⟨e, he, y, h6, h7⟩ := (h5 d).mp h3
      obtain ⟨h8, h9⟩ := ((hc v h1).2 e).mp he
      obtain ⟨y', h10, h11⟩ := hone e h8
      rw [h6, Except.ok.injEq] at h10
      subst h10
      obtain ⟨a, b, c, h12⟩ := (h11 d).mp h7
      exact ⟨e, v, a, b, c, h8, h9, h1, h12⟩
    · rintro ⟨e, v, a, b, c, h8, h9, h1, h12⟩
      obtain ⟨x, h4, h5⟩ := hv v h1
      obtain ⟨y, h10, h11⟩ := hone e h8
      exact ⟨v, h1, x, h4, (h5 d).mpr ⟨e, ((hc v h1).2 e).mpr ⟨h8, h9⟩, y, h10, (h11 d).mpr ⟨a, b, c, h12⟩⟩⟩
  · subst hrz
    obtain ⟨v, h1, h2⟩ := F.org_listed hv1 he
    have hcu := F.cu
    simp only [Bool.false_eq_true, if_false] at hcu
    refine ⟨v, ?_, h2⟩
    rw [hcu]; exact h1

theorem Towards.exists {a b : Pt} {scale : ℝ} (hne : a ≠ b) (hs : 0 ≤ scale) : ∃ c, Towards a b scale c := by
  have hD : 0 < (b.1 - a.1) ^ 2 + (b.2 - a.2) ^ 2 := by
    by_contra hh
    have q1 := sq_nonneg (b.1 - a.1)
    have q2 := sq_nonneg (b.2 - a.2)
    have w1 : (b.1 - a.1) ^ 2 = 0 := by linarith
    have w2 : (b.2 - a.2) ^ 2 = 0 := by linarith
    rw [sq_eq_zero_iff] at w1 w2
    exact hne (Prod.ext (by linarith) (by linarith))
  have hr := Real.sq_sqrt hD.le
  have hr0 := Real.sqrt_pos.mpr hD
  refine ⟨_, ?_, scale / Real.sqrt ((b.1 - a.1) ^ 2 + (b.2 - a.2) ^ 2), div_nonneg hs hr0.le, rfl⟩
  generalize Real.sqrt ((b.1 - a.1) ^ 2 + (b.2 - a.2) ^ 2) = r at hr hr0
  unfold sqDist
  simp only
  have : (a.1 - (a.1 + scale / r * (b.1 - a.1))) ^ 2 + (a.2 - (a.2 + scale / r * (b.2 - a.2))) ^ 2 =
      ((b.1 - a.1) ^ 2 + (b.2 - a.2) ^ 2) * scale ^ 2 / r ^ 2 := by field_simp; ring
  rw [this, ← hr]
  field_simp

/-- An arrow that is not longer than the half-edge ends on the half-edge. -/
theorem Towards.between {a b c : Pt} {scale : ℝ} (hne : a ≠ b) (h : Towards a b scale c) (hl : scale ^ 2 ≤ sqDist a b) : Between a b c := by
  obtain ⟨h1, k, hk, rfl⟩ := h
  refine ⟨k, hk, ?_, Prod.ext (by simp only; ring) (by simp only; ring)⟩
  unfold sqDist at h1 hl
  simp only at h1
  have hD : 0 < (b.1 - a.1) ^ 2 + (b.2 - a.2) ^ 2 := by
    by_contra hh
    have q1 := sq_nonneg (b.1 - a.1)
    have q2 := sq_nonneg (b.2 - a.2)
    have w1 : (b.1 - a.1) ^ 2 = 0 := by linarith
    have w2 : (b.2 - a.2) ^ 2 = 0 := by linarith
    rw [sq_eq_zero_iff] at w1 w2
    exact hne (Prod.ext (by linarith) (by linarith))
  have h2 : k ^ 2 * ((b.1 - a.1) ^ 2 + (b.2 - a.2) ^ 2) ≤ 1 * ((b.1 - a.1) ^ 2 + (b.2 - a.2) ^ 2) := by nlinarith
  have h3 := le_of_mul_le_mul_right h2 hD
  nlinarith

/-- C110: every half-edge with a length has its arrow if there was no clean-up or no more than three cells meet in any point inside the polygon. -/
theorem C110_all_arrows (hF : FitsCorners pts n poly) (hd : Distinct pts n) (hq : q.Spec evLt ok) (hn : 0 < n)
    (h : createDiagram pts q n fuel poly rz (initSt poly) = .ok ((), s')) (cv : Canvas ℝ) {scale : ℝ} (hs : 0 ≤ scale)
    (h3 : rz = true → ThreeMeet pts n poly) : ∃ ds, plotOutgoingEdges pts cv s' scale = .ok ds ∧
      ∀ e a b, HalfEdgeOf s'.d s'.edges e → OriginAt s'.d e a → TargetAt s'.d e b → a ≠ b →
        ∃ c, Towards a b scale c ∧ Draw.arrow a c .edgeDirection ∈ ds ∧ (scale ^ 2 ≤ sqDist a b → Between a b c) := by
  obtain ⟨ds, h1, h2, h4⟩ := C110_arrows hF hd hq hn h cv hs
  refine ⟨ds, h1, fun e a b he ha hb hne => ?_⟩
  obtain ⟨c, hc⟩ := Towards.exists hne hs
  have hl : ∃ v ∈ s'.verts, StartsAt s'.d e v := by
    cases rz with
    | false => exact h4 rfl e he
    | true => exact (C112_all_listed hF hd hq hn h).mpr (h3 rfl) e he
  obtain ⟨v, hv, hv'⟩ := hl
  exact ⟨c, hc, (h2 _).mpr ⟨e, v, a, b, c, he, hv', hv, ha, hb, hne, hc, rfl⟩, hc.between hne⟩

/-- The hypotheses can be met, and there are arrows. -/
example : ∃ poly s' ds, boundingBox (-1 : ℝ) 3 99 104 = .ok poly ∧ createDiagram high3 heapq 3 22 poly true (initSt poly) = .ok ((), s') ∧
    plotOutgoingEdges high3 (canvasSize poly 1) s' (1 / 2) = .ok ds ∧ ds ≠ [] := by
  have hp := box_points (show (-1 : ℝ) < 3 by norm_num) (show (99 : ℝ) < 104 by norm_num)
  have hF := high3_border hp
  obtain ⟨_, s', _, h, _⟩ := C74_cleanup_succeeds (fuel := 22) hF.toFitsCorners high3_distinct C45_event_queue (by norm_num) (by norm_num)
  obtain ⟨ds, h1, h2⟩ := C110_all_arrows hF.toFitsCorners high3_distinct C45_event_queue (by norm_num) h (canvasSize _ 1) (scale := 1 / 2) (by norm_num) fun _ => by
    intro z a b c d _ hnd ha hb hc hd
    have := ha.1
    have := hb.1
    have := hc.1
    have := hd.1
    simp only [List.nodup_cons, List.mem_cons, List.not_mem_nil, or_false, not_or, List.nodup_nil, not_false_eq_true, and_true] at hnd
    omega
  obtain ⟨l, _, hl⟩ := C71_borders hF.toFitsCorners high3_distinct C45_event_queue h (hF.shown (p := 0) (by norm_num)) le_rfl
  obtain ⟨e0, he0⟩ := List.exists_mem_of_ne_nil _ hl.nonempty
  obtain ⟨e, he⟩ : ∃ e, e ∈ s'.edges := by
    rcases ((hl.all e0).mp he0).1 with h | ⟨e, h, _⟩
    · exact ⟨e0, h⟩
    · exact ⟨e, h⟩
  obtain ⟨a, b, ha, hb, hne⟩ := C36_zero_length_partial C45_event_queue (by norm_num) (by simp) h e he
  obtain ⟨c, _, hc, _⟩ := h2 e a b (Or.inl he) ha hb hne
  exact ⟨_, s', ds, hp, h, h1, List.ne_nil_of_mem hc⟩

end Foronoi
