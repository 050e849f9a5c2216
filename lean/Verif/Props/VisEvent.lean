import Verif.Props.VisEdges
import Verif.Proof.SweepCycle

/-!
# C111: the circle drawn for a circle event
-/

namespace Foronoi

open scoped List

variable {pts : Nat → ℝ × ℝ} {q : PQ (QE ℝ)} {ok : List (QE ℝ) → Prop} {n pc : Nat} {poly : Poly ℝ} {s : St ℝ}

/-- What is known of the circle event handled last. -/
def EventJ (pts : Nat → Pt) (s : St ℝ) : Prop :=
  ∀ c, s.event = some (.circle c) → (s.evs c).valid = true ∧ ∃ m t l, mkEv pts m t = some (s.evs c) ∧ s.sweep = some l ∧
    l = cbot (pts t.1) (pts t.2.1) (pts t.2.2) ∧ ((s.names t.1).isSome ∧ (s.names t.2.1).isSome ∧ (s.names t.2.2).isSome) ∧
    (∀ x ∈ Handled pts s, 0 ≤ pw x l (s.evs c).center) ∧ ∃ v ∈ s.verts, (s.d.vs v).pos = some (s.evs c).center

theorem EventJ.circle {s s1 : St ℝ} {L L' : List (Item Dat)} {l : ℝ} {P : Place} {m u le ri tl tr ue re : Nat}
    (hI : Inv pts ok n pc s L) (hG : GInv pts s L l) (hq : q.Spec evLt ok)
    {e : QE ℝ} {rest : List (QE ℝ)} (hp : q.pop s.queue = some (e, rest)) (hc : e.circ = true) (hv : (s.evs e.ref).valid = true)
    (hcev : (s.arcs P.a).cev = some e.ref)
    (hmk : mkEv pts P.n ((s.arcs P.a1).origin, (s.arcs P.a).origin, (s.arcs P.a3).origin) = some (s.evs e.ref))
    (hs : CircNext pts q e.ref (circStart e rest s) L s1 L' P m u le ri tl tr ue re) : EventJ pts (stepEnd (.circle e.ref) s1) := by
  have hperm := hq.pop_perm _ _ _ hI.qinv.ok hp
  have hmem : e ∈ s.queue := hperm.mem_iff.mpr (by simp)
  have hlt := hI.qinv.lt e hmem hc
  have hqe := hI.qinv.qe e hmem hc
  obtain ⟨hle, hor⟩ := hG.next hI hq hp
  obtain ⟨log', _, heq⟩ := hs.eq
  have hL := hs.split
  obtain ⟨hdet, hyd, hxd, hcen⟩ := mkEv_spec hmk e.ref
  simp only at hdet hyd hxd hcen
  rw [← hqe] at hyd hxd
  have hAL : apts pts s L = apts pts s P.pre ++ pts (s.og P.a1) :: pts (s.og P.a) :: pts (s.og P.a3) :: apts pts s P.post := by
    rw [hL]; simp [apts, Place.list]
  have hnames : s1.names = s.names := by rw [heq]; exact checkAdd_names ..
  have hsw : s1.sweep = some e.yd := by rw [heq]; exact checkAdd_sweep ..
  have hd : s1.d = circD s.d (s.evs e.ref).center u (s.arcs P.a1).origin (s.arcs P.a3).origin le ri tl tr ue re := by
    rw [heq]; exact checkAdd_d ..
  have hverts : s1.verts = s.d.vCnt :: s.verts := by rw [heq]; exact checkAdd_verts ..
  have hne : ∀ a, (⟨P.n, true, .arc P.a⟩ : Item Dat) ≠ a → True := fun _ _ => trivial
  have hb : BOk s.og s.pr s.arcCnt s.bpCnt L := hI.beach
  have hdet' : det (pts (s.og P.a1)) (pts (s.og P.a)) (pts (s.og P.a3)) < 0 := hdet
  obtain ⟨n1, n2, n3⟩ := det_ne hdet'
  have hk1 : (s.arcs P.a1).cev ≠ some e.ref := fun h => n1 (by rw [hI.qinv.cevInj _ _ _ h hcev])
  have hk3 : (s.arcs P.a3).cev ≠ some e.ref := fun h => n2 (by rw [hI.qinv.cevInj _ _ _ h hcev])
  have hev : s1.evs e.ref = s.evs e.ref := by
    rw [heq]
    obtain ⟨_, h2⟩ := checkAdd_evs q P.a1 P.a3
      ((tripleAt (circStart e rest s).og P.pre P.a1 (⟨m, false, .bp u⟩ :: ⟨P.n3, true, .arc P.a3⟩ :: P.post)).bind (mkEv pts P.n1))
      ((tripleAt (circStart e rest s).og (P.pre ++ [⟨P.n1, true, .arc P.a1⟩, ⟨m, false, .bp u⟩]) P.a3 P.post).bind (mkEv pts P.n3))
      (circMid (circStart e rest s) ((circStart e rest s).evs e.ref).center P.a1 P.a P.a3 u le ri tl tr ue re)
    refine (h2 e.ref hlt).trans ?_
    show killEv (killEv s.evs (s.arcs P.a1).cev) (s.arcs P.a3).cev e.ref = _
    rw [killEv_keep hk3, killEv_keep hk1]
  have hyd' : e.yd = cbot (pts (s.og P.a1)) (pts (s.og P.a)) (pts (s.og P.a3)) := hyd
  rcases hor with hE | ⟨_, hT⟩
  swap
  · exact absurd hdet' (hT.no_cw (by rw [hAL]; simp) (by rw [hAL]; simp) (by rw [hAL]; simp))
  obtain ⟨c1, c2, c3, c4, _⟩ := hE.circle_x hAL hdet' hyd'.symm
  obtain ⟨_, _, hz⟩ := hE.zero_cw hAL c1 (by rw [c3, c4])
  have hused : ∀ a k, (⟨k, true, .arc a⟩ : Item Dat) ∈ L → (s.names (s.arcs a).origin).isSome := by
    intro a k hk
    obtain ⟨A, B, hAB⟩ := List.append_of_mem hk
    exact hI.sinv.used _ (by rw [hAB]; simp [origs_append, St.og])
  intro c hc'
  have : e.ref = c := by simpa [stepEnd] using hc'
  subst this
  show (s1.evs e.ref).valid = true ∧ ∃ m t l, mkEv pts m t = some (s1.evs e.ref) ∧ s1.sweep = some l ∧
    l = cbot (pts t.1) (pts t.2.1) (pts t.2.2) ∧ ((s1.names t.1).isSome ∧ (s1.names t.2.1).isSome ∧ (s1.names t.2.2).isSome) ∧
    (∀ x ∈ {x | ∃ p, (s1.names p).isSome ∧ pts p = x}, 0 ≤ pw x l (s1.evs e.ref).center) ∧ ∃ v ∈ s1.verts, (s1.d.vs v).pos = some (s1.evs e.ref).center
  rw [hev, hsw, hnames, hverts, hd]
  refine ⟨hv, _, _, _, hmk, rfl, hyd', ⟨hused P.a1 P.n1 (by rw [hL]; simp [Place.list]), hused P.a P.n (by rw [hL]; simp [Place.list]),
    hused P.a3 P.n3 (by rw [hL]; simp [Place.list])⟩, ?_, s.d.vCnt, by simp, by simp [circD]⟩
  intro x hx
  rw [hcen, hz]
  exact hE.out hAL hx

theorem reach_event (hd : Distinct pts n) (hq : q.Spec evLt ok) (h : Reach pts q n poly s) :
    ∃ L, Inv pts ok n poly.points.length s L ∧ JInv pts s L ∧ EventJ pts s := by
  refine reach_follow (J := fun s L => JInv pts s L ∧ EventJ pts s) hq ⟨JInv.start hq, by intro c h; cases h⟩ ?_ h
  intro s L e rest s' L' hI hJ hp hst hI'
  refine ⟨hJ.1.step hd.injOn hq hI hp hst hI', ?_⟩
  have hJ1 := hJ.1
  cases hst with
  | skip => exact hJ.2
  | first => intro c h; cases h
  | site => intro c h; cases h
  | circle hc hv hcev hmk hpre hn =>
    rcases hJ1 with ⟨_, h⟩ | ⟨l, hG⟩
    · have := h e ((hq.pop_perm _ _ _ hI.qinv.ok hp).mem_iff.mpr (by simp))
      rw [hc] at this; cases this
    · exact EventJ.circle hI hG hq hp hc hv hcev hmk hn

/-- **C111**: while a circle event is shown, `plot_event` draws one circle: it touches the sweep line from above, three different sites are on it, no site is
inside, its centre is a listed vertex; the three sites are drawn as dots, and as a triangle if this is asked for. -/
theorem C111_event_drawn (hd : Distinct pts n) (hq : q.Spec evLt ok) (h : Reach pts q n poly s) {c : Nat} (he : s.event = some (.circle c))
    (triangles : Bool) : ∃ (z : ℝ × ℝ) (r l : ℝ) (i j k : Nat),
      plotEvent pts s .none triangles = .circle z r .validCircle ::
        ((if triangles then [.polygon [pts i, pts j, pts k] .triangle] else []) ++ [.dots [pts i, pts j, pts k] .validCircle]) ∧
      s.sweep = some l ∧ z.2 - r = l ∧ 0 < r ∧ (i ≠ j ∧ j ≠ k ∧ i ≠ k) ∧
      (sqDist (pts i) z = r ^ 2 ∧ sqDist (pts j) z = r ^ 2 ∧ sqDist (pts k) z = r ^ 2) ∧
      (Nearest pts n i z ∧ Nearest pts n j z ∧ Nearest pts n k z) ∧ ∃ v ∈ s.verts, (s.d.vs v).pos = some z := by
  obtain ⟨L, hI, hJ, hE⟩ := reach_event hd hq h
  obtain ⟨hv, m, ⟨i, j, k⟩, l, hmk, hl, hlb, ⟨u1, u2, u3⟩, hout, hvert⟩ := hE c he
  simp only at hlb u1 u2 u3
  obtain ⟨hdet, _, _, hcen⟩ := mkEv_spec hmk c
  simp only at hdet hcen
  obtain ⟨d1, d2, d3, d4⟩ := circ_spec hdet.ne
  obtain ⟨n1, n2, n3⟩ := det_ne hdet
  have hrad : (s.evs c).radius = (s.evs c).center.2 - l ∧ (s.evs c).triple = (i, j, k) := by
    have := hmk
    rw [mkEv_real, if_pos hdet] at this
    simp only [Option.some.injEq] at this
    rw [← this]
    refine ⟨?_, rfl⟩
    simp only
    rw [hlb]
    unfold cbot
    ring
  obtain ⟨hr, htr⟩ := hrad
  have lt : ∀ p, (s.names p).isSome → p < n := by
    intro p hp
    obtain ⟨k, hk⟩ := Option.isSome_iff_exists.mp hp
    exact (hI.sinv.nmLt p k hk).2
  have hG : GInv pts s L l := by
    rcases hJ with ⟨h0, _⟩ | ⟨l', hG⟩
    · have := hI.sinv.empty.mpr h0
      exfalso
      obtain ⟨p, hp⟩ := Option.isSome_iff_exists.mp u1
      have := (hI.sinv.nmLt _ _ hp).1
      omega
    · have := hG.sw
      rw [hl, Option.some.injEq] at this
      rw [this]; exact hG
  have hdist : ∀ x < n, (s.evs c).radius ^ 2 ≤ sqDist (pts x) (s.evs c).center := by
    intro x hx
    have : 0 ≤ pw (pts x) l (s.evs c).center := by
      cases hn : s.names x with
      | some y => exact hout _ ⟨x, by rw [hn]; rfl, rfl⟩
      | none =>
        refine pw_below (hG.below hI hx hn) ?_
        rw [hcen, hlb]; exact d4
    unfold pw dsq at this
    rw [hr]
    unfold sqDist
    linarith
  have e1 : sqDist (pts i) (s.evs c).center = (s.evs c).radius ^ 2 := by rw [hr, hcen, hlb]; exact d1
  have e2 : sqDist (pts j) (s.evs c).center = (s.evs c).radius ^ 2 := by rw [hr, hcen, hlb]; exact d2
  have e3 : sqDist (pts k) (s.evs c).center = (s.evs c).radius ^ 2 := by rw [hr, hcen, hlb]; exact d3
  have hr0 : 0 ≤ (s.evs c).radius := by rw [hr, hcen, hlb]; linarith [d4]
  refine ⟨(s.evs c).center, (s.evs c).radius, l, i, j, k, ?_, hl, by rw [hr]; ring, ?_, ?_, ⟨e1, e2, e3⟩, ?_, hvert⟩
  · unfold plotEvent plotCircle
    simp only [he, hv, htr, if_true]
    cases triangles <;> simp [plotPoints]
  · refine lt_of_le_of_ne hr0 fun h0 => n1 ?_
    rw [← h0] at e1 e2
    unfold sqDist at e1 e2
    have q1 := sq_nonneg ((pts i).1 - (s.evs c).center.1)
    have q2 := sq_nonneg ((pts i).2 - (s.evs c).center.2)
    have q3 := sq_nonneg ((pts j).1 - (s.evs c).center.1)
    have q4 := sq_nonneg ((pts j).2 - (s.evs c).center.2)
    have w1 : ((pts i).1 - (s.evs c).center.1) ^ 2 = 0 := by linarith
    have w2 : ((pts i).2 - (s.evs c).center.2) ^ 2 = 0 := by linarith
    have w3 : ((pts j).1 - (s.evs c).center.1) ^ 2 = 0 := by linarith
    have w4 : ((pts j).2 - (s.evs c).center.2) ^ 2 = 0 := by linarith
    rw [sq_eq_zero_iff] at w1 w2 w3 w4
    exact Prod.ext (by linarith) (by linarith)
  · exact ⟨fun h => n1 (by rw [h]), fun h => n2 (by rw [h]), fun h => n3 (by rw [h])⟩
  · exact ⟨⟨lt _ u1, fun x hx => by rw [e1]; exact hdist x hx⟩, ⟨lt _ u2, fun x hx => by rw [e2]; exact hdist x hx⟩,
      ⟨lt _ u3, fun x hx => by rw [e3]; exact hdist x hx⟩⟩

/-- C111: without a circle event nothing is drawn. -/
theorem C111_no_event (h : ∀ c, s.event ≠ some (.circle c)) (triangles : Bool) : plotEvent pts s .none triangles = [] := by
  unfold plotEvent
  cases he : s.event with
  | none => rfl
  | some e =>
    cases e with
    | site p => rfl
    | circle c => exact absurd he (h c)

theorem killEv_center (evs : Nat → CevR ℝ) (o : Option Nat) (c : Nat) : (killEv evs o c).center = (evs c).center := by
  unfold killEv
  cases o with
  | none => rfl
  | some k =>
    by_cases h : c = k
    · subst h; simp
    · simp [h]

/-- A listed vertex was the centre of a circle event, and the state after this event was reached. -/
theorem shown (hq : q.Spec evLt ok) (h : Reach pts q n poly s) {v : Nat} {z : ℝ × ℝ} (hv : v ∈ s.verts) (hz : (s.d.vs v).pos = some z) :
    ∃ s0 c, Reach pts q n poly s0 ∧ s0.event = some (.circle c) ∧ (s0.evs c).center = z := by
  induction h generalizing v z with
  | start h => cases h; exact absurd hv (by simp [initSt])
  | @step s s' e rest hr hp hh ih =>
    obtain ⟨L, hI⟩ := reach_inv hq hr
    have hw := wp_handleEvent (E := (· = .arith)) hI hq hp (Or.inl rfl) (Or.inl rfl)
    obtain ⟨L', hst⟩ := hw.ok hh
    cases hst with
    | skip => exact ih hv hz
    | @first s1 _ _ hf =>
      have h1 : s1.verts = s.verts := by rw [hf.eq]; rfl
      have h2 : s1.d = s.d := by rw [hf.eq]; rfl
      exact ih (v := v) (by rw [← h1]; exact hv) (by rw [← h2]; exact hz)
    | @site s1 _ pre post m a inter _ hpost hn =>
      obtain ⟨log', _, heq⟩ := hn.eq
      have h1 : s1.verts = s.verts := by
        rw [heq]
        cases inter
        · rfl
        · exact checkAdd_verts ..
      have h2 : s1.d.vs = s.d.vs := by
        rw [heq]
        cases inter
        · rfl
        · simp only [if_true, checkAdd_d]; rfl
      exact ih (v := v) (by rw [← h1]; exact hv) (by rw [← h2]; exact hz)
    | @circle s1 _ P m u le ri tl tr ue re hc hval hcev hmk hpre hs =>
      have hmem : e ∈ s.queue := (hq.pop_perm _ _ _ hI.qinv.ok hp).mem_iff.mpr (by simp)
      have hlt := hI.qinv.lt e hmem hc
      obtain ⟨log', _, heq⟩ := hs.eq
      have hd : s1.d = circD s.d (s.evs e.ref).center u (s.arcs P.a1).origin (s.arcs P.a3).origin le ri tl tr ue re := by
        rw [heq]; exact checkAdd_d ..
      have hverts : s1.verts = s.d.vCnt :: s.verts := by rw [heq]; exact checkAdd_verts ..
      have hv' : v ∈ s1.verts := hv
      have hz' : (s1.d.vs v).pos = some z := hz
      rw [hverts] at hv'
      rw [hd] at hz'
      by_cases h0 : v = s.d.vCnt
      · subst h0
        refine ⟨_, e.ref, hr.step hp hh, rfl, ?_⟩
        have hz2 : (s.evs e.ref).center = z := by simpa [circD] using hz'
        rw [← hz2]
        show (s1.evs e.ref).center = _
        rw [heq]
        obtain ⟨_, h2⟩ := checkAdd_evs q P.a1 P.a3
          ((tripleAt (circStart e rest s).og P.pre P.a1 (⟨m, false, .bp u⟩ :: ⟨P.n3, true, .arc P.a3⟩ :: P.post)).bind (mkEv pts P.n1))
          ((tripleAt (circStart e rest s).og (P.pre ++ [⟨P.n1, true, .arc P.a1⟩, ⟨m, false, .bp u⟩]) P.a3 P.post).bind (mkEv pts P.n3))
          (circMid (circStart e rest s) ((circStart e rest s).evs e.ref).center P.a1 P.a P.a3 u le ri tl tr ue re)
        refine (congrArg CevR.center (h2 e.ref hlt)).trans ?_
        show (killEv (killEv s.evs (s.arcs P.a1).cev) (s.arcs P.a3).cev e.ref).center = _
        rw [killEv_center, killEv_center]
      · refine ih (v := v) ((List.mem_cons.mp hv').resolve_left h0) ?_
        simpa [circD, h0] using hz'

/-- C111: during a sweep that comes to its end, every Voronoi vertex is the centre of a circle that is drawn for some state. -/
theorem C111_all_shown (hd : Distinct pts n) (hq : q.Spec evLt ok) (h : Reach pts q n poly s) (hend : s.queue = []) {z : ℝ × ℝ}
    (hz : VoronoiVertex pts n z) : ∃ s0 r, Reach pts q n poly s0 ∧ Draw.circle z r .validCircle ∈ plotEvent pts s0 .none false := by
  obtain ⟨v, hv, hp⟩ := (C60_vertices hd hq h hend z).mp hz
  obtain ⟨s0, c, h1, h2, h3⟩ := shown hq h hv hp
  obtain ⟨_, _, _, hE⟩ := reach_event hd hq h1
  refine ⟨s0, (s0.evs c).radius, h1, ?_⟩
  unfold plotEvent plotCircle
  simp [h2, (hE c h2).1, h3]

/-- The hypotheses can be met: the circle around the Voronoi vertex of three sites is drawn at some time of the sweep. -/
example (poly : Poly ℝ) : ∃ (s0 : St ℝ) (r : ℝ), Reach tri3 heapq 3 poly s0 ∧ Draw.circle (1, 1) r .validCircle ∈ plotEvent tri3 s0 .none false := by
  obtain ⟨s, _, _, hr, hend⟩ := C23_no_errors (poly := poly) tri3_distinct C45_event_queue (fuel := 22) (by norm_num)
  exact C111_all_shown tri3_distinct C45_event_queue hr hend
    ⟨0, 1, 2, by norm_num, by norm_num, by norm_num, tri3_nearest (by norm_num), tri3_nearest (by norm_num), tri3_nearest (by norm_num)⟩

end Foronoi
