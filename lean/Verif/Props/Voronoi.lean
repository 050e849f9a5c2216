import Verif.Spec.Voronoi
import Verif.Spec.Sweep
import Verif.Proof.Geo
import Verif.Props.Sweep
import Verif.Props.Queue

/-!
# The sweep with exact arithmetic computes Voronoi vertices and edges (C23–C26)

All theorems are for every list of `n` distinct sites over the reals and every priority queue that meets its specification.  Concrete cases are in `Verif/Props/VoronoiExamples.lean`.
-/

namespace Foronoi

open scoped List

variable {pts : Nat → ℝ × ℝ} {q : PQ (QE ℝ)} {ok : List (QE ℝ) → Prop} {n : Nat} {poly : Poly ℝ} {s : St ℝ}

theorem Distinct.injOn (h : Distinct pts n) : Set.InjOn pts {p | p < n} := fun p hp r hr he => h p hp r hr he

/-- C23: no exception of any kind: with fuel for `7 n` events the sweep succeeds. -/
theorem C23_no_errors (hd : Distinct pts n) (hq : q.Spec evLt ok) {fuel : Nat} (hf : 7 * n < fuel) :
    ∃ s log', sweepAll pts q n fuel (initSt poly) = .ok ((), { s with log := log' }) ∧ Reach pts q n poly s ∧ s.queue = [] := by
  have hw := wp_sweepAll poly (JInv.follows hd.injOn hq) hq (JInv.start hq) hf
  unfold Wp at hw
  cases hb : sweepAll pts q n fuel (initSt poly) with
  | error er => rw [hb] at hw; exact absurd hw (by simp)
  | ok v =>
    obtain ⟨_, s⟩ := v
    obtain ⟨s0, hr, hp, rfl⟩ := sweepAll_reach hb
    obtain ⟨L, hI⟩ := reach_inv hq hr
    exact ⟨s0, _, rfl, hr, (hq.pop_none _ hI.qinv.ok).mp hp⟩

/-- C23: the events still in the queue are not above the sweep line, and handling the next one does not move the line up. -/
theorem C23_monotone (hd : Distinct pts n) (hq : q.Spec evLt ok) (h : Reach pts q n poly s) {l : ℝ} (hl : s.sweep = some l) :
    (∀ e ∈ s.queue, e.yd ≤ l) ∧
    ∀ e rest s', q.pop s.queue = some (e, rest) → handleEvent pts q e { s with queue := rest } = .ok ((), s') → ∃ l' ≤ l, s'.sweep = some l' := by
  obtain ⟨L, hI, hJ⟩ := reach_geo hd.injOn hq h
  have hG : GInv pts s L l := by
    rcases hJ with ⟨h0, _⟩ | ⟨l', hG⟩
    · exfalso
      have hreach : ∀ s, Reach pts q n poly s → s.nextName = 0 → s.sweep = none := by
        intro s hs h0
        obtain ⟨L, hI, hJ⟩ := reach_follow (J := fun s _ => s.nextName = 0 → s.sweep = none) hq (fun _ => rfl) (by
          intro s L e rest s' L' hI hJ hp hst hI' h0'
          cases hst with
          | skip hc hv => exact hJ h0'
          | @first s1 _ hc hf =>
            have : s1.nextName = s.nextName + 1 := by rw [hf.eq]; rfl
            have h0'' : s1.nextName = 0 := h0'
            omega
          | @site s1 _ pre post m a inter hc hpost hn =>
            obtain ⟨log', _, heq⟩ := hn.eq
            have : s1.nextName = s.nextName + 1 := by
              rw [heq]; cases inter
              · rfl
              · exact checkAdd_nextName ..
            have h0'' : s1.nextName = 0 := h0'
            omega
          | @circle s1 _ P m u le ri tl tr ue re hc hv hcev hmk hpre hn =>
            obtain ⟨log', _, heq⟩ := hn.eq
            have : s1.nextName = s.nextName := by rw [heq]; exact checkAdd_nextName ..
            have h0'' : s1.nextName = 0 := h0'
            have hL := hI.sinv.empty.mpr (by omega)
            have hs := hn.split
            rw [hL] at hs; simp [Place.list] at hs) hs
        exact hJ h0
      rw [hreach s h h0] at hl; cases hl
    · have := hG.sw
      rw [hl] at this
      simp only [Option.some.injEq] at this
      rw [this]; exact hG
  refine ⟨hG.qle, fun e rest s' hp hr => ?_⟩
  have hw := wp_handleEvent (E := (· = .arith)) hI hq hp (Or.inl rfl) (Or.inl rfl)
  obtain ⟨L', hst⟩ := hw.ok hr
  have hI' := (hI.step hq hp hst).1
  obtain ⟨l', h1, h2⟩ := hG.step hd.injOn hq hI hp hst hI'
  exact ⟨l', h1, h2.sw⟩

/-! ### the lower envelope -/

theorem onParabola_iff {p : Pt} {l x y : ℝ} (hp : l < p.2) : OnParabola p l (x, y) ↔ y = par p l x := by
  constructor
  · rintro ⟨_, h⟩
    exact eq_par (z := (x, y)) hp h
  · rintro rfl
    exact ⟨(par_ge hp x).le, dsq_par hp x⟩

/-- The cuts of an envelope. -/
theorem Env.cuts {S : Set Pt} {l : ℝ} : ∀ (A : List Pt), A ≠ [] → ∃ cuts : List ℝ, cuts.length + 1 = A.length ∧
    ∀ i a b, A[i]? = some a → A[i + 1]? = some b → cuts[i]? = some (bpX a b l) := by
  intro A
  induction A with
  | nil => intro h; exact absurd rfl h
  | cons p A ih =>
    intro _
    cases A with
    | nil => exact ⟨[], rfl, by intro i a b h1 h2; simp at h2⟩
    | cons r A =>
      obtain ⟨cuts, h1, h2⟩ := ih (by simp)
      refine ⟨bpX p r l :: cuts, by simp at h1 ⊢; omega, ?_⟩
      intro i a b h3 h4
      cases i with
      | zero => simp at h3 h4 ⊢; rw [h3, h4]
      | succ i => simpa using h2 i a b (by simpa using h3) (by simpa using h4)

theorem Env.lowerEnvelope {S : Set Pt} {l : ℝ} {A : List Pt} (h : Env S l A) :
    ∃ cuts, LowerEnvelope S l A cuts ∧ ∀ i a b, A[i]? = some a → A[i + 1]? = some b → cuts[i]? = some (bpX a b l) := by
  obtain ⟨cuts, h1, h2⟩ := Env.cuts (S := S) (l := l) A h.ne
  have hget : ∀ i c, cuts[i]? = some c → ∃ a b, A[i]? = some a ∧ A[i + 1]? = some b ∧ c = bpX a b l := by
    intro i c hc
    have hi : i < cuts.length := by
      by_contra hh
      rw [List.getElem?_eq_none (by omega)] at hc; cases hc
    have e1 : A[i]? = some A[i] := List.getElem?_eq_getElem (by omega)
    have e2 : A[i + 1]? = some A[i + 1] := List.getElem?_eq_getElem (by omega)
    refine ⟨_, _, e1, e2, ?_⟩
    rw [h2 i _ _ e1 e2] at hc
    simpa using hc.symm
  have hsplit : ∀ i p, A[i]? = some p → ∃ B C, A = B ++ p :: C ∧ B.length = i := by
    intro i p hp
    have hi : i < A.length := by
      by_contra hh
      rw [List.getElem?_eq_none (by omega)] at hp; cases hp
    have : A[i] = p := by rw [List.getElem?_eq_getElem hi] at hp; simpa using hp
    refine ⟨A.take i, A.drop (i + 1), ?_, by simp; omega⟩
    rw [← this]
    conv_lhs => rw [← List.take_append_drop i A]
    rw [List.drop_eq_getElem_cons hi]
  refine ⟨cuts, ⟨h1, ?_, fun p hp => h.mem hp, h.low, ?_⟩, h2⟩
  · rw [List.isChain_iff_getElem]
    intro i hi
    obtain ⟨a, b, e1, e2, e3⟩ := hget i cuts[i] (List.getElem?_eq_getElem (by omega))
    obtain ⟨b', c, e4, e5, e6⟩ := hget (i + 1) cuts[i + 1] (List.getElem?_eq_getElem hi)
    rw [e2] at e4
    simp only [Option.some.injEq] at e4
    subst e4
    rw [e3, e6]
    obtain ⟨B, C, hA, hB⟩ := hsplit (i + 1) b e2
    refine (h.arcs B b C hA).srt a ?_ c ?_
    · rw [hA] at e1
      rw [List.getElem?_append_left (by omega)] at e1
      rw [List.getLast?_eq_getElem?, hB]
      simpa using e1
    · rw [hA] at e5
      rw [List.getElem?_append_right (by omega), hB] at e5
      simp only [Nat.add_sub_cancel_left, List.getElem?_cons_succ] at e5
      rw [List.head?_eq_getElem?]
      exact e5
  · intro i p x hp hl hr
    obtain ⟨B, C, hA, hB⟩ := hsplit i p hp
    have hin : InArc l B.getLast? p C.head? x := by
      constructor
      · intro a ha
        rw [List.getLast?_eq_getElem?] at ha
        have hlen : 0 < B.length := by
          by_contra hh
          have : B = [] := List.length_eq_zero_iff.mp (by omega)
          rw [this] at ha; simp at ha
        have e1 : A[i - 1]? = some a := by
          rw [hA, List.getElem?_append_left (by omega), ← hB]; exact ha
        refine hl (i - 1) _ (by omega) (h2 (i - 1) a p e1 ?_)
        rw [show i - 1 + 1 = i by omega]; exact hp
      · intro b hb
        rw [List.head?_eq_getElem?] at hb
        refine hr _ (h2 i p b hp ?_)
        rw [hA, List.getElem?_append_right (by omega), hB]
        simpa using hb
    have hok := h.arcs B p C hA
    rcases eq_or_lt_of_le (h.low p hok.mem) with hdeg | hnd
    · left
      refine ⟨hdeg.symm, ?_⟩
      obtain ⟨⟨a, ha, hal, ea⟩, ⟨b, hb, hbl, eb⟩⟩ := h.head_deg hA hdeg.symm
      have u1 := hin.1 a ha
      have u2 := hin.2 b hb
      linarith
    · right
      refine ⟨hnd, par p l x, (onParabola_iff hnd).mpr rfl, ?_⟩
      rintro c ⟨hc, hcl⟩ y' hy'
      rw [onParabola_iff hcl] at hy'
      rw [hy']
      exact hok.own hnd x hin c hc hcl

/-- C24: after the first event the sites in the leaves of the status tree are the lower envelope of the parabolas of the sites met so
far, cut at the breakpoints the code computes; or all sites met so far are on the sweep line and the leaves list them from left to
right. -/
theorem C24_envelope (hd : Distinct pts n) (hq : q.Spec evLt ok) (h : Reach pts q n poly s) (hne : s.root ≠ none) :
    ∃ l sites, s.sweep = some l ∧ StatusTree s sites ∧
      (OnSweepLine {x | ∃ p, (s.names p).isSome ∧ pts p = x} l (sites.map pts) ∨
        ∃ cuts, LowerEnvelope {x | ∃ p, (s.names p).isSome ∧ pts p = x} l (sites.map pts) cuts ∧
          ∀ i a b, sites[i]? = some a → sites[i + 1]? = some b → (getIntersection (pts a) (pts b) l none).map (·.1) = cuts[i]?) := by
  obtain ⟨L, hI, hJ⟩ := reach_geo hd.injOn hq h
  have hst : StatusTree s (origs s.og L) := by
    rcases hI.tree with ⟨hh, ⟨hr, hL⟩ | ⟨t, hr, ht, hL⟩⟩
    · exact Or.inl ⟨hr, by rw [hL]; rfl⟩
    · refine Or.inr ⟨t.id, t.ids, hr, ht.nd, ?_⟩
      rw [← hL]
      refine beachTree_of_repr (A := []) (B := []) ht.repr (hL ▸ hI.beach.kindsOk) ?_
      simp only [List.nil_append, List.append_nil]
      exact hL ▸ hI.beach.pairsOk
  rcases hJ with ⟨h0, _⟩ | ⟨l, hG⟩
  · exfalso
    have hL := hI.sinv.empty.mpr h0
    rcases hI.tree with ⟨_, ⟨hr, _⟩ | ⟨t, _, _, hL'⟩⟩
    · exact hne hr
    · rw [hL] at hL'
      obtain ⟨l', hl'⟩ := t.io_last
      rw [hL'] at hl'; simp at hl'
  refine ⟨l, origs s.og L, hG.sw, hst, ?_⟩
  rcases hG.env with hT | hE
  · exact Or.inl ⟨hT.mem, hT.row, hT.inc⟩
  · right
    obtain ⟨cuts, h1, h2⟩ := hE.lowerEnvelope
    refine ⟨cuts, h1, ?_⟩
    intro i a b ha hb
    have hm : ∀ (j x : Nat), (origs s.og L)[j]? = some x → l ≤ (pts x).2 := by
      intro j x hx
      exact hE.low _ (hE.mem (List.mem_map.mpr ⟨x, List.mem_of_getElem? hx, rfl⟩))
    rw [getIntersection_isSome (hm _ _ ha) (hm _ _ hb)]
    refine (h2 i _ _ ?_ ?_).symm
    · show ((origs s.og L).map pts)[i]? = _
      rw [List.getElem?_map, ha]; rfl
    · show ((origs s.og L).map pts)[i + 1]? = _
      rw [List.getElem?_map, hb]; rfl

/-! ### vertices and edges -/

/-- The position of a vertex. -/
theorem C25_nearest (hd : Distinct pts n) (hq : q.Spec evLt ok) (h : Reach pts q n poly s) {e v p : Nat} {z : ℝ × ℝ}
    (he : e < s.d.heCnt) (hv : StartsAt s.d e v) (hp : (s.d.he e).incident = some p) (hz : (s.d.vs v).pos = some z) :
    Nearest pts n p z := by
  obtain ⟨L, hI, hJ⟩ := reach_geo hd.injOn hq h
  have hpn : (s.names p).isSome := by
    obtain ⟨p', h1, h2⟩ := hI.dinv.inc e he
    rw [hp] at h1; cases h1; exact h2
  obtain ⟨k, hk⟩ := Option.isSome_iff_exists.mp hpn
  rcases hJ with ⟨h0, _⟩ | ⟨l, hG⟩
  · have := (hI.sinv.nmLt p k hk).1
    omega
  exact ⟨(hI.sinv.nmLt p k hk).2, hG.nearest hI he hv hp hz⟩

/-- C25: every vertex found by the sweep has a position, three different sites are nearest to it, among all `n` sites, including those the sweep
line has not reached yet. -/
theorem C25_vertices (hd : Distinct pts n) (hq : q.Spec evLt ok) (h : Reach pts q n poly s) :
    ∀ v ∈ s.verts, ∃ z, (s.d.vs v).pos = some z ∧ VoronoiVertex pts n z := by
  intro v hv
  obtain ⟨L, hI⟩ := reach_inv hq h
  obtain ⟨_, _, p, x, r, e1, e2, e3, ho⟩ := hI.dinv.vts v hv
  obtain ⟨m, ev, hev, hz⟩ := ho.pos
  obtain ⟨⟨t1, a1, b1⟩, ⟨t2, a2, b2⟩, ⟨t3, a3, b3⟩⟩ := ho.tinc
  have n1 := hI.dinv.incne e1 ho.lt.1 t1 a1
  have n2 := hI.dinv.incne e2 ho.lt.2.1 t2 a2
  have n3 := hI.dinv.incne e3 ho.lt.2.2 t3 a3
  rw [b1, ho.inc.1] at n1
  rw [b2, ho.inc.2.1] at n2
  rw [b3, ho.inc.2.2] at n3
  refine ⟨ev.center, hz, p, x, r, fun hh => n1 (by rw [hh]), fun hh => n2 (by rw [hh]), fun hh => n3 (by rw [hh]), ?_, ?_, ?_⟩
  · exact C25_nearest hd hq h ho.lt.2.2 ho.org.2.2 ho.inc.2.2 hz
  · exact C25_nearest hd hq h ho.lt.1 ho.org.1 ho.inc.1 hz
  · exact C25_nearest hd hq h ho.lt.2.1 ho.org.2.1 ho.inc.2.1 hz

/-- Nearest sites of the two ends of a segment are nearest to every point of it. -/
theorem Nearest.between {p : Nat} {v w z : ℝ × ℝ} (h1 : Nearest pts n p v) (h2 : Nearest pts n p w) (hz : Between v w z) :
    Nearest pts n p z := by
  refine ⟨h1.1, fun c hc => ?_⟩
  obtain ⟨t, ht0, ht1, rfl⟩ := hz
  have u1 := h1.2 c hc
  have u2 := h2.2 c hc
  unfold sqDist at *
  simp only at *
  nlinarith [mul_nonneg ht0 (sub_nonneg.mpr u2), mul_nonneg (sub_nonneg.mpr ht1) (sub_nonneg.mpr u1)]

/-- C26: an edge whose two ends are vertices of the sweep: at each of its points the sites of its two sides are both nearest (and so at
equal distance). -/
theorem C26_edges (hd : Distinct pts n) (hq : q.Spec evLt ok) (h : Reach pts q n poly s) {e p r v w : Nat} {zv zw : ℝ × ℝ}
    (he : e < s.d.heCnt) (hs : Separates s.d e p r) (hv : StartsAt s.d e v) (hw : EndsAt s.d e w)
    (hzv : (s.d.vs v).pos = some zv) (hzw : (s.d.vs w).pos = some zw) :
    ∀ z, Between zv zw z → Nearest pts n p z ∧ Nearest pts n r z ∧ sqDist (pts p) z = sqDist (pts r) z := by
  obtain ⟨hp, t, ht, hr⟩ := hs
  obtain ⟨t', ht', hw'⟩ := hw
  rw [ht] at ht'; cases ht'
  have hL := C07_links hq h
  have hT := C06_twins hq h
  obtain ⟨t', htl, _, h1, h2⟩ := hT e he
  rw [ht] at h1; cases h1
  -- the half-edge after `e` at `w`, and the one after the twin at `v`
  obtain ⟨f, hf⟩ := Option.isSome_iff_exists.mp ((hL.next_iff e he).mpr ⟨w, t, ht, hw'⟩)
  obtain ⟨g, hg⟩ := Option.isSome_iff_exists.mp ((hL.next_iff t htl).mpr ⟨v, e, h2, hv⟩)
  have hf1 := hL.same_cell e he f hf
  have hg1 := hL.same_cell t htl g hg
  obtain ⟨w', ⟨t1, k1, k2⟩, hfw⟩ := hL.joins e he f hf
  rw [ht] at k1; cases k1
  rw [hw'] at k2; cases k2
  obtain ⟨v', ⟨t1, k1, k2⟩, hgv⟩ := hL.joins t htl g hg
  rw [h2] at k1; cases k1
  have hv2 : (s.d.he e).origin = .vtx v := hv
  rw [hv2] at k2; cases k2
  have pv := C25_nearest hd hq h he hv hp hzv
  have pw := C25_nearest hd hq h (hL.next_prev e he f hf).1 hfw (by rw [hf1, hp]) hzw
  have rv := C25_nearest hd hq h (hL.next_prev t htl g hg).1 hgv (by rw [hg1, hr]) hzv
  have rw' := C25_nearest hd hq h htl hw' hr hzw
  intro z hz
  have u1 := pv.between pw hz
  have u2 := rv.between rw' hz
  exact ⟨u1, u2, le_antisymm (u1.2 r u2.1) (u2.2 p u1.1)⟩

end Foronoi
