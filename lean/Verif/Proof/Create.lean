import Mathlib.Data.Finset.Card
import Mathlib.Order.Interval.Finset.Nat
import Verif.Proof.Bridge
import Verif.Proof.CleanUp
import Verif.Proof.Polygon

/-!
# `create_diagram`: from the end of the sweep to the result
-/

namespace Foronoi

open scoped List

variable {K : Type} [LinearOrder K] [Arith K] [ArithLaws K]
variable {pts : Nat → K × K} {q : PQ (QE K)} {ok : List (QE K) → Prop} {n : Nat} {poly : Poly K} {E : Err → Prop} [MidLt pts n]

theorem bind_ok {σ α β : Type} {m : EM σ α} {k : α → EM σ β} {s s1 : σ} {a : α} (h : m s = .ok (a, s1)) : (m >>= k) s = k a s1 := by
  simp only [bind, StateT.bind, Except.bind, h]

theorem bind_err {σ α β : Type} {m : EM σ α} {k : α → EM σ β} {s : σ} {e : Err} (h : m s = .error e) : (m >>= k) s = .error e := by
  simp only [bind, StateT.bind, Except.bind, h]

/-- The sweep leaves the corners of the polygon alone. -/
structure CornerInv (poly : Poly K) (s : St K) : Prop where
  pv : s.polyVerts = List.range poly.points.length
  pos : ∀ v < poly.points.length, (s.d.vs v).pos = poly.points[v]?

theorem CornerInv.step {s s' : St K} {L L' : List (Item Dat)} {e : QE K} {rest : List (QE K)} (hI : Inv pts ok n poly.points.length s L)
    (h : CornerInv poly s) (hst : EvStep pts q e rest s L s' L') : CornerInv poly s' := by
  cases hst with
  | skip hc hv => exact ⟨h.pv, h.pos⟩
  | @first s1 _ hc hf =>
    have hfeq := hf.eq
    have e1 : s1.polyVerts = s.polyVerts := by rw [hfeq]; rfl
    have e2 : s1.d = s.d := by rw [hfeq]; rfl
    exact ⟨e1.trans h.pv, fun v hv => by show (s1.d.vs v).pos = _; rw [e2]; exact h.pos v hv⟩
  | @site s1 _ pre post m a inter hc hpost hn =>
    obtain ⟨log', hlog, hfeq⟩ := hn.eq
    have hf : s1.polyVerts = s.polyVerts ∧ s1.d.vs = s.d.vs := by
      cases inter
      · rw [hfeq]; exact ⟨rfl, rfl⟩
      · rw [hfeq]
        exact ⟨checkAdd_polyVerts .., (congrArg Dcel.vs (checkAdd_d ..)).trans rfl⟩
    exact ⟨hf.1.trans h.pv, fun v hv => by show (s1.d.vs v).pos = _; rw [hf.2]; exact h.pos v hv⟩
  | @circle s1 _ P m u le ri tl tr ue re hc hv hcev hmk hpre hn =>
    obtain ⟨log', hlog, hfeq⟩ := hn.eq
    have hf : s1.polyVerts = s.polyVerts ∧ ∃ x, s1.d.vs = Function.update s.d.vs s.d.vCnt x := by
      rw [hfeq]
      exact ⟨checkAdd_polyVerts .., _, congrArg Dcel.vs (checkAdd_d ..)⟩
    obtain ⟨x, hx⟩ := hf.2
    refine ⟨hf.1.trans h.pv, fun v hv => ?_⟩
    have := hI.dinv.vcnt
    show (s1.d.vs v).pos = _
    rw [hx, Function.update_of_ne (by omega)]
    exact h.pos v hv

theorem corner_start : CornerInv poly (startSt pts q n poly) := ⟨rfl, fun _ _ => rfl⟩

theorem reach_corner (hq : q.Spec evLt ok) {s : St K} (h : Reach pts q n poly s) : CornerInv poly s := by
  obtain ⟨L, _, h⟩ := reach_follow (J := fun s _ => CornerInv poly s) hq corner_start
    (fun s L e rest s' L' hI hJ hp hst _ => CornerInv.step hI hJ hst) h
  exact h

theorem mem_of_full {l : List Nat} {a b : Nat} (hnd : l.Nodup) (hsub : ∀ v ∈ l, a ≤ v ∧ v < b) (hlen : l.length + a = b) {v : Nat}
    (h1 : a ≤ v) (h2 : v < b) : v ∈ l := by
  have hs : l.toFinset ⊆ Finset.Ico a b := by
    intro w hw
    exact Finset.mem_Ico.mpr (hsub w (List.mem_toFinset.mp hw))
  have hc : (Finset.Ico a b).card ≤ l.toFinset.card := by
    rw [List.toFinset_card_of_nodup hnd, Nat.card_Ico]; omega
  have := Finset.eq_of_subset_of_card_le hs hc
  exact List.mem_toFinset.mp (this ▸ Finset.mem_Ico.mpr ⟨h1, h2⟩)

section Start

variable {pc : Nat} {s : St K} {L : List (Item Dat)}

theorem vtx_cases (h : s.DInv pts pc L) {v : Nat} (hv : v < s.d.vCnt) : (s.d.vs v).conn = [] ∨
    ∃ p x r e1 e2 e3, VOk pts s.d v p x r e1 e2 e3 := by
  rcases Nat.lt_or_ge v pc with h1 | h1
  · exact Or.inl (h.poly v h1)
  · right
    have hm := mem_of_full h.vnd (fun w hw => ⟨(h.vts w hw).1, (h.vts w hw).2.1⟩) h.vcnt h1 hv
    exact (h.vts v hm).2.2

theorem dok_of_dinv (h : s.DInv pts pc L) : DOk s.d := by
  refine ⟨?_, ?_, ?_, ?_, h.fe, ?_, ?_⟩
  · intro e he
    obtain ⟨t, h1, h2, h3, h4⟩ := h.tw e he
    exact ⟨t, h2, h3, h1, h4⟩
  · intro e he f hf
    obtain ⟨h1, _, h2, _⟩ := h.nx e he f hf
    exact ⟨h1, h2⟩
  · intro e he f hf
    obtain ⟨h1, h2⟩ := h.pv e he f hf
    exact ⟨h1, ((h.nx f h1 e h2).2.2.1).symm⟩
  · intro e he v hv
    exact (h.vts v (h.ovt e he v hv).1).2.1
  · intro v hv
    rcases vtx_cases h hv with h1 | ⟨p, x, r, e1, e2, e3, h1⟩
    · rw [h1]; exact List.nodup_nil
    · have a := h1.ne12
      have b := h1.ne13
      have c := h1.ne23
      rcases h1.conn with h2 | h2 <;> rw [h2] <;> simp [a, b, c, Ne.symm a]
  · intro v hv c hc
    rcases vtx_cases h hv with h1 | ⟨p, x, r, e1, e2, e3, h1⟩
    · rw [h1] at hc; cases hc
    · obtain ⟨a, b, d⟩ := h1.lt
      have : c = e1 ∨ c = e2 ∨ c = e3 := by
        rcases h1.conn with h2 | h2 <;> rw [h2] at hc <;> simp at hc <;> tauto
      rcases this with rfl | rfl | rfl <;> assumption

theorem cohw_of_dinv (h : s.DInv pts pc L) : CohW poly s.d := by
  intro v hv
  left
  intro c hc
  rcases vtx_cases h hv with h1 | ⟨p, x, r, e1, e2, e3, h1⟩
  · rw [h1] at hc; cases hc
  · obtain ⟨a, b, d⟩ := h1.org
    have : c = e1 ∨ c = e2 ∨ c = e3 := by
      rcases h1.conn with h2 | h2 <;> rw [h2] at hc <;> simp at hc <;> tauto
    rcases this with rfl | rfl | rfl <;> assumption

theorem pend_of_dinv (h : s.DInv pts pc L) {e : Nat} (he : e < s.d.heCnt) : Pend s.d e := by
  intro v hv
  obtain ⟨h1, h2⟩ := h.ovt e he v hv
  refine ⟨h2, ?_⟩
  obtain ⟨_, _, p, x, r, e1, e2, e3, h3⟩ := h.vts v h1
  obtain ⟨_, ev, _, h4⟩ := h3.pos
  rw [h4]; rfl

end Start

/-- The state between the stages of `create_diagram`: `s0` at the end of the sweep, `s1` after `finish_edges`, `s2` after
`finish_polygon`, `s'` the result. -/
structure Stages (pts : Nat → K × K) (n : Nat) (poly : Poly K) (rz : Bool) (s0 s1 s2 s' : St K) (vs : List Nat) (V : Nat → Nat) (cell : Nat) :
    Prop where
  fe : FE pts poly s0.edges s0 s1.edges { s1 with edges := s0.edges }
  fp : FP pts n poly s1 s2 vs V cell
  alive : ∀ e ∈ s2.edges, ∃ t, (s2.d.he e).twin = some t ∧ (s2.d.he t).twin = some e ∧ t ≠ e ∧ t ∉ s2.edges ∧ Alive s2.d e ∧ Alive s2.d t
  nodup : s2.edges.Nodup
  cu : if rz then CU s2.edges s2 s'.edges { s' with edges := s2.edges, log := s2.log } else s' = { s2 with log := s'.log }
  log : s'.log = s2.log ++ [.debug] ++ [.voronoiFinished]

theorem good_ocoh {d : Dcel K} {f : Nat} (hok : DOk d) (hc : CohW poly d) (h : Good poly d f) : Alive d f := by
  obtain ⟨v, p, h1, h2, h3, h4, h5⟩ := h
  refine ⟨v, p, h1, h3, h4, hok.cnd v h2, ?_⟩
  rcases h5 with h5 | h5
  · rcases hc v h2 with h6 | ⟨p', h6, h7⟩
    · exact h6
    · rw [h3] at h6; cases h6; rw [h5] at h7; cases h7
  · rw [h5]; intro c hc; rw [List.mem_singleton] at hc; subst hc; exact h1

theorem alive_border {d d' : Dcel K} {V : Nat → Nat} {m : Nat} {cell : Option Nat} (hb : BInv d V m cell m d') {v : Nat}
    (hlt : ∀ c ∈ (d.vs v).conn, c < d.heCnt) (h : OCoh d v) : OCoh d' v := by
  obtain ⟨h4, h5⟩ := h
  obtain ⟨l, hl, hnd, hcl⟩ := hb.conn v
  refine ⟨?_, ?_⟩
  · rw [hl]
    refine List.nodup_append.mpr ⟨h4, hnd, ?_⟩
    rintro a ha b hb' rfl
    have := hlt a ha
    have := (hcl a hb').1
    omega
  · intro c hc
    rw [hl] at hc
    rcases List.mem_append.mp hc with hc | hc
    · rw [hb.org c (hlt c hc)]; exact h5 c hc
    · exact (hcl c hc).2.2

/-- What `finish_polygon` needs, after `finish_edges`. -/
theorem polyPre_of_fe {s0 s1 : St K} {L : List (Item Dat)} {r : List Nat} (hI : Inv pts ok n poly.points.length s0 L) (hc : CornerInv poly s0)
    (hne : poly.points ≠ []) (h : FE pts poly s0.edges s0 r s1) :
    PolyPre { s1 with edges := r } ∧ ∀ v ∈ s1.polyVerts, v < s1.d.vCnt ∧ OCoh s1.d v := by
  obtain ⟨new, p1, p2, p3⟩ := h.pv
  have hvc := hI.dinv.vcnt
  have hcorner : ∀ v < poly.points.length, (s1.d.vs v).conn = [] := by
    intro v hv
    refine List.eq_nil_iff_forall_not_mem.mpr fun c hc => ?_
    have := h.keeps.conn v (by omega) c hc
    rw [hI.dinv.poly v hv] at this
    cases this
  have hpv : ∀ v ∈ s1.polyVerts, v < poly.points.length ∨ v ∈ new := by
    intro v hv
    rw [p1, hc.pv] at hv
    rcases List.mem_append.mp hv with hv | hv
    · exact Or.inl (List.mem_range.mp hv)
    · exact Or.inr hv
  have hvk := h.keeps.vCnt
  refine ⟨⟨?_, ?_, ?_, ?_, ?_⟩, ?_⟩
  · show s1.polyVerts.Nodup
    rw [p1, hc.pv]
    refine List.nodup_append.mpr ⟨List.nodup_range, p2, ?_⟩
    rintro v hv w hw rfl
    have := List.mem_range.mp hv
    have := (p3 v hw).1
    omega
  · exact h.ok.tw
  · intro v hv _ c hc
    rcases hpv v hv with h1 | h1
    · have : hd s1.d v = some c := hc
      rw [hd, hcorner v h1] at this
      cases this
    · obtain ⟨_, _, h2⟩ := p3 v h1
      have hc : hd s1.d v = some c := hc
      rcases h2 with h2 | ⟨c', h3, h4, h5, _⟩
      · rw [hd, h2] at hc; cases hc
      · rw [hd, h4] at hc
        have : c' = c := Option.some.inj hc
        subst this
        exact ⟨by show c' < s1.d.heCnt; rw [h.keeps.heCnt]; exact h3, h5⟩
  · have hpos : 0 < poly.points.length := List.length_pos_iff.mpr hne
    refine ⟨0, ?_, ?_⟩
    · show 0 ∈ s1.polyVerts
      rw [p1, hc.pv]
      exact List.mem_append_left _ (List.mem_range.mpr hpos)
    · show (s1.d.vs 0).pos.isSome
      rw [h.keeps.pos 0 (by omega), hc.pos 0 hpos]
      simp [hpos]
  · intro v hv
    have e1 : s1.verts = s0.verts := by rw [h.eq]
    have hv : v ∈ s0.verts := e1 ▸ hv
    obtain ⟨_, h2, p, x, r, e1, e2, e3, h3⟩ := hI.dinv.vts v hv
    obtain ⟨_, ev, _, h4⟩ := h3.pos
    show (s1.d.vs v).pos.isSome
    rw [h.keeps.pos v h2, h4]; rfl
  · intro v hv
    rcases hpv v hv with h1 | h1
    · exact ⟨by omega, by rw [OCoh, hcorner v h1]; simp⟩
    · obtain ⟨_, h3, h2⟩ := p3 v h1
      refine ⟨h3, h.ok.cnd v h3, ?_⟩
      rcases h2 with h2 | ⟨c', h3, h4, h5, _⟩
      · rw [h2]; simp
      · rw [h4]; intro c hc; rw [List.mem_singleton] at hc; subst hc; exact h5

/-- All edges after `finish_polygon` start and end at vertices with a position that know them. -/
theorem alive_of_fp {s0 s1 s2 : St K} {L : List (Item Dat)} {vs : List Nat} {V : Nat → Nat} {cell : Nat}
    (hI : Inv pts ok n poly.points.length s0 L) (h : FE pts poly s0.edges s0 s1.edges { s1 with edges := s0.edges })
    (hp : ∀ v ∈ s1.polyVerts, v < s1.d.vCnt ∧ OCoh s1.d v) (hf : FP pts n poly s1 s2 vs V cell) :
    s2.edges.Nodup ∧ ∀ e ∈ s2.edges, ∃ t, (s2.d.he e).twin = some t ∧ (s2.d.he t).twin = some e ∧ t ≠ e ∧ t ∉ s2.edges ∧
      Alive s2.d e ∧ Alive s2.d t := by
  have hb := hf.binv
  have hed : s2.edges = s1.edges ++ (List.range vs.length).map (fun j => s1.d.heCnt + 2 * j + 1) := by rw [hf.eq]
  have hcnt : s1.d.heCnt = s0.d.heCnt := h.keeps.heCnt
  have hsub : ∀ e ∈ s1.edges, e ∈ s0.edges := fun e he => h.sub.subset he
  have hok : DOk s1.d := h.ok
  have hVm : ∀ j < vs.length, V j ∈ s1.polyVerts ∧ (s1.d.vs (V j)).pos.isSome := by
    intro j hj
    have hm := hf.perm.mem_iff.mp (List.mem_of_getElem? (hf.V_eq j hj))
    exact List.mem_filter.mp hm
  have hVm' : ∀ j ≤ vs.length, V j ∈ s1.polyVerts ∧ (s1.d.vs (V j)).pos.isSome := by
    intro j hj
    rcases Nat.lt_or_ge j vs.length with h1 | h1
    · exact hVm j h1
    · have : j = vs.length := by omega
      subst this
      rw [hf.V_end]
      exact hVm 0 (List.length_pos_iff.mpr hf.ne)
  have hVc : ∀ j ≤ vs.length, OCoh s2.d (V j) := by
    intro j hj
    obtain ⟨h1, h2⟩ := hp _ (hVm' j hj).1
    exact alive_border hb (hok.clt _ h1) h2
  have hVp : ∀ j ≤ vs.length, ∃ p, (s2.d.vs (V j)).pos = some p := by
    intro j hj
    rw [hb.pos]
    exact Option.isSome_iff_exists.mp (hVm' j hj).2
  have hold : ∀ f, Good poly s1.d f → f < s1.d.heCnt → Alive s2.d f := by
    intro f hg hfl
    have hal := good_ocoh hok h.coh hg
    obtain ⟨v, p, h1, h2, h3, h4, h5⟩ := hg
    obtain ⟨v', p', a1, a2, a3, a4⟩ := hal
    rw [h1, Org.vtx.injEq] at a1
    subst a1
    refine ⟨v, p, by rw [hb.org f hfl]; exact h1, by rw [hb.pos]; exact h3, ?_, alive_border hb (hok.clt v h2) a4⟩
    obtain ⟨l, hl, _⟩ := hb.conn v
    rw [hl]; exact List.mem_append_left _ h4
  have hlt1 : ∀ e ∈ s1.edges, e < s1.d.heCnt := fun e he => by rw [hcnt]; exact hI.dinv.elt e (hsub e he)
  refine ⟨?_, ?_⟩
  · rw [hed]
    refine List.nodup_append.mpr ⟨h.sub.nodup hI.dinv.end_, ?_, ?_⟩
    · exact List.Nodup.map (fun a b hab => by have : s1.d.heCnt + 2 * a + 1 = s1.d.heCnt + 2 * b + 1 := hab; omega) List.nodup_range
    · rintro a ha b hb' rfl
      obtain ⟨j, _, hj⟩ := List.mem_map.mp hb'
      have := hlt1 a ha
      omega
  · intro e he
    rw [hed] at he
    rcases List.mem_append.mp he with he | he
    · have hel := hlt1 e he
      obtain ⟨t, t1, t2, t3, t4⟩ := hok.tw e hel
      have hg := h.good e he
      have ht0 : (s0.d.he e).twin = some t := by rw [← h.keeps.twin]; exact t3
      refine ⟨t, by rw [hb.twin e hel]; exact t3, by rw [hb.twin t t1]; exact t4, t2, ?_, hold e hg.1 hel, hold t (hg.2 t ht0) t1⟩
      rw [hed]
      intro hh
      rcases List.mem_append.mp hh with hh | hh
      · exact (hI.dinv.etw e (by omega) t ht0).mp (hsub e he) (hsub t hh)
      · obtain ⟨j, _, hj⟩ := List.mem_map.mp hh
        omega
    · obtain ⟨j, hj, rfl⟩ := List.mem_map.mp he
      have hj := List.mem_range.mp hj
      obtain ⟨a1, a2, a3⟩ := hb.newT j hj
      obtain ⟨b1, b2, b3⟩ := hb.newE j hj
      obtain ⟨c1, c2⟩ := hb.connE j hj
      obtain ⟨p, hp1⟩ := hVp j (by omega)
      obtain ⟨q', hp2⟩ := hVp (j + 1) (by omega)
      refine ⟨s1.d.heCnt + 2 * j, b1, a1, by omega, ?_, ⟨V j, p, b2, hp1, c1, hVc j (by omega)⟩, ⟨V (j + 1), q', a2, hp2, c2, hVc (j + 1) (by omega)⟩⟩
      rw [hed]
      intro hh
      rcases List.mem_append.mp hh with hh | hh
      · have := hlt1 _ hh
        omega
      · obtain ⟨i, _, hi⟩ := List.mem_map.mp hh
        omega

/-- Everything after the sweep. -/
theorem wp_afterSweep {s0 : St K} {L : List (Item Dat)} {rz : Bool} (hn : 0 < n) (hne : poly.points ≠ [])
    (hE : E .arith ∨ GeoTot poly ∧ ∀ f < s0.d.heCnt, OrgTot pts poly s0 f) (hE1 : rz = true → E .value ∧ E .assertion) (hI : Inv pts ok n poly.points.length s0 L) (hc : CornerInv poly s0) :
    Wp E (do finishEdgesSt pts poly; finishPolygon pts n poly; whenDo rz (cleanUp pts); notify .debug; notify .voronoiFinished) s0
      (fun _ s' => ∃ s1 s2 vs V cell, Stages pts n poly rz s0 s1 s2 s' vs V cell) := by
  rw [wp_bind]
  unfold finishEdgesSt
  rw [wp_bind, wp_get, wp_bind]
  refine wp_mono (wp_finishEdges (hE.imp_right And.left) s0.edges s0 (dok_of_dinv hI.dinv) (cohw_of_dinv hI.dinv) hI.dinv.end_
    (hE.imp_right fun h e he => ⟨h.2 e (hI.dinv.elt e he), fun t ht => ?_⟩) ?_) ?_
  · obtain ⟨t', h1, h2, _⟩ := hI.dinv.tw e (hI.dinv.elt e he)
    rw [h1] at ht; cases ht
    exact h.2 _ h2
  · intro e he
    have hel := hI.dinv.elt e he
    refine ⟨hel, pend_of_dinv hI.dinv hel, ?_⟩
    intro t ht
    obtain ⟨t', h1, h2, _⟩ := hI.dinv.tw e hel
    have : t' = t := by rw [h1] at ht; exact Option.some.inj ht
    subst this
    exact ⟨(hI.dinv.etw e hel t' h1).mp he, pend_of_dinv hI.dinv h2⟩
  intro r s1 hfe
  rw [wp_modify, wp_bind]
  obtain ⟨hpp, hoc⟩ := polyPre_of_fe hI hc hne hfe
  refine wp_mono (wp_finishPolygon hn (hE.imp_right And.left) hpp) ?_
  rintro _ s2 ⟨vs, V, cell, hfp⟩
  have hed : s1.edges = s0.edges := by rw [hfe.eq]
  have hfe' : FE pts poly s0.edges s0 r { s1 with edges := s0.edges } := by
    rw [← hed]; rw [← hed] at hfe; exact hfe
  obtain ⟨hnd, hal⟩ := alive_of_fp (s1 := { s1 with edges := r }) hI hfe' hoc hfp
  rw [wp_bind, wp_whenDo]
  constructor
  · intro hrz
    subst hrz
    unfold cleanUp
    rw [wp_bind, wp_get, wp_bind]
    refine wp_mono (wp_cleanUpLoop s2.edges s2 (Or.inl (hE1 rfl)) hnd hal) ?_
    intro r2 s3 hcu
    rw [wp_modify, wp_bind, wp_notify, wp_notify]
    refine ⟨{ s1 with edges := r }, s2, vs, V, cell, hfe', hfp, hal, hnd, ?_, ?_⟩
    · have h1 : s3.edges = s2.edges := by rw [hcu.eq]
      have h2 : s3.log = s2.log := by rw [hcu.eq]
      rw [if_pos rfl]
      have : ({ s3 with edges := s2.edges, log := s2.log } : St K) = s3 := by rw [← h1, ← h2]
      show CU s2.edges s2 r2 { s3 with edges := s2.edges, log := s2.log }
      rw [this]
      exact hcu
    · show s3.log ++ _ ++ _ = _
      rw [hcu.eq]
  · intro hrz
    rw [wp_bind, wp_notify, wp_notify]
    refine ⟨{ s1 with edges := r }, s2, vs, V, cell, hfe', hfp, hal, hnd, ?_, rfl⟩
    rw [if_neg (by simp [hrz])]

/-- `create_diagram` goes through the stages. -/
theorem createDiagram_stages (hq : q.Spec evLt ok) {fuel : Nat} {rz : Bool} {s' : St K} (hn : 0 < n) (hne : poly.points ≠ [])
    (h : createDiagram pts q n fuel poly rz (initSt poly) = .ok ((), s')) :
    ∃ sr s0 s1 s2 vs V cell, Reach pts q n poly sr ∧ q.pop sr.queue = none ∧ s0 = { sr with log := sr.log ++ [.debug] ++ [.sweepFinished] } ∧
      sweepAll pts q n fuel (initSt poly) = .ok ((), s0) ∧ Stages pts n poly rz s0 s1 s2 s' vs V cell := by
  have hdef : createDiagram pts q n fuel poly rz = (do
      sweepAll pts q n fuel
      (do finishEdgesSt pts poly; finishPolygon pts n poly; whenDo rz (cleanUp pts); notify .debug; notify .voronoiFinished)) := rfl
  cases hs : sweepAll pts q n fuel (initSt poly) with
  | error err =>
    rw [hdef, bind_err hs] at h
    cases h
  | ok v =>
    obtain ⟨_, s0⟩ := v
    obtain ⟨sr, hr, hp, h0⟩ := sweepAll_reach hs
    obtain ⟨L, hI⟩ := reach_inv hq hr
    have hc := reach_corner hq hr
    rw [hdef, bind_ok hs] at h
    have hI0 : Inv pts ok n poly.points.length s0 L := by
      rw [h0]; exact ⟨hI.tree, hI.beach, { hI.qinv with }, { hI.sinv with }, hI.dinv, { hI.cinv with }⟩
    have hc0 : CornerInv poly s0 := by rw [h0]; exact ⟨hc.pv, hc.pos⟩
    obtain ⟨s1, s2, vs, V, cell, hst⟩ := (wp_afterSweep (E := fun _ => True) (rz := rz) hn hne (Or.inl trivial) (fun _ => ⟨trivial, trivial⟩) hI0 hc0).ok h
    exact ⟨sr, s0, s1, s2, vs, V, cell, hr, hp, h0, rfl, hst⟩

end Foronoi
