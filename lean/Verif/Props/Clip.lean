import Verif.Spec.Clip
import Verif.Props.Sweep
import Verif.Proof.Create

/-!
# From the sweep to the diagram: C06, C27, C33, C36, C37, C40

For every list of sites, every bounding polygon, every arithmetic.  Concrete runs are in `Verif/Props/ClipExamples.lean`.
-/

namespace Foronoi

open scoped List

variable {K : Type} [LinearOrder K] [Arith K] [ArithLaws K]
variable {pts : Nat → K × K} {q : PQ (QE K)} {ok : List (QE K) → Prop} {n fuel : Nat} {poly : Poly K} {rz : Bool} {s s' : St K} [MidLt pts n]

theorem originAt_iff {d : Dcel K} {e : Nat} {p : K × K} : OriginAt d e p ↔ opos d e = some p := by
  unfold OriginAt opos
  cases (d.he e).origin with
  | bp b => simp
  | vtx v => simp

theorem targetAt_iff {d : Dcel K} {e t : Nat} {p : K × K} (ht : (d.he e).twin = some t) : TargetAt d e p ↔ opos d t = some p := by
  unfold TargetAt
  constructor
  · rintro ⟨u, h1, h2⟩
    rw [ht] at h1; cases h1
    exact originAt_iff.mp h2
  · intro h; exact ⟨t, ht, originAt_iff.mpr h⟩

theorem twins_border {d d' : Dcel K} {V : Nat → Nat} {m : Nat} {cell : Option Nat} (h : TwinsMirror d) (hb : BInv d V m cell m d') :
    TwinsMirror d' := by
  intro e he
  rw [hb.heCnt] at he
  rcases Nat.lt_or_ge e d.heCnt with h1 | h1
  · obtain ⟨t, a1, a2, a3, a4⟩ := h e h1
    refine ⟨t, by rw [hb.heCnt]; omega, a2, ?_, ?_⟩
    · rw [hb.twin e h1]; exact a3
    · rw [hb.twin t a1]; exact a4
  · obtain ⟨j, hj⟩ : ∃ j, e = d.heCnt + 2 * j ∨ e = d.heCnt + 2 * j + 1 := ⟨(e - d.heCnt) / 2, by omega⟩
    rcases hj with rfl | rfl
    · refine ⟨d.heCnt + 2 * j + 1, by rw [hb.heCnt]; omega, by omega, (hb.newT j (by omega)).1, (hb.newE j (by omega)).1⟩
    · refine ⟨d.heCnt + 2 * j, by rw [hb.heCnt]; omega, by omega, (hb.newE j (by omega)).1, (hb.newT j (by omega)).1⟩

/-- What is known of the result, collected from the stages. -/
structure Result (pts : Nat → K × K) (n : Nat) (poly : Poly K) (rz : Bool) (s0 s' : St K) : Prop where
  twins : TwinsMirror s'.d
  nodup : s'.edges.Nodup
  lt : ∀ e ∈ s'.edges, e < s'.d.heCnt
  half : ∀ e ∈ s'.edges, ∀ t, (s'.d.he e).twin = some t → t ∉ s'.edges
  ends : ∀ e ∈ s'.edges, ∃ t p r, (s'.d.he e).twin = some t ∧ opos s'.d e = some p ∧ opos s'.d t = some r ∧ (rz = true → p ≠ r)
  old : ∀ e ∈ s0.edges, ∀ t p r, (s'.d.he e).twin = some t → opos s'.d e = some p → opos s'.d t = some r → (rz = true → p ≠ r) → e ∈ s'.edges

theorem Stages.result {s0 s1 s2 s' : St K} {L : List (Item Dat)} {vs : List Nat} {V : Nat → Nat} {cell : Nat}
    (hI : Inv pts ok n poly.points.length s0 L) (h : Stages pts n poly rz s0 s1 s2 s' vs V cell) : Result pts n poly rz s0 s' := by
  have hb := h.fp.binv
  have htw1 : TwinsMirror s1.d := h.fe.ok.tw
  have htw2 : TwinsMirror s2.d := twins_border htw1 hb
  have hed : s2.edges = s1.edges ++ (List.range vs.length).map (fun j => s1.d.heCnt + 2 * j + 1) := by rw [h.fp.eq]
  have hcnt : s1.d.heCnt = s0.d.heCnt := h.fe.keeps.heCnt
  have hlt2 : ∀ e ∈ s2.edges, e < s2.d.heCnt := by
    intro e he
    rw [hed] at he
    rw [hb.heCnt]
    rcases List.mem_append.mp he with he | he
    · have := hI.dinv.elt e (h.fe.sub.subset he); omega
    · obtain ⟨j, hj, rfl⟩ := List.mem_map.mp he
      have := List.mem_range.mp hj
      omega
  have hop : ∀ f < s1.d.heCnt, opos s2.d f = opos s1.d f := by
    intro f hf
    unfold opos
    rw [hb.org f hf]
    cases (s1.d.he f).origin with
    | bp b => rfl
    | vtx v => exact hb.pos v
  have hends2 : ∀ e ∈ s2.edges, ∃ t p r, (s2.d.he e).twin = some t ∧ opos s2.d e = some p ∧ opos s2.d t = some r ∧ t ∉ s2.edges := by
    intro e he
    obtain ⟨t, t1, _, _, t2, ⟨v, p, a1, a2, _⟩, ⟨w, r, b1, b2, _⟩⟩ := h.alive e he
    exact ⟨t, p, r, t1, by rw [opos_vtx a1, a2], by rw [opos_vtx b1, b2], t2⟩
  have hold2 : ∀ e ∈ s0.edges, ∀ t p r, (s2.d.he e).twin = some t → opos s2.d e = some p → opos s2.d t = some r → e ∈ s2.edges := by
    intro e he t p r ht hp hr
    by_contra hne
    have hne1 : e ∉ s1.edges := fun hh => hne (by rw [hed]; exact List.mem_append_left _ hh)
    have hel : e < s1.d.heCnt := by rw [hcnt]; exact hI.dinv.elt e he
    obtain ⟨f, hf, hfo⟩ := h.fe.lost e he hne1
    have hfo : opos s1.d f = none := hfo
    obtain ⟨t', t1, _, t3, _⟩ := htw1 e hel
    have htt : t' = t := by rw [hb.twin e hel, t3] at ht; exact Option.some.inj ht
    subst htt
    rcases hf with rfl | hf
    · rw [hop f hel] at hp; rw [hp] at hfo; cases hfo
    · rw [← h.fe.keeps.twin e] at hf
      have : f = t' := by
        have hf : (s1.d.he e).twin = some f := hf
        rw [t3] at hf; exact (Option.some.inj hf).symm
      subst this
      rw [hop f t1] at hr; rw [hr] at hfo; cases hfo
  have hcu := h.cu
  cases rz with
  | false =>
    simp only [Bool.false_eq_true, if_false] at hcu
    have e1 : s'.d = s2.d := by rw [hcu]
    have e2 : s'.edges = s2.edges := by rw [hcu]
    refine ⟨?_, ?_, ?_, ?_, ?_, ?_⟩
    · rw [e1]; exact htw2
    · rw [e2]; exact h.nodup
    · rw [e1, e2]; exact hlt2
    · rw [e1, e2]
      intro e he t ht
      obtain ⟨u, _, _, h1, _, _, h2⟩ := hends2 e he
      rw [h1] at ht; cases ht; exact h2
    · rw [e1, e2]
      intro e he
      obtain ⟨u, p, r, h1, h2, h3, _⟩ := hends2 e he
      exact ⟨u, p, r, h1, h2, h3, by simp⟩
    · rw [e1, e2]
      intro e he t p r h1 h2 h3 _
      exact hold2 e he t p r h1 h2 h3
  | true =>
    simp only [if_true] at hcu
    have htw : ∀ f, (s'.d.he f).twin = (s2.d.he f).twin := hcu.same.twin
    have hopc : ∀ f, opos s'.d f = opos s2.d f := hcu.opos
    have hcn : s'.d.heCnt = s2.d.heCnt := hcu.same.heCnt
    have hsub : ∀ e ∈ s'.edges, e ∈ s2.edges := fun e he => hcu.sub.subset he
    refine ⟨?_, hcu.sub.nodup h.nodup, ?_, ?_, ?_, ?_⟩
    · intro e he
      rw [hcn] at he
      obtain ⟨t, a1, a2, a3, a4⟩ := htw2 e he
      exact ⟨t, by rw [hcn]; exact a1, a2, by rw [htw]; exact a3, by rw [htw]; exact a4⟩
    · intro e he; rw [hcn]; exact hlt2 e (hsub e he)
    · intro e he t ht hte
      rw [htw] at ht
      obtain ⟨u, _, _, h1, _, _, h2⟩ := hends2 e (hsub e he)
      rw [h1] at ht; cases ht; exact h2 (hsub _ hte)
    · intro e he
      obtain ⟨u, p, r, h1, h2, h3, _⟩ := hends2 e (hsub e he)
      refine ⟨u, p, r, by rw [htw]; exact h1, by rw [hopc]; exact h2, by rw [hopc]; exact h3, fun _ => ?_⟩
      have := (hcu.kept e (hsub e he)).mp he u h1
      rw [h2, h3] at this
      intro hpr; exact this (by rw [hpr])
    · intro e he t p r h1 h2 h3 h4
      rw [htw] at h1
      rw [hopc] at h2 h3
      have he2 := hold2 e he t p r h1 h2 h3
      refine (hcu.kept e he2).mpr ?_
      intro u hu
      rw [h1] at hu; cases hu
      rw [h2, h3]
      intro hh; exact h4 rfl (Option.some.inj hh)

theorem create_result (hq : q.Spec evLt ok) (hn : 0 < n) (hne : poly.points ≠ [])
    (h : createDiagram pts q n fuel poly rz (initSt poly) = .ok ((), s')) :
    ∃ s0, sweepAll pts q n fuel (initSt poly) = .ok ((), s0) ∧ Result pts n poly rz s0 s' := by
  obtain ⟨sr, s0, s1, s2, vs, V, cell, hr, hp, h0, hs, hst⟩ := createDiagram_stages hq hn hne h
  obtain ⟨L, hI⟩ := reach_inv hq hr
  have hI0 : Inv pts ok n poly.points.length s0 L := by
    rw [h0]; exact ⟨hI.tree, hI.beach, { hI.qinv with }, { hI.sinv with }, hI.dinv, { hI.cinv with }⟩
  exact ⟨s0, hs, hst.result hI0⟩

/-- C06 for the result of `create_diagram`: all half-edges ever made are mirrored by their twins, and the list of edges holds one
half of each edge, without repetition. -/
theorem C06_result_twins (hq : q.Spec evLt ok) (hn : 0 < n) (hne : poly.points ≠ [])
    (h : createDiagram pts q n fuel poly rz (initSt poly) = .ok ((), s')) :
    TwinsMirror s'.d ∧ s'.edges.Nodup ∧ ∀ e ∈ s'.edges, e < s'.d.heCnt ∧ ∀ t, (s'.d.he e).twin = some t → t ∉ s'.edges := by
  obtain ⟨s0, _, hr⟩ := create_result hq hn hne h
  exact ⟨hr.twins, hr.nodup, fun e he => ⟨hr.lt e he, hr.half e he⟩⟩

/-- C27: every listed edge starts and ends at a vertex with coordinates; an edge of the sweep is listed exactly if it does (and, if
zero length edges are removed, its ends differ). -/
theorem C27_listed_edges (hq : q.Spec evLt ok) (hn : 0 < n) (hne : poly.points ≠ [])
    (h : createDiagram pts q n fuel poly rz (initSt poly) = .ok ((), s')) :
    (∀ e ∈ s'.edges, ∃ p r, OriginAt s'.d e p ∧ TargetAt s'.d e r) ∧
    ∃ s0, sweepAll pts q n fuel (initSt poly) = .ok ((), s0) ∧ ∀ e ∈ s0.edges,
      (e ∈ s'.edges ↔ ∃ p r, OriginAt s'.d e p ∧ TargetAt s'.d e r ∧ (rz = true → p ≠ r)) := by
  obtain ⟨s0, hs, hr⟩ := create_result hq hn hne h
  refine ⟨?_, s0, hs, ?_⟩
  · intro e he
    obtain ⟨t, p, r, h1, h2, h3, _⟩ := hr.ends e he
    exact ⟨p, r, originAt_iff.mpr h2, (targetAt_iff h1).mpr h3⟩
  · intro e he
    constructor
    · intro he'
      obtain ⟨t, p, r, h1, h2, h3, h4⟩ := hr.ends e he'
      exact ⟨p, r, originAt_iff.mpr h2, (targetAt_iff h1).mpr h3, h4⟩
    · rintro ⟨p, r, h1, ⟨t, h2, h3⟩, h4⟩
      exact hr.old e he t p r h2 (originAt_iff.mp h1) (originAt_iff.mp h3) h4

/-- C36, first half: with `remove_zero_length_edges` no listed edge has equal ends.  The second half (every edge starts at a listed
vertex) is false, see `C47_lost_vertex`. -/
theorem C36_zero_length_partial (hq : q.Spec evLt ok) (hn : 0 < n) (hne : poly.points ≠ [])
    (h : createDiagram pts q n fuel poly true (initSt poly) = .ok ((), s')) :
    ∀ e ∈ s'.edges, ∃ p r, OriginAt s'.d e p ∧ TargetAt s'.d e r ∧ p ≠ r := by
  obtain ⟨s0, hs, hr⟩ := create_result hq hn hne h
  intro e he
  obtain ⟨t, p, r, h1, h2, h3, h4⟩ := hr.ends e he
  exact ⟨p, r, originAt_iff.mpr h2, (targetAt_iff h1).mpr h3, h4 rfl⟩

/-- C40: the notifications of a whole run. -/
theorem C40_log (hq : q.Spec evLt ok) (hn : 0 < n) (hne : poly.points ≠ [])
    (h : createDiagram pts q n fuel poly rz (initSt poly) = .ok ((), s')) :
    ∃ s0, sweepAll pts q n fuel (initSt poly) = .ok ((), s0) ∧
      steps s'.log = List.replicate (n + s0.verts.length) .stepFinished ++ [.sweepFinished, .voronoiFinished] := by
  obtain ⟨sr, s0, s1, s2, vs, V, cell, hr, hp, h0, hs, hst⟩ := createDiagram_stages hq hn hne h
  refine ⟨s0, hs, ?_⟩
  have h1 := C40_sweep_log hq hs
  have h2 : steps s1.log = steps s0.log := hst.fe.log
  have h3 : s2.log = s1.log := by rw [hst.fp.eq]
  have h4 : steps (s2.log ++ [.debug] ++ [.voronoiFinished]) = steps s2.log ++ [.voronoiFinished] := by simp [steps]
  rw [hst.log, h4, h3, h2, h1]
  simp

theorem hd_none {d : Dcel K} {v : Nat} (h : (d.vs v).conn = []) : hd d v = none := by rw [hd, h]; rfl

theorem FP.closes {s1 s2 : St K} {vs : List Nat} {V : Nat → Nat} {cell : Nat} (h : FP pts n poly s1 s2 vs V cell) :
    ClosesBorder s1.d s2.d vs ((List.range vs.length).map (fun j => s1.d.heCnt + 2 * j + 1)) := by
  have hb := h.binv
  have hm : 0 < vs.length := List.length_pos_iff.mpr h.ne
  have hv : ∀ (j v : Nat), vs[j]? = some v → j < vs.length ∧ v = V j := by
    intro j v hj
    have hlt : j < vs.length := by
      by_contra hge
      rw [List.getElem?_eq_none (by omega)] at hj
      cases hj
    rw [h.V_eq j hlt] at hj
    exact ⟨hlt, (Option.some.inj hj).symm⟩
  have hbs : ∀ (j b : Nat), ((List.range vs.length).map (fun j => s1.d.heCnt + 2 * j + 1))[j]? = some b →
      j < vs.length ∧ b = s1.d.heCnt + 2 * j + 1 := by
    intro j b hj
    have hlt : j < vs.length := by
      by_contra hge
      rw [List.getElem?_eq_none (by simp; omega)] at hj
      cases hj
    rw [List.getElem?_map, List.getElem?_range hlt] at hj
    exact ⟨hlt, (Option.some.inj hj).symm⟩
  have hw : ∀ (j w : Nat), j < vs.length → vs[(j + 1) % vs.length]? = some w → w = V (j + 1) := by
    intro j w hj hw
    obtain ⟨_, h2⟩ := hv _ _ hw
    rcases Nat.lt_or_ge (j + 1) vs.length with h3 | h3
    · rw [Nat.mod_eq_of_lt h3] at h2; exact h2
    · have : j + 1 = vs.length := by omega
      rw [this, Nat.mod_self] at h2
      rw [this, h.V_end]; exact h2
  refine ⟨by simp, ?_, ?_, ?_, ?_, ?_, ?_, ?_, ?_, fun e he => ⟨hb.org e he, hb.twin e he, hb.inc e he⟩, hb.pos⟩
  · intro b hb'
    obtain ⟨j, hj, rfl⟩ := List.mem_map.mp hb'
    have := List.mem_range.mp hj
    rw [hb.heCnt]
    exact ⟨by omega, by omega⟩
  · intro j v b h1 h2
    obtain ⟨hj, rfl⟩ := hv j v h1
    obtain ⟨_, rfl⟩ := hbs j b h2
    exact (hb.newE j hj).2.1
  · intro j w b h1 h2
    obtain ⟨hj, rfl⟩ := hbs j b h2
    obtain rfl := hw j w hj h1
    exact ⟨_, (hb.newE j hj).1, (hb.newT j hj).2.1⟩
  · intro j w b c h1 h2 h3
    obtain ⟨hj, rfl⟩ := hbs j b h2
    obtain rfl := hw j w hj h1
    have h3 : hd s1.d (V (j + 1)) = some c := h3
    refine ⟨?_, hb.prevC j hj c h3⟩
    rw [hb.nextE j hj, h3]; rfl
  · intro j w b b' h1 h2 h3 h4
    obtain ⟨hj, rfl⟩ := hbs j b h2
    obtain rfl := hw j w hj h1
    obtain ⟨hj', rfl⟩ := hbs _ b' h3
    rw [hb.nextE j hj, hd_none h4]
    simp only [Option.getD_none]
    rcases Nat.lt_or_ge (j + 1) vs.length with h5 | h5
    · rw [if_pos h5, Nat.mod_eq_of_lt h5]
    · have : j + 1 = vs.length := by omega
      rw [if_neg (by omega), this, Nat.mod_self]; rfl
  · intro j v b c t h1 h2 h3 h4
    obtain ⟨hj, rfl⟩ := hv j v h1
    obtain ⟨_, rfl⟩ := hbs j b h2
    have h3 : hd s1.d (V j) = some c := h3
    refine ⟨hb.nextO j hj c t h3 h4, ?_⟩
    rw [hb.prevE j hj, h3]
    simp only [h4, Option.getD_some]
  · intro j v b c t h1 h2 h3 h4
    obtain ⟨hj, rfl⟩ := hv j v h1
    obtain ⟨_, rfl⟩ := hbs j b h2
    have h3 : (s1.d.vs (V j)).conn.head? = some c := h3
    rw [(hb.newE j hj).2.2]
    have hc : ∀ x, nextCell s1.d (V j) x = (s1.d.he t).incident := by
      intro x
      unfold nextCell
      rw [h3]
      simp [h4]
    cases j with
    | zero => exact hc _
    | succ j => exact hc _
  · intro j v b b' h1 h2 h3 h4
    obtain ⟨hj, rfl⟩ := hv _ v h1
    obtain ⟨hj', rfl⟩ := hbs j b h2
    obtain ⟨hj'', rfl⟩ := hbs _ b' h3
    rw [(hb.newE _ hj).2.2, (hb.newE _ hj').2.2]
    show nextCell s1.d (V (j + 1)) _ = _
    unfold nextCell
    rw [h4]
    rfl

/-- C33: `finish_polygon` on any state with distinct border vertices, mirrored twins, and border vertices whose first attached edge
starts there.  The boundary vertices are those with coordinates, in angular order; the first border edge belongs to the closest
site of the first vertex unless a Voronoi edge enters there. -/
theorem C33_closes_border (hn : 0 < n) (hnd : s.polyVerts.Nodup) (htw : TwinsMirror s.d)
    (hat : ∀ v ∈ s.polyVerts, ∀ c, Attached s.d v c → (s.d.vs v).pos.isSome → c < s.d.heCnt ∧ StartsAt s.d c v)
    (hv : ∀ v ∈ s.verts, (s.d.vs v).pos.isSome) (hsome : ∃ v ∈ s.polyVerts, (s.d.vs v).pos.isSome)
    (h : finishPolygon pts n poly s = .ok ((), s')) :
    ∃ vs bs, vs ~ s.polyVerts.filter (fun v => (s.d.vs v).pos.isSome) ∧
      vs.Pairwise (fun a b => ∀ p r, (s.d.vs a).pos = some p → (s.d.vs b).pos = some r →
        orderKey poly.center p ≤ orderKey poly.center r) ∧
      ClosesBorder s.d s'.d vs bs ∧ s'.edges = s.edges ++ bs ∧
      (∀ v b p, vs.head? = some v → bs.head? = some b → (s.d.vs v).conn = [] → (s.d.vs v).pos = some p →
        ∃ i, (s'.d.he b).incident = some i ∧ IsClosest pts n p i) ∧
      (∀ v, v ∈ s'.verts ↔ v ∈ vs ∨ (v ∈ s.verts ∧ ∃ p, (s.d.vs v).pos = some p ∧ inside poly.points p = some true)) := by
  have hpre : PolyPre s := ⟨hnd, htw, fun v hv' hp c hc => hat v hv' c hc hp, hsome, hv⟩
  obtain ⟨vs, V, cell, hf⟩ := (wp_finishPolygon (E := fun _ => True) (poly := poly) hn (Or.inl trivial) hpre).ok h
  refine ⟨vs, _, hf.perm, hf.sorted, hf.closes, by rw [hf.eq], ?_, ?_⟩
  · intro v b p h1 h2 h3 h4
    have hm : 0 < vs.length := List.length_pos_iff.mpr hf.ne
    rw [List.head?_eq_getElem?, hf.V_eq 0 hm] at h1
    obtain rfl := Option.some.inj h1
    rw [List.head?_eq_getElem?, List.getElem?_map, List.getElem?_range hm] at h2
    obtain rfl := Option.some.inj h2
    refine ⟨cell, ?_, hf.close p h4⟩
    rw [(hf.binv.newE 0 hm).2.2]
    show nextCell s.d (V 0) _ = _
    unfold nextCell
    rw [h3]; rfl
  · intro v
    have e1 : s'.verts = vs ++ keepInside poly s.d.vs s.verts := by rw [hf.eq]
    rw [e1, List.mem_append]
    refine or_congr Iff.rfl ?_
    unfold keepInside
    rw [List.mem_filter]
    refine and_congr Iff.rfl ?_
    cases (s.d.vs v).pos with
    | none => simp
    | some p => simp

/-- C33 within `create_diagram`: the border is closed on the state left by `finish_edges`, whose hypotheses always hold. -/
theorem C33_create (hq : q.Spec evLt ok) (hn : 0 < n) (hne : poly.points ≠ [])
    (h : createDiagram pts q n fuel poly false (initSt poly) = .ok ((), s')) :
    ∃ (d1 : Dcel K) (kept vs bs : List Nat), ClosesBorder d1 s'.d vs bs ∧ s'.edges = kept ++ bs ∧ vs.Nodup ∧ (∀ v ∈ vs, v ∈ s'.verts) ∧
      ∀ v ∈ vs, (d1.vs v).conn.length ≤ 1 := by
  obtain ⟨sr, s0, s1, s2, vs, V, cell, hr, hp, h0, hs, hst⟩ := createDiagram_stages hq hn hne h
  obtain ⟨L, hI⟩ := reach_inv hq hr
  have hc := reach_corner hq hr
  have hI0 : Inv pts ok n poly.points.length s0 L := by
    rw [h0]; exact ⟨hI.tree, hI.beach, { hI.qinv with }, { hI.sinv with }, hI.dinv, { hI.cinv with }⟩
  have hc0 : CornerInv poly s0 := by rw [h0]; exact ⟨hc.pv, hc.pos⟩
  obtain ⟨hpp, _⟩ := polyPre_of_fe hI0 hc0 hne hst.fe
  have hcu := hst.cu
  simp only [Bool.false_eq_true, if_false] at hcu
  have hd : s'.d = s2.d := by rw [hcu]
  have he : s'.edges = s2.edges := by rw [hcu]
  have hv : s'.verts = s2.verts := by rw [hcu]
  refine ⟨s1.d, s1.edges, vs, _, by rw [hd]; exact hst.fp.closes, by rw [he, hst.fp.eq], ?_, ?_, ?_⟩
  · exact hst.fp.perm.nodup_iff.mpr (hpp.nd.filter _)
  · intro v hvv
    rw [hv, hst.fp.eq]
    exact List.mem_append_left _ hvv
  · intro v hvv
    have hm := (List.mem_filter.mp (hst.fp.perm.mem_iff.mp hvv)).1
    obtain ⟨new, p1, _, p3⟩ := hst.fe.pv
    have p1 : s1.polyVerts = s0.polyVerts ++ new := p1
    rw [p1, hc0.pv] at hm
    rcases List.mem_append.mp hm with hm | hm
    · have hlt := List.mem_range.mp hm
      have : (s1.d.vs v).conn = [] := by
        refine List.eq_nil_iff_forall_not_mem.mpr fun c hc' => ?_
        have := hst.fe.keeps.conn v (by have := hI0.dinv.vcnt; omega) c hc'
        rw [hI0.dinv.poly v hlt] at this
        cases this
      rw [this]; simp
    · rcases (p3 v hm).2.2 with h1 | ⟨c, _, h1, _⟩
      · have h1 : (s1.d.vs v).conn = [] := h1
        rw [h1]; simp
      · have h1 : (s1.d.vs v).conn = [c] := h1
        rw [h1]; simp

/-- C37: `delete` never fails if the edge is in the list of its origin and its successor has the same cell, and does exactly what
`Deleted` says. -/
theorem C37_delete {d : Dcel K} {e : Nat} (ho : ∀ v, StartsAt d e v → e ∈ (d.vs v).conn)
    (hn : ∀ f, (d.he e).next = some f → (d.he f).incident = (d.he e).incident) (hfe : ∀ p, d.fe p = some e → (d.he e).incident = some p) :
    ∃ d', deleteHE e d = .ok ((), d') ∧ Deleted d e d' := by
  have hw : Wp (fun _ => False) (deleteHE e) d (fun _ d' => d' = delD d e) := wp_deleteHE ho (fun _ => hn) rfl
  cases hr : deleteHE e d with
  | error err => exact (hw.err hr).elim
  | ok v =>
    obtain ⟨_, d'⟩ := v
    have hd := hw.ok hr
    subst hd
    refine ⟨_, rfl, ?_, ?_, fun f => ⟨delD_org d e f, delD_twin d e f, delD_inc d e f⟩, delD_pos d e, ?_, ?_⟩
    · intro f
      unfold delD
      cases hp : (d.he e).prev with
      | none => simp
      | some p =>
        simp only [linkH_next, Option.some.injEq]
        by_cases h : f = p
        · rw [if_pos h, if_pos h.symm]
        · rw [if_neg h, if_neg (Ne.symm h)]
    · intro f
      unfold delD
      cases hp : (d.he e).prev with
      | none => simp
      | some p => simp only [linkH_prev, Option.isSome_some, true_and]
    · intro v
      rw [delD_conn]
    · intro p
      unfold delD
      simp only
      cases hi : (d.he e).incident with
      | none =>
        by_cases h : d.fe p = some e
        · have := hfe p h; rw [hi] at this; cases this
        · rw [if_neg h]
      | some q =>
        simp only
        by_cases h : d.fe p = some e
        · have := hfe p h
          rw [hi] at this
          obtain rfl := Option.some.inj this
          rw [if_pos h, if_pos h, Function.update_self]
        · rw [if_neg h]
          split
          · rename_i h2
            by_cases hpq : p = q
            · subst hpq; exact absurd h2 h
            · rw [Function.update_of_ne hpq]
          · rfl

/-- C37: on a coherent structure the edge is gone afterwards: no other half-edge continues with it, the links of the others stay
coherent, and no site has it as first edge. -/
theorem C37_gone {d d' : Dcel K} {e : Nat} (h : Deleted d e d') (hself : (d.he e).next ≠ some e)
    (hnp : ∀ f g, (d.he f).next = some g → (d.he g).prev = some f) (hpv : ∀ f g, (d.he g).prev = some f → (d.he f).next = some g)
    (hinc : ∀ f g, (d.he f).next = some g → (d.he g).incident = (d.he f).incident)
    (hfe : ∀ p f, d.fe p = some f → (d.he f).incident = some p) :
    (∀ f, f ≠ e → (d'.he f).next ≠ some e) ∧
    (∀ f g, f ≠ e → (d'.he f).next = some g → (d'.he g).prev = some f ∧ (d'.he g).incident = (d'.he f).incident) ∧
    (∀ p f, d'.fe p = some f → f ≠ e ∧ (d'.he f).incident = some p) := by
  have hpe : (d.he e).prev ≠ some e := fun hh => hself (hpv e e hh)
  refine ⟨?_, ?_, ?_⟩
  · intro f hf
    rw [h.next]
    split
    · exact hself
    · rename_i hne
      intro hh
      exact hne (hnp f e hh)
  · intro f g hf hg
    rw [h.next] at hg
    rw [h.prev, (h.keep g).2.2, (h.keep f).2.2]
    by_cases hp : (d.he e).prev = some f
    · rw [if_pos hp] at hg
      refine ⟨?_, ?_⟩
      · rw [if_pos ⟨by rw [hp]; rfl, hg⟩]; exact hp
      · rw [hinc e g hg, ← hinc f e (hpv f e hp)]
    · rw [if_neg hp] at hg
      refine ⟨?_, hinc f g hg⟩
      rw [if_neg]
      · exact hnp f g hg
      · rintro ⟨_, h2⟩
        have h3 := hnp e g h2
        rw [hnp f g hg] at h3
        exact hf (Option.some.inj h3)
  · intro p f hf
    rw [(h.keep f).2.2]
    rw [h.first] at hf
    split at hf
    · rename_i hp
      refine ⟨?_, ?_⟩
      · rintro rfl; exact hself hf
      · rw [hinc e f hf]; exact hfe p e hp
    · rename_i hp
      refine ⟨?_, hfe p f hf⟩
      rintro rfl; exact hp hf

/-- C48: the exceptions of a whole run: only Decimal signals, unless zero length edges are cleaned up, where `list.remove` may miss
(`ValueError`) or the assertion of `delete` may fail. -/
theorem C48_create_errors (hq : q.Spec evLt ok) (hn : 0 < n) (hne : poly.points ≠ []) (hf : 7 * n < fuel) {err : Err}
    (h : createDiagram pts q n fuel poly rz (initSt poly) = .error err) :
    err = .arith ∨ (rz = true ∧ (err = .value ∨ err = .assertion)) := by
  have hdef : createDiagram pts q n fuel poly rz = (do
      sweepAll pts q n fuel
      (do finishEdgesSt pts poly; finishPolygon pts n poly; whenDo rz (cleanUp pts); notify .debug; notify .voronoiFinished)) := rfl
  cases hs : sweepAll pts q n fuel (initSt poly) with
  | error err' =>
    rw [hdef, bind_err hs] at h
    obtain rfl : err' = err := by injection h
    exact Or.inl (C05_sweep_errors hq hf hs)
  | ok v =>
    obtain ⟨_, s0⟩ := v
    obtain ⟨sr, hr, hp, h0⟩ := sweepAll_reach hs
    obtain ⟨L, hI⟩ := reach_inv hq hr
    have hc := reach_corner hq hr
    rw [hdef, bind_ok hs] at h
    have hI0 : Inv pts ok n poly.points.length s0 L := by
      rw [h0]; exact ⟨hI.tree, hI.beach, { hI.qinv with }, { hI.sinv with }, hI.dinv, { hI.cinv with }⟩
    have hc0 : CornerInv poly s0 := by rw [h0]; exact ⟨hc.pv, hc.pos⟩
    exact (wp_afterSweep (E := fun err => err = .arith ∨ (rz = true ∧ (err = .value ∨ err = .assertion))) (rz := rz) hn hne (Or.inl (Or.inl rfl))
      (fun hz => ⟨Or.inr ⟨hz, Or.inl rfl⟩, Or.inr ⟨hz, Or.inr rfl⟩⟩) hI0 hc0).err h

/-- The state between clipping and closing the border meets the hypotheses of `C33_closes_border`. -/
theorem clipped_meets (hq : q.Spec evLt ok) (hne : poly.points ≠ []) {s0 s1 : St K}
    (hs : sweepAll pts q n fuel (initSt poly) = .ok ((), s0)) (h : finishEdgesSt pts poly s0 = .ok ((), s1)) :
    s1.polyVerts.Nodup ∧ TwinsMirror s1.d ∧
    (∀ v ∈ s1.polyVerts, ∀ c, Attached s1.d v c → (s1.d.vs v).pos.isSome → c < s1.d.heCnt ∧ StartsAt s1.d c v) ∧
    (∀ v ∈ s1.verts, (s1.d.vs v).pos.isSome) ∧ ∃ v ∈ s1.polyVerts, (s1.d.vs v).pos.isSome := by
  obtain ⟨sr, hr, hp, h0⟩ := sweepAll_reach hs
  obtain ⟨L, hI⟩ := reach_inv hq hr
  have hc := reach_corner hq hr
  have hI0 : Inv pts ok n poly.points.length s0 L := by
    rw [h0]; exact ⟨hI.tree, hI.beach, { hI.qinv with }, { hI.sinv with }, hI.dinv, { hI.cinv with }⟩
  have hc0 : CornerInv poly s0 := by rw [h0]; exact ⟨hc.pv, hc.pos⟩
  have hw : Wp (fun _ => True) (finishEdgesSt pts poly) s0 (fun _ s1 => PolyPre s1) := by
    unfold finishEdgesSt
    rw [wp_bind, wp_get, wp_bind]
    refine wp_mono (wp_finishEdges (Or.inl trivial) s0.edges s0 (dok_of_dinv hI0.dinv) (cohw_of_dinv hI0.dinv) hI0.dinv.end_ (Or.inl trivial) ?_) ?_
    · intro e he
      have hel := hI0.dinv.elt e he
      refine ⟨hel, pend_of_dinv hI0.dinv hel, ?_⟩
      intro t ht
      obtain ⟨t', h1, h2, _⟩ := hI0.dinv.tw e hel
      have : t' = t := by rw [h1] at ht; exact Option.some.inj ht
      subst this
      exact ⟨(hI0.dinv.etw e hel t' h1).mp he, pend_of_dinv hI0.dinv h2⟩
    intro r s1 hfe
    rw [wp_modify]
    exact (polyPre_of_fe hI0 hc0 hne hfe).1
  have hpp := hw.ok h
  exact ⟨hpp.nd, hpp.tw, fun v hv c hc' hp => hpp.head v hv hp c hc', hpp.verts, hpp.some⟩

end Foronoi
