import Verif.Model.Voronoi
import Verif.Props.Clip
import Verif.Props.Sweep
import Verif.Props.CreateReal
import Verif.Props.ClipExamples

/-!
# The reported sites (C01), and a polygon used for two diagrams (C67)
-/

namespace Foronoi

open scoped List

variable {K : Type} [LinearOrder K] [Arith K]

/-! ### `createDiagramOf` on a new object is `createDiagram` -/

theorem closestOf_range (pts : Nat → K × K) (n : Nat) (pos : K × K) : closestOf pts (List.range n) pos = closestPoint pts n pos := by
  funext s
  unfold closestOf closestPoint
  cases hm : (List.range n).mapM (fun i => distance pos (pts i)) with
  | none => rfl
  | some ds =>
    obtain ⟨h1, _⟩ := mapM_some hm
    rw [List.length_range] at h1
    cases ds with
    | nil => rfl
    | cons a l =>
      obtain ⟨i, y, h3, h4, _⟩ := argmin_spec (l := a :: l) (by simp)
      have hi : i < n := by rw [← h1]; exact (List.getElem?_eq_some_iff.mp h4).1
      show (match argmin (a :: l) with
        | none => throw .value
        | some i => match (List.range n)[i]? with
          | some p => pure p
          | none => throw .index : AM K Nat) s = (match argmin (a :: l) with
        | none => throw .value
        | some i => pure i : AM K Nat) s
      rw [h3]
      simp [hi]

theorem finishPolygonOf_range (pts : Nat → K × K) (n : Nat) (poly : Poly K) :
    finishPolygonOf pts (List.range n) poly = finishPolygon pts n poly := by
  unfold finishPolygonOf finishPolygon
  simp only [closestOf_range]
  rfl

theorem createDiagramOf_range (pts : Nat → K × K) (q : PQ (QE K)) (n fuel : Nat) (poly : Poly K) (rz : Bool) {s : St K} (hs : s.nextName = 0) :
    createDiagramOf pts q (List.range n) fuel poly rz s = createDiagram pts q n fuel poly rz s := by
  unfold createDiagramOf createDiagram sweepAll
  rw [finishPolygonOf_range]
  simp only [bind_assoc]
  generalize (sweepLoop pts q fuel >>= _) = k
  show k { s with queue := (List.range n).foldl (fun l p => q.push (siteQE pts p) l) s.queue, nextName := 0 } =
    k { s with queue := (List.range n).foldl (fun l p => q.push (siteQE pts p) l) s.queue }
  rw [← hs]

/-! ### The reported sites -/

variable [ArithLaws K] {pts : Nat → K × K} {q : PQ (QE K)} {ok : List (QE K) → Prop} {n fuel : Nat} {poly : Poly K} {rz : Bool} {s s' : St K} [MidLt pts n]

theorem create_names (hq : q.Spec evLt ok) (hn : 0 < n) (hne : poly.points ≠ [])
    (h : createDiagram pts q n fuel poly rz (initSt poly) = .ok ((), s')) :
    ∃ s0, sweepAll pts q n fuel (initSt poly) = .ok ((), s0) ∧ s'.names = s0.names := by
  obtain ⟨sr, s0, s1, s2, vs, V, cell, hr, hp, h0, hs, hst⟩ := createDiagram_stages hq hn hne h
  refine ⟨s0, hs, ?_⟩
  have h1 : s1.names = s0.names := by
    have : ({ s1 with edges := s0.edges } : St K).names = s0.names := by rw [hst.fe.eq]
    exact this
  have h2 : s2.names = s1.names := by rw [hst.fp.eq]
  have h3 : s'.names = s2.names := by
    have hcu := hst.cu
    cases rz with
    | false =>
      simp only [Bool.false_eq_true, if_false] at hcu
      rw [hcu]
    | true =>
      simp only [if_true] at hcu
      have : ({ s' with edges := s2.edges, log := s2.log } : St K).names = s2.names := by rw [hcu.eq]
      exact this
  rw [h3, h2, h1]

theorem perm_range {l : List Nat} {m : Nat} (hlen : l.length = m) (h : ∀ k < m, k ∈ l) : l ~ List.range m := by
  have h1 : List.range m ⊆ l := fun k hk => h k (List.mem_range.mp hk)
  have h2 : List.range m <+~ l := List.subperm_of_subset List.nodup_range h1
  exact (h2.perm_of_length_le (by simp [hlen])).symm

/-- C01: `v.sites` has one `Point` per input pair, in input order, with the coordinates of the input; the names of the points are `0 … n-1`,
each once. -/
theorem C01_sites {V : Type} {toDec : V → Option K} {inp : List (V × V)} {sites : List (SiteObj K)} (hq : q.Spec evLt ok) (hi : inp ≠ [])
    (hne : poly.points ≠ []) (hmid : ∀ u ∈ inp, ∀ v ∈ inp, ∀ w ∈ inp, ∀ x y z m, toDec u.1 = some x → toDec v.1 = some y → toDec w.1 = some z → x < z → y ≤ z →
      Arith.div (Arith.add x y) (Arith.ofInt 2) = some m → m < z) (h : voronoi toDec q inp fuel poly rz = .ok (sites, s')) :
    sites.length = inp.length ∧
    (∀ (i : Nat) (v : V × V) (p : SiteObj K), inp[i]? = some v → sites[i]? = some p → toDec v.1 = some p.xd ∧ toDec v.2 = some p.yd) ∧
    sites.map (·.name) ~ (List.range inp.length).map some := by
  unfold voronoi at h
  cases hm : inp.mapM (fun v => do let x ← toDec v.1; let y ← toDec v.2; pure (x, y)) with
  | none => rw [hm] at h; cases h
  | some l =>
    rw [hm] at h
    simp only at h
    obtain ⟨hlen, hget⟩ := mapM_some hm
    obtain ⟨pts, hpts⟩ : ∃ pts : Nat → K × K, pts = fun i => l[i]?.getD (lit 0, lit 0) := ⟨_, rfl⟩
    rw [← hpts] at h
    have hM : MidLt pts l.length := by
      have key : ∀ i < l.length, ∃ u ∈ inp, toDec u.1 = some (pts i).1 := by
        intro i hi
        have hi' : i < inp.length := by omega
        refine ⟨inp[i], List.getElem_mem hi', ?_⟩
        have hg := hget i inp[i] l[i] (List.getElem?_eq_getElem hi') (List.getElem?_eq_getElem hi)
        rw [hpts]
        simp only [List.getElem?_eq_getElem hi, Option.getD_some]
        cases hx : toDec inp[i].1 with
        | none => rw [hx] at hg; cases hg
        | some x =>
          cases hy : toDec inp[i].2 with
          | none => rw [hx, hy] at hg; cases hg
          | some y =>
            rw [hx, hy] at hg
            have h0 : (x, y) = l[i] := Option.some.inj hg
            rw [← h0]
      refine ⟨fun p hp r hr b hb m h1 h2 h3 => ?_⟩
      obtain ⟨u, u1, u2⟩ := key p hp
      obtain ⟨v, v1, v2⟩ := key r hr
      obtain ⟨w, w1, w2⟩ := key b hb
      exact hmid u u1 v v1 w w1 _ _ _ _ u2 v2 w2 h1 h2 h3
    rw [createDiagramOf_range pts q l.length fuel poly rz (s := initSt poly) rfl] at h
    cases hc : createDiagram pts q l.length fuel poly rz (initSt poly) with
    | error e => rw [hc] at h; cases h
    | ok r =>
      obtain ⟨u, s1⟩ := r
      rw [hc] at h
      simp only [Except.ok.injEq, Prod.mk.injEq] at h
      obtain ⟨h1, rfl⟩ := h
      have hpos : 0 < l.length := by rw [hlen]; exact List.length_pos_iff.mpr hi
      obtain ⟨s0, hs0, hnm⟩ := create_names hq hpos hne hc
      obtain ⟨n1, n2, n3, _⟩ := C02_names hq hs0
      have hl2 : sites.length = inp.length := by rw [← h1]; simp [sitesOf, hlen]
      refine ⟨hl2, ?_, ?_⟩
      · intro i v p hv hp
        rw [← h1] at hp
        simp only [sitesOf, List.getElem?_map, Option.map_eq_some_iff] at hp
        obtain ⟨j, hj, hjp⟩ := hp
        rw [List.getElem?_range (by
          have := (List.getElem?_eq_some_iff.mp hj).1
          simpa using this), Option.some.injEq] at hj
        subst hj
        have hil : i < l.length := by
          rw [hlen]; exact (List.getElem?_eq_some_iff.mp hv).1
        have hy := hget i v (l[i]) hv (List.getElem?_eq_getElem hil)
        have hpi : pts i = l[i] := by rw [hpts]; simp [List.getElem?_eq_getElem hil]
        rw [← hjp]
        simp only [hpi]
        cases hx : toDec v.1 with
        | none => rw [hx] at hy; cases hy
        | some x =>
          cases hz : toDec v.2 with
          | none => rw [hx, hz] at hy; cases hy
          | some z =>
            rw [hx, hz] at hy
            have : (x, z) = l[i] := Option.some.inj hy
            rw [← this]
            exact ⟨rfl, rfl⟩
      · have hmap : sites.map (·.name) = ((List.range l.length).map fun p => (s0.names p).getD 0).map some := by
          rw [← h1]
          simp only [sitesOf, List.map_map]
          apply List.map_congr_left
          intro p hp
          have := (n1 p).mpr (List.mem_range.mp hp)
          obtain ⟨k, hk⟩ := Option.isSome_iff_exists.mp this
          simp [hnm, hk]
        rw [hmap, ← hlen]
        refine (perm_range (by simp) ?_).map _
        intro k hk
        obtain ⟨p, hp, hpk, _⟩ := n3 k hk
        exact List.mem_map.mpr ⟨p, List.mem_range.mpr hp, by simp [hpk]⟩

/-! ### A polygon used for two diagrams -/

/-- The first half-edge at `v` is there, and the half-edge on its other side is not of site `x`. -/
def Led (x : Nat) (d : Dcel K) (v : Nat) : Prop :=
  ∃ c t, hd d v = some c ∧ c < d.heCnt ∧ t < d.heCnt ∧ (d.he c).twin = some t ∧ (d.he t).incident ≠ some x

/-- No edge of the list is of site `x`, on either side. -/
def Foreign (x : Nat) (d : Dcel K) (es : List Nat) : Prop :=
  ∀ e ∈ es, e < d.heCnt ∧ (d.he e).incident ≠ some x ∧ ∃ t < d.heCnt, (d.he e).twin = some t ∧ (d.he t).incident ≠ some x

omit [LinearOrder K] [Arith K] [ArithLaws K] in
theorem BStep.led {x : Nat} {d d' : Dcel K} {o e : Nat} {cell : Option Nat} (h : BStep d o e cell d') {v : Nat} (hv : Led x d v) : Led x d' v := by
  obtain ⟨c, t, h1, h2, h3, h4, h5⟩ := hv
  have hc := h.heCnt
  refine ⟨c, t, ?_, by omega, by omega, by rw [h.twin c h2]; exact h4, by rw [h.inc t h3]; exact h5⟩
  unfold hd at h1 ⊢
  rw [h.conn]
  cases hl : (d.vs v).conn with
  | nil => rw [hl] at h1; cases h1
  | cons a l => rw [hl] at h1; simpa using h1

omit [ArithLaws K] in
theorem wp_borderLed {E : Err → Prop} {x : Nat} : ∀ (l : List Nat) (cell : Option Nat) (s : St K), (∀ v ∈ l, Led x s.d v) → s.d.fe x = none →
    Foreign x s.d s.edges →
    Wp E (borderLoop l cell) s (fun _ s' => s' = { s with d := s'.d, edges := s'.edges } ∧ (∀ v, (s'.d.vs v).pos = (s.d.vs v).pos) ∧
      s'.d.fe x = none ∧ Foreign x s'.d s'.edges) := by
  intro l
  induction l with
  | nil => intro cell s _ h2 h3; exact ⟨rfl, fun _ => rfl, h2, h3⟩
  | cons o l ih =>
    cases l with
    | nil => intro cell s _ h2 h3; exact ⟨rfl, fun _ => rfl, h2, h3⟩
    | cons e rest =>
      intro cell s hl hfe hfo
      obtain ⟨c, t, h1, h2, h3, h4, h5⟩ := hl o (List.mem_cons_self ..)
      have hnc : nextCell s.d o cell ≠ some x := by
        unfold nextCell
        unfold hd at h1
        rw [h1]
        simp only [h4]
        exact h5
      refine wp_borderStep ?_ ?_
      · intro c' hc'
        unfold hd at h1
        rw [h1] at hc'; cases hc'
        exact ⟨h2, t, h3, h4⟩
      · intro d' hb
        have hcn := hb.heCnt
        refine wp_mono (ih _ _ ?_ ?_ ?_) ?_
        · intro v hv
          exact hb.led (hl v (List.mem_cons_of_mem _ hv))
        · show d'.fe x = none
          rw [hb.fe]
          cases hnx : nextCell s.d o cell with
          | none => exact hfe
          | some p =>
            have hpx : x ≠ p := by rintro rfl; exact hnc hnx
            simp only [initF]
            split
            · exact hfe
            · rw [Function.update_of_ne hpx]; exact hfe
        · intro f hf
          rcases List.mem_append.mp hf with hf | hf
          · obtain ⟨g1, g2, t', g3, g4, g5⟩ := hfo f hf
            refine ⟨by show f < d'.heCnt; omega, by rw [hb.inc f g1]; exact g2, t', by show t' < d'.heCnt; omega, ?_, ?_⟩
            · rw [hb.twin f g1]; exact g4
            · rw [hb.inc t' g3]; exact g5
          · rw [List.mem_singleton] at hf
            subst hf
            obtain ⟨a1, a2, a3⟩ := hb.tw0
            obtain ⟨b1, b2, b3⟩ := hb.ed0
            refine ⟨by show s.d.heCnt + 1 < d'.heCnt; omega, ?_, s.d.heCnt, by show s.d.heCnt < d'.heCnt; omega, b1, ?_⟩
            · show (d'.he (s.d.heCnt + 1)).incident ≠ some x
              rw [b3]; exact hnc
            · show (d'.he s.d.heCnt).incident ≠ some x
              rw [a3]; simp
        · rintro _ s' ⟨k1, k2, k3, k4⟩
          refine ⟨?_, ?_, k3, k4⟩
          · rw [k1]
          · intro v; rw [k2]; exact hb.pos v

omit [ArithLaws K] [MidLt pts n] in
/-- The sweep for a single site on a new object: nothing but the site's arc. -/
theorem wp_sweepOne {E : Err → Prop} (hq : q.Spec evLt ok) {x : Nat} (hE : E .fuel ∨ 2 ≤ fuel) {s : St K} (h1 : s.queue = [])
    (h2 : s.root = none) :
    Wp E (do initQueueOf pts q [x]; modify fun s => { s with nextName := 0 }; sweepLoop pts q fuel : AM K Unit) s
      (fun _ s' => s'.d = s.d ∧ s'.polyVerts = s.polyVerts ∧ s'.edges = s.edges ∧ s'.verts = s.verts) := by
  simp only [wp_bind, initQueueOf, wp_modify, List.foldl_cons, List.foldl_nil, h1]
  have hok := hq.push_ok (siteQE pts x) [] hq.ok_nil
  have hperm := hq.push_perm (siteQE pts x) [] hq.ok_nil
  cases hp : q.pop (q.push (siteQE pts x) []) with
  | none =>
    rw [hq.pop_none _ hok] at hp
    rw [hp] at hperm
    exact absurd hperm.length_eq (by simp)
  | some v =>
    obtain ⟨e, rest⟩ := v
    have hpp := (hq.pop_perm _ e rest hok hp).symm.trans hperm
    have hrest : rest = [] := by
      have := hpp.length_eq
      simpa using this
    subst hrest
    have he : e = siteQE pts x := by
      have := hpp.mem_iff (a := e)
      simpa using this
    subst he
    have hnil : q.pop ([] : List (QE K)) = none := (hq.pop_none _ hq.ok_nil).mpr rfl
    rcases fuel with _ | _ | fuel
    · rcases hE with hE | hE
      · exact hE
      · omega
    · rcases hE with hE | hE
      · simp only [sweepLoop, wp_bind, wp_get, hp]
        simp [handleEvent, siteQE, handleSite, h2, hE]
      · omega
    · simp only [sweepLoop, wp_bind, wp_get, hp]
      simp [hnil, handleEvent, siteQE, handleSite, h2]

/-- After a diagram, the first half-edge of every border vertex separates the border from a site of that diagram. -/
theorem Stages.led {s0 s1 s2 : St K} {vs : List Nat} {V : Nat → Nat} {cell x : Nat}
    (hI : ∀ e < s0.d.heCnt, ∃ p < n, (s0.d.he e).incident = some p) (hx : n ≤ x)
    (h : Stages pts n poly false s0 s1 s2 s' vs V cell) : (∀ v ∈ vs, Led x s'.d v) ∧ s'.d.fe x = none ∧
      orderedVertices poly s'.d.vs s'.polyVerts = vs ∧ ∀ v ∈ vs, (s'.d.vs v).pos.isSome := by
  have hcu := h.cu
  simp only [Bool.false_eq_true, if_false] at hcu
  have hd2 : s'.d = s2.d := by rw [hcu]
  have hp2 : s'.polyVerts = s1.polyVerts := by rw [hcu, h.fp.eq]
  have hb := h.fp.binv
  have hpre := h.fp.pre
  have hinc : ∀ e < s1.d.heCnt, ∃ p < n, (s1.d.he e).incident = some p := by
    intro e he
    have h1 : (s1.d.he e).incident = (s0.d.he e).incident := h.fe.keeps.inc e
    have h2 : s1.d.heCnt = s0.d.heCnt := h.fe.keeps.heCnt
    rw [h1]
    exact hI e (by omega)
  obtain ⟨p0, hp0⟩ : ∃ p, (s1.d.vs (V 0)).pos = some p := by
    have := h.fp.V_eq 0 hpre.pos
    have hm := h.fp.perm.mem_iff.mp (List.mem_iff_getElem?.mpr ⟨0, this⟩)
    exact Option.isSome_iff_exists.mp (List.mem_filter.mp hm).2
  have hcell : cell < n := (h.fp.close p0 hp0).1
  have hnext : ∀ j < vs.length, ∀ c, (∃ p < n, c = some p) → ∃ p < n, nextCell s1.d (V j) c = some p := by
    intro j hj c hc
    unfold nextCell
    cases hh : (s1.d.vs (V j)).conn.head? with
    | none => obtain ⟨p, h1, h2⟩ := hc; exact ⟨p, h1, h2⟩
    | some e =>
      obtain ⟨_, t, ht, h2⟩ := hpre.lt j hj e hh
      simp only [h2]
      exact hinc t ht
  have hseq : ∀ j < vs.length, ∃ p < n, cellSeq s1.d V (some cell) j = some p := by
    intro j
    induction j with
    | zero => intro hj; exact hnext 0 hj _ ⟨cell, hcell, rfl⟩
    | succ j ih => intro hj; exact hnext (j + 1) hj _ (ih (by omega))
  refine ⟨?_, ?_, ?_, ?_⟩
  · intro v hv
    obtain ⟨j, hj⟩ := List.mem_iff_getElem?.mp hv
    have hjl : j < vs.length := (List.getElem?_eq_some_iff.mp hj).1
    rw [h.fp.V_eq j hjl] at hj
    cases hj
    rw [hd2]
    have hh := hb.head j hjl
    have hcn := hb.heCnt
    cases hd0 : hd s1.d (V j) with
    | some c =>
      rw [hd0] at hh
      obtain ⟨h1, t, h2, h3⟩ := hpre.lt j hjl c hd0
      obtain ⟨p, h4, h5⟩ := hinc t h2
      refine ⟨c, t, hh, by omega, by omega, by rw [hb.twin c h1]; exact h3, ?_⟩
      rw [hb.inc t h2, h5]
      intro hc; cases hc; omega
    | none =>
      rw [hd0] at hh
      by_cases hj0 : j = 0
      · subst hj0
        rw [if_pos rfl, if_pos hpre.pos] at hh
        have h1 := hb.newT 0 hpre.pos
        have h2 := hb.newE 0 hpre.pos
        refine ⟨_, _, hh, by omega, by omega, h2.1, ?_⟩
        simp only [Nat.mul_zero, Nat.add_zero] at h1 ⊢
        rw [h1.2.2]; simp
      · rw [if_neg hj0, if_pos (by omega)] at hh
        have h1 := hb.newT (j - 1) (by omega)
        have h2 := hb.newE (j - 1) (by omega)
        refine ⟨_, _, hh, by omega, by omega, h1.1, ?_⟩
        obtain ⟨p, h4, h5⟩ := hseq (j - 1) (by omega)
        rw [h2.2.2, h5]
        intro hc; cases hc; omega
  · rw [hd2]
    cases hf : s2.d.fe x with
    | none => rfl
    | some e =>
      exfalso
      rcases hb.feN x e hf with h1 | ⟨j, hj, _, h1⟩
      · obtain ⟨h2, h3⟩ := h.fe.ok.fe x e h1
        obtain ⟨p, h4, h5⟩ := hinc e h2
        have h3' : (s1.d.he e).incident = some x := h3
        rw [h5] at h3'; cases h3'; omega
      · obtain ⟨p, h4, h5⟩ := hseq j hj
        rw [h5] at h1; cases h1; omega
  · rw [hd2, hp2, h.fp.ord]
    unfold orderedVertices
    simp only [hb.pos]
  · intro v hv
    rw [hd2, hb.pos]
    exact (List.mem_filter.mp (h.fp.perm.mem_iff.mp hv)).2

theorem wp_shared {E : Err → Prop} (hq : q.Spec evLt ok) (hn : 0 < n) (hne : poly.points ≠ []) {fuel' x : Nat} (hx : n ≤ x)
    (hE : E .fuel ∨ 2 ≤ fuel') (hE' : E .arith ∨ GeoTot poly)
    (h : createDiagram pts q n fuel poly false (initSt poly) = .ok ((), s)) :
    Wp E (createDiagramOf pts q [x] fuel' poly false) (newVoronoi s) (fun _ s' => s'.d.fe x = none ∧ Foreign x s'.d s'.edges) := by
  obtain ⟨sr, s0, s1, s2, vs, V, cell, hr, hp, h0, hs, hst⟩ := createDiagram_stages hq hn hne h
  obtain ⟨L, hI⟩ := reach_inv hq hr
  obtain ⟨h1, h2, h3, h4⟩ := hst.led (x := x) (n := n) (fun e he => by
    rw [h0] at he ⊢
    obtain ⟨p, p1, p2⟩ := hI.dinv.inc e he
    obtain ⟨k, hk⟩ := Option.isSome_iff_exists.mp p2
    exact ⟨p, (hI.sinv.nmLt p k hk).2, p1⟩) hx
  have hdef : createDiagramOf pts q [x] fuel' poly false = (do
      (do initQueueOf pts q [x]; modify fun s => { s with nextName := 0 }; sweepLoop pts q fuel' : AM K Unit)
      (do notify .debug; notify .sweepFinished; finishEdgesSt pts poly; finishPolygonOf pts [x] poly
          whenDo false (cleanUp pts); notify .debug; notify .voronoiFinished)) := by
    unfold createDiagramOf
    simp only [bind_assoc]
  rw [hdef, wp_bind]
  refine wp_mono (wp_sweepOne hq hE rfl rfl) ?_
  rintro _ t ⟨t1, t2, t3, t4⟩
  have t1' : t.d = s.d := t1
  have t2' : t.polyVerts = s.polyVerts := t2
  have t3' : t.edges = [] := t3
  have t4' : t.verts = [] := t4
  simp only [wp_bind, wp_notify, finishEdgesSt, wp_get, t3', finishEdges, wp_pure, wp_modify, finishPolygonOf, t1', t2', h3]
  cases hvs : vs with
  | nil => exact absurd hvs hst.fp.ne
  | cons v0 l =>
    rw [hvs] at h1 h4
    obtain ⟨p0, hp0⟩ := Option.isSome_iff_exists.mp (h4 v0 (List.mem_cons_self ..))
    simp only [wp_bind, wp_zD, wp_rdV, wp_deref, t1', closestOf, wp_liftA]
    left
    refine ⟨p0, hp0, ?_, or_of_none (hE'.imp_right fun h => mapM_isSome fun i _ => h.dist _ _)⟩
    intro ds hds
    obtain ⟨k1, k2⟩ := mapM_some hds
    obtain ⟨y, rfl⟩ : ∃ y, ds = [y] := List.length_eq_one_iff.mp (by simpa using k1)
    obtain ⟨i, z, k3, k4, _⟩ := argmin_spec (l := [y]) (by simp)
    rw [k3]
    have hi : i = 0 := by
      have := (List.getElem?_eq_some_iff.mp k4).1
      simpa using this
    subst hi
    simp only [List.getElem?_cons_zero, wp_pure]
    refine wp_mono (wp_borderLed (x := x) _ _ _ ?_ ?_ ?_) ?_
    · intro v hv
      rcases List.mem_append.mp hv with hv | hv
      · exact h1 v hv
      · rw [List.mem_singleton] at hv; rw [hv]; exact h1 v0 (List.mem_cons_self ..)
    · exact h2
    · intro e he; cases he
    · rintro _ u ⟨u1, u2, u3, u4⟩
      have hv : u.verts = [] := by rw [u1]; exact t4'
      simp only [wp_get, hv, insideVerts, wp_pure, wp_modify, wp_whenDo, Bool.false_eq_true, false_implies, true_implies, true_and, wp_notify]
      exact ⟨u3, u4⟩

/-- C67: a polygon cannot be used for a second diagram.  After any diagram in the polygon, a second object made with the same polygon and one
new site gives this site no cell: its `first_edge` stays `None`, its `borders()` is empty, and no listed edge has the site on either side. -/
theorem C67_shared_polygon (hq : q.Spec evLt ok) (hn : 0 < n) (hne : poly.points ≠ []) {fuel' x : Nat} (hx : n ≤ x)
    (h : createDiagram pts q n fuel poly false (initSt poly) = .ok ((), s))
    (h' : createDiagramOf pts q [x] fuel' poly false (newVoronoi s) = .ok ((), s')) :
    (sitesOf pts [x] s').map (·.firstEdge) = [none] ∧ (∀ k, borders k x s'.d = .ok ([], s'.d)) ∧
    ∀ e ∈ s'.edges, (s'.d.he e).incident ≠ some x ∧ ∀ t, (s'.d.he e).twin = some t → (s'.d.he t).incident ≠ some x := by
  have hw := (wp_shared (E := fun _ => True) hq hn hne hx (Or.inl trivial) (Or.inl trivial) h).ok h'
  obtain ⟨h1, h2⟩ := hw
  refine ⟨by simp [sitesOf, h1], ?_, ?_⟩
  · intro k
    simp [borders, rdFE, h1, bind, StateT.bind, Except.bind, pure, StateT.pure, Except.pure]
  · intro e he
    obtain ⟨_, g1, t, _, g2, g3⟩ := h2 e he
    refine ⟨g1, ?_⟩
    intro t' ht'
    rw [g2] at ht'; cases ht'
    exact g3

/-- With exact arithmetic the second diagram is made, without an exception. -/
theorem C67_shared_polygon_runs {pts : Nat → ℝ × ℝ} {q : PQ (QE ℝ)} {ok : List (QE ℝ) → Prop} {poly : Poly ℝ} {s : St ℝ} (hq : q.Spec evLt ok)
    (hn : 0 < n) (hne : poly.points ≠ []) {fuel' x : Nat} (hx : n ≤ x) (hf : 2 ≤ fuel')
    (h : createDiagram pts q n fuel poly false (initSt poly) = .ok ((), s)) :
    ∃ s', createDiagramOf pts q [x] fuel' poly false (newVoronoi s) = .ok ((), s') := by
  have hw := wp_shared (E := fun _ => False) hq hn hne hx (Or.inr hf) (Or.inr (geoTot_real poly)) h
  unfold Wp at hw
  split at hw
  · rename_i a s' heq
    exact ⟨s', heq⟩
  · exact hw.elim

/-! ### Evaluation of two calls -/

def createDiagramOfF (pts : Nat → ℚ × ℚ) (q : PQ (QE ℚ)) (n : Nat) (sites : List Nat) (fuel : Nat) (poly : Poly ℚ) (removeZero : Bool) (s : St ℚ) :
    Except Err (Unit × St ℚ) :=
  thenF n (initQueueOf pts q sites s) fun _ s =>
  thenF n ((modify fun s => { s with nextName := 0 } : AM ℚ Unit) s) fun _ s =>
  thenF n (sweepLoopF pts q n fuel s) fun _ s =>
  thenF n ((notify .debug : AM ℚ Unit) s) fun _ s =>
  thenF n ((notify .sweepFinished : AM ℚ Unit) s) fun _ s =>
  thenF n (thenF n (finishEdgesF pts poly n s.edges s) fun r s => (modify fun s => { s with edges := r } : AM ℚ Unit) s) fun _ s =>
  thenF n (finishPolygonOf pts sites poly s) fun _ s =>
  thenF n (if removeZero then thenF n (cleanUpLoopF pts n s.edges s) fun r s => (modify fun s => { s with edges := r } : AM ℚ Unit) s
    else .ok ((), s)) fun _ s =>
  (do notify .debug; notify .voronoiFinished : AM ℚ Unit) s

theorem createDiagramOfF_eq (pts : Nat → ℚ × ℚ) (q : PQ (QE ℚ)) (n : Nat) (sites : List Nat) (fuel : Nat) (poly : Poly ℚ) (removeZero : Bool)
    (s : St ℚ) : createDiagramOfF pts q n sites fuel poly removeZero s = createDiagramOf pts q sites fuel poly removeZero s := by
  unfold createDiagramOfF createDiagramOf
  rw [thenF_eq]
  refine congrFun (congrArg (fun k => initQueueOf pts q sites >>= k) (?_ : _ = fun _ => _)) s
  funext _ s
  rw [thenF_eq]
  refine congrFun (congrArg (fun k => (modify fun s => { s with nextName := 0 } : AM ℚ Unit) >>= k) (?_ : _ = fun _ => _)) s
  funext _ s
  rw [sweepLoopF_eq, thenF_eq]
  refine congrFun (congrArg (fun k => sweepLoop pts q fuel >>= k) (?_ : _ = fun _ => _)) s
  funext _ s
  rw [thenF_eq]
  refine congrFun (congrArg (fun k => notify .debug >>= k) (?_ : _ = fun _ => _)) s
  funext _ s
  rw [thenF_eq]
  refine congrFun (congrArg (fun k => notify .sweepFinished >>= k) (?_ : _ = fun _ => _)) s
  funext _ s
  have h1 : (thenF n (finishEdgesF pts poly n s.edges s) fun r s => (modify fun s => { s with edges := r } : AM ℚ Unit) s) =
      finishEdgesSt pts poly s := by
    rw [finishEdgesF_eq, thenF_eq]; rfl
  rw [h1, thenF_eq]
  refine congrFun (congrArg (fun k => finishEdgesSt pts poly >>= k) (?_ : _ = fun _ => _)) s
  funext _ s
  rw [thenF_eq]
  refine congrFun (congrArg (fun k => finishPolygonOf pts sites poly >>= k) (?_ : _ = fun _ => _)) s
  funext _ s
  have h2 : (if removeZero then thenF n (cleanUpLoopF pts n s.edges s) fun r s => (modify fun s => { s with edges := r } : AM ℚ Unit) s
    else .ok ((), s)) = whenDo removeZero (cleanUp pts) s := by
    cases removeZero with
    | false => rfl
    | true =>
      show (thenF n (cleanUpLoopF pts n s.edges s) fun r s => (modify fun s => { s with edges := r } : AM ℚ Unit) s) = cleanUp pts s
      rw [cleanUpLoopF_eq, thenF_eq]; rfl
  rw [h2, thenF_eq]

theorem twoRuns {pts : Nat → ℚ × ℚ} {l1 l2 : List Nat} {n fuel : Nat} {poly : Poly ℚ} {rz : Bool} {f : St ℚ → St ℚ} {P : St ℚ → Prop}
    [DecidablePred P]
    (h : chk (thenF n (createDiagramOfF pts heapq n l1 fuel poly rz (initSt poly)) fun _ s => createDiagramOfF pts heapq n l2 fuel poly rz (f s))
      (fun _ s => decide (P s)) = true) :
    ∃ s s', createDiagramOf pts heapq l1 fuel poly rz (initSt poly) = .ok ((), s) ∧
      createDiagramOf pts heapq l2 fuel poly rz (f s) = .ok ((), s') ∧ P s' := by
  obtain ⟨a, s', h1, h2⟩ := chk_ok h
  rw [createDiagramOfF_eq] at h1
  cases hc : createDiagramOf pts heapq l1 fuel poly rz (initSt poly) with
  | error e => rw [hc] at h1; cases h1
  | ok v =>
    obtain ⟨u, s⟩ := v
    rw [hc] at h1
    unfold thenF at h1
    simp only [Frc.eq, createDiagramOfF_eq] at h1
    exact ⟨s, s', rfl, h1, of_decide_eq_true h2⟩

/-- The box `[0, 4] × [98, 102]`. -/
def reuseBox : Poly ℚ := match boundingBox 0 4 98 (102 : ℚ) with
  | .ok p => p
  | .error _ => exBox

def reusePts : Nat → ℚ × ℚ := ptsOf [(1, 100), (3, 100)]

def okVal {α : Type} : Except Err (α × Dcel ℚ) → Option α
  | .ok (a, _) => some a
  | .error _ => none

/-- C66: `create_diagram` must not be called twice on an object.  In the box `[0, 4] × [98, 102]`, a call with the site `(1, 100)` and then a
call on the same object with the site `(3, 100)`: the second diagram should be the box with one cell of area 16, but it lists an edge
between the new site and the site of the first call, which is no longer in `v.sites`, along `x = 2`, and the area of the only site is 4. -/
theorem C66_reused_object : ∃ s s', boundingBox 0 4 98 (102 : ℚ) = .ok reuseBox ∧
    createDiagramOf reusePts heapq [0] 40 reuseBox false (initSt reuseBox) = .ok ((), s) ∧
    createDiagramOf reusePts heapq [1] 40 reuseBox false s = .ok ((), s') ∧
    (∃ e ∈ s'.edges, (s'.d.he e).incident = some 1 ∧ ∃ t, (s'.d.he e).twin = some t ∧ (s'.d.he t).incident = some 0 ∧
      ∃ v w, (s'.d.he e).origin = .vtx v ∧ (s'.d.vs v).pos = some (2, 98) ∧ (s'.d.he t).origin = .vtx w ∧ (s'.d.vs w).pos = some (2, 102)) ∧
    okVal (area 40 1 s'.d) = some 4 := by
  obtain ⟨s, s', h1, h2, h3⟩ : ∃ s s', createDiagramOf reusePts heapq [0] 40 reuseBox false (initSt reuseBox) = .ok ((), s) ∧
      createDiagramOf reusePts heapq [1] 40 reuseBox false s = .ok ((), s') ∧
      (8 ∈ s'.edges ∧ (s'.d.he 8).incident = some 1 ∧ (s'.d.he 8).twin = some 9 ∧ (s'.d.he 9).incident = some 0 ∧
       (∃ v ∈ (match (s'.d.he 8).origin with | .vtx v => some v | .bp _ => none), (s'.d.vs v).pos = some (2, 98)) ∧
       (∃ v ∈ (match (s'.d.he 9).origin with | .vtx v => some v | .bp _ => none), (s'.d.vs v).pos = some (2, 102)) ∧
       okVal (area 40 1 s'.d) = some 4) := by
    apply twoRuns (n := 2) (f := fun s => s)
    decide +kernel
  have key : ∀ (o : Org) (v : Nat), v ∈ (match o with | .vtx v => some v | .bp _ => none) → o = .vtx v := by
    intro o v hv
    cases o with
    | vtx u => simp at hv; rw [hv]
    | bp b => simp at hv
  obtain ⟨a1, a2, a3, a4, ⟨v, a5, a6⟩, ⟨w, a7, a8⟩, a9⟩ := h3
  exact ⟨s, s', by decide +kernel, h1, h2, ⟨8, a1, a2, 9, a3, a4, v, w, key _ _ a5, a6, key _ _ a7, a8⟩, a9⟩

/-- On a new object with a new polygon the area is 16. -/
theorem C66_new_object : ∃ s', createDiagram (ptsOf [(3, 100)]) heapq 1 40 reuseBox false (initSt reuseBox) = .ok ((), s') ∧
    okVal (area 40 0 s'.d) = some 16 := by
  apply createRun
  decide +kernel

/-- C67, an instance with clean-up: the site `(1, 2)`, then a new object with the same box and the site `(3, 4)`.  The area of the new site is
0, and the cell of the site of the first diagram is no longer the box. -/
theorem C67_witness : ∃ s s', createDiagramOf (ptsOf [(1, 2), (3, 4)]) heapq [0] 40 exBox true (initSt exBox) = .ok ((), s) ∧
    createDiagramOf (ptsOf [(1, 2), (3, 4)]) heapq [1] 40 exBox true (newVoronoi s) = .ok ((), s') ∧
    okVal (area 40 1 s'.d) = some 0 ∧ okVal (area 40 0 s'.d) = some 200 := by
  apply twoRuns (n := 2) (f := newVoronoi)
  decide +kernel

/-- C67, an instance of the hypotheses of `C67_shared_polygon`. -/
theorem C67_instance : ∃ s s', createDiagram (ptsOf [(1, 2), (3, 4)]) heapq 1 40 exBox false (initSt exBox) = .ok ((), s) ∧
    createDiagramOf (ptsOf [(1, 2), (3, 4)]) heapq [1] 40 exBox false (newVoronoi s) = .ok ((), s') ∧ s'.edges.length = 4 := by
  have := twoRuns (pts := ptsOf [(1, 2), (3, 4)]) (l1 := List.range 1) (l2 := [1]) (fuel := 40) (poly := exBox) (rz := false) (n := 2) (f := newVoronoi)
    (P := fun s => s.edges.length = 4) (by decide +kernel)
  rw [createDiagramOf_range _ _ _ _ _ _ rfl] at this
  exact this

/-- C01, an instance: three sites given as whole numbers. -/
theorem C01_example : ∃ sites s', voronoi (fun x : Int => some (x : ℚ)) heapq [(0, 0), (4, 1), (1, 3)] 40 exBox true = .ok (sites, s') ∧
    sites.map (fun p => (p.xd, p.yd, p.name)) = [(0, 0, some 2), (4, 1, some 1), (1, 3, some 0)] := by
  obtain ⟨pts, hpts⟩ : ∃ pts : Nat → ℚ × ℚ, pts = fun i => ([(0, 0), (4, 1), (1, 3)] : List (ℚ × ℚ))[i]?.getD (lit 0, lit 0) := ⟨_, rfl⟩
  obtain ⟨s, h1, h2⟩ : ∃ s, createDiagram pts heapq 3 40 exBox true (initSt exBox) = .ok ((), s) ∧
      (s.names 0 = some 2 ∧ s.names 1 = some 1 ∧ s.names 2 = some 0) := by
    rw [hpts]
    apply createRun
    decide +kernel
  rw [← createDiagramOf_range pts heapq 3 40 exBox true rfl] at h1
  refine ⟨sitesOf pts (List.range 3) s, s, ?_, ?_⟩
  · unfold voronoi
    simp only [List.mapM_cons, List.mapM_nil, Option.bind_eq_bind, Option.bind_some, Option.pure_def, List.length_cons, List.length_nil,
      Int.cast_zero, Int.cast_ofNat, Int.cast_one]
    rw [← hpts, h1]
  · obtain ⟨a, b, c⟩ := h2
    have : List.range 3 = [0, 1, 2] := rfl
    rw [this]
    simp [sitesOf, a, b, c, hpts]

end Foronoi
