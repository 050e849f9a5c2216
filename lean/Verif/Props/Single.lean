import Verif.Props.Clip

/-!
# One site: the cell is the polygon (C32)
-/

namespace Foronoi

open scoped List

variable {K : Type} [LinearOrder K] [Arith K]

theorem mkPoly_ok {l : List (K × K)} {poly : Poly K} (h : mkPoly l = .ok poly) :
    poly.points ~ l ∧ poly.points.Pairwise (fun p r => orderKey poly.center p ≤ orderKey poly.center r) := by
  unfold mkPoly at h
  split at h
  · split at h
    · rename_i cx cy _ _
      cases h
      refine ⟨List.perm_insertionSort _ _, ?_⟩
      haveI : Std.Total (fun p r : K × K => orderKey (cx, cy) p ≤ orderKey (cx, cy) r) := ⟨fun a b => le_total _ _⟩
      haveI : IsTrans (K × K) (fun p r : K × K => orderKey (cx, cy) p ≤ orderKey (cx, cy) r) := ⟨fun a b c => le_trans⟩
      exact List.pairwise_insertionSort _ _
    · cases h
  · cases h

theorem mkPoly_ne {l : List (K × K)} {poly : Poly K} (h : mkPoly l = .ok poly) : poly.points ≠ [] := by
  have hp := (mkPoly_ok h).1
  rintro h0
  rw [h0] at hp
  have := hp.symm.eq_nil
  subst this
  simp [mkPoly, listMin] at h

/-- Sorting the corners again changes nothing. -/
theorem ordered_corners {poly : Poly K} {vs : Nat → VR K} (hs : poly.points.Pairwise (fun p r => orderKey poly.center p ≤ orderKey poly.center r))
    (hv : ∀ v < poly.points.length, (vs v).pos = poly.points[v]?) :
    orderedVertices poly vs (List.range poly.points.length) = List.range poly.points.length := by
  unfold orderedVertices
  simp only
  obtain ⟨dflt, hd⟩ : ∃ f : Nat → K × K, ∀ v < poly.points.length, poly.points[v]? = some (f v) := by
    classical
    refine ⟨fun v => if h : v < poly.points.length then poly.points[v] else poly.center, fun v hv => ?_⟩
    simp only [dif_pos hv]
    exact List.getElem?_eq_getElem hv
  have h1 : (List.range poly.points.length).filterMap (fun v => (vs v).pos.map fun p => (orderKey poly.center p, v)) =
      (List.range poly.points.length).map (fun v => (orderKey poly.center (dflt v), v)) := by
    rw [← List.filterMap_eq_map]
    refine List.filterMap_congr fun v hv' => ?_
    have hlt := List.mem_range.mp hv'
    rw [hv v hlt, hd v hlt]
    rfl
  rw [h1, List.Pairwise.insertionSort_eq]
  · rw [List.map_map]
    exact List.map_id _
  · rw [List.pairwise_map]
    refine List.Pairwise.imp_of_mem ?_ List.pairwise_lt_range
    intro a b ha hb hab
    have ha := List.mem_range.mp ha
    have hb := List.mem_range.mp hb
    have := List.pairwise_iff_getElem.mp hs a b ha hb hab
    have e1 := hd a ha
    have e2 := hd b hb
    rw [List.getElem?_eq_getElem ha] at e1
    rw [List.getElem?_eq_getElem hb] at e2
    rw [← Option.some.inj e1, ← Option.some.inj e2]
    exact this

/-- `borders` on a cycle of border edges. -/
theorem bordersLoop_cycle {d : Dcel K} {m : Nat} {B : Nat → Nat} (hm : 0 < m) (hinj : ∀ j < m, B j = B 0 → j = 0)
    (hn : ∀ j < m, (d.he (B j)).next = some (B ((j + 1) % m))) :
    ∀ (k j fuel : Nat) (acc : List Nat), j + k + 1 = m → k < fuel →
      bordersLoop (B 0) fuel (B j) acc d = .ok (acc ++ (List.range k).map (fun i => B (j + 1 + i)), d) := by
  intro k
  induction k with
  | zero =>
    intro j fuel acc hj hf
    obtain ⟨f, rfl⟩ : ∃ f, fuel = f + 1 := ⟨fuel - 1, by omega⟩
    have h1 : (d.he (B j)).next = some (B 0) := by
      rw [hn j (by omega)]
      have : j + 1 = m := by omega
      rw [this, Nat.mod_self]
    simp [bordersLoop, bind, StateT.bind, Except.bind, rdE, pure, StateT.pure, Except.pure, h1]
  | succ k ih =>
    intro j fuel acc hj hf
    obtain ⟨f, rfl⟩ : ∃ f, fuel = f + 1 := ⟨fuel - 1, by omega⟩
    have h1 : (d.he (B j)).next = some (B (j + 1)) := by
      rw [hn j (by omega), Nat.mod_eq_of_lt (by omega)]
    have h2 : B (j + 1) ≠ B 0 := by
      intro h
      have := hinj (j + 1) (by omega) h
      omega
    have h3 := ih (j + 1) f (acc ++ [B (j + 1)]) (by omega) (by omega)
    simp only [bordersLoop, bind, StateT.bind, Except.bind, rdE, h1, Option.some.injEq, h2, if_false]
    rw [h3, List.range_succ_eq_map, List.map_cons, List.map_map, List.append_assoc]
    simp only [List.singleton_append, Nat.add_zero]
    congr 4
    refine List.map_congr_left fun i _ => ?_
    simp only [Function.comp_def]
    congr 1
    omega

theorem cellVertices_go {d : Dcel K} : ∀ (bs vs : List Nat), bs.length = vs.length →
    (∀ (j b v : Nat), bs[j]? = some b → vs[j]? = some v → (d.he b).origin = .vtx v) → cellVertices.go bs d = .ok (vs, d) := by
  intro bs
  induction bs with
  | nil =>
    intro vs hl _
    have : vs = [] := List.length_eq_zero_iff.mp hl.symm
    subst this
    rfl
  | cons b bs ih =>
    intro vs hl h
    cases vs with
    | nil => cases hl
    | cons v vs =>
      have h0 := h 0 b v rfl rfl
      have h1 := ih vs (by simpa using hl) (fun j b v hb hv => h (j + 1) b v (by simpa using hb) (by simpa using hv))
      simp only [cellVertices.go, bind, StateT.bind, Except.bind, rdE, h1, h0]
      rfl

variable [ArithLaws K]
variable {pts : Nat → K × K} {q : PQ (QE K)} {ok : List (QE K) → Prop} {fuel : Nat} {poly : Poly K} {rz : Bool} {s' : St K}

/-- With one site the sweep makes no half-edge. -/
theorem single_sweep (hq : q.Spec evLt ok) {s0 : St K} (h : sweepAll pts q 1 fuel (initSt poly) = .ok ((), s0)) :
    s0.d.heCnt = 0 ∧ s0.edges = [] := by
  obtain ⟨sr, hr, hp, rfl⟩ := sweepAll_reach h
  obtain ⟨L, hI⟩ := reach_inv hq hr
  obtain ⟨_, h2⟩ := hI.done ((hq.pop_none _ hI.qinv.ok).mp hp)
  have h0 : sr.d.heCnt = 0 := by
    by_contra hne
    have hlt : 0 < sr.d.heCnt := Nat.pos_of_ne_zero hne
    obtain ⟨t, t1, t2, t3, t4⟩ := hI.dinv.tw 0 hlt
    obtain ⟨p, p1, p2⟩ := hI.dinv.inc 0 hlt
    obtain ⟨r, r1, r2⟩ := hI.dinv.inc t t2
    have hp0 := (h2 p).mp p2
    have hr0 := (h2 r).mp r2
    refine hI.dinv.incne 0 hlt t t1 ?_
    rw [p1, r1]
    congr 1
    omega
  refine ⟨h0, ?_⟩
  have := hI.dinv.ecnt
  have : sr.edges.length = 0 := by omega
  exact List.length_eq_zero_iff.mp this

/-- C32: for a single site `borders()` is the closed list of the sides of the polygon, in the order of its corners, all of this
site; `vertices()` are the corners. -/
theorem C32_single_site (hq : q.Spec evLt ok) {l : List (K × K)} (hpoly : mkPoly l = .ok poly) (hrz : rz = true → l.Nodup ∧ 2 ≤ l.length)
    (h : createDiagram pts q 1 fuel poly rz (initSt poly) = .ok ((), s')) {fuel' : Nat} (hf : l.length ≤ fuel') :
    ∃ bs vs, borders fuel' 0 s'.d = .ok (bs, s'.d) ∧ cellVertices fuel' 0 s'.d = .ok (vs, s'.d) ∧ s'.edges = bs ∧ bs.length = l.length ∧
      poly.points ~ l ∧ vs.map (fun v => (s'.d.vs v).pos) = poly.points.map some ∧ vs.Nodup ∧
      ∀ (j b : Nat), bs[j]? = some b → (s'.d.he b).incident = some 0 ∧
        (∃ v, vs[j]? = some v ∧ StartsAt s'.d b v) ∧ (∃ w, vs[(j + 1) % l.length]? = some w ∧ EndsAt s'.d b w) ∧
        (s'.d.he b).next = bs[(j + 1) % l.length]? := by
  obtain ⟨hperm, hsort⟩ := mkPoly_ok hpoly
  have hne := mkPoly_ne hpoly
  have hlen : poly.points.length = l.length := hperm.length_eq
  obtain ⟨sr, s0, s1, s2, vs, V, cell, hr, hp, h0, hs, hst⟩ := createDiagram_stages hq (by omega) hne h
  obtain ⟨L, hI⟩ := reach_inv hq hr
  have hc := reach_corner hq hr
  have hI0 : Inv pts ok 1 poly.points.length s0 L := by
    rw [h0]; exact ⟨hI.tree, hI.beach, { hI.qinv with }, { hI.sinv with }, hI.dinv, { hI.cinv with }⟩
  have hc0 : CornerInv poly s0 := by rw [h0]; exact ⟨hc.pv, hc.pos⟩
  obtain ⟨hcnt, hed⟩ := single_sweep hq hs
  have hs1 : { s1 with edges := s0.edges } = s0 := hst.fe.nil hed
  have hd1 : s1.d = s0.d := by have := congrArg (fun s : St K => s.d) hs1; exact this
  have hpv1 : s1.polyVerts = List.range poly.points.length := by have := congrArg (fun s : St K => s.polyVerts) hs1; exact this.trans hc0.pv
  have he1 : s1.edges = [] := by
    have := hst.fe.sub
    rw [hed] at this
    exact List.sublist_nil.mp this
  have hvs : vs = List.range poly.points.length := by
    rw [hst.fp.ord, hpv1]
    refine ordered_corners hsort ?_
    intro v hv
    rw [hd1]; exact hc0.pos v hv
  have hm : vs.length = l.length := by rw [hvs, List.length_range, hlen]
  have hmpos : 0 < vs.length := List.length_pos_iff.mpr hst.fp.ne
  have hcl := hst.fp.closes
  have hb := hst.fp.binv
  obtain ⟨B, hB⟩ : ∃ B : Nat → Nat, B = fun j => s1.d.heCnt + 2 * j + 1 := ⟨_, rfl⟩
  obtain ⟨bs, hbs⟩ : ∃ bs, bs = (List.range vs.length).map B := ⟨_, rfl⟩
  have hcl : ClosesBorder s1.d s2.d vs bs := by rw [hbs, hB]; exact hcl
  have hed2 : s2.edges = bs := by rw [hst.fp.eq, hbs, hB]; simp [he1]
  have hconn : ∀ v < poly.points.length, (s1.d.vs v).conn = [] := by
    intro v hv; rw [hd1]; exact hI0.dinv.poly v hv
  have hbj : ∀ j < vs.length, bs[j]? = some (B j) := by
    intro j hj
    rw [hbs, List.getElem?_map, List.getElem?_range hj]; rfl
  have hvj : ∀ j < vs.length, vs[j]? = some j := by
    intro j hj
    have : j < poly.points.length := by omega
    rw [hvs, List.getElem?_range this]
  have hnext : ∀ j < vs.length, (s2.d.he (B j)).next = some (B ((j + 1) % vs.length)) := by
    intro j hj
    have hlt : (j + 1) % vs.length < vs.length := Nat.mod_lt _ hmpos
    exact hcl.nextBorder j _ _ _ (hvj _ hlt) (hbj j hj) (hbj _ hlt) (hconn _ (by omega))
  have hinc : ∀ j < vs.length, (s2.d.he (B j)).incident = some 0 := by
    intro j hj
    have hcell : cell = 0 := by
      have hV0 : V 0 = 0 := by
        have := hst.fp.V_eq 0 hmpos
        rw [hvj 0 hmpos] at this
        exact (Option.some.inj this).symm
      have hp0 : (s1.d.vs (V 0)).pos = poly.points[0]? := by
        rw [hV0, hd1]; exact hc0.pos 0 (by omega)
      rw [List.getElem?_eq_getElem (by omega : 0 < poly.points.length)] at hp0
      have := (hst.fp.close _ hp0).1
      omega
    have hnc : ∀ i < vs.length, ∀ x, nextCell s1.d (V i) x = x := by
      intro i hi x
      have hVi : V i = i := by
        have := hst.fp.V_eq i hi
        rw [hvj i hi] at this
        exact (Option.some.inj this).symm
      unfold nextCell
      rw [hVi, hconn i (by omega)]
      rfl
    have hseq : ∀ i < vs.length, cellSeq s1.d V (some cell) i = some 0 := by
      intro i
      induction i with
      | zero => intro hi; rw [cellSeq, hnc 0 hi, hcell]
      | succ i ih => intro hi; rw [cellSeq, hnc _ hi]; exact ih (by omega)
    have := (hb.newE j hj).2.2
    rw [hB]
    rw [this]
    exact hseq j hj
  have hfe0 : s1.d.fe 0 = none := by
    cases hfe : s1.d.fe 0 with
    | none => rfl
    | some e =>
      rw [hd1] at hfe
      have := (hI0.dinv.fe 0 e hfe).1
      omega
  have hfe : s2.d.fe 0 = some (B 0) := by
    have hcs : cellSeq s1.d V (some cell) 0 = some 0 := by
      rw [← (hb.newE 0 hmpos).2.2]
      have := hinc 0 hmpos
      rw [hB] at this
      exact this
    rw [hb.fe0 0 hmpos hfe0 hcs, hB]
  have hinj : ∀ j < vs.length, B j = B 0 → j = 0 := by
    intro j _ hj
    rw [hB] at hj
    simp only at hj
    omega
  -- the clean-up finds nothing to remove
  have hfin : s'.d = s2.d ∧ s'.edges = s2.edges := by
    have hcu := hst.cu
    cases rz with
    | false =>
      simp only [Bool.false_eq_true, if_false] at hcu
      constructor <;> rw [hcu]
    | true =>
      simp only [if_true] at hcu
      obtain ⟨hnd, h2⟩ := hrz rfl
      have hnd' : poly.points.Nodup := hperm.nodup_iff.mpr hnd
      have hall : ∀ e ∈ s2.edges, e ∈ s'.edges := by
        intro e he
        refine (hcu.kept e he).mpr ?_
        intro t ht
        rw [hed2, hbs] at he
        obtain ⟨j, hj, rfl⟩ := List.mem_map.mp he
        have hj := List.mem_range.mp hj
        have hlt : (j + 1) % vs.length < vs.length := Nat.mod_lt _ hmpos
        have hst1 := hcl.start j _ _ (hvj j hj) (hbj j hj)
        obtain ⟨t', ht', hst2⟩ := hcl.stop j _ _ (hvj _ hlt) (hbj j hj)
        rw [ht] at ht'
        obtain rfl := Option.some.inj ht'
        rw [opos_vtx hst1, opos_vtx hst2, hcl.keepPos, hcl.keepPos, hd1, hc0.pos _ (by omega), hc0.pos _ (by omega)]
        intro hh
        rw [List.getElem?_eq_getElem (by omega), List.getElem?_eq_getElem (by omega)] at hh
        have := (List.Nodup.getElem_inj_iff hnd').mp (Option.some.inj hh)
        rcases Nat.lt_or_ge (j + 1) vs.length with h5 | h5
        · rw [Nat.mod_eq_of_lt h5] at this; omega
        · have h6 : j + 1 = vs.length := by omega
          rw [h6, Nat.mod_self] at this; omega
      have hre : s'.edges = s2.edges := by
        refine hcu.sub.eq_of_length_le ?_
        exact (List.subperm_of_subset hst.nodup hall).length_le
      refine ⟨?_, hre⟩
      have := congrArg (fun s : St K => s.d) (hcu.id hre)
      exact this
  rw [hfin.1, hfin.2]
  have hbord : borders fuel' 0 s2.d = .ok (bs, s2.d) := by
    have := bordersLoop_cycle hmpos hinj hnext (vs.length - 1) 0 fuel' [B 0] (by omega) (by omega)
    unfold borders
    simp only [bind, StateT.bind, Except.bind, rdFE, hfe]
    rw [this]
    congr 2
    rw [hbs]
    obtain ⟨k, hk⟩ : ∃ k, vs.length = k + 1 := ⟨vs.length - 1, by omega⟩
    rw [hk, List.range_succ_eq_map, List.map_cons, List.map_map]
    simp only [Nat.add_sub_cancel, List.singleton_append]
    congr 1
    refine List.map_congr_left fun i _ => ?_
    simp only [Function.comp_def]
    congr 1
    omega
  refine ⟨bs, vs, hbord, ?_, hed2, by rw [hbs]; simp [hm], hperm, ?_, by rw [hvs]; exact List.nodup_range, ?_⟩
  · have hgo := cellVertices_go (d := s2.d) bs vs (by rw [hbs]; simp) (fun j b v hb' hv => hcl.start j v b hv hb')
    unfold cellVertices
    simp only [bind, StateT.bind, Except.bind, hbord]
    exact hgo
  · rw [hvs]
    refine List.ext_getElem? fun j => ?_
    rw [List.getElem?_map, List.getElem?_map]
    rcases Nat.lt_or_ge j poly.points.length with h5 | h5
    · rw [List.getElem?_range h5, List.getElem?_eq_getElem h5]
      simp only [Option.map_some]
      rw [hcl.keepPos, hd1, hc0.pos j h5, List.getElem?_eq_getElem h5]
    · rw [List.getElem?_eq_none (by simpa using h5), List.getElem?_eq_none (by simpa using h5)]
      rfl
  · intro j b hb'
    have hj : j < vs.length := by
      by_contra hge
      rw [List.getElem?_eq_none (by rw [hbs]; simp; omega)] at hb'
      cases hb'
    have hbB := hbj j hj
    rw [hb'] at hbB
    obtain rfl := Option.some.inj hbB
    have hlt : (j + 1) % vs.length < vs.length := Nat.mod_lt _ hmpos
    rw [← hm]
    refine ⟨hinc j hj, ⟨j, hvj j hj, hcl.start j _ _ (hvj j hj) hb'⟩, ⟨_, hvj _ hlt, hcl.stop j _ _ (hvj _ hlt) hb'⟩, ?_⟩
    rw [hnext j hj, hbj _ hlt]

end Foronoi
