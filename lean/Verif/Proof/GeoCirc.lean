import Verif.Proof.GeoStep

/-!
# A circle event keeps the geometric invariant
-/

namespace Foronoi

open scoped List

variable {pts : Nat → Pt} {q : PQ (QE ℝ)} {ok : List (QE ℝ) → Prop} {n pc : Nat}

theorem killEv_keep {K : Type} {evs : Nat → CevR K} {o : Option Nat} {r : Nat} (h : o ≠ some r) : killEv evs o r = evs r := by
  cases o with
  | none => rfl
  | some c =>
    simp only [killEv]
    rw [Function.update_of_ne (by rintro rfl; exact h rfl)]

theorem GInv.circle {s s1 : St ℝ} {L L' : List (Item Dat)} {l : ℝ} {P : Place} {m u le ri tl tr ue re : Nat}
    (hI : Inv pts ok n pc s L) (hG : GInv pts s L l) (hq : q.Spec evLt ok)
    {e : QE ℝ} {rest : List (QE ℝ)} (hp : q.pop s.queue = some (e, rest)) (hc : e.circ = true) (_hv : (s.evs e.ref).valid = true)
    (hcev : (s.arcs P.a).cev = some e.ref)
    (hmk : mkEv pts P.n ((s.arcs P.a1).origin, (s.arcs P.a).origin, (s.arcs P.a3).origin) = some (s.evs e.ref))
    (hpre : CircPre s P le ri tl tr)
    (hs : CircNext pts q e.ref (circStart e rest s) L s1 L' P m u le ri tl tr ue re)
    (hI' : Inv pts ok n pc (stepEnd (.circle e.ref) s1) L') : GInv pts (stepEnd (.circle e.ref) s1) L' e.yd := by
  have hmin := hq.pop_min _ _ _ hI.qinv.ok hp
  have hperm := hq.pop_perm _ _ _ hI.qinv.ok hp
  have hmem : e ∈ s.queue := hperm.mem_iff.mpr (by simp)
  have hqe := hI.qinv.qe e hmem hc
  have hne' := hI.qinv.pop_ne hq hp
  obtain ⟨hle, hor⟩ := hG.next hI hq hp
  obtain ⟨log', _, heq⟩ := hs.eq
  have hL := hs.split
  have hb : BOk s.og s.pr s.arcCnt s.bpCnt L := hI.beach
  have hrest : ∀ f ∈ rest, f.yd ≤ e.yd := fun f hf => (evLt_false (hmin f hf)).1
  obtain ⟨hdet, hyd, hxd, hcen⟩ := mkEv_spec hmk e.ref
  simp only at hdet hyd hxd hcen
  rw [← hqe] at hyd hxd
  have horigs : origs s1.og L' = origs s.og P.pre ++ ([s.og P.a1, s.og P.a3] ++ origs s.og P.post) := hs.origs_eq
  have hAL : apts pts s L = apts pts s P.pre ++ pts (s.og P.a1) :: pts (s.og P.a) :: pts (s.og P.a3) :: apts pts s P.post := by
    rw [hL]; simp [apts, Place.list]
  have hA' : apts pts (stepEnd (.circle e.ref) s1) L' = apts pts s P.pre ++ pts (s.og P.a1) :: pts (s.og P.a3) :: apts pts s P.post := by
    show (origs s1.og L').map pts = _
    rw [horigs]; simp [apts]
  have hH : Handled pts (stepEnd (.circle e.ref) s1) = Handled pts s := by
    have : (stepEnd (.circle e.ref) s1).names = s.names := by
      show s1.names = _
      rw [heq]; exact checkAdd_names ..
    unfold Handled; rw [this]
  have hsw : (stepEnd (.circle e.ref) s1).sweep = some e.yd := by
    show s1.sweep = _
    rw [heq]; exact checkAdd_sweep ..
  have hd : (stepEnd (.circle e.ref) s1).d = circD s.d (s.evs e.ref).center u (s.arcs P.a1).origin (s.arcs P.a3).origin le ri tl tr ue re := by
    show s1.d = _
    rw [heq]; exact checkAdd_d ..
  have hdet' : det (pts (s.og P.a1)) (pts (s.og P.a)) (pts (s.og P.a3)) < 0 := hdet
  have hyd' : e.yd = cbot (pts (s.og P.a1)) (pts (s.og P.a)) (pts (s.og P.a3)) := hyd
  rcases hor with hE | ⟨_, hT⟩
  swap
  · exact absurd hdet' (hT.no_cw (by rw [hAL]; simp) (by rw [hAL]; simp) (by rw [hAL]; simp))
  have hE' := (hAL ▸ hE).circle hdet' hyd'.symm
  rw [← hA', ← hH] at hE'
  -- the centre
  obtain ⟨c1, c2, c3, c4, _⟩ := hE.circle_x hAL hdet' hyd'.symm
  obtain ⟨_, _, hz⟩ := hE.zero_cw hAL c1 (by rw [c3, c4])
  -- the queue
  have hQ0 : QInv pts ok (circStart e rest s) L := (hI.qinv.pop hq hp).congr rfl rfl rfl rfl rfl
  obtain ⟨s0, hs0⟩ : ∃ s0, s0 = circStart e rest s := ⟨_, rfl⟩
  have f1 : s0.arcs = s.arcs := by rw [hs0]; rfl
  have f2 : s0.arcCnt = s.arcCnt := by rw [hs0]; rfl
  have f3 : s0.queue = rest := by rw [hs0]; rfl
  have f4 : s0.evs = s.evs := by rw [hs0]; rfl
  have f5 : s0.og = s.og := by rw [hs0]; rfl
  have hlist := hs.list
  rw [← hs0] at hQ0 heq
  obtain ⟨sm, hsm⟩ : ∃ sm, sm = circMid s0 (s0.evs e.ref).center P.a1 P.a P.a3 u le ri tl tr ue re := ⟨_, rfl⟩
  rw [← hsm] at heq
  have hQm : QInv pts ok sm (P.rest m u) := by
    rw [hsm]
    refine circMid_qinv (c := e.ref) (hL ▸ hQ0) ?_ (by rw [f1]; exact hcev)
    intro f hf hfc
    rw [f3] at hf
    exact hne' f hf (by rw [hfc, hc])
  have hno1 : NoEv sm P.a1 := by rw [hsm]; exact circMid_noEv
  have m1 : sm.arcs = s.arcs := by rw [hsm, ← f1]; rfl
  have m2 : sm.arcCnt = s.arcCnt := by rw [hsm, ← f2]; rfl
  have m3 : sm.queue = rest := by rw [hsm, ← f3]; rfl
  have m4 : sm.evs = killEv (killEv s.evs (s.arcs P.a1).cev) (s.arcs P.a3).cev := by rw [hsm, ← f4, ← f1]; rfl
  have m5 : sm.og = s.og := by unfold St.og; rw [m1]
  have hne13 : P.a1 ≠ P.a3 := fun h => hpre.ne (by rw [h])
  have ha1 : P.a1 < s.arcCnt := hb.arc_lt (x := ⟨P.n1, true, .arc P.a1⟩) (by rw [hL]; simp [Place.list]) rfl
  rw [f5] at heq
  obtain ⟨k1, k2, k3⟩ := HasEv.checkAdd hQm hq (A := P.pre) (B := ⟨m, false, .bp u⟩ :: ⟨P.n3, true, .arc P.a3⟩ :: P.post)
    (n := P.n1) (m := 0) (al := P.a1) (ar := P.a3) (C := []) (D := []) (by simp [Place.rest]) (by rw [m2]; exact ha1) hne13 hno1
    (o := (tripleAt s.og (P.pre ++ [⟨P.n1, true, .arc P.a1⟩, ⟨m, false, .bp u⟩]) P.a3 P.post).bind (mkEv pts P.n3))
  rw [m5] at k1 k2 k3
  obtain ⟨sc, hsc⟩ : ∃ sc, sc = checkAdd q P.a1 P.a3
        ((tripleAt s.og P.pre P.a1 (⟨m, false, .bp u⟩ :: ⟨P.n3, true, .arc P.a3⟩ :: P.post)).bind (mkEv pts P.n1))
        ((tripleAt s.og (P.pre ++ [⟨P.n1, true, .arc P.a1⟩, ⟨m, false, .bp u⟩]) P.a3 P.post).bind (mkEv pts P.n3)) sm := ⟨_, rfl⟩
  rw [← hsc] at heq k1 k2 k3
  have hqueue : s1.queue = sc.queue := by rw [heq]
  have hevs : s1.evs = sc.evs := by rw [heq]
  have harcs : s1.arcs = sc.arcs := by rw [heq]
  have hog1 : s1.og = s.og := by
    rw [← m5]
    have : s1.og = sc.og := by unfold St.og; rw [harcs]
    rw [this, hsc]; exact checkAdd_og ..
  have toEv : ∀ x, HasEv sc x → HasEv (stepEnd (.circle e.ref) s1) x := by
    rintro x ⟨f, hf, hfc, hfv, hfa⟩
    refine ⟨f, ?_, hfc, ?_, ?_⟩
    · show f ∈ s1.queue; rw [hqueue]; exact hf
    · show (s1.evs f.ref).valid = true; rw [hevs]; exact hfv
    · show (s1.arcs x).cev = _; rw [harcs]; exact hfa
  have hsplitL : ∀ (Q R : List (Item Dat)) (m' x : Nat), L' = Q ++ ⟨m', true, .arc x⟩ :: R → ∀ t, tripleAt s.og Q x R = some t →
      ∃ B C, apts pts (stepEnd (.circle e.ref) s1) L' = B ++ pts t.1 :: pts t.2.1 :: pts t.2.2 :: C := by
    intro Q R m' x hL' t ht
    rw [← hog1] at ht
    obtain ⟨B, C, h⟩ := apts_triple (pts := pts) (s := stepEnd (.circle e.ref) s1) (m := m') ht
    exact ⟨B, C, by rw [← h, hL']⟩
  have spl1 : L' = P.pre ++ ⟨P.n1, true, .arc P.a1⟩ :: (⟨m, false, .bp u⟩ :: ⟨P.n3, true, .arc P.a3⟩ :: P.post) := by
    rw [hlist]; simp [Place.rest]
  have spl2 : L' = (P.pre ++ [⟨P.n1, true, .arc P.a1⟩, ⟨m, false, .bp u⟩]) ++ ⟨P.n3, true, .arc P.a3⟩ :: P.post := by
    rw [hlist]; simp [Place.rest]
  refine ⟨hsw, ?_, Or.inr hE', ?_, ?_⟩
  · intro f hf
    have hf' : f ∈ s1.queue := hf
    rw [hqueue, hsc] at hf'
    rcases checkAdd_mem hq hQm.ok hf' with h | ⟨ev, r, h5, h6⟩ | ⟨ev, r, h5, h6⟩
    · exact hrest f (by rw [← m3]; exact h)
    · obtain ⟨t, h7, h8⟩ := Option.bind_eq_some_iff.mp h5
      obtain ⟨h9, h10, _, _⟩ := mkEv_spec h8 r
      obtain ⟨B, C, h11⟩ := hsplitL _ _ _ _ spl1 t h7
      rw [h6, h10]
      exact (hE'.cw h11 h9).1
    · obtain ⟨t, h7, h8⟩ := Option.bind_eq_some_iff.mp h5
      obtain ⟨h9, h10, _, _⟩ := mkEv_spec h8 r
      obtain ⟨B, C, h11⟩ := hsplitL _ _ _ _ spl2 t h7
      rw [h6, h10]
      exact (hE'.cw h11 h9).1
  · intro Q m' x R t hL' ht hdue
    have ht' : tripleAt s.og Q x R = some t := by rw [← hog1]; exact ht
    rw [hH] at hdue
    have hold : x ≠ P.a1 → x ≠ P.a → x ≠ P.a3 → HasEv s x → HasEv (stepEnd (.circle e.ref) s1) x := by
      rintro hx1 hx2 hx3 ⟨f, hf, hfc, hfv, hfa⟩
      have hinj := hI.qinv.cevInj
      refine toEv x (k1 x hx1 hx3 ⟨f, ?_, hfc, ?_, ?_⟩)
      · rw [m3]
        rcases List.mem_cons.mp (hperm.mem_iff.mp hf) with rfl | hf
        · exact absurd (hinj _ _ _ hfa hcev) hx2
        · exact hf
      · rw [m4, killEv_keep (fun hh => hx3 (hinj _ _ _ hfa hh)), killEv_keep (fun hh => hx1 (hinj _ _ _ hfa hh))]
        exact hfv
      · rw [m1]; exact hfa
    have hlist' : P.pre ++ ([⟨P.n1, true, .arc P.a1⟩, ⟨m, false, .bp u⟩, ⟨P.n3, true, .arc P.a3⟩] ++ P.post) =
        Q ++ ⟨m', true, .arc x⟩ :: R := by rw [← hL', hlist]; rfl
    have hLl : L = P.pre ++ ([⟨P.n1, true, .arc P.a1⟩, ⟨P.m1, false, .bp P.b1⟩, ⟨P.n, true, .arc P.a⟩, ⟨P.m2, false, .bp P.b2⟩,
        ⟨P.n3, true, .arc P.a3⟩] ++ P.post) := hL
    have hother : (⟨m', true, .arc x⟩ : Item Dat) ∈ P.pre ++ P.post → x ≠ P.a1 ∧ x ≠ P.a ∧ x ≠ P.a3 := by
      intro hmm
      refine ⟨?_, ?_, ?_⟩
      · rintro rfl
        refine BOk.arc_ne (m := P.n1) (A := P.pre) (B := [⟨P.m1, false, .bp P.b1⟩, ⟨P.n, true, .arc P.a⟩, ⟨P.m2, false, .bp P.b2⟩,
          ⟨P.n3, true, .arc P.a3⟩] ++ P.post) (by rw [hLl] at hb; simpa using hb) (x := ⟨m', true, .arc P.a1⟩) ?_ rfl
        simp only [List.mem_append] at hmm ⊢
        tauto
      · rintro rfl
        refine BOk.arc_ne (m := P.n) (A := P.pre ++ [⟨P.n1, true, .arc P.a1⟩, ⟨P.m1, false, .bp P.b1⟩])
          (B := [⟨P.m2, false, .bp P.b2⟩, ⟨P.n3, true, .arc P.a3⟩] ++ P.post)
          (by rw [hLl] at hb; simpa using hb) (x := ⟨m', true, .arc P.a⟩) ?_ rfl
        simp only [List.mem_append] at hmm ⊢
        tauto
      · rintro rfl
        refine BOk.arc_ne (m := P.n3) (A := P.pre ++ [⟨P.n1, true, .arc P.a1⟩, ⟨P.m1, false, .bp P.b1⟩, ⟨P.n, true, .arc P.a⟩,
          ⟨P.m2, false, .bp P.b2⟩]) (B := P.post)
          (by rw [hLl] at hb; simpa using hb) (x := ⟨m', true, .arc P.a3⟩) ?_ rfl
        simp only [List.mem_append] at hmm ⊢
        tauto
    rcases split3 hlist' with ⟨M, hM1, hM2⟩ | hin | ⟨M, hM1, hM2⟩
    · have hmm : (⟨m', true, .arc x⟩ : Item Dat) ∈ P.pre := by rw [hM1]; simp
      obtain ⟨g1, g2, g3⟩ := hother (by simp [hmm])
      refine hold g1 g2 g3 ?_
      have htr : tripleAt s.og Q x (M ++ ([⟨P.n1, true, .arc P.a1⟩, ⟨P.m1, false, .bp P.b1⟩, ⟨P.n, true, .arc P.a⟩, ⟨P.m2, false, .bp P.b2⟩,
          ⟨P.n3, true, .arc P.a3⟩] ++ P.post)) = some t := by
        rw [← ht', hM2]
        exact tripleAt_pre (fun _ _ _ _ => rfl) rfl (by simp) (by simp)
      refine hG.nc Q m' x _ t ?_ htr hdue
      rw [hLl, hM1]; simp
    · simp only [List.mem_cons, Item.mk.injEq, Dat.arc.injEq, true_and, List.not_mem_nil, or_false,
        reduceCtorEq, and_false, false_or] at hin
      rcases hin with ⟨rfl, rfl⟩ | ⟨rfl, rfl⟩
      · obtain ⟨hQ, hR⟩ := hI'.beach.split_unique hL' spl1
        obtain ⟨ev, hev⟩ := mkEv_isSome (pts := pts) (m := P.n1) hdue.1
        refine toEv _ (k2 ev ?_)
        rw [← hQ, ← hR, ht']
        exact hev
      · obtain ⟨hQ, hR⟩ := hI'.beach.split_unique hL' spl2
        obtain ⟨ev, hev⟩ := mkEv_isSome (pts := pts) (m := P.n3) hdue.1
        have hre : (tripleAt s.og (P.pre ++ [⟨P.n1, true, .arc P.a1⟩, ⟨m, false, .bp u⟩]) P.a3 P.post).bind (mkEv pts P.n3) = some ev := by
          rw [← hQ, ← hR, ht']; exact hev
        refine toEv _ (k3 ev (mkEv_valid hev).1 ?_)
        rw [hre]
        cases hle' : (tripleAt s.og P.pre P.a1 (⟨m, false, .bp u⟩ :: ⟨P.n3, true, .arc P.a3⟩ :: P.post)).bind (mkEv pts P.n1) with
        | none => rfl
        | some lev =>
          simp only [dropRight]
          by_cases hdiff : eventsDiffer lev ev = true
          · rw [if_pos hdiff]
          exfalso
          obtain ⟨tl', h7, h8⟩ := Option.bind_eq_some_iff.mp hle'
          obtain ⟨l1, l2, l3, _⟩ := mkEv_spec h8 0
          obtain ⟨r1, r2, r3, _⟩ := mkEv_spec hev 0
          have heq2 : (cevQE lev 0).yd = (cevQE ev 0).yd ∧ (cevQE lev 0).xd = (cevQE ev 0).xd := by
            simpa [eventsDiffer, evEq] using hdiff
          have htr : ∃ k, (origs s.og P.post).head? = some k ∧ t = (s.og P.a1, s.og P.a3, k) := by
            rw [hQ, hR] at ht'
            unfold tripleAt at ht'
            have e1 : (origs s.og (P.pre ++ [⟨P.n1, true, .arc P.a1⟩, ⟨m, false, .bp u⟩])).getLast? = some (s.og P.a1) := by simp
            rw [e1] at ht'
            cases hh : (origs s.og P.post).head? with
            | none => rw [hh] at ht'; cases ht'
            | some k =>
              rw [hh] at ht'
              exact ⟨k, rfl, by simpa using ht'.symm⟩
          have htl : ∃ i, (origs s.og P.pre).getLast? = some i ∧ tl' = (i, s.og P.a1, s.og P.a3) := by
            unfold tripleAt at h7
            cases hh : (origs s.og P.pre).getLast? with
            | none => rw [hh] at h7; cases h7
            | some k =>
              rw [hh] at h7
              exact ⟨k, rfl, by simpa using h7.symm⟩
          obtain ⟨k, hk, rfl⟩ := htr
          obtain ⟨i, hi, rfl⟩ := htl
          obtain ⟨B, hB⟩ := List.getLast?_eq_some_iff.mp hi
          obtain ⟨C, hC⟩ := List.head?_eq_some_iff.mp hk
          have hfull : apts pts (stepEnd (.circle e.ref) s1) L' =
              B.map pts ++ pts i :: pts (s.og P.a1) :: pts (s.og P.a3) :: pts k :: C.map pts := by
            rw [hA']; unfold apts; rw [hB, hC]; simp
          rw [hfull] at hE'
          rw [← hH] at hdue
          simp only at l1 l2 l3 r1 r2 r3 hdue
          exact drop_circle hE' l1 r1 (by rw [← l2, ← r2]; exact heq2.1) (by rw [← l3, ← r3]; exact heq2.2) hdue
    · have hmm : (⟨m', true, .arc x⟩ : Item Dat) ∈ P.post := by rw [hM2]; simp
      obtain ⟨g1, g2, g3⟩ := hother (by simp [hmm])
      refine hold g1 g2 g3 ?_
      have htr : tripleAt s.og (P.pre ++ [⟨P.n1, true, .arc P.a1⟩, ⟨P.m1, false, .bp P.b1⟩, ⟨P.n, true, .arc P.a⟩, ⟨P.m2, false, .bp P.b2⟩,
          ⟨P.n3, true, .arc P.a3⟩] ++ M) x R = some t := by
        rw [← ht', hM1]
        exact tripleAt_post (fun _ _ _ _ => rfl) rfl (by simp) (by simp)
      refine hG.nc _ m' x R t ?_ htr hdue
      rw [hLl, hM2]; simp
  · -- the vertices
    intro f hf v p z ho hi hz'
    rw [hd] at hf ho hi hz'
    rw [hH]
    -- the pairs of the two breakpoints
    have hp1 : (s.bps P.b1).pair = ((s.arcs P.a1).origin, (s.arcs P.a).origin) := by
      have hb' := hb
      rw [hL] at hb'
      rcases BOk.post_cases (og := s.og) (pr := s.pr) (n := P.n1) (a := P.a1) (pre := P.pre) (post := ⟨P.m1, false, .bp P.b1⟩ :: ⟨P.n, true, .arc P.a⟩ ::
        ⟨P.m2, false, .bp P.b2⟩ :: ⟨P.n3, true, .arc P.a3⟩ :: P.post) (by simpa [Place.list] using hb') with hh | ⟨m', b', n', a', po, hh, hpr⟩
      · cases hh
      · simp only [List.cons.injEq, Item.mk.injEq, Dat.bp.injEq, Dat.arc.injEq, true_and] at hh
        obtain ⟨⟨_, rfl⟩, ⟨_, rfl⟩, _⟩ := hh
        exact hpr
    have hp2 : (s.bps P.b2).pair = ((s.arcs P.a).origin, (s.arcs P.a3).origin) := by
      have hb' := hb
      rw [hL] at hb'
      rcases BOk.post_cases (og := s.og) (pr := s.pr) (n := P.n) (a := P.a) (pre := P.pre ++ [⟨P.n1, true, .arc P.a1⟩, ⟨P.m1, false, .bp P.b1⟩])
        (post := ⟨P.m2, false, .bp P.b2⟩ :: ⟨P.n3, true, .arc P.a3⟩ :: P.post)
        (by simpa [Place.list] using hb') with hh | ⟨m', b', n', a', po, hh, hpr⟩
      · cases hh
      · simp only [List.cons.injEq, Item.mk.injEq, Dat.bp.injEq, Dat.arc.injEq, true_and] at hh
        obtain ⟨⟨_, rfl⟩, ⟨_, rfl⟩, _⟩ := hh
        exact hpr
    obtain ⟨le', ri', tl', tr', g1, g2, g3, g4, g5, g6, g7, g8, g9, g10, g11, g12, _⟩ := hI.dinv.pre (m1 := P.m1) (m2 := P.m2)
      (b1 := P.b1) (b2 := P.b2) (by rw [hL]; simp [Place.list]) (by rw [hL]; simp [Place.list]) hp1 hp2 hpre.ne
    rw [hpre.el, Option.some.injEq] at g1
    rw [hpre.er, Option.some.injEq] at g2
    subst g1; subst g2
    rw [hpre.twl, Option.some.injEq] at g3
    rw [hpre.twr, Option.some.injEq] at g4
    subst g3; subst g4
    have hltv : ∀ f < s.d.heCnt, ∀ v, (s.d.he f).origin = .vtx v → v < s.d.vCnt := by
      intro f hf v ho
      exact (hI.dinv.vts v (hI.dinv.ovt f hf v ho).1).2.1
    -- the new vertex
    obtain ⟨d1, d2, d3, d4⟩ := circ_spec hdet'.ne
    have hnew : ∀ p', (p' = (s.arcs P.a1).origin ∨ p' = (s.arcs P.a).origin ∨ p' = (s.arcs P.a3).origin) → z = (s.evs e.ref).center →
        ∃ m, e.yd ≤ m ∧ m ≤ z.2 ∧ dsq (pts p') z = (z.2 - m) ^ 2 ∧ ∀ c ∈ Handled pts s, 0 ≤ pw c m z := by
      intro p' hp' hz2
      have hz3 : z = (ccx (pts (s.og P.a1)) (pts (s.og P.a)) (pts (s.og P.a3)), ccy (pts (s.og P.a1)) (pts (s.og P.a)) (pts (s.og P.a3))) := by
        rw [hz2, hcen]
      refine ⟨e.yd, le_refl _, ?_, ?_, ?_⟩
      · rw [hz3, hyd']; exact d4
      · rw [hz3, hyd']
        rcases hp' with rfl | rfl | rfl
        · exact d1
        · exact d2
        · exact d3
      · intro c hc'
        rw [hz3, hz]
        exact hE.out hAL hc'
    have hnd := hpre.nd
    simp only [List.nodup_cons, List.mem_cons, List.not_mem_nil, or_false, not_or, List.nodup_nil, and_true] at hnd
    have hlt := hpre.lt
    simp only [List.mem_cons, List.not_mem_nil, or_false, forall_eq_or_imp, forall_eq] at hlt
    by_cases e1 : f = le
    · subst e1
      have e2 : (circD s.d (s.evs e.ref).center u (s.arcs P.a1).origin (s.arcs P.a3).origin f ri tl tr ue re).he f =
        { s.d.he f with origin := .vtx s.d.vCnt, prev := some tr } := by simp [circD]
      rw [e2] at ho hi
      simp only [Org.vtx.injEq] at ho
      subst ho
      simp only [g9, Option.some.injEq] at hi
      exact hnew p (Or.inr (Or.inl hi.symm)) (by simpa [circD] using hz'.symm)
    by_cases e2 : f = ri
    · subst e2
      have e2 : (circD s.d (s.evs e.ref).center u (s.arcs P.a1).origin (s.arcs P.a3).origin le f tl tr ue re).he f =
        { s.d.he f with origin := .vtx s.d.vCnt, prev := some s.d.heCnt } := by simp [circD, e1]
      rw [e2] at ho hi
      simp only [Org.vtx.injEq] at ho
      subst ho
      simp only [g11, Option.some.injEq] at hi
      exact hnew p (Or.inr (Or.inr hi.symm)) (by simpa [circD] using hz'.symm)
    by_cases e3 : f = s.d.heCnt + 1
    · subst e3
      have e2 : (circD s.d (s.evs e.ref).center u (s.arcs P.a1).origin (s.arcs P.a3).origin le ri tl tr ue re).he (s.d.heCnt + 1) =
        ⟨.vtx s.d.vCnt, some (s.arcs P.a1).origin, some s.d.heCnt, none, some tl⟩ := by
        simp only [circD]
        rw [if_neg (by omega), if_neg (by omega), if_neg (by omega), if_neg (by omega), if_neg (by omega), if_pos trivial]
      rw [e2] at ho hi
      simp only [Org.vtx.injEq] at ho
      subst ho
      simp only [Option.some.injEq] at hi
      exact hnew p (Or.inl hi.symm) (by simpa [circD] using hz'.symm)
    by_cases e4 : f = s.d.heCnt
    · subst e4
      exfalso
      have e2 : (circD s.d (s.evs e.ref).center u (s.arcs P.a1).origin (s.arcs P.a3).origin le ri tl tr ue re).he s.d.heCnt =
        ⟨.bp u, some (s.arcs P.a3).origin, some (s.d.heCnt + 1), some ri, none⟩ := by
        simp only [circD]
        rw [if_neg (by omega), if_neg (by omega), if_neg (by omega), if_neg (by omega), if_pos trivial]
      rw [e2] at ho
      cases ho
    · have hf' : f < s.d.heCnt := by simp only [circD] at hf; omega
      have ho' : (s.d.he f).origin = .vtx v := by
        rw [← ho]; simp only [circD]; rw [if_neg e1, if_neg e2]
        by_cases e5 : f = tl
        · subst e5; rw [if_pos rfl]
        rw [if_neg e5]
        by_cases e6 : f = tr
        · subst e6; rw [if_pos rfl]
        rw [if_neg e6, if_neg e4, if_neg e3]
      have hi' : (s.d.he f).incident = some p := by
        rw [← hi]; simp only [circD]; rw [if_neg e1, if_neg e2]
        by_cases e5 : f = tl
        · subst e5; rw [if_pos rfl]
        rw [if_neg e5]
        by_cases e6 : f = tr
        · subst e6; rw [if_pos rfl]
        rw [if_neg e6, if_neg e4, if_neg e3]
      have hv' := hltv f hf' v ho'
      have hz2 : (s.d.vs v).pos = some z := by
        rw [← hz']; simp only [circD]; rw [Function.update_of_ne (by omega)]
      obtain ⟨m', h1, h2, h3, h4⟩ := hG.vtx f hf' v p z ho' hi' hz2
      exact ⟨m', hle.trans h1, h2, h3, h4⟩

end Foronoi
