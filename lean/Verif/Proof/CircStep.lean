import Verif.Proof.SiteStep

/-!
# `handle_circle_event` as a step on the beach line
-/

namespace Foronoi

variable {K : Type} [LinearOrder K] [Arith K] {E : Err → Prop}

/-- Everything a circle event changes outside of the tree, before `_check_circles`: arc `a` disappears between `a1` and
`a3`; `u` is the remaining breakpoint; `le`, `ri` are the edges of the left and right breakpoint with twins `tl`, `tr`. -/
def circMid (s : St K) (center : K × K) (a1 a a3 u le ri tl tr ue re : Nat) : St K :=
  { s with
    arcSet := s.arcSet.erase a
    evs := killEv (killEv s.evs (s.arcs a1).cev) (s.arcs a3).cev
    bps := Function.update s.bps u ⟨((s.arcs a1).origin, (s.arcs a3).origin), some s.d.heCnt⟩
    d := circD s.d center u (s.arcs a1).origin (s.arcs a3).origin le ri tl tr ue re
    verts := s.d.vCnt :: s.verts
    edges := s.edges ++ [s.d.heCnt + 1] }

/-- The place of an arc with its two neighbours. -/
structure Place where
  pre : List (Item Dat)
  post : List (Item Dat)
  n1 : Nat
  a1 : Nat
  m1 : Nat
  b1 : Nat
  n : Nat
  a : Nat
  m2 : Nat
  b2 : Nat
  n3 : Nat
  a3 : Nat

/-- The beach line around the place. -/
def Place.list (P : Place) : List (Item Dat) :=
  P.pre ++ ([⟨P.n1, true, .arc P.a1⟩, ⟨P.m1, false, .bp P.b1⟩, ⟨P.n, true, .arc P.a⟩, ⟨P.m2, false, .bp P.b2⟩,
    ⟨P.n3, true, .arc P.a3⟩] ++ P.post)

/-- The beach line without the arc; `(m, u)` is the remaining breakpoint. -/
def Place.rest (P : Place) (m u : Nat) : List (Item Dat) :=
  P.pre ++ ([⟨P.n1, true, .arc P.a1⟩, ⟨m, false, .bp u⟩, ⟨P.n3, true, .arc P.a3⟩] ++ P.post)

/-- The effect of a circle event `c`. -/
structure CircNext (pts : Nat → K × K) (q : PQ (QE K)) (c : Nat) (s : St K) (L : List (Item Dat)) (s' : St K)
    (L' : List (Item Dat)) (P : Place) (m u le ri tl tr ue re : Nat) : Prop where
  split : L = P.list
  ptr : (s.evs c).arcPtr = P.n
  upd : (m = P.m1 ∧ u = P.b1 ∧ ue = le ∧ re = ri) ∨ (m = P.m2 ∧ u = P.b2 ∧ ue = ri ∧ re = le)
  eq : ∃ log', DebugOnly s.log log' ∧ s' = {
      checkAdd q P.a1 P.a3
        ((tripleAt s.og P.pre P.a1 (⟨m, false, .bp u⟩ :: ⟨P.n3, true, .arc P.a3⟩ :: P.post)).bind (mkEv pts P.n1))
        ((tripleAt s.og (P.pre ++ [⟨P.n1, true, .arc P.a1⟩, ⟨m, false, .bp u⟩]) P.a3 P.post).bind (mkEv pts P.n3))
        (circMid s (s.evs c).center P.a1 P.a P.a3 u le ri tl tr ue re) with
    ns := s'.ns
    root := s'.root
    log := log' }
  list : L' = P.rest m u
  tree : TreeOk s'.ns s'.root L'

/-- The facts about half-edges a circle event relies on. -/
structure CircPre (s : St K) (P : Place) (le ri tl tr : Nat) : Prop where
  el : (s.bps P.b1).edge = some le
  er : (s.bps P.b2).edge = some ri
  twl : (s.d.he le).twin = some tl
  twr : (s.d.he ri).twin = some tr
  nd : [le, ri, tl, tr].Nodup
  lt : ∀ e ∈ [le, ri, tl, tr], e < s.d.heCnt
  ne : (s.arcs P.a1).origin ≠ (s.arcs P.a3).origin

/-- Searching a breakpoint of a pair stored in the tree finds it. -/
theorem wp_findBp {pts : Nat → K × K} {s : St K} {t : T Dat} {p x m b : Nat}
    (hsw : s.sweep.isSome) (hroot : s.root = some t.id) (ht : TOk s.ns t)
    (hm : (⟨m, false, .bp b⟩ : Item Dat) ∈ t.io) (hp : (s.bps b).pair = (p, x))
    (huniq : ∀ y ∈ t.io, ∀ b', y.d = .bp b' → (s.bps b').pair = (p, x) → y.id = m)
    (hK : E .arith ∨ ∀ x ∈ t.io, ∀ l, s.sweep = some l → (keyOf pts s.bps s.arcs l x.d).isSome) :
    Wp E (findBp pts p x) s (fun r s' => r = some m ∧ s' = s) := by
  obtain ⟨l, hl⟩ := Option.isSome_iff_exists.mp hsw
  simp only [findBp, wp_bind, wp_get, wp_deref]
  refine Or.inl ⟨l, hl, ?_⟩
  simp only [wp_liftA, wp_zT]
  rw [hroot]
  have hdep := ht.depth
  refine ⟨fun qk hqk => ?_, fun hqk => ?_⟩
  · refine wp_mono (wp_findValue ht.repr (show t.depth < s.ns.cnt + 1 by omega) ?_ ?_) ?_
    · rcases hK with h | h
      · exact Or.inr h
      · exact Or.inl fun a ha => h a ha l hl
    · intro a ha hc
      cases had : a.d with
      | arc a' => rw [had] at hc; simp at hc
      | bp b' =>
        rw [had] at hc
        simp only [decide_eq_true_eq] at hc
        right
        simp only [keyOf, hc]
        exact hqk
    · rintro r ns' ⟨rfl, hr⟩
      refine ⟨?_, by rw [← hroot]⟩
      rcases hr with ⟨y, hy, hc, rfl⟩ | ⟨hno, _⟩
      · cases had : y.d with
        | arc a' => rw [had] at hc; simp at hc
        | bp b' =>
          rw [had] at hc
          simp only [decide_eq_true_eq] at hc
          rw [huniq y hy b' had hc]
      · have := hno _ hm
        simp only [hp, decide_eq_false_iff_not, not_true_eq_false] at this
  · rcases hK with h | h
    · exact h
    · have := h _ hm l hl
      simp only [keyOf, hp] at this
      rw [hqk] at this
      cases this

theorem wp_updateBreakpoints {pts : Nat → K × K} {s : St K} {P : Place}
    (ht : TreeOk s.ns s.root P.list) (hb : BOk s.og s.pr s.arcCnt s.bpCnt P.list) (hsw : s.sweep.isSome)
    (hK : E .arith ∨ ∀ x ∈ P.list, ∀ l, s.sweep = some l → (keyOf pts s.bps s.arcs l x.d).isSome) :
    Wp E (updateBreakpoints pts P.n (some P.n1) (some P.n3)) s (fun r s' => ∃ m u rem ns' t',
      ((m = P.m1 ∧ u = P.b1 ∧ rem = P.b2) ∨ (m = P.m2 ∧ u = P.b2 ∧ rem = P.b1)) ∧
      r = some (u, rem, P.b1, P.b2) ∧
      s' = { s with ns := ns', root := some t'.id,
                    bps := Function.update s.bps u { s.bps u with pair := ((s.arcs P.a1).origin, (s.arcs P.a3).origin) } } ∧
      TOk ns' t' ∧ t'.io = P.rest m u) := by
  obtain ⟨hi, ⟨_, hnil⟩ | ⟨t, hroot, htok, hio⟩⟩ := ht
  · simp [Place.list] at hnil
  have hsplit : t.io = (P.pre ++ [⟨P.n1, true, .arc P.a1⟩, ⟨P.m1, false, .bp P.b1⟩]) ++ ⟨P.n, true, .arc P.a⟩ ::
      (⟨P.m2, false, .bp P.b2⟩ :: ⟨P.n3, true, .arc P.a3⟩ :: P.post) := by
    rw [hio]; simp [Place.list]
  obtain ⟨cx, hcx, hcL, hcR⟩ := leaf_zipper htok.nd hsplit
  have hpr1 : (s.bps P.b1).pair = ((s.arcs P.a1).origin, (s.arcs P.a).origin) := by
    have h' := hb
    have : P.list = (P.pre ++ [⟨P.n1, true, .arc P.a1⟩]) ++ ⟨P.m1, false, .bp P.b1⟩ :: (⟨P.n, true, .arc P.a⟩ ::
      ⟨P.m2, false, .bp P.b2⟩ :: ⟨P.n3, true, .arc P.a3⟩ :: P.post) := by simp [Place.list]
    rw [this] at h'
    obtain ⟨q1, n, a, n', a', q2, e1, e2, e3⟩ := h'.bp_cases
    have := List.append_inj' e1 rfl
    simp only [List.cons.injEq, Item.mk.injEq, Dat.arc.injEq, true_and, and_true] at this e2
    rw [← this.2.2, ← e2.1.2] at e3
    exact e3
  have hpr2 : (s.bps P.b2).pair = ((s.arcs P.a).origin, (s.arcs P.a3).origin) := by
    have h' := hb
    have : P.list = (P.pre ++ [⟨P.n1, true, .arc P.a1⟩, ⟨P.m1, false, .bp P.b1⟩] ++ [⟨P.n, true, .arc P.a⟩]) ++
      ⟨P.m2, false, .bp P.b2⟩ :: (⟨P.n3, true, .arc P.a3⟩ :: P.post) := by simp [Place.list]
    rw [this] at h'
    obtain ⟨q1, n, a, n', a', q2, e1, e2, e3⟩ := h'.bp_cases
    have := List.append_inj' e1 rfl
    simp only [List.cons.injEq, Item.mk.injEq, Dat.arc.injEq, true_and, and_true] at this e2
    rw [← this.2.2, ← e2.1.2] at e3
    exact e3
  -- a pair occurs once
  have huq : ∀ m b, (⟨m, false, .bp b⟩ : Item Dat) ∈ P.list → ∀ y ∈ P.list, ∀ b', y.d = .bp b' →
      (s.bps b').pair = (s.bps b).pair → y.id = m := by
    intro m b hm y hy b' hyd hpp
    obtain ⟨A, B, hAB⟩ := List.append_of_mem hm
    obtain ⟨A', B', hAB'⟩ := List.append_of_mem hy
    obtain ⟨yi, yf, yd⟩ := y
    simp only at hyd
    subst hyd
    have hyf : yf = false := by
      rcases hb.kind _ hy with ⟨a, _, h1, _⟩ | ⟨b, h0, _⟩
      · cases h1
      · exact h0
    subst hyf
    exact (hb.pair_unique hAB' hAB hpp).1
  have hdat : ∀ x ∈ P.list, ∀ ns', DataSame s.ns ns' → (ns'.n x.id).data = x.d := by
    intro x hx ns' hd
    exact htok.data hd (by rw [hio]; exact hx)
  have hmem1 : (⟨P.n1, true, .arc P.a1⟩ : Item Dat) ∈ P.list := by simp [Place.list]
  have hmem : (⟨P.n, true, .arc P.a⟩ : Item Dat) ∈ P.list := by simp [Place.list]
  have hmem3 : (⟨P.n3, true, .arc P.a3⟩ : Item Dat) ∈ P.list := by simp [Place.list]
  have hmemb1 : (⟨P.m1, false, .bp P.b1⟩ : Item Dat) ∈ P.list := by simp [Place.list]
  have hmemb2 : (⟨P.m2, false, .bp P.b2⟩ : Item Dat) ∈ P.list := by simp [Place.list]
  have hsub1 : ∀ x ∈ P.rest P.m1 P.b1, x ∈ P.list := by
    intro x hx; simp only [Place.rest, Place.list, List.mem_append, List.mem_cons] at hx ⊢; tauto
  have hsub2 : ∀ x ∈ P.rest P.m2 P.b2, x ∈ P.list := by
    intro x hx; simp only [Place.rest, Place.list, List.mem_append, List.mem_cons] at hx ⊢; tauto
  have hnd := htok.nd
  have hreprt := htok.repr
  rw [← hcx] at hnd hreprt
  have hlc := wp_isLeftChild (E := E) (s := s.ns) (c := cx) (t := .leaf P.n (.arc P.a)) hreprt hnd
  simp only [T.id] at hlc
  unfold updateBreakpoints
  rw [wp_bind, wp_zT]
  refine wp_mono hlc ?_
  rintro b ns0 ⟨rfl, rfl⟩
  cases cx with
  | nil => simp [ioL] at hcL
  | cons f cx =>
    obtain ⟨hR1, hR2⟩ := (repr_plug _ _ _).mp hreprt
    have hpar := hR1.parent_eq
    simp only [T.id] at hpar
    cases f with
    | L i d r =>
      simp only [ioL, ioR] at hcL hcR
      simp only [List.cons_append, List.cons.injEq, Item.mk.injEq, true_and] at hcR
      obtain ⟨⟨rfl, rfl⟩, hcR⟩ := hcR
      simp only [ctxPar] at hpar
      simp only [ReprC] at hR2
      obtain ⟨_, _, g3, _, g5, g6⟩ := hR2
      simp only [if_true, wp_bind, wp_zT, wp_rd, hpar, wp_deref, Option.some.injEq, exists_eq_left', reduceCtorEq,
        false_and, or_false, g3]
      have hpl : plug cx (.node P.m2 (.bp P.b2) (.leaf P.n (.arc P.a)) r) = t := hcx
      have hids : t.ids = idsL cx ++ (P.n :: P.m2 :: r.ids) ++ idsR cx := by
        rw [← hpl, ids_plug]; simp [T.ids]
      have hnd' := htok.nd
      rw [hids] at hnd'
      refine wp_mono (wp_replaceLeafSt (c := cx) (t := .node P.m2 (.bp P.b2) (.leaf P.n (.arc P.a)) r) (t2 := r)
        (p := some P.m2) ?_ ?_ g5 ?_ ?_ ?_ ?_ htok.hinv) ?_
      · rw [hpl]; exact htok.repr
      · rw [hpl]; exact hroot
      · rw [hpl]; exact htok.nd
      · rw [ids_plug]; grind
      · intro j hj; refine htok.lt j ?_; rw [ids_plug] at hj; rw [hids]; grind
      · simp only [T.id]; grind
      rintro _ s1 ⟨ns1, rfl, hd1, htok1⟩
      have hio1 : (plug cx r).io = P.rest P.m1 P.b1 := by
        rw [io_plug, hcL]
        have : r.io ++ ioR cx = ⟨P.n3, true, .arc P.a3⟩ :: P.post := hcR
        rw [List.append_assoc, this]
        simp [Place.rest]
      have hpd := hdat _ hmemb2 ns1 hd1
      simp only at hpd
      rw [wp_bpOf (b := P.b2) (by exact hpd)]
      simp only [wp_get, Option.some.injEq, exists_eq_left', reduceCtorEq, false_and, or_false]
      refine wp_mono (wp_balanceSt (c := []) (t := plug cx r) (by exact htok1)) ?_
      rintro _ s2 ⟨ns2, t2, rfl, hd2, htok2, hio2⟩
      simp only [plug] at hio2
      have hd : DataSame s.ns ns2 := hd1.trans hd2
      have e1 := hdat _ hmem1 ns2 hd
      have e2 := hdat _ hmem ns2 hd
      have e3 := hdat _ hmem3 ns2 hd
      have e4 := hdat _ hmemb1 ns2 hd
      simp only at e1 e2 e3 e4
      rw [wp_originOf (a := P.a1) (by exact e1), wp_originOf (a := P.a) (by exact e2)]
      have hio2' : t2.io = P.rest P.m1 P.b1 := by rw [hio2, hio1]
      refine wp_mono (wp_findBp (t := t2) (m := P.m1) (b := P.b1) hsw rfl (by exact htok2) ?_ hpr1 ?_ ?_) ?_
      · rw [hio2']; simp [Place.rest]
      · intro y hy b' hyd hpp
        rw [hio2'] at hy
        exact huq _ _ hmemb1 y (hsub1 y hy) b' hyd (hpp.trans hpr1.symm)
      · refine hK.imp id fun h x hx l hl => h x (hsub1 x (by rw [← hio2']; exact hx)) l hl
      rintro _ s3 ⟨rfl, rfl⟩
      simp only [wp_bind]
      rw [wp_bpOf (b := P.b1) (by exact e4)]
      simp only [wp_deref, Option.some.injEq, exists_eq_left', reduceCtorEq, false_and, or_false]
      rw [wp_originOf (a := P.a3) (by exact e3)]
      simp only [wp_updBp, wp_pure]
      refine ⟨P.m1, P.b1, P.b2, ns2, t2, Or.inl ⟨rfl, rfl, rfl⟩, rfl, ?_, htok2, hio2'⟩
      rw [hpr1]
    | R i d r =>
      simp only [ioL, ioR] at hcL hcR
      have hcL' := List.append_inj' (s₁ := ioL cx ++ r.io) (t₁ := [⟨i, false, d⟩])
        (s₂ := P.pre ++ [⟨P.n1, true, .arc P.a1⟩]) (t₂ := [⟨P.m1, false, .bp P.b1⟩]) (by rw [hcL]; simp) rfl
      simp only [List.cons.injEq, Item.mk.injEq, true_and, and_true] at hcL'
      obtain ⟨hcL1, rfl, rfl⟩ := hcL'
      simp only [ctxPar] at hpar
      simp only [ReprC] at hR2
      obtain ⟨_, g3, _, _, g5, g6⟩ := hR2
      simp only [Bool.false_eq_true, if_false, wp_bind, wp_zT, wp_rd, hpar, wp_deref, Option.some.injEq, exists_eq_left', reduceCtorEq,
        false_and, or_false, g3]
      have hpl : plug cx (.node P.m1 (.bp P.b1) r (.leaf P.n (.arc P.a))) = t := hcx
      have hids : t.ids = idsL cx ++ (r.ids ++ [P.m1, P.n]) ++ idsR cx := by
        rw [← hpl, ids_plug]; simp [T.ids]
      have hnd' := htok.nd
      rw [hids] at hnd'
      refine wp_mono (wp_replaceLeafSt (c := cx) (t := .node P.m1 (.bp P.b1) r (.leaf P.n (.arc P.a))) (t2 := r)
        (p := some P.m1) ?_ ?_ g5 ?_ ?_ ?_ ?_ htok.hinv) ?_
      · rw [hpl]; exact htok.repr
      · rw [hpl]; exact hroot
      · rw [hpl]; exact htok.nd
      · rw [ids_plug]; grind
      · intro j hj; refine htok.lt j ?_; rw [ids_plug] at hj; rw [hids]; grind
      · simp only [T.id]; grind
      rintro _ s1 ⟨ns1, rfl, hd1, htok1⟩
      have hio1 : (plug cx r).io = P.rest P.m2 P.b2 := by
        rw [io_plug, hcL1, hcR]
        simp [Place.rest]
      have hpd := hdat _ hmemb1 ns1 hd1
      simp only at hpd
      rw [wp_bpOf (b := P.b1) (by exact hpd)]
      simp only [wp_get, Option.some.injEq, exists_eq_left', reduceCtorEq, false_and, or_false]
      refine wp_mono (wp_balanceSt (c := []) (t := plug cx r) (by exact htok1)) ?_
      rintro _ s2 ⟨ns2, t2, rfl, hd2, htok2, hio2⟩
      simp only [plug] at hio2
      have hd : DataSame s.ns ns2 := hd1.trans hd2
      have e1 := hdat _ hmem1 ns2 hd
      have e2 := hdat _ hmem ns2 hd
      have e3 := hdat _ hmem3 ns2 hd
      have e4 := hdat _ hmemb2 ns2 hd
      simp only at e1 e2 e3 e4
      rw [wp_originOf (a := P.a) (by exact e2), wp_originOf (a := P.a3) (by exact e3)]
      have hio2' : t2.io = P.rest P.m2 P.b2 := by rw [hio2, hio1]
      refine wp_mono (wp_findBp (t := t2) (m := P.m2) (b := P.b2) hsw rfl (by exact htok2) ?_ hpr2 ?_ ?_) ?_
      · rw [hio2']; simp [Place.rest]
      · intro y hy b' hyd hpp
        rw [hio2'] at hy
        exact huq _ _ hmemb2 y (hsub2 y hy) b' hyd (hpp.trans hpr2.symm)
      · refine hK.imp id fun h x hx l hl => h x (hsub2 x (by rw [← hio2']; exact hx)) l hl
      rintro _ s3 ⟨rfl, rfl⟩
      simp only [wp_bind]
      rw [wp_bpOf (b := P.b2) (by exact e4)]
      simp only [wp_deref, Option.some.injEq, exists_eq_left', reduceCtorEq, false_and, or_false]
      rw [wp_originOf (a := P.a1) (by exact e1)]
      simp only [wp_updBp, wp_pure]
      refine ⟨P.m2, P.b2, P.b1, ns2, t2, Or.inr ⟨rfl, rfl, rfl⟩, rfl, ?_, htok2, hio2'⟩
      rw [hpr2]

theorem wp_removeNeighbour {s : St K} {n a : Nat} (h : (s.ns.n n).data = .arc a) {Q : Unit → St K → Prop}
    (hQ : ∀ log', DebugOnly s.log log' → Q () { s with evs := killEv s.evs (s.arcs a).cev, log := log' }) :
    Wp E (removeNeighbour n) s Q := by
  simp only [removeNeighbour, wp_bind]
  rw [wp_arcOf h]
  simp only [wp_get, wp_optDo, wp_bind, wp_notify, wp_removeEv]
  refine ⟨fun c hc => ?_, fun hc => ?_⟩
  · have := hQ (s.log ++ [.debug]) (DebugOnly.snoc (.refl _))
    rw [hc] at this
    exact this
  · have := hQ s.log (.refl _)
    rw [hc] at this
    exact this

theorem wp_handleCircle {pts : Nat → K × K} {q : PQ (QE K)} {c : Nat} {s : St K} {P : Place} {le ri tl tr : Nat}
    (ht : TreeOk s.ns s.root P.list) (hb : BOk s.og s.pr s.arcCnt s.bpCnt P.list) (hptr : (s.evs c).arcPtr = P.n)
    (hD : CircPre s P le ri tl tr) (hsw : s.sweep.isSome)
    (hK : E .arith ∨ ∀ x ∈ P.list, ∀ l, s.sweep = some l → (keyOf pts s.bps s.arcs l x.d).isSome)
    (hC : E .arith ∨ ∀ p q r, (createCircle (pts p) (pts q) (pts r)).isSome) :
    Wp E (handleCircle pts q c) s (fun _ s' => ∃ L' m u ue re,
      CircNext pts q c s P.list s' L' P m u le ri tl tr ue re) := by
  obtain ⟨hi, ⟨_, hnil⟩ | ⟨t, hroot, htok, hio⟩⟩ := id ht
  · simp [Place.list] at hnil
  have hsplit : t.io = (P.pre ++ [⟨P.n1, true, .arc P.a1⟩, ⟨P.m1, false, .bp P.b1⟩]) ++ ⟨P.n, true, .arc P.a⟩ ::
      (⟨P.m2, false, .bp P.b2⟩ :: ⟨P.n3, true, .arc P.a3⟩ :: P.post) := by
    rw [hio]; simp [Place.list]
  have hdn := htok.repr.data (x := ⟨P.n, true, .arc P.a⟩) (by rw [hsplit]; simp)
  simp only at hdn
  have hlen := htok.len
  simp only [handleCircle, wp_bind, wp_get, hptr]
  rw [wp_arcOf hdn]
  simp only [wp_modify, wp_treeFuel, wp_zT]
  refine wp_mono (wp_predecessor htok.repr htok.nd hsplit (by omega)) ?_
  rintro pred ns1 ⟨rfl, rfl⟩
  refine wp_mono (wp_successor htok.repr htok.nd hsplit (by omega)) ?_
  rintro succ ns1 ⟨rfl, rfl⟩
  have hpred : (second (P.pre ++ [⟨P.n1, true, .arc P.a1⟩, (⟨P.m1, false, .bp P.b1⟩ : Item Dat)]).reverse).map (·.id) = some P.n1 := by
    simp [second]
  have hsucc : (second ((⟨P.m2, false, .bp P.b2⟩ : Item Dat) :: ⟨P.n3, true, .arc P.a3⟩ :: P.post)).map (·.id) = some P.n3 := by
    simp [second]
  rw [hpred, hsucc]
  refine wp_mono (wp_updateBreakpoints (P := P) (by exact ht) (by exact hb) hsw (by exact hK)) ?_
  rintro _ s2 ⟨m, u, rem, ns2, t2, hmu, rfl, rfl, htok2, hio2⟩
  have hd1 := htok2.repr.data (x := ⟨P.n1, true, .arc P.a1⟩) (by rw [hio2]; simp [Place.rest])
  have hd3 := htok2.repr.data (x := ⟨P.n3, true, .arc P.a3⟩) (by rw [hio2]; simp [Place.rest])
  simp only at hd1 hd3
  simp only [wp_bind, wp_deref, Option.some.injEq, exists_eq_left', reduceCtorEq, false_and, or_false]
  refine wp_removeNeighbour (by exact hd1) fun log1 hlog1 => ?_
  refine wp_removeNeighbour (by exact hd3) fun log2 hlog2 => ?_
  have hlog := hlog1.trans hlog2
  simp only at hlog
  have hb1b2 : P.b1 ≠ P.b2 := by
    have := hb.nd
    intro h
    simp [Place.list, h] at this
    grind
  obtain ⟨ue, re, hue⟩ : ∃ ue re, (m = P.m1 ∧ u = P.b1 ∧ rem = P.b2 ∧ ue = le ∧ re = ri) ∨
      (m = P.m2 ∧ u = P.b2 ∧ rem = P.b1 ∧ ue = ri ∧ re = le) := by
    rcases hmu with ⟨h1, h2, h3⟩ | ⟨h1, h2, h3⟩
    · exact ⟨le, ri, Or.inl ⟨h1, h2, h3, rfl, rfl⟩⟩
    · exact ⟨ri, le, Or.inr ⟨h1, h2, h3, rfl, rfl⟩⟩
  refine wp_circleEdges (p := (s.arcs P.a1).origin) (q := (s.arcs P.a3).origin) (le := le) (ri := ri) (tl := tl) (tr := tr)
    (ue := ue) (re := re) ?_ ?_ ?_ ?_ (by exact hD.twl) (by exact hD.twr) hD.nd (by exact hD.lt) ?_
  · rcases hue with ⟨_, h2, h3, h4, h5⟩ | ⟨_, h2, h3, h4, h5⟩
    · exact Or.inl ⟨h2.symm, h3.symm, h4.symm, h5.symm⟩
    · exact Or.inr ⟨h3.symm, h2.symm, h5.symm, h4.symm⟩
  · simp
  · rcases hue with ⟨_, h2, h3, h4, h5⟩ | ⟨_, h2, h3, h4, h5⟩
    · rw [h4, h2]; simpa using hD.el
    · rw [h4, h2]; simpa using hD.er
  · rcases hue with ⟨_, h2, h3, h4, h5⟩ | ⟨_, h2, h3, h4, h5⟩
    · rw [h5, h3, h2]
      simp only [Function.update_of_ne hb1b2.symm]; exact hD.er
    · rw [h5, h3, h2]
      simp only [Function.update_of_ne hb1b2]; exact hD.el
  simp only [Function.update_self, Function.update_idem]
  have hs1 : t2.io = P.pre ++ ⟨P.n1, true, .arc P.a1⟩ :: (⟨m, false, .bp u⟩ :: ⟨P.n3, true, .arc P.a3⟩ :: P.post) := by
    rw [hio2]; simp [Place.rest]
  have hs2 : t2.io = (P.pre ++ [⟨P.n1, true, .arc P.a1⟩, ⟨m, false, .bp u⟩]) ++ ⟨P.n3, true, .arc P.a3⟩ :: P.post := by
    rw [hio2]; simp [Place.rest]
  have hlen2 := htok2.len
  have hb2 : BOk s.og (circMid s (s.evs c).center P.a1 P.a P.a3 u le ri tl tr ue re).pr s.arcCnt s.bpCnt t2.io := by
    rw [hio2]
    refine hb.remove (m := m) (b := u) ?_ ?_ ?_ hD.ne
    · rcases hmu with ⟨h1, h2, _⟩ | ⟨h1, h2, _⟩
      · exact Or.inl ⟨h1, h2⟩
      · exact Or.inr ⟨h1, h2⟩
    · intro x hx; simp [St.pr, circMid, Function.update_of_ne hx]
    · simp [St.pr, circMid]
  have hcnt : t2.ids.length ≤ s.ns.cnt + 1 := by
    have h2 : t2.ids.length ≤ t.ids.length := by
      rw [T.ids_eq, T.ids_eq, List.length_map, List.length_map, hio2, hio]
      simp [Place.rest, Place.list]
    omega
  simp only [wp_zT]
  refine wp_mono (wp_predecessor htok2.repr htok2.nd hs1 (by exact hcnt)) ?_
  rintro na ns4 ⟨rfl, rfl⟩
  refine wp_mono (wp_successor htok2.repr htok2.nd hs1 (by exact hcnt)) ?_
  rintro nc ns4 ⟨rfl, rfl⟩
  refine wp_mono (wp_predecessor htok2.repr htok2.nd hs2 (by exact hcnt)) ?_
  rintro nd ns4 ⟨rfl, rfl⟩
  refine wp_mono (wp_successor htok2.repr htok2.nd hs2 (by exact hcnt)) ?_
  rintro nf ns4 ⟨rfl, rfl⟩
  have hchk := wp_checkCircles (E := E) (pts := pts) (q := q)
    (s := { circMid s (s.evs c).center P.a1 P.a P.a3 u le ri tl tr ue re with ns := ns4, root := some t2.id, log := log2 })
    htok2.repr hb2 hs1 hs2 hC
  refine wp_mono hchk ?_
  rintro _ s5 ⟨log', rfl, hlog'⟩
  refine ⟨P.rest m u, m, u, ue, re, rfl, hptr, ?_, ⟨log', hlog.trans hlog', ?_⟩, rfl,
    by simpa [checkAdd] using htok2.hinv, Or.inr ⟨t2, ?_, ?_, hio2⟩⟩
  · rcases hue with ⟨h1, h2, h3, h4, h5⟩ | ⟨h1, h2, h3, h4, h5⟩
    · exact Or.inl ⟨h1, h2, h4, h5⟩
    · exact Or.inr ⟨h1, h2, h4, h5⟩
  · have hca : ∀ x y, checkAdd q P.a1 P.a3 x y { circMid s (s.evs c).center P.a1 P.a P.a3 u le ri tl tr ue re with ns := ns4, root := some t2.id, log := log2 }
          = { checkAdd q P.a1 P.a3 x y (circMid s (s.evs c).center P.a1 P.a P.a3 u le ri tl tr ue re) with ns := ns4, root := some t2.id, log := log2 } := by
      intro x y
      unfold checkAdd
      cases x <;> cases dropRight (_) y <;> rfl
    rw [hca]
    rfl
  · simp [checkAdd]
  · simpa [checkAdd] using htok2

end Foronoi
