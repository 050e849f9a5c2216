import Verif.Proof.Steps

/-!
# The half-edge records written by an event
-/

namespace Foronoi

variable {K : Type} {E : Err → Prop}

@[simp] theorem wp_rdE (e : Nat) (s : Dcel K) (Q : HE → Dcel K → Prop) : Wp E (rdE e) s Q ↔ Q (s.he e) s := Iff.rfl

@[simp] theorem wp_rdV (v : Nat) (s : Dcel K) (Q : VR K → Dcel K → Prop) : Wp E (rdV v) s Q ↔ Q (s.vs v) s := Iff.rfl

@[simp] theorem wp_rdFE (p : Nat) (s : Dcel K) (Q : Option Nat → Dcel K → Prop) : Wp E (rdFE p) s Q ↔ Q (s.fe p) s := Iff.rfl

@[simp] theorem wp_setFE (p : Nat) (o : Option Nat) (s : Dcel K) (Q : Unit → Dcel K → Prop) :
    Wp E (setFE p o) s Q ↔ Q () { s with fe := Function.update s.fe p o } := Iff.rfl

@[simp] theorem wp_updE (e : Nat) (f : HE → HE) (s : Dcel K) (Q : Unit → Dcel K → Prop) :
    Wp E (updE e f) s Q ↔ Q () { s with he := Function.update s.he e (f (s.he e)) } := Iff.rfl

@[simp] theorem wp_updV (e : Nat) (f : VR K → VR K) (s : Dcel K) (Q : Unit → Dcel K → Prop) :
    Wp E (updV e f) s Q ↔ Q () { s with vs := Function.update s.vs e (f (s.vs e)) } := Iff.rfl

@[simp] theorem wp_newV (p : Option (K × K)) (s : Dcel K) (Q : Nat → Dcel K → Prop) :
    Wp E (newV p) s Q ↔ Q s.vCnt { s with vs := Function.update s.vs s.vCnt ⟨p, []⟩, vCnt := s.vCnt + 1 } := Iff.rfl

@[simp] theorem wp_appendConn (v e : Nat) (s : Dcel K) (Q : Unit → Dcel K → Prop) :
    Wp E (appendConn v e) s Q ↔
      Q () { s with vs := Function.update s.vs v { s.vs v with conn := (s.vs v).conn ++ [e] } } := Iff.rfl

theorem wp_updE' {e : Nat} {f : HE → HE} {s : Dcel K} {Q : Unit → Dcel K → Prop}
    (h : ∀ h', h' e = f (s.he e) → (∀ j, j ≠ e → h' j = s.he j) → Q () { s with he := h' }) :
    Wp E (updE e f) s Q := by
  rw [wp_updE]
  exact h _ (by simp) (fun j hj => by simp [Function.update_of_ne hj])

theorem wp_setNext' {e f : Nat} {s : Dcel K} {Q : Unit → Dcel K → Prop} (hne : e ≠ f)
    (h : ∀ h', h' e = { s.he e with next := some f } → h' f = { s.he f with prev := some e } →
      (∀ j, j ≠ e → j ≠ f → h' j = s.he j) → Q () { s with he := h' }) :
    Wp E (setNext e (some f)) s Q := by
  simp only [setNext, optDo, wp_bind, wp_updE]
  refine h _ ?_ ?_ ?_
  · simp [Function.update_of_ne hne]
  · simp [Function.update_of_ne hne.symm]
  · intro j h1 h2; simp [Function.update_of_ne h1, Function.update_of_ne h2]

theorem wp_newHE_none {i : Option Nat} {o : Org} {s : Dcel K} {Q : Nat → Dcel K → Prop}
    (h : ∀ h', h' s.heCnt = ⟨o, i, none, none, none⟩ → (∀ j, j ≠ s.heCnt → h' j = s.he j) →
      Q s.heCnt { s with he := h', heCnt := s.heCnt + 1 }) :
    Wp E (newHE i none o) s Q := by
  refine h _ ?_ ?_
  · simp
  · intro j hj; simp [Function.update_of_ne hj]

theorem wp_newHE_some {i : Option Nat} {t : Nat} {o : Org} {s : Dcel K} {Q : Nat → Dcel K → Prop} (ht : t ≠ s.heCnt)
    (h : ∀ h', h' s.heCnt = ⟨o, i, some t, none, none⟩ → h' t = { s.he t with twin := some s.heCnt } →
      (∀ j, j ≠ s.heCnt → j ≠ t → h' j = s.he j) →
      Q s.heCnt { s with he := h', heCnt := s.heCnt + 1 }) :
    Wp E (newHE i (some t) o) s Q := by
  refine h _ ?_ ?_ ?_
  · simp [Function.update_of_ne ht.symm]
  · simp [Function.update_of_ne ht]
  · intro j h1 h2; simp [Function.update_of_ne h1, Function.update_of_ne h2]

/-- `p.first_edge = p.first_edge or e` -/
def initF (fe : Nat → Option Nat) (p e : Nat) : Nat → Option Nat :=
  if (fe p).isSome then fe else Function.update fe p (some e)

@[simp] theorem wp_initFE (p e : Nat) (s : Dcel K) (Q : Unit → Dcel K → Prop) :
    Wp E (initFE p e) s Q ↔ Q () { s with fe := initF s.fe p e } := by
  simp only [initFE, wp_bind, wp_rdFE, initF]
  cases s.fe p <;> simp

/-- The DCEL after `newSiteEdges`. -/
def siteD (d : Dcel K) (bl br pj pi : Nat) : Dcel K :=
  { d with
    he := Function.update (Function.update d.he d.heCnt ⟨.bp bl, some pi, some (d.heCnt + 1), none, none⟩)
      (d.heCnt + 1) ⟨.bp br, some pj, some d.heCnt, none, none⟩
    heCnt := d.heCnt + 2
    fe := initF (initF d.fe pi d.heCnt) pj (d.heCnt + 1) }

variable [LinearOrder K] [Arith K]

theorem wp_newSiteEdges {s : St K} {bl br pj pi : Nat} (hb : bl ≠ br) {Q : Unit → St K → Prop}
    (h : Q () { s with
      d := siteD s.d bl br pj pi
      bps := Function.update (Function.update s.bps bl { s.bps bl with edge := some s.d.heCnt }) br
        { s.bps br with edge := some (s.d.heCnt + 1) }
      edges := s.edges ++ [s.d.heCnt] }) :
    Wp E (newSiteEdges bl br pj pi) s Q := by
  simp only [newSiteEdges, wp_bind, wp_zD]
  refine wp_newHE_none fun h1 a1 r1 => ?_
  simp only [wp_updBp]
  refine wp_newHE_some (s := { s.d with he := h1, heCnt := s.d.heCnt + 1 }) (by simp) fun h2 a2 b2 r2 => ?_
  simp only [wp_modify, wp_initFE]
  simp only at a2 b2 r2
  have hh : h2 = (siteD s.d bl br pj pi).he := by
    funext j
    simp only [siteD, Function.update_apply]
    by_cases g1 : j = s.d.heCnt + 1
    · rw [if_pos g1, g1, a2]
    rw [if_neg g1]
    by_cases g2 : j = s.d.heCnt
    · rw [if_pos g2, g2, b2, a1]
    · rw [if_neg g2, r2 j g1 g2, r1 j g2]
  rw [hh, Function.update_of_ne hb.symm]
  exact h

/-- The DCEL after `circleEdges`: `le`, `ri` the edges of the left and right breakpoint with twins `tl`, `tr`;
`u` the remaining breakpoint with new pair `(p, q)`; `ue`, `re` are `le`, `ri` in the order of updated and removed
breakpoint. -/
def circD (d : Dcel K) (center : K × K) (u p q le ri tl tr ue re : Nat) : Dcel K :=
  { d with
    he := fun e =>
      if e = le then { d.he le with origin := .vtx d.vCnt, prev := some tr }
      else if e = ri then { d.he ri with origin := .vtx d.vCnt, prev := some d.heCnt }
      else if e = tl then { d.he tl with next := some (d.heCnt + 1) }
      else if e = tr then { d.he tr with next := some le }
      else if e = d.heCnt then ⟨.bp u, some q, some (d.heCnt + 1), some ri, none⟩
      else if e = d.heCnt + 1 then ⟨.vtx d.vCnt, some p, some d.heCnt, none, some tl⟩
      else d.he e
    heCnt := d.heCnt + 2
    vs := Function.update d.vs d.vCnt ⟨some center, [ue, re, d.heCnt + 1]⟩
    vCnt := d.vCnt + 1 }

theorem wp_circleEdges {s : St K} {center : K × K} {u r lf rg p q le ri tl tr ue re : Nat}
    (hlr : (lf = u ∧ rg = r ∧ le = ue ∧ ri = re) ∨ (lf = r ∧ rg = u ∧ le = re ∧ ri = ue)) (hpr : (s.bps u).pair = (p, q))
    (hu : (s.bps u).edge = some ue) (hr : (s.bps r).edge = some re)
    (htl : (s.d.he le).twin = some tl) (htr : (s.d.he ri).twin = some tr)
    (hnd : [le, ri, tl, tr].Nodup) (hlt : ∀ e ∈ [le, ri, tl, tr], e < s.d.heCnt)
    {Q : Unit → St K → Prop}
    (h : Q () { s with
      d := circD s.d center u p q le ri tl tr ue re
      bps := Function.update s.bps u { s.bps u with edge := some s.d.heCnt }
      verts := s.d.vCnt :: s.verts
      edges := s.edges ++ [s.d.heCnt + 1] }) :
    Wp E (circleEdges center u r lf rg) s Q := by
  have hl : (s.bps lf).edge = some le := by rcases hlr with ⟨rfl, rfl, rfl, rfl⟩ | ⟨rfl, rfl, rfl, rfl⟩ <;> assumption
  have hg : (s.bps rg).edge = some ri := by rcases hlr with ⟨rfl, rfl, rfl, rfl⟩ | ⟨rfl, rfl, rfl, rfl⟩ <;> assumption
  simp only [List.nodup_cons, List.mem_cons, List.not_mem_nil, or_false, not_or, List.nodup_nil, not_false_eq_true,
    and_true] at hnd
  obtain ⟨⟨n1, n2, n3⟩, ⟨n4, n5⟩, n6⟩ := hnd
  have l1 := hlt le (by simp)
  have l2 := hlt ri (by simp)
  have l3 := hlt tl (by simp)
  have l4 := hlt tr (by simp)
  have hune : ue ≠ re := by rcases hlr with ⟨_, _, rfl, rfl⟩ | ⟨_, _, rfl, rfl⟩ <;> [exact n1; exact Ne.symm n1]
  obtain ⟨c, hc⟩ : ∃ c, c = s.d.heCnt := ⟨_, rfl⟩
  obtain ⟨c1, hc1⟩ : ∃ c1, c1 = c + 1 := ⟨_, rfl⟩
  simp only [circleEdges, edgeOf, wp_bind, wp_zD, wp_newV, wp_modify, wp_get, hu, hr, hl, hg, wp_deref, Option.some.injEq,
    exists_eq_left', reduceCtorEq, false_and, or_false, wp_appendConn, hpr]
  refine wp_updE' fun m1 a1 r1 => ?_
  refine wp_updE' fun m2 a2 r2 => ?_
  simp only at a1 r1 a2 r2
  refine wp_newHE_none fun m3 a3 r3 => ?_
  simp only [← hc] at a3 r3 ⊢
  refine wp_newHE_some (by simp [← hc1]; omega) fun m4 a4 b4 r4 => ?_
  simp only [← hc1] at a4 b4 r4 ⊢
  simp only [wp_rdE]
  have e1 : (m2 le).twin = some tl ∧ (m2 ri).twin = some tr := by
    rcases hlr with ⟨_, _, rfl, rfl⟩ | ⟨_, _, rfl, rfl⟩
    · rw [a2, r2 _ n1, a1, r1 _ hune.symm]; exact ⟨htl, htr⟩
    · rw [a2, r2 _ hune, a1, r1 _ hune.symm]; exact ⟨htl, htr⟩
  have e2 : (m4 le).twin = some tl ∧ (m4 ri).twin = some tr := by
    rw [r4 _ (by omega) (by omega), r3 _ (by omega), r4 _ (by omega) (by omega), r3 _ (by omega)]; exact e1
  simp only [e2.1, e2.2, Option.some.injEq, exists_eq_left', reduceCtorEq, false_and, or_false]
  refine wp_setNext' (show tl ≠ c1 by omega) fun m5 a5 b5 r5 => ?_
  simp only at a5 b5 r5
  have e3 : (m5 ri).twin = some tr := by
    rw [r5 _ n4 (by omega)]; exact e2.2
  simp only [e3, Option.some.injEq, exists_eq_left', reduceCtorEq, false_and, or_false]
  refine wp_setNext' (Ne.symm n3) fun m6 a6 b6 r6 => ?_
  simp only at a6 b6 r6
  have e4 : (m6 c1).twin = some c := by
    rw [r6 _ (by omega) (by omega), b5, a4]
  simp only [e4, Option.some.injEq, exists_eq_left', reduceCtorEq, false_and, or_false]
  refine wp_setNext' (show c ≠ ri by omega) fun m7 a7 b7 r7 => ?_
  simp only at a7 b7 r7
  have e5 : (m7 c1).twin = some c := by
    rw [r7 _ (by omega) (by omega)]; exact e4
  simp only [wp_updBp, e5]
  have hh : m7 = (circD s.d center u p q le ri tl tr ue re).he := by
    have hO : (m2 le = { s.d.he le with origin := .vtx s.d.vCnt }) ∧ (m2 ri = { s.d.he ri with origin := .vtx s.d.vCnt }) := by
      rcases hlr with ⟨_, _, rfl, rfl⟩ | ⟨_, _, rfl, rfl⟩
      · rw [a2, r2 _ n1, a1, r1 _ hune.symm]; exact ⟨rfl, rfl⟩
      · rw [a2, r2 _ hune, a1, r1 _ hune.symm]; exact ⟨rfl, rfl⟩
    have hm2 : ∀ j, j ≠ le → j ≠ ri → m2 j = s.d.he j := by
      intro j g1 g2
      rcases hlr with ⟨_, _, rfl, rfl⟩ | ⟨_, _, rfl, rfl⟩
      · rw [r2 _ g2, r1 _ g1]
      · rw [r2 _ g1, r1 _ g2]
    funext j
    simp only [circD, ← hc, ← hc1]
    by_cases g1 : j = le
    · rw [if_pos g1, g1, r7 _ (by omega) (by omega), b6, r5 _ (by omega) (by omega), r4 _ (by omega) (by omega),
        r3 _ (by omega), hO.1]
    rw [if_neg g1]
    by_cases g2 : j = ri
    · rw [if_pos g2, g2, b7, r6 _ (by omega) (by omega), r5 _ (by omega) (by omega), r4 _ (by omega) (by omega),
        r3 _ (by omega), hO.2]
    rw [if_neg g2]
    by_cases g3 : j = tl
    · rw [if_pos g3, g3, r7 _ (by omega) (by omega), r6 _ (by omega) (by omega), a5, r4 _ (by omega) (by omega),
        r3 _ (by omega), hm2 _ (by omega) (by omega)]
    rw [if_neg g3]
    by_cases g4 : j = tr
    · rw [if_pos g4, g4, r7 _ (by omega) (by omega), a6, r5 _ (by omega) (by omega), r4 _ (by omega) (by omega),
        r3 _ (by omega), hm2 _ (by omega) (by omega)]
    rw [if_neg g4]
    by_cases g5 : j = c
    · rw [if_pos g5, g5, a7, r6 _ (by omega) (by omega), r5 _ (by omega) (by omega), b4, a3]
    rw [if_neg g5]
    by_cases g6 : j = c1
    · rw [if_pos g6, g6, r7 _ (by omega) (by omega), r6 _ (by omega) (by omega), b5, a4]
    rw [if_neg g6]
    rw [r7 _ (by omega) (by omega), r6 _ (by omega) (by omega), r5 _ (by omega) (by omega), r4 _ (by omega) (by omega),
        r3 _ (by omega), hm2 _ (by omega) (by omega)]
  rw [hh]
  simp only [Function.update_self, Function.update_idem, List.nil_append, List.cons_append]
  have := h
  simp only [circD, ← hc, ← hc1] at this ⊢
  rw [show c1 + 1 = c + 2 by omega]
  exact this

end Foronoi
