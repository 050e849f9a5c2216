import Verif.Proof.DcelInv

/-!
# A circle event keeps the invariant of the half-edge structure
-/

namespace Foronoi

open scoped List

variable {K : Type} [LinearOrder K] [Arith K]
variable {pts : Nat → K × K} {q : PQ (QE K)}
variable {d : Dcel K} {bps : Nat → BpR} {bpCnt pc : Nat} {done : Nat → Prop} {verts edges : List Nat} {L : List (Item Dat)}

/-- The half-edges at two neighbouring breakpoints. -/
theorem DInv.pre (h : DInv pts pc done d bps bpCnt verts edges L) {m1 b1 m2 b2 p x r : Nat}
    (h1 : (⟨m1, false, .bp b1⟩ : Item Dat) ∈ L) (h2 : (⟨m2, false, .bp b2⟩ : Item Dat) ∈ L)
    (p1 : (bps b1).pair = (p, x)) (p2 : (bps b2).pair = (x, r)) (hpr : p ≠ r) :
    ∃ le ri tl tr, (bps b1).edge = some le ∧ (bps b2).edge = some ri ∧ (d.he le).twin = some tl ∧ (d.he ri).twin = some tr ∧
      [le, ri, tl, tr].Nodup ∧ (∀ e ∈ [le, ri, tl, tr], e < d.heCnt) ∧
      (d.he le).origin = .bp b1 ∧ (d.he ri).origin = .bp b2 ∧
      (d.he le).incident = some x ∧ (d.he tl).incident = some p ∧ (d.he ri).incident = some r ∧ (d.he tr).incident = some x ∧
      (d.he tl).twin = some le ∧ (d.he tr).twin = some ri := by
  obtain ⟨le, l1, l2, l3⟩ := h.tbp m1 b1 h1
  obtain ⟨ri, r1, r2, r3⟩ := h.tbp m2 b2 h2
  obtain ⟨tl, t1, t2, t3, t4⟩ := h.tw le l1
  obtain ⟨tr, s1, s2, s3, s4⟩ := h.tw ri r1
  obtain ⟨_, _, u1, u2⟩ := h.obp le l1 b1 l3
  obtain ⟨_, _, w1, w2⟩ := h.obp ri r1 b2 r3
  have u3 := u2 tl t1
  have w3 := w2 tr s1
  rw [p1] at u1 u3
  rw [p2] at w1 w3
  simp only at u1 u3 w1 w3
  have hpx : p ≠ x := by
    intro hh
    refine h.incne le l1 tl t1 ?_
    rw [u1, u3, hh]
  have hxr : x ≠ r := by
    intro hh
    refine h.incne ri r1 tr s1 ?_
    rw [w1, w3, hh]
  refine ⟨le, ri, tl, tr, l2, r2, t1, s1, ?_, ?_, l3, r3, u1, u3, w1, w3, t4, s4⟩
  · have n1 : le ≠ ri := by rintro rfl; rw [u1] at w1; exact hxr (by simpa using w1)
    have n2 : le ≠ tr := by
      rintro rfl
      rw [s4] at t1
      simp only [Option.some.injEq] at t1
      subst t1
      rw [w1] at u3; exact hpr (by simpa using u3.symm)
    have n3 : ri ≠ tl := by rintro rfl; rw [u3] at w1; exact hpr (by simpa using w1)
    have n4 : tl ≠ tr := by rintro rfl; rw [u3] at w3; exact hpx (by simpa using w3)
    simp [n1, n2, n3, n4, t3.symm, s3.symm]
  · simp only [List.mem_cons, List.not_mem_nil, or_false]
    rintro e (rfl | rfl | rfl | rfl) <;> assumption

/-- The half-edges and the vertex of a circle event. -/
theorem DInv.circ (h : DInv pts pc done d bps bpCnt verts edges L) {m1 b1 m2 b2 p x r u le ri tl tr ue re n : Nat} {ev : CevR K}
    (h1 : (⟨m1, false, .bp b1⟩ : Item Dat) ∈ L) (h2 : (⟨m2, false, .bp b2⟩ : Item Dat) ∈ L)
    (p1 : (bps b1).pair = (p, x)) (p2 : (bps b2).pair = (x, r)) (hpr : p ≠ r)
    (hle : (bps b1).edge = some le) (hri : (bps b2).edge = some ri) (htl : (d.he le).twin = some tl) (htr : (d.he ri).twin = some tr)
    (hu : (u = b1 ∧ ue = le ∧ re = ri) ∨ (u = b2 ∧ ue = ri ∧ re = le)) (hub : u < bpCnt)
    (hev : mkEv pts n (p, x, r) = some ev)
    {L' : List (Item Dat)}
    (hL' : ∀ m b, (⟨m, false, .bp b⟩ : Item Dat) ∈ L' → b = u ∨ ((⟨m, false, .bp b⟩ : Item Dat) ∈ L ∧ b ≠ b1 ∧ b ≠ b2)) :
    DInv pts pc done (circD d ev.center u p r le ri tl tr ue re) (Function.update bps u ⟨(p, r), some d.heCnt⟩)
      bpCnt (d.vCnt :: verts) (edges ++ [d.heCnt + 1]) L' := by
  obtain ⟨le', ri', tl', tr', g1, g2, g3, g4, gnd, glt, ole, ori, ile, itl, iri, itr, ttl, ttr⟩ := h.pre h1 h2 p1 p2 hpr
  rw [hle] at g1; cases g1
  rw [hri] at g2; cases g2
  rw [htl] at g3; cases g3
  rw [htr] at g4; cases g4
  simp only [List.nodup_cons, List.mem_cons, List.not_mem_nil, or_false, not_or, List.nodup_nil, not_false_eq_true,
    and_true] at gnd
  obtain ⟨⟨n1, n2, n3⟩, ⟨n4, n5⟩, n6⟩ := gnd
  have l1 := glt le (by simp)
  have l2 := glt ri (by simp)
  have l3 := glt tl (by simp)
  have l4 := glt tr (by simp)
  have ple : (d.he le).prev = none := (h.pvn le l1).mpr ⟨b1, ole⟩
  have pri : (d.he ri).prev = none := (h.pvn ri l2).mpr ⟨b2, ori⟩
  have ntl : (d.he tl).next = none := (h.nxn tl l3 le ttl).mpr ⟨b1, ole⟩
  have ntr : (d.he tr).next = none := (h.nxn tr l4 ri ttr).mpr ⟨b2, ori⟩
  have hu' : u = b1 ∨ u = b2 := by tauto
  have hcn : (circD d ev.center u p r le ri tl tr ue re).vs d.vCnt = ⟨some ev.center, [ue, re, d.heCnt + 1]⟩ := by
    simp [circD]
  have hvo : ∀ v, v ≠ d.vCnt → (circD d ev.center u p r le ri tl tr ue re).vs v = d.vs v := by
    intro v hv; simp [circD, Function.update_of_ne hv]
  obtain ⟨c, hc⟩ : ∃ c, c = d.heCnt := ⟨_, rfl⟩
  obtain ⟨v, hv⟩ : ∃ v, v = d.vCnt := ⟨_, rfl⟩
  obtain ⟨d', hd'⟩ : ∃ d', d' = circD d ev.center u p r le ri tl tr ue re := ⟨_, rfl⟩
  rw [← hd', ← hc, ← hv]
  rw [← hd', ← hc, ← hv] at hcn
  rw [← hd', ← hv] at hvo
  have hcnt : d'.heCnt = c + 2 := by rw [hd', hc]; rfl
  have hvc : d'.vCnt = v + 1 := by rw [hd', hv]; rfl
  have hfe : d'.fe = d.fe := by rw [hd']; rfl
  have e0 : d'.he c = ⟨.bp u, some r, some (c + 1), some ri, none⟩ := by
    simp only [hd', circD, ← hc]
    rw [if_neg (by omega), if_neg (by omega), if_neg (by omega), if_neg (by omega), if_pos (by trivial)]
  have e1 : d'.he (c + 1) = ⟨.vtx v, some p, some c, none, some tl⟩ := by
    simp only [hd', circD, ← hc, ← hv]
    rw [if_neg (by omega), if_neg (by omega), if_neg (by omega), if_neg (by omega), if_neg (by omega), if_pos (by trivial)]
  have ele : d'.he le = { d.he le with origin := .vtx v, prev := some tr } := by
    simp only [hd', circD, ← hc, ← hv]
    rw [if_pos (by trivial)]
  have eri : d'.he ri = { d.he ri with origin := .vtx v, prev := some c } := by
    simp only [hd', circD, ← hc, ← hv]
    rw [if_neg (by omega), if_pos (by trivial)]
  have etl : d'.he tl = { d.he tl with next := some (c + 1) } := by
    simp only [hd', circD, ← hc]
    rw [if_neg (by omega), if_neg (by omega), if_pos (by trivial)]
  have etr : d'.he tr = { d.he tr with next := some le } := by
    simp only [hd', circD]
    rw [if_neg (by omega), if_neg (by omega), if_neg (by omega), if_pos (by trivial)]
  have eo : ∀ e < c, e ≠ le → e ≠ ri → e ≠ tl → e ≠ tr → d'.he e = d.he e := by
    intro e he k1 k2 k3 k4
    simp only [hd', circD, ← hc]
    rw [if_neg k1, if_neg k2, if_neg k3, if_neg k4, if_neg (by omega), if_neg (by omega)]
  clear hd'
  have hT : ∀ e < c, (d'.he e).twin = (d.he e).twin := by
    intro e he
    by_cases k1 : e = le
    · rw [k1, ele]
    by_cases k2 : e = ri
    · rw [k2, eri]
    by_cases k3 : e = tl
    · rw [k3, etl]
    by_cases k4 : e = tr
    · rw [k4, etr]
    rw [eo e he k1 k2 k3 k4]
  have hI : ∀ e < c, (d'.he e).incident = (d.he e).incident := by
    intro e he
    by_cases k1 : e = le
    · rw [k1, ele]
    by_cases k2 : e = ri
    · rw [k2, eri]
    by_cases k3 : e = tl
    · rw [k3, etl]
    by_cases k4 : e = tr
    · rw [k4, etr]
    rw [eo e he k1 k2 k3 k4]
  have hO : ∀ e < c, e ≠ le → e ≠ ri → (d'.he e).origin = (d.he e).origin := by
    intro e he k1 k2
    by_cases k3 : e = tl
    · rw [k3, etl]
    by_cases k4 : e = tr
    · rw [k4, etr]
    rw [eo e he k1 k2 k3 k4]
  have hP : ∀ e < c, e ≠ le → e ≠ ri → (d'.he e).prev = (d.he e).prev := by
    intro e he k1 k2
    by_cases k3 : e = tl
    · rw [k3, etl]
    by_cases k4 : e = tr
    · rw [k4, etr]
    rw [eo e he k1 k2 k3 k4]
  have hN : ∀ e < c, e ≠ tl → e ≠ tr → (d'.he e).next = (d.he e).next := by
    intro e he k3 k4
    by_cases k1 : e = le
    · rw [k1, ele]
    by_cases k2 : e = ri
    · rw [k2, eri]
    rw [eo e he k1 k2 k3 k4]
  have cases3 : ∀ e < d'.heCnt, e < c ∨ e = c ∨ e = c + 1 := by intro e he; omega
  have htw : ∀ e < c, ∀ t, (d.he e).twin = some t → t < c ∧ (d.he t).twin = some e := by
    intro e he t ht
    obtain ⟨t', g1, g2, _, g4⟩ := h.tw e (by omega)
    rw [ht] at g1; cases g1; exact ⟨by omega, g4⟩
  have hbn : ∀ b, b ≠ u → (Function.update bps u ⟨(p, r), some c⟩ : Nat → BpR) b = bps b := fun b hb => Function.update_of_ne hb _ _
  have hbu : (Function.update bps u ⟨(p, r), some c⟩ : Nat → BpR) u = ⟨(p, r), some c⟩ := Function.update_self ..
  generalize (Function.update bps u ⟨(p, r), some c⟩ : Nat → BpR) = bps' at hbn hbu ⊢
  refine ⟨?_, ?_, ?_, ?_, ?_, ?_, ?_, ?_, ?_, ?_, ?_, ?_, ?_, ?_, ?_, ?_, ?_, ?_, ?_, ?_⟩
  · intro e he
    rcases cases3 e he with he | rfl | rfl
    · obtain ⟨t, g1, g2, g3, g4⟩ := h.tw e (by omega)
      exact ⟨t, by rw [hT e he]; exact g1, by omega, g3, by rw [hT t (by omega)]; exact g4⟩
    · exact ⟨e + 1, by rw [e0], by omega, by omega, by rw [e1]⟩
    · exact ⟨c, by rw [e1], by omega, by omega, by rw [e0]⟩
  · intro e he
    rcases cases3 e he with he | rfl | rfl
    · rw [hI e he]; exact h.inc e (by omega)
    · obtain ⟨r', g1, g2⟩ := h.inc ri l2
      rw [iri] at g1; cases g1
      exact ⟨r, by rw [e0], g2⟩
    · obtain ⟨r', g1, g2⟩ := h.inc tl l3
      rw [itl] at g1; cases g1
      exact ⟨p, by rw [e1], g2⟩
  · intro e he t ht
    rcases cases3 e he with he | rfl | rfl
    · rw [hT e he] at ht
      rw [hI e he, hI t (htw e he t ht).1]
      exact h.incne e (by omega) t ht
    · rw [e0] at ht ⊢; cases ht; rw [e1]; simpa using hpr
    · rw [e1] at ht ⊢; cases ht; rw [e0]; simpa using hpr.symm
  · intro e he b hb
    rcases cases3 e he with he | rfl | rfl
    · have k1 : e ≠ le := by rintro rfl; rw [ele] at hb; cases hb
      have k2 : e ≠ ri := by rintro rfl; rw [eri] at hb; cases hb
      rw [hO e he k1 k2] at hb
      obtain ⟨g1, g2, g3, g4⟩ := h.obp e (by omega) b hb
      have hbu' : b ≠ u := by
        rintro rfl
        rcases hu' with rfl | rfl
        · rw [hle] at g2; exact k1 (by simpa using g2.symm)
        · rw [hri] at g2; exact k2 (by simpa using g2.symm)
      rw [hbn b hbu', hI e he, hT e he]
      exact ⟨g1, g2, g3, fun t ht => by rw [hI t (htw e he t ht).1]; exact g4 t ht⟩
    · rw [e0] at hb ⊢; cases hb
      exact ⟨hub, by rw [hbu], by rw [hbu], fun t ht => by cases ht; rw [hbu, e1]⟩
    · rw [e1] at hb; cases hb
  · intro m b hm
    rcases hL' m b hm with rfl | ⟨hm, k1, k2⟩
    · exact ⟨c, by omega, by rw [hbu], by rw [e0]⟩
    · obtain ⟨e, g1, g2, g3⟩ := h.tbp m b hm
      have hbu' : b ≠ u := by rintro rfl; tauto
      refine ⟨e, by omega, by rw [hbn b hbu']; exact g2, ?_⟩
      rw [hO e (by omega)]
      · exact g3
      · rintro rfl; rw [ole] at g3; exact k1 (by simpa using g3.symm)
      · rintro rfl; rw [ori] at g3; exact k2 (by simpa using g3.symm)
  · intro e he w hw
    rcases cases3 e he with he | rfl | rfl
    · by_cases k1 : e = le
      · subst k1; rw [ele] at hw; cases hw
        refine ⟨by simp, ?_⟩
        rw [hcn]; rcases hu with ⟨_, rfl, rfl⟩ | ⟨_, rfl, rfl⟩ <;> simp
      by_cases k2 : e = ri
      · subst k2; rw [eri] at hw; cases hw
        refine ⟨by simp, ?_⟩
        rw [hcn]; rcases hu with ⟨_, rfl, rfl⟩ | ⟨_, rfl, rfl⟩ <;> simp
      rw [hO e he k1 k2] at hw
      obtain ⟨g1, g2⟩ := h.ovt e (by omega) w hw
      have := (h.vts w g1).2.1
      refine ⟨by simp [g1], by rw [hvo w (by omega)]; exact g2⟩
    · rw [e0] at hw; cases hw
    · rw [e1] at hw; cases hw
      exact ⟨by simp, by rw [hcn]; simp⟩
  · intro w hw
    rcases List.mem_cons.mp hw with rfl | hw
    · have := h.vcnt
      refine ⟨by omega, by omega, p, x, r, le, ri, c + 1, ?_⟩
      refine ⟨?_, n1, by omega, by omega, by omega, ⟨by rw [ele], by rw [eri], by rw [e1]⟩, ⟨?_, ?_, by rw [e1]⟩, ⟨⟨tl, ?_, ?_⟩, ⟨tr, ?_, ?_⟩, ⟨c, by rw [e1], by rw [e0]⟩⟩, ⟨n, ev, hev, by rw [hcn]⟩⟩
      · rw [hcn]; rcases hu with ⟨_, rfl, rfl⟩ | ⟨_, rfl, rfl⟩ <;> simp
      · rw [hI le (by omega)]; exact ile
      · rw [hI ri (by omega)]; exact iri
      · rw [hT le (by omega)]; exact htl
      · rw [hI tl (by omega)]; exact itl
      · rw [hT ri (by omega)]; exact htr
      · rw [hI tr (by omega)]; exact itr
    · obtain ⟨g1, g2, p', x', r', a1, a2, a3, g⟩ := h.vts w hw
      refine ⟨g1, by omega, p', x', r', a1, a2, a3, ?_⟩
      obtain ⟨k1, k2, k3⟩ := g.lt
      obtain ⟨o1, o2, o3⟩ := g.org
      obtain ⟨⟨t1, u1, w1⟩, ⟨t2, u2, w2⟩, ⟨t3, u3, w3⟩⟩ := g.tinc
      have kk : ∀ a, (d.he a).origin = .vtx w → a ≠ le ∧ a ≠ ri := by
        intro a ha
        constructor
        · rintro rfl; rw [ole] at ha; cases ha
        · rintro rfl; rw [ori] at ha; cases ha
      refine ⟨by rw [hvo w (by omega)]; exact g.conn, g.ne12, g.ne13, g.ne23, by omega, ?_, ?_, ?_, by rw [hvo w (by omega)]; exact g.pos⟩
      · rw [hO a1 (by omega) (kk a1 o1).1 (kk a1 o1).2, hO a2 (by omega) (kk a2 o2).1 (kk a2 o2).2,
          hO a3 (by omega) (kk a3 o3).1 (kk a3 o3).2]
        exact g.org
      · rw [hI a1 (by omega), hI a2 (by omega), hI a3 (by omega)]; exact g.inc
      · rw [hT a1 (by omega), hT a2 (by omega), hT a3 (by omega)]
        exact ⟨⟨t1, u1, by rw [hI t1 (htw a1 (by omega) t1 u1).1]; exact w1⟩, ⟨t2, u2, by rw [hI t2 (htw a2 (by omega) t2 u2).1]; exact w2⟩,
          ⟨t3, u3, by rw [hI t3 (htw a3 (by omega) t3 u3).1]; exact w3⟩⟩
  · rw [List.nodup_cons]
    refine ⟨fun hh => ?_, h.vnd⟩
    have := (h.vts v hh).2.1
    omega
  · have := h.vcnt
    simp only [List.length_cons]; omega
  · intro e he f hf
    rcases cases3 e he with he | rfl | rfl
    · by_cases k3 : e = tl
      · subst k3; rw [etl] at hf; simp only [Option.some.injEq] at hf; subst hf
        refine ⟨by omega, by rw [e1], by rw [e1, hI e he, itl], ?_⟩
        intro t ht
        rw [hT e he, ttl] at ht; cases ht
        rw [e1, ele]
      by_cases k4 : e = tr
      · subst k4; rw [etr] at hf; simp only [Option.some.injEq] at hf; subst hf
        refine ⟨by omega, by rw [ele], by rw [hI _ (by omega), hI e he, itr, ile], ?_⟩
        intro t ht
        rw [hT e he, ttr] at ht; cases ht
        rw [ele, eri]
      rw [hN e he k3 k4] at hf
      obtain ⟨g1, g2, g3, g4⟩ := h.nx e (by omega) f hf
      have f1 : f ≠ le := by rintro rfl; rw [ple] at g2; cases g2
      have f2 : f ≠ ri := by rintro rfl; rw [pri] at g2; cases g2
      refine ⟨by omega, by rw [hP f (by omega) f1 f2]; exact g2, by rw [hI f (by omega), hI e he]; exact g3, ?_⟩
      intro t ht
      rw [hT e he] at ht
      obtain ⟨q1, q2⟩ := htw e he t ht
      rw [hO f (by omega) f1 f2, hO t q1, g4 t ht]
      · rintro rfl; rw [htl] at q2; exact k3 (by simpa using q2.symm)
      · rintro rfl; rw [htr] at q2; exact k4 (by simpa using q2.symm)
    · rw [e0] at hf; simp only [Option.some.injEq] at hf; subst hf
      refine ⟨by omega, by rw [eri], by rw [e0, hI _ (by omega), iri], ?_⟩
      intro t ht
      rw [e0] at ht; simp only [Option.some.injEq] at ht; subst ht
      rw [eri, e1]
    · rw [e1] at hf; cases hf
  · intro e he f hf
    rcases cases3 e he with he | rfl | rfl
    · by_cases k1 : e = le
      · subst k1; rw [ele] at hf; simp only [Option.some.injEq] at hf; subst hf
        exact ⟨by omega, by rw [etr]⟩
      by_cases k2 : e = ri
      · subst k2; rw [eri] at hf; simp only [Option.some.injEq] at hf; subst hf
        exact ⟨by omega, by rw [e0]⟩
      rw [hP e he k1 k2] at hf
      obtain ⟨g1, g2⟩ := h.pv e (by omega) f hf
      refine ⟨by omega, ?_⟩
      rw [hN f (by omega)]
      · exact g2
      · rintro rfl; rw [ntl] at g2; cases g2
      · rintro rfl; rw [ntr] at g2; cases g2
    · rw [e0] at hf; cases hf
    · rw [e1] at hf; simp only [Option.some.injEq] at hf; subst hf
      exact ⟨by omega, by rw [etl]⟩
  · intro e he t ht
    rcases cases3 e he with he | rfl | rfl
    · rw [hT e he] at ht
      obtain ⟨q1, q2⟩ := htw e he t ht
      by_cases k3 : e = tl
      · subst k3; rw [ttl] at ht; cases ht
        rw [etl, ele]; simp
      by_cases k4 : e = tr
      · subst k4; rw [ttr] at ht; cases ht
        rw [etr, eri]; simp
      rw [hN e he k3 k4, hO t q1]
      · exact h.nxn e (by omega) t ht
      · rintro rfl; rw [htl] at q2; exact k3 (by simpa using q2.symm)
      · rintro rfl; rw [htr] at q2; exact k4 (by simpa using q2.symm)
    · rw [e0] at ht ⊢; simp only [Option.some.injEq] at ht; subst ht; rw [e1]; simp
    · rw [e1] at ht ⊢; simp only [Option.some.injEq] at ht; subst ht; rw [e0]; simp
  · intro e he
    rcases cases3 e he with he | rfl | rfl
    · by_cases k1 : e = le
      · subst k1; rw [ele]; simp
      by_cases k2 : e = ri
      · subst k2; rw [eri]; simp
      rw [hP e he k1 k2, hO e he k1 k2]
      exact h.pvn e (by omega)
    · rw [e0]; simp
    · rw [e1]; simp
  · rw [List.nodup_append]
    refine ⟨h.end_, by simp, ?_⟩
    intro a ha b hb
    have := h.elt a ha
    simp only [List.mem_singleton] at hb
    omega
  · intro e he
    rcases List.mem_append.mp he with he | he
    · have := h.elt e he; omega
    · simp only [List.mem_singleton] at he; omega
  · have hcn : c ∉ edges := fun hh => by have := h.elt c hh; omega
    have hcn1 : c + 1 ∉ edges := fun hh => by have := h.elt _ hh; omega
    intro e he t ht
    simp only [List.mem_append, List.mem_singleton]
    rcases cases3 e he with he | rfl | rfl
    · rw [hT e he] at ht
      have q1 := (htw e he t ht).1
      have q2 := h.etw e (by omega) t ht
      constructor
      · rintro (q3 | q3)
        · intro q4; rcases q4 with q4 | q4
          · exact q2.mp q3 q4
          · omega
        · omega
      · intro q3
        left; exact q2.mpr fun q4 => q3 (Or.inl q4)
    · rw [e0] at ht; cases ht; simp [hcn]
    · rw [e1] at ht; cases ht; simp [hcn]
  · have := h.ecnt
    simp only [List.length_append, List.length_singleton]
    omega
  · intro p' e hp
    rw [hfe] at hp
    obtain ⟨g1, g2⟩ := h.fe p' e hp
    exact ⟨by omega, by rw [hI e (by omega)]; exact g2⟩
  · intro e he p' hp
    rw [hfe]
    rcases cases3 e he with he | rfl | rfl
    · rw [hI e he] at hp
      exact h.feAll e (by omega) p' hp
    · rw [e0] at hp; cases hp
      exact h.feAll ri l2 _ iri
    · rw [e1] at hp; cases hp
      exact h.feAll tl l3 _ itl
  · intro w hw
    have := h.vcnt
    rw [hvo w (by omega)]
    exact h.poly w hw

end Foronoi
