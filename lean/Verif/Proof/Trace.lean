import Verif.Proof.Complete

/-!
# The edges drawn by the breakpoints

The two breakpoints of two sites move along the bisector in opposite directions when the sweep line sinks.  A half-edge whose origin is
a breakpoint grows at that end; one whose origin is a vertex has stopped there.
-/

namespace Foronoi

open scoped List

variable {a b z w : Pt} {l m : ℝ}

/-- Going along the bisector from `z` to `w` in the direction in which the breakpoint with `a` on the left and `b` on the right moves. -/
def Fwd (a b z w : Pt) : Prop := ∃ k : ℝ, k ≤ 0 ∧ w.1 - z.1 = -k * (b.2 - a.2) ∧ w.2 - z.2 = k * (b.1 - a.1)

theorem Fwd.refl (a b z : Pt) : Fwd a b z z := ⟨0, le_rfl, by ring, by ring⟩

theorem Fwd.trans {u : Pt} (h : Fwd a b z w) (h' : Fwd a b w u) : Fwd a b z u := by
  obtain ⟨k, h1, h2, h3⟩ := h
  obtain ⟨k', h1', h2', h3'⟩ := h'
  exact ⟨k + k', by linarith, by linear_combination h2 + h2', by linear_combination h3 + h3'⟩

theorem Fwd.swap (h : Fwd a b z w) : Fwd b a w z := by
  obtain ⟨k, h1, h2, h3⟩ := h
  exact ⟨k, h1, by linear_combination -h2, by linear_combination -h3⟩

/-- Two points of the bisector are in one order or the other. -/
theorem fwd_total (hab : a ≠ b) (hz : dsq a z = dsq b z) (hw : dsq a w = dsq b w) : Fwd a b z w ∨ Fwd a b w z := by
  obtain ⟨k, h1, h2⟩ := bisector_dir hab hz hw
  rcases le_total k 0 with h | h
  · exact Or.inl ⟨k, h, h1, h2⟩
  · exact Or.inr ⟨-k, by linarith, by linear_combination -h1, by linear_combination -h2⟩

theorem Fwd.antisymm (hab : a ≠ b) (h : Fwd a b z w) (h' : Fwd a b w z) : z = w := by
  obtain ⟨k, h1, h2, h3⟩ := h
  obtain ⟨k', h1', h2', h3'⟩ := h'
  have e1 : (k + k') * (b.2 - a.2) = 0 := by linear_combination h2 + h2'
  have e2 : (k + k') * (b.1 - a.1) = 0 := by linear_combination -h3 - h3'
  have hk : k = 0 := by
    by_contra hk
    have : k + k' ≠ 0 := fun h => hk (by linarith)
    have g1 := (mul_eq_zero.mp e1).resolve_left this
    have g2 := (mul_eq_zero.mp e2).resolve_left this
    exact hab (Prod.ext (by linarith) (by linarith))
  subst hk
  exact Prod.ext (by linarith) (by linarith)

/-- A breakpoint exists only if not both sites are on the sweep line. -/
theorem Bp.nd (h : Bp a b l z) (hab : a ≠ b) (ha : l ≤ a.2) (hb : l ≤ b.2) : l < a.2 ∨ l < b.2 := by
  by_contra hcon
  push Not at hcon
  have e1 : a.2 = l := le_antisymm hcon.1 ha
  have e2 : b.2 = l := le_antisymm hcon.2 hb
  have g1 := h.ea; have g2 := h.eb
  unfold dsq at g1 g2
  rw [e1] at g1; rw [e2] at g2
  have g3 : a.1 - z.1 = 0 := by
    have : (a.1 - z.1) ^ 2 = 0 := by linarith
    simpa using this
  have g4 : b.1 - z.1 = 0 := by
    have : (b.1 - z.1) ^ 2 = 0 := by linarith
    simpa using this
  exact hab (Prod.ext (by linarith) (by rw [e1, e2]))

/-- A breakpoint moves forward when the sweep line sinks. -/
theorem bp_fwd (hab : a ≠ b) (hz : Bp a b l z) (hw : Bp a b m w) (hml : m ≤ l) (ha : l ≤ a.2) (hb : l ≤ b.2) : Fwd a b z w := by
  obtain ⟨k, h1, h2⟩ := bisector_dir hab (hz.ea.trans hz.eb.symm) (hw.ea.trans hw.eb.symm)
  rcases le_total k 0 with h | h
  · exact ⟨k, h, h1, h2⟩
  · obtain ⟨h3, _⟩ := pencil_down (k := -k) hab hw hz.ea hz.le (by linear_combination -h1) (by linear_combination -h2) (by linarith)
    have : m = l := le_antisymm hml h3
    subst this
    rw [hz.unique hw hab ha hb (hz.nd hab ha hb)]
    exact Fwd.refl ..

/-- The opposite breakpoint stays behind. -/
theorem bp_opp (hab : a ≠ b) (hz : Bp a b l z) (hw : Bp b a m w) (ha : l ≤ a.2) (hb : l ≤ b.2) (ha' : m ≤ a.2) (hb' : m ≤ b.2) : Fwd a b w z := by
  have key : ∀ {a b z w : Pt} {l m : ℝ}, a ≠ b → Bp a b l z → Bp b a m w → l ≤ a.2 → l ≤ b.2 → m ≤ l → Fwd a b w z := by
    intro a b z w l m hab hz hw ha hb hml
    obtain ⟨k, h1, h2⟩ := bisector_dir hab (hz.ea.trans hz.eb.symm) (hw.eb.trans hw.ea.symm)
    rcases le_total 0 k with h | h
    · exact ⟨-k, by linarith, by linear_combination -h1, by linear_combination -h2⟩
    · obtain ⟨_, h4⟩ := pencil_down hab hz hw.eb hw.le h1 h2 h
      have h5 := hw.or
      rw [ori_symm] at h5
      have h6 : ori b a m w.1 = 0 := by rw [ori_symm]; linarith
      have h7 := hw.ori_sq
      rw [h6] at h7
      have h8 := dsq_pos hab.symm
      have h9 : (b.2 - m) * (a.2 - m) = 0 := by
        have : (b.2 - m) * (a.2 - m) * dsq b a = 0 := by rw [← h7]; ring
        exact (mul_eq_zero.mp this).resolve_right h8.ne'
      have hm : m = l := by
        rcases mul_eq_zero.mp h9 with h | h <;> linarith
      subst hm
      rw [hz.unique ⟨hw.eb, hw.ea, hw.le, h4⟩ hab ha hb (hz.nd hab ha hb)]
      exact Fwd.refl ..
  rcases le_total m l with h | h
  · exact key hab hz hw ha hb h
  · exact (key hab.symm hw hz hb' ha' h).swap

/-- The breakpoint passes every point of the bisector. -/
theorem bp_far (hab : a ≠ b) (hz : dsq a z = dsq b z) : ∃ m0, ∀ m ≤ m0, ∀ w, Bp a b m w → Fwd a b z w := by
  refine ⟨z.2 - Real.sqrt (dsq a z) - 1, fun m hm w hw => ?_⟩
  obtain ⟨k, h1, h2⟩ := bisector_dir hab hz (hw.ea.trans hw.eb.symm)
  rcases le_total k 0 with h | h
  · exact ⟨k, h, h1, h2⟩
  · exfalso
    have h0 := Real.sqrt_nonneg (dsq a z)
    obtain ⟨h3, _⟩ := pencil_down (z := w) (w := z) (m := z.2 - Real.sqrt (dsq a z)) (k := -k) hab hw
      (by rw [sub_sub_cancel, Real.sq_sqrt (dsq_nonneg a z)]) (by linarith) (by linear_combination -h1) (by linear_combination -h2) (by linarith)
    linarith

/-! ### positions of half-edges -/

variable {pts : Nat → Pt} {d : Dcel ℝ} {bps : Nat → BpR}

/-- Where the origin of a half-edge is when the sweep line is at some height not above `l`. -/
def Fut (pts : Nat → Pt) (d : Dcel ℝ) (bps : Nat → BpR) (l : ℝ) (f : Nat) (z : Pt) : Prop :=
  (∃ v, (d.he f).origin = .vtx v ∧ (d.vs v).pos = some z) ∨
    ∃ b, (d.he f).origin = .bp b ∧ ∃ m ≤ l, Bp (pts (bps b).pair.1) (pts (bps b).pair.2) m z

theorem Fut.mono {f : Nat} {l1 : ℝ} (h : Fut pts d bps l1 f z) (hl : l1 ≤ l) : Fut pts d bps l f z := by
  rcases h with h | ⟨b, h1, m, h2, h3⟩
  · exact Or.inl h
  · exact Or.inr ⟨b, h1, m, h2.trans hl, h3⟩

/-- The half-edge `f` of the cell of site `i`, with twin `t` in the cell of site `j`. -/
structure Edg (d : Dcel ℝ) (f t i j : Nat) : Prop where
  lt : f < d.heCnt
  tw : (d.he f).twin = some t
  inc : (d.he f).incident = some i
  tinc : (d.he t).incident = some j

/-- The half-edge runs with its own cell on the right. -/
def Runs (pts : Nat → Pt) (d : Dcel ℝ) (bps : Nat → BpR) (l : ℝ) : Prop :=
  ∀ f t i j, Edg d f t i j → ∀ z w, Fut pts d bps l f z → Fut pts d bps l t w → Fwd (pts j) (pts i) w z

/-- The point `z` lies between the ends of the half-edge. -/
structure Covers (pts : Nat → Pt) (d : Dcel ℝ) (bps : Nat → BpR) (l : ℝ) (f t i j : Nat) (z : Pt) : Prop where
  eq : dsq (pts i) z = dsq (pts j) z
  org : ∀ w, Fut pts d bps l f w → Fwd (pts j) (pts i) z w
  tgt : ∀ w, Fut pts d bps l t w → Fwd (pts i) (pts j) z w

/-- A breakpoint that was never part of the beach line: that of two sites in the topmost row, seen from above. -/
def TopPair (S : Set Pt) (a b : Pt) : Prop := a.2 = b.2 ∧ b.1 < a.1 ∧ ∀ c ∈ S, c.2 < a.2 ∨ (c.2 = a.2 ∧ (c.1 ≤ b.1 ∨ a.1 ≤ c.1))

/-- The breakpoints that are origins of half-edges are on the beach line, or above everything. -/
def Live (pts : Nat → Pt) (S : Set Pt) (d : Dcel ℝ) (bps : Nat → BpR) (L : List (Item Dat)) : Prop :=
  ∀ f < d.heCnt, ∀ b, (d.he f).origin = .bp b → (∃ k, (⟨k, false, .bp b⟩ : Item Dat) ∈ L) ∨ TopPair S (pts (bps b).pair.1) (pts (bps b).pair.2)

variable {bpCnt pc : Nat} {done : Nat → Prop} {verts edges : List Nat} {L : List (Item Dat)} {S : Set Pt}

theorem Edg.symm {f t i j : Nat} (h : DInv pts pc done d bps bpCnt verts edges L) (he : Edg d f t i j) : Edg d t f j i := by
  obtain ⟨t', g1, g2, _, g4⟩ := h.tw f he.lt
  rw [he.tw, Option.some.injEq] at g1
  subst g1
  exact ⟨g2, g4, he.tinc, he.inc⟩

theorem Edg.ne {f t i j : Nat} (h : DInv pts pc done d bps bpCnt verts edges L) (he : Edg d f t i j) : i ≠ j := by
  rintro rfl
  exact h.incne f he.lt t he.tw (by rw [he.inc, he.tinc])

/-- The pair of the breakpoint at the origin of a half-edge. -/
theorem Edg.pair {f t i j b' : Nat} (h : DInv pts pc done d bps bpCnt verts edges L) (he : Edg d f t i j) (ho : (d.he f).origin = .bp b') :
    (bps b').pair = (j, i) ∧ b' < bpCnt := by
  obtain ⟨g1, _, g2, g3⟩ := h.obp f he.lt b' ho
  have g3 := g3 t he.tw
  rw [he.inc, Option.some.injEq] at g2
  rw [he.tinc, Option.some.injEq] at g3
  exact ⟨Prod.ext g3.symm g2.symm, g1⟩

/-! ### site events -/

/-- The breakpoints after a site event. -/
def siteB (d : Dcel ℝ) (bps : Nat → BpR) (bpCnt pj pi : Nat) : Nat → BpR :=
  Function.update (Function.update bps bpCnt ⟨(pj, pi), some d.heCnt⟩) (bpCnt + 1) ⟨(pi, pj), some (d.heCnt + 1)⟩

theorem siteB_old {pj pi b' : Nat} (h : b' < bpCnt) : siteB d bps bpCnt pj pi b' = bps b' := by
  unfold siteB
  rw [Function.update_of_ne (by omega), Function.update_of_ne (by omega)]

theorem siteB_l {pj pi : Nat} : siteB d bps bpCnt pj pi bpCnt = ⟨(pj, pi), some d.heCnt⟩ := by
  unfold siteB
  rw [Function.update_of_ne (by omega), Function.update_self]

theorem siteB_r {pj pi : Nat} : siteB d bps bpCnt pj pi (bpCnt + 1) = ⟨(pi, pj), some (d.heCnt + 1)⟩ := by
  unfold siteB
  rw [Function.update_self]

theorem siteD_old {bl br pj pi f : Nat} (h : f < d.heCnt) : (siteD d bl br pj pi).he f = d.he f := by
  simp only [siteD, Function.update_apply]
  rw [if_neg (by omega), if_neg (by omega)]

theorem siteD_l {bl br pj pi : Nat} : (siteD d bl br pj pi).he d.heCnt = ⟨.bp bl, some pi, some (d.heCnt + 1), none, none⟩ := by
  simp [siteD, Function.update_apply]

theorem siteD_r {bl br pj pi : Nat} : (siteD d bl br pj pi).he (d.heCnt + 1) = ⟨.bp br, some pj, some d.heCnt, none, none⟩ := by
  simp [siteD]

theorem Fut.site {pj pi f : Nat} (h : DInv pts pc done d bps bpCnt verts edges L) (hf : f < d.heCnt)
    (hF : Fut pts (siteD d bpCnt (bpCnt + 1) pj pi) (siteB d bps bpCnt pj pi) l f z) : Fut pts d bps l f z := by
  rcases hF with ⟨v, h1, h2⟩ | ⟨b', h1, m, h2, h3⟩
  · rw [siteD_old hf] at h1
    exact Or.inl ⟨v, h1, h2⟩
  · rw [siteD_old hf] at h1
    rw [siteB_old (h.obp f hf b' h1).1] at h3
    exact Or.inr ⟨b', h1, m, h2, h3⟩

/-- The half-edges after a site event. -/
theorem Edg.site {pj pi f t i j : Nat} (h : DInv pts pc done d bps bpCnt verts edges L) (he : Edg (siteD d bpCnt (bpCnt + 1) pj pi) f t i j) :
    (Edg d f t i j ∧ t < d.heCnt) ∨ (f = d.heCnt ∧ t = d.heCnt + 1 ∧ i = pi ∧ j = pj) ∨ (f = d.heCnt + 1 ∧ t = d.heCnt ∧ i = pj ∧ j = pi) := by
  obtain ⟨h1, h2, h3, h4⟩ := he
  have h1 : f < d.heCnt + 2 := h1
  have hcase : f < d.heCnt ∨ f = d.heCnt ∨ f = d.heCnt + 1 := by omega
  rcases hcase with hf | rfl | rfl
  · left
    rw [siteD_old hf] at h2 h3
    obtain ⟨t', g1, g2, _⟩ := h.tw f hf
    rw [h2, Option.some.injEq] at g1
    subst g1
    rw [siteD_old g2] at h4
    exact ⟨⟨hf, h2, h3, h4⟩, g2⟩
  · right; left
    rw [siteD_l] at h2 h3
    simp only [Option.some.injEq] at h2 h3
    subst h2
    rw [siteD_r] at h4
    simp only [Option.some.injEq] at h4
    exact ⟨rfl, rfl, h3.symm, h4.symm⟩
  · right; right
    rw [siteD_r] at h2 h3
    simp only [Option.some.injEq] at h2 h3
    subst h2
    rw [siteD_l] at h4
    simp only [Option.some.injEq] at h4
    exact ⟨rfl, rfl, h3.symm, h4.symm⟩

theorem Runs.site {pj pi : Nat} (hR : Runs pts d bps l) (h : DInv pts pc done d bps bpCnt verts edges L) (hne : pts pj ≠ pts pi)
    (hj : l ≤ (pts pj).2) (hi : l ≤ (pts pi).2) : Runs pts (siteD d bpCnt (bpCnt + 1) pj pi) (siteB d bps bpCnt pj pi) l := by
  have hl : ∀ z, Fut pts (siteD d bpCnt (bpCnt + 1) pj pi) (siteB d bps bpCnt pj pi) l d.heCnt z → ∃ m ≤ l, Bp (pts pj) (pts pi) m z := by
    rintro z (⟨v, h1, _⟩ | ⟨b', h1, m, h2, h3⟩)
    · rw [siteD_l] at h1; cases h1
    · rw [siteD_l] at h1; cases h1
      rw [siteB_l] at h3
      exact ⟨m, h2, h3⟩
  have hr : ∀ z, Fut pts (siteD d bpCnt (bpCnt + 1) pj pi) (siteB d bps bpCnt pj pi) l (d.heCnt + 1) z → ∃ m ≤ l, Bp (pts pi) (pts pj) m z := by
    rintro z (⟨v, h1, _⟩ | ⟨b', h1, m, h2, h3⟩)
    · rw [siteD_r] at h1; cases h1
    · rw [siteD_r] at h1; cases h1
      rw [siteB_r] at h3
      exact ⟨m, h2, h3⟩
  intro f t i j he z w hz hw
  rcases he.site h with ⟨he', ht⟩ | ⟨rfl, rfl, rfl, rfl⟩ | ⟨rfl, rfl, rfl, rfl⟩
  · exact hR f t i j he' z w (hz.site h he'.lt) (hw.site h ht)
  · obtain ⟨m, h1, h2⟩ := hl z hz
    obtain ⟨m', h3, h4⟩ := hr w hw
    exact bp_opp hne h2 h4 (by linarith) (by linarith) (by linarith) (by linarith)
  · obtain ⟨m, h1, h2⟩ := hr z hz
    obtain ⟨m', h3, h4⟩ := hl w hw
    exact bp_opp hne.symm h2 h4 (by linarith) (by linarith) (by linarith) (by linarith)

theorem Covers.site {pj pi f t i j : Nat} (hC : Covers pts d bps l f t i j z) (h : DInv pts pc done d bps bpCnt verts edges L)
    (he : Edg d f t i j) : Covers pts (siteD d bpCnt (bpCnt + 1) pj pi) (siteB d bps bpCnt pj pi) l f t i j z :=
  ⟨hC.eq, fun w hw => hC.org w (hw.site h he.lt), fun w hw => hC.tgt w (hw.site h (he.symm h).lt)⟩

theorem Edg.site' {bl br pj pi f t i j : Nat} (h : DInv pts pc done d bps bpCnt verts edges L) (he : Edg d f t i j) :
    Edg (siteD d bl br pj pi) f t i j := by
  refine ⟨show f < d.heCnt + 2 by have := he.lt; omega, ?_, ?_, ?_⟩
  · rw [siteD_old he.lt]; exact he.tw
  · rw [siteD_old he.lt]; exact he.inc
  · rw [siteD_old (he.symm h).lt]; exact he.tinc

/-! ### circle events -/

/-- The half-edges and the vertex of a circle event at height `l`. -/
structure CircAt (pts : Nat → Pt) (d : Dcel ℝ) (bps : Nat → BpR) (l : ℝ) (c : Pt) (b1 b2 p x r u le ri tl tr : Nat) : Prop where
  nd : [le, ri, tl, tr].Nodup
  lt : ∀ e ∈ [le, ri, tl, tr], e < d.heCnt
  ol : (d.he le).origin = .bp b1
  or : (d.he ri).origin = .bp b2
  p1 : (bps b1).pair = (p, x)
  p2 : (bps b2).pair = (x, r)
  el : (bps b1).edge = some le
  er : (bps b2).edge = some ri
  hu : u = b1 ∨ u = b2
  bl : Bp (pts p) (pts x) l c
  br : Bp (pts x) (pts r) l c
  bn : Bp (pts p) (pts r) l c

section circ
variable {c : Pt} {b1 b2 p x r u le ri tl tr ue re : Nat}

theorem CircAt.ne (hc : CircAt pts d bps l c b1 b2 p x r u le ri tl tr) : le ≠ ri ∧ le ≠ tl ∧ le ≠ tr ∧ ri ≠ tl ∧ ri ≠ tr ∧ tl ≠ tr := by
  have := hc.nd
  simp only [List.nodup_cons, List.mem_cons, List.not_mem_nil, or_false, not_or, List.nodup_nil, not_false_eq_true, and_true] at this
  tauto

theorem circD_le : (circD d c u p r le ri tl tr ue re).he le = { d.he le with origin := .vtx d.vCnt, prev := some tr } := by simp [circD]

theorem circD_ri (h : le ≠ ri) : (circD d c u p r le ri tl tr ue re).he ri = { d.he ri with origin := .vtx d.vCnt, prev := some d.heCnt } := by
  simp [circD, h.symm]

theorem circD_org {f : Nat} (hf : f < d.heCnt) (h1 : f ≠ le) (h2 : f ≠ ri) :
    ((circD d c u p r le ri tl tr ue re).he f).origin = (d.he f).origin := by
  simp only [circD, if_neg h1, if_neg h2]
  split
  · rename_i h; rw [h]
  split
  · rename_i h; rw [h]
  rw [if_neg (by omega), if_neg (by omega)]

theorem circD_tw {f : Nat} (hf : f < d.heCnt) : ((circD d c u p r le ri tl tr ue re).he f).twin = (d.he f).twin ∧
    ((circD d c u p r le ri tl tr ue re).he f).incident = (d.he f).incident := by
  simp only [circD]
  split
  · rename_i h; subst h; exact ⟨rfl, rfl⟩
  split
  · rename_i h; subst h; exact ⟨rfl, rfl⟩
  split
  · rename_i h; subst h; exact ⟨rfl, rfl⟩
  split
  · rename_i h; subst h; exact ⟨rfl, rfl⟩
  rw [if_neg (by omega), if_neg (by omega)]
  exact ⟨rfl, rfl⟩

theorem circD_n (h : ∀ e ∈ [le, ri, tl, tr], e < d.heCnt) : (circD d c u p r le ri tl tr ue re).he d.heCnt = ⟨.bp u, some r, some (d.heCnt + 1), some ri, none⟩ := by
  have h1 := h le (by simp); have h2 := h ri (by simp); have h3 := h tl (by simp); have h4 := h tr (by simp)
  simp only [circD]
  rw [if_neg (by omega), if_neg (by omega), if_neg (by omega), if_neg (by omega), if_pos trivial]

theorem circD_n' (h : ∀ e ∈ [le, ri, tl, tr], e < d.heCnt) :
    (circD d c u p r le ri tl tr ue re).he (d.heCnt + 1) = ⟨.vtx d.vCnt, some p, some d.heCnt, none, some tl⟩ := by
  have h1 := h le (by simp); have h2 := h ri (by simp); have h3 := h tl (by simp); have h4 := h tr (by simp)
  simp only [circD]
  rw [if_neg (by omega), if_neg (by omega), if_neg (by omega), if_neg (by omega), if_neg (by omega), if_pos trivial]

theorem circD_v : ((circD d c u p r le ri tl tr ue re).vs d.vCnt).pos = some c := by simp [circD]

theorem Fut.circ (hc : CircAt pts d bps l c b1 b2 p x r u le ri tl tr) (h : DInv pts pc done d bps bpCnt verts edges L) {f : Nat}
    (hf : f < d.heCnt) (hF : Fut pts (circD d c u p r le ri tl tr ue re) (Function.update bps u ⟨(p, r), some d.heCnt⟩) l f z) :
    Fut pts d bps l f z := by
  by_cases h1 : f = le
  · subst h1
    rcases hF with ⟨v, g1, g2⟩ | ⟨b', g1, _⟩
    · rw [circD_le] at g1
      cases g1
      rw [circD_v, Option.some.injEq] at g2
      subst g2
      exact Or.inr ⟨b1, hc.ol, l, le_rfl, by rw [hc.p1]; exact hc.bl⟩
    · rw [circD_le] at g1; cases g1
  by_cases h2 : f = ri
  · subst h2
    rcases hF with ⟨v, g1, g2⟩ | ⟨b', g1, _⟩
    · rw [circD_ri hc.ne.1] at g1
      cases g1
      rw [circD_v, Option.some.injEq] at g2
      subst g2
      exact Or.inr ⟨b2, hc.or, l, le_rfl, by rw [hc.p2]; exact hc.br⟩
    · rw [circD_ri hc.ne.1] at g1; cases g1
  rcases hF with ⟨v, g1, g2⟩ | ⟨b', g1, m, g2, g3⟩
  · rw [circD_org hf h1 h2] at g1
    have hv := (h.vts v (h.ovt f hf v g1).1).2.1
    refine Or.inl ⟨v, g1, ?_⟩
    simp only [circD] at g2
    rwa [Function.update_of_ne (by omega)] at g2
  · rw [circD_org hf h1 h2] at g1
    have hb := (h.obp f hf b' g1).2.1
    have hbu : b' ≠ u := by
      rintro rfl
      rcases hc.hu with rfl | rfl
      · rw [hc.el] at hb; exact h1 (by simpa using hb.symm)
      · rw [hc.er] at hb; exact h2 (by simpa using hb.symm)
    rw [Function.update_of_ne hbu] at g3
    exact Or.inr ⟨b', g1, m, g2, g3⟩

theorem Edg.circ (hc : CircAt pts d bps l c b1 b2 p x r u le ri tl tr) (h : DInv pts pc done d bps bpCnt verts edges L) {f t i j : Nat}
    (he : Edg (circD d c u p r le ri tl tr ue re) f t i j) :
    (Edg d f t i j ∧ t < d.heCnt) ∨ (f = d.heCnt ∧ t = d.heCnt + 1 ∧ i = r ∧ j = p) ∨ (f = d.heCnt + 1 ∧ t = d.heCnt ∧ i = p ∧ j = r) := by
  obtain ⟨h1, h2, h3, h4⟩ := he
  have h1 : f < d.heCnt + 2 := h1
  have hcase : f < d.heCnt ∨ f = d.heCnt ∨ f = d.heCnt + 1 := by omega
  rcases hcase with hf | rfl | rfl
  · left
    rw [(circD_tw hf).1] at h2
    rw [(circD_tw hf).2] at h3
    obtain ⟨t', g1, g2, _⟩ := h.tw f hf
    rw [h2, Option.some.injEq] at g1
    subst g1
    rw [(circD_tw g2).2] at h4
    exact ⟨⟨hf, h2, h3, h4⟩, g2⟩
  · right; left
    rw [circD_n hc.lt] at h2 h3
    simp only [Option.some.injEq] at h2 h3
    subst h2
    rw [circD_n' hc.lt] at h4
    simp only [Option.some.injEq] at h4
    exact ⟨rfl, rfl, h3.symm, h4.symm⟩
  · right; right
    rw [circD_n' hc.lt] at h2 h3
    simp only [Option.some.injEq] at h2 h3
    subst h2
    rw [circD_n hc.lt] at h4
    simp only [Option.some.injEq] at h4
    exact ⟨rfl, rfl, h3.symm, h4.symm⟩

theorem Runs.circ (hR : Runs pts d bps l) (hc : CircAt pts d bps l c b1 b2 p x r u le ri tl tr) (h : DInv pts pc done d bps bpCnt verts edges L)
    (hne : pts p ≠ pts r) (hp : l ≤ (pts p).2) (hr : l ≤ (pts r).2) :
    Runs pts (circD d c u p r le ri tl tr ue re) (Function.update bps u ⟨(p, r), some d.heCnt⟩) l := by
  have h1 : ∀ z, Fut pts (circD d c u p r le ri tl tr ue re) (Function.update bps u ⟨(p, r), some d.heCnt⟩) l d.heCnt z → Fwd (pts p) (pts r) c z := by
    rintro z (⟨v, g1, _⟩ | ⟨b', g1, m, g2, g3⟩)
    · rw [circD_n hc.lt] at g1; cases g1
    · rw [circD_n hc.lt] at g1; cases g1
      rw [Function.update_self] at g3
      exact bp_fwd hne hc.bn g3 g2 hp hr
  have h2 : ∀ z, Fut pts (circD d c u p r le ri tl tr ue re) (Function.update bps u ⟨(p, r), some d.heCnt⟩) l (d.heCnt + 1) z → z = c := by
    rintro z (⟨v, g1, g2⟩ | ⟨b', g1, _⟩)
    · rw [circD_n' hc.lt] at g1; cases g1
      rw [circD_v] at g2
      simpa using g2.symm
    · rw [circD_n' hc.lt] at g1; cases g1
  intro f t i j he z w hz hw
  rcases he.circ hc h with ⟨he', ht⟩ | ⟨rfl, rfl, rfl, rfl⟩ | ⟨rfl, rfl, rfl, rfl⟩
  · exact hR f t i j he' z w (hz.circ hc h he'.lt) (hw.circ hc h ht)
  · rw [h2 w hw]; exact h1 z hz
  · rw [h2 z hz]; exact (h1 w hw).swap

theorem Covers.circ {f t i j : Nat} (hC : Covers pts d bps l f t i j z) (hc : CircAt pts d bps l c b1 b2 p x r u le ri tl tr)
    (h : DInv pts pc done d bps bpCnt verts edges L)
    (he : Edg d f t i j) : Covers pts (circD d c u p r le ri tl tr ue re) (Function.update bps u ⟨(p, r), some d.heCnt⟩) l f t i j z :=
  ⟨hC.eq, fun w hw => hC.org w (hw.circ hc h he.lt), fun w hw => hC.tgt w (hw.circ hc h (he.symm h).lt)⟩

theorem Edg.circ' {f t i j : Nat} (h : DInv pts pc done d bps bpCnt verts edges L) (he : Edg d f t i j) :
    Edg (circD d c u p r le ri tl tr ue re) f t i j := by
  refine ⟨show f < d.heCnt + 2 by have := he.lt; omega, ?_, ?_, ?_⟩
  · rw [(circD_tw he.lt).1]; exact he.tw
  · rw [(circD_tw he.lt).2]; exact he.inc
  · rw [(circD_tw (he.symm h).lt).2]; exact he.tinc

end circ

/-! ### the beach line draws the edges -/

theorem Runs.mono {l1 : ℝ} (h : Runs pts d bps l) (hl : l1 ≤ l) : Runs pts d bps l1 :=
  fun f t i j he z w hz hw => h f t i j he z w (hz.mono hl) (hw.mono hl)

theorem Covers.mono {l1 : ℝ} {f t i j : Nat} (h : Covers pts d bps l f t i j z) (hl : l1 ≤ l) : Covers pts d bps l1 f t i j z :=
  ⟨h.eq, fun w hw => h.org w (hw.mono hl), fun w hw => h.tgt w (hw.mono hl)⟩

theorem Covers.symm {f t i j : Nat} (h : Covers pts d bps l f t i j z) : Covers pts d bps l t f j i z := ⟨h.eq.symm, h.tgt, h.org⟩

/-- The breakpoint at the origin of a half-edge, at any height between two events, is between the ends at all later heights. -/
theorem Runs.covers {l1 : ℝ} {f t i j b' : Nat} (hR : Runs pts d bps l) (h : DInv pts pc done d bps bpCnt verts edges L) (he : Edg d f t i j)
    (ho : (d.he f).origin = .bp b') (hne : pts j ≠ pts i) (hi : l ≤ (pts i).2) (hj : l ≤ (pts j).2) (hm : m ≤ l) (h1 : l1 ≤ m)
    (hz : Bp (pts j) (pts i) m z) : Covers pts d bps l1 f t i j z := by
  obtain ⟨hp, _⟩ := he.pair h ho
  refine ⟨hz.eb.trans hz.ea.symm, ?_, ?_⟩
  · rintro w (⟨v, g1, _⟩ | ⟨b2, g1, m', g2, g3⟩)
    · rw [ho] at g1; cases g1
    · rw [ho] at g1; cases g1
      rw [hp] at g3
      exact bp_fwd hne hz g3 (by linarith) (by linarith) (by linarith)
  · intro w hw
    exact (hR f t i j he z w (Or.inr ⟨b', ho, m, hm, by rw [hp]; exact hz⟩) (hw.mono (by linarith))).swap

end Foronoi
