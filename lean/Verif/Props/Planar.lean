import Mathlib.Algebra.Order.BigOperators.Group.Finset
import Mathlib.Data.Finset.Card
import Mathlib.Data.Finset.Max
import Verif.Props.Complete

/-!
# C139: how many vertices and edges there can be

`C10_euler` bounds them for every rounding behaviour.  With exact arithmetic each site that is the furthest one in some direction has an
edge that starts at infinity, and there are at least three such sites.
-/

namespace Foronoi

open scoped List

/-- Site `p` is the furthest in direction `d`, perhaps together with others. -/
def Furthest (pts : Nat → ℝ × ℝ) (n : Nat) (d : ℝ × ℝ) (p : Nat) : Prop :=
  p < n ∧ ∀ r < n, d.1 * (pts r).1 + d.2 * (pts r).2 ≤ d.1 * (pts p).1 + d.2 * (pts p).2

/-- Site `p` is the furthest in a direction other than straight up. -/
def Outermost (pts : Nat → ℝ × ℝ) (n p : Nat) : Prop := ∃ d : ℝ × ℝ, (d.1 ≠ 0 ∨ d.2 < 0) ∧ Furthest pts n d p

/-! ### three such sites -/

section three

variable {pts : Nat → ℝ × ℝ} {n : Nat}

theorem exists_furthest (hn : 0 < n) (d : ℝ × ℝ) : ∃ p, Furthest pts n d p := by
  obtain ⟨p, h1, h2⟩ := Finset.exists_max_image (Finset.range n) (fun p => d.1 * (pts p).1 + d.2 * (pts p).2) ⟨0, by simpa using hn⟩
  exact ⟨p, by simpa using h1, fun r hr => h2 r (by simpa using hr)⟩

/-- A second one. -/
theorem exists_second (hd : Distinct pts n) {a c : Nat} (ha : a < n) (hc : c < n) (hac : a ≠ c) : ∃ b, Outermost pts n b ∧ b ≠ a := by
  have hne : pts a ≠ pts c := fun h => hac (hd a ha c hc h)
  obtain ⟨d, hv, hgt⟩ : ∃ d : ℝ × ℝ, (d.1 ≠ 0 ∨ d.2 < 0) ∧ d.1 * (pts a).1 + d.2 * (pts a).2 < d.1 * (pts c).1 + d.2 * (pts c).2 := by
    by_cases hx : (pts c).1 - (pts a).1 = 0
    · have hy : (pts c).2 ≠ (pts a).2 := fun h => hne (Prod.ext (by linarith) h.symm)
      rcases lt_or_gt_of_ne hy with h | h
      · exact ⟨(0, -1), Or.inr (by norm_num), by simp only; linarith⟩
      · exact ⟨(1, 1), Or.inl (by norm_num), by simp only; linarith⟩
    · exact ⟨((pts c).1 - (pts a).1, 0), Or.inl hx, by simp only; nlinarith [mul_self_pos.mpr hx]⟩
  obtain ⟨b, hb⟩ := exists_furthest (pts := pts) (Nat.zero_lt_of_lt ha) d
  refine ⟨b, ⟨d, hv, hb⟩, ?_⟩
  rintro rfl
  linarith [hb.2 c hc]

/-- Beyond a line through two sites there is another one. -/
theorem exists_beyond {a b c : Nat} (hc : c < n) {d : ℝ × ℝ} (hd : d.1 ≠ 0 ∨ d.2 ≠ 0)
    (hab : d.1 * (pts a).1 + d.2 * (pts a).2 = d.1 * (pts b).1 + d.2 * (pts b).2)
    (hgt : d.1 * (pts a).1 + d.2 * (pts a).2 < d.1 * (pts c).1 + d.2 * (pts c).2) : ∃ x, Outermost pts n x ∧ x ≠ a ∧ x ≠ b := by
  obtain ⟨e, hv, h1, h2⟩ : ∃ e : ℝ × ℝ, (e.1 ≠ 0 ∨ e.2 < 0) ∧ e.1 * (pts a).1 + e.2 * (pts a).2 < e.1 * (pts c).1 + e.2 * (pts c).2 ∧
      e.1 * (pts b).1 + e.2 * (pts b).2 < e.1 * (pts c).1 + e.2 * (pts c).2 := by
    by_cases hx : d.1 = 0
    · set g := d.2 * (pts c).2 - d.2 * (pts a).2 with hg
      have hg0 : 0 < g := by rw [hx] at hgt; linarith
      set w := 1 + |(pts c).1 - (pts a).1| + |(pts c).1 - (pts b).1| with hw
      have hw0 : 0 < w := by positivity
      have key : ∀ u, |u| < w → 0 < g / w * u + g := by
        intro u hu
        have : -w < u := (abs_lt.mp hu).1
        have h3 : g / w * (-w) < g / w * u := mul_lt_mul_of_pos_left this (by positivity)
        have h4 : g / w * (-w) = -g := by field_simp
        linarith
      have ka := key ((pts c).1 - (pts a).1) (by rw [hw]; linarith [abs_nonneg ((pts c).1 - (pts b).1)])
      have kb := key ((pts c).1 - (pts b).1) (by rw [hw]; linarith [abs_nonneg ((pts c).1 - (pts a).1)])
      rw [hx] at hab
      refine ⟨(g / w, d.2), Or.inl (by positivity), ?_, ?_⟩
      · simp only; nlinarith
      · simp only; nlinarith
    · exact ⟨d, Or.inl hx, hgt, hab ▸ hgt⟩
  obtain ⟨x, hx⟩ := exists_furthest (pts := pts) (Nat.zero_lt_of_lt hc) e
  refine ⟨x, ⟨e, hv, hx⟩, ?_, ?_⟩
  · rintro rfl; linarith [hx.2 c hc]
  · rintro rfl; linarith [hx.2 c hc]

theorem exists_three (hd : Distinct pts n) (hn : 3 ≤ n) : ∃ a b c, Outermost pts n a ∧ Outermost pts n b ∧ Outermost pts n c ∧ a ≠ b ∧ a ≠ c ∧ b ≠ c := by
  obtain ⟨a, ha⟩ := exists_furthest (pts := pts) (n := n) (by omega) (0, -1)
  obtain ⟨c0, hc0, hac⟩ : ∃ c < n, a ≠ c := by
    by_cases h : a = 0
    · exact ⟨1, by omega, by omega⟩
    · exact ⟨0, by omega, h⟩
  obtain ⟨b, hb, hba⟩ := exists_second hd ha.1 hc0 hac
  have hbn : b < n := by obtain ⟨d, _, h, _⟩ := hb; exact h
  have hao : Outermost pts n a := ⟨(0, -1), Or.inr (by norm_num), ha⟩
  have hne : pts a ≠ pts b := fun h => hba (hd a ha.1 b hbn h).symm
  set d : ℝ × ℝ := ((pts a).2 - (pts b).2, (pts b).1 - (pts a).1) with hdd
  have hd0 : d.1 ≠ 0 ∨ d.2 ≠ 0 := by
    by_contra hcon
    push Not at hcon
    simp only [hdd] at hcon
    exact hne (Prod.ext (by linarith [hcon.2]) (by linarith [hcon.1]))
  have hab : d.1 * (pts a).1 + d.2 * (pts a).2 = d.1 * (pts b).1 + d.2 * (pts b).2 := by simp only [hdd]; ring
  by_cases hall : ∀ c < n, d.1 * (pts c).1 + d.2 * (pts c).2 = d.1 * (pts a).1 + d.2 * (pts a).2
  · have hout : ∀ c < n, Outermost pts n c := by
      intro c hc
      by_cases hx : d.1 = 0
      · have hy : d.2 ≠ 0 := hd0.resolve_left (not_not.mpr hx)
        refine ⟨(0, -1), Or.inr (by norm_num), hc, fun r hr => ?_⟩
        have h1 := hall c hc
        have h2 := hall r hr
        rw [hx] at h1 h2
        have : (pts c).2 = (pts r).2 := mul_left_cancel₀ hy (by linarith)
        simp only; linarith
      · exact ⟨d, Or.inl hx, hc, fun r hr => by rw [hall c hc, hall r hr]⟩
    exact ⟨0, 1, 2, hout 0 (by omega), hout 1 (by omega), hout 2 (by omega), by norm_num, by norm_num, by norm_num⟩
  · push Not at hall
    obtain ⟨c, hc, hcne⟩ := hall
    obtain ⟨x, h1, h2, h3⟩ : ∃ x, Outermost pts n x ∧ x ≠ a ∧ x ≠ b := by
      rcases lt_or_gt_of_ne hcne with h | h
      · refine exists_beyond (d := (-d.1, -d.2)) hc (by simpa using hd0) (by simp only; linarith) (by simp only; linarith)
      · exact exists_beyond hc hd0 hab h
    exact ⟨a, b, x, hao, hb, h1, hba.symm, h2.symm, h3.symm⟩

end three

/-! ### edges that start at infinity -/

section sweep

variable {pts : Nat → ℝ × ℝ} {q : PQ (QE ℝ)} {ok : List (QE ℝ) → Prop} {n : Nat} {poly : Poly ℝ} {s : St ℝ}

/-- A half-edge without a start. -/
def FromInfinity (d : Dcel ℝ) (e p : Nat) : Prop := e < d.heCnt ∧ (d.he e).incident = some p ∧ ∃ b, (d.he e).origin = .bp b

/-- An outermost site is on the beach line after the sweep. -/
theorem outermost_arc (hd : Distinct pts n) (hq : q.Spec evLt ok) (h : Reach pts q n poly s) (hend : s.queue = []) {p : Nat} (hp : Outermost pts n p) :
    ∃ L, Inv pts ok n poly.points.length s L ∧ p ∈ origs s.og L := by
  obtain ⟨d, hv, hpn, hfar⟩ := hp
  obtain ⟨hH, ⟨L, l, hI, hG, hK, hE, hall, _⟩, _⟩ := known_end hd.injOn hq h hend (by omega)
  refine ⟨L, hI, ?_⟩
  set D := √ (d.1 ^ 2 + d.2 ^ 2) with hD
  have hD2 : D ^ 2 = d.1 ^ 2 + d.2 ^ 2 := Real.sq_sqrt (by positivity)
  have hD0 : 0 ≤ D := Real.sqrt_nonneg _
  have hg : 0 < D - d.2 := by
    rcases hv with h1 | h1
    · have : 0 < d.1 ^ 2 := by positivity
      have : d.2 < D := Real.lt_sqrt_of_sq_lt (by linarith)
      linarith
    · linarith
  set g := D - d.2 with hgd
  set t := (|(pts p).2 - l| + 1) / g with ht
  have ht0 : 0 < t := by positivity
  have htg : t * g = |(pts p).2 - l| + 1 := by rw [ht]; field_simp
  set z : Pt := ((pts p).1 + t * d.1, (pts p).2 + t * d.2) with hz
  set m := (pts p).2 - t * g with hm
  have hml : m ≤ l := by rw [hm, htg]; linarith [le_abs_self ((pts p).2 - l)]
  have hmp : m < (pts p).2 := by rw [hm, htg]; linarith [abs_nonneg ((pts p).2 - l)]
  have hzm : z.2 - m = t * D := by simp only [hz, hm, hgd]; ring
  have hpw : ∀ c : Pt, pw c m z = (c.1 - (pts p).1) ^ 2 + (c.2 - (pts p).2) ^ 2 + 2 * t * ((d.1 * (pts p).1 + d.2 * (pts p).2) - (d.1 * c.1 + d.2 * c.2)) := by
    intro c
    unfold pw dsq
    rw [hzm, mul_pow, hD2]
    simp only [hz]
    ring
  have hemp : Emp (Handled pts s) m z := by
    refine ⟨by nlinarith [mul_nonneg ht0.le hD0], fun c hc => ?_⟩
    rw [hH] at hc
    obtain ⟨i, hi, rfl⟩ := hc
    rw [hpw]
    have := mul_nonneg ht0.le (sub_nonneg.mpr (hfar i hi))
    nlinarith [sq_nonneg ((pts i).1 - (pts p).1), sq_nonneg ((pts i).2 - (pts p).2)]
  have honly : ∀ c, OnC (Handled pts s) m z c → c = pts p := by
    rintro c ⟨hc, h0⟩
    rw [hH] at hc
    obtain ⟨i, hi, rfl⟩ := hc
    rw [hpw] at h0
    have := mul_nonneg ht0.le (sub_nonneg.mpr (hfar i hi))
    have e1 : ((pts i).1 - (pts p).1) ^ 2 = 0 := by nlinarith [sq_nonneg ((pts i).1 - (pts p).1), sq_nonneg ((pts i).2 - (pts p).2)]
    have e2 : ((pts i).2 - (pts p).2) ^ 2 = 0 := by nlinarith [sq_nonneg ((pts i).1 - (pts p).1), sq_nonneg ((pts i).2 - (pts p).2)]
    exact Prod.ext (by linarith [pow_eq_zero_iff (two_ne_zero) |>.mp e1]) (by linarith [pow_eq_zero_iff (two_ne_zero) |>.mp e2])
  have hon : OnC (Handled pts s) m z (pts p) := ⟨by rw [hH]; exact ⟨p, hpn, rfl⟩, by rw [hpw]; ring⟩
  rcases (hall m hml).known.arc z hemp (pts p) hon hmp with ⟨B, C, hBC, _⟩ | ⟨_, a, b, c, hab, _, _, ha, hb, _⟩
  · have hmem : pts p ∈ apts pts s L := by rw [hBC]; simp
    obtain ⟨i, hi, hip⟩ := List.mem_map.mp hmem
    have hin : i < n := by
      obtain ⟨k, hk⟩ := Option.isSome_iff_exists.mp (hI.sinv.used i hi)
      exact (hI.sinv.nmLt i k hk).2
    rw [hd i hin p hpn hip] at hi
    exact hi
  · exact absurd ((honly a ha).trans (honly b hb).symm) hab

/-- If the other side of an edge starts at infinity, so does a half-edge on this side. -/
theorem open_twin {L : List (Item Dat)} (hI : Inv pts ok n poly.points.length s L) {e t a : Nat} (he : e < s.d.heCnt) (hb : ∃ b, (s.d.he e).origin = .bp b)
    (ht : (s.d.he e).twin = some t) (ha : (s.d.he t).incident = some a) : ∃ f, FromInfinity s.d f a := by
  by_contra hno
  obtain ⟨t', h1, h2, _, h4⟩ := hI.dinv.tw e he
  rw [ht, Option.some.injEq] at h1
  subst h1
  set X := (Finset.range s.d.heCnt).filter fun f => (s.d.he f).incident = some a with hX
  have hpv : ∀ f ∈ X, ∃ g ∈ X, (s.d.he f).prev = some g ∧ (s.d.he g).next = some f := by
    intro f hf
    simp only [hX, Finset.mem_filter, Finset.mem_range] at hf
    cases hp : (s.d.he f).prev with
    | none => exact (hno ⟨f, hf.1, hf.2, (hI.dinv.pvn f hf.1).mp hp⟩).elim
    | some g =>
      obtain ⟨g1, g2⟩ := hI.dinv.pv f hf.1 g hp
      obtain ⟨_, _, g3, _⟩ := hI.dinv.nx g g1 f g2
      exact ⟨g, by simp only [hX, Finset.mem_filter, Finset.mem_range]; exact ⟨g1, g3 ▸ hf.2⟩, rfl, g2⟩
  have htX : t ∈ X := by simp only [hX, Finset.mem_filter, Finset.mem_range]; exact ⟨h2, ha⟩
  obtain ⟨f, hf, hft⟩ := Finset.surjOn_of_injOn_of_card_le (s := X) (t := X) (fun f => ((s.d.he f).prev).getD 0) (fun f hf => by
      obtain ⟨g, g1, g2, _⟩ := hpv f hf
      simpa [g2] using g1) (fun f hf f' hf' hff => by
      obtain ⟨g, _, g2, g3⟩ := hpv f hf
      obtain ⟨g', _, g2', g3'⟩ := hpv f' hf'
      simp only [g2, g2', Option.getD_some] at hff
      subst hff
      rw [g3, Option.some.injEq] at g3'
      exact g3') le_rfl htX
  obtain ⟨g, _, g2, g3⟩ := hpv f hf
  simp only [g2, Option.getD_some] at hft
  subst hft
  rw [(hI.dinv.nxn g h2 e h4).mpr hb] at g3
  cases g3

/-- Each site on the beach line has a half-edge that starts at infinity. -/
theorem open_of_arc {L : List (Item Dat)} (hI : Inv pts ok n poly.points.length s L) (h2 : 2 ≤ s.nextName) {p : Nat} (hp : p ∈ origs s.og L) :
    ∃ e, FromInfinity s.d e p := by
  have hlen := hI.cinv.two h2
  obtain ⟨x, hx, hxp⟩ := List.mem_filterMap.mp hp
  obtain ⟨A, B, rfl⟩ := List.append_of_mem hx
  obtain ⟨i, a, rfl, rfl⟩ : ∃ i a, x = ⟨i, true, .arc a⟩ ∧ s.og a = p := by
    rcases hI.beach.kindsOk x hx with ⟨a, e1, e2⟩ | ⟨b, e1, e2⟩
    · obtain ⟨i, f, dd⟩ := x
      simp only at e1 e2
      subst e1; subst e2
      exact ⟨i, a, rfl, by simpa [iOrg] using hxp⟩
    · obtain ⟨i, f, dd⟩ := x
      simp only at e1 e2
      subst e1; subst e2
      simp [iOrg] at hxp
  have tbp := hI.dinv.tbp
  rcases List.eq_nil_or_concat A with rfl | ⟨A', y, rfl⟩
  · cases B with
    | nil => simp at hlen
    | cons y B' =>
      have hr : BRel s.og s.pr ⟨i, true, .arc a⟩ y := by
        have := hI.beach.chain
        simp only [List.nil_append, List.isChain_cons_cons] at this
        exact this.1
      obtain ⟨j, f, dd⟩ := y
      cases f with
      | true => cases dd <;> exact hr.elim
      | false =>
      cases dd with
      | arc _ => exact hr.elim
      | bp b =>
      obtain ⟨e, e1, e2, e3⟩ := tbp j b (by simp)
      obtain ⟨_, _, _, e4⟩ := hI.dinv.obp e e1 b e3
      obtain ⟨t, t1, _⟩ := hI.dinv.tw e e1
      exact open_twin hI e1 ⟨b, e3⟩ t1 ((e4 t t1).trans (congrArg some hr))
  · have hr : BRel s.og s.pr y ⟨i, true, .arc a⟩ := by
      have := hI.beach.chain
      rw [List.concat_eq_append, List.append_assoc, List.singleton_append, List.isChain_append] at this
      have := this.2.1
      rw [List.isChain_cons_cons] at this
      exact this.1
    obtain ⟨j, f, dd⟩ := y
    cases f with
    | true => cases dd <;> exact hr.elim
    | false =>
    cases dd with
    | arc _ => exact hr.elim
    | bp b =>
    obtain ⟨e, e1, e2, e3⟩ := tbp j b (by simp)
    obtain ⟨_, _, e4, _⟩ := hI.dinv.obp e e1 b e3
    exact ⟨e, e1, e4.trans (congrArg some hr), b, e3⟩

open Classical in
/-- Three half-edges start at each vertex. -/
theorem three_verts {L : List (Item Dat)} (hI : Inv pts ok n poly.points.length s L) :
    3 * s.verts.length ≤ ((Finset.range s.d.heCnt).filter fun e => ∃ v, (s.d.he e).origin = Org.vtx v).card := by
  set f : Nat → Nat := fun e => match (s.d.he e).origin with | .vtx v => v | .bp _ => 0 with hf
  set X := (Finset.range s.d.heCnt).filter fun e => ∃ v, (s.d.he e).origin = Org.vtx v with hX
  have hfv : ∀ e v, (s.d.he e).origin = .vtx v → f e = v := by intro e v h; simp [hf, h]
  have hmap : ∀ e ∈ X, f e ∈ s.verts.toFinset := by
    intro e he
    simp only [hX, Finset.mem_filter, Finset.mem_range] at he
    obtain ⟨he, v, hv⟩ := he
    rw [hfv e v hv, List.mem_toFinset]
    exact (hI.dinv.ovt e he v hv).1
  rw [Finset.card_eq_sum_card_fiberwise hmap, ← List.toFinset_card_of_nodup hI.dinv.vnd, mul_comm, ← smul_eq_mul, ← Finset.sum_const]
  refine Finset.sum_le_sum fun v hv => ?_
  obtain ⟨_, _, p, x, r, e1, e2, e3, hk⟩ := hI.dinv.vts v (List.mem_toFinset.mp hv)
  have hsub : ({e1, e2, e3} : Finset Nat) ⊆ X.filter fun e => f e = v := by
    intro e he
    simp only [Finset.mem_insert, Finset.mem_singleton] at he
    simp only [hX, Finset.mem_filter, Finset.mem_range]
    rcases he with rfl | rfl | rfl
    · exact ⟨⟨hk.lt.1, v, hk.org.1⟩, hfv _ v hk.org.1⟩
    · exact ⟨⟨hk.lt.2.1, v, hk.org.2.1⟩, hfv _ v hk.org.2.1⟩
    · exact ⟨⟨hk.lt.2.2, v, hk.org.2.2⟩, hfv _ v hk.org.2.2⟩
  have hc : ({e1, e2, e3} : Finset Nat).card = 3 := by
    rw [Finset.card_eq_three]
    exact ⟨e1, e2, e3, hk.ne12, hk.ne13, hk.ne23, rfl⟩
  rw [← hc]
  exact Finset.card_le_card hsub

/-- C139: with exact arithmetic, after the sweep of at least two sites: the number of vertices and of outermost sites, together, is at most
`2 n - 2`. -/
theorem C139_outermost (hd : Distinct pts n) (hn : 2 ≤ n) (hq : q.Spec evLt ok) (h : Reach pts q n poly s) (hend : s.queue = [])
    {U : Finset Nat} (hU : ∀ p ∈ U, Outermost pts n p) :
    s.verts.length + U.card + 2 ≤ 2 * n ∧ s.edges.length + U.card + 3 ≤ 3 * n := by
  classical
  obtain ⟨L, hI⟩ := reach_inv hq h
  obtain ⟨hnn, _⟩ := hI.done hend
  have hedge := hI.cinv.edges
  have hcnt := hI.dinv.ecnt
  have h3 := three_verts hI
  have hopen : ∀ p ∈ U, ∃ e, FromInfinity s.d e p := by
    intro p hp
    obtain ⟨L', hI', hp'⟩ := outermost_arc hd hq h hend (hU p hp)
    exact open_of_arc hI' (by omega) hp'
  have hUc : U.card ≤ ((Finset.range s.d.heCnt).filter fun e => ¬ ∃ v, (s.d.he e).origin = Org.vtx v).card := by
    refine Finset.card_le_card_of_surjOn (fun e => ((s.d.he e).incident).getD 0) fun p hp => ?_
    obtain ⟨e, e1, e2, b, e3⟩ := hopen p hp
    refine ⟨e, ?_, by simp [e2]⟩
    simp only [Finset.coe_filter, Finset.mem_range, Set.mem_setOf_eq]
    refine ⟨e1, ?_⟩
    rintro ⟨v, hv⟩
    rw [e3] at hv
    cases hv
  have hsplit := Finset.card_filter_add_card_filter_not (s := Finset.range s.d.heCnt) (fun e => ∃ v, (s.d.he e).origin = Org.vtx v)
  rw [Finset.card_range] at hsplit
  omega

/-- C139: for `n ≥ 3` distinct sites there are at most `2 n - 5` vertices and `3 n - 6` edges. -/
theorem C139_planar (hd : Distinct pts n) (hn : 3 ≤ n) (hq : q.Spec evLt ok) (h : Reach pts q n poly s) (hend : s.queue = []) :
    s.verts.length + 5 ≤ 2 * n ∧ s.edges.length + 6 ≤ 3 * n := by
  obtain ⟨a, b, c, ha, hb, hc, hab, hac, hbc⟩ := exists_three hd hn
  have h3 : ({a, b, c} : Finset Nat).card = 3 := Finset.card_eq_three.mpr ⟨a, b, c, hab, hac, hbc, rfl⟩
  have := C139_outermost hd (by omega) hq h hend (U := {a, b, c}) (by
    intro p hp
    simp only [Finset.mem_insert, Finset.mem_singleton] at hp
    rcases hp with rfl | rfl | rfl <;> assumption)
  omega

/-- C139: some site has at most five half-edges. -/
theorem C139_five (hd : Distinct pts n) (hn : 1 ≤ n) (hq : q.Spec evLt ok) (h : Reach pts q n poly s) (hend : s.queue = []) :
    ∃ p < n, ((Finset.range s.d.heCnt).filter fun e => (s.d.he e).incident = some p).card ≤ 5 := by
  by_contra hno
  push Not at hno
  have hcnt := (C09_sides hq h).2.2.2
  have hmap : ∀ e ∈ Finset.range s.d.heCnt, (s.d.he e).incident ∈ (Finset.range n).image some := by
    intro e he
    obtain ⟨t, p, r, _, h2, _, _, h5, _⟩ := (C09_sides hq h).1 e (Finset.mem_range.mp he)
    exact Finset.mem_image.mpr ⟨p, Finset.mem_range.mpr h5, h2.symm⟩
  have hsum := Finset.card_eq_sum_card_fiberwise hmap
  rw [Finset.card_range, Finset.sum_image (fun a _ b _ hab => Option.some.inj hab)] at hsum
  have hge : ∑ _p ∈ Finset.range n, 6 ≤ s.d.heCnt := by
    rw [hsum]
    exact Finset.sum_le_sum fun p hp => hno p (Finset.mem_range.mp hp)
  rw [Finset.sum_const, Finset.card_range, smul_eq_mul] at hge
  have hle : s.edges.length + 1 ≤ 3 * n := by
    by_cases h3 : 3 ≤ n
    · have := (C139_planar hd h3 hq h hend).2; omega
    by_cases h2 : 2 ≤ n
    · have := (C139_outermost hd h2 hq h hend (U := ∅) (by simp)).2; omega
    obtain ⟨L, hI⟩ := reach_inv hq h
    obtain ⟨hnn, _⟩ := hI.done hend
    have he := hI.cinv.edges
    have := hI.cinv.arcs
    omega
  omega

/-- The hypotheses can be met, and for three sites the bounds are sharp: one vertex (1, 1), three edges. -/
example (poly : Poly ℝ) : ∃ s, Reach tri3 heapq 3 poly s ∧ s.queue = [] ∧ s.verts.length = 1 ∧ s.edges.length = 3 := by
  obtain ⟨s, _, _, hr, hend⟩ := C23_no_errors (poly := poly) tri3_distinct C45_event_queue (fuel := 22) (by norm_num)
  obtain ⟨h1, h2⟩ := C139_planar tri3_distinct le_rfl C45_event_queue hr hend
  obtain ⟨v, hv, _⟩ := (C60_vertices tri3_distinct C45_event_queue hr hend (1, 1)).mp
    ⟨0, 1, 2, by norm_num, by norm_num, by norm_num, tri3_nearest (by norm_num), tri3_nearest (by norm_num), tri3_nearest (by norm_num)⟩
  have h3 := List.length_pos_of_mem hv
  obtain ⟨L, hI⟩ := reach_inv C45_event_queue hr
  obtain ⟨hnn, _⟩ := hI.done hend
  have h4 := hI.cinv.edges
  exact ⟨s, hr, hend, by omega, by omega⟩

end sweep

end Foronoi
