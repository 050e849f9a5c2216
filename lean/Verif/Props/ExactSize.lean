import Mathlib.Tactic.IntervalCases
import Verif.Props.Hull
import Verif.Props.Unique

/-!
# C141: the size of the diagram

With `h` sites on the border of the convex hull there are `2 n - 2 - h` vertices and `3 n - 3 - h` edges, unless all sites are on one line:
then there is no vertex.
-/

namespace Foronoi

open scoped List

/-- All sites are on one line. -/
def AllOnLine (pts : Nat → ℝ × ℝ) (n : Nat) : Prop := ∃ d : ℝ × ℝ, d ≠ 0 ∧ ∃ k : ℝ, ∀ c < n, d.1 * (pts c).1 + d.2 * (pts c).2 = k

variable {pts : Nat → ℝ × ℝ} {q : PQ (QE ℝ)} {ok : List (QE ℝ) → Prop} {n : Nat} {poly : Poly ℝ} {s : St ℝ}

private theorem sq_sum_pos {d : ℝ × ℝ} (hd : d ≠ 0) : 0 < d.1 ^ 2 + d.2 ^ 2 := by
  by_contra hcon
  have h1 : d.1 ^ 2 = 0 := by nlinarith [sq_nonneg d.1, sq_nonneg d.2]
  have h2 : d.2 ^ 2 = 0 := by nlinarith [sq_nonneg d.1, sq_nonneg d.2]
  exact hd (Prod.ext (pow_eq_zero_iff two_ne_zero |>.mp h1) (pow_eq_zero_iff two_ne_zero |>.mp h2))

/-- A linear function that is not negative from some point on. -/
private theorem line_nonneg {A B T : ℝ} (h : ∀ τ, T ≤ τ → 0 ≤ A + 2 * τ * B) : 0 ≤ B := by
  by_contra hB
  push Not at hB
  have h1 := h (max T ((A + 1) / (-(2 * B)))) (le_max_left _ _)
  have h2 := le_max_right T ((A + 1) / (-(2 * B)))
  have h3 : (A + 1) / (-(2 * B)) * (-(2 * B)) = A + 1 := div_mul_cancel₀ _ (by linarith)
  nlinarith

private theorem dot_sq {a b x y : ℝ} (hX : b * x - a * y = 0) : (a * x + b * y) ^ 2 = (a ^ 2 + b ^ 2) * (x ^ 2 + y ^ 2) := by
  have : (a * x + b * y) ^ 2 + (b * x - a * y) ^ 2 = (a ^ 2 + b ^ 2) * (x ^ 2 + y ^ 2) := by ring
  rw [hX] at this
  linarith

private theorem not_perp {a b x y : ℝ} (hX : b * x - a * y = 0) (hP : 0 < a ^ 2 + b ^ 2) (hP' : 0 < x ^ 2 + y ^ 2) (h0 : a * x + b * y = 0) : False := by
  have hL := dot_sq hX
  have := mul_pos hP hP'
  rw [h0] at hL
  linarith

private theorem same_dir {a b x y : ℝ} (hX : b * x - a * y = 0) (h1 : 0 ≤ x * (x - a) + y * (y - b)) (h2 : 0 ≤ a * (a - x) + b * (b - y))
    (hP : 0 < a ^ 2 + b ^ 2) (hP' : 0 < x ^ 2 + y ^ 2) (hpos : 0 < a * x + b * y) : a - x = 0 ∧ b - y = 0 := by
  have hL := dot_sq hX
  have s1 : a * x + b * y ≤ x ^ 2 + y ^ 2 := by linarith
  have s2 : a * x + b * y ≤ a ^ 2 + b ^ 2 := by linarith
  have t1 : x ^ 2 + y ^ 2 ≤ a * x + b * y := by
    refine le_of_mul_le_mul_left ?_ hP
    rw [← hL, sq]
    exact mul_le_mul_of_nonneg_right s2 hpos.le
  have t2 : a ^ 2 + b ^ 2 ≤ a * x + b * y := by
    refine le_of_mul_le_mul_right ?_ hP'
    rw [← hL, sq]
    exact mul_le_mul_of_nonneg_left s1 hpos.le
  have s3 : (a - x) ^ 2 + (b - y) ^ 2 ≤ 0 := by linarith
  have s4 : (a - x) ^ 2 = 0 := by linarith [sq_nonneg (a - x), sq_nonneg (b - y)]
  have s5 : (b - y) ^ 2 = 0 := by linarith [sq_nonneg (a - x), sq_nonneg (b - y)]
  exact ⟨pow_eq_zero_iff two_ne_zero |>.mp s4, pow_eq_zero_iff two_ne_zero |>.mp s5⟩

/-- All points far enough behind on a half-edge that starts at infinity are nearest to its two sites. -/
theorem ray_points (hd : Distinct pts n) (hq : q.Spec evLt ok) (h : Reach pts q n poly s) (hend : s.queue = []) {e p r : Nat}
    (he : FromInfinity s.d e p) (hs : Separates s.d e p r) (hne : pts r - pts p ≠ 0) : ∃ T : ℝ, ∀ τ, T ≤ τ →
      Nearest pts n p (((pts p).1 + (pts r).1) / 2 - τ * ((pts r).2 - (pts p).2), ((pts p).2 + (pts r).2) / 2 - τ * ((pts p).1 - (pts r).1)) := by
  obtain ⟨h1, h2, b, h3⟩ := he
  have hW := sq_sum_pos hne
  simp only [Prod.fst_sub, Prod.snd_sub] at hW
  set w : ℝ × ℝ := ((pts r).2 - (pts p).2, (pts p).1 - (pts r).1) with hw
  obtain ⟨c, hc⟩ : ∃ c : ℝ, ∀ x zx, EndsAt s.d e x → (s.d.vs x).pos = some zx →
      (((pts p).1 + (pts r).1) / 2 - zx.1) * w.1 + (((pts p).2 + (pts r).2) / 2 - zx.2) * w.2 ≤ c := by
    by_cases hx : ∃ x zx, EndsAt s.d e x ∧ (s.d.vs x).pos = some zx
    · obtain ⟨x, zx, ⟨t', ht', hx1⟩, hx2⟩ := hx
      refine ⟨(((pts p).1 + (pts r).1) / 2 - zx.1) * w.1 + (((pts p).2 + (pts r).2) / 2 - zx.2) * w.2, fun y zy ⟨t'', ht'', hy1⟩ hy2 => le_of_eq ?_⟩
      rw [ht', Option.some.injEq] at ht''
      subst ht''
      rw [hx1] at hy1
      cases hy1
      rw [hx2] at hy2
      cases hy2
      rfl
    · exact ⟨0, fun y zy hy1 hy2 => (hx ⟨y, zy, hy1, hy2⟩).elim⟩
  set W := ((pts r).1 - (pts p).1) ^ 2 + ((pts r).2 - (pts p).2) ^ 2 with hWd
  refine ⟨c / W, fun τ hτ => (C64_points_nearest hd hq h hend h1 hs ⟨?_, fun v zv hv _ => ?_, fun x zx hx hzx => ?_⟩).1⟩
  · unfold sqDist; ring
  · unfold StartsAt at hv; rw [h3] at hv; cases hv
  · have := hc x zx hx hzx
    have hτ' : c ≤ τ * W := (div_le_iff₀ hW).mp hτ
    have e : ahead (pts p) (pts r) zx (((pts p).1 + (pts r).1) / 2 - τ * ((pts r).2 - (pts p).2), ((pts p).2 + (pts r).2) / 2 - τ * ((pts p).1 - (pts r).1)) =
        (((pts p).1 + (pts r).1) / 2 - zx.1) * w.1 + (((pts p).2 + (pts r).2) / 2 - zx.2) * w.2 - τ * W := by
      unfold ahead; simp only [hWd, hw]; ring
    rw [e]
    linarith

/-- Seen from `p`, no site is on the far side of the other site of a half-edge that starts at infinity; on the line of the two, none is between. -/
theorem ray_side (hd : Distinct pts n) (hq : q.Spec evLt ok) (h : Reach pts q n poly s) (hend : s.queue = []) {e p r : Nat}
    (he : FromInfinity s.d e p) (hs : Separates s.d e p r) (hne : pts r - pts p ≠ 0) {c : Nat} (hc : c < n) :
    0 ≤ ((pts r).2 - (pts p).2) * ((pts c).1 - (pts p).1) - ((pts r).1 - (pts p).1) * ((pts c).2 - (pts p).2) ∧
    (((pts r).2 - (pts p).2) * ((pts c).1 - (pts p).1) - ((pts r).1 - (pts p).1) * ((pts c).2 - (pts p).2) = 0 →
      0 ≤ ((pts c).1 - (pts p).1) * ((pts c).1 - (pts r).1) + ((pts c).2 - (pts p).2) * ((pts c).2 - (pts r).2)) := by
  obtain ⟨T, hT⟩ := ray_points hd hq h hend he hs hne
  have key : ∀ τ, T ≤ τ → 0 ≤ (((pts c).1 - (pts p).1) * ((pts c).1 - (pts r).1) + ((pts c).2 - (pts p).2) * ((pts c).2 - (pts r).2)) +
      2 * τ * (((pts r).2 - (pts p).2) * ((pts c).1 - (pts p).1) - ((pts r).1 - (pts p).1) * ((pts c).2 - (pts p).2)) := by
    intro τ hτ
    have := (hT τ hτ).2 c hc
    unfold sqDist at this
    simp only at this
    nlinarith
  refine ⟨line_nonneg key, fun h0 => ?_⟩
  have := key T le_rfl
  rw [h0] at this
  linarith

/-- C141: unless all sites are on one line, no site has two half-edges that start at infinity. -/
theorem C141_one_ray (hd : Distinct pts n) (hq : q.Spec evLt ok) (h : Reach pts q n poly s) (hend : s.queue = []) (hline : ¬ AllOnLine pts n)
    {e f p : Nat} (he : FromInfinity s.d e p) (hf : FromInfinity s.d f p) : e = f := by
  obtain ⟨t, p1, r, g1, g2, g3, g4, g5, g6, _⟩ := (C09_sides hq h).1 e he.1
  rw [he.2.1, Option.some.injEq] at g2
  subst g2
  obtain ⟨t', p1, r', k1, k2, k3, k4, k5, k6, _⟩ := (C09_sides hq h).1 f hf.1
  rw [hf.2.1, Option.some.injEq] at k2
  subst k2
  have hse : Separates s.d e p r := ⟨he.2.1, t, g1, g3⟩
  have hsf : Separates s.d f p r' := ⟨hf.2.1, t', k1, k3⟩
  have hne : pts r - pts p ≠ 0 := fun hh => g4 (hd p g5 r g6 (sub_eq_zero.mp hh).symm)
  have hne' : pts r' - pts p ≠ 0 := fun hh => k4 (hd p k5 r' k6 (sub_eq_zero.mp hh).symm)
  obtain ⟨a1, a2⟩ := ray_side hd hq h hend he hse hne k6
  obtain ⟨b1, b2⟩ := ray_side hd hq h hend hf hsf hne' g6
  have hX : ((pts r).2 - (pts p).2) * ((pts r').1 - (pts p).1) - ((pts r).1 - (pts p).1) * ((pts r').2 - (pts p).2) = 0 := by linarith
  have a3 := a2 hX
  have b3 := b2 (by linarith)
  have hP := sq_sum_pos hne
  have hP' := sq_sum_pos hne'
  simp only [Prod.fst_sub, Prod.snd_sub] at hP hP'
  set ax := (pts r).1 - (pts p).1 with hax
  set ay := (pts r).2 - (pts p).2 with hay
  set bx := (pts r').1 - (pts p).1 with hbx
  set yb := (pts r').2 - (pts p).2 with hby
  have e1 : (pts r').1 - (pts r).1 = bx - ax := by rw [hbx, hax]; ring
  have e2 : (pts r').2 - (pts r).2 = yb - ay := by rw [hby, hay]; ring
  have e3 : (pts r).1 - (pts r').1 = ax - bx := by rw [hbx, hax]; ring
  have e4 : (pts r).2 - (pts r').2 = ay - yb := by rw [hby, hay]; ring
  rw [e1, e2] at a3
  rw [e3, e4] at b3
  rcases lt_trichotomy (ax * bx + ay * yb) 0 with hneg | h0 | hpos
  · refine (hline ⟨(ay, -ax), fun hh => ?_, ay * (pts p).1 - ax * (pts p).2, fun c hc => ?_⟩).elim
    · have z1 : ay = 0 := congrArg Prod.fst hh
      have z2 : -ax = 0 := congrArg Prod.snd hh
      have z3 : ax = 0 := by linarith
      rw [z1, z3] at hP
      norm_num at hP
    · have c1 := (ray_side hd hq h hend he hse hne hc).1
      have c2 := (ray_side hd hq h hend hf hsf hne' hc).1
      rw [← hax, ← hay] at c1
      rw [← hbx, ← hby] at c2
      have e5 : (ax ^ 2 + ay ^ 2) * (yb * ((pts c).1 - (pts p).1) - bx * ((pts c).2 - (pts p).2)) =
          (ax * bx + ay * yb) * (ay * ((pts c).1 - (pts p).1) - ax * ((pts c).2 - (pts p).2)) := by
        linear_combination (-(ax * ((pts c).1 - (pts p).1)) - ay * ((pts c).2 - (pts p).2)) * hX
      have c3 : 0 ≤ (ax ^ 2 + ay ^ 2) * (yb * ((pts c).1 - (pts p).1) - bx * ((pts c).2 - (pts p).2)) := mul_nonneg hP.le c2
      rw [e5] at c3
      have c4 : ay * ((pts c).1 - (pts p).1) - ax * ((pts c).2 - (pts p).2) = 0 := by nlinarith
      simp only
      linarith
  · exact (not_perp hX hP hP' h0).elim
  · obtain ⟨s6, s7⟩ := same_dir hX a3 b3 hP hP' hpos
    have hrr : r = r' := hd r g6 r' k6 (Prod.ext (by linarith) (by linarith))
    subst hrr
    refine C69_no_duplicate hd hq h hend he.1 hf.1 hse hsf ?_ ?_
    · rintro ⟨v, w, z, hv, _⟩
      obtain ⟨_, _, b, hb⟩ := he
      unfold StartsAt at hv; rw [hb] at hv; cases hv
    · rintro ⟨v, w, z, hv, _⟩
      obtain ⟨_, _, b, hb⟩ := hf
      unfold StartsAt at hv; rw [hb] at hv; cases hv

open Classical in
/-- Exactly three half-edges start at each vertex. -/
theorem three_verts_eq {L : List (Item Dat)} (hI : Inv pts ok n poly.points.length s L) :
    ((Finset.range s.d.heCnt).filter fun e => ∃ v, (s.d.he e).origin = Org.vtx v).card = 3 * s.verts.length := by
  refine le_antisymm ?_ (three_verts hI)
  have hsub : ((Finset.range s.d.heCnt).filter fun e => ∃ v, (s.d.he e).origin = Org.vtx v) ⊆ s.verts.toFinset.biUnion fun v => (s.d.vs v).conn.toFinset := by
    intro e he
    simp only [Finset.mem_filter, Finset.mem_range] at he
    obtain ⟨he, v, hv⟩ := he
    obtain ⟨h1, h2⟩ := hI.dinv.ovt e he v hv
    simp only [Finset.mem_biUnion, List.mem_toFinset]
    exact ⟨v, h1, h2⟩
  refine (Finset.card_le_card hsub).trans (Finset.card_biUnion_le.trans ?_)
  rw [← List.toFinset_card_of_nodup hI.dinv.vnd, mul_comm, ← smul_eq_mul, ← Finset.sum_const]
  refine Finset.sum_le_sum fun v hv => ?_
  obtain ⟨_, _, p, x, r, e1, e2, e3, hk⟩ := hI.dinv.vts v (List.mem_toFinset.mp hv)
  refine (List.toFinset_card_le _).trans (le_of_eq ?_)
  rcases hk.conn with h | h <;> rw [h] <;> rfl

open Classical in
/-- C141: unless all sites are on one line there are `2 n - 2 - h` vertices and `3 n - 3 - h` edges, where `h` is the number of sites than
which no other is further in some direction. -/
theorem C141_euler (hd : Distinct pts n) (hq : q.Spec evLt ok) (h : Reach pts q n poly s) (hend : s.queue = []) (hline : ¬ AllOnLine pts n) :
    s.verts.length + ((Finset.range n).filter fun p => ∃ d : ℝ × ℝ, d ≠ 0 ∧ Furthest pts n d p).card + 2 = 2 * n ∧
    s.edges.length + ((Finset.range n).filter fun p => ∃ d : ℝ × ℝ, d ≠ 0 ∧ Furthest pts n d p).card + 3 = 3 * n := by
  have hn : 2 ≤ n := by
    by_contra hn
    refine hline ⟨(1, 0), fun hh => one_ne_zero (congrArg Prod.fst hh), (pts 0).1, fun c hc => ?_⟩
    obtain rfl : c = 0 := by omega
    simp
  obtain ⟨L, hI⟩ := reach_inv hq h
  obtain ⟨hnn, _⟩ := hI.done hend
  have hedge := hI.cinv.edges
  have hcnt := hI.dinv.ecnt
  have h3 := three_verts_eq hI
  have hU : ((Finset.range s.d.heCnt).filter fun e => ¬ ∃ v, (s.d.he e).origin = Org.vtx v).card =
      ((Finset.range n).filter fun p => ∃ d : ℝ × ℝ, d ≠ 0 ∧ Furthest pts n d p).card := by
    have hfi : ∀ e ∈ (Finset.range s.d.heCnt).filter fun e => ¬ ∃ v, (s.d.he e).origin = Org.vtx v, ∃ p < n, FromInfinity s.d e p := by
      intro e he
      simp only [Finset.mem_filter, Finset.mem_range] at he
      obtain ⟨t, p, r, _, g2, _, _, g5, _⟩ := (C09_sides hq h).1 e he.1
      cases ho : (s.d.he e).origin with
      | bp b => exact ⟨p, g5, he.1, g2, b, ho⟩
      | vtx v => exact (he.2 ⟨v, ho⟩).elim
    refine Finset.card_bij (fun e _ => ((s.d.he e).incident).getD 0) (fun e he => ?_) (fun e he f hf hef => ?_) (fun p hp => ?_)
    · obtain ⟨p, hp, hep⟩ := hfi e he
      simp only [hep.2.1, Option.getD_some, Finset.mem_filter, Finset.mem_range]
      exact ⟨hp, (C140_hull hd hn hq h hend p).mp ⟨e, hep⟩⟩
    · obtain ⟨p, hp, hep⟩ := hfi e he
      obtain ⟨p', hp', hfp⟩ := hfi f hf
      simp only [hep.2.1, hfp.2.1, Option.getD_some] at hef
      subst hef
      exact C141_one_ray hd hq h hend hline hep hfp
    · simp only [Finset.mem_filter, Finset.mem_range] at hp
      obtain ⟨e, he⟩ := (C140_hull hd hn hq h hend p).mpr hp.2
      obtain ⟨h1, h2, b, hb⟩ := he
      refine ⟨e, ?_, by simp [h2]⟩
      simp only [Finset.mem_filter, Finset.mem_range]
      refine ⟨h1, ?_⟩
      rintro ⟨v, hv⟩
      rw [hb] at hv
      cases hv
  have hsplit := Finset.card_filter_add_card_filter_not (s := Finset.range s.d.heCnt) (fun e => ∃ v, (s.d.he e).origin = Org.vtx v)
  rw [Finset.card_range] at hsplit
  omega

/-- C141: with all sites on one line there is no vertex, and one edge less than sites. -/
theorem C141_line (hd : Distinct pts n) (hn : 1 ≤ n) (hq : q.Spec evLt ok) (h : Reach pts q n poly s) (hend : s.queue = []) (hline : AllOnLine pts n) :
    s.verts = [] ∧ s.edges.length + 1 = n := by
  obtain ⟨L, hI⟩ := reach_inv hq h
  obtain ⟨hnn, _⟩ := hI.done hend
  have hedge := hI.cinv.edges
  have hv : s.verts = [] := by
    rw [List.eq_nil_iff_forall_not_mem]
    intro v hv
    obtain ⟨_, _, a, b, c, e1, e2, e3, hV⟩ := hI.dinv.vts v hv
    obtain ⟨_, _, _, hpos⟩ := hV.pos
    obtain ⟨i, j, k, hij, hjk, hik, hi, hj, hk⟩ := (C60_vertices hd hq h hend _).mpr ⟨v, hv, hpos⟩
    obtain ⟨d, hd0, m, hm⟩ := hline
    have hD := sq_sum_pos hd0
    have hsep : ∀ x y, x < n → y < n → x ≠ y → d.1 * (pts x).2 - d.2 * (pts x).1 ≠ d.1 * (pts y).2 - d.2 * (pts y).1 := by
      intro x y hx hy hxy heq
      have m1 := hm x hx
      have m2 := hm y hy
      refine hxy (hd x hx y hy (Prod.ext ?_ ?_))
      · have : (d.1 ^ 2 + d.2 ^ 2) * ((pts x).1 - (pts y).1) = 0 := by linear_combination d.1 * (m1 - m2) - d.2 * heq
        rcases mul_eq_zero.mp this with h0 | h0 <;> linarith
      · have : (d.1 ^ 2 + d.2 ^ 2) * ((pts x).2 - (pts y).2) = 0 := by linear_combination d.2 * (m1 - m2) + d.1 * heq
        rcases mul_eq_zero.mp this with h0 | h0 <;> linarith
    have hpar : ∀ x y z, x < n → y < n → x ≠ y → sqDist (pts x) z = sqDist (pts y) z →
        (d.1 * (pts x).2 - d.2 * (pts x).1) + (d.1 * (pts y).2 - d.2 * (pts y).1) = 2 * (d.1 * z.2 - d.2 * z.1) := by
      intro x y z hx hy hxy hxz
      have m1 := hm x hx
      have m2 := hm y hy
      have hs := sub_ne_zero.mpr (hsep x y hx hy hxy)
      apply mul_left_cancel₀ hs
      unfold sqDist at hxz
      linear_combination (d.1 ^ 2 + d.2 ^ 2) * hxz - (m1 - m2) * (d.1 * (pts x).1 + d.2 * (pts x).2 + d.1 * (pts y).1 + d.2 * (pts y).2 - 2 * (d.1 * z.1 + d.2 * z.2))
    have p1 := hpar i j _ hi.1 hj.1 hij (hi.eq hj)
    have p2 := hpar i k _ hi.1 hk.1 hik (hi.eq hk)
    exact hsep j k hj.1 hk.1 hjk (by linarith)
  rw [hv] at hedge
  simp only [List.length_nil, add_zero] at hedge
  exact ⟨hv, by omega⟩

/-- The hypotheses can be met: three corners and an inner site have three vertices and six edges. -/
example (poly : Poly ℝ) : ¬ AllOnLine inner4 4 ∧ ∃ s, Reach inner4 heapq 4 poly s ∧ s.queue = [] ∧ s.verts.length = 3 ∧ s.edges.length = 6 := by
  classical
  have hline : ¬ AllOnLine inner4 4 := by
    rintro ⟨d, hd0, k, hk⟩
    have h0 := hk 0 (by norm_num)
    have h1 := hk 1 (by norm_num)
    have h2 := hk 2 (by norm_num)
    simp [inner4] at h0 h1 h2
    exact hd0 (Prod.ext (by simp only [Prod.fst_zero]; linarith) (by simp only [Prod.snd_zero]; linarith))
  obtain ⟨s, _, _, hr, hend⟩ := C23_no_errors (poly := poly) inner4_distinct C45_event_queue (fuel := 40) (by norm_num)
  have hU : ((Finset.range 4).filter fun p => ∃ d : ℝ × ℝ, d ≠ 0 ∧ Furthest inner4 4 d p) = {0, 1, 2} := by
    ext p
    simp only [Finset.mem_filter, Finset.mem_range, Finset.mem_insert, Finset.mem_singleton]
    constructor
    · rintro ⟨hp, d, hd0, _, hf⟩
      by_contra hne
      obtain rfl : p = 3 := by omega
      have h0 := hf 0 (by norm_num)
      have h1 := hf 1 (by norm_num)
      have h2 := hf 2 (by norm_num)
      simp [inner4] at h0 h1 h2
      exact hd0 (Prod.ext (by simp only [Prod.fst_zero]; linarith) (by simp only [Prod.snd_zero]; linarith))
    · intro hp
      have hp3 : p < 3 := by omega
      refine ⟨by omega, inner4 p, fun h0 => ?_, by omega, fun r hr => ?_⟩
      · interval_cases p <;> simp [inner4, Prod.ext_iff] at h0
      · interval_cases p <;> interval_cases r <;> simp [inner4] <;> norm_num
  obtain ⟨h1, h2⟩ := C141_euler inner4_distinct C45_event_queue hr hend hline
  rw [hU] at h1 h2
  have hc : ({0, 1, 2} : Finset Nat).card = 3 := rfl
  rw [hc] at h1 h2
  exact ⟨hline, s, hr, hend, by omega, by omega⟩

/-- The hypotheses can be met: five sites on a sloping line have no vertex and four edges. -/
example (poly : Poly ℝ) : ∃ s, Reach (fun i => ((i : ℝ), 2 * (i : ℝ))) heapq 5 poly s ∧ s.queue = [] ∧ s.verts = [] ∧ s.edges.length = 4 := by
  have hdist : Distinct (fun i : Nat => ((i : ℝ), 2 * (i : ℝ))) 5 := fun i _ j _ hij => Nat.cast_injective (R := ℝ) (congrArg Prod.fst hij)
  obtain ⟨s, _, _, hr, hend⟩ := C23_no_errors (poly := poly) hdist C45_event_queue (fuel := 50) (by norm_num)
  obtain ⟨h1, h2⟩ := C141_line hdist (by norm_num) C45_event_queue hr hend
    ⟨(2, -1), fun hh => two_ne_zero (congrArg Prod.fst hh), 0, fun c _ => by ring⟩
  exact ⟨s, hr, hend, h1, by omega⟩

end Foronoi
