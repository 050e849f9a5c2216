import Verif.Props.Poly
import Mathlib.Topology.Algebra.Order.LiminfLimsup
import Mathlib.Topology.Instances.Real.Lemmas

/-!
# C114: which border points `inside` takes to be inside
-/

namespace Foronoi

open Filter Topology

/-- The property holds for all sufficiently small steps `a` to the right followed by sufficiently (depending on `a`) small steps `b` up. -/
def JustRightUp (P : ℝ × ℝ → Prop) (z : ℝ × ℝ) : Prop :=
  ∃ a₀ > 0, ∀ a, 0 < a → a < a₀ → ∃ b₀ > 0, ∀ b, 0 < b → b < b₀ → P (z.1 + a, z.2 + b)

theorem justRightUp_iff (P : ℝ × ℝ → Prop) (z : ℝ × ℝ) :
    JustRightUp P z ↔ ∀ᶠ a in 𝓝[>] (0 : ℝ), ∀ᶠ b in 𝓝[>] (0 : ℝ), P (z.1 + a, z.2 + b) := by
  unfold JustRightUp
  have key : ∀ Q : ℝ → Prop, (∀ᶠ a in 𝓝[>] (0 : ℝ), Q a) ↔ ∃ a₀ > 0, ∀ a, 0 < a → a < a₀ → Q a := by
    intro Q
    rw [Filter.Eventually, mem_nhdsGT_iff_exists_Ioo_subset]
    constructor
    · rintro ⟨u, hu, h⟩
      exact ⟨u, hu, fun a h1 h2 => h ⟨h1, h2⟩⟩
    · rintro ⟨u, hu, h⟩
      exact ⟨u, hu, fun a ha => h a ha.1 ha.2⟩
  simp only [key]

theorem ev_pos : ∀ᶠ a in 𝓝[>] (0 : ℝ), 0 < a := self_mem_nhdsWithin

theorem ev_lt {c : ℝ} (hc : 0 < c) : ∀ᶠ a in 𝓝[>] (0 : ℝ), a < c :=
  mem_of_superset (Ioo_mem_nhdsGT hc) fun _ h => h.2

/-- A number above `y` is above the numbers just above `y`. -/
theorem ev_above (p y : ℝ) : ∀ᶠ b in 𝓝[>] (0 : ℝ), (decide (p > y + b)) = decide (p > y) := by
  by_cases h : p > y
  · filter_upwards [ev_lt (sub_pos.mpr h)] with b hb
    rw [decide_eq_decide]
    constructor
    · intro _; exact h
    · intro _; show y + b < p; linarith
  · filter_upwards [ev_pos] with b hb
    rw [decide_eq_decide]
    constructor
    · intro h'; exact absurd (show y < p by linarith [show y + b < p from h']) h
    · intro h'; exact absurd h' h

theorem ev_cross (x y : ℝ) (p q : Pt) : ∀ᶠ a in 𝓝[>] (0 : ℝ), ∀ᶠ b in 𝓝[>] (0 : ℝ), crosses (x + a) (y + b) p q = crosses x y p q := by
  by_cases h : (decide (p.2 > y) != decide (q.2 > y)) = true
  · have hne : q.2 - p.2 ≠ 0 := by
      intro h0
      have : q.2 = p.2 := by linarith
      rw [this] at h; simp at h
    have hcont : ∀ c : ℝ, Tendsto (fun b : ℝ => (q.1 - p.1) * (y + b - p.2) / (q.2 - p.2) + p.1 - c) (𝓝[>] 0)
        (𝓝 ((q.1 - p.1) * (y - p.2) / (q.2 - p.2) + p.1 - c)) := by
      intro c
      have : Continuous fun b : ℝ => (q.1 - p.1) * (y + b - p.2) / (q.2 - p.2) + p.1 - c := by fun_prop
      have := (this.tendsto 0).mono_left (nhdsWithin_le_nhds (s := Set.Ioi (0 : ℝ)))
      simpa using this
    have hfin : ∀ a b : ℝ, decide (p.2 > y + b) = decide (p.2 > y) → decide (q.2 > y + b) = decide (q.2 > y) →
        ((x + a < (q.1 - p.1) * (y + b - p.2) / (q.2 - p.2) + p.1) ↔ x < (q.1 - p.1) * (y - p.2) / (q.2 - p.2) + p.1) →
        crosses (x + a) (y + b) p q = crosses x y p q := by
      intro a b h1 h2 h3
      unfold crosses
      rw [h1, h2, if_pos h, if_pos h]
      simp only [rMul, rSub, rAdd, rDiv _ _ hne, Option.bind_eq_bind, Option.bind_some]
      congr 1
      rw [decide_eq_decide]
      exact h3
    by_cases hx : x < (q.1 - p.1) * (y - p.2) / (q.2 - p.2) + p.1
    · filter_upwards [ev_lt (sub_pos.mpr hx)] with a ha
      filter_upwards [ev_above p.2 y, ev_above q.2 y, (hcont (x + a)).eventually_const_lt (u := 0) (by linarith)] with b h1 h2 h3
      exact hfin a b h1 h2 ⟨fun _ => hx, fun _ => by linarith⟩
    · filter_upwards [ev_pos] with a ha
      filter_upwards [ev_above p.2 y, ev_above q.2 y, (hcont (x + a)).eventually_lt_const (u := 0) (by push Not at hx; linarith)] with b h1 h2 h3
      exact hfin a b h1 h2 ⟨fun h' => by linarith, fun h' => absurd h' hx⟩
  · filter_upwards with a
    filter_upwards [ev_above p.2 y, ev_above q.2 y] with b h1 h2
    unfold crosses
    rw [h1, h2, if_neg h, if_neg h]

theorem ev_loop (x y : ℝ) : ∀ (L : List Pt) (acc : Bool),
    ∀ᶠ a in 𝓝[>] (0 : ℝ), ∀ᶠ b in 𝓝[>] (0 : ℝ), insideLoop (x + a) (y + b) L acc = insideLoop x y L acc
  | [], _ => by filter_upwards with a; filter_upwards with b; simp [insideLoop]
  | [_], _ => by filter_upwards with a; filter_upwards with b; simp [insideLoop]
  | p :: q :: rest, acc => by
    filter_upwards [ev_cross x y p q, ev_loop x y (q :: rest) acc, ev_loop x y (q :: rest) (!acc)] with a h1 h2 h3
    filter_upwards [h1, h2, h3] with b h1 h2 h3
    simp only [insideLoop, h1]
    cases crosses x y p q with
    | none => rfl
    | some c =>
      cases c
      · exact h2
      · exact h3

/-- C114: for any list of corners, `inside` gives for a point the answer it gives for the points just right of it and slightly above them. -/
theorem C114_just_right_up (l : List (ℝ × ℝ)) (z : ℝ × ℝ) : JustRightUp (fun w => inside l w = inside l z) z := by
  rw [justRightUp_iff]
  exact ev_loop z.1 z.2 _ _

theorem ev_side {p q : Pt} (hpq : p ≠ q) (z : Pt) :
    (∀ᶠ a in 𝓝[>] (0 : ℝ), ∀ᶠ b in 𝓝[>] (0 : ℝ), 0 < rightOf p q (z.1 + a, z.2 + b)) ∨
    (∀ᶠ a in 𝓝[>] (0 : ℝ), ∀ᶠ b in 𝓝[>] (0 : ℝ), rightOf p q (z.1 + a, z.2 + b) < 0) := by
  have e : ∀ a b : ℝ, rightOf p q (z.1 + a, z.2 + b) = rightOf p q z + (q.2 - p.2) * a - (q.1 - p.1) * b := by
    intro a b; unfold rightOf; ring
  have ca : Tendsto (fun a : ℝ => rightOf p q z + (q.2 - p.2) * a) (𝓝[>] 0) (𝓝 (rightOf p q z)) := by
    have : Continuous fun a : ℝ => rightOf p q z + (q.2 - p.2) * a := by fun_prop
    have := (this.tendsto 0).mono_left (nhdsWithin_le_nhds (s := Set.Ioi (0 : ℝ)))
    simpa using this
  have cb : ∀ a : ℝ, Tendsto (fun b : ℝ => rightOf p q z + (q.2 - p.2) * a - (q.1 - p.1) * b) (𝓝[>] 0) (𝓝 (rightOf p q z + (q.2 - p.2) * a)) := by
    intro a
    have : Continuous fun b : ℝ => rightOf p q z + (q.2 - p.2) * a - (q.1 - p.1) * b := by fun_prop
    have := (this.tendsto 0).mono_left (nhdsWithin_le_nhds (s := Set.Ioi (0 : ℝ)))
    simpa using this
  simp only [e]
  rcases lt_trichotomy (rightOf p q z) 0 with h | h | h
  · right
    filter_upwards [ca.eventually_lt_const h] with a ha
    exact (cb a).eventually_lt_const ha
  · rw [h]
    rw [h] at cb
    rcases lt_trichotomy (q.2 - p.2) 0 with h2 | h2 | h2
    · right
      filter_upwards [ev_pos] with a ha
      exact (cb a).eventually_lt_const (by nlinarith)
    · rw [h2]
      rcases lt_trichotomy (q.1 - p.1) 0 with h1 | h1 | h1
      · left
        filter_upwards with a
        filter_upwards [ev_pos] with b hb
        nlinarith
      · exact absurd (Prod.ext (by linarith) (by linarith)) hpq
      · right
        filter_upwards with a
        filter_upwards [ev_pos] with b hb
        nlinarith
    · left
      filter_upwards [ev_pos] with a ha
      exact (cb a).eventually_const_lt (by nlinarith)
  · left
    filter_upwards [ca.eventually_const_lt h] with a ha
    exact (cb a).eventually_const_lt ha

theorem corner_ne_succ {l : List Pt} (hc : ClockwiseConvex l) {i : Nat} (hi : i < l.length) : corner l i ≠ corner l (i + 1) := by
  obtain ⟨h3, hr⟩ := hc
  intro h
  rcases Nat.lt_or_ge (i + 1) l.length with h1 | h1
  · rcases Nat.lt_or_ge (i + 2) l.length with h2 | h2
    · have := hr i (i + 1) (i + 2) (by omega) (by omega) h2
      rw [h] at this; simp [rightOf] at this
    · have := hr 0 i (i + 1) (by omega) (by omega) h1
      rw [h] at this; unfold rightOf at this; nlinarith
  · have hl : i + 1 = l.length := by omega
    have h0 : corner l (i + 1) = corner l 0 := by unfold corner; rw [hl]; simp
    have := hr 0 1 i (by omega) (by omega) hi
    rw [h, h0] at this
    unfold rightOf at this; nlinarith

theorem ev_decided {l : List Pt} (hc : ClockwiseConvex l) (z : Pt) :
    JustRightUp (StrictlyInside l) z ∨ JustRightUp (StrictlyOutside l) z := by
  rw [justRightUp_iff, justRightUp_iff]
  by_cases h : ∃ i < l.length, ∀ᶠ a in 𝓝[>] (0 : ℝ), ∀ᶠ b in 𝓝[>] (0 : ℝ), rightOf (corner l i) (corner l (i + 1)) (z.1 + a, z.2 + b) < 0
  · obtain ⟨i, hi, h⟩ := h
    right
    filter_upwards [h] with a h
    filter_upwards [h] with b h
    exact ⟨i, hi, h⟩
  · left
    have hall : ∀ i ∈ Finset.range l.length, ∀ᶠ a in 𝓝[>] (0 : ℝ), ∀ᶠ b in 𝓝[>] (0 : ℝ),
        0 < rightOf (corner l i) (corner l (i + 1)) (z.1 + a, z.2 + b) := by
      intro i hi
      have hi := Finset.mem_range.mp hi
      exact (ev_side (corner_ne_succ hc hi) z).resolve_right fun h' => h ⟨i, hi, h'⟩
    have := (Filter.eventually_all_finset _).mpr hall
    filter_upwards [this] with a ha
    have := (Filter.eventually_all_finset _).mpr ha
    filter_upwards [this] with b hb
    intro i hi
    exact hb i (Finset.mem_range.mpr hi)

theorem justRightUp_and {P Q : ℝ × ℝ → Prop} {z : ℝ × ℝ} (h1 : JustRightUp P z) (h2 : JustRightUp Q z) : ∃ w, P w ∧ Q w := by
  rw [justRightUp_iff] at h1 h2
  obtain ⟨a, h1, h2⟩ := (h1.and h2).exists
  obtain ⟨b, h1, h2⟩ := (h1.and h2).exists
  exact ⟨_, h1, h2⟩

/-- C114: on a convex polygon listed clockwise, `inside` holds for a point, on the border or not, exactly if the points just right of it and slightly above them
are strictly inside, and does not hold exactly if these are strictly outside. -/
theorem C114_convex {l : List (ℝ × ℝ)} (hc : ClockwiseConvex l) (z : ℝ × ℝ) :
    (inside l z = some true ↔ JustRightUp (StrictlyInside l) z) ∧ (inside l z = some false ↔ JustRightUp (StrictlyOutside l) z) := by
  have hI : JustRightUp (StrictlyInside l) z → inside l z = some true := by
    intro h
    obtain ⟨w, h1, h2⟩ := justRightUp_and h (C114_just_right_up l z)
    rw [← h2]; exact (C31_convex hc w).1 h1
  have hO : JustRightUp (StrictlyOutside l) z → inside l z = some false := by
    intro h
    obtain ⟨w, h1, h2⟩ := justRightUp_and h (C114_just_right_up l z)
    rw [← h2]; exact (C31_convex hc w).2 h1
  refine ⟨⟨fun h => ?_, hI⟩, ⟨fun h => ?_, hO⟩⟩
  · rcases ev_decided hc z with h' | h'
    · exact h'
    · rw [hO h'] at h; cases h
  · rcases ev_decided hc z with h' | h'
    · rw [hI h'] at h; cases h
    · exact h'

/-- On a box (see C30) `inside` counts the points of the left and the lower side as inside and those of the right and the upper side as outside. -/
theorem inside_box {l r b t : ℝ} (hlr : l < r) (hbt : b < t) (z : ℝ × ℝ) :
    inside [((l, t) : ℝ × ℝ), (r, t), (r, b), (l, b)] z = some (decide (l ≤ z.1 ∧ z.1 < r ∧ b ≤ z.2 ∧ z.2 < t)) := by
  have h1 : t - b ≠ 0 := by linarith
  have h2 : b - t ≠ 0 := by linarith
  simp only [inside, List.take, List.cons_append, List.nil_append, insideLoop, crosses, rMul, rSub, rAdd, gt_iff_lt, bne_self_eq_false, Bool.false_eq_true, if_false,
    sub_self, zero_mul, rDiv _ _ h1, rDiv _ _ h2, zero_div, zero_add, Option.bind_eq_bind, Option.bind_some]
  by_cases ht : z.2 < t <;> by_cases hb : z.2 < b <;> by_cases hl : z.1 < l <;> by_cases hr : z.1 < r <;>
    first
      | (exfalso; linarith)
      | simp [ht, hb, hl, hr, not_le.mpr, not_lt.mp]

/-- The middles of the four sides of a box. -/
example : (inside [((0, 6) : ℝ × ℝ), (6, 6), (6, 0), (0, 0)] (0, 3) = some true ∧ inside [((0, 6) : ℝ × ℝ), (6, 6), (6, 0), (0, 0)] (3, 0) = some true) ∧
    inside [((0, 6) : ℝ × ℝ), (6, 6), (6, 0), (0, 0)] (6, 3) = some false ∧ inside [((0, 6) : ℝ × ℝ), (6, 6), (6, 0), (0, 0)] (3, 6) = some false := by
  have h : (0 : ℝ) < 6 := by norm_num
  refine ⟨⟨?_, ?_⟩, ?_, ?_⟩ <;> (rw [inside_box h h]; norm_num)

end Foronoi
