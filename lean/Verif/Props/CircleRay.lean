import Verif.Props.CircleTrim

/-!
# C106: cutting an edge with an end at infinity

An edge between two sites of the top row begins at height infinity: a ray.
-/

namespace Foronoi

variable {k : BCirc ℝ}

/-- `z` is on the ray that goes up from `p`. -/
def OnRayUp (p z : ℝ × ℝ) : Prop := z.1 = p.1 ∧ p.2 ≤ z.2

/-- `cut_circle` for an upright line: the lower and the upper point of the circle on it. -/
theorem cut_upright {x : ℝ} (h : (x - k.center.1) ^ 2 ≤ k.radius ^ 2) : ∃ y1 y2, cutCircle k (lit 1, lit 0, x) = some ((x, y1), (x, y2)) ∧ y1 ≤ y2 ∧
    ∀ z : ℝ × ℝ, z.1 = x → (sqDist k.center z = k.radius ^ 2 ↔ z.2 = y1 ∨ z.2 = y2) := by
  have h0 : (lit 0 : ℝ) = 0 := by simp [lit, rI]
  have h1 : (lit 1 : ℝ) = 1 := by simp [lit, rI]
  obtain ⟨⟨cx, cy⟩, r⟩ := k
  simp only at h
  have harg : 0 ≤ r * r * (1 * 1 + 0 * 0) - (x - 1 * cx - 0 * cy) * (x - 1 * cx - 0 * cy) := by nlinarith
  set q := Real.sqrt (r * r * (1 * 1 + 0 * 0) - (x - 1 * cx - 0 * cy) * (x - 1 * cx - 0 * cy)) with hq
  have hqq : q * q = r * r * (1 * 1 + 0 * 0) - (x - 1 * cx - 0 * cy) * (x - 1 * cx - 0 * cy) := Real.mul_self_sqrt harg
  have hq0 : 0 ≤ q := Real.sqrt_nonneg _
  refine ⟨cy - q, cy + q, ?_, by linarith, ?_⟩
  · simp only [cutCircle, rSub, rMul, rAdd, rSq, h0, h1]
    rw [rSqrt _ harg, ← hq]
    have hn : (1 * 1 + 0 * 0 : ℝ) ≠ 0 := by norm_num
    simp only [Option.bind_eq_bind, Option.bind_some, rDiv _ _ hn, Option.some.injEq, Prod.mk.injEq]
    refine ⟨⟨?_, ?_⟩, ?_, ?_⟩ <;> ring
  · rintro ⟨u, y⟩ hu
    obtain rfl : u = x := hu
    simp only [sqDist]
    constructor
    · intro hs
      have : (y - (cy - q)) * (y - (cy + q)) = 0 := by nlinarith
      rcases mul_eq_zero.mp this with h | h
      · left; linarith
      · right; linarith
    · rintro (rfl | rfl) <;> nlinarith

theorem cut_upright_miss {x : ℝ} (h : k.radius ^ 2 < (x - k.center.1) ^ 2) : cutCircle k (lit 1, lit 0, x) = none := by
  have h0 : (lit 0 : ℝ) = 0 := by simp [lit, rI]
  have h1 : (lit 1 : ℝ) = 1 := by simp [lit, rI]
  refine C38_miss (Or.inl (by rw [h1]; norm_num)) fun z hz => ?_
  simp only [OnL, h0, h1] at hz
  have : z.1 = x := by linarith
  simp only [sqDist, this]
  nlinarith [sq_nonneg (k.center.2 - z.2)]

theorem line_down {x y : ℝ} : getLineE (x, .inf) (x, .fin y) = some ((lit 1 : ℝ), lit 0, x) := by
  have h0 : (lit 0 : ℝ) = 0 := by simp [lit, rI]
  simp only [getLineE, rSub, h0, sub_self, if_true]

theorem line_up {x y : ℝ} : getLineE (x, .fin y) (x, .inf) = some ((lit 1 : ℝ), lit 0, x) := by
  have h0 : (lit 0 : ℝ) = 0 := by simp [lit, rI]
  simp only [getLineE, rSub, h0, sub_self, if_true]

/-- C106: an edge that comes down from infinity to `p` is cut at the highest point of the circle on it, and `None` is returned if there is none; if its line misses the disc,
`cut_line` raises. -/
theorem C106_from_above (p : ℝ × ℝ) :
    (k.radius ^ 2 < (p.1 - k.center.1) ^ 2 ∧ cutLine k (p.1, .inf) (p.1, .fin p.2) = none) ∨
    (∃ w, cutLine k (p.1, .inf) (p.1, .fin p.2) = some (some w) ∧ OnRayUp p w ∧ sqDist k.center w = k.radius ^ 2 ∧
      ∀ w', OnRayUp p w' → sqDist k.center w' = k.radius ^ 2 → w'.2 ≤ w.2) ∨
    (cutLine k (p.1, .inf) (p.1, .fin p.2) = some none ∧ ∀ w, OnRayUp p w → sqDist k.center w ≠ k.radius ^ 2) := by
  rcases lt_or_ge (k.radius ^ 2) ((p.1 - k.center.1) ^ 2) with h | h
  · left
    refine ⟨h, ?_⟩
    simp only [cutLine, line_down, Option.bind_eq_bind, Option.bind_some, cut_upright_miss h, Option.bind_none]
  right
  obtain ⟨y1, y2, hc, hle, hon⟩ := cut_upright h
  have hcut : cutLine k (p.1, .inf) (p.1, .fin p.2) = some (chooseCut (p.1, .inf) (p.1, .fin p.2) (p.1, y1) (p.1, y2)) := by
    simp only [cutLine, line_down, Option.bind_eq_bind, Option.bind_some, hc]
  rw [hcut]
  simp only [chooseCut, dist2E, onLine, withinE, ne_eq, not_true_eq_false, if_false, decide_eq_true_eq]
  by_cases c2 : p.2 ≤ y2
  · left
    refine ⟨(p.1, y2), ?_, ⟨rfl, c2⟩, (hon (p.1, y2) rfl).mpr (Or.inr rfl), fun w' hw hd => ?_⟩
    · split_ifs <;> rfl
    · rcases (hon w' hw.1).mp hd with h | h
      · rw [h]; exact hle
      · rw [h]
  · right
    rw [if_neg (fun h => c2 (h.trans hle)), if_neg c2]
    refine ⟨rfl, fun w hw hd => ?_⟩
    have := hw.2
    rcases (hon w hw.1).mp hd with h | h
    · rw [h] at this; exact c2 (this.trans hle)
    · rw [h] at this; exact c2 this

/-- C106: an edge that goes from `p` up to infinity is cut at the lowest point of the circle on it. -/
theorem C106_to_above (p : ℝ × ℝ) :
    (k.radius ^ 2 < (p.1 - k.center.1) ^ 2 ∧ cutLine k (p.1, .fin p.2) (p.1, .inf) = none) ∨
    (∃ w, cutLine k (p.1, .fin p.2) (p.1, .inf) = some (some w) ∧ OnRayUp p w ∧ sqDist k.center w = k.radius ^ 2 ∧
      ∀ w', OnRayUp p w' → sqDist k.center w' = k.radius ^ 2 → w.2 ≤ w'.2) ∨
    (cutLine k (p.1, .fin p.2) (p.1, .inf) = some none ∧ ∀ w, OnRayUp p w → sqDist k.center w ≠ k.radius ^ 2) := by
  rcases lt_or_ge (k.radius ^ 2) ((p.1 - k.center.1) ^ 2) with h | h
  · left
    refine ⟨h, ?_⟩
    simp only [cutLine, line_up, Option.bind_eq_bind, Option.bind_some, cut_upright_miss h, Option.bind_none]
  right
  obtain ⟨y1, y2, hc, hle, hon⟩ := cut_upright h
  have hcut : cutLine k (p.1, .fin p.2) (p.1, .inf) = some (chooseCut (p.1, .fin p.2) (p.1, .inf) (p.1, y1) (p.1, y2)) := by
    simp only [cutLine, line_up, Option.bind_eq_bind, Option.bind_some, hc]
  rw [hcut]
  simp only [chooseCut, dist2E, onLine, withinE, ne_eq, not_true_eq_false, if_false, decide_eq_true_eq, rAdd, rSub, rSq]
  by_cases c1 : p.2 ≤ y1
  · left
    have c2 := c1.trans hle
    rw [if_pos c1, if_pos c2]
    refine ⟨(p.1, y1), ?_, ⟨rfl, c1⟩, (hon (p.1, y1) rfl).mpr (Or.inl rfl), fun w' hw hd => ?_⟩
    · split_ifs with hlt
      · rfl
      · rcases hle.lt_or_eq with h | h
        · exact absurd (by nlinarith) hlt
        · rw [h]
    · rcases (hon w' hw.1).mp hd with h | h
      · rw [h]
      · rw [h]; exact hle
  · rw [if_neg c1]
    by_cases c2 : p.2 ≤ y2
    · left
      rw [if_pos c2]
      refine ⟨(p.1, y2), rfl, ⟨rfl, c2⟩, (hon (p.1, y2) rfl).mpr (Or.inr rfl), fun w' hw hd => ?_⟩
      have := hw.2
      rcases (hon w' hw.1).mp hd with h | h
      · rw [h] at this; exact absurd this c1
      · rw [h]
    · right
      rw [if_neg c2]
      refine ⟨rfl, fun w hw hd => ?_⟩
      have := hw.2
      rcases (hon w hw.1).mp hd with h | h
      · rw [h] at this; exact c1 this
      · rw [h] at this; exact c2 this

/-- C106: with two ends at infinity, or one that is not above the other end, `cut_line` raises. -/
theorem C106_infinite (x y z : ℝ) : cutLine k (x, .inf) (y, .inf) = none ∧ (x ≠ y → cutLine k (x, .inf) (y, .fin z) = none ∧ cutLine k (x, .fin z) (y, .inf) = none) := by
  have h0 : (lit 0 : ℝ) = 0 := by simp [lit, rI]
  refine ⟨rfl, fun h => ?_⟩
  have h' : ¬ y - x = 0 := fun e => h (by linarith)
  simp only [cutLine, getLineE, rSub, h0, if_neg h', Option.bind_eq_bind, Option.bind_none, and_self]

/-- The circle of radius 5 around the origin and the ray up from (3, -10) and from (3, 0). -/
example : cutLine (⟨(0, 0), 5⟩ : BCirc ℝ) (3, .inf) (3, .fin (-10)) = some (some (3, 4)) ∧ cutLine (⟨(0, 0), 5⟩ : BCirc ℝ) (3, .fin (-10)) (3, .inf) = some (some (3, -4)) := by
  have on : ∀ w : ℝ × ℝ, w.1 = 3 → sqDist (0, 0) w = 5 ^ 2 → w.2 = 4 ∨ w.2 = -4 := by
    rintro ⟨x, y⟩ rfl h
    simp only [sqDist] at h
    have : (y - 4) * (y + 4) = 0 := by nlinarith
    rcases mul_eq_zero.mp this with h | h
    · left; linarith
    · right; linarith
  have up : OnRayUp (3, -10) (3, 4) := ⟨rfl, by norm_num⟩
  have lo : OnRayUp (3, -10) (3, -4) := ⟨rfl, by norm_num⟩
  have dup : sqDist (0, 0) (3, 4) = 5 ^ 2 := by norm_num [sqDist]
  have dlo : sqDist (0, 0) (3, -4) = 5 ^ 2 := by norm_num [sqDist]
  constructor
  · rcases C106_from_above (k := ⟨(0, 0), 5⟩) (3, -10) with ⟨h, _⟩ | ⟨⟨x, y⟩, h, hr, hd, hm⟩ | ⟨_, h⟩
    · norm_num at h
    · obtain rfl : x = 3 := hr.1
      have := hm _ up dup
      rcases on _ rfl hd with h' | h'
      · rw [h, show y = 4 from h']
      · simp only at h' this; linarith
    · exact absurd dup (h _ up)
  · rcases C106_to_above (k := ⟨(0, 0), 5⟩) (3, -10) with ⟨h, _⟩ | ⟨⟨x, y⟩, h, hr, hd, hm⟩ | ⟨_, h⟩
    · norm_num at h
    · obtain rfl : x = 3 := hr.1
      have := hm _ lo dlo
      rcases on _ rfl hd with h' | h'
      · simp only at h' this; linarith
      · rw [h, show y = -4 from h']
    · exact absurd dup (h _ up)

end Foronoi
