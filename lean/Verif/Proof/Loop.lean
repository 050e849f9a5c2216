import Mathlib.Data.Prod.Lex
import Mathlib.Topology.Order.Basic
import Mathlib.Topology.Instances.Real.Lemmas
import Verif.Proof.Volume

/-!
Closed chains of points around a convex set: in lexicographic order there is one lowest point, and the chain goes down on both sides of a
point exactly if the set continues above the point (and slightly to the left of it).
-/

namespace Foronoi

open Filter Topology

/-- Lexicographic order of points. -/
def lexLt (z w : Pt) : Prop := z.1 < w.1 ∨ z.1 = w.1 ∧ z.2 < w.2

theorem lexLt_iff {z w : Pt} : lexLt z w ↔ toLex z < toLex w := by
  rw [Prod.Lex.toLex_lt_toLex]; rfl

theorem lexLt_irrefl (z : Pt) : ¬ lexLt z z := by rw [lexLt_iff]; exact lt_irrefl _

theorem lexLt_or {z w : Pt} (h : z ≠ w) : lexLt z w ∨ lexLt w z := by
  rw [lexLt_iff, lexLt_iff]
  exact lt_or_gt_of_ne fun hh => h (toLex.injective hh)

theorem lexLt_asymm {z w : Pt} (h : lexLt z w) : ¬ lexLt w z := by
  rw [lexLt_iff] at h ⊢; exact h.asymm

theorem not_lexLt {z w : Pt} (h : z ≠ w) : ¬ lexLt z w ↔ lexLt w z :=
  ⟨fun h1 => (lexLt_or h).resolve_left h1, fun h1 => lexLt_asymm h1⟩

/-- Just above `v`, and still closer to the left of it. -/
def above (v : Pt) (t : ℝ) : Pt := (v.1 - t * t, v.2 + t)

/-- The set continues above `v`. -/
def Enters (S : Set Pt) (v : Pt) : Prop := ∀ᶠ t in 𝓝[>] (0 : ℝ), above v t ∈ S

theorem above_right (a b v : Pt) (t : ℝ) : rightOf a b (above v t) = rightOf a b v + t * (-(b.1 - a.1) - t * (b.2 - a.2)) := by
  unfold rightOf above; simp only; ring

theorem small_pos {a : ℝ} (b : ℝ) (ha : 0 < a) : ∀ᶠ t in 𝓝[>] (0 : ℝ), 0 < a + t * b := by
  have : Tendsto (fun t : ℝ => a + t * b) (𝓝[>] 0) (𝓝 (a + 0 * b)) :=
    ((continuous_const.add (continuous_id.mul continuous_const)).tendsto 0).mono_left nhdsWithin_le_nhds
  exact this.eventually (lt_mem_nhds (by simpa using ha))

theorem small : ∀ᶠ t in 𝓝[>] (0 : ℝ), 0 < t := self_mem_nhdsWithin

/-- The sign of a linear form above a point. -/
theorem small_form {a b : ℝ} : (∀ᶠ t in 𝓝[>] (0 : ℝ), 0 ≤ a + t * b) ↔ 0 < a ∨ a = 0 ∧ 0 ≤ b := by
  constructor
  · intro h
    rcases lt_trichotomy 0 a with h0 | h0 | h0
    · exact Or.inl h0
    · right
      refine ⟨h0.symm, ?_⟩
      obtain ⟨t, h1, h2⟩ := (h.and small).exists
      rw [← h0, zero_add] at h1
      exact nonneg_of_mul_nonneg_right h1 h2
    · exfalso
      obtain ⟨t, h1, h2⟩ := (h.and (small_pos (-b) (neg_pos.mpr h0))).exists
      linarith
  · rintro (h | ⟨rfl, h⟩)
    · exact (small_pos b h).mono fun _ => le_of_lt
    · exact small.mono fun t ht => by rw [zero_add]; exact mul_nonneg ht.le h

/-- The half-plane on the right of a line continues above a point of it. -/
theorem right_above {a b v : Pt} (h : 0 ≤ rightOf a b v) :
    (∀ᶠ t in 𝓝[>] (0 : ℝ), 0 ≤ rightOf a b (above v t)) ↔ 0 < rightOf a b v ∨ b.1 < a.1 ∨ b.1 = a.1 ∧ b.2 ≤ a.2 := by
  rcases h.lt_or_eq with h0 | h0
  · simp only [h0, true_or, iff_true]
    have h1 : Tendsto (fun t : ℝ => rightOf a b (above v t)) (𝓝[>] 0) (𝓝 (rightOf a b (above v 0))) := by
      refine (Continuous.tendsto ?_ 0).mono_left nhdsWithin_le_nhds
      simp only [above_right]
      fun_prop
    have h2 : rightOf a b (above v 0) = rightOf a b v := by rw [above_right]; ring
    rw [h2] at h1
    exact (h1.eventually (lt_mem_nhds h0)).mono fun _ => le_of_lt
  · rw [← h0]
    simp only [lt_irrefl, false_or]
    have e : (∀ᶠ t in 𝓝[>] (0 : ℝ), 0 ≤ rightOf a b (above v t)) ↔ ∀ᶠ t in 𝓝[>] (0 : ℝ), 0 ≤ (a.1 - b.1) + t * (a.2 - b.2) := by
      refine eventually_congr (small.mono fun t ht => ?_)
      rw [above_right, ← h0, zero_add, show -(b.1 - a.1) - t * (b.2 - a.2) = (a.1 - b.1) + t * (a.2 - b.2) by ring]
      exact mul_nonneg_iff_of_pos_left ht
    rw [e, small_form, sub_pos, sub_nonneg, sub_eq_zero]
    constructor
    · rintro (h | ⟨h, h'⟩)
      · exact Or.inl h
      · exact Or.inr ⟨h.symm, h'⟩
    · rintro (h | ⟨h, h'⟩)
      · exact Or.inl h
      · exact Or.inr ⟨h.symm, h'⟩

/-- Linear forms that are not negative on both sides of a right turn from left to right are not negative above. -/
theorem turn_form {a b c o : Pt} {u w : ℝ} (h1 : lexLt b a) (h2 : lexLt c b) (h3 : 0 ≤ rightOf a b c) (h4 : 0 < rightOf a b o) (h5 : 0 < rightOf b c o)
    (ha : 0 ≤ u * (a.1 - b.1) + w * (a.2 - b.2)) (hc : 0 ≤ u * (c.1 - b.1) + w * (c.2 - b.2)) (ho : 0 ≤ u * (o.1 - b.1) + w * (o.2 - b.2)) :
    0 < w ∨ w = 0 ∧ u ≤ 0 := by
  obtain ⟨A, eA⟩ : ∃ A, A = a.1 - b.1 := ⟨_, rfl⟩
  obtain ⟨A', eA'⟩ : ∃ A, A = a.2 - b.2 := ⟨_, rfl⟩
  obtain ⟨C, eC⟩ : ∃ A, A = c.1 - b.1 := ⟨_, rfl⟩
  obtain ⟨C', eC'⟩ : ∃ A, A = c.2 - b.2 := ⟨_, rfl⟩
  obtain ⟨O, eO⟩ : ∃ A, A = o.1 - b.1 := ⟨_, rfl⟩
  obtain ⟨O', eO'⟩ : ∃ A, A = o.2 - b.2 := ⟨_, rfl⟩
  have k3 : 0 ≤ A * C' - A' * C := by unfold rightOf at h3; rw [eA, eA', eC, eC']; linarith
  have k4 : 0 < A * O' - A' * O := by unfold rightOf at h4; rw [eA, eA', eO, eO']; linarith
  have k5 : 0 < C' * O - C * O' := by unfold rightOf at h5; rw [eC, eC', eO, eO']; linarith
  rw [← eA, ← eA'] at ha
  rw [← eC, ← eC'] at hc
  rw [← eO, ← eO'] at ho
  have k1 : 0 < A ∨ A = 0 ∧ 0 < A' := by
    rcases h1 with h | ⟨h, h'⟩
    · left; rw [eA]; linarith
    · right; rw [eA, eA']; constructor <;> linarith
  have k2 : C < 0 ∨ C = 0 ∧ C' < 0 := by
    rcases h2 with h | ⟨h, h'⟩
    · left; rw [eC]; linarith
    · right; rw [eC, eC']; constructor <;> linarith
  clear eA eA' eC eC' eO eO' h1 h2 h3 h4 h5
  rcases k1 with k1 | ⟨rfl, k1⟩ <;> rcases k2 with k2 | ⟨rfl, k2⟩
  · have e1 : -C * (u * A + w * A') + A * (u * C + w * C') = w * (A * C' - A' * C) := by ring
    have e2 : 0 ≤ -C * (u * A + w * A') := mul_nonneg (by linarith) ha
    have e3 : 0 ≤ A * (u * C + w * C') := mul_nonneg k1.le hc
    have hw : 0 ≤ w := by
      rcases k3.lt_or_eq with h | h
      · exact nonneg_of_mul_nonneg_left (by linarith : 0 ≤ w * (A * C' - A' * C)) h
      · rw [← h, mul_zero] at e1
        have e4 : -C * (u * A + w * A') = 0 := by linarith
        have e5 : u * A + w * A' = 0 := (mul_eq_zero.mp e4).resolve_left (by linarith)
        have e6 := mul_nonneg k1.le ho
        have e7 : A * (u * O + w * O') = w * (A * O' - A' * O) := by linear_combination O * e5
        rw [e7] at e6
        exact nonneg_of_mul_nonneg_left e6 k4
    rcases hw.lt_or_eq with h | h
    · exact Or.inl h
    · right
      refine ⟨h.symm, ?_⟩
      rw [← h] at hc
      by_contra hu
      push Not at hu
      nlinarith [mul_neg_of_pos_of_neg hu k2]
  · exfalso
    nlinarith [mul_neg_of_pos_of_neg k1 k2]
  · have hw : 0 ≤ w := by
      have : 0 ≤ w * A' := by linarith
      exact nonneg_of_mul_nonneg_left this k1
    rcases hw.lt_or_eq with h | h
    · exact Or.inl h
    · right
      refine ⟨h.symm, ?_⟩
      rw [← h] at hc
      by_contra hu
      push Not at hu
      nlinarith [mul_neg_of_pos_of_neg hu k2]
  · have h1 : 0 ≤ w * A' := by linarith
    have h2 : 0 ≤ w * C' := by linarith
    have h3 := nonneg_of_mul_nonneg_left h1 k1
    have hw : w = 0 := by
      by_contra hne
      have := mul_neg_of_pos_of_neg (lt_of_le_of_ne h3 (Ne.symm hne)) k2
      linarith
    subst hw
    refine Or.inr ⟨rfl, ?_⟩
    have hO : O < 0 := by
      by_contra hh
      push Not at hh
      nlinarith [mul_nonneg k1.le hh]
    by_contra hu
    push Not at hu
    nlinarith [mul_neg_of_pos_of_neg hu hO]

/-- At a right turn that is lower than both sides everything in the wedge is higher. -/
theorem turn_low {a b c o z : Pt} (h1 : lexLt b a) (h2 : lexLt b c) (h3 : 0 ≤ rightOf a b c) (h4 : 0 < rightOf a b o) (h5 : 0 < rightOf b c o)
    (ha : 0 ≤ rightOf a b z) (hc : 0 ≤ rightOf b c z) : ¬ lexLt z b := by
  obtain ⟨A, eA⟩ : ∃ A, A = a.1 - b.1 := ⟨_, rfl⟩
  obtain ⟨A', eA'⟩ : ∃ A, A = a.2 - b.2 := ⟨_, rfl⟩
  obtain ⟨C, eC⟩ : ∃ A, A = c.1 - b.1 := ⟨_, rfl⟩
  obtain ⟨C', eC'⟩ : ∃ A, A = c.2 - b.2 := ⟨_, rfl⟩
  obtain ⟨O, eO⟩ : ∃ A, A = o.1 - b.1 := ⟨_, rfl⟩
  obtain ⟨O', eO'⟩ : ∃ A, A = o.2 - b.2 := ⟨_, rfl⟩
  obtain ⟨Z, eZ⟩ : ∃ A, A = z.1 - b.1 := ⟨_, rfl⟩
  obtain ⟨Z', eZ'⟩ : ∃ A, A = z.2 - b.2 := ⟨_, rfl⟩
  have k3 : 0 ≤ A * C' - A' * C := by unfold rightOf at h3; rw [eA, eA', eC, eC']; linarith
  have k4 : 0 < A * O' - A' * O := by unfold rightOf at h4; rw [eA, eA', eO, eO']; linarith
  have k5 : 0 < C' * O - C * O' := by unfold rightOf at h5; rw [eC, eC', eO, eO']; linarith
  have k6 : 0 ≤ A * Z' - A' * Z := by unfold rightOf at ha; rw [eA, eA', eZ, eZ']; linarith
  have k7 : 0 ≤ C' * Z - C * Z' := by unfold rightOf at hc; rw [eC, eC', eZ, eZ']; linarith
  have k1 : 0 < A ∨ A = 0 ∧ 0 < A' := by
    rcases h1 with h | ⟨h, h'⟩
    · left; rw [eA]; linarith
    · right; rw [eA, eA']; constructor <;> linarith
  have k2 : 0 < C ∨ C = 0 ∧ 0 < C' := by
    rcases h2 with h | ⟨h, h'⟩
    · left; rw [eC]; linarith
    · right; rw [eC, eC']; constructor <;> linarith
  intro hz
  have kz : Z < 0 ∨ Z = 0 ∧ Z' < 0 := by
    rcases hz with h | ⟨h, h'⟩
    · left; rw [eZ]; linarith
    · right; rw [eZ, eZ']; constructor <;> linarith
  clear eA eA' eC eC' eO eO' eZ eZ' h1 h2 h3 h4 h5 ha hc hz
  have hA : 0 ≤ A := by rcases k1 with h | ⟨h, _⟩ <;> linarith
  have hC : 0 ≤ C := by rcases k2 with h | ⟨h, _⟩ <;> linarith
  have hD : 0 < A * C' - A' * C := by
    refine lt_of_le_of_ne k3 fun hD => ?_
    rcases k1 with h | ⟨rfl, h⟩
    · have g1 := mul_pos h k5
      have g2 := mul_nonneg hC k4.le
      have : C * (A * O' - A' * O) + A * (C' * O - C * O') = 0 := by linear_combination -O * hD
      linarith
    · have hC0 : C = 0 := by
        have : A' * C = 0 := by linarith
        exact (mul_eq_zero.mp this).resolve_left h.ne'
      subst hC0
      have hC' := k2.resolve_left (lt_irrefl _)
      have : O < 0 := by
        by_contra hh
        push Not at hh
        nlinarith [mul_nonneg h.le hh]
      nlinarith [mul_neg_of_pos_of_neg hC'.2 this]
  have e1 : (A * C' - A' * C) * Z = (C' * Z - C * Z') * A + (A * Z' - A' * Z) * C := by ring
  have e2 : (A * C' - A' * C) * Z' = (C' * Z - C * Z') * A' + (A * Z' - A' * Z) * C' := by ring
  have p1 := mul_nonneg k7 hA
  have p2 := mul_nonneg k6 hC
  rcases kz with hz | ⟨rfl, hz⟩
  · have := mul_neg_of_pos_of_neg hD hz
    linarith
  · have hneg := mul_neg_of_pos_of_neg hD hz
    have q1 : (C' * 0 - C * Z') * A = 0 := by linarith
    have q2 : (A * Z' - A' * 0) * C = 0 := by linarith
    have r1 : 0 ≤ (C' * 0 - C * Z') * A' := by
      rcases k1 with h | ⟨_, h⟩
      · rw [(mul_eq_zero.mp q1).resolve_right h.ne', zero_mul]
      · exact mul_nonneg k7 h.le
    have r2 : 0 ≤ (A * Z' - A' * 0) * C' := by
      rcases k2 with h | ⟨_, h⟩
      · rw [(mul_eq_zero.mp q2).resolve_right h.ne', zero_mul]
      · exact mul_nonneg k6 h.le
    linarith

/-- A closed chain of points around a convex set: `nx` is the next element, `a` its point. -/
structure Loop (L : Finset Nat) (nx : Nat → Nat) (a : Nat → Pt) (S : Set Pt) (o : Pt) : Prop where
  nonempty : L.Nonempty
  next : ∀ f ∈ L, nx f ∈ L
  prev : ∀ g ∈ L, ∃ f ∈ L, nx f = g
  once : ∀ f ∈ L, ∀ g ∈ L, nx f = nx g → f = g
  inj : ∀ f ∈ L, ∀ g ∈ L, a f = a g → f = g
  turn : ∀ f ∈ L, 0 < rightOf (a f) (a (nx f)) o
  mem : ∀ f ∈ L, a f ∈ S
  mid : o ∈ S
  right : ∀ f ∈ L, ∀ z ∈ S, 0 ≤ rightOf (a f) (a (nx f)) z

namespace Loop

variable {L : Finset Nat} {nx : Nat → Nat} {a : Nat → Pt} {S : Set Pt} {o : Pt} (h : Loop L nx a S o)

/-- The step from `f` to the next point goes down. -/
def Down (nx : Nat → Nat) (a : Nat → Pt) (f : Nat) : Prop := lexLt (a (nx f)) (a f)

include h

theorem ne {f : Nat} (hf : f ∈ L) : a f ≠ a (nx f) := by
  intro hh
  have := h.turn f hf
  rw [hh] at this
  unfold rightOf at this
  simp at this

/-- A point lower than its neighbours is the lowest. -/
theorem lowest {f g : Nat} (hf : f ∈ L) (h1 : Down nx a f) (h2 : ¬ Down nx a (nx f)) (hg : g ∈ L) : ¬ lexLt (a g) (a (nx f)) := by
  have hn := h.next f hf
  have h2' : lexLt (a (nx f)) (a (nx (nx f))) := (not_lexLt (h.ne hn).symm).mp h2
  have k1 := h.right f hf _ (h.mem g hg)
  have k2 := h.right _ hn _ (h.mem g hg)
  have k3 := h.right f hf _ (h.mem _ (h.next _ hn))
  have k4 := h.turn f hf
  have k5 := h.turn _ hn
  exact turn_low h1 h2' k3 k4 k5 k1 k2

open Classical in
/-- One point is the lowest, so apart from one step each step down is followed by a step down. -/
theorem count : (L.filter (Down nx a)).card = 1 + (L.filter fun f => Down nx a f ∧ Down nx a (nx f)).card := by
  have h1 : (L.filter fun f => Down nx a f ∧ ¬ Down nx a (nx f)).card = 1 := by
    obtain ⟨g, hg, hmin⟩ := L.exists_min_image (fun f => toLex (a f)) h.nonempty
    obtain ⟨f, hf, rfl⟩ := h.prev g hg
    have hmin' : ∀ x ∈ L, ¬ lexLt (a x) (a (nx f)) := fun x hx hh => absurd (hmin x hx) (not_le.mpr (lexLt_iff.mp hh))
    rw [Finset.card_eq_one]
    refine ⟨f, Finset.eq_singleton_iff_unique_mem.mpr ⟨Finset.mem_filter.mpr ⟨hf, ?_, hmin' _ (h.next _ hg)⟩, fun x hx => ?_⟩⟩
    · exact (lexLt_or (h.ne hf)).resolve_left (hmin' f hf)
    · obtain ⟨hx, hx1, hx2⟩ := Finset.mem_filter.mp hx
      have k1 := h.lowest hx hx1 hx2 hg
      have k2 := hmin' _ (h.next x hx)
      have : a (nx x) = a (nx f) := by
        by_contra hne
        rcases lexLt_or hne with hh | hh
        · exact k2 hh
        · exact k1 hh
      exact h.once _ hx _ hf (h.inj _ (h.next _ hx) _ hg this)
  have h2 := Finset.card_filter_add_card_filter_not (s := L.filter (Down nx a)) (fun f => Down nx a (nx f))
  rw [Finset.filter_filter, Finset.filter_filter] at h2
  omega

/-- If the set continues above a point the chain goes down before and after it. -/
theorem down_of_enters {f : Nat} (hf : f ∈ L) (he : Enters S (a (nx f))) : Down nx a f ∧ Down nx a (nx f) := by
  have hn := h.next f hf
  have hm := h.mem _ hn
  have z1 : rightOf (a f) (a (nx f)) (a (nx f)) = 0 := by unfold rightOf; ring
  have z2 : rightOf (a (nx f)) (a (nx (nx f))) (a (nx f)) = 0 := by unfold rightOf; ring
  have k1 := (right_above (h.right f hf _ hm)).mp (he.mono fun t ht => h.right f hf _ ht)
  have k2 := (right_above (h.right _ hn _ hm)).mp (he.mono fun t ht => h.right _ hn _ ht)
  rw [z1] at k1
  rw [z2] at k2
  have n1 := h.ne hf
  have n2 := h.ne hn
  constructor
  · rcases k1 with k | k | ⟨k, k'⟩
    · exact absurd k (lt_irrefl _)
    · exact Or.inl k
    · exact Or.inr ⟨k, lt_of_le_of_ne k' fun hh => n1 (Prod.ext k.symm hh.symm)⟩
  · rcases k2 with k | k | ⟨k, k'⟩
    · exact absurd k (lt_irrefl _)
    · exact Or.inl k
    · exact Or.inr ⟨k, lt_of_le_of_ne k' fun hh => n2 (Prod.ext k.symm hh.symm)⟩

/-- A linear form that is not negative on the set, as seen from a point where the chain goes down. -/
theorem form {f : Nat} (hf : f ∈ L) (h1 : Down nx a f) (h2 : Down nx a (nx f)) {u w : ℝ}
    (hu : ∀ z ∈ S, 0 ≤ u * (z.1 - (a (nx f)).1) + w * (z.2 - (a (nx f)).2)) : 0 < w ∨ w = 0 ∧ u ≤ 0 := by
  have hn := h.next f hf
  have hnn := h.next _ hn
  exact turn_form h1 h2 (h.right f hf _ (h.mem _ hnn)) (h.turn f hf) (h.turn _ hn) (hu _ (h.mem _ hf)) (hu _ (h.mem _ hnn)) (hu _ h.mid)

/-- Half-planes that contain the set continue above the point. -/
theorem half_above {f : Nat} (hf : f ∈ L) (h1 : Down nx a f) (h2 : Down nx a (nx f)) {x y : Pt} (hu : ∀ z ∈ S, 0 ≤ rightOf x y z) :
    ∀ᶠ t in 𝓝[>] (0 : ℝ), 0 ≤ rightOf x y (above (a (nx f)) t) := by
  have hm := hu _ (h.mem _ (h.next f hf))
  rw [right_above hm]
  rcases hm.lt_or_eq with h0 | h0
  · exact Or.inl h0
  · right
    rcases h.form hf h1 h2 (u := y.2 - x.2) (w := -(y.1 - x.1)) (fun z hz => by
      have := hu z hz
      unfold rightOf at this h0
      linarith) with k | ⟨k, k'⟩
    · left; linarith
    · right; constructor <;> linarith

end Loop

end Foronoi
