import Verif.Proof.Clip

/-!
# Links while half-edges are deleted
-/

namespace Foronoi

variable {K : Type} [LinearOrder K] [Arith K]

theorem delD_next (d : Dcel K) (e f : Nat) : ((delD d e).he f).next = if (d.he e).prev = some f then (d.he e).next else (d.he f).next := by
  unfold delD
  cases hp : (d.he e).prev with
  | none => simp
  | some p =>
    simp only [linkH_next, Option.some.injEq]
    by_cases h : f = p
    · rw [if_pos h, if_pos h.symm]
    · rw [if_neg h, if_neg (Ne.symm h)]

theorem delD_prev (d : Dcel K) (e f : Nat) : ((delD d e).he f).prev =
    if (d.he e).prev.isSome ∧ (d.he e).next = some f then (d.he e).prev else (d.he f).prev := by
  unfold delD
  cases hp : (d.he e).prev with
  | none => simp
  | some p => simp only [linkH_prev, Option.isSome_some, true_and]

/-- One or more steps along `next` in `d`, over half-edges in `X`. -/
inductive Via (d : Dcel K) (X : Nat → Prop) : Nat → Nat → Prop
  | one {x y} : (d.he x).next = some y → Via d X x y
  | step {x g y} : (d.he x).next = some g → X g → Via d X g y → Via d X x y

theorem Via.mono {d : Dcel K} {X Y : Nat → Prop} (hXY : ∀ f, X f → Y f) {x y : Nat} (h : Via d X x y) : Via d Y x y := by
  induction h with
  | one h => exact .one h
  | step h1 h2 _ ih => exact .step h1 (hXY _ h2) ih

theorem Via.trans {d : Dcel K} {X : Nat → Prop} {x g y : Nat} (h : Via d X x g) (hg : X g) (h' : Via d X g y) : Via d X x y := by
  induction h with
  | one h => exact .step h hg h'
  | step h1 h2 _ ih => exact .step h1 h2 (ih hg h')

/-- The links of `d`, which arises from `d0` by deleting the half-edges in `X`. -/
structure Lnk (d0 : Dcel K) (X : Nat → Prop) (d : Dcel K) : Prop where
  nx : ∀ x, ¬ X x → ∀ g, (d.he x).next = some g → (d.he g).prev = some x ∧ ¬ X g
  pv : ∀ x, ¬ X x → ∀ f, (d.he x).prev = some f → (d.he f).next = some x
  via : ∀ x g, (d.he x).next = some g → Via d0 X x g
  stay : ∀ f g, (d0.he f).next = some g → ¬ X g → (d.he f).next = some g
  fe : ∀ q x, d.fe q = some x → ¬ X x ∨ (d.he x).next = some x
  nn : ∀ x, (d.he x).next = none → (d0.he x).next = none ∨ ∃ y, Via d0 X x y ∧ X y ∧ (d0.he y).next = none
  feS : ∀ q x, d.fe q = some x → d0.fe q = some x ∨ ∃ y, d0.fe q = some y ∧ X y ∧ Via d0 X y x
  feN : ∀ q, d.fe q = none → d0.fe q = none ∨ ∃ x y, d0.fe q = some x ∧ (y = x ∨ Via d0 X x y) ∧ (d0.he y).next = none

theorem Lnk.congr {d0 d d' : Dcel K} {X : Nat → Prop} (h : Lnk d0 X d) (h1 : ∀ f, (d'.he f).next = (d.he f).next)
    (h2 : ∀ f, (d'.he f).prev = (d.he f).prev) (h3 : d'.fe = d.fe) :
    Lnk d0 X d' where
  nx x hx g hg := by rw [h1] at hg; rw [h2]; exact h.nx x hx g hg
  pv x hx f hf := by rw [h2] at hf; rw [h1]; exact h.pv x hx f hf
  via x g hg := by rw [h1] at hg; exact h.via x g hg
  stay f g hf hg := by rw [h1]; exact h.stay f g hf hg
  fe q x hx := by rw [h3] at hx; rw [h1]; exact h.fe q x hx
  nn x hn := by rw [h1] at hn; exact h.nn x hn
  feS q x hx := by rw [h3] at hx; exact h.feS q x hx
  feN q hq := by rw [h3] at hq; exact h.feN q hq

theorem delD_fe {d : Dcel K} {e : Nat} (hfe : ∀ q, d.fe q = some e → (d.he e).incident = some q) (q : Nat) :
    (delD d e).fe q = if d.fe q = some e then (d.he e).next else d.fe q := by
  unfold delD
  cases hi : (d.he e).incident with
  | none =>
    simp only
    rw [if_neg]
    intro hq
    have := hfe q hq
    rw [hi] at this; cases this
  | some p =>
    simp only
    by_cases hq : d.fe q = some e
    · have := hfe q hq
      rw [hi, Option.some.injEq] at this
      subst this
      rw [if_pos hq, if_pos hq, Function.update_self]
    · rw [if_neg hq]
      split
      next hp =>
        by_cases hqp : q = p
        · subst hqp; exact absurd hp hq
        · rw [Function.update_of_ne hqp]
      next => rfl

theorem Lnk.del {d0 d : Dcel K} {X Y : Nat → Prop} (h : Lnk d0 X d) {e : Nat} (hfe : ∀ q, d.fe q = some e → (d.he e).incident = some q) (hX : ¬ X e)
    (hY : ∀ f, Y f ↔ X f ∨ f = e) : Lnk d0 Y (delD d e) where
  nx x hx g hg := by
    rw [hY, not_or] at hx
    obtain ⟨x1, x2⟩ := hx
    rw [delD_next] at hg
    rw [delD_prev, hY, not_or]
    split at hg
    next hp =>
      obtain ⟨g1, g2⟩ := h.nx e hX g hg
      rw [if_pos ⟨by rw [hp]; rfl, hg⟩]
      refine ⟨hp, g2, ?_⟩
      rintro rfl
      rw [g1, Option.some.injEq] at hp
      exact x2 hp.symm
    next hp =>
      obtain ⟨g1, g2⟩ := h.nx x x1 g hg
      have hge : g ≠ e := by rintro rfl; exact hp g1
      rw [if_neg]
      · exact ⟨g1, g2, hge⟩
      · rintro ⟨_, hn⟩
        have := (h.nx e hX g hn).1
        rw [g1, Option.some.injEq] at this
        exact x2 this
  pv x hx f hf := by
    rw [hY, not_or] at hx
    obtain ⟨x1, x2⟩ := hx
    rw [delD_prev] at hf
    rw [delD_next]
    split at hf
    next hp => rw [if_pos hf]; exact hp.2
    next hp =>
      have hn := h.pv x x1 f hf
      rw [if_neg]
      · exact hn
      · intro hp'
        have := h.pv e hX f hp'
        rw [hn, Option.some.injEq] at this
        exact x2 this
  via x g hg := by
    have hXY : ∀ f, X f → Y f := fun f hf => (hY f).mpr (Or.inl hf)
    rw [delD_next] at hg
    split at hg
    next hp => exact ((h.via x e (h.pv e hX x hp)).mono hXY).trans ((hY e).mpr (Or.inr rfl)) ((h.via e g hg).mono hXY)
    next hp => exact (h.via x g hg).mono hXY
  stay f g hf hg := by
    rw [hY, not_or] at hg
    have h1 := h.stay f g hf hg.1
    rw [delD_next, if_neg]
    · exact h1
    · intro hp
      have := h.pv e hX f hp
      rw [h1, Option.some.injEq] at this
      exact hg.2 this
  fe q x hx := by
    rw [delD_fe hfe] at hx
    rw [hY, not_or, delD_next]
    split at hx
    next hq =>
      obtain ⟨g1, g2⟩ := h.nx e hX x hx
      by_cases hxe : x = e
      · right
        subst hxe
        rw [if_pos g1]; exact hx
      · exact Or.inl ⟨g2, hxe⟩
    next hq =>
      have hxe : x ≠ e := by rintro rfl; exact hq hx
      rcases h.fe q x hx with h1 | h1
      · exact Or.inl ⟨h1, hxe⟩
      · right
        rw [if_neg]
        · exact h1
        · intro hp
          have := h.pv e hX x hp
          rw [h1, Option.some.injEq] at this
          exact hxe this
  nn x hn := by
    have hXY : ∀ f, X f → Y f := fun f hf => (hY f).mpr (Or.inl hf)
    have hYe : Y e := (hY e).mpr (Or.inr rfl)
    rw [delD_next] at hn
    split at hn
    next hp =>
      have hv := (h.via x e (h.pv e hX x hp)).mono hXY
      rcases h.nn e hn with h1 | ⟨y, h1, h2, h3⟩
      · exact Or.inr ⟨e, hv, hYe, h1⟩
      · exact Or.inr ⟨y, hv.trans hYe (h1.mono hXY), hXY y h2, h3⟩
    next =>
      rcases h.nn x hn with h1 | ⟨y, h1, h2, h3⟩
      · exact Or.inl h1
      · exact Or.inr ⟨y, h1.mono hXY, hXY y h2, h3⟩
  feS q x hx := by
    have hXY : ∀ f, X f → Y f := fun f hf => (hY f).mpr (Or.inl hf)
    have hYe : Y e := (hY e).mpr (Or.inr rfl)
    rw [delD_fe hfe] at hx
    split at hx
    next hq =>
      have hv := (h.via e x hx).mono hXY
      rcases h.feS q e hq with h1 | ⟨y, h1, h2, h3⟩
      · exact Or.inr ⟨e, h1, hYe, hv⟩
      · exact Or.inr ⟨y, h1, hXY y h2, (h3.mono hXY).trans hYe hv⟩
    next hq =>
      rcases h.feS q x hx with h1 | ⟨y, h1, h2, h3⟩
      · exact Or.inl h1
      · exact Or.inr ⟨y, h1, hXY y h2, h3.mono hXY⟩
  feN q hx := by
    have hXY : ∀ f, X f → Y f := fun f hf => (hY f).mpr (Or.inl hf)
    have hYe : Y e := (hY e).mpr (Or.inr rfl)
    rw [delD_fe hfe] at hx
    split at hx
    next hq =>
      right
      rcases h.feS q e hq with h1 | ⟨y, h1, h2, h3⟩
      · rcases h.nn e hx with h4 | ⟨z, h4, h5, h6⟩
        · exact ⟨e, e, h1, Or.inl rfl, h4⟩
        · exact ⟨e, z, h1, Or.inr (h4.mono hXY), h6⟩
      · rcases h.nn e hx with h4 | ⟨z, h4, h5, h6⟩
        · exact ⟨y, e, h1, Or.inr (h3.mono hXY), h4⟩
        · exact ⟨y, z, h1, Or.inr ((h3.mono hXY).trans hYe (h4.mono hXY)), h6⟩
    next hq =>
      rcases h.feN q hx with h1 | ⟨x, y, h1, h2, h3⟩
      · exact Or.inl h1
      · exact Or.inr ⟨x, y, h1, h2.imp_right fun h => h.mono hXY, h3⟩

/-- `P` is closed under `next`, which keeps the cell; the first edge of a cell is in `P` and belongs to the cell. -/
structure ClosedCells (d : Dcel K) (P : Nat → Prop) : Prop where
  nx : ∀ x, P x → ∀ g, (d.he x).next = some g → P g ∧ (d.he g).incident = (d.he x).incident
  fe : ∀ q x, d.fe q = some x → P x ∧ (d.he x).incident = some q

theorem Via.closed {d : Dcel K} {P X : Nat → Prop} (hP : ClosedCells d P) {x y : Nat} (h : Via d X x y) (hx : P x) :
    P y ∧ (d.he y).incident = (d.he x).incident := by
  induction h with
  | one h => exact hP.nx _ hx _ h
  | step h1 _ _ ih =>
    obtain ⟨h2, h3⟩ := hP.nx _ hx _ h1
    obtain ⟨h4, h5⟩ := ih h2
    exact ⟨h4, h5.trans h3⟩

theorem Lnk.fe_inc {d0 d : Dcel K} {P X : Nat → Prop} (h : Lnk d0 X d) (hP : ClosedCells d0 P)
    (hi : ∀ f, (d.he f).incident = (d0.he f).incident) {q e : Nat} (he : d.fe q = some e) : P e ∧ (d.he e).incident = some q := by
  rw [hi]
  rcases h.feS q e he with h1 | ⟨y, h1, _, h3⟩
  · exact hP.fe q e h1
  · obtain ⟨h4, h5⟩ := hP.fe q y h1
    obtain ⟨h6, h7⟩ := h3.closed hP h4
    exact ⟨h6, h7.trans h5⟩

end Foronoi
