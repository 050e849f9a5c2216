import Verif.Props.Whole
import Verif.Proof.Clipped
import Verif.Props.Clip
import Verif.Props.CreateReal
import Verif.Spec.Clipping
import Verif.Proof.Along

/-!
# The edges of the result are the Voronoi diagram in the polygon (C65)
-/

namespace Foronoi

open scoped List

variable {pts : Nat → ℝ × ℝ} {q : PQ (QE ℝ)} {ok : List (QE ℝ) → Prop} {n : Nat} {poly : Poly ℝ} {s : St ℝ}

theorem clipLine_eq (poly : Poly ℝ) : (Arith.sub poly.minY (dabs poly.maxY) : ℝ) = clipLine poly := by
  rw [dabs_real, rSub]; rfl

/-- The breakpoint of two neighbours in the topmost row, seen from above: in the middle, at the top of the polygon. -/
theorem getIntersection_top {a b : Pt} {l m : ℝ} (h : a.2 = b.2) (hlt : b.1 < a.1) (hm : m ≠ 0) :
    getIntersection a b l (some m) = some ((a.1 + b.1) / 2, .fin m) := by
  unfold getIntersection
  have h2 : (((2 : ℤ) : ℝ)) ≠ 0 := by norm_num
  have e2 : ((2 : ℤ) : ℝ) = 2 := by norm_num
  simp only [lit, rI, rMul, rSub, rAdd, Option.bind_eq_bind]
  rw [if_pos h, rDiv _ _ h2, Option.bind_some, if_pos hlt, e2]
  simp [maxYOr, lit, rI, hm]

/-- The end of an edge as it is used for clipping. -/
inductive EndKind (pts : Nat → Pt) (n : Nat) (poly : Poly ℝ) (s : St ℝ) (e i j : Nat) (a : Pt) : Prop where
  | vtx {v} : (s.d.he e).origin = .vtx v → (s.d.vs v).pos = some a → VoronoiVertex pts n a → Nearest pts n i a → Nearest pts n j a →
      EndKind pts n poly s e i j a
  | bp {b} : (s.d.he e).origin = .bp b → (s.bps b).pair = (j, i) → Bp (pts j) (pts i) (clipLine poly) a →
      (∀ c < n, 0 ≤ pw (pts c) (clipLine poly) a) → EndKind pts n poly s e i j a
  | top {b} : (s.d.he e).origin = .bp b → TopRowPair pts n i j → a = (((pts j).1 + (pts i).1) / 2, poly.maxY) → EndKind pts n poly s e i j a


/-- A breakpoint at which the clipping line is not yet low enough. -/
def LowEnd (pts : Nat → Pt) (n : Nat) (poly : Poly ℝ) (s : St ℝ) (e i j : Nat) (a : Pt) : Prop :=
  (∃ b, (s.d.he e).origin = .bp b) ∧ Bp (pts j) (pts i) (clipLine poly) a ∧ ∃ c < n, pw (pts c) (clipLine poly) a < 0

theorem end_kind (hF : FitsPolygon pts n poly) (hd : Distinct pts n) (hq : q.Spec evLt ok) (h : Reach pts q n poly s) (hend : s.queue = [])
    {e t i j : Nat} (he : Edg s.d e t i j) : ∃ a, rawO pts poly s.bps s.d e = some (fin2 a) ∧ (EndKind pts n poly s e i j a ∨ LowEnd pts n poly s e i j a) := by
  obtain ⟨L0, hI0⟩ := reach_inv hq h
  have hin := (he.site_lt hI0).1
  obtain ⟨hH, ⟨L, l, hI, hG, hK, hE, _, hlv⟩, _⟩ := known_end hd.injOn hq h hend (by omega)
  have hjn := ((he.symm hI.dinv).site_lt hI).1
  have hall : ∀ c < n, pts c ∈ Handled pts s := fun c hc => by rw [hH]; exact ⟨c, hc, rfl⟩
  cases horg : (s.d.he e).origin with
  | vtx v =>
    obtain ⟨hv, _⟩ := hI.dinv.ovt e he.lt v horg
    obtain ⟨zv, hzv, hvv⟩ := C25_vertices hd hq h v hv
    obtain ⟨h1, h2⟩ := start_bisector hd hq h he horg hzv
    refine ⟨zv, ?_, Or.inl (.vtx horg hzv hvv h1 h2)⟩
    rw [rawO_vtx horg, opos_vtx horg, hzv]; rfl
  | bp b =>
    obtain ⟨hpair, _⟩ := he.pair hI.dinv horg
    have hraw : ∀ a : Pt, getIntersection (pts j) (pts i) (clipLine poly) (some poly.maxY) = some (a.1, .fin a.2) →
        rawO pts poly s.bps s.d e = some (fin2 a) := by
      intro a ha
      unfold rawO getOrigin
      rw [horg]
      simp only [hpair, clipLine_eq]
      rw [ha]; rfl
    rcases hK.live e he.lt b horg with ⟨k, hk⟩ | hA
    · obtain ⟨P, R, hL⟩ := List.append_of_mem hk
      have hb : BOk s.og s.pr s.arcCnt s.bpCnt L := hI.beach
      obtain ⟨P', n1, a1, n2, a2, R', e1, e2, e3⟩ := (hL ▸ hb).bp_cases
      have e3 : (s.bps b).pair = (s.og a1, s.og a2) := e3
      rw [hpair, Prod.mk.injEq] at e3
      have hap : ∃ B C, apts pts s L = B ++ pts j :: pts i :: C := by
        refine ⟨apts pts s P', apts pts s R', ?_⟩
        rw [hL, e1, e2, e3.1, e3.2]
        simp [apts]
      obtain ⟨B, C, hBC⟩ := hap
      have hEm := hE (l - 1) (by linarith)
      obtain ⟨y, hy1, hy2⟩ := getIntersection_real (hF.low _ hjn).le (hF.low _ hin).le (some poly.maxY)
      have hord : (pts j).2 = (pts i).2 → (pts j).1 < (pts i).1 := (hEm.pair hBC).2.2
      have hy := hy2 (by
        rintro ⟨g1, g2 | g2⟩
        · exact absurd (hord g1) (not_lt.mpr g2.le)
        · exact (hF.low _ hjn).ne' g2)
      rw [hy] at hy1
      have hbp := bp_exists (hF.low _ hjn).le (hF.low _ hin).le (Or.inl (hF.low _ hjn)) hord
      refine ⟨(bpX (pts j) (pts i) (clipLine poly), bpYv (pts j) (pts i) (clipLine poly)), hraw _ hy1, ?_⟩
      by_cases hg : ∀ c < n, 0 ≤ pw (pts c) (clipLine poly) (bpX (pts j) (pts i) (clipLine poly), bpYv (pts j) (pts i) (clipLine poly))
      · exact Or.inl (.bp horg hpair hbp hg)
      · push Not at hg
        exact Or.inr ⟨⟨b, horg⟩, hbp, hg⟩
    · rw [hpair] at hA
      obtain ⟨h1, h2, h3⟩ := hA
      have htop : TopRowPair pts n i j := by
        refine ⟨h1.symm, h2, fun c hc => ?_⟩
        have h1 : (pts j).2 = (pts i).2 := h1
        have := h3 _ (hall c hc)
        simp only [h1] at this
        exact this
      have := getIntersection_top (l := clipLine poly) h1 h2 (hF.top i hin j hjn htop).1
      exact ⟨_, hraw (((pts j).1 + (pts i).1) / 2, poly.maxY) this, Or.inl (.top horg htop rfl)⟩

variable {e t i j : Nat} {a b z : Pt} {l : ℝ}

theorem top_dsq (h : TopRowPair pts n i j) {y : ℝ} : dsq (pts i) (((pts j).1 + (pts i).1) / 2, y) = dsq (pts j) (((pts j).1 + (pts i).1) / 2, y) := by
  unfold dsq; simp only; rw [h.1]; ring

/-- The bisector of two sites in a row is vertical. -/
theorem top_x (h : TopRowPair pts n i j) (hz : dsq (pts i) z = dsq (pts j) z) : z.1 = ((pts j).1 + (pts i).1) / 2 := by
  have h1 := h.1
  have h2 := h.2.1
  unfold dsq at hz
  rw [h1] at hz
  have e : ((pts j).1 - (pts i).1) * (2 * z.1 - ((pts j).1 + (pts i).1)) = 0 := by linear_combination hz
  have := (mul_eq_zero.mp e).resolve_left (by linarith)
  linarith

theorem top_fwd (h : TopRowPair pts n i j) (hz : dsq (pts i) z = dsq (pts j) z) {y : ℝ} (hy : z.2 ≤ y) :
    Fwd (pts j) (pts i) z (((pts j).1 + (pts i).1) / 2, y) := by
  have h1 := h.1
  have h2 := h.2.1
  refine ⟨(y - z.2) / ((pts i).1 - (pts j).1), div_nonpos_of_nonneg_of_nonpos (by linarith) (by linarith), ?_, ?_⟩
  · simp only; rw [h1, top_x h hz]; ring
  · simp only
    rw [div_mul_cancel₀ _ (by linarith : (pts i).1 - (pts j).1 < 0).ne]

theorem EndKind.eq (h : EndKind pts n poly s e i j a) : dsq (pts i) a = dsq (pts j) a := by
  cases h with
  | vtx _ _ _ h1 h2 => exact h1.eq h2
  | bp _ _ h _ => exact h.eb.trans h.ea.symm
  | top _ ht ha => rw [ha]; exact top_dsq ht

/-- What is needed for `clip_two`. -/
theorem EndKind.cut (hF : FitsPolygon pts n poly) (h : EndKind pts n poly s e i j a) (hb : dsq (pts i) b = dsq (pts j) b)
    (hbt : Fwd (pts j) (pts i) b a) :
    opos s.d e = some a ∧ ¬ OnBoundary poly.points a ∨ opos s.d e = none ∧ RayEnd poly.points b a := by
  cases h with
  | vtx h1 h2 h3 _ _ => exact Or.inl ⟨by rw [opos_vtx h1, h2], hF.border a h3⟩
  | bp h1 _ h2 h3 =>
    refine Or.inr ⟨by unfold opos; rw [h1], Or.inl ?_⟩
    rw [not_closed]
    intro hc
    obtain ⟨_, p, hp, hlt⟩ := hF.cover a hc
    have := h3 p hp
    unfold pw at this
    have hlt : dsq (pts p) a < _ := hlt
    linarith
  | top h1 h2 h3 =>
    refine Or.inr ⟨by unfold opos; rw [h1], Or.inr ?_⟩
    have hle : b.2 ≤ a.2 := by
      obtain ⟨k, k1, _, k2⟩ := hbt
      have := mul_nonneg_of_nonpos_of_nonpos k1 (by linarith [h2.2.1] : (pts i).1 - (pts j).1 ≤ 0)
      linarith
    rw [h3] at hle ⊢
    exact ⟨hF.height, (top_x h2 hb).symm, hle⟩

/-- The other end of the common border of two neighbours in the topmost row is below the points of the polygon on their bisector. -/
theorem EndKind.below (hF : FitsPolygon pts n poly) (ht : TopRowPair pts n i j) {m : Nat} (hm : (s.d.he t).origin = .bp m)
    (h : EndKind pts n poly s t j i b) (hz : InClosed poly.points z) (hzx : dsq (pts i) z = dsq (pts j) z) : b.2 < z.2 := by
  cases h with
  | vtx h0 => rw [hm] at h0; cases h0
  | bp _ _ h1 h2 =>
    obtain ⟨_, c, hc, hlt⟩ := hF.cover _ hz
    have h3 := h2 c hc
    have hx := top_x ht (h1.ea.trans h1.eb.symm)
    have hx' := top_x ht hzx
    have hlow := hF.low c hc
    by_contra hh
    push Not at hh
    unfold pw dsq at h3
    unfold sqDist at hlt
    rw [hx] at h3
    rw [hx'] at hlt
    nlinarith
  | top _ h1 _ =>
    have := ht.2.1
    have := h1.2.1
    linarith

/-- A point of the bisector with the circle through the sites above the clipping line comes before the breakpoint. -/
theorem above_fwd (hne : pts i ≠ pts j) (h1 : Bp (pts j) (pts i) l a) (heq : dsq (pts i) z = dsq (pts j) z) (hzl : l < z.2)
    (hlt : dsq (pts i) z < (z.2 - l) ^ 2) : Fwd (pts j) (pts i) z a := by
  set m := z.2 - Real.sqrt (dsq (pts i) z) with hm
  have h0 := Real.sqrt_nonneg (dsq (pts i) z)
  have hsq := Real.sq_sqrt (dsq_nonneg (pts i) z)
  have hml : l ≤ m := by
    have : Real.sqrt (dsq (pts i) z) < z.2 - l := by
      rw [← Real.sqrt_sq (by linarith : 0 ≤ z.2 - l)]
      exact Real.sqrt_lt_sqrt (dsq_nonneg _ _) hlt
    linarith
  have hei : dsq (pts i) z = (z.2 - m) ^ 2 := by rw [hm, sub_sub_cancel, hsq]
  have hej : dsq (pts j) z = (z.2 - m) ^ 2 := by rw [← heq, hei]
  have hmz : m ≤ z.2 := by linarith
  have hy : ∀ p : Pt, dsq p z = (z.2 - m) ^ 2 → m ≤ p.2 := by
    intro p hp
    unfold dsq at hp
    by_contra hh
    push Not at hh
    nlinarith [sq_nonneg (p.1 - z.1)]
  rcases le_total 0 (ori (pts j) (pts i) m z.1) with ho | ho
  · exact bp_fwd hne.symm ⟨hej, hei, hmz, ho⟩ h1 hml (hy _ hej) (hy _ hei)
  · have ho' : 0 ≤ ori (pts i) (pts j) m z.1 := by rw [ori_symm]; linarith
    exact bp_opp hne.symm h1 ⟨hei, hej, hmz, ho'⟩ (hml.trans (hy _ hej)) (hml.trans (hy _ hei)) (hy _ hej) (hy _ hei)

/-- The end is beyond all points of the edge in the polygon. -/
theorem EndKind.beyond (hF : FitsPolygon pts n poly) (hne : pts i ≠ pts j) (h : EndKind pts n poly s e i j a)
    (hz : InClosed poly.points z) (hi : Nearest pts n i z) (hj : Nearest pts n j z)
    (hv : ∀ v zv, StartsAt s.d e v → (s.d.vs v).pos = some zv → Fwd (pts j) (pts i) z zv) : Fwd (pts j) (pts i) z a := by
  cases h with
  | vtx h1 h2 _ _ _ => exact hv _ a h1 h2
  | top _ ht h3 => rw [h3]; exact top_fwd ht (hi.eq hj) (hF.height z hz)
  | bp _ _ h1 _ =>
    obtain ⟨hzl, c, hc, hlt⟩ := hF.cover z hz
    exact above_fwd hne h1 (hi.eq hj) hzl (lt_of_le_of_lt (hi.2 c hc) hlt)

theorem Fwd.sub {p r u w z : Pt} (h : Fwd p r w u) (hz : Between u w z) : Fwd p r z u ∧ Fwd p r w z := by
  obtain ⟨k, h1, h2, h3⟩ := h
  obtain ⟨t, t0, t1, rfl⟩ := hz
  refine ⟨⟨t * k, mul_nonpos_of_nonneg_of_nonpos t0 h1, ?_, ?_⟩, ⟨(1 - t) * k, mul_nonpos_of_nonneg_of_nonpos (by linarith) h1, ?_, ?_⟩⟩ <;> simp only
  · linear_combination t * h2
  · linear_combination t * h3
  · linear_combination (1 - t) * h2
  · linear_combination (1 - t) * h3

theorem between_bisector {p r u w z : Pt} (hu : dsq p u = dsq r u) (hw : dsq p w = dsq r w) (hz : Between u w z) : dsq p z = dsq r z := by
  obtain ⟨t, _, _, rfl⟩ := hz
  unfold dsq at *
  simp only
  linear_combination (1 - t) * hu + t * hw

/-- Points of the bisector at or after both start and end are nearest to both sites. -/
theorem on_nearest (hd : Distinct pts n) (hq : q.Spec evLt ok) (h : Reach pts q n poly s) (hend : s.queue = []) (he : Edg s.d e t i j)
    (heq : dsq (pts i) z = dsq (pts j) z) (h1 : ∀ v zv, StartsAt s.d e v → (s.d.vs v).pos = some zv → Fwd (pts j) (pts i) z zv)
    (h2 : ∀ v zv, StartsAt s.d t v → (s.d.vs v).pos = some zv → Fwd (pts j) (pts i) zv z) : Nearest pts n i z ∧ Nearest pts n j z := by
  refine C64_points_nearest hd hq h hend he.lt ⟨he.inc, t, he.tw, he.tinc⟩ ⟨heq, fun v zv hv hzv => (h1 v zv hv hzv).ahead, ?_⟩
  rintro v zv ⟨t', ht', hv⟩ hzv
  rw [he.tw, Option.some.injEq] at ht'
  subst ht'
  have := (h2 v zv hv hzv).ahead
  rw [ahead_swap] at this
  linarith

theorem EndKind.start (h : EndKind pts n poly s e i j a) {v : Nat} {zv : Pt} (hv : StartsAt s.d e v) (hzv : (s.d.vs v).pos = some zv) : zv = a := by
  have hv : (s.d.he e).origin = .vtx v := hv
  cases h with
  | vtx h1 h2 _ _ _ =>
    rw [hv] at h1
    cases h1
    rw [hzv, Option.some.injEq] at h2
    exact h2
  | bp h1 => rw [hv] at h1; cases h1
  | top h1 => rw [hv] at h1; cases h1

/-- Points between the ends are nearest to both sites. -/
theorem ends_nearest (hd : Distinct pts n) (hq : q.Spec evLt ok) (h : Reach pts q n poly s) (hend : s.queue = [])
    (he : Edg s.d e t i j) (ha : EndKind pts n poly s e i j a) (hb : EndKind pts n poly s t j i b) (hf : Fwd (pts j) (pts i) b a) (hz : Between a b z) :
    Nearest pts n i z ∧ Nearest pts n j z := by
  obtain ⟨g1, g2⟩ := hf.sub hz
  refine on_nearest hd hq h hend he (between_bisector ha.eq hb.eq.symm hz) ?_ ?_
  · intro v zv hv hzv
    rw [ha.start hv hzv]; exact g1
  · intro v zv hv hzv
    rw [hb.start hv hzv]; exact g2

/-- The ends of an edge with two vertices are in the right order. -/
theorem vtx_fwd (hd : Distinct pts n) (hq : q.Spec evLt ok) (h : Reach pts q n poly s) (hend : s.queue = []) (he : Edg s.d e t i j) {v w : Nat}
    (hv : (s.d.he e).origin = .vtx v) (ha : (s.d.vs v).pos = some a) (hw : (s.d.he t).origin = .vtx w) (hb : (s.d.vs w).pos = some b) :
    Fwd (pts j) (pts i) b a := by
  obtain ⟨L0, hI0⟩ := reach_inv hq h
  have hin := (he.site_lt hI0).1
  obtain ⟨hH, ⟨L, l, hI, hG, hK, hE, _, hlv⟩, _⟩ := known_end hd.injOn hq h hend (by omega)
  exact hK.runs e t i j he a b (Or.inl ⟨_, hv, ha⟩) (Or.inl ⟨_, hw, hb⟩)

theorem hasLength_bp {b : Nat} (h : (s.d.he e).origin = .bp b) : HasLength s.d e := by
  rintro ⟨v, _, _, h1, _⟩
  rw [show (s.d.he e).origin = .vtx v from h1] at h
  cases h

theorem hasLength_bp' {b : Nat} (ht : (s.d.he e).twin = some t) (h : (s.d.he t).origin = .bp b) : HasLength s.d e := by
  rintro ⟨_, w, _, _, ⟨t', h1, h2⟩, _⟩
  rw [ht, Option.some.injEq] at h1
  subst h1
  rw [show (s.d.he t).origin = .vtx w from h2] at h
  cases h

theorem bp_nearest (h1 : Bp (pts j) (pts i) l a) (h2 : ∀ c < n, 0 ≤ pw (pts c) l a) (hi : i < n) (hj : j < n) : Nearest pts n i a ∧ Nearest pts n j a := by
  have e1 := h1.ea
  have e2 := h1.eb
  refine ⟨⟨hi, fun c hc => ?_⟩, hj, fun c hc => ?_⟩ <;>
  · have := h2 c hc
    unfold pw at this
    show dsq _ _ ≤ dsq _ _
    linarith

/-- The line between the ends misses the polygon, and so does the edge. -/
structure Missed (pts : Nat → Pt) (n : Nat) (poly : Poly ℝ) (s : St ℝ) (e t i j : Nat) (a b : Pt) : Prop where
  apart : ∀ z, Between a b z → ¬ InClosed poly.points z
  none : ∀ z, InClosed poly.points z → Nearest pts n i z → Nearest pts n j z →
    (∀ v zv, StartsAt s.d e v → (s.d.vs v).pos = some zv → Fwd (pts j) (pts i) z zv) →
    (∀ v zv, StartsAt s.d t v → (s.d.vs v).pos = some zv → Fwd (pts i) (pts j) z zv) → False
  out : ∃ x, ¬ InClosed poly.points x ∧ Nearest pts n i x ∧ Nearest pts n j x

theorem Missed.symm (h : Missed pts n poly s e t i j a b) : Missed pts n poly s t e j i b a :=
  ⟨fun z hz => h.apart z hz.symm, fun z h1 h2 h3 h4 h5 => h.none z h1 h3 h2 h5 h4, by obtain ⟨x, h1, h2, h3⟩ := h.out; exact ⟨x, h1, h3, h2⟩⟩

/-- A ray of points nearest to both sites. -/
theorem far_border {i j : Nat} {z : Pt} (hne : pts i ≠ pts j) (h : ∀ w, Fwd (pts j) (pts i) z w → Nearest pts n i w ∧ Nearest pts n j w) : FarBorder pts n i j := by
  intro R
  have hD := dsq_pos hne
  obtain ⟨D, hDe⟩ : ∃ D, D = dsq (pts i) (pts j) := ⟨_, rfl⟩
  rw [← hDe] at hD
  obtain ⟨B, hB⟩ : ∃ B, B = 2 * ((z.1 - (pts i).1) * ((pts i).2 - (pts j).2) - (z.2 - (pts i).2) * ((pts i).1 - (pts j).1)) := ⟨_, rfl⟩
  obtain ⟨A, hA⟩ : ∃ A, A = dsq (pts i) z := ⟨_, rfl⟩
  obtain ⟨k, hk⟩ : ∃ k, k = (|B| + |A| + |R| + 1) / D + 1 := ⟨_, rfl⟩
  have hk1 : 1 ≤ k := by
    have : 0 ≤ (|B| + |A| + |R| + 1) / D := by positivity
    linarith
  have hkD : |B| + |A| + |R| + 1 ≤ k * D := by
    have : k * D = |B| + |A| + |R| + 1 + D := by rw [hk]; field_simp
    linarith
  have hw := h (z.1 + k * ((pts i).2 - (pts j).2), z.2 - k * ((pts i).1 - (pts j).1)) ⟨-k, by linarith, by simp only; ring, by simp only; ring⟩
  refine ⟨_, hw.1, hw.2, ?_⟩
  have e : sqDist (pts i) (z.1 + k * ((pts i).2 - (pts j).2), z.2 - k * ((pts i).1 - (pts j).1)) = A + k * B + k * (k * D) := by
    rw [hA, hB, hDe]; unfold sqDist dsq; simp only; ring
  rw [e]
  have h1 := mul_le_mul_of_nonneg_left hkD (by linarith : 0 ≤ k)
  have h2 : k * -|B| ≤ k * B := mul_le_mul_of_nonneg_left (neg_abs_le B) (by linarith)
  have h3 : |A| + |R| + 1 ≤ k * (|A| + |R| + 1) := by
    have : 0 ≤ |A| + |R| + 1 := by positivity
    nlinarith
  have h4 := neg_abs_le A
  have h5 := le_abs_self R
  nlinarith

/-- An edge with an end that is not low enough misses the polygon. -/
theorem LowEnd.missed (hF : FitsPolygon pts n poly) (hd : Distinct pts n) (hq : q.Spec evLt ok) (h : Reach pts q n poly s) (hend : s.queue = [])
    (he : Edg s.d e t i j) (ha : LowEnd pts n poly s e i j a) : (∃ v, StartsAt s.d t v ∧ (s.d.vs v).pos = some b) → Missed pts n poly s e t i j a b := by
  rintro ⟨v, hv, hb⟩
  obtain ⟨L, hI⟩ := reach_inv hq h
  have hne : pts i ≠ pts j := he.pts_ne hd.injOn hI
  have het := he.symm hI.dinv
  obtain ⟨⟨m, hm⟩, hbp, c, hc, hlt⟩ := ha
  have hnov : ∀ (v : Nat) (zv z : Pt), StartsAt s.d e v → (s.d.vs v).pos = some zv → Fwd (pts j) (pts i) z zv := by
    intro v _ _ hv
    rw [show (s.d.he e).origin = .vtx v from hv] at hm
    cases hm
  have hstop : ∀ z, Fwd (pts j) (pts i) b z → ∀ v' zv, StartsAt s.d t v' → (s.d.vs v').pos = some zv → Fwd (pts j) (pts i) zv z := by
    intro z hz v' zv hv' hzv
    have e1 : v' = v := Org.vtx.inj (hv'.symm.trans hv)
    subst e1
    rw [hb, Option.some.injEq] at hzv
    exact hzv ▸ hz
  have heqa : dsq (pts i) a = dsq (pts j) a := hbp.eb.trans hbp.ea.symm
  obtain ⟨nj, ni⟩ := start_bisector hd hq h het hv hb
  -- the breakpoint is before the vertex
  have hfab : Fwd (pts j) (pts i) a b := by
    rcases fwd_total hne.symm heqa.symm (nj.eq ni) with h1 | h1
    · exact h1
    · exfalso
      obtain ⟨n1, _⟩ := on_nearest hd hq h hend he heqa (fun v zv => hnov v zv a) (hstop a h1)
      have e1 := n1.2 c hc
      have e2 := hbp.eb
      unfold pw at hlt
      have e1 : dsq (pts i) a ≤ dsq (pts c) a := e1
      linarith
  have hlow : ∀ w, dsq (pts i) w = dsq (pts j) w → Fwd (pts j) (pts i) a w → clipLine poly < w.2 → dsq (pts i) w < (w.2 - clipLine poly) ^ 2 → False := by
    intro w hw h1 h2 h3
    have := above_fwd hne hbp hw h2 h3
    have := h1.antisymm hne.symm this
    subst this
    rw [hbp.eb] at h3
    exact lt_irrefl _ h3
  have hedge : ∀ w, InClosed poly.points w → Nearest pts n i w → Nearest pts n j w → Fwd (pts j) (pts i) a w → False := by
    intro w hw n1 n2 hf
    obtain ⟨h1, p, hp, h2⟩ := hF.cover w hw
    exact hlow w (n1.eq n2) hf h1 (lt_of_le_of_lt (n1.2 p hp) h2)
  obtain ⟨zv, hzv, hvv⟩ := C25_vertices hd hq h v (hI.dinv.ovt t het.lt v hv).1
  rw [hb, Option.some.injEq] at hzv
  subst hzv
  have hfar : FarBorder pts n i j := by
    refine far_border (z := b) hne fun w hw => ?_
    refine on_nearest hd hq h hend he ?_ (fun v zv => hnov v zv w) (hstop w hw)
    have e1 : dsq (pts i) b = dsq (pts j) b := ni.eq nj
    obtain ⟨k, _, e2, e3⟩ := hw
    have e2 : w.1 = b.1 - k * ((pts i).2 - (pts j).2) := by linarith
    have e3 : w.2 = b.2 + k * ((pts i).1 - (pts j).1) := by linarith
    unfold dsq at e1 ⊢
    rw [e2, e3]
    linear_combination e1
  have hcases := hF.verts i j b (he.ne hI.dinv) hfar hvv ni nj
  refine ⟨fun w hw hcl => ?_, fun w hcl n1 n2 _ h2 => ?_, b, fun hcl => hedge b hcl ni nj hfab, ni, nj⟩
  · have hf : Fwd (pts j) (pts i) a w := (hfab.sub hw.symm).2
    have heq := between_bisector heqa (ni.eq nj) hw
    rcases hcases with ⟨h1, h2⟩ | h1
    · exact hlow b (ni.eq nj) hfab h1 h2
    · exact hlow w heq hf (hF.cover w hcl).1 (h1 w hcl heq)
  · exact hedge w hcl n1 n2 (hfab.trans (h2 v b hv hb).swap)

/-- The ends of an edge, as they are used for clipping. -/
structure Ends (pts : Nat → Pt) (n : Nat) (poly : Poly ℝ) (s : St ℝ) (e t i j : Nat) (a b : Pt) : Prop where
  ra : rawO pts poly s.bps s.d e = some (fin2 a)
  rb : rawO pts poly s.bps s.d t = some (fin2 b)
  ca : opos s.d e = some a ∧ ¬ OnBoundary poly.points a ∨ opos s.d e = none ∧ RayEnd poly.points b a
  cb : opos s.d t = some b ∧ ¬ OnBoundary poly.points b ∨ opos s.d t = none ∧ RayEnd poly.points a b
  fwd : ∀ z, Between a b z → InClosed poly.points z → Fwd (pts j) (pts i) b a
  near : ∀ z, Between a b z → InClosed poly.points z → Nearest pts n i z ∧ Nearest pts n j z
  all : ∀ z, InClosed poly.points z → Nearest pts n i z → Nearest pts n j z →
    (∀ v zv, StartsAt s.d e v → (s.d.vs v).pos = some zv → Fwd (pts j) (pts i) z zv) →
    (∀ v zv, StartsAt s.d t v → (s.d.vs v).pos = some zv → Fwd (pts i) (pts j) z zv) → Between a b z
  va : ∀ x, opos s.d e = some x → a = x ∧ VoronoiVertex pts n x
  vb : ∀ x, opos s.d t = some x → b = x ∧ VoronoiVertex pts n x
  out : opos s.d e = none ∨ opos s.d t = none → ∃ x, ¬ StrictlyInside poly.points x ∧ Nearest pts n i x ∧ Nearest pts n j x

theorem Fwd.bisector {p r u w : Pt} (h : Fwd p r u w) : dsq p u = dsq r u → dsq p w = dsq r w := by
  intro e1
  obtain ⟨k, _, e2, e3⟩ := h
  have e2 : w.1 = u.1 - k * (r.2 - p.2) := by linarith
  have e3 : w.2 = u.2 + k * (r.1 - p.1) := by linarith
  unfold dsq at e1 ⊢
  rw [e2, e3]
  linear_combination e1

theorem EndKind.opos (h : EndKind pts n poly s e i j a) (x : Pt) (hx : opos s.d e = some x) : a = x ∧ VoronoiVertex pts n x := by
  cases h with
  | vtx g1 g2 g3 _ _ =>
    rw [opos_vtx g1, g2, Option.some.injEq] at hx
    exact ⟨hx, hx ▸ g3⟩
  | bp g1 => unfold Foronoi.opos at hx; rw [g1] at hx; cases hx
  | top g1 => unfold Foronoi.opos at hx; rw [g1] at hx; cases hx

/-- The ends are in the right order, or the edge misses the polygon. -/
theorem EndKind.order (hF : FitsPolygon pts n poly) (hd : Distinct pts n) (hq : q.Spec evLt ok) (h : Reach pts q n poly s) (hend : s.queue = [])
    (he : Edg s.d e t i j) (ka : EndKind pts n poly s e i j a) (kb : EndKind pts n poly s t j i b) :
    Fwd (pts j) (pts i) b a ∨ Missed pts n poly s e t i j a b := by
  obtain ⟨L, hI⟩ := reach_inv hq h
  -- one half
  have top : ∀ {e t i j : Nat} {a b : Pt}, Edg s.d e t i j → EndKind pts n poly s t j i b → ∀ {m : Nat}, (s.d.he e).origin = .bp m → TopRowPair pts n i j →
      a = (((pts j).1 + (pts i).1) / 2, poly.maxY) → Fwd (pts j) (pts i) b a ∨ Missed pts n poly s e t i j a b := by
    intro e t i j a b he kb m hm ht hae
    have hin := (he.site_lt hI).1
    have hjn := ((he.symm hI.dinv).site_lt hI).1
    by_cases hle : b.2 ≤ poly.maxY
    · left; rw [hae]; exact top_fwd ht kb.eq.symm hle
    right
    have kb' := kb
    cases kb with
    | bp h0 _ h1 h2 =>
      obtain ⟨nj, ni⟩ := bp_nearest h1 h2 hjn hin
      push Not at hle
      have hma : a.2 = poly.maxY := by rw [hae]
      have hnone : ∀ z, InClosed poly.points z → dsq (pts i) z = dsq (pts j) z → False := fun z hz hzx => by
        have h3 := kb'.below hF ht h0 hz hzx
        have h4 := hF.height z hz
        linarith
      refine ⟨fun z hz hcl => hnone z hcl ?_, fun z hcl n1 n2 _ _ => hnone z hcl (n1.eq n2), b, fun hcl => not_le.mpr hle (hF.height b hcl), ni, nj⟩
      obtain ⟨u, _, _, hu⟩ := hz
      have hx := top_x ht (ni.eq nj)
      have : z = (((pts j).1 + (pts i).1) / 2, (1 - u) * a.2 + u * b.2) := by
        rw [hu, hx, hae]; exact Prod.ext (by simp only; ring) rfl
      rw [this]
      exact top_dsq ht
    | top h0 h1 => 
      have := ht.2.1
      have := h1.2.1
      linarith
    | vtx h1 h2 h3 nj ni =>
      have hout := ((hF.top i hin j hjn ht).2 b h3 ni nj).resolve_left hle
      rw [add_comm, ← hae] at hout
      push Not at hle
      have hma : a.2 = poly.maxY := by rw [hae]
      refine ⟨fun z hz hcl => ?_, fun z hcl n1 n2 _ g2 => ?_, b, fun hcl => not_le.mpr hle (hF.height b hcl), ni, nj⟩
      · have h4 := hF.height z hcl
        obtain ⟨u, u0, u1, hu⟩ := hz
        have h5 : z.2 = (1 - u) * a.2 + u * b.2 := by rw [hu]
        rcases u0.lt_or_eq with h6 | h6
        · nlinarith
        · refine hout ?_
          have : a = z := by rw [hu, ← h6]; refine Prod.ext ?_ ?_ <;> simp
          rw [this]; exact hcl
      · obtain ⟨k, k1, _, k2⟩ := g2 _ b h1 h2
        have h4 := hF.height z hcl
        have := mul_nonpos_of_nonpos_of_nonneg k1 (by linarith [ht.2.1] : 0 ≤ (pts j).1 - (pts i).1)
        linarith
  have hin := (he.site_lt hI).1
  have het := he.symm hI.dinv
  have hjn := (het.site_lt hI).1
  have hne : pts i ≠ pts j := he.pts_ne hd.injOn hI
  have ka' := ka
  have kb' := kb
  cases ka with
  | top h1 h2 h3 => exact top he kb h1 h2 h3
  | vtx g1 g2 g3 g4 g5 =>
    cases kb with
    | top h1 h2 h3 =>
      rcases top het ka' h1 h2 h3 with h | h
      · exact Or.inl h.swap
      · exact Or.inr h.symm
    | vtx h1 h2 h3 _ _ => exact Or.inl (vtx_fwd hd hq h hend he g1 g2 h1 h2)
    | bp h1 _ h3 h4 =>
      left
      obtain ⟨n1, n2⟩ := bp_nearest h3 h4 hjn hin
      exact fwd_of_ahead hne.symm kb'.eq ka'.eq.symm (start_ok hd hq h hend he (hasLength_bp' he.tw h1) g1 g2 n2 n1)
  | bp g1 g2 g3 g4 =>
    cases kb with
    | top h1 h2 h3 =>
      rcases top het ka' h1 h2 h3 with h | h
      · exact Or.inl h.swap
      · exact Or.inr h.symm
    | vtx h1 h2 h3 _ _ =>
      left
      obtain ⟨n1, n2⟩ := bp_nearest g3 g4 hin hjn
      exact (fwd_of_ahead hne ka'.eq kb'.eq.symm (start_ok hd hq h hend het (hasLength_bp' het.tw g1) h1 h2 n2 n1)).swap
    | bp h1 _ h3 h4 => exact Or.inl (bp_opp hne.symm g3 h3 (hF.low _ hjn).le (hF.low _ hin).le (hF.low _ hjn).le (hF.low _ hin).le)

theorem edge_ends (hF : FitsPolygon pts n poly) (hd : Distinct pts n) (hq : q.Spec evLt ok) (h : Reach pts q n poly s) (hend : s.queue = [])
    (he : Edg s.d e t i j) : ∃ a b, Ends pts n poly s e t i j a b := by
  obtain ⟨L, hI⟩ := reach_inv hq h
  have het := he.symm hI.dinv
  have hin := (he.site_lt hI).1
  have hjn := (het.site_lt hI).1
  have hne : pts i ≠ pts j := he.pts_ne hd.injOn hI
  obtain ⟨a, ra, ka⟩ := end_kind hF hd hq h hend he
  obtain ⟨b, rb, kb⟩ := end_kind hF hd hq h hend het
  refine ⟨a, b, ?_⟩
  -- a low end has a vertex at the other end
  have low : ∀ {e t i j : Nat} {a b : Pt}, Edg s.d e t i j → LowEnd pts n poly s e i j a → rawO pts poly s.bps s.d t = some (fin2 b) → (EndKind pts n poly s t j i b ∨ LowEnd pts n poly s t j i b) →
      Missed pts n poly s e t i j a b ∧ ∃ v, StartsAt s.d t v ∧ (s.d.vs v).pos = some b := by
    intro e t i j a b he hl rb kb
    have het := he.symm hI.dinv
    have hv : ∃ v, StartsAt s.d t v ∧ (s.d.vs v).pos = some b := by
      cases ho : (s.d.he t).origin with
      | vtx v =>
        obtain ⟨zv, hzv, _⟩ := C25_vertices hd hq h v (hI.dinv.ovt t het.lt v ho).1
        rcases kb with kb | ⟨⟨m, hm⟩, _⟩
        · exact ⟨v, ho, by rw [hzv, kb.start ho hzv]⟩
        · rw [ho] at hm; cases hm
      | bp m =>
        exfalso
        obtain ⟨⟨m', hm'⟩, hbp, c, hc, hlt⟩ := hl
        obtain ⟨n1, _⟩ := on_nearest hd hq h hend he (hbp.eb.trans hbp.ea.symm) (z := a)
          (fun v _ hv => by rw [show (s.d.he e).origin = .vtx v from hv] at hm'; cases hm')
          (fun v _ hv => by rw [show (s.d.he t).origin = .vtx v from hv] at ho; cases ho)
        have e1 := n1.2 c hc
        have e2 := hbp.eb
        unfold pw at hlt
        have e1 : dsq (pts i) a ≤ dsq (pts c) a := e1
        linarith
    exact ⟨hl.missed hF hd hq h hend he hv, hv⟩
  have vop : ∀ {e t i j : Nat} {a : Pt}, Edg s.d e t i j → rawO pts poly s.bps s.d e = some (fin2 a) → EndKind pts n poly s e i j a ∨ LowEnd pts n poly s e i j a → ∀ x, opos s.d e = some x → a = x ∧ VoronoiVertex pts n x := by
    intro e t i j a he ra ka x hx
    rcases ka with ka | ⟨⟨m, hm⟩, _⟩
    · exact ka.opos x hx
    · unfold opos at hx; rw [hm] at hx; cases hx
  have missed : Missed pts n poly s e t i j a b → Ends pts n poly s e t i j a b := by
    intro hm
    have cut : ∀ {e : Nat} {a b : Pt}, (∀ x, opos s.d e = some x → a = x ∧ VoronoiVertex pts n x) → ¬ InClosed poly.points a →
        (opos s.d e = some a ∧ ¬ OnBoundary poly.points a ∨ opos s.d e = none ∧ RayEnd poly.points b a) := by
      intro e a b hv hcl
      cases ho : opos s.d e with
      | none => exact Or.inr ⟨rfl, Or.inl (not_closed.mpr hcl)⟩
      | some x =>
        obtain ⟨rfl, _⟩ := hv x ho
        exact Or.inl ⟨rfl, fun hb => hcl (hb.closed hF.convex)⟩
    obtain ⟨x, hx, n1, n2⟩ := hm.out
    exact ⟨ra, rb, cut (vop he ra ka) (hm.apart a (Between.left a b)), cut (vop het rb kb) (hm.apart b (Between.left b a).symm),
      fun z hz hcl => absurd hcl (hm.apart z hz), fun z hz hcl => absurd hcl (hm.apart z hz), fun z hcl n1 n2 v1 v2 => (hm.none z hcl n1 n2 v1 v2).elim,
      vop he ra ka, vop het rb kb, fun _ => ⟨x, fun hh => hx hh.closed, n1, n2⟩⟩
  rcases ka with ka | hl
  swap
  · exact missed (low he hl rb kb).1
  rcases kb with kb | hl
  swap
  · exact missed (low het hl ra (Or.inl ka)).1.symm
  rcases ka.order hF hd hq h hend he kb with hf | hm
  swap
  · exact missed hm
  have near := fun z hz => ends_nearest (z := z) hd hq h hend he ka kb hf hz
  have ca := ka.cut hF kb.eq.symm hf
  have cb := kb.cut hF ka.eq.symm hf.swap
  refine ⟨ra, rb, ca, cb, fun _ _ _ => hf, fun z hz _ => near z hz, fun z hcl n1 n2 v1 v2 => ?_, ka.opos, kb.opos, ?_⟩
  · exact Fwd.between (ka.beyond hF hne hcl n1 n2 v1).swap.swap (kb.beyond hF hne.symm hcl n2 n1 v2)
  · rintro (h0 | h0)
    · rcases ca with ⟨h1, _⟩ | ⟨_, h1⟩
      · rw [h0] at h1; cases h1
      · exact ⟨a, h1.ne hF.convex, near a (Between.left a b)⟩
    · rcases cb with ⟨h1, _⟩ | ⟨_, h1⟩
      · rw [h0] at h1; cases h1
      · exact ⟨b, h1.ne hF.convex, near b (Between.left b a).symm⟩

/-- An end that was cut is on the border. -/
theorem cut_kind {va : Option Pt} {x : Pt} (h : Cut poly va (some (fin2 a)) (some (fin2 b)) (some x)) : va = some x ∨ OnBoundary poly.points x := by
  rcases h with ⟨p, h1, _, h2⟩ | ⟨_, a', b', r, e1, e2, h3, h4⟩
  · left; rw [h1, h2]
  · right
    rw [Option.some.injEq] at e1 e2
    subst e1; subst e2
    rw [rounds_real] at h4
    obtain ⟨r', h5, h6, _⟩ := intersectionPoint_real poly.points b a
    rw [h3, Option.some.injEq] at h5
    subst h5
    obtain ⟨k, _, _, hs⟩ := h6 x h4.symm
    exact ⟨k, hs⟩

/-- Clipping one edge. -/
theorem edge_clip (hF : FitsPolygon pts n poly) (hd : Distinct pts n) (hq : q.Spec evLt ok) (h : Reach pts q n poly s) (hend : s.queue = [])
    (he : Edg s.d e t i j) {xa xb : Option Pt} (h1 : Cut poly (opos s.d e) (rawO pts poly s.bps s.d e) (rawO pts poly s.bps s.d t) xa)
    (h2 : Cut poly (opos s.d t) (rawO pts poly s.bps s.d t) (some (finO xa)) xb) :
    (∀ x y, xa = some x → xb = some y → (VoronoiVertex pts n x ∨ OnBoundary poly.points x) ∧ (VoronoiVertex pts n y ∨ OnBoundary poly.points y) ∧
      ∀ z, Between x y z → InClosed poly.points z ∧ Nearest pts n i z ∧ Nearest pts n j z) ∧
    ∀ z, StrictlyInside poly.points z → Nearest pts n i z → Nearest pts n j z →
      (∀ v zv, StartsAt s.d e v → (s.d.vs v).pos = some zv → Fwd (pts j) (pts i) z zv) →
      (∀ v zv, StartsAt s.d t v → (s.d.vs v).pos = some zv → Fwd (pts i) (pts j) z zv) → ∃ x y, xa = some x ∧ xb = some y ∧ Between x y z := by
  obtain ⟨a, b, E⟩ := edge_ends hF hd hq h hend he
  rw [E.ra, E.rb] at h1
  rw [E.rb] at h2
  obtain ⟨c1, c2, _⟩ := clip_two hF.convex E.ca E.cb h1 h2
  refine ⟨fun x y hx hy => ?_, fun z hz n1 n2 v1 v2 => c2 z hz (E.all z hz.closed n1 n2 v1 v2)⟩
  obtain ⟨d1, d2, d3, d4, _⟩ := c1 x y hx hy
  refine ⟨?_, ?_, fun z hz => ⟨d1.between d2 hz, E.near z (d3.mono d4 hz) (d1.between d2 hz)⟩⟩
  · rw [hx] at h1
    exact (cut_kind h1).imp (fun hv => (E.va x hv).2) id
  · rw [hx, hy, finO_some] at h2
    exact (cut_kind h2).imp (fun hv => (E.vb y hv).2) id

variable {rz : Bool} {fuel : Nat} {s' : St ℝ}

theorem Stages.edgesOf {s0 s1 s2 : St ℝ} {L : List (Item Dat)} {vs : List Nat} {V : Nat → Nat} {cell : Nat}
    (hI : Inv pts ok n poly.points.length s0 L) (h : Stages pts n poly rz s0 s1 s2 s' vs V cell) :
    (∀ f < s0.d.heCnt, (s'.d.he f).twin = (s0.d.he f).twin ∧ (s'.d.he f).incident = (s0.d.he f).incident ∧ opos s'.d f = opos s1.d f) ∧
    ∀ e ∈ s'.edges, ∀ p r, Separates s'.d e p r → e ∈ s1.edges ∧ e ∈ s0.edges := by
  have hb := h.fp.binv
  have hcnt : s1.d.heCnt = s0.d.heCnt := h.fe.keeps.heCnt
  have htw1 : ∀ f, (s1.d.he f).twin = (s0.d.he f).twin := h.fe.keeps.twin
  have hin1 : ∀ f, (s1.d.he f).incident = (s0.d.he f).incident := h.fe.keeps.inc
  have hop : ∀ f < s1.d.heCnt, opos s2.d f = opos s1.d f := by
    intro f hf
    unfold opos
    rw [hb.org f hf]
    cases (s1.d.he f).origin with
    | bp b => rfl
    | vtx v => exact hb.pos v
  have hcu := h.cu
  have hfin : (∀ f, (s'.d.he f).twin = (s2.d.he f).twin) ∧ (∀ f, (s'.d.he f).incident = (s2.d.he f).incident) ∧ (∀ f, opos s'.d f = opos s2.d f) ∧
      ∀ e ∈ s'.edges, e ∈ s2.edges := by
    cases rz with
    | false =>
      simp only [Bool.false_eq_true, if_false] at hcu
      have e1 : s'.d = s2.d := by rw [hcu]
      have e2 : s'.edges = s2.edges := by rw [hcu]
      rw [e1, e2]
      exact ⟨fun _ => rfl, fun _ => rfl, fun _ => rfl, fun _ h => h⟩
    | true =>
      simp only [if_true] at hcu
      exact ⟨hcu.same.twin, hcu.same.inc, hcu.opos, fun e he => hcu.sub.subset he⟩
  obtain ⟨f1, f2, f3, f4⟩ := hfin
  constructor
  · intro f hf
    rw [← hcnt] at hf
    exact ⟨by rw [f1, hb.twin f hf, htw1], by rw [f2, hb.inc f hf, hin1], by rw [f3, hop f hf]⟩
  · rintro e he p r ⟨_, t, ht, hr⟩
    have he2 := f4 e he
    have hed : s2.edges = s1.edges ++ (List.range vs.length).map (fun j => s1.d.heCnt + 2 * j + 1) := by rw [h.fp.eq]
    rw [hed] at he2
    rcases List.mem_append.mp he2 with he2 | he2
    · exact ⟨he2, h.fe.sub.subset he2⟩
    · exfalso
      obtain ⟨j, hj, rfl⟩ := List.mem_map.mp he2
      have hj := List.mem_range.mp hj
      rw [f1, (hb.newE j hj).1, Option.some.injEq] at ht
      subst ht
      rw [f2, (hb.newT j hj).2.2] at hr
      cases hr

/-- What was proved about the sweep, for a run of `create_diagram`. -/
theorem create_edge (hF : FitsPolygon pts n poly) (hd : Distinct pts n) (hq : q.Spec evLt ok) (hn : 0 < n)
    (h : createDiagram pts q n fuel poly rz (initSt poly) = .ok ((), s')) :
    ∃ s s1 L, Reach pts q n poly s ∧ s.queue = [] ∧ Inv pts ok n poly.points.length s L ∧ Result pts n poly rz s s' ∧
      (∀ f < s.d.heCnt, (s'.d.he f).twin = (s.d.he f).twin ∧ (s'.d.he f).incident = (s.d.he f).incident ∧ opos s'.d f = opos s1 f) ∧
      (∀ e ∈ s'.edges, ∀ p r, Separates s'.d e p r → e ∈ s.edges) ∧
      ∀ e ∈ s.edges, ∀ t, (s.d.he e).twin = some t → ∃ a b, Cut poly (opos s.d e) (rawO pts poly s.bps s.d e) (rawO pts poly s.bps s.d t) a ∧
        Cut poly (opos s.d t) (rawO pts poly s.bps s.d t) (some (finO a)) b ∧ opos s1 e = a ∧ opos s1 t = b := by
  have hne : poly.points ≠ [] := by
    intro hh
    have := hF.convex.1
    rw [hh] at this; simp at this
  obtain ⟨sr, s0, s1, s2, vs, V, cell, hr, hp, h0, hs, hst⟩ := createDiagram_stages hq hn hne h
  obtain ⟨L, hI⟩ := reach_inv hq hr
  have hI0 : Inv pts ok n poly.points.length s0 L := by
    rw [h0]; exact ⟨hI.tree, hI.beach, { hI.qinv with }, { hI.sinv with }, hI.dinv, { hI.cinv with }⟩
  obtain ⟨g1, g2⟩ := hst.edgesOf hI0
  have hres := hst.result hI0
  have hfe := hst.fe.pos
  subst h0
  refine ⟨sr, s1.d, L, hr, (hq.pop_none _ hI.qinv.ok).mp hp, hI, ⟨hres.twins, hres.nodup, hres.lt, hres.half, hres.ends, hres.old⟩, g1, fun e he p r hs => (g2 e he p r hs).2, ?_⟩
  intro e he t ht
  obtain ⟨a, b, c1, c2, c3, c4, _⟩ := hfe e he t ht
  exact ⟨a, b, c1, c2, c3, c4⟩

/-- C65: every listed edge between two cells starts and ends at a Voronoi vertex or on the border, and all its points are in the polygon and
nearest to both sites. -/
theorem C65_edges_sound (hF : FitsPolygon pts n poly) (hd : Distinct pts n) (hq : q.Spec evLt ok) (hn : 0 < n)
    (h : createDiagram pts q n fuel poly rz (initSt poly) = .ok ((), s')) {e p r : Nat} (he : e ∈ s'.edges) (hs : Separates s'.d e p r) :
    ∃ a b, OriginAt s'.d e a ∧ TargetAt s'.d e b ∧ (VoronoiVertex pts n a ∨ OnBoundary poly.points a) ∧
      (VoronoiVertex pts n b ∨ OnBoundary poly.points b) ∧
      ∀ z, Between a b z → InClosed poly.points z ∧ Nearest pts n p z ∧ Nearest pts n r z := by
  obtain ⟨s, d1, L, hr, hend, hI, hres, hk, hsub, hcut⟩ := create_edge hF hd hq hn h
  have he0 := hsub e he p r hs
  have hel := hI.dinv.elt e he0
  obtain ⟨hi, t, ht, hti⟩ := hs
  obtain ⟨k1, k2, k3⟩ := hk e hel
  rw [k1] at ht
  rw [k2] at hi
  obtain ⟨t', ht', htl, _, _⟩ := hI.dinv.tw e hel
  rw [ht, Option.some.injEq] at ht'
  subst ht'
  rw [(hk t htl).2.1] at hti
  obtain ⟨t', x, y, g1, g2, g3, _⟩ := hres.ends e he
  rw [k1, ht, Option.some.injEq] at g1
  subst g1
  obtain ⟨a, b, c1, c2, c3, c4⟩ := hcut e he0 t ht
  rw [k3, c3] at g2
  have g3' := g3
  rw [(hk t htl).2.2, c4] at g3
  obtain ⟨hc, _⟩ := edge_clip hF hd hq hr hend (i := p) (j := r) ⟨hel, ht, hi, hti⟩ c1 c2
  obtain ⟨m1, m2, m3⟩ := hc x y g2 g3
  exact ⟨x, y, originAt_iff.mpr (by rw [k3, c3, g2]), (targetAt_iff (by rw [k1, ht])).mpr g3', m1, m2, m3⟩

/-- C65: every point inside the polygon with two nearest sites is on a listed edge between their cells. -/
theorem C65_edges_complete (hF : FitsPolygon pts n poly) (hd : Distinct pts n) (hq : q.Spec evLt ok)
    (h : createDiagram pts q n fuel poly rz (initSt poly) = .ok ((), s')) {p r : Nat} (hpr : p ≠ r) {z : ℝ × ℝ}
    (hz : StrictlyInside poly.points z) (hp : Nearest pts n p z) (hr : Nearest pts n r z) (hv : ¬ VoronoiVertex pts n z) :
    ∃ e ∈ s'.edges, (Separates s'.d e p r ∨ Separates s'.d e r p) ∧ ∃ a b, OriginAt s'.d e a ∧ TargetAt s'.d e b ∧ Between a b z := by
  have hn : 0 < n := by have := hp.1; omega
  obtain ⟨s, d1, L, hrch, hend, hI, hres, hk, hsub, hcut⟩ := create_edge hF hd hq hn h
  obtain ⟨hH, _, _, h2⟩ := known_end hd.injOn hq hrch hend hn
  have hne : pts p ≠ pts r := fun he => hpr (hd p hp.1 r hr.1 he)
  obtain ⟨m, hem, hon⟩ := nearest_circle hH hp
  obtain ⟨l', hl'⟩ := h2 _ m hem (pts p) (pts r) hne ((hon _).mpr ⟨p, hp, rfl⟩) ((hon _).mpr ⟨r, hr, rfl⟩) (by
    intro c hc
    obtain ⟨i, hi, rfl⟩ := (hon c).mp hc
    by_contra hcon
    push Not at hcon
    exact hv ⟨p, r, i, hpr, fun hh => hcon.2 (by rw [hh]), fun hh => hcon.1 (by rw [hh]), hp, hr, hi⟩)
  obtain ⟨f, t, i, j, h1, hc, h6, h7⟩ := hl' l' le_rfl
  have h1' := h1.symm hI.dinv
  have hi := hd i (h1.site_lt hI).1 p hp.1 h6
  have hj := hd j (h1'.site_lt hI).1 r hr.1 h7
  subst hi; subst hj
  have o1 : ∀ v zv, StartsAt s.d f v → (s.d.vs v).pos = some zv → Fwd (pts j) (pts i) z zv := fun v zv a1 a2 => hc.org zv (Or.inl ⟨v, a1, a2⟩)
  have o2 : ∀ v zv, StartsAt s.d t v → (s.d.vs v).pos = some zv → Fwd (pts i) (pts j) z zv := fun v zv a1 a2 => hc.tgt zv (Or.inl ⟨v, a1, a2⟩)
  have main : ∀ {e t i j : Nat}, Edg s.d e t i j → e ∈ s.edges → Nearest pts n i z → Nearest pts n j z →
      (∀ v zv, StartsAt s.d e v → (s.d.vs v).pos = some zv → Fwd (pts j) (pts i) z zv) →
      (∀ v zv, StartsAt s.d t v → (s.d.vs v).pos = some zv → Fwd (pts i) (pts j) z zv) →
      e ∈ s'.edges ∧ Separates s'.d e i j ∧ ∃ a b, OriginAt s'.d e a ∧ TargetAt s'.d e b ∧ Between a b z := by
    intro e t i j hE he n1 n2 o1 o2
    obtain ⟨a, b, c1, c2, c3, c4⟩ := hcut e he t hE.tw
    obtain ⟨k0, k⟩ := edge_clip hF hd hq hrch hend hE c1 c2
    obtain ⟨x, y, hx, hy, hxy⟩ := k z hz n1 n2 o1 o2
    obtain ⟨w1, w2, _⟩ := k0 x y hx hy
    have het := hE.symm hI.dinv
    obtain ⟨k1, k2, k3⟩ := hk e hE.lt
    obtain ⟨l1, l2, l3⟩ := hk t het.lt
    have tw : (s'.d.he e).twin = some t := by rw [k1, hE.tw]
    have ho : opos s'.d e = some x := by rw [k3, c3, hx]
    have ht : opos s'.d t = some y := by rw [l3, c4, hy]
    refine ⟨hres.old e he t x y tw ho ht fun _ hxe => ?_, ⟨by rw [k2, hE.inc], t, tw, by rw [l2, hE.tinc]⟩, x, y, originAt_iff.mpr ho,
      (targetAt_iff tw).mpr ht, hxy⟩
    subst hxe
    have hzx : z = x := by
      obtain ⟨u, _, _, rfl⟩ := hxy
      apply Prod.ext <;> simp only <;> ring
    rw [← hzx] at w1
    rcases w1 with w1 | ⟨g, hg, w1⟩
    · exact hv w1
    · have := rightOf_side w1
      have := hz g hg
      simp_all
  by_cases hf : f ∈ s.edges
  · obtain ⟨m1, m2, m3⟩ := main h1 hf hp hr o1 o2
    exact ⟨f, m1, Or.inl m2, m3⟩
  · have ht : t ∈ s.edges := by
      by_contra hh
      exact hf ((hI.dinv.etw f h1.lt t h1.tw).mpr hh)
    obtain ⟨m1, m2, m3⟩ := main h1' ht hr hp o2 o1
    exact ⟨t, m1, Or.inr m2, m3⟩

theorem box_convex {l r b t : ℝ} (hlr : l < r) (hbt : b < t) : ClockwiseConvex [((l, t) : ℝ × ℝ), (r, t), (r, b), (l, b)] := by
  refine ⟨by simp, ?_⟩
  intro i j k hij hjk hk
  simp only [List.length_cons, List.length_nil] at hk
  have h1 := sub_pos.mpr hlr
  have h2 := sub_pos.mpr hbt
  have h3 := mul_pos h1 h2
  have hc : (i = 0 ∧ j = 1 ∧ k = 2) ∨ (i = 0 ∧ j = 1 ∧ k = 3) ∨ (i = 0 ∧ j = 2 ∧ k = 3) ∨ (i = 1 ∧ j = 2 ∧ k = 3) := by omega
  rcases hc with ⟨rfl, rfl, rfl⟩ | ⟨rfl, rfl, rfl⟩ | ⟨rfl, rfl, rfl⟩ | ⟨rfl, rfl, rfl⟩ <;> simp [corner, rightOf] <;> nlinarith

theorem box_closed {l r b t : ℝ} (hlr : l < r) (hbt : b < t) (z : ℝ × ℝ) :
    InClosed [((l, t) : ℝ × ℝ), (r, t), (r, b), (l, b)] z ↔ l ≤ z.1 ∧ z.1 ≤ r ∧ b ≤ z.2 ∧ z.2 ≤ t := by
  constructor
  · intro h
    have s0 := h 0 (by simp)
    have s1 := h 1 (by simp)
    have s2 := h 2 (by simp)
    have s3 := h 3 (by simp)
    simp only [corner, rightOf, List.length_cons, List.length_nil] at s0 s1 s2 s3
    norm_num at s0 s1 s2 s3
    refine ⟨?_, ?_, ?_, ?_⟩ <;> nlinarith
  · rintro ⟨h1, h2, h3, h4⟩ i hi
    simp only [List.length_cons, List.length_nil] at hi
    have h5 := sub_pos.mpr hlr
    have h6 := sub_pos.mpr hbt
    have hc : i = 0 ∨ i = 1 ∨ i = 2 ∨ i = 3 := by omega
    rcases hc with rfl | rfl | rfl | rfl <;> simp [corner, rightOf] <;> nlinarith

theorem box_inside {l r b t : ℝ} (hlr : l < r) (hbt : b < t) (z : ℝ × ℝ) :
    StrictlyInside [((l, t) : ℝ × ℝ), (r, t), (r, b), (l, b)] z ↔ l < z.1 ∧ z.1 < r ∧ b < z.2 ∧ z.2 < t := by
  constructor
  · intro h
    have s0 := h 0 (by simp)
    have s1 := h 1 (by simp)
    have s2 := h 2 (by simp)
    have s3 := h 3 (by simp)
    simp only [corner, rightOf, List.length_cons, List.length_nil] at s0 s1 s2 s3
    norm_num at s0 s1 s2 s3
    refine ⟨?_, ?_, ?_, ?_⟩ <;> nlinarith
  · rintro ⟨h1, h2, h3, h4⟩ i hi
    simp only [List.length_cons, List.length_nil] at hi
    have h5 := sub_pos.mpr hlr
    have h6 := sub_pos.mpr hbt
    have hc : i = 0 ∨ i = 1 ∨ i = 2 ∨ i = 3 := by omega
    rcases hc with rfl | rfl | rfl | rfl <;> simp [corner, rightOf] <;> nlinarith

/-- Sites in a box that is high above the axis. -/
theorem box_far {l r b t : ℝ} (hdiag : (r - l) ^ 2 + (t - b) ^ 2 < t ^ 2)
    (hs : ∀ p < n, l ≤ (pts p).1 ∧ (pts p).1 ≤ r ∧ b ≤ (pts p).2 ∧ (pts p).2 ≤ t) :
    ∀ p < n, ∀ z : ℝ × ℝ, l ≤ z.1 → z.1 ≤ r → b ≤ z.2 → z.2 ≤ t → sqDist (pts p) z < t ^ 2 := by
  intro p hp z h1 h2 h3 h4
  obtain ⟨g1, g2, g3, g4⟩ := hs p hp
  have h9 : ((pts p).1 - z.1) ^ 2 ≤ (r - l) ^ 2 := by nlinarith
  have h10 : ((pts p).2 - z.2) ^ 2 ≤ (t - b) ^ 2 := by nlinarith
  unfold sqDist
  linarith

/-- A box that is higher above the axis than any of its points is away from any site. -/
theorem fits_far {l r b t : ℝ} (hlr : l < r) (hbt : b < t) (hn : 0 < n)
    (hs : ∀ p < n, ∀ z : ℝ × ℝ, l ≤ z.1 → z.1 ≤ r → b ≤ z.2 → z.2 ≤ t → sqDist (pts p) z < t ^ 2)
    (htouch : ∀ p r' z, p ≠ r' → OnBoundary [(l, t), (r, t), (r, b), (l, b)] z → Nearest pts n p z → Nearest pts n r' z →
      ∃ u, StrictlyInside [(l, t), (r, t), (r, b), (l, b)] u ∧ sqDist (pts p) u = sqDist (pts r') u)
    (hv : ∀ z, VoronoiVertex pts n z → ¬ OnBoundary [(l, t), (r, t), (r, b), (l, b)] z)
    (htop : ∀ p r' z, TopRowPair pts n p r' → VoronoiVertex pts n z → Nearest pts n p z → Nearest pts n r' z → z.2 ≤ t) {poly : Poly ℝ} (hp : boundingBox l r b t = .ok poly) :
    FitsPolygon pts n poly := by
  rw [box_points hlr hbt, Except.ok.injEq] at hp
  subst hp
  have hc := box_convex hlr hbt
  have ht0 : t ≠ 0 := by
    rintro rfl
    have := hs 0 hn (l, b) le_rfl hlr.le le_rfl hbt.le
    unfold sqDist at this
    nlinarith [sq_nonneg ((pts 0).1 - l), sq_nonneg ((pts 0).2 - b)]
  have ht1 := abs_pos.mpr ht0
  have hcl : clipLine (⟨[(l, t), (r, t), (r, b), (l, b)], b, l, t, r, ((r + l) / 2, (t + b) / 2)⟩ : Poly ℝ) = b - |t| := rfl
  have hfar : ∀ z : ℝ × ℝ, (l ≤ z.1 ∧ z.1 ≤ r ∧ b ≤ z.2 ∧ z.2 ≤ t) → ∀ p < n, b - |t| < z.2 ∧ sqDist (pts p) z < (z.2 - (b - |t|)) ^ 2 := by
    rintro z ⟨h1, h2, h3, h4⟩ p hp
    have g := hs p hp z h1 h2 h3 h4
    refine ⟨by linarith, ?_⟩
    have h6 : |t| ^ 2 = t ^ 2 := sq_abs t
    have h7 : |t| ≤ z.2 - (b - |t|) := by linarith
    have h8 : t ^ 2 ≤ (z.2 - (b - |t|)) ^ 2 := by rw [← h6]; nlinarith
    linarith
  refine ⟨hc, fun z hz => ((box_closed hlr hbt z).mp hz).2.2.2, fun p hp => ?_, htouch, ?_, ?_, ?_, ?_⟩
  · rw [hcl]
    have g := hs p hp (l, b) le_rfl hlr.le le_rfl hbt.le
    unfold sqDist at g
    simp only at g
    have : |(pts p).2 - b| < |t| := sq_lt_sq.mp (by nlinarith [sq_nonneg ((pts p).1 - l)])
    have := (abs_lt.mp this).1
    linarith
  · exact hv
  · intro p _ _ _ _ _ hp _
    right
    rw [hcl]
    exact fun w hw _ => (hfar w ((box_closed hlr hbt w).mp hw) p hp.1).2
  · intro z hz
    have h1 := hfar z ((box_closed hlr hbt z).mp hz)
    rw [hcl]
    exact ⟨(h1 0 hn).1, 0, hn, (h1 0 hn).2⟩
  · intro p _ r' _ hpr
    exact ⟨ht0, fun z hz h1 h2 => Or.inl (htop p r' z hpr hz h1 h2)⟩

theorem fits_box {l r b t : ℝ} (hlr : l < r) (hbt : b < t) (hdiag : (r - l) ^ 2 + (t - b) ^ 2 < t ^ 2) (hn : 0 < n)
    (hs : ∀ p < n, l ≤ (pts p).1 ∧ (pts p).1 ≤ r ∧ b ≤ (pts p).2 ∧ (pts p).2 ≤ t)
    (hv : ∀ z, VoronoiVertex pts n z → ¬ OnBoundary [(l, t), (r, t), (r, b), (l, b)] z)
    (htop : ∀ p r' z, TopRowPair pts n p r' → VoronoiVertex pts n z → Nearest pts n p z → Nearest pts n r' z → z.2 ≤ t) {poly : Poly ℝ} (hp : boundingBox l r b t = .ok poly) :
    FitsPolygon pts n poly := by
  refine fits_far hlr hbt hn (box_far hdiag hs) (fun p r' z _ _ h1 h2 =>
    touch_of_sites (w := ((l + r) / 2, (b + t) / 2)) ?_ (fun p hp => (box_closed hlr hbt _).mpr (hs p hp)) h1.1 h2.1) hv htop hp
  refine (box_inside hlr hbt _).mpr ⟨?_, ?_, ?_, ?_⟩ <;> simp only <;> linarith

/-- C65 for bounding boxes: if the box is high above the axis (`top` exceeds its diagonal), contains all sites, has no Voronoi vertex on its
border, and none above it between two neighbours in the topmost row, then the listed edges between two cells make up exactly the points in the box with two nearest sites. -/
theorem C65_box {l r b t : ℝ} (hlr : l < r) (hbt : b < t) (hdiag : (r - l) ^ 2 + (t - b) ^ 2 < t ^ 2) (hn : 0 < n) (hd : Distinct pts n)
    (hs : ∀ p < n, l ≤ (pts p).1 ∧ (pts p).1 ≤ r ∧ b ≤ (pts p).2 ∧ (pts p).2 ≤ t)
    (hv : ∀ z, VoronoiVertex pts n z → ¬ OnBoundary [(l, t), (r, t), (r, b), (l, b)] z)
    (htop : ∀ p r' z, TopRowPair pts n p r' → VoronoiVertex pts n z → Nearest pts n p z → Nearest pts n r' z → z.2 ≤ t) (hq : q.Spec evLt ok) {poly : Poly ℝ}
    (hp : boundingBox l r b t = .ok poly) (h : createDiagram pts q n fuel poly rz (initSt poly) = .ok ((), s')) :
    (∀ e ∈ s'.edges, ∀ p r', Separates s'.d e p r' → ∃ x y, OriginAt s'.d e x ∧ TargetAt s'.d e y ∧
      ∀ z, Between x y z → (l ≤ z.1 ∧ z.1 ≤ r ∧ b ≤ z.2 ∧ z.2 ≤ t) ∧ Nearest pts n p z ∧ Nearest pts n r' z) ∧
    ∀ p r' z, p ≠ r' → Nearest pts n p z → Nearest pts n r' z → ¬ VoronoiVertex pts n z → l < z.1 ∧ z.1 < r ∧ b < z.2 ∧ z.2 < t →
      ∃ e ∈ s'.edges, (Separates s'.d e p r' ∨ Separates s'.d e r' p) ∧ ∃ x y, OriginAt s'.d e x ∧ TargetAt s'.d e y ∧ Between x y z := by
  have hF := fits_box hlr hbt hdiag hn hs hv htop hp
  have hpp := hp
  rw [box_points hlr hbt, Except.ok.injEq] at hpp
  constructor
  · intro e he p r' hsep
    obtain ⟨x, y, h1, h2, _, _, h3⟩ := C65_edges_sound hF hd hq hn h he hsep
    refine ⟨x, y, h1, h2, fun z hz => ⟨(box_closed hlr hbt z).mp ?_, (h3 z hz).2⟩⟩
    have := (h3 z hz).1
    rw [← hpp] at this
    exact this
  · intro p r' z hne h1 h2 h3 h4
    refine C65_edges_complete hF hd hq h hne ?_ h1 h2 h3
    rw [← hpp]
    exact (box_inside hlr hbt z).mpr h4

/-- Three sites in a high box. -/
noncomputable def high3 : Nat → ℝ × ℝ := fun i => if i = 0 then (0, 100) else if i = 1 then (2, 100) else (0, 102)

theorem high3_distinct : Distinct high3 3 := by
  intro p hp r hr he
  have h1 : p = 0 ∨ p = 1 ∨ p = 2 := by omega
  have h2 : r = 0 ∨ r = 1 ∨ r = 2 := by omega
  rcases h1 with rfl | rfl | rfl <;> rcases h2 with rfl | rfl | rfl <;> simp [high3] at he ⊢

theorem high3_vertex {z : ℝ × ℝ} (h : VoronoiVertex high3 3 z) : z = (1, 101) := by
  obtain ⟨a, b, c, hab, hbc, hac, ha, hb, hc⟩ := h
  have hall : ∀ i < 3, Nearest high3 3 i z := by
    intro i hi
    have h1 := ha.1
    have h2 := hb.1
    have h3 := hc.1
    rcases (by omega : i = a ∨ i = b ∨ i = c) with rfl | rfl | rfl <;> assumption
  have e1 := (hall 0 (by norm_num)).eq (hall 1 (by norm_num))
  have e2 := (hall 0 (by norm_num)).eq (hall 2 (by norm_num))
  unfold sqDist at e1 e2
  norm_num [high3] at e1 e2
  apply Prod.ext <;> simp only <;> nlinarith

theorem high3_fits {poly : Poly ℝ} (hp : boundingBox (-1) 3 99 103 = .ok poly) : FitsPolygon high3 3 poly := by
  refine fits_box (by norm_num) (by norm_num) (by norm_num) (by norm_num) ?_ ?_ ?_ hp
  · intro p hp
    rcases (by omega : p = 0 ∨ p = 1 ∨ p = 2) with rfl | rfl | rfl <;> norm_num [high3]
  · rintro z hz ⟨i, hi, hb⟩
    have h1 := (box_inside (by norm_num) (by norm_num) z).mpr (by rw [high3_vertex hz]; norm_num) i hi
    have h2 := rightOf_side hb
    simp_all
  · intro p r z _ hz _ _
    rw [high3_vertex hz]
    norm_num

/-- The hypotheses can be met: three sites in a box; `create_diagram` succeeds, and a listed edge passes through `(1, 100)`, between sites 0
and 1. -/
example : ∃ poly s', boundingBox (-1 : ℝ) 3 99 103 = .ok poly ∧ createDiagram high3 heapq 3 22 poly false (initSt poly) = .ok ((), s') ∧
    FitsPolygon high3 3 poly ∧ ∃ e ∈ s'.edges, (Separates s'.d e 0 1 ∨ Separates s'.d e 1 0) ∧
      ∃ a b, OriginAt s'.d e a ∧ TargetAt s'.d e b ∧ Between a b (1, 100) := by
  have hp := box_points (show (-1 : ℝ) < 3 by norm_num) (show (99 : ℝ) < 103 by norm_num)
  have hF := high3_fits hp
  obtain ⟨⟨s', hs'⟩, _⟩ := C58_create_succeeds high3_distinct C45_event_queue (by norm_num) (by simp) (fun i hi => (hF.low i hi).le) (fuel := 22) (by norm_num)
  have hnear : ∀ p < 2, Nearest high3 3 p (1, 100) := by
    intro p hp
    refine ⟨by omega, fun c hc => ?_⟩
    have h1 : p = 0 ∨ p = 1 := by omega
    have h2 : c = 0 ∨ c = 1 ∨ c = 2 := by omega
    rcases h1 with rfl | rfl <;> rcases h2 with rfl | rfl | rfl <;> norm_num [high3, sqDist]
  refine ⟨_, s', hp, hs', hF, C65_edges_complete hF high3_distinct C45_event_queue hs' (by norm_num) ?_ (hnear 0 (by norm_num)) (hnear 1 (by norm_num)) ?_⟩
  · exact (box_inside (by norm_num) (by norm_num) _).mpr (by norm_num)
  · intro hv
    have := high3_vertex hv
    norm_num at this

end Foronoi
