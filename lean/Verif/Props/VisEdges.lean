import Verif.Props.VisBeach
import Verif.Props.Whole

/-!
# The picture of the edges during the sweep

C80: the lines drawn by `plot_edges` above the beach line are the Voronoi edges.
-/

namespace Foronoi

open scoped List

variable {pts : Nat → ℝ × ℝ} {q : PQ (QE ℝ)} {ok : List (QE ℝ) → Prop} {n : Nat} {poly : Poly ℝ} {s : St ℝ} {l : ℝ}

/-- A point of the edge between two cells, not below the beach line. -/
structure EndOk (pts : Nat → ℝ × ℝ) (n : Nat) (l : ℝ) (i j : Nat) (w : Pt) : Prop where
  ni : Nearest pts n i w
  nj : Nearest pts n j w
  le : l ≤ w.2
  low : dsq (pts i) w ≤ (w.2 - l) ^ 2

theorem EndOk.symm {i j : Nat} {w : Pt} (h : EndOk pts n l i j w) : EndOk pts n l j i w :=
  ⟨h.nj, h.ni, h.le, by have := h.nj.eq h.ni; have h2 := h.low; unfold dsq at *; unfold sqDist at this; linarith⟩

theorem EndOk.between {i j : Nat} {v w z : Pt} (h1 : EndOk pts n l i j v) (h2 : EndOk pts n l i j w) (hl : l ≤ (pts i).2) (hz : Between v w z) :
    EndOk pts n l i j z := by
  refine ⟨h1.ni.between h2.ni hz, h1.nj.between h2.nj hz, ?_, ?_⟩
  · obtain ⟨t, t0, t1, rfl⟩ := hz
    have := h1.le
    have := h2.le
    simp only
    nlinarith
  · obtain ⟨t, t0, t1, rfl⟩ := hz
    have a1 := h1.low
    have a2 := h2.low
    unfold dsq at *
    simp only
    have b1 : (v.1 - (pts i).1) ^ 2 + ((pts i).2 ^ 2 - l ^ 2) ≤ 2 * ((pts i).2 - l) * v.2 := by nlinarith
    have b2 : (w.1 - (pts i).1) ^ 2 + ((pts i).2 ^ 2 - l ^ 2) ≤ 2 * ((pts i).2 - l) * w.2 := by nlinarith
    have c : ((1 - t) * v.1 + t * w.1 - (pts i).1) ^ 2 ≤ (1 - t) * (v.1 - (pts i).1) ^ 2 + t * (w.1 - (pts i).1) ^ 2 := by
      nlinarith [mul_nonneg (mul_nonneg t0 (sub_nonneg.mpr t1)) (sq_nonneg (v.1 - w.1))]
    have d1 := mul_le_mul_of_nonneg_left b1 (sub_nonneg.mpr t1)
    have d2 := mul_le_mul_of_nonneg_left b2 t0
    nlinarith

/-- Above a point of the border between two cells of the topmost row. -/
theorem EndOk.up {i j : Nat} {w z : Pt} (h : EndOk pts n l i j w) (he : (pts i).2 = (pts j).2) (hl : l ≤ (pts i).2)
    (htop : ∀ c < n, (pts c).2 ≤ (pts i).2) (hx : z.1 = w.1) (hy : w.2 ≤ z.2) : EndOk pts n l i j z := by
  have hij := h.ni.eq h.nj
  unfold sqDist at hij
  have key : ∀ c < n, dsq (pts i) z ≤ dsq (pts c) z := by
    intro c hc
    have h1 := h.ni.2 c hc
    have h2 := htop c hc
    unfold sqDist at h1
    unfold dsq
    rw [hx]
    nlinarith
  have hij' : dsq (pts i) z = dsq (pts j) z := by
    unfold dsq
    rw [hx, ← he]
    rw [← he] at hij
    nlinarith
  refine ⟨⟨h.ni.1, key⟩, ⟨h.nj.1, fun c hc => ?_⟩, h.le.trans hy, ?_⟩
  · show dsq _ _ ≤ dsq _ _
    rw [← hij']; exact key c hc
  · have h1 := h.low
    unfold dsq at *
    rw [hx]
    nlinarith

/-- Where an end of an edge is drawn. -/
inductive EndAt (pts : Nat → ℝ × ℝ) (n : Nat) (cv : Canvas ℝ) (s : St ℝ) (l : ℝ) (f i j : Nat) (a : ℝ × Ext ℝ) : Prop where
  | pt (w : Pt) : a = (w.1, .fin w.2) → EndOk pts n l i j w → Fut pts s.d s.bps l f w → EndAt pts n cv s l f i j a
  | top : (pts j).2 = (pts i).2 → (pts i).1 < (pts j).1 → (∀ c < n, (pts c).2 ≤ (pts i).2) → a = (((pts j).1 + (pts i).1) / 2, maxYOr (some cv.maxY)) → EndAt pts n cv s l f i j a
  | row : (∀ p, (s.names p).isSome → (pts p).2 = l) → a.2 = .inf → EndAt pts n cv s l f i j a

theorem getIntersection_above {a b : Pt} {l : ℝ} {m : Option ℝ} (h : a.2 = b.2) (hlt : b.1 < a.1) :
    getIntersection a b l m = some ((a.1 + b.1) / 2, maxYOr m) := by
  unfold getIntersection
  have h2 : (((2 : ℤ) : ℝ)) ≠ 0 := by norm_num
  have e2 : ((2 : ℤ) : ℝ) = 2 := by norm_num
  simp only [lit, rI, rMul, rSub, rAdd, Option.bind_eq_bind]
  rw [if_pos h, rDiv _ _ h2, Option.bind_some, if_pos hlt, e2]

theorem getIntersection_row {a b : Pt} {m : Option ℝ} (h : a.2 = b.2) (hlt : a.1 < b.1) :
    getIntersection a b a.2 m = some ((a.1 + b.1) / 2, .inf) := by
  unfold getIntersection
  have h2 : (((2 : ℤ) : ℝ)) ≠ 0 := by norm_num
  have e2 : ((2 : ℤ) : ℝ) = 2 := by norm_num
  simp only [lit, rI, rMul, rSub, rAdd, Option.bind_eq_bind]
  rw [if_pos h, rDiv _ _ h2, Option.bind_some, if_neg (not_lt.mpr hlt.le), e2]
  simp [bpY, lit, rI, rMul, rSub]

/-- The end of every half-edge during the sweep. -/
theorem end_at (hd : Distinct pts n) (hq : q.Spec evLt ok) (h : Reach pts q n poly s) {L : List (Item Dat)}
    (hI : Inv pts ok n poly.points.length s L) (hG : GInv pts s L l) (hK : KInv pts s L l) (cv : Canvas ℝ) {f t i j : Nat} (he : Edg s.d f t i j) :
    ∃ a, getOrigin pts s.bps s.d f (some l) (some cv.maxY) = some (some a) ∧ EndAt pts n cv s l f i j a := by
  have hin := (he.site_lt hI)
  have hjn := ((he.symm hI.dinv).site_lt hI)
  have hil := hG.above hin.2
  have hjl := hG.above hjn.2
  cases horg : (s.d.he f).origin with
  | vtx v =>
    obtain ⟨hv, _⟩ := hI.dinv.ovt f he.lt v horg
    obtain ⟨zv, hzv, hvv⟩ := C25_vertices hd hq h v hv
    obtain ⟨h1, h2⟩ := start_bisector hd hq h he horg hzv
    obtain ⟨m, g1, g2, g3, _⟩ := hG.vtx f he.lt v i zv horg he.inc hzv
    refine ⟨(zv.1, .fin zv.2), ?_, .pt zv rfl ⟨h1, h2, g1.trans g2, ?_⟩ (Or.inl ⟨v, horg, hzv⟩)⟩
    · unfold getOrigin
      rw [horg]
      simp [hzv]
    · rw [g3]; nlinarith
  | bp b =>
    obtain ⟨hpair, _⟩ := he.pair hI.dinv horg
    have hraw : ∀ a, getIntersection (pts j) (pts i) l (some cv.maxY) = some a →
        getOrigin pts s.bps s.d f (some l) (some cv.maxY) = some (some a) := by
      intro a ha
      unfold getOrigin
      rw [horg]
      simp only [hpair]
      rw [ha]; rfl
    rcases hK.live f he.lt b horg with ⟨k, hk⟩ | hA
    · obtain ⟨P, R, hL⟩ := List.append_of_mem hk
      have hb : BOk s.og s.pr s.arcCnt s.bpCnt L := hI.beach
      obtain ⟨P', n1, a1, n2, a2, R', e1, e2, e3⟩ := (hL ▸ hb).bp_cases
      have e3 : (s.bps b).pair = (s.og a1, s.og a2) := e3
      rw [hpair, Prod.mk.injEq] at e3
      have hap : ∃ B C, apts pts s L = B ++ pts j :: pts i :: C := by
        refine ⟨apts pts s P', apts pts s R', ?_⟩
        rw [hL, e1, e2, e3.1, e3.2]
        simp [apts]
      obtain ⟨B, C, hBC⟩ := hap
      rcases hG.env with hT | hE
      · have hrow : ∀ p, (s.names p).isSome → (pts p).2 = l := fun p hp => hT.row _ ⟨p, hp, rfl⟩
        have hlt : (pts j).1 < (pts i).1 := by
          have := hT.inc
          rw [hBC, List.pairwise_append] at this
          exact (List.pairwise_cons.mp this.2.1).1 _ (by simp)
        have hj := hrow j hjn.2
        have hi := hrow i hin.2
        have := getIntersection_row (m := some cv.maxY) (hj.trans hi.symm) hlt
        rw [hj] at this
        exact ⟨_, hraw _ this, .row hrow rfl⟩
      · obtain ⟨y, hy1, hy2⟩ := getIntersection_real hjl hil (some cv.maxY)
        have hp := hE.pair hBC
        have hy := hy2 (by
          rintro ⟨g1, g2 | g2⟩
          · exact absurd (hp.2.2 g1) (not_lt.mpr g2.le)
          · rcases hp.2.1 with h1 | h1
            · exact h1.ne' g2
            · rw [← g1] at h1; exact h1.ne' g2)
        rw [hy] at hy1
        have hbp := hE.bp hBC
        set w : Pt := (bpX (pts j) (pts i) l, bpYv (pts j) (pts i) l) with hw
        have hall : ∀ c < n, 0 ≤ pw (pts c) l w := by
          intro c hc
          cases hcn : s.names c with
          | none => exact pw_below (hG.below hI hc hcn) hbp.le
          | some k => exact hE.out hBC ⟨c, by simp [hcn], rfl⟩
        have hnear : ∀ c < n, (w.2 - l) ^ 2 ≤ dsq (pts c) w := by
          intro c hc
          have := hall c hc
          unfold pw at this
          linarith
        refine ⟨(w.1, .fin w.2), hraw _ hy1, .pt w rfl ⟨⟨hin.1, fun c hc => ?_⟩, ⟨hjn.1, fun c hc => ?_⟩, hbp.le, hbp.eb.le⟩
          (Or.inr ⟨b, horg, l, le_rfl, by rw [hpair]; exact hbp⟩)⟩
        · show dsq _ _ ≤ dsq _ _
          rw [hbp.eb]; exact hnear c hc
        · show dsq _ _ ≤ dsq _ _
          rw [hbp.ea]; exact hnear c hc
    · rw [hpair] at hA
      obtain ⟨h1, h2, h3⟩ := hA
      refine ⟨_, hraw _ (getIntersection_above h1 h2), .top h1 h2 (fun c hc => ?_) rfl⟩
      have h1 : (pts j).2 = (pts i).2 := h1
      cases hcn : s.names c with
      | none => exact (hG.below hI hc hcn).trans hil
      | some k =>
        rw [← h1]
        rcases h3 _ ⟨c, by simp [hcn], rfl⟩ with h4 | ⟨h4, _⟩
        · exact h4.le
        · exact h4.le

theorem drawEach_ex {α : Type} {f : α → Except Err (List (Draw ℝ))} (L : List α) (h : ∀ a ∈ L, ∃ x, f a = .ok x) :
    ∃ ds, drawEach f L = .ok ds ∧ ∀ d, d ∈ ds ↔ ∃ a ∈ L, ∃ x, f a = .ok x ∧ d ∈ x := by
  have : ∀ a, ∃ x, a ∈ L → f a = .ok x := by
    intro a
    by_cases ha : a ∈ L
    · obtain ⟨x, hx⟩ := h a ha
      exact ⟨x, fun _ => hx⟩
    · exact ⟨[], fun h => absurd h ha⟩
  choose g hg using this
  refine ⟨_, drawEach_ok g L hg, fun d => ?_⟩
  rw [List.mem_flatMap]
  constructor
  · rintro ⟨a, ha, hda⟩
    exact ⟨a, ha, g a, hg a ha, hda⟩
  · rintro ⟨a, ha, x, hx, hdx⟩
    rw [hg a ha] at hx
    cases hx
    exact ⟨a, ha, hdx⟩

theorem midE_real (a b : Ext ℝ) : ∃ y, midE a b = some y ∧ ∀ y', y = .fin y' → ∃ u v, a = .fin u ∧ b = .fin v ∧ y' = (u + v) / 2 := by
  unfold midE
  split
  · rename_i u v
    have h2 : (((2 : ℤ) : ℝ)) ≠ 0 := by norm_num
    simp only [lit, rI, rAdd]
    rw [rDiv _ _ h2]
    refine ⟨_, rfl, fun y' hy => ⟨u, v, rfl, rfl, ?_⟩⟩
    cases hy
    norm_num
  · exact ⟨.inf, rfl, fun y' hy => by cases hy⟩

/-- What is drawn for a half-edge with known ends. -/
theorem plotEdge_ok {cv : Canvas ℝ} {w : Option ℝ} {f t i j : Nat} {a b : ℝ × Ext ℝ} (he : Edg s.d f t i j)
    (ha : getOrigin pts s.bps s.d f w (some cv.maxY) = some (some a))
    (hb : getOrigin pts s.bps s.d t w (some cv.maxY) = some (some b)) (labels : Bool) :
    ∃ y, (∀ y', y = .fin y' → ∃ u v, b.2 = .fin u ∧ a.2 = .fin v ∧ y' = (u + v) / 2) ∧
      plotEdge pts cv s w labels f = .ok (.line a b .edge :: if labels then [.text ((b.1 + a.1) / 2) (some y) (.edge (some i) (some j))] else []) := by
  obtain ⟨y, hy, hy'⟩ := midE_real b.2 a.2
  refine ⟨y, hy', ?_⟩
  have h2 : (((2 : ℤ) : ℝ)) ≠ 0 := by norm_num
  have e2 : ((2 : ℤ) : ℝ) = 2 := by norm_num
  have ho : originsOf pts cv s f w = .ok (some a, some b) := by
    unfold originsOf
    rw [ha, he.tw]
    show (do let b ← exA (getOrigin pts s.bps s.d t w (some cv.maxY)); pure (some a, b)) = _
    rw [hb]
    rfl
  unfold plotEdge
  rw [ho]
  cases labels
  · rfl
  · show (do
      let x ← exA (Arith.div (Arith.add b.1 a.1) (lit 2))
      let y ← exA (midE b.2 a.2)
      let t ← exD (s.d.he f).twin
      pure [Draw.line a b .edge, .text x (some y) (.edge (s.d.he f).incident (s.d.he t).incident)]) = _
    rw [hy, he.tw, he.inc]
    simp only [lit, rI, rAdd]
    rw [rDiv _ _ h2, e2]
    show Except.ok [Draw.line a b .edge, .text ((b.1 + a.1) / 2) (some y) (.edge (some i) (s.d.he t).incident)] = _
    rw [he.tinc]
    rfl

/-- The two calls for each edge. -/
theorem plotEdges_ok (hd : Distinct pts n) (hq : q.Spec evLt ok) (h : Reach pts q n poly s) (hl : s.sweep = some l) (cv : Canvas ℝ) (labels : Bool) :
    ∃ ds, plotEdges pts cv s labels = .ok ds ∧
      (∀ a b c, Draw.line a b c ∈ ds ↔ c = .edge ∧ ∃ f t i j, Edg s.d f t i j ∧ getOrigin pts s.bps s.d f (some l) (some cv.maxY) = some (some a) ∧
        getOrigin pts s.bps s.d t (some l) (some cv.maxY) = some (some b)) ∧
      (∀ d ∈ ds, (∃ a b c, d = .line a b c) ∨ labels = true ∧ ∃ f t i j a b y, f ∈ s.edges ∧ Edg s.d f t i j ∧
        getOrigin pts s.bps s.d f (some l) (some cv.maxY) = some (some a) ∧
        getOrigin pts s.bps s.d t (some l) (some cv.maxY) = some (some b) ∧ d = .text ((b.1 + a.1) / 2) (some y) (.edge (some i) (some j)) ∧
        ∀ y', y = .fin y' → ∃ u v, b.2 = .fin u ∧ a.2 = .fin v ∧ y' = (u + v) / 2) ∧
      (labels = true → ∀ f ∈ s.edges, ∃ t i j x y, Edg s.d f t i j ∧ .text x (some y) (.edge (some i) (some j)) ∈ ds) := by
  obtain ⟨L, hI, hJ⟩ := reach_known hd.injOn hq h
  have key : ∀ f t i j, Edg s.d f t i j → ∃ a, getOrigin pts s.bps s.d f (some l) (some cv.maxY) = some (some a) := by
    intro f t i j he
    rcases hJ with ⟨_, h0, _⟩ | ⟨l', hG, hK, _⟩
    · have := he.lt
      omega
    · have hll := hG.sw
      rw [hl, Option.some.injEq] at hll
      subst hll
      obtain ⟨a, ha, _⟩ := end_at hd hq h hI hG hK cv he
      exact ⟨a, ha⟩
  have hedg : ∀ f < s.d.heCnt, ∃ t i j, Edg s.d f t i j := by
    intro f hf
    obtain ⟨t, h1, h2, _⟩ := hI.dinv.tw f hf
    obtain ⟨i, h3, _⟩ := hI.dinv.inc f hf
    obtain ⟨j, h4, _⟩ := hI.dinv.inc t h2
    exact ⟨t, i, j, hf, h1, h3, h4⟩
  have hone : ∀ f ∈ s.edges, ∃ t i j a b y, Edg s.d f t i j ∧ Edg s.d t f j i ∧
      getOrigin pts s.bps s.d f (some l) (some cv.maxY) = some (some a) ∧ getOrigin pts s.bps s.d t (some l) (some cv.maxY) = some (some b) ∧
      (∀ y', y = .fin y' → ∃ u v, b.2 = .fin u ∧ a.2 = .fin v ∧ y' = (u + v) / 2) ∧
      (do
        let x ← plotEdge pts cv s s.sweep labels f
        let t ← exD (s.d.he f).twin
        let y ← plotEdge pts cv s s.sweep false t
        pure (x ++ y) : Except Err (List (Draw ℝ))) =
        .ok ((.line a b .edge :: if labels then [.text ((b.1 + a.1) / 2) (some y) (.edge (some i) (some j))] else []) ++ [.line b a .edge]) := by
    intro f hf
    obtain ⟨t, i, j, he⟩ := hedg f (hI.dinv.elt f hf)
    have ht := he.symm hI.dinv
    obtain ⟨a, ha⟩ := key _ _ _ _ he
    obtain ⟨b, hb⟩ := key _ _ _ _ ht
    obtain ⟨y, hy, e1⟩ := plotEdge_ok he ha hb labels
    obtain ⟨_, _, e2⟩ := plotEdge_ok ht hb ha false
    refine ⟨t, i, j, a, b, y, he, ht, ha, hb, hy, ?_⟩
    rw [hl, e1, he.tw]
    show (do
        let y' ← plotEdge pts cv s (some l) false t
        pure ((.line a b .edge :: if labels then [.text ((b.1 + a.1) / 2) (some y) (.edge (some i) (some j))] else []) ++ y') :
          Except Err (List (Draw ℝ))) = _
    rw [e2]
    rfl
  obtain ⟨ds, hds, hmem⟩ := drawEach_ex s.edges (f := fun e => do
    let x ← plotEdge pts cv s s.sweep labels e
    let t ← exD (s.d.he e).twin
    let y ← plotEdge pts cv s s.sweep false t
    pure (x ++ y)) (fun f hf => by
      obtain ⟨t, i, j, a, b, y, _, _, _, _, _, e⟩ := hone f hf
      exact ⟨_, e⟩)
  refine ⟨ds, hds, fun a b c => ?_, fun d hdm => ?_, fun hlab f hf => ?_⟩
  · constructor
    · intro hm
      obtain ⟨f, hf, x, hx, hdx⟩ := (hmem _).mp hm
      obtain ⟨t, i, j, a', b', y, he, ht, ha, hb, _, e⟩ := hone f hf
      rw [e] at hx
      cases hx
      have hcase : Draw.line a b c = .line a' b' .edge ∨ Draw.line a b c = .line b' a' .edge := by
        cases labels
        · simpa using hdx
        · simpa using hdx
      rcases hcase with hcase | hcase
      · cases hcase
        exact ⟨rfl, f, t, i, j, he, ha, hb⟩
      · cases hcase
        exact ⟨rfl, t, f, j, i, ht, hb, ha⟩
    · rintro ⟨rfl, f, t, i, j, he, ha, hb⟩
      by_cases hf : f ∈ s.edges
      · obtain ⟨t', i', j', a', b', y, he', ht', ha', hb', _, e⟩ := hone f hf
        refine (hmem _).mpr ⟨f, hf, _, e, ?_⟩
        have htt := he.tw
        rw [he'.tw, Option.some.injEq] at htt
        subst htt
        rw [ha', Option.some.injEq, Option.some.injEq] at ha
        rw [hb', Option.some.injEq, Option.some.injEq] at hb
        subst ha hb
        simp
      · have hf' : t ∈ s.edges := by
          by_contra hc
          exact hf ((hI.dinv.etw f he.lt t he.tw).mpr hc)
        obtain ⟨t', i', j', a', b', y, he', ht', ha', hb', _, e⟩ := hone t hf'
        refine (hmem _).mpr ⟨t, hf', _, e, ?_⟩
        have htt := (he.symm hI.dinv).tw
        rw [he'.tw, Option.some.injEq] at htt
        subst htt
        rw [hb', Option.some.injEq, Option.some.injEq] at ha
        rw [ha', Option.some.injEq, Option.some.injEq] at hb
        subst ha hb
        simp
  · obtain ⟨f, hf, x, hx, hdx⟩ := (hmem _).mp hdm
    obtain ⟨t, i, j, a, b, y, he, ht, ha, hb, hy, e⟩ := hone f hf
    rw [e] at hx
    cases hx
    cases labels
    · simp only [Bool.false_eq_true, if_false, List.cons_append, List.nil_append, List.mem_cons, List.not_mem_nil, or_false] at hdx
      rcases hdx with rfl | rfl <;> exact Or.inl ⟨_, _, _, rfl⟩
    · simp only [if_true, List.cons_append, List.nil_append, List.mem_cons, List.not_mem_nil, or_false] at hdx
      rcases hdx with rfl | rfl | rfl
      · exact Or.inl ⟨_, _, _, rfl⟩
      · exact Or.inr ⟨rfl, f, t, i, j, a, b, y, hf, he, ha, hb, rfl, hy⟩
      · exact Or.inl ⟨_, _, _, rfl⟩
  · obtain ⟨t, i, j, a, b, y, he, ht, ha, hb, hy, e⟩ := hone f hf
    refine ⟨t, i, j, (b.1 + a.1) / 2, y, he, (hmem _).mpr ⟨f, hf, _, e, ?_⟩⟩
    simp [hlab]

/-- A drawn edge in a state with finite ends. -/
theorem ends_between {cv : Canvas ℝ} {f t i j : Nat} {a b z : Pt} (hl : l ≤ (pts i).2)
    (h1 : EndAt pts n cv s l f i j (a.1, .fin a.2)) (h2 : EndAt pts n cv s l t j i (b.1, .fin b.2)) (hz : Between a b z) (hy : z.2 < cv.maxY) :
    EndOk pts n l i j z := by
  have hmax : ∀ y, Ext.fin y = maxYOr (some cv.maxY) → y = cv.maxY := by
    intro y h
    unfold maxYOr at h
    simp only at h
    split at h
    · cases h
    · cases h; rfl
  have hup : ∀ (i j : Nat) (w u : Pt), l ≤ (pts i).2 → EndOk pts n l i j w → (pts j).2 = (pts i).2 → (pts i).1 < (pts j).1 → (∀ c < n, (pts c).2 ≤ (pts i).2) →
      u.1 = ((pts j).1 + (pts i).1) / 2 → u.2 = cv.maxY → Between u w z → EndOk pts n l i j z := by
    intro i j w u hl hw e1 e2 e3 e4 e5 hz
    have hwx : w.1 = ((pts j).1 + (pts i).1) / 2 := by
      have := hw.ni.eq hw.nj
      unfold sqDist at this
      rw [e1] at this
      have e : ((pts j).1 - (pts i).1) * (2 * w.1 - ((pts j).1 + (pts i).1)) = 0 := by linear_combination this
      have := (mul_eq_zero.mp e).resolve_left (by linarith)
      linarith
    obtain ⟨τ, t0, t1, rfl⟩ := hz
    simp only at hy
    refine hw.up e1.symm hl e3 ?_ ?_
    · simp only; rw [e4, hwx]; ring
    · simp only
      rw [e5] at hy ⊢
      by_contra hlt
      push Not at hlt
      rcases le_total w.2 cv.maxY with hc | hc
      · nlinarith [mul_nonneg (sub_nonneg.mpr t1) (sub_nonneg.mpr hc)]
      · nlinarith [mul_nonneg t0 (sub_nonneg.mpr hc)]
  have bsymm : ∀ {a b z : Pt}, Between a b z → Between b a z := by
    rintro a b z ⟨t, h0, h1, rfl⟩
    exact ⟨1 - t, by linarith, by linarith, Prod.ext (by simp only; ring) (by simp only; ring)⟩
  cases h1 with
  | pt w e1 ok1 _ =>
    have : a = w := by
      rw [Prod.mk.injEq, Ext.fin.injEq] at e1
      exact Prod.ext e1.1 e1.2
    subst this
    cases h2 with
    | pt w e2 ok2 _ =>
      have : b = w := by
        rw [Prod.mk.injEq, Ext.fin.injEq] at e2
        exact Prod.ext e2.1 e2.2
      subst this
      exact ok1.between ok2.symm hl hz
    | top g1 g2 g3 g4 =>
      rw [Prod.mk.injEq] at g4
      exact (hup j i a b (by rw [← g1]; exact hl) ok1.symm g1 g2 g3 g4.1 (hmax _ g4.2) (bsymm hz)).symm
    | row _ e2 => cases e2
  | top g1 g2 g3 g4 =>
    rw [Prod.mk.injEq] at g4
    cases h2 with
    | pt w e2 ok2 _ =>
      have : b = w := by
        rw [Prod.mk.injEq, Ext.fin.injEq] at e2
        exact Prod.ext e2.1 e2.2
      subst this
      exact hup i j b a hl ok2.symm g1 g2 g3 g4.1 (hmax _ g4.2) hz
    | top k1 k2 _ _ => linarith
    | row _ e2 => cases e2
  | row _ e1 => cases e1

/-- Two sites as near as any other to a point above the beach line were met already. -/
theorem near_met {L : List (Item Dat)} {pc : Nat} (hI : Inv pts ok n pc s L) (hG : GInv pts s L l) {z : Pt} (hz : AboveBeach (Met pts s) l z) {p : Nat}
    (hp : Nearest pts n p z) : (s.names p).isSome ∧ dsq (pts p) z < (z.2 - l) ^ 2 := by
  obtain ⟨hlz, _, ⟨r, hr, rfl⟩, hlt⟩ := hz
  obtain ⟨k, hk⟩ := Option.isSome_iff_exists.mp hr
  have h1 : dsq (pts p) z < (z.2 - l) ^ 2 := lt_of_le_of_lt (hp.2 r (hI.sinv.nmLt r k hk).2) hlt
  refine ⟨?_, h1⟩
  cases hpn : s.names p with
  | some k => rfl
  | none =>
    have h2 := pw_below (hG.below hI hp.1 hpn) hlz.le (z := z)
    unfold pw at h2
    linarith

/-- The largest empty circle around a point above the beach line. -/
theorem near_circle {L : List (Item Dat)} {pc : Nat} (hI : Inv pts ok n pc s L) (hG : GInv pts s L l) {z : Pt} (hz : AboveBeach (Met pts s) l z) {p : Nat}
    (hp : Nearest pts n p z) : ∃ m, l < m ∧ Emp (Handled pts s) m z ∧ ∀ c, Nearest pts n c z → OnC (Handled pts s) m z (pts c) := by
  have h1 := (near_met hI hG hz hp).2
  have hs := Real.sq_sqrt (dsq_nonneg (pts p) z)
  have hs0 := Real.sqrt_nonneg (dsq (pts p) z)
  have hlz := hz.1
  have hlt : Real.sqrt (dsq (pts p) z) < z.2 - l := by nlinarith
  refine ⟨z.2 - Real.sqrt (dsq (pts p) z), by linarith, ⟨by linarith, ?_⟩, fun c hc => ⟨⟨c, (near_met hI hG hz hc).1, rfl⟩, ?_⟩⟩
  · rintro _ ⟨c, hc, rfl⟩
    obtain ⟨k, hk⟩ := Option.isSome_iff_exists.mp hc
    have := hp.2 c (hI.sinv.nmLt c k hk).2
    unfold pw
    rw [sub_sub_cancel, hs]
    show 0 ≤ sqDist (pts c) z - sqDist (pts p) z
    linarith
  · have := hc.eq hp
    unfold pw
    rw [sub_sub_cancel, hs]
    show sqDist (pts c) z - sqDist (pts p) z = 0
    linarith

/-- C80: during the sweep `plot_edges` raises no exception.  Below the top of the canvas every point of a line has two nearest sites and is
not below the beach line. Conversely every point above the beach line with two nearest sites is on a line, up to the top of the canvas (unless
the top is at height 0, which the code takes as missing). -/
theorem C80_edges_drawn (hd : Distinct pts n) (hq : q.Spec evLt ok) (h : Reach pts q n poly s) (hl : s.sweep = some l) (cv : Canvas ℝ) (labels : Bool) :
    ∃ ds, plotEdges pts cv s labels = .ok ds ∧
      (∀ z, z.2 < cv.maxY → OnLine ds z → NotBelowBeach (Met pts s) l z ∧ ∃ p r, p ≠ r ∧ Nearest pts n p z ∧ Nearest pts n r z) ∧
      (∀ z, z.2 ≤ cv.maxY → cv.maxY ≠ 0 → AboveBeach (Met pts s) l z → (∃ p r, p ≠ r ∧ Nearest pts n p z ∧ Nearest pts n r z) → OnLine ds z) := by
  obtain ⟨ds, hds, hmem, _, _⟩ := plotEdges_ok hd hq h hl cv labels
  refine ⟨ds, hds, ?_⟩
  obtain ⟨L, hI, hJ⟩ := reach_known hd.injOn hq h
  rcases hJ with ⟨h00, h0, _⟩ | ⟨l', hG, hK, _⟩
  · constructor
    · rintro z _ ⟨a, b, c, hm, _⟩
      obtain ⟨_, f, t, i, j, he, _⟩ := (hmem _ _ _).mp hm
      have := he.lt
      omega
    · rintro z _ _ ⟨_, _, ⟨p, hp, rfl⟩, _⟩
      obtain ⟨k, hk⟩ := Option.isSome_iff_exists.mp hp
      have := (hI.sinv.nmLt p k hk).1
      omega
  have hll := hG.sw
  rw [hl, Option.some.injEq] at hll
  subst hll
  constructor
  · rintro z hz ⟨a, b, c, hm, hbt⟩
    obtain ⟨_, f, t, i, j, he, ha, hb⟩ := (hmem _ _ _).mp hm
    obtain ⟨a', ha', hea⟩ := end_at hd hq h hI hG hK cv he
    obtain ⟨b', hb', heb⟩ := end_at hd hq h hI hG hK cv (he.symm hI.dinv)
    rw [ha, Option.some.injEq, Option.some.injEq] at ha'
    rw [hb, Option.some.injEq, Option.some.injEq] at hb'
    subst ha' hb'
    have hok := ends_between (hG.above (he.site_lt hI).2) hea heb hbt hz
    exact ⟨⟨hok.le, pts i, ⟨i, (he.site_lt hI).2, rfl⟩, hok.low⟩, i, j, he.ne hI.dinv, hok.ni, hok.nj⟩
  · rintro z hz hm0 hab ⟨p, r, hpr, hp, hr⟩
    have hfin : maxYOr (some cv.maxY) = .fin cv.maxY := by
      unfold maxYOr
      have : cv.maxY ≠ lit 0 := by simpa [lit, rI] using hm0
      simp only [this, if_false]
    have hnrow : ¬ ∀ p, (s.names p).isSome → (pts p).2 = l := by
      intro hrow
      have h1 := near_met hI hG hab hp
      have h2 := hrow p h1.1
      have h3 := h1.2
      unfold dsq at h3
      rw [h2] at h3
      nlinarith [sq_nonneg ((pts p).1 - z.1)]
    -- ends of a half-edge
    have hend : ∀ {f t i j}, Edg s.d f t i j → ∃ a : Pt, getOrigin pts s.bps s.d f (some l) (some cv.maxY) = some (some (a.1, .fin a.2)) ∧
        (Fut pts s.d s.bps l f a ∨ (pts j).2 = (pts i).2 ∧ (pts i).1 < (pts j).1 ∧ a = (((pts j).1 + (pts i).1) / 2, cv.maxY)) := by
      intro f t i j he
      obtain ⟨a, ha, hea⟩ := end_at hd hq h hI hG hK cv he
      cases hea with
      | pt w e1 _ hf => subst e1; exact ⟨w, ha, Or.inl hf⟩
      | top g1 g2 _ g4 =>
        rw [hfin] at g4
        subst g4
        exact ⟨(((pts j).1 + (pts i).1) / 2, cv.maxY), ha, Or.inr ⟨g1, g2, rfl⟩⟩
      | row hr _ => exact absurd hr hnrow
    obtain ⟨m, hm, hem, hon⟩ := near_circle hI hG hab hp
    have hinj : ∀ {a b}, a < n → b < n → pts a = pts b → a = b := fun ha hb he => hd _ ha _ hb he
    by_cases h3 : Three (Handled pts s) m z
    · obtain ⟨v, hv, hzv⟩ := hK.known.tri z m hm hem h3
      obtain ⟨_, _, p, x, r, e1, e2, e3, ho⟩ := hI.dinv.vts v hv
      obtain ⟨t, ht1, ht2⟩ := ho.tinc.1
      have he : Edg s.d e1 t x p := ⟨ho.lt.1, ht1, ho.inc.1, ht2⟩
      obtain ⟨b, hb, _⟩ := hend (he.symm hI.dinv)
      refine ⟨z, b, .edge, (hmem _ _ _).mpr ⟨rfl, e1, t, x, p, he, ?_, hb⟩, 0, le_rfl, zero_le_one, by simp⟩
      unfold getOrigin
      rw [ho.org.1]
      simp [hzv]
    · have hall : ∀ c, OnC (Handled pts s) m z c → c = pts p ∨ c = pts r := by
        intro c hc
        by_contra hcon
        push Not at hcon
        exact h3 ⟨pts p, pts r, c, fun he => hpr (hinj hp.1 hr.1 he), fun he => hcon.2 he.symm, fun he => hcon.1 he.symm, hon p hp, hon r hr, hc⟩
      obtain ⟨f, t, i, j, he, hcov, hi, hj⟩ := hK.known.two z m hm hem (pts p) (pts r) (fun he => hpr (hinj hp.1 hr.1 he)) (hon p hp) (hon r hr) hall
      obtain ⟨a, ha, hfa⟩ := hend he
      obtain ⟨b, hb, hfb⟩ := hend (he.symm hI.dinv)
      refine ⟨a, b, .edge, (hmem _ _ _).mpr ⟨rfl, f, t, i, j, he, ha, hb⟩, ?_⟩
      -- above, the point itself is forward
      have htop : ∀ {i j : Nat} {a : Pt}, dsq (pts i) z = dsq (pts j) z → (pts j).2 = (pts i).2 → (pts i).1 < (pts j).1 →
          a = (((pts j).1 + (pts i).1) / 2, cv.maxY) → Fwd (pts j) (pts i) z a := by
        intro i j a hzz g1 g2 ga
        subst ga
        have hzx : z.1 = ((pts j).1 + (pts i).1) / 2 := by
          unfold dsq at hzz
          rw [g1] at hzz
          have e : ((pts j).1 - (pts i).1) * (2 * z.1 - ((pts j).1 + (pts i).1)) = 0 := by linear_combination hzz
          have := (mul_eq_zero.mp e).resolve_left (by linarith)
          linarith
        refine ⟨(cv.maxY - z.2) / ((pts i).1 - (pts j).1), div_nonpos_of_nonneg_of_nonpos (by linarith) (by linarith), ?_, ?_⟩
        · simp only; rw [g1, hzx]; ring
        · simp only
          rw [div_mul_cancel₀ _ (by linarith : (pts i).1 - (pts j).1 < 0).ne]
      have f1 : Fwd (pts j) (pts i) z a := by
        rcases hfa with hfa | ⟨g1, g2, g3⟩
        · exact hcov.org a hfa
        · exact htop hcov.eq g1 g2 g3
      have f2 : Fwd (pts i) (pts j) z b := by
        rcases hfb with hfb | ⟨g1, g2, g3⟩
        · exact hcov.tgt b hfb
        · exact htop hcov.eq.symm g1 g2 g3
      exact f1.between f2

/-- C81: the labels of the edges.  Each listed edge has one; it names the sites whose cells are on the two sides, and stands where both are
nearest, if that is below the top of the canvas. -/
theorem C81_edge_labels (hd : Distinct pts n) (hq : q.Spec evLt ok) (h : Reach pts q n poly s) (hl : s.sweep = some l) (cv : Canvas ℝ) :
    ∃ ds, plotEdges pts cv s true = .ok ds ∧
      (∀ x y t, Draw.text x y t ∈ ds → ∃ f ∈ s.edges, ∃ p r, t = .edge (some p) (some r) ∧ Separates s.d f p r ∧
        ∀ y', y = some (.fin y') → y' < cv.maxY → Nearest pts n p (x, y') ∧ Nearest pts n r (x, y')) ∧
      (∀ f ∈ s.edges, ∃ p r x y, Separates s.d f p r ∧ Draw.text x y (.edge (some p) (some r)) ∈ ds) := by
  obtain ⟨ds, hds, _, hmem, hall⟩ := plotEdges_ok hd hq h hl cv true
  refine ⟨ds, hds, fun x y tx hm => ?_, fun f hf => ?_⟩
  · rcases hmem _ hm with ⟨_, _, _, hh⟩ | ⟨_, f, t, i, j, a, b, y0, hf, he, ha, hb, hh, hy0⟩
    · cases hh
    · cases hh
      refine ⟨f, hf, i, j, rfl, ⟨he.inc, t, he.tw, he.tinc⟩, fun y' hy' hlt => ?_⟩
      rw [Option.some.injEq] at hy'
      obtain ⟨u, v, e1, e2, e3⟩ := hy0 y' hy'
      obtain ⟨L, hI, hJ⟩ := reach_known hd.injOn hq h
      rcases hJ with ⟨_, h0, _⟩ | ⟨l', hG, hK, _⟩
      · have := he.lt
        omega
      have hll := hG.sw
      rw [hl, Option.some.injEq] at hll
      subst hll
      obtain ⟨a', ha', hea⟩ := end_at hd hq h hI hG hK cv he
      obtain ⟨b', hb', heb⟩ := end_at hd hq h hI hG hK cv (he.symm hI.dinv)
      rw [ha, Option.some.injEq, Option.some.injEq] at ha'
      rw [hb, Option.some.injEq, Option.some.injEq] at hb'
      subst ha' hb'
      have ea : a = (a.1, .fin v) := Prod.ext rfl e2
      have eb : b = (b.1, .fin u) := Prod.ext rfl e1
      rw [ea] at hea
      rw [eb] at heb
      have hok := ends_between (a := (a.1, v)) (b := (b.1, u)) (z := ((b.1 + a.1) / 2, y')) (hG.above (he.site_lt hI).2) hea heb
        ⟨1 / 2, by norm_num, by norm_num, Prod.ext (by simp only; ring) (by simp only; rw [e3]; ring)⟩ hlt
      exact ⟨hok.ni, hok.nj⟩
  · obtain ⟨t, i, j, x, y, he, hm⟩ := hall rfl f hf
    exact ⟨i, j, x, some y, ⟨he.inc, t, he.tw, he.tinc⟩, hm⟩

/-- C82: `plot_vertices` draws Voronoi vertices, and all those above the beach line. -/
theorem C82_vertices_drawn (hd : Distinct pts n) (hq : q.Spec evLt ok) (h : Reach pts q n poly s) :
    ∃ zs, plotVertices s = .ok [.dots zs .vertices] ∧ (∀ z ∈ zs, VoronoiVertex pts n z) ∧
      ∀ l, s.sweep = some l → (∀ z ∈ zs, NotBelowBeach (Met pts s) l z) ∧ ∀ z, AboveBeach (Met pts s) l z → VoronoiVertex pts n z → z ∈ zs := by
  have hpos : ∀ v ∈ s.verts, ∃ z, (s.d.vs v).pos = some z ∧ VoronoiVertex pts n z := fun v hv => by
    obtain ⟨z, h1, h2⟩ := C25_vertices hd hq h v hv
    exact ⟨z, h1, h2⟩
  have hm : ∀ L : List Nat, (∀ v ∈ L, ∃ z, (s.d.vs v).pos = some z ∧ VoronoiVertex pts n z) → ∃ zs,
      L.mapM (fun v => exD (s.d.vs v).pos) = .ok zs ∧ ∀ z, z ∈ zs ↔ ∃ v ∈ L, (s.d.vs v).pos = some z := by
    intro L
    induction L with
    | nil => exact fun _ => ⟨[], rfl, by simp⟩
    | cons v L ih =>
      intro hL
      obtain ⟨zs, hzs, hmem⟩ := ih fun w hw => hL w (List.mem_cons_of_mem _ hw)
      obtain ⟨z, hz, _⟩ := hL v List.mem_cons_self
      refine ⟨z :: zs, ?_, fun z' => ?_⟩
      · rw [List.mapM_cons, hz, hzs]
        rfl
      · rw [List.mem_cons, hmem]
        constructor
        · rintro (rfl | ⟨w, hw, hz'⟩)
          · exact ⟨v, List.mem_cons_self, hz⟩
          · exact ⟨w, List.mem_cons_of_mem _ hw, hz'⟩
        · rintro ⟨w, hw, hz'⟩
          rcases List.mem_cons.mp hw with rfl | hw
          · rw [hz, Option.some.injEq] at hz'
            exact Or.inl hz'.symm
          · exact Or.inr ⟨w, hw, hz'⟩
  obtain ⟨zs, hzs, hmem⟩ := hm s.verts hpos
  refine ⟨zs, ?_, ?_, ?_⟩
  · unfold plotVertices
    rw [hzs]
    rfl
  · intro z hz
    obtain ⟨v, hv, hzv⟩ := (hmem z).mp hz
    obtain ⟨z', h1, h2⟩ := hpos v hv
    rw [hzv, Option.some.injEq] at h1
    rwa [h1]
  · intro l hl
    obtain ⟨L, hI, hJ⟩ := reach_known hd.injOn hq h
    rcases hJ with ⟨h00, h0, _⟩ | ⟨l', hG, hK, _⟩
    · constructor
      · intro z hz
        obtain ⟨v, hv, hzv⟩ := (hmem z).mp hz
        obtain ⟨_, _, p, x, r, e1, e2, e3, ho⟩ := hI.dinv.vts v hv
        have := ho.lt.1
        omega
      · rintro z ⟨_, _, ⟨p, hp, rfl⟩, _⟩
        obtain ⟨k, hk⟩ := Option.isSome_iff_exists.mp hp
        have := (hI.sinv.nmLt p k hk).1
        omega
    have hll := hG.sw
    rw [hl, Option.some.injEq] at hll
    subst hll
    constructor
    · intro z hz
      obtain ⟨v, hv, hzv⟩ := (hmem z).mp hz
      obtain ⟨_, _, p, x, r, e1, e2, e3, ho⟩ := hI.dinv.vts v hv
      obtain ⟨m, g1, g2, g3, _⟩ := hG.vtx e1 ho.lt.1 v x z ho.org.1 ho.inc.1 hzv
      obtain ⟨t, ht1, ht2⟩ := ho.tinc.1
      have he : Edg s.d e1 t x p := ⟨ho.lt.1, ht1, ho.inc.1, ht2⟩
      refine ⟨g1.trans g2, pts x, ⟨x, (he.site_lt hI).2, rfl⟩, ?_⟩
      show dsq _ _ ≤ _
      rw [g3]; nlinarith
    · rintro z hab ⟨a, b, c, hab', hbc, hac, ha, hb, hc⟩
      obtain ⟨m, hm, hem, hon⟩ := near_circle hI hG hab ha
      obtain ⟨v, hv, hzv⟩ := hK.known.tri z m hm hem ⟨pts a, pts b, pts c, fun he => hab' (hd _ ha.1 _ hb.1 he), fun he => hbc (hd _ hb.1 _ hc.1 he),
        fun he => hac (hd _ ha.1 _ hc.1 he), hon a ha, hon b hb, hon c hc⟩
      exact (hmem z).mpr ⟨v, hv, hzv⟩

end Foronoi
