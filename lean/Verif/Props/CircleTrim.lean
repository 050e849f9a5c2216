import Verif.Props.BoundingCircle
import Verif.Spec.Disc
import Verif.Proof.ClipLoop

/-!
# C106: what `BoundingCircle.finish_edges` does to the edges
-/

namespace Foronoi

variable {pts : Nat → ℝ × ℝ} {k : BCirc ℝ}

theorem between_sqDist {p q : ℝ × ℝ} (t : ℝ) : sqDist p ((1 - t) * p.1 + t * q.1, (1 - t) * p.2 + t * q.2) = t ^ 2 * sqDist p q := by
  simp only [sqDist]
  ring

theorem sqDist_pos' {p q : ℝ × ℝ} (h : p ≠ q) : 0 < sqDist p q := by
  have h1 : 0 ≤ sqDist p q := by simp only [sqDist]; positivity
  refine lt_of_le_of_ne h1 fun h2 => h ?_
  simp only [sqDist] at h2
  have e1 : p.1 - q.1 = 0 := by nlinarith [sq_nonneg (p.1 - q.1), sq_nonneg (p.2 - q.2)]
  have e2 : p.2 - q.2 = 0 := by nlinarith [sq_nonneg (p.1 - q.1), sq_nonneg (p.2 - q.2)]
  exact Prod.ext (by linarith) (by linarith)

theorem line_ne {p q : ℝ × ℝ} {l : ℝ × ℝ × ℝ} (hpq : p ≠ q) (hL : ∀ z, OnL l z ↔ OnLineThrough p q z) : l.1 ≠ 0 ∨ l.2.1 ≠ 0 := by
  by_contra hcon
  push Not at hcon
  have hqL : OnL l q := (hL q).mpr ⟨1, by ext <;> simp⟩
  have hz : ∀ z, OnL l z := by
    intro z
    have := hqL
    simp only [OnL, hcon.1, hcon.2, zero_mul, zero_add] at this ⊢
    exact this
  obtain ⟨t, ht⟩ := (hL (p.1 - (q.2 - p.2), p.2 + (q.1 - p.1))).mp (hz _)
  simp only [Prod.mk.injEq] at ht
  have h1 : (q.1 - p.1) ^ 2 + (q.2 - p.2) ^ 2 = 0 := by
    have e1 : -(q.2 - p.2) = t * (q.1 - p.1) := by linarith [ht.1]
    have e2 : q.1 - p.1 = t * (q.2 - p.2) := by linarith [ht.2]
    linear_combination (q.1 - p.1) * e2 - (q.2 - p.2) * e1
  have h2 : q.1 - p.1 = 0 := by nlinarith [sq_nonneg (q.1 - p.1), sq_nonneg (q.2 - p.2)]
  have h3 : q.2 - p.2 = 0 := by nlinarith [sq_nonneg (q.1 - p.1), sq_nonneg (q.2 - p.2)]
  exact hpq (Prod.ext (by linarith) (by linarith))

/-- C106: `cut_line` returns the first point of the circle on the way from the origin to the end, and `None` if there is none on the edge; if the line misses the
disc it raises. -/
theorem C106_cut {p q : ℝ × ℝ} (hpq : p ≠ q) :
    ((∀ z, OnLineThrough p q z → k.radius ^ 2 < sqDist k.center z) ∧ cutLine k (p.1, .fin p.2) (q.1, .fin q.2) = none) ∨
    (∃ w, cutLine k (p.1, .fin p.2) (q.1, .fin q.2) = some (some w) ∧ FirstOn k.center k.radius p q w) ∨
    (cutLine k (p.1, .fin p.2) (q.1, .fin q.2) = some none ∧ ¬ MeetsCircle k.center k.radius p q) := by
  obtain ⟨l, hl, hL⟩ := C38_line hpq
  have hne := line_ne hpq hL
  by_cases hm : ∃ z, OnL l z ∧ sqDist k.center z ≤ k.radius ^ 2
  swap
  · left
    push Not at hm
    refine ⟨fun z hz => hm z ((hL z).mpr hz), ?_⟩
    simp only [cutLine, getLineE, hl, Option.bind_eq_bind, Option.bind_some, C38_miss hne hm, Option.bind_none]
  right
  obtain ⟨p1, p2, hc, hC⟩ := C38_cut (k := k) hne hm
  have h1 := (hC p1).mpr (Or.inl rfl)
  have h2 := (hC p2).mpr (Or.inr rfl)
  have o1 := onLine_between ((hL p1).mp h1.1) hpq
  have o2 := onLine_between ((hL p2).mp h2.1) hpq
  have all : ∀ w', Between p q w' → sqDist k.center w' = k.radius ^ 2 → w' = p1 ∨ w' = p2 := by
    rintro w' ⟨t, h0, h1, rfl⟩ hd
    exact (hC _).mp ⟨(hL _).mpr ⟨t, rfl⟩, hd⟩
  have hcut : cutLine k (p.1, .fin p.2) (q.1, .fin q.2) = some (chooseCut (p.1, .fin p.2) (q.1, .fin q.2) p1 p2) := by
    simp only [cutLine, getLineE, hl, Option.bind_eq_bind, Option.bind_some, hc]
  rw [hcut]
  simp only [chooseCut, dist2E, rAdd, rSq, rSub]
  by_cases c1 : Between p q p1
  · by_cases c2 : Between p q p2
    · rw [if_pos (o1.mpr c1), if_pos (o2.mpr c2)]
      left
      have e1 : (p.1 - p1.1) * (p.1 - p1.1) + (p.2 - p1.2) * (p.2 - p1.2) = sqDist p p1 := by simp only [sqDist]; ring
      have e2 : (p.1 - p2.1) * (p.1 - p2.1) + (p.2 - p2.2) * (p.2 - p2.2) = sqDist p p2 := by simp only [sqDist]; ring
      rw [e1, e2]
      split_ifs with hlt
      · refine ⟨p1, rfl, c1, h1.2, fun w' hw hd => ?_⟩
        rcases all w' hw hd with rfl | rfl
        · exact le_rfl
        · exact hlt.le
      · refine ⟨p2, rfl, c2, h2.2, fun w' hw hd => ?_⟩
        rcases all w' hw hd with rfl | rfl
        · exact not_lt.mp hlt
        · exact le_rfl
    · rw [if_pos (o1.mpr c1), if_neg (fun h => c2 (o2.mp h))]
      left
      refine ⟨p1, rfl, c1, h1.2, fun w' hw hd => ?_⟩
      rcases all w' hw hd with rfl | rfl
      · exact le_rfl
      · exact absurd hw c2
  · rw [if_neg (fun h => c1 (o1.mp h))]
    by_cases c2 : Between p q p2
    · rw [if_pos (o2.mpr c2)]
      left
      refine ⟨p2, rfl, c2, h2.2, fun w' hw hd => ?_⟩
      rcases all w' hw hd with rfl | rfl
      · exact absurd hw c1
      · exact le_rfl
    · rw [if_neg (fun h => c2 (o2.mp h))]
      right
      refine ⟨rfl, ?_⟩
      rintro ⟨w, hw, hd⟩
      rcases all w hw hd with rfl | rfl
      · exact c1 hw
      · exact c2 hw

/-- The end of the half-edge `e` as `finish_edges` sees it: the position of its vertex, or of its breakpoint for the sweep line -1000. -/
def EndIs (pts : Nat → ℝ × ℝ) (s : St ℝ) (e : Nat) (z : ℝ × ℝ) : Prop := getOrigin pts s.bps s.d e (some (-1000)) none = some (some (z.1, .fin z.2))

theorem lowLine_real : (lowLine : ℝ) = -1000 := by simp [lowLine, lit, rI]

/-- Cutting the half-edge `e` at `w`. -/
def cutS (s : St ℝ) (e : Nat) (w : ℝ × ℝ) : St ℝ := { s with d := cutD s.d e (some w), polyVerts := s.polyVerts ++ [s.d.vCnt] }

theorem wp_trimEdge {E : Err → Prop} {s : St ℝ} {e t : Nat} {a b : ℝ × ℝ} {r : Option (ℝ × ℝ)} {Q : Bool → St ℝ → Prop} (ht : (s.d.he e).twin = some t)
    (ha : EndIs pts s e a) (hb : EndIs pts s t b) (hr : cutLine k (a.1, .fin a.2) (b.1, .fin b.2) = some r) (h0 : r = none → Q false s)
    (h1 : ∀ w, r = some w → Q true (cutS s e w)) : Wp E (trimEdge pts k e) s Q := by
  simp only [trimEdge, getOriginSt, lowLine_real, wp_bind, wp_get, wp_liftA, wp_deref]
  unfold EndIs at ha hb
  rw [ha]
  refine ⟨?_, fun h => nomatch h⟩
  rintro _ ⟨⟩
  left
  refine ⟨t, ht, ?_, fun h => ?_⟩
  swap
  · rw [hb] at h
    exact nomatch h
  intro o ho
  rw [hb] at ho
  cases ho
  left
  refine ⟨_, rfl, Or.inl ⟨_, rfl, ?_, fun h => ?_⟩⟩
  swap
  · rw [hr] at h
    exact nomatch h
  intro p hp
  rw [hr] at hp
  cases hp
  cases r with
  | none => simpa using h0 rfl
  | some w =>
    simp only [wp_bind, wp_zD, wp_newV, wp_appendConn, wp_updE, wp_modify, wp_pure, rOfF, rToF]
    have := h1 w rfl
    simpa [cutS, cutD] using this

/-- What stays the same when only the half-edges `X` are cut. -/
structure CutFrame (X : List Nat) (s s' : St ℝ) : Prop where
  bps : s'.bps = s.bps
  vCnt : s.d.vCnt ≤ s'.d.vCnt
  twin : ∀ f, (s'.d.he f).twin = (s.d.he f).twin
  org : ∀ f ∉ X, (s'.d.he f).origin = (s.d.he f).origin
  pos : ∀ v < s.d.vCnt, (s'.d.vs v).pos = (s.d.vs v).pos

theorem CutFrame.refl (X : List Nat) (s : St ℝ) : CutFrame X s s := ⟨rfl, le_rfl, fun _ => rfl, fun _ _ => rfl, fun _ _ => rfl⟩

theorem CutFrame.trans {X Y : List Nat} {s s' s'' : St ℝ} (h : CutFrame X s s') (h' : CutFrame Y s' s'') : CutFrame (X ++ Y) s s'' where
  bps := h'.bps.trans h.bps
  vCnt := h.vCnt.trans h'.vCnt
  twin f := (h'.twin f).trans (h.twin f)
  org f hf := by
    rw [List.mem_append, not_or] at hf
    exact (h'.org f hf.2).trans (h.org f hf.1)
  pos v hv := (h'.pos v (hv.trans_le h.vCnt)).trans (h.pos v hv)

theorem CutFrame.cut (s : St ℝ) (e : Nat) (w : ℝ × ℝ) : CutFrame [e] s (cutS s e w) where
  bps := rfl
  vCnt := Nat.le_succ _
  twin f := by
    by_cases h : f = e
    · subst h; simp [cutS, cutD]
    · simp [cutS, cutD, Function.update_of_ne h]
  org f hf := by
    simp only [List.mem_singleton] at hf
    simp [cutS, cutD, Function.update_of_ne hf]
  pos v hv := by simp [cutS, cutD, Function.update_of_ne hv.ne]

theorem CutFrame.mono {X Y : List Nat} {s s' : St ℝ} (h : CutFrame X s s') (hs : X ⊆ Y) : CutFrame Y s s' :=
  ⟨h.bps, h.vCnt, h.twin, fun f hf => h.org f fun hx => hf (hs hx), h.pos⟩

/-- The vertex of a half-edge is in the store. -/
def Stored (s : St ℝ) (f : Nat) : Prop := ∀ v, (s.d.he f).origin = .vtx v → v < s.d.vCnt

theorem CutFrame.stored {X : List Nat} {s s' : St ℝ} (h : CutFrame X s s') {f : Nat} (hf : f ∉ X) (ho : Stored s f) : Stored s' f := by
  intro v hv
  rw [h.org f hf] at hv
  exact (ho v hv).trans_le h.vCnt

theorem CutFrame.endIs {X : List Nat} {s s' : St ℝ} (h : CutFrame X s s') {f : Nat} (hf : f ∉ X) (ho : Stored s f) {z : ℝ × ℝ} (he : EndIs pts s f z) :
    EndIs pts s' f z := by
  unfold EndIs getOrigin at he ⊢
  rw [h.bps, h.org f hf]
  cases hh : (s.d.he f).origin with
  | bp b => rw [hh] at he; exact he
  | vtx v =>
    rw [hh] at he
    simp only [h.pos v (ho v hh)]
    exact he

theorem endIs_cut {s : St ℝ} {e : Nat} {w : ℝ × ℝ} : EndIs pts (cutS s e w) e w := by
  simp [EndIs, getOrigin, cutS, cutD]

theorem Between.symm' {p q z : ℝ × ℝ} (h : Between p q z) : Between q p z := by
  obtain ⟨t, h0, h1, rfl⟩ := h
  exact ⟨1 - t, by linarith, by linarith, by ext <;> ring⟩

theorem MeetsCircle.symm {c : ℝ × ℝ} {r : ℝ} {p q : ℝ × ℝ} (h : MeetsCircle c r p q) : MeetsCircle c r q p := by
  obtain ⟨w, h1, h2⟩ := h
  exact ⟨w, h1.symm', h2⟩

/-- The points of the circle on a segment are on the part after the first of them. -/
theorem between_first {c : ℝ × ℝ} {r : ℝ} {p q w u : ℝ × ℝ} (hpq : p ≠ q) (hw : FirstOn c r p q w) (hq : sqDist c q ≠ r ^ 2) (hu : sqDist c u = r ^ 2) :
    Between q w u ↔ Between q p u := by
  obtain ⟨⟨t, t0, t1, rfl⟩, h2, h3⟩ := hw
  have ht1 : t < 1 := by
    refine lt_of_le_of_ne t1 fun h => hq ?_
    rw [h] at h2
    simpa using h2
  constructor
  · rintro ⟨x, x0, x1, rfl⟩
    exact ⟨x * (1 - t), mul_nonneg x0 (by linarith), by nlinarith, by ext <;> simp only <;> ring⟩
  · intro hb
    have hle := h3 u hb.symm' hu
    obtain ⟨x, x0, x1, rfl⟩ := hb.symm'
    rw [between_sqDist, between_sqDist] at hle
    have hpos := sqDist_pos' hpq
    have htx : t ≤ x := by
      have : t ^ 2 ≤ x ^ 2 := le_of_mul_le_mul_right hle hpos
      exact (sq_le_sq₀ t0 x0).mp this
    have h1t : 0 < 1 - t := by linarith
    refine ⟨(1 - x) / (1 - t), div_nonneg (by linarith) h1t.le, by rw [div_le_one h1t]; linarith, ?_⟩
    ext
    · simp only
      field_simp
      ring
    · simp only
      field_simp
      ring

theorem first_second {c : ℝ × ℝ} {r : ℝ} {p q w u : ℝ × ℝ} (hpq : p ≠ q) (hw : FirstOn c r p q w) (hq : sqDist c q ≠ r ^ 2) (hu : FirstOn c r q w u) :
    FirstOn c r q p u :=
  ⟨(between_first hpq hw hq hu.2.1).mp hu.1, hu.2.1, fun w' h1 h2 => hu.2.2 w' ((between_first hpq hw hq h2).mpr h1) h2⟩

/-- The assumptions on an edge: its two half-edges and their ends, which are different and not on the circle; the line through them meets the disc. -/
structure Trimmable (pts : Nat → ℝ × ℝ) (k : BCirc ℝ) (s : St ℝ) (e t : Nat) (a b : ℝ × ℝ) : Prop where
  twin : (s.d.he e).twin = some t
  twin' : (s.d.he t).twin = some e
  se : Stored s e
  st : Stored s t
  endA : EndIs pts s e a
  endB : EndIs pts s t b
  ne : a ≠ b
  offA : sqDist k.center a ≠ k.radius ^ 2
  offB : sqDist k.center b ≠ k.radius ^ 2
  meets : ∃ z, OnLineThrough a b z ∧ sqDist k.center z ≤ k.radius ^ 2

theorem insideCE_iff {p : ℝ × ℝ} : insideCE k (p.1, .fin p.2) = true ↔ sqDist k.center p < k.radius ^ 2 := C38_inside k p

theorem cut_cases {p q : ℝ × ℝ} (hpq : p ≠ q) (hm : ∃ z, OnLineThrough p q z ∧ sqDist k.center z ≤ k.radius ^ 2) :
    ∃ r, cutLine k (p.1, .fin p.2) (q.1, .fin q.2) = some r ∧ (r = none → ¬ MeetsCircle k.center k.radius p q) ∧ (∀ w, r = some w → FirstOn k.center k.radius p q w) := by
  rcases C106_cut (k := k) hpq with ⟨h1, _⟩ | ⟨w, h1, h2⟩ | ⟨h1, h2⟩
  · obtain ⟨z, hz, hd⟩ := hm
    exact absurd (h1 z hz) hd.not_gt
  · exact ⟨_, h1, (fun h => nomatch h), fun w' h => by cases h; exact h2⟩
  · exact ⟨_, h1, fun _ => h2, fun w' h => nomatch h⟩

theorem FirstOn.meets {c : ℝ × ℝ} {r : ℝ} {p q w : ℝ × ℝ} (h : FirstOn c r p q w) : MeetsCircle c r p q := ⟨w, h.1, h.2.1⟩

/-- The two ends of one edge. -/
theorem wp_trimBoth {E : Err → Prop} {s : St ℝ} {e t : Nat} {a b : ℝ × ℝ} (hne : e ≠ t) (h : Trimmable pts k s e t a b) :
    Wp E (do
      let ra ← trimA pts k e (some (a.1, .fin a.2))
      let rb ← trimB pts k t (some (b.1, .fin b.2))
      pure (ra, rb)) s (fun r s' => CutFrame [e, t] s s' ∧
        (r.1 = true ↔ sqDist k.center a < k.radius ^ 2 ∨ MeetsCircle k.center k.radius a b) ∧
        (r.2 = true ↔ k.radius ^ 2 ≤ sqDist k.center b ∧ MeetsCircle k.center k.radius a b) ∧
        ∃ z w, EndIs pts s' e z ∧ EndIs pts s' t w ∧ Stored s' e ∧ Stored s' t ∧ ClippedStart k.center k.radius a b z ∧ ClippedStart k.center k.radius b a w) := by
  simp only [wp_bind, wp_pure]
  have hA : Wp E (trimA pts k e (some (a.1, .fin a.2))) s (fun ra s1 => CutFrame [e] s s1 ∧
      (ra = true ↔ sqDist k.center a < k.radius ^ 2 ∨ MeetsCircle k.center k.radius a b) ∧
      ∃ z, EndIs pts s1 e z ∧ Stored s1 e ∧ ClippedStart k.center k.radius a b z ∧ (z = a ∨ FirstOn k.center k.radius a b z)) := by
    simp only [trimA]
    by_cases hi : sqDist k.center a < k.radius ^ 2
    · rw [if_pos (insideCE_iff.mpr hi), wp_pure]
      exact ⟨CutFrame.refl _ _, ⟨fun _ => Or.inl hi, fun _ => rfl⟩, a, h.endA, h.se, Or.inl ⟨hi, rfl⟩, Or.inl rfl⟩
    · rw [if_neg (fun hh => hi (insideCE_iff.mp hh))]
      obtain ⟨r, h1, h2, h3⟩ := cut_cases (k := k) h.ne h.meets
      refine wp_trimEdge h.twin h.endA h.endB h1 (fun hr => ?_) (fun w hr => ?_)
      · refine ⟨CutFrame.refl _ _, ⟨(fun hh => nomatch hh), fun hh => ?_⟩, a, h.endA, h.se, Or.inr (Or.inr ⟨not_lt.mp hi, h2 hr, rfl⟩), Or.inl rfl⟩
        rcases hh with hh | hh
        · exact absurd hh hi
        · exact absurd hh (h2 hr)
      · refine ⟨CutFrame.cut _ _ _, ⟨fun _ => Or.inr (h3 w hr).meets, fun _ => rfl⟩, w, endIs_cut, ?_, Or.inr (Or.inl ⟨not_lt.mp hi, h3 w hr⟩), Or.inr (h3 w hr)⟩
        intro v hv
        simp only [cutS, cutD, Function.update_self, Org.vtx.injEq] at hv ⊢
        omega
  refine wp_mono hA ?_
  rintro ra s1 ⟨f1, r1, z, z1, z2, z3, z4⟩
  have htne : t ∉ [e] := by simpa using hne.symm
  have hb1 := f1.endIs htne h.st h.endB
  have hst1 := f1.stored htne h.st
  have f2 : CutFrame [e, t] s s1 := f1.mono (by simp)
  have het : e ∉ [t] := by simpa using hne
  simp only [trimB]
  by_cases hi : sqDist k.center b < k.radius ^ 2
  · rw [if_pos (insideCE_iff.mpr hi), wp_pure]
    exact ⟨f2, r1, ⟨(fun hh => nomatch hh), fun hh => absurd hi hh.1.not_gt⟩, z, b, z1, hb1, z2, hst1, z3, Or.inl ⟨hi, rfl⟩⟩
  rw [if_neg (fun hh => hi (insideCE_iff.mp hh))]
  have hzb : b ≠ z := by
    rcases z4 with rfl | hz
    · exact h.ne.symm
    · rintro rfl
      exact h.offB hz.2.1
  have hmz : ∃ u, OnLineThrough b z u ∧ sqDist k.center u ≤ k.radius ^ 2 := by
    rcases z4 with rfl | hz
    · obtain ⟨u, ⟨x, rfl⟩, hu⟩ := h.meets
      exact ⟨_, ⟨1 - x, by ext <;> ring⟩, hu⟩
    · exact ⟨z, ⟨1, by ext <;> simp⟩, hz.2.1.le⟩
  have same : ∀ u, FirstOn k.center k.radius b z u → FirstOn k.center k.radius b a u := by
    intro u hu
    rcases z4 with rfl | hz
    · exact hu
    · exact first_second h.ne hz h.offB hu
  have smeet : MeetsCircle k.center k.radius b a → MeetsCircle k.center k.radius b z := by
    rintro ⟨u, u1, u2⟩
    rcases z4 with rfl | hz
    · exact ⟨u, u1, u2⟩
    · exact ⟨u, (between_first h.ne hz h.offB u2).mpr u1, u2⟩
  obtain ⟨r, h1, h2, h3⟩ := cut_cases (k := k) hzb hmz
  refine wp_trimEdge (by rw [f1.twin]; exact h.twin') hb1 z1 h1 (fun hr => ?_) (fun w hr => ?_)
  · refine ⟨f2, r1, ⟨(fun hh => nomatch hh), fun hh => absurd (smeet hh.2.symm) (h2 hr)⟩, z, b, z1, hb1, z2, hst1, z3, Or.inr (Or.inr ⟨not_lt.mp hi, ?_, rfl⟩)⟩
    exact fun hh => h2 hr (smeet hh)
  · have f3 := CutFrame.cut s1 t w
    refine ⟨(f1.trans f3).mono (by simp), r1, ⟨fun _ => ⟨not_lt.mp hi, (same w (h3 w hr)).meets.symm⟩, fun _ => rfl⟩, z, w, f3.endIs het z2 z1, endIs_cut, f3.stored het z2, ?_, z3,
      Or.inr (Or.inl ⟨not_lt.mp hi, same w (h3 w hr)⟩)⟩
    intro v hv
    simp only [cutS, cutD, Function.update_self, Org.vtx.injEq] at hv ⊢
    omega

/-- The half-edges of the listed edges. -/
def halves (tw : Nat → Nat) (es : List Nat) : List Nat := es.flatMap fun e => [e, tw e]

theorem wp_finishEdgesC {E : Err → Prop} {tw : Nat → Nat} {a b : Nat → ℝ × ℝ} : ∀ (es : List Nat) (s : St ℝ), (halves tw es).Nodup →
    (∀ e ∈ es, Trimmable pts k s e (tw e) (a e) (b e)) →
    Wp E (finishEdgesC pts k es) s (fun L s' => CutFrame (halves tw es) s s' ∧ ∃ kA kB : Nat → Bool,
      L = es.flatMap (fun e => (if kA e then [e] else []) ++ (if kB e then [tw e] else [])) ∧ ∀ e ∈ es,
        (kA e = true ↔ sqDist k.center (a e) < k.radius ^ 2 ∨ MeetsCircle k.center k.radius (a e) (b e)) ∧
        (kB e = true ↔ k.radius ^ 2 ≤ sqDist k.center (b e) ∧ MeetsCircle k.center k.radius (a e) (b e)) ∧
        ∃ z w, EndIs pts s' e z ∧ EndIs pts s' (tw e) w ∧ ClippedStart k.center k.radius (a e) (b e) z ∧ ClippedStart k.center k.radius (b e) (a e) w) := by
  intro es
  induction es with
  | nil =>
    intro s _ _
    simp only [finishEdgesC, wp_pure]
    exact ⟨CutFrame.refl _ _, fun _ => true, fun _ => true, by simp, by simp⟩
  | cons e es ih =>
    intro s hnd h
    have he := h e (by simp)
    have hnd' : ([e, tw e] ++ halves tw es).Nodup := hnd
    rw [List.nodup_append'] at hnd'
    obtain ⟨n1, n2, n3⟩ := hnd'
    have hne : e ≠ tw e := by simpa using n1
    simp only [finishEdgesC, getOriginSt, lowLine_real, wp_bind, wp_get, wp_liftA, wp_deref]
    have hea := he.endA
    have heb := he.endB
    unfold EndIs at hea heb
    rw [hea]
    refine ⟨?_, fun hh => nomatch hh⟩
    rintro _ ⟨⟩
    left
    refine ⟨tw e, he.twin, ?_, fun hh => ?_⟩
    swap
    · rw [heb] at hh; exact nomatch hh
    intro o ho
    rw [heb] at ho
    cases ho
    simp only [Option.isNone_some, Bool.and_self, Bool.false_eq_true, if_false, wp_bind, wp_pure]
    have hB := wp_trimBoth (E := E) hne he
    simp only [wp_bind, wp_pure] at hB
    refine wp_mono hB ?_
    intro ra s1 hs1
    refine wp_mono hs1 ?_
    rintro rb s2 ⟨f1, r1, r2, z, w, z1, w1, z2, w2, z3, w3⟩
    have hin : ∀ f ∈ es, f ∉ [e, tw e] ∧ tw f ∉ [e, tw e] := by
      intro f hf
      constructor
      · exact fun hh => n3 hh (List.mem_flatMap.mpr ⟨f, hf, by simp⟩)
      · exact fun hh => n3 hh (List.mem_flatMap.mpr ⟨f, hf, by simp⟩)
    have hrest : ∀ f ∈ es, Trimmable pts k s2 f (tw f) (a f) (b f) := by
      intro f hf
      have hh := h f (List.mem_cons_of_mem _ hf)
      obtain ⟨i1, i2⟩ := hin f hf
      exact ⟨by rw [f1.twin]; exact hh.twin, by rw [f1.twin]; exact hh.twin', f1.stored i1 hh.se, f1.stored i2 hh.st, f1.endIs i1 hh.se hh.endA, f1.endIs i2 hh.st hh.endB, hh.ne, hh.offA,
        hh.offB, hh.meets⟩
    refine wp_mono (ih s2 n2 hrest) ?_
    rintro L s3 ⟨f2, kA, kB, hL, hk⟩
    refine ⟨f1.trans f2, fun f => if f = e then ra else kA f, fun f => if f = e then rb else kB f, ?_, ?_⟩
    · rw [List.flatMap_cons, hL]
      simp only [if_true]
      congr 1
      refine List.flatMap_congr fun f hf => ?_
      have hfe : f ≠ e := fun hh => (hin f hf).1 (by simp [hh])
      simp only [if_neg hfe]
    · intro f hf
      by_cases hfe : f = e
      · subst hfe
        simp only [if_true]
        have m1 : f ∉ halves tw es := fun hh => n3 (by simp) hh
        have m2 : tw f ∉ halves tw es := fun hh => n3 (by simp) hh
        exact ⟨r1, r2, z, w, f2.endIs m1 z2 z1, f2.endIs m2 w2 w1, z3, w3⟩
      · simp only [if_neg hfe]
        exact hk f ((List.mem_cons.mp hf).resolve_left hfe)

/-- C106: `BoundingCircle.finish_edges` on edges whose lines meet the disc and that do not end on the circle: every half-edge then starts where its edge enters the
disc.  The half-edge of a listed edge is in the result if it started inside or the edge meets the circle.  Its twin is added, too, if the edge ended outside and
meets the circle. -/
theorem C106_trim {tw : Nat → Nat} {a b : Nat → ℝ × ℝ} {es : List Nat} {s : St ℝ} (hnd : (halves tw es).Nodup)
    (h : ∀ e ∈ es, Trimmable pts k s e (tw e) (a e) (b e)) :
    ∃ L s', finishEdgesC pts k es s = .ok (L, s') ∧
      (∀ e ∈ es, ∃ z w, EndIs pts s' e z ∧ EndIs pts s' (tw e) w ∧ ClippedStart k.center k.radius (a e) (b e) z ∧ ClippedStart k.center k.radius (b e) (a e) w) ∧
      ∀ e ∈ es, (e ∈ L ↔ sqDist k.center (a e) < k.radius ^ 2 ∨ MeetsCircle k.center k.radius (a e) (b e)) ∧
        (tw e ∈ L ↔ k.radius ^ 2 ≤ sqDist k.center (b e) ∧ MeetsCircle k.center k.radius (a e) (b e)) := by
  have hw := wp_finishEdgesC (E := fun _ => False) es s hnd h
  cases hr : finishEdgesC pts k es s with
  | error x => exact (Wp.err hw hr).elim
  | ok v =>
    obtain ⟨L, s'⟩ := v
    obtain ⟨-, kA, kB, hL, hk⟩ := Wp.ok hw hr
    have hmem : ∀ e ∈ es, ∀ f ∈ es, e ≠ tw f ∧ (tw e = tw f → e = f) := by
      intro e he f hf
      obtain ⟨n1, n2⟩ := List.nodup_flatMap.mp hnd
      by_cases hef : e = f
      · subst hef
        exact ⟨by simpa using n1 e he, fun _ => rfl⟩
      · have : Std.Symm (Function.onFun List.Disjoint fun e => [e, tw e]) := ⟨fun _ _ hh => List.Disjoint.symm hh⟩
        have hd := n2.forall he hf hef
        refine ⟨fun hh => hd (a := e) (by simp) (by simp [hh]), fun hh => (hd (a := tw e) (by simp) (by simp [hh])).elim⟩
    refine ⟨L, s', rfl, fun e he => (hk e he).2.2, fun e he => ⟨?_, ?_⟩⟩
    · rw [← (hk e he).1, hL, List.mem_flatMap]
      constructor
      · rintro ⟨f, hf, hh⟩
        rw [List.mem_append] at hh
        rcases hh with hh | hh
        · split_ifs at hh with hc
          · rw [List.mem_singleton] at hh
            rw [hh]
            exact hc
          · simp at hh
        · split_ifs at hh with hc
          · rw [List.mem_singleton] at hh
            exact absurd hh (hmem e he f hf).1
          · simp at hh
      · intro hh
        exact ⟨e, he, by simp [hh]⟩
    · rw [← (hk e he).2.1, hL, List.mem_flatMap]
      constructor
      · rintro ⟨f, hf, hh⟩
        rw [List.mem_append] at hh
        rcases hh with hh | hh
        · split_ifs at hh with hc
          · rw [List.mem_singleton] at hh
            exact absurd hh.symm (hmem f hf e he).1
          · simp at hh
        · split_ifs at hh with hc
          · rw [List.mem_singleton] at hh
            rw [(hmem e he f hf).2 hh]
            exact hc
          · simp at hh
      · intro hh
        exact ⟨e, he, by simp [hh]⟩

/-- C106: an edge whose line misses the disc makes it raise. -/
theorem C106_miss {e t : Nat} {a b : ℝ × ℝ} {es : List Nat} {s : St ℝ} (ht : (s.d.he e).twin = some t) (ha : EndIs pts s e a) (hb : EndIs pts s t b) (hne : a ≠ b)
    (hm : ∀ z, OnLineThrough a b z → k.radius ^ 2 < sqDist k.center z) : finishEdgesC pts k (e :: es) s = .error .arith := by
  have h1 : cutLine k (a.1, .fin a.2) (b.1, .fin b.2) = none := by
    obtain ⟨l, hl, hL⟩ := C38_line hne
    simp only [cutLine, getLineE, hl, Option.bind_eq_bind, Option.bind_some, C38_miss (line_ne hne hL) (fun z hz => hm z ((hL z).mp hz)), Option.bind_none]
  have hi : insideCE k (a.1, .fin a.2) ≠ true := fun hh => by
    have := hm a ⟨0, by ext <;> simp⟩
    have := insideCE_iff.mp hh
    linarith
  unfold EndIs at ha hb
  have hw : Wp (· = .arith) (finishEdgesC pts k (e :: es)) s (fun _ _ => False) := by
    simp only [finishEdgesC, getOriginSt, lowLine_real, wp_bind, wp_get, wp_liftA, wp_deref]
    rw [ha]
    refine ⟨?_, fun hh => nomatch hh⟩
    rintro _ ⟨⟩
    left
    refine ⟨t, ht, ?_, fun hh => ?_⟩
    swap
    · rw [hb] at hh; exact nomatch hh
    intro o ho
    rw [hb] at ho
    cases ho
    simp only [Option.isNone_some, Bool.and_self, Bool.false_eq_true, if_false, wp_bind, trimA]
    rw [if_neg hi]
    simp only [trimEdge, getOriginSt, lowLine_real, wp_bind, wp_get, wp_liftA, wp_deref]
    rw [ha]
    refine ⟨?_, fun hh => nomatch hh⟩
    rintro _ ⟨⟩
    left
    refine ⟨t, ht, ?_, fun hh => ?_⟩
    swap
    · rw [hb] at hh; exact nomatch hh
    intro o ho
    rw [hb] at ho
    cases ho
    left
    refine ⟨_, rfl, Or.inl ⟨_, rfl, ?_, fun _ => trivial⟩⟩
    intro p hp
    rw [h1] at hp
    exact nomatch hp
  cases hr : finishEdgesC pts k (e :: es) s with
  | error x => rw [Wp.err hw hr]
  | ok v => exact (Wp.ok hw hr).elim

/-- The hypotheses can be met: the circle of radius 5 around the origin; the edge 0 from the centre to (8, 6), the edge 2 from (-8, 3) to (8, 3). -/
noncomputable def exTrim : St ℝ :=
  { initSt (⟨(0, 0), 5⟩ : BCirc ℝ).poly with
    d := { he := fun f => { origin := .vtx f, incident := none, twin := some (if f % 2 = 0 then f + 1 else f - 1), next := none, prev := none }
           heCnt := 4
           vs := fun v => ⟨some (match v with | 0 => (0, 0) | 1 => (8, 6) | 2 => (-8, 3) | _ => (8, 3)), []⟩
           vCnt := 4
           fe := fun _ => none } }

example : ∃ L s', finishEdgesC pts (⟨(0, 0), 5⟩ : BCirc ℝ) [0, 2] exTrim = .ok (L, s') ∧ 0 ∈ L ∧ 1 ∈ L ∧ EndIs pts s' 1 (4, 3) ∧ EndIs pts s' 2 (-4, 3) ∧ EndIs pts s' 3 (4, 3) := by
  have t0 : Trimmable pts (⟨(0, 0), 5⟩ : BCirc ℝ) exTrim 0 1 (0, 0) (8, 6) := by
    refine ⟨rfl, rfl, fun v hv => ?_, fun v hv => ?_, rfl, rfl, by norm_num, by norm_num [sqDist], by norm_num [sqDist], (0, 0), ⟨0, by norm_num⟩, by norm_num [sqDist]⟩
    · cases hv; exact Nat.zero_lt_succ _
    · cases hv; show 1 < 4; norm_num
  have t2 : Trimmable pts (⟨(0, 0), 5⟩ : BCirc ℝ) exTrim 2 3 (-8, 3) (8, 3) := by
    refine ⟨rfl, rfl, fun v hv => ?_, fun v hv => ?_, rfl, rfl, by norm_num, by norm_num [sqDist], by norm_num [sqDist], (0, 3), ⟨1 / 2, by norm_num⟩, by norm_num [sqDist]⟩
    · cases hv; show 2 < 4; norm_num
    · cases hv; show 3 < 4; norm_num
  obtain ⟨L, s', h1, h2, h3⟩ := C106_trim (pts := pts) (k := ⟨(0, 0), 5⟩) (tw := fun e => e + 1) (a := fun e => if e = 0 then (0, 0) else (-8, 3))
    (b := fun e => if e = 0 then (8, 6) else (8, 3)) (es := [0, 2]) (s := exTrim) (by simp [halves]) (by
      intro e he
      rcases List.mem_pair.mp he with rfl | rfl
      · exact t0
      · exact t2)
  have on : MeetsCircle (0, 0) 5 (0, 0) (8, 6) := ⟨(4, 3), ⟨1 / 2, by norm_num, by norm_num, by norm_num⟩, by norm_num [sqDist]⟩
  have uniq : ∀ z : ℝ × ℝ, FirstOn (0, 0) 5 (8, 6) (0, 0) z → z = (4, 3) := by
    rintro z ⟨⟨t, t0, t1, rfl⟩, hd, -⟩
    simp only [sqDist] at hd
    have : (t - 1 / 2) * (t - 3 / 2) = 0 := by nlinarith
    rcases mul_eq_zero.mp this with h | h
    · have : t = 1 / 2 := by linarith
      subst this; norm_num
    · linarith
  have uniq2 : ∀ (σ : ℝ) (z : ℝ × ℝ), (σ = 1 ∨ σ = -1) → FirstOn (0, 0) 5 (8 * σ, 3) (-8 * σ, 3) z → z = (4 * σ, 3) := by
    rintro σ z hσ ⟨⟨t, t0, t1, rfl⟩, hd, hm⟩
    have hσ2 : σ ^ 2 = 1 := by rcases hσ with rfl | rfl <;> norm_num
    simp only [sqDist] at hd
    have hh : (t - 1 / 4) * (t - 3 / 4) = 0 := by
      have e1 : (0 - ((1 - t) * (8 * σ) + t * (-8 * σ))) ^ 2 = 64 * (1 - 2 * t) ^ 2 * σ ^ 2 := by ring
      rw [e1, hσ2] at hd
      nlinarith
    have hm := hm (4 * σ, 3) ⟨1 / 4, by norm_num, by norm_num, by ext <;> ring⟩ (by simp only [sqDist]; nlinarith)
    simp only [sqDist] at hm
    rcases mul_eq_zero.mp hh with h | h
    · have : t = 1 / 4 := by linarith
      subst this; ext <;> ring
    · have : t = 3 / 4 := by linarith
      subst this
      exfalso
      have e1 : (8 * σ - ((1 - 3 / 4) * (8 * σ) + 3 / 4 * (-8 * σ))) ^ 2 = 144 * σ ^ 2 := by ring
      have e2 : (8 * σ - 4 * σ) ^ 2 = 16 * σ ^ 2 := by ring
      rw [e1, e2, hσ2] at hm
      norm_num at hm
  refine ⟨L, s', h1, (h3 0 (by simp)).1.mpr (Or.inl (by norm_num [sqDist])), (h3 0 (by simp)).2.mpr ⟨by norm_num [sqDist], on⟩, ?_, ?_, ?_⟩
  · obtain ⟨z, w, -, hw, -, hc⟩ := h2 0 (by simp)
    rcases hc with ⟨hc, -⟩ | ⟨-, hc⟩ | ⟨-, hc, -⟩
    · norm_num [sqDist] at hc
    · rw [← uniq w hc]; exact hw
    · exact absurd on.symm hc
  · obtain ⟨z, w, hz, -, hc, -⟩ := h2 2 (by simp)
    rcases hc with ⟨hc, -⟩ | ⟨-, hc⟩ | ⟨-, hc, -⟩
    · norm_num [sqDist] at hc
    · have := uniq2 (-1) z (Or.inr rfl) (by simpa using hc)
      rw [this] at hz; norm_num at hz; exact hz
    · exact absurd ⟨(4, 3), ⟨3 / 4, by norm_num, by norm_num, by norm_num⟩, by norm_num [sqDist]⟩ hc
  · obtain ⟨z, w, -, hw, -, hc⟩ := h2 2 (by simp)
    rcases hc with ⟨hc, -⟩ | ⟨-, hc⟩ | ⟨-, hc, -⟩
    · norm_num [sqDist] at hc
    · have := uniq2 1 w (Or.inl rfl) (by simpa using hc)
      rw [this] at hw; norm_num at hw; exact hw
    · exact absurd ⟨(4, 3), ⟨1 / 4, by norm_num, by norm_num, by norm_num⟩, by norm_num [sqDist]⟩ hc

end Foronoi
