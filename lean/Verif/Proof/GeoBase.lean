import Verif.Proof.EnvStep
import Verif.Proof.Bridge

/-!
# Connecting the lower envelope with the states of the sweep

`GInv pts s L l`: the geometric invariant of a state `s` with beach line `L` and sweep line `y = l`.
-/

namespace Foronoi

open scoped List

/-! ### going down to the next event -/

/-- **The next event.**  If every circle that is due lies at or below `l1`, the beach line stays the lower envelope down to `l1`. -/
theorem Env.advance_to {S : Set Pt} {l l1 : ℝ} {A : List Pt} (hS : S.Finite) (h : Env S l A) (hl : l1 ≤ l)
    (hdue : ∀ B a b c C, A = B ++ a :: b :: c :: C → Due S a b c → cbot a b c ≤ l1) : Env S l1 A := by
  rcases eq_or_lt_of_le hl with rfl | hl
  · exact h
  by_cases hn : NoEvent A l1
  · exact h.advance hS hl hn
  exfalso
  -- the highest circle event
  let T : Set (Pt × Pt × Pt) := {t | ∃ B C, A = B ++ t.1 :: t.2.1 :: t.2.2 :: C ∧ det t.1 t.2.1 t.2.2 < 0}
  have hT : T.Finite := by
    have hA : (A.toFinset : Set Pt).Finite := Finset.finite_toSet _
    refine (hA.prod (hA.prod hA)).subset ?_
    rintro ⟨a, b, c⟩ ⟨B, C, he, _⟩
    simp only at he
    simp [he]
  unfold NoEvent at hn
  push Not at hn
  obtain ⟨B0, a0, b0, c0, C0, he0, hd0, hc0⟩ := hn
  obtain ⟨⟨a, b, c⟩, ⟨B, C, he, hd⟩, hmax⟩ := Set.exists_max_image T (fun t => cbot t.1 t.2.1 t.2.2) hT ⟨(a0, b0, c0), B0, C0, he0, hd0⟩
  simp only at he hd hmax
  set M := cbot a b c with hM
  have hM1 : l1 < M := lt_of_lt_of_le hc0 (hmax (a0, b0, c0) ⟨B0, C0, he0, hd0⟩)
  have hMl : M ≤ l := (h.cw he hd).1
  have hnM : NoEvent A M := fun B' a' b' c' C' he' hd' => hmax (a', b', c') ⟨B', C', he', hd'⟩
  have hE : Env S M A := by
    rcases eq_or_lt_of_le hMl with e | hlt
    · rw [e]; exact h
    · exact h.advance hS hlt hnM
  obtain ⟨g1, _, g2, g3, _⟩ := hE.circle_x he hd hM.symm
  obtain ⟨B', a', b', c', C', he', hdu, hcb, _⟩ := hE.due_of_zero B.length B a b c C rfl he g1 (g2.trans g3.symm)
  have := hdue B' a' b' c' C' he' hdu
  linarith

/-! ### circle events of the model, over the reals -/

variable {pts : Nat → Pt} {q : PQ (QE ℝ)} {ok : List (QE ℝ) → Prop} {n pc : Nat}

theorem circ_radius_pos {a b c : Pt} (h : det a b c ≠ 0) : 0 < Real.sqrt (dsq a (ccx a b c, ccy a b c)) := by
  rw [Real.sqrt_pos]
  refine lt_of_le_of_ne (dsq_nonneg _ _) fun h0 => h ?_
  obtain ⟨h1, h2⟩ := dsq_center a b c h
  rw [← h0] at h1 h2
  have e1 : b = (ccx a b c, ccy a b c) := by by_contra hh; exact absurd h1 (ne_of_gt (dsq_pos hh))
  have e2 : c = (ccx a b c, ccy a b c) := by by_contra hh; exact absurd h2 (ne_of_gt (dsq_pos hh))
  have e3 : b = c := e1.trans e2.symm
  unfold det; rw [e3]; ring

theorem mkEv_real (m : Nat) (t : Nat × Nat × Nat) : mkEv pts m t =
    if det (pts t.1) (pts t.2.1) (pts t.2.2) < 0 then
      some ⟨(ccx (pts t.1) (pts t.2.1) (pts t.2.2), ccy (pts t.1) (pts t.2.1) (pts t.2.2)),
        Real.sqrt (dsq (pts t.1) (ccx (pts t.1) (pts t.2.1) (pts t.2.2), ccy (pts t.1) (pts t.2.1) (pts t.2.2))), m, true, t⟩
    else none := by
  unfold mkEv
  rw [createCircle_real]
  by_cases h0 : det (pts t.1) (pts t.2.1) (pts t.2.2) = 0
  · rw [if_pos h0, if_neg (by rw [h0]; exact lt_irrefl _)]
  · rw [if_neg h0]
    simp only
    have hr := circ_radius_pos h0
    obtain ⟨h1, h2⟩ := dsq_center _ _ _ h0
    have e := Real.sq_sqrt (dsq_nonneg (pts t.1) (ccx (pts t.1) (pts t.2.1) (pts t.2.2), ccy (pts t.1) (pts t.2.1) (pts t.2.2)))
    have := checkClockwise_real (a := pts t.1) (b := pts t.2.1) (c := pts t.2.2) hr e.symm (h1.trans e.symm) (h2.trans e.symm) h0
    by_cases hd : det (pts t.1) (pts t.2.1) (pts t.2.2) < 0
    · rw [if_pos (this.mpr hd), if_pos hd]
    · rw [if_neg (fun hh => hd (this.mp hh)), if_neg hd]

/-- What a circle event of the model is. -/
theorem mkEv_spec {m : Nat} {t : Nat × Nat × Nat} {ev : CevR ℝ} (h : mkEv pts m t = some ev) (r : Nat) :
    det (pts t.1) (pts t.2.1) (pts t.2.2) < 0 ∧ (cevQE ev r).yd = cbot (pts t.1) (pts t.2.1) (pts t.2.2) ∧
      (cevQE ev r).xd = ccx (pts t.1) (pts t.2.1) (pts t.2.2) ∧
      ev.center = (ccx (pts t.1) (pts t.2.1) (pts t.2.2), ccy (pts t.1) (pts t.2.1) (pts t.2.2)) := by
  rw [mkEv_real] at h
  split at h
  · rename_i hd
    simp only [Option.some.injEq] at h
    subst h
    exact ⟨hd, rfl, rfl, rfl⟩
  · cases h

theorem mkEv_isSome {m : Nat} {t : Nat × Nat × Nat} (h : det (pts t.1) (pts t.2.1) (pts t.2.2) < 0) : ∃ ev, mkEv pts m t = some ev := by
  rw [mkEv_real, if_pos h]; exact ⟨_, rfl⟩

/-! ### the search -/

/-- Left of the leaf found by the search the key is smaller, unless the key right of it is the value searched. -/
theorem lookup_left {K D : Type} [LinearOrder K] {key : D → Option K} {x : K} {t : T D} {y : Item D} (h : t.lookup key x = some y) :
    ∃ pre post, t.io = pre ++ y :: post ∧ (∀ b rest, post = b :: rest → ∃ k, key b.d = some k ∧ x ≤ k) ∧
      ((∀ b ∈ pre.getLast?, ∃ k, key b.d = some k ∧ k < x) ∨ ∃ b rest, post = b :: rest ∧ key b.d = some x) := by
  induction t with
  | leaf i d =>
    simp only [T.lookup, Option.some.injEq] at h; subst h
    exact ⟨[], [], by simp [T.io]⟩
  | node i d l r ihl ihr =>
    simp only [T.lookup, Option.bind_eq_bind, Option.bind_eq_some_iff] at h
    obtain ⟨k, hk, h⟩ := h
    split at h
    · rename_i hxk
      simp only [Option.some.injEq] at h; subst h
      obtain ⟨l', hl'⟩ := l.io_last
      refine ⟨l', ⟨i, false, d⟩ :: r.io, by simp [T.io, hl'], ?_, Or.inr ⟨⟨i, false, d⟩, r.io, rfl, by rw [hxk]; exact hk⟩⟩
      rintro b rest hb
      simp only [List.cons.injEq] at hb
      rw [← hb.1]
      exact ⟨k, hk, hxk.le⟩
    · split at h
      · rename_i hxk
        obtain ⟨pre, post, h1, h2, h3⟩ := ihl h
        refine ⟨pre, post ++ ⟨i, false, d⟩ :: r.io, by simp [T.io, h1], ?_, ?_⟩
        · intro b rest hb
          cases post with
          | nil =>
            simp only [List.nil_append, List.cons.injEq] at hb
            rw [← hb.1]; exact ⟨k, hk, hxk.le⟩
          | cons z post =>
            simp only [List.cons_append, List.cons.injEq] at hb
            rw [← hb.1]; exact h2 z post rfl
        · rcases h3 with h3 | ⟨b, rest, h3, h4⟩
          · exact Or.inl h3
          · exact Or.inr ⟨b, rest ++ ⟨i, false, d⟩ :: r.io, by rw [h3]; rfl, h4⟩
      · rename_i hne hnl
        obtain ⟨pre, post, h1, h2, h3⟩ := ihr h
        refine ⟨l.io ++ ⟨i, false, d⟩ :: pre, post, by simp [T.io, h1], h2, ?_⟩
        rcases h3 with h3 | h3
        · left
          intro b hb
          cases hp : pre.getLast? with
          | none =>
            have : pre = [] := by simpa using hp
            subst this
            simp only [List.getLast?_append, List.getLast?_singleton, Option.some_or, Option.mem_def, Option.some.injEq] at hb
            subst hb
            exact ⟨k, hk, lt_of_le_of_ne (not_lt.mp hnl) (Ne.symm hne)⟩
          | some z =>
            refine h3 b ?_
            simp only [List.getLast?_append, List.getLast?_cons, hp] at hb
            rw [hp]
            simpa using hb
        · exact Or.inr h3

/-! ### the geometric invariant -/

/-- The sites handled so far. -/
def Handled (pts : Nat → Pt) (s : St ℝ) : Set Pt := {x | ∃ p, (s.names p).isSome ∧ pts p = x}

/-- The points of the arcs on the beach line. -/
def apts (pts : Nat → Pt) (s : St ℝ) (L : List (Item Dat)) : List Pt := (origs s.og L).map pts

/-- The arc has a valid event in the queue. -/
def HasEv (s : St ℝ) (a : Nat) : Prop := ∃ e ∈ s.queue, e.circ = true ∧ (s.evs e.ref).valid = true ∧ (s.arcs a).cev = some e.ref

structure GInv (pts : Nat → Pt) (s : St ℝ) (L : List (Item Dat)) (l : ℝ) : Prop where
  sw : s.sweep = some l
  qle : ∀ e ∈ s.queue, e.yd ≤ l
  env : TopRow (Handled pts s) l (apts pts s L) ∨ Env (Handled pts s) l (apts pts s L)
  nc : ∀ P m a R t, L = P ++ ⟨m, true, .arc a⟩ :: R → tripleAt s.og P a R = some t →
    Due (Handled pts s) (pts t.1) (pts t.2.1) (pts t.2.2) → HasEv s a
  vtx : ∀ e < s.d.heCnt, ∀ v p z, (s.d.he e).origin = .vtx v → (s.d.he e).incident = some p → (s.d.vs v).pos = some z →
    ∃ m, l ≤ m ∧ m ≤ z.2 ∧ dsq (pts p) z = (z.2 - m) ^ 2 ∧ ∀ c ∈ Handled pts s, 0 ≤ pw c m z

theorem handled_finite {s : St ℝ} {L : List (Item Dat)} (h : Inv pts ok n pc s L) : (Handled pts s).Finite := by
  refine ((Finset.finite_toSet (Finset.range n)).image pts).subset ?_
  rintro x ⟨p, hp, rfl⟩
  obtain ⟨k, hk⟩ := Option.isSome_iff_exists.mp hp
  exact ⟨p, by simpa using (h.sinv.nmLt p k hk).2, rfl⟩

theorem evLt_false {e f : QE ℝ} (h : evLt f e = false) : f.yd ≤ e.yd ∧ (f.yd = e.yd → e.xd ≤ f.xd) ∧
    (f.yd = e.yd → f.xd = e.xd → f.circ = true → e.circ = true) := by
  unfold evLt at h
  refine ⟨?_, ?_, ?_⟩
  · by_contra hcon
    push Not at hcon
    have : ¬ f.yd = e.yd := ne_of_gt hcon
    simp [this] at h
    linarith
  · intro hy
    by_contra hcon
    push Not at hcon
    simp [hy, ne_of_lt hcon] at h
    linarith
  · intro hy hx hc
    simp [hy, hx, hc] at h
    exact h

/-- Splitting the beach line at a triple of neighbouring points. -/
theorem apts_split {s : St ℝ} {L : List (Item Dat)} {B C : List Pt} {a b c : Pt} (hb : BOk s.og s.pr s.arcCnt s.bpCnt L)
    (h : apts pts s L = B ++ a :: b :: c :: C) : ∃ P m x R i k, L = P ++ ⟨m, true, .arc x⟩ :: R ∧
      tripleAt s.og P x R = some (i, s.og x, k) ∧ pts i = a ∧ pts (s.og x) = b ∧ pts k = c := by
  -- split a mapped filterMap list at an element
  have key : ∀ (L : List (Item Dat)) (B C : List Pt) (b : Pt), KindsOk L → apts pts s L = B ++ b :: C →
      ∃ P m x R, L = P ++ ⟨m, true, .arc x⟩ :: R ∧ apts pts s P = B ∧ pts (s.og x) = b ∧ apts pts s R = C := by
    intro L
    induction L with
    | nil => intro B C b _ h; simp [apts] at h
    | cons y L ih =>
      intro B C b hk h
      rcases hk y (by simp) with ⟨x, h1, h2⟩ | ⟨x, h1, h2⟩
      · obtain ⟨i, f, d⟩ := y
        simp only at h1 h2; subst h1; subst h2
        have e : apts pts s (⟨i, true, .arc x⟩ :: L) = pts (s.og x) :: apts pts s L := by simp [apts]
        rw [e] at h
        cases B with
        | nil =>
          simp only [List.nil_append, List.cons.injEq] at h
          exact ⟨[], i, x, L, rfl, rfl, h.1, h.2⟩
        | cons z B =>
          simp only [List.cons_append, List.cons.injEq] at h
          obtain ⟨P, m, x', R, g1, g2, g3, g4⟩ := ih B C b (fun y hy => hk y (by simp [hy])) h.2
          exact ⟨⟨i, true, .arc x⟩ :: P, m, x', R, by rw [g1]; rfl, by
            have : apts pts s (⟨i, true, .arc x⟩ :: P) = pts (s.og x) :: apts pts s P := by simp [apts]
            rw [this, g2, h.1], g3, g4⟩
      · obtain ⟨i, f, d⟩ := y
        simp only at h1 h2; subst h1; subst h2
        have e : ∀ L, apts pts s (⟨i, false, .bp x⟩ :: L) = apts pts s L := by intro L; simp [apts]
        rw [e] at h
        obtain ⟨P, m, x', R, g1, g2, g3, g4⟩ := ih B C b (fun y hy => hk y (by simp [hy])) h
        exact ⟨⟨i, false, .bp x⟩ :: P, m, x', R, by rw [g1]; rfl, by rw [e]; exact g2, g3, g4⟩
  obtain ⟨P, m, x, R, h1, h2, h3, h4⟩ := key L (B ++ [a]) (c :: C) b hb.kindsOk (by rw [h]; simp)
  have hl : ∃ i, (origs s.og P).getLast? = some i ∧ pts i = a := by
    have : (apts pts s P).getLast? = some a := by rw [h2]; simp
    unfold apts at this
    rw [List.getLast?_map, Option.map_eq_some_iff] at this
    exact this
  have hr : ∃ k, (origs s.og R).head? = some k ∧ pts k = c := by
    have : (apts pts s R).head? = some c := by rw [h4]; simp
    unfold apts at this
    rw [List.head?_map, Option.map_eq_some_iff] at this
    exact this
  obtain ⟨i, hi, hi'⟩ := hl
  obtain ⟨k, hk, hk'⟩ := hr
  exact ⟨P, m, x, R, i, k, h1, by unfold tripleAt; rw [hi, hk], hi', h3, hk'⟩

/-- The event of an arc. -/
theorem HasEv.get {s : St ℝ} {L : List (Item Dat)} (hb : BOk s.og s.pr s.arcCnt s.bpCnt L) (hQ : QInv pts ok s L)
    {P R : List (Item Dat)} {m a : Nat} {t : Nat × Nat × Nat} (hL : L = P ++ ⟨m, true, .arc a⟩ :: R)
    (ht : tripleAt s.og P a R = some t) (h : HasEv s a) :
    ∃ e ∈ s.queue, e.circ = true ∧ (s.evs e.ref).valid = true ∧ (s.arcs a).cev = some e.ref ∧
      e.yd = cbot (pts t.1) (pts t.2.1) (pts t.2.2) ∧ e.xd = ccx (pts t.1) (pts t.2.1) (pts t.2.2) := by
  obtain ⟨e, he, hc, hv, hcev⟩ := h
  refine ⟨e, he, hc, hv, hcev, ?_⟩
  obtain ⟨P', m', a', R', t', h1, h2, h3, h4⟩ := hQ.ev e he hc hv
  have ha : a' = a := hQ.cevInj a' a e.ref h2 hcev
  subst ha
  -- the two splits agree
  have hsame : P' = P ∧ R' = R := by
    have hnd := hb.nd
    rw [hL] at h1
    by_cases hne : (⟨m, true, .arc a'⟩ : Item Dat) = ⟨m', true, .arc a'⟩
    · have hnd' : L.Nodup := List.Nodup.of_map _ hnd
      rw [hL] at hnd'
      rw [← hne] at h1
      have h5 := List.append_cons_inj_of_notMem (x₁ := P) (x₂ := P') (z₁ := R) (z₂ := R') (a₁ := (⟨m, true, .arc a'⟩ : Item Dat))
        (a₂ := (⟨m, true, .arc a'⟩ : Item Dat)) (by
          intro hm
          rw [List.nodup_append] at hnd'
          exact hnd'.2.2 _ hm _ (by simp) rfl) (by
          intro hm
          rw [List.nodup_append, List.nodup_cons] at hnd'
          exact hnd'.2.1.1 hm)
      have := h5.mp h1
      exact ⟨this.1.symm, this.2.2.symm⟩
    · exfalso
      rw [hL] at hnd
      rcases two_splits rfl h1 hne with ⟨M, g1, g2⟩ | ⟨M, g1, g2⟩
      · rw [g2] at hnd
        simp only [List.map_append, List.map_cons, List.nodup_append, List.nodup_cons, List.mem_append, List.mem_cons] at hnd
        exact hnd.2.1.1 (Or.inr (Or.inl trivial))
      · rw [g1] at hnd
        simp only [List.map_append, List.map_cons, List.nodup_append, List.nodup_cons, List.mem_append, List.mem_cons] at hnd
        exact hnd.2.2 (.arc a') (Or.inr (Or.inl rfl)) (.arc a') (Or.inl rfl) rfl
  rw [hsame.1, hsame.2] at h3
  have htt : t' = t := by
    have : tripleAt s.og P a' R = some t' := h3
    rw [ht] at this
    simpa using this.symm
  subst htt
  have hqe := hQ.qe e he hc
  obtain ⟨_, g2, g3, _⟩ := mkEv_spec h4 e.ref
  rw [← hqe] at g2 g3
  exact ⟨g2, g3⟩

/-- Every circle that is due has an event in the queue. -/
theorem GInv.due {s : St ℝ} {L : List (Item Dat)} {l : ℝ} (hI : Inv pts ok n pc s L) (hG : GInv pts s L l) :
    ∀ B a b c C, apts pts s L = B ++ a :: b :: c :: C → Due (Handled pts s) a b c →
      ∃ e ∈ s.queue, e.circ = true ∧ (s.evs e.ref).valid = true ∧ e.yd = cbot a b c ∧ e.xd = ccx a b c := by
  intro B a b c C he hd
  obtain ⟨P, m, x, R, i, k, h1, h2, rfl, rfl, rfl⟩ := apts_split hI.beach he
  obtain ⟨e, h3, h4, h5, _, h6, h7⟩ := (hG.nc P m x R _ h1 h2 hd).get hI.beach hI.qinv h1 h2
  exact ⟨e, h3, h4, h5, h6, h7⟩

/-- The beach line is the lower envelope at the height of the next event, unless that is another site of the topmost row. -/
theorem GInv.next {s : St ℝ} {L : List (Item Dat)} {l : ℝ} (hI : Inv pts ok n pc s L) (hG : GInv pts s L l) (hq : q.Spec evLt ok)
    {e : QE ℝ} {rest : List (QE ℝ)} (hp : q.pop s.queue = some (e, rest)) :
    e.yd ≤ l ∧ (Env (Handled pts s) e.yd (apts pts s L) ∨ (e.yd = l ∧ TopRow (Handled pts s) l (apts pts s L))) := by
  have hperm := hq.pop_perm _ _ _ hI.qinv.ok hp
  have hmin := hq.pop_min _ _ _ hI.qinv.ok hp
  have hle : e.yd ≤ l := hG.qle e (hperm.mem_iff.mpr (by simp))
  refine ⟨hle, ?_⟩
  rcases hG.env with ht | he
  · rcases eq_or_lt_of_le hle with hl | hl
    · exact Or.inr ⟨hl, ht⟩
    · exact Or.inl (ht.env hl)
  · left
    refine he.advance_to (handled_finite hI) hle ?_
    intro B a b c C hs hd
    obtain ⟨f, hf, _, _, hy, _⟩ := hG.due hI B a b c C hs hd
    rw [← hy]
    rcases List.mem_cons.mp (hperm.mem_iff.mp hf) with rfl | hf
    · exact le_rfl
    · exact (evLt_false (hmin f hf)).1

/-- At the height of a site event no arc has width zero at or left of the site. -/
theorem GInv.no_zero {s : St ℝ} {L : List (Item Dat)} {l : ℝ} (hI : Inv pts ok n pc s L) (hG : GInv pts s L l) (hq : q.Spec evLt ok)
    {e : QE ℝ} {rest : List (QE ℝ)} (hp : q.pop s.queue = some (e, rest)) (hc : e.circ = false)
    (hE : Env (Handled pts s) e.yd (apts pts s L)) {B C : List Pt} {a b c : Pt} (hs : apts pts s L = B ++ a :: b :: c :: C)
    (hb : e.yd < b.2) (hx : bpX a b e.yd = bpX b c e.yd) : e.xd < bpX a b e.yd := by
  have hperm := hq.pop_perm _ _ _ hI.qinv.ok hp
  have hmin := hq.pop_min _ _ _ hI.qinv.ok hp
  obtain ⟨B', a', b', c', C', hs', hd, hcb, hcx⟩ := hE.due_of_zero B.length B a b c C rfl hs hb hx
  obtain ⟨f, hf, hfc, _, hy, hfx⟩ := hG.due hI B' a' b' c' C' hs' hd
  rcases List.mem_cons.mp (hperm.mem_iff.mp hf) with rfl | hf
  · rw [hc] at hfc; cases hfc
  · obtain ⟨_, h2, h3⟩ := evLt_false (hmin f hf)
    have hyy : f.yd = e.yd := by rw [hy, hcb]
    have h4 := h2 hyy
    rw [← hcx, ← hfx]
    refine lt_of_le_of_ne h4 fun hh => ?_
    have := h3 hyy hh.symm hfc
    rw [hc] at this; cases this

/-! ### events stay in the queue -/

theorem HasEv.addOpt {s : St ℝ} {L : List (Item Dat)} (hQ : QInv pts ok s L) (hq : q.Spec evLt ok) {a x : Nat} {o : Option (CevR ℝ)}
    (hax : a ≠ x) (h : HasEv s a) : HasEv (addOpt q x s o) a := by
  cases o with
  | none => exact h
  | some ev =>
    obtain ⟨e, he, hc, hv, hcev⟩ := h
    have hperm := hq.push_perm (cevQE ev s.evCnt) s.queue hQ.ok
    refine ⟨e, hperm.mem_iff.mpr (by simp [he]), hc, ?_, ?_⟩
    · have := hQ.lt e he hc
      simp only [Foronoi.addOpt, addEv]
      rw [Function.update_of_ne (by omega)]; exact hv
    · simp only [Foronoi.addOpt, addEv]
      rw [Function.update_of_ne hax]; exact hcev

theorem HasEv.added {s : St ℝ} {L : List (Item Dat)} (hQ : QInv pts ok s L) (hq : q.Spec evLt ok) {x : Nat} {ev : CevR ℝ}
    (hv : ev.valid = true) : HasEv (Foronoi.addOpt q x s (some ev)) x := by
  have hperm := hq.push_perm (cevQE ev s.evCnt) s.queue hQ.ok
  refine ⟨cevQE ev s.evCnt, hperm.mem_iff.mpr (by simp), rfl, ?_, ?_⟩
  · simp [Foronoi.addOpt, addEv, cevQE, hv]
  · simp [Foronoi.addOpt, addEv, cevQE]

/-- The events after `_check_circles`. -/
theorem HasEv.checkAdd {s : St ℝ} {L : List (Item Dat)} (hQ : QInv pts ok s L) (hq : q.Spec evLt ok)
    {A B C D : List (Item Dat)} {n m al ar : Nat}
    (h1 : L = A ++ ⟨n, true, .arc al⟩ :: B) (hal : al < s.arcCnt)
    (hne : al ≠ ar) (hno1 : NoEv s al) {o : Option (CevR ℝ)} :
    (∀ a, a ≠ al → a ≠ ar → HasEv s a → HasEv (Foronoi.checkAdd q al ar ((tripleAt s.og A al B).bind (mkEv pts n)) o s) a) ∧
    (∀ ev, (tripleAt s.og A al B).bind (mkEv pts n) = some ev →
      HasEv (Foronoi.checkAdd q al ar ((tripleAt s.og A al B).bind (mkEv pts n)) o s) al) ∧
    (∀ ev, ev.valid = true → dropRight ((tripleAt s.og A al B).bind (mkEv pts n)) o = some ev →
      HasEv (Foronoi.checkAdd q al ar ((tripleAt s.og A al B).bind (mkEv pts n)) o s) ar) := by
  have h' := hQ.addOpt hq (o := (tripleAt s.og A al B).bind (mkEv pts n)) h1 hal (fun ev hev => hev) hno1
  refine ⟨?_, ?_, ?_⟩
  · intro a ha1 ha2 h
    exact (h.addOpt hQ hq ha1).addOpt h' hq ha2
  · intro ev hev
    unfold Foronoi.checkAdd
    refine HasEv.addOpt h' hq hne ?_
    rw [hev]
    obtain ⟨t, _, h2⟩ := Option.bind_eq_some_iff.mp hev
    exact HasEv.added hQ hq (mkEv_valid h2).1
  · intro ev hv hev
    unfold Foronoi.checkAdd
    rw [hev]
    exact HasEv.added h' hq hv

theorem Due.mono {S S' : Set Pt} {a b c : Pt} (h : Due S' a b c) (hs : S ⊆ S') : Due S a b c :=
  ⟨h.1, fun s hs' => h.2.1 s (hs hs'), fun s hs' => h.2.2 s (hs hs')⟩

end Foronoi
