import Verif.Props.CircleSweep
import Verif.Props.CircleTrim
import Verif.Props.DecimalExamples
import Verif.Props.Single
import Verif.Props.SweepExamples
import Verif.Proof.Ray

/-!
# C138: which exception a bounding circle ends in

`C55_circle_raises`: `create_diagram` with a bounding circle raises, which in the model could also be a loop that runs out of fuel.  Here:
the exception is InvalidOperation, IndexError or AttributeError, and when it is which.
-/

namespace Foronoi

section steps

variable {K : Type} [LinearOrder K] [Arith K] {pts : Nat → K × K} {k : BCirc K}

/-- Every half-edge has a twin, and starts at a breakpoint or at a vertex with a position.  All vertices of the border have one. -/
structure EndsKnown (s : St K) : Prop where
  tw : ∀ e < s.d.heCnt, ∃ t < s.d.heCnt, (s.d.he e).twin = some t
  org : ∀ e < s.d.heCnt, ∀ v, (s.d.he e).origin = .vtx v → v < s.d.vCnt ∧ (s.d.vs v).pos.isSome
  border : ∀ v ∈ s.polyVerts, v < s.d.vCnt ∧ (s.d.vs v).pos.isSome

theorem EndsKnown.getOrigin {s : St K} (h : EndsKnown s) {e : Nat} (he : e < s.d.heCnt) {l : K} {r : Option (K × Ext K)}
    (hr : getOrigin pts s.bps s.d e (some l) none = some r) : r.isSome := by
  unfold Foronoi.getOrigin at hr
  split at hr
  · rename_i v hv
    obtain rfl := Option.some.inj hr
    simpa using (h.org e he v hv).2
  · simp only [Option.map_eq_some_iff] at hr
    obtain ⟨x, _, rfl⟩ := hr
    rfl

theorem wp_getOrigin_ends {s : St K} (h : EndsKnown s) {e : Nat} (he : e < s.d.heCnt) {Q : Option (K × Ext K) → St K → Prop} {l : K}
    (hQ : ∀ a, Q (some a) s) : Wp (· = .arith) (getOriginSt pts e (some l) none) s Q := by
  simp only [getOriginSt, wp_bind, wp_get, wp_liftA]
  refine ⟨fun r hr => ?_, fun _ => trivial⟩
  obtain ⟨a, rfl⟩ := Option.isSome_iff_exists.mp (h.getOrigin he hr)
  exact hQ a

/-- Cutting one end. -/
theorem wp_trimEdge_ends {s : St K} (h : EndsKnown s) {e : Nat} (he : e < s.d.heCnt) :
    Wp (· = .arith) (trimEdge pts k e) s (fun _ s' => EndsKnown s' ∧ s'.d.heCnt = s.d.heCnt) := by
  obtain ⟨t, ht, htw⟩ := h.tw e he
  simp only [trimEdge, wp_bind]
  refine wp_getOrigin_ends h he fun a => ?_
  simp only [wp_get, wp_bind, wp_deref, htw]
  refine Or.inl ⟨t, rfl, wp_getOrigin_ends h ht fun b => ?_⟩
  refine Or.inl ⟨a, rfl, Or.inl ⟨b, rfl, ?_⟩⟩
  simp only [wp_liftA]
  refine ⟨fun r _ => ?_, fun _ => trivial⟩
  cases r with
  | none => exact ⟨h, rfl⟩
  | some z =>
    refine ⟨⟨fun f hf => ?_, fun f hf v hv => ?_, fun v hv => ?_⟩, rfl⟩
    · obtain ⟨t', h1, h2⟩ := h.tw f hf
      refine ⟨t', h1, ?_⟩
      simp only [updE, Function.update_apply]
      split_ifs with c
      · subst c; exact h2
      · exact h2
    · simp only [updE, updV, newV, Function.update_apply] at hv ⊢
      split_ifs at hv with c
      · obtain rfl : s.d.vCnt = v := by simpa using hv
        simp
      · obtain ⟨h1, h2⟩ := h.org f hf v hv
        refine ⟨Nat.lt_succ_of_lt h1, ?_⟩
        simp [h1.ne, h2]
    · simp only [List.mem_append, List.mem_singleton] at hv
      simp only [updE, updV, newV, appendConn, Function.update_apply]
      rcases hv with hv | rfl
      · obtain ⟨h1, h2⟩ := h.border v hv
        refine ⟨Nat.lt_succ_of_lt h1, ?_⟩
        simp [h1.ne, h2]
      · simp

/-- `finish_edges` of a circle raises nothing but InvalidOperation. -/
theorem wp_finishEdgesC_ends : ∀ (es : List Nat) (s : St K), EndsKnown s → (∀ e ∈ es, e < s.d.heCnt) →
    Wp (· = .arith) (finishEdgesC pts k es) s (fun _ s' => EndsKnown s')
  | [], s, h, _ => h
  | e :: rest, s, h, hes => by
    have he := hes e (by simp)
    obtain ⟨t, ht, htw⟩ := h.tw e he
    simp only [finishEdgesC, wp_bind]
    refine wp_getOrigin_ends h he fun a => ?_
    simp only [wp_get, wp_bind, wp_deref, htw]
    refine Or.inl ⟨t, rfl, wp_getOrigin_ends h ht fun b => ?_⟩
    simp only [Option.isNone_some, Bool.false_and, Bool.false_eq_true, if_false, wp_bind]
    have hA : Wp (· = .arith) (trimA pts k e (some a)) s (fun _ s' => EndsKnown s' ∧ s'.d.heCnt = s.d.heCnt) := by
      simp only [trimA]
      split_ifs
      · exact ⟨h, rfl⟩
      · exact wp_trimEdge_ends h he
    refine wp_mono hA (fun ra s1 ⟨h1, h2⟩ => ?_)
    have hB : Wp (· = .arith) (trimB pts k t (some b)) s1 (fun _ s' => EndsKnown s' ∧ s'.d.heCnt = s1.d.heCnt) := by
      simp only [trimB]
      split_ifs
      · exact ⟨h1, rfl⟩
      · exact wp_trimEdge_ends h1 (h2 ▸ ht)
    refine wp_mono hB (fun rb s2 ⟨h3, h4⟩ => ?_)
    refine wp_mono (wp_finishEdgesC_ends rest s2 h3 (fun f hf => ?_)) (fun _ s3 h5 => h5)
    rw [h4, h2]
    exact hes f (List.mem_cons_of_mem _ hf)

theorem orderedVertices_mem {poly : Poly K} {vs : Nat → VR K} {l : List Nat} {v : Nat} :
    v ∈ orderedVertices poly vs l ↔ v ∈ l ∧ (vs v).pos.isSome := by
  simp only [orderedVertices, List.mem_map, List.mem_insertionSort, List.mem_filterMap, Option.map_eq_some_iff]
  constructor
  · rintro ⟨x, ⟨w, hw, p, hp, rfl⟩, rfl⟩
    exact ⟨hw, by simp [hp]⟩
  · rintro ⟨h1, h2⟩
    obtain ⟨p, hp⟩ := Option.isSome_iff_exists.mp h2
    exact ⟨_, ⟨v, h1, p, hp, rfl⟩, rfl⟩

theorem wp_cellAt_attr {o : Nat} {cell : Option Nat} (s : St K) : Wp (· = .attr) (cellAt (K := K) o cell) s (fun _ _ => True) := by
  unfold cellAt
  simp only [wp_bind, wp_zD, wp_rdV]
  split
  · simp only [wp_bind, wp_zD, wp_rdE, wp_deref]
    cases (s.d.he _).twin <;> simp
  · trivial

theorem wp_linkOrigin_attr {edge o : Nat} (s : St K) : Wp (· = .attr) (linkOrigin (K := K) edge o) s (fun _ _ => True) := by
  unfold linkOrigin
  simp only [wp_bind, wp_zD, wp_rdV, wp_optDo, wp_rdE, wp_deref]
  refine ⟨fun c _ => ?_, fun _ => trivial⟩
  cases (s.d.he c).twin with
  | none => exact Or.inr ⟨rfl, trivial⟩
  | some t => exact Or.inl ⟨t, rfl, trivial⟩

theorem borderLoopT_attr {o e : Nat} {rest : List Nat} {cell : Option Nat} (s : St K) :
    Wp (· = .attr) (borderLoopT (K := K) (o :: e :: rest) cell) s (fun _ _ => False) := by
  have any : ∀ {α : Type} {m : EM (St K) α} {s : St K}, (∃ x, m s = .ok x) → Wp (· = .attr) m s (fun _ _ => True) := by
    rintro α m s ⟨x, hx⟩
    unfold Wp; rw [hx]; trivial
  simp only [borderLoopT, wp_bind]
  refine wp_mono (wp_cellAt_attr _) (fun c _ _ => ?_)
  refine wp_mono (any ⟨_, rfl⟩) (fun _ _ _ => ?_)
  refine wp_mono (any ⟨_, rfl⟩) (fun _ _ _ => ?_)
  refine wp_mono (any ⟨_, rfl⟩) (fun _ _ _ => ?_)
  refine wp_mono (any ⟨_, rfl⟩) (fun _ _ _ => ?_)
  refine wp_mono (Q := fun _ _ => True) ?_ (fun _ _ _ => ?_)
  · simp only [wp_optDo, wp_zD, initFE, wp_bind]
    refine ⟨fun p _ => ?_, fun _ => trivial⟩
    simp only [rdFE, Wp]
    generalize St.d _ = d
    cases d.fe p <;> trivial
  refine wp_mono (Q := fun _ _ => True) ?_ (fun _ _ _ => ?_)
  · unfold linkEnd
    simp only [wp_bind, wp_zD, wp_rdV, wp_optDo]
    exact ⟨fun _ _ => trivial, fun _ => trivial⟩
  refine wp_mono (wp_linkOrigin_attr _) (fun _ _ _ => ?_)
  simp

theorem finishPolygonT_empty {n : Nat} {s : St K} (h : s.polyVerts = []) : finishPolygonT pts n k s = .error .index := by
  have h0 : orderedVertices k.poly s.d.vs s.polyVerts = [] := by rw [h]; rfl
  simp only [finishPolygonT, bind, StateT.bind, get, getThe, MonadStateOf.get, StateT.get, Except.bind, pure, Except.pure, h0]
  rfl

end steps

section rounding

variable {K : Type} [LinearOrder K] [Arith K] [ArithLaws K] {pts : Nat → K × K} {q : PQ (QE K)} {ok : List (QE K) → Prop} {n : Nat} {k : BCirc K} [MidLt pts n]

/-- The state after the sweep with a bounding circle. -/
theorem ends_of_reach (hq : q.Spec evLt ok) {s : St K} (h : Reach pts q n k.poly s) : EndsKnown s ∧ ∀ e ∈ s.edges, e < s.d.heCnt := by
  obtain ⟨L, hI⟩ := reach_inv hq h
  have hp : s.polyVerts = [] := (reach_corner hq h).pv
  refine ⟨⟨fun e he => ?_, fun e he v hv => ?_, fun v hv => ?_⟩, hI.dinv.elt⟩
  · obtain ⟨t, h1, h2, _⟩ := hI.dinv.tw e he
    exact ⟨t, h2, h1⟩
  · obtain ⟨_, h1, p, x, r, e1, e2, e3, h2⟩ := hI.dinv.vts v (hI.dinv.ovt e he v hv).1
    obtain ⟨_, ev, _, h3⟩ := h2.pos
    exact ⟨h1, by rw [h3]; rfl⟩
  · rw [hp] at hv; cases hv

theorem mapM_length {α β : Type} {f : α → Option β} : ∀ {l : List α} {ds : List β}, l.mapM f = some ds → ds.length = l.length
  | [], ds, h => by cases h; rfl
  | a :: l, ds, h => by
    rw [List.mapM_cons] at h
    simp only [Option.bind_eq_bind, Option.bind_eq_some_iff] at h
    obtain ⟨b, _, bs, h2, h3⟩ := h
    cases h3
    simp [mapM_length h2]

theorem finishPolygonT_any (hn : 1 ≤ n) (s : St K) :
    Wp (fun e => e = .arith ∨ e = .index ∨ e = .attr) (finishPolygonT pts n k) s (fun _ _ => False) := by
  simp only [finishPolygonT, wp_bind, wp_get]
  cases ho : orderedVertices k.poly s.d.vs s.polyVerts with
  | nil => simp
  | cons v0 vs =>
    simp only [wp_bind, wp_zD, wp_rdV, wp_deref]
    obtain ⟨p, hp⟩ := Option.isSome_iff_exists.mp (orderedVertices_mem.mp (ho ▸ List.mem_cons_self : v0 ∈ orderedVertices k.poly s.d.vs s.polyVerts)).2
    refine Or.inl ⟨p, hp, ?_⟩
    refine wp_mono (Q := fun _ _ => True) ?_ (fun c s1 _ => ?_)
    · simp only [closestPoint, wp_bind, wp_liftA]
      refine ⟨fun ds hds => ?_, fun _ => by simp⟩
      have h2 := mapM_length hds
      cases hm : argmin ds with
      | some i => trivial
      | none =>
        exfalso
        cases ds with
        | nil => simp at h2; omega
        | cons d ds => simp [argmin] at hm
    · cases vs with
      | nil => exact wp_monoE (borderLoopT_attr _) (fun _ h => Or.inr (Or.inr h))
      | cons v1 vs => exact wp_monoE (borderLoopT_attr _) (fun _ h => Or.inr (Or.inr h))

/-- C138: for every rounding behaviour and all sites, distinct or not, the exception is InvalidOperation (or another signal of `decimal`),
IndexError or AttributeError.  No loop runs forever. -/
theorem C138_rounding (hn : 1 ≤ n) (hq : q.Spec evLt ok) {fuel : Nat} (hf : 7 * n < fuel) :
    ∃ e, createDiagramC pts q n fuel k (initSt k.poly) = .error e ∧ (e = .arith ∨ e = .index ∨ e = .attr) := by
  obtain ⟨e, he⟩ := C55_circle_raises pts q n fuel k (initSt k.poly)
  refine ⟨e, he, ?_⟩
  cases hs : sweepAll pts q n fuel (initSt k.poly) with
  | error e' =>
    obtain rfl := C05_sweep_errors hq hf hs
    unfold createDiagramC at he
    simp only [bind, StateT.bind, Except.bind, hs] at he
    cases he
    exact Or.inl rfl
  | ok v =>
    obtain ⟨_, s0⟩ := v
    obtain ⟨sr, hr, _, h0⟩ := sweepAll_reach hs
    obtain ⟨hk, hes⟩ := ends_of_reach hq hr
    have hk0 : EndsKnown s0 := by rw [h0]; exact ⟨hk.tw, hk.org, hk.border⟩
    have hes0 : ∀ e ∈ s0.edges, e < s0.d.heCnt := by rw [h0]; exact hes
    have hw := wp_finishEdgesC_ends (pts := pts) (k := k) s0.edges s0 hk0 hes0
    unfold createDiagramC at he
    cases hfe : finishEdgesC pts k s0.edges s0 with
    | error e' =>
      obtain rfl : e' = .arith := Wp.err hw hfe
      simp only [bind, StateT.bind, Except.bind, hs, get, getThe, MonadStateOf.get, StateT.get, pure, Except.pure, hfe] at he
      cases he
      exact Or.inl rfl
    | ok v =>
      obtain ⟨l, s1⟩ := v
      simp only [bind, StateT.bind, Except.bind, hs, get, getThe, MonadStateOf.get, StateT.get, pure, Except.pure, hfe] at he
      exact Wp.err (finishPolygonT_any hn s1) he

end rounding

/-- C138 with the rounding of `decimal`: coordinates with less digits than the precision, as all floats have. -/
theorem C138_decimal {p n fuel : Nat} (hp : 0 < p) {pts : Nat → Dec p × Dec p} (hx : ShortX p pts n) {q : PQ (QE (Dec p))} {ok : List (QE (Dec p)) → Prop}
    (hq : q.Spec evLt ok) (k : BCirc (Dec p)) (hn : 1 ≤ n) (hf : 7 * n < fuel) :
    ∃ e, createDiagramC pts q n fuel k (initSt k.poly) = .error e ∧ (e = .arith ∨ e = .index ∨ e = .attr) := by
  have := decMid hp hx
  exact C138_rounding hn hq hf

/-- The hypotheses can be met. -/
example (k : BCirc (Dec 28)) : createDiagramC exInv heapq 4 40 k (initSt k.poly) ≠ .error .fuel := by
  obtain ⟨e, h1, h2⟩ := C138_decimal (by norm_num) C104_short.1 C45_event_queue k (fuel := 40) (by norm_num) (by norm_num)
  rw [h1]
  rcases h2 with rfl | rfl | rfl <;> simp

variable {pts : Nat → ℝ × ℝ} {q : PQ (QE ℝ)} {ok : List (QE ℝ) → Prop} {n : Nat}

theorem wp_closestPoint_real (hn : 1 ≤ n) (p : ℝ × ℝ) (s : St ℝ) : Wp (fun _ => False) (closestPoint pts n p) s (fun _ _ => True) := by
  obtain ⟨ds, h1, h2⟩ : ∃ ds, (List.range n).mapM (fun i => distance p (pts i)) = some ds ∧ ds.length = n := by
    have : ∀ l : List Nat, ∃ ds, l.mapM (fun i => distance p (pts i)) = some ds ∧ ds.length = l.length := by
      intro l
      induction l with
      | nil => exact ⟨[], rfl, rfl⟩
      | cons i l ih =>
        obtain ⟨ds, h1, h2⟩ := ih
        exact ⟨√ (dsq p (pts i)) :: ds, by rw [List.mapM_cons, h1, distance_real]; rfl, by simp [h2]⟩
    simpa using this (List.range n)
  simp only [closestPoint, wp_bind, wp_liftA, h1]
  refine ⟨fun a ha => ?_, fun h => by cases h⟩
  obtain rfl := Option.some.inj ha
  cases hm : argmin ds with
  | some i => trivial
  | none => 
    exfalso
    cases ds with
    | nil => simp at h2; omega
    | cons d ds => simp [argmin] at hm

theorem finishPolygonT_attr {k : BCirc ℝ} (hn : 1 ≤ n) {s : St ℝ} (hs : EndsKnown s) (h : s.polyVerts ≠ []) :
    finishPolygonT pts n k s = .error .attr := by
  have hw : Wp (· = .attr) (finishPolygonT pts n k) s (fun _ _ => False) := by
    simp only [finishPolygonT, wp_bind, wp_get]
    cases ho : orderedVertices k.poly s.d.vs s.polyVerts with
    | nil =>
      exfalso
      obtain ⟨v, hv⟩ := List.exists_mem_of_ne_nil _ h
      have := (orderedVertices_mem (poly := k.poly)).mpr ⟨hv, (hs.border v hv).2⟩
      rw [ho] at this
      cases this
    | cons v0 vs =>
      simp only [wp_bind, wp_zD, wp_rdV, wp_deref]
      obtain ⟨p, hp⟩ := Option.isSome_iff_exists.mp (orderedVertices_mem.mp (ho ▸ List.mem_cons_self : v0 ∈ orderedVertices k.poly s.d.vs s.polyVerts)).2
      refine Or.inl ⟨p, hp, ?_⟩
      refine wp_mono (wp_monoE (wp_closestPoint_real hn p _) (fun _ h => h.elim)) (fun c s1 _ => ?_)
      cases vs with
      | nil => exact borderLoopT_attr _
      | cons v1 vs => exact borderLoopT_attr _
  cases he : finishPolygonT pts n k s with
  | error e => rw [Wp.err hw he]
  | ok v => exact (Wp.ok hw he).elim

/-- C138: with distinct sites and exact arithmetic `create_diagram` with a bounding circle completes its sweep.  It then raises
InvalidOperation if `finish_edges` does; IndexError if no edge is cut by the circle; AttributeError otherwise. -/
theorem C138_exception (hd : Distinct pts n) (hn : 1 ≤ n) (hq : q.Spec evLt ok) (k : BCirc ℝ) {fuel : Nat} (hf : 7 * n < fuel) :
    ∃ s, sweepAll pts q n fuel (initSt k.poly) = .ok ((), s) ∧
      ((finishEdgesC pts k s.edges s = .error .arith ∧ createDiagramC pts q n fuel k (initSt k.poly) = .error .arith) ∨
      ∃ l s', finishEdgesC pts k s.edges s = .ok (l, s') ∧
        createDiagramC pts q n fuel k (initSt k.poly) = .error (if s'.polyVerts = [] then .index else .attr)) := by
  obtain ⟨s, log', h1, h2, h3⟩ := C23_no_errors (poly := k.poly) hd hq hf
  refine ⟨_, h1, ?_⟩
  obtain ⟨hk, hes⟩ := ends_of_reach hq h2
  set s0 : St ℝ := { s with log := log' } with hs0
  have hk0 : EndsKnown s0 := ⟨hk.tw, hk.org, hk.border⟩
  have hw := wp_finishEdgesC_ends (pts := pts) (k := k) s0.edges s0 hk0 hes
  cases he : finishEdgesC pts k s0.edges s0 with
  | error e =>
    left
    obtain rfl : e = .arith := Wp.err hw he
    refine ⟨rfl, ?_⟩
    unfold createDiagramC
    simp only [bind, StateT.bind, Except.bind, h1, get, getThe, MonadStateOf.get, StateT.get, pure, Except.pure, he]
  | ok v =>
    right
    obtain ⟨l, s'⟩ := v
    have hs' : EndsKnown s' := Wp.ok hw he
    refine ⟨l, s', rfl, ?_⟩
    have : createDiagramC pts q n fuel k (initSt k.poly) = finishPolygonT pts n k s' := by
      unfold createDiagramC
      simp only [bind, StateT.bind, Except.bind, h1, get, getThe, MonadStateOf.get, StateT.get, pure, Except.pure, he]
    rw [this]
    split_ifs with c
    · exact finishPolygonT_empty c
    · exact finishPolygonT_attr hn hs' c

/-- C138: with a single site it is IndexError, whatever the circle. -/
theorem C138_single (hq : q.Spec evLt ok) (k : BCirc ℝ) {fuel : Nat} (hf : 7 < fuel) :
    createDiagramC pts q 1 fuel k (initSt k.poly) = .error .index := by
  obtain ⟨s, h1, h2⟩ := C138_exception (pts := pts) (n := 1) (fun i hi j hj _ => by omega) le_rfl hq k (by omega : 7 * 1 < fuel)
  obtain ⟨_, he⟩ := single_sweep hq h1
  obtain ⟨s0, _, h3, h4, _⟩ := C23_no_errors (poly := k.poly) (pts := pts) (n := 1) (fun i hi j hj _ => by omega) hq (by omega : 7 * 1 < fuel)
  have hs : s.polyVerts = s0.polyVerts := by
    have := h1.symm.trans h3
    rw [(Prod.mk.inj (Except.ok.inj this)).2]
  rw [he] at h2
  rcases h2 with ⟨h, _⟩ | ⟨l, s', h, h'⟩
  · cases h
  · obtain ⟨_, rfl⟩ := Prod.mk.inj (Except.ok.inj h)
    rw [h', if_pos (show s.polyVerts = [] from hs.trans (reach_corner hq h4).pv)]

/-- The hypotheses can be met: three sites, any circle. -/
example (k : BCirc ℝ) : ∃ e, createDiagramC tri3 heapq 3 22 k (initSt k.poly) = .error e ∧ e ≠ .fuel := by
  obtain ⟨s, _, ⟨_, h⟩ | ⟨_, _, _, h⟩⟩ := C138_exception tri3_distinct (by norm_num) C45_event_queue k (fuel := 22) (by norm_num)
  · exact ⟨_, h, by simp⟩
  · exact ⟨_, h, by split_ifs <;> simp⟩

/-- The error a run ends in. -/
def raised (r : Except Err (Unit × St ℚ)) : Option Err := match r with | .error e => some e | .ok _ => none

/-- `create_diagram` for the sites (0, -600) and (0, 600) with a bounding circle, over the rationals. -/
def circleRun (x y r : ℚ) : Option Err :=
  raised (createDiagramC (ptsOf [(0, -600), (0, 600)]) heapq 2 20 ⟨(x, y), r⟩ (initSt (BCirc.poly ⟨(x, y), r⟩)))

/-- The same, evaluated after each part. -/
def createDiagramCF {K : Type} [LinearOrder K] [Arith K] [FrcOf K] (pts : Nat → K × K) (q : PQ (QE K)) (n fuel : Nat) (k : BCirc K) (s : St K) : Except Err (Unit × St K) :=
  thenF n (sweepAllF pts q n fuel s) fun _ s => thenF n (finishEdgesC pts k s.edges s) fun _ s => finishPolygonT pts n k s

theorem createDiagramCF_eq {K : Type} [LinearOrder K] [Arith K] [FrcOf K] (pts : Nat → K × K) (q : PQ (QE K)) (n fuel : Nat) (k : BCirc K) (s : St K) :
    createDiagramCF pts q n fuel k s = createDiagramC pts q n fuel k s := by
  unfold createDiagramCF createDiagramC
  rw [sweepAllF_eq, thenF_eq]
  refine congrFun (congrArg (fun k => sweepAll pts q n fuel >>= k) (?_ : _ = fun _ => _)) s
  funext _ s
  rw [thenF_eq]
  rfl

set_option maxRecDepth 100000 in
/-- C138: all three occur, for the same two sites.  The edge between them is on the line y = 0: a circle around its middle cuts it; one at a
distance from this line makes `finish_edges` raise; one on the line but beyond the part drawn down to y = -1000 leaves it as it is. -/
theorem C138_all_three : circleRun 0 0 500 = some .attr ∧ circleRun 0 1000 500 = some .arith ∧ circleRun 2000 0 500 = some .index := by
  simp only [circleRun, ← createDiagramCF_eq]
  decide +kernel

end Foronoi
