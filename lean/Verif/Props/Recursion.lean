import Verif.Proof.Recursion
import Verif.Props.Row
import Verif.Props.Voronoi
import Verif.Props.Queue

/-!
# C108: a long horizontal row of sites exceeds the recursion limit

`lim` is the number of nested calls of `update_heights` that are possible.  Python's default limit of 1000 calls is more than that.
-/

namespace Foronoi

open scoped List

variable {K : Type} [LinearOrder K] [Arith K] [ArithLaws K]
variable {pts : Nat → K × K} {q : PQ (QE K)} {n : Nat} {poly : Poly K} {ok : List (QE K) → Prop} [MidLt pts n]

/-- The site popped from the queue is right of all sites of the beach line. -/
theorem row_no_intersect (hq : q.Spec evLt ok) (hrow : ∀ p < n, (pts p).2 = (pts 0).2) (hinj : Set.InjOn pts {p | p < n})
    {s : St K} {L : List (Item Dat)} {e : QE K} {rest : List (QE K)} (hI : Inv pts ok n poly.points.length s L)
    (hp : q.pop s.queue = some (e, rest)) (hsite : e.circ = false) :
    ∀ o ∈ origs s.og L, doesIntersect (pts e.ref) (pts o) = false := by
  obtain ⟨he, hlt, hnone, hbef⟩ := pop_site hI hq hp hsite
  intro o hmem
  have hsome := hI.sinv.used _ hmem
  obtain ⟨k, hk⟩ := Option.isSome_iff_exists.mp hsome
  have holt := (hI.sinv.nmLt _ _ hk).2
  have hne : pts o ≠ pts e.ref := by
    intro h
    have := hinj (show o ∈ {p | p < n} from holt) (show e.ref ∈ {p | p < n} from hlt) h
    rw [← this, hk] at hnone
    cases hnone
  have hy : (pts e.ref).2 = (pts o).2 := (hrow _ hlt).trans (hrow _ holt).symm
  have hx : (pts o).1 < (pts e.ref).1 := by
    have h1 := hbef _ hsome
    rw [he] at h1
    have hxne : (pts e.ref).1 ≠ (pts o).1 := fun h => hne (Prod.ext h.symm hy.symm)
    simp only [evLt, siteQE, hy, hxne, and_false, if_false, if_true, decide_eq_false_iff_not, not_lt] at h1
    exact lt_of_le_of_ne h1 (Ne.symm hxne)
  simp [doesIntersect, hy, hx]

theorem rowInv_start (hq : q.Spec evLt ok) : RowInv (startSt pts q n poly) [] := by
  refine ⟨?_, Or.inl ⟨rfl, rfl⟩⟩
  intro e he
  obtain ⟨p, _, rfl⟩ := List.mem_map.mp ((startQueue_spec (pts := pts) hq n).2.mem_iff.mp he)
  rfl

/-- One step without a limit: the new inner node has one ancestor less than sites were handled before. -/
theorem row_facts (hq : q.Spec evLt ok) (hrow : ∀ p < n, (pts p).2 = (pts 0).2) (hinj : Set.InjOn pts {p | p < n})
    {s s' : St K} {e : QE K} {rest : List (QE K)} (h : Reach pts q n poly s) (hp : q.pop s.queue = some (e, rest))
    (hun : handleEvent pts q e { s with queue := rest } = .ok ((), s')) :
    e.circ = false ∧ s'.nextName = s.nextName + 1 ∧ ((s.root = none ∧ s.nextName = 0) ∨
      ∃ t, s.root = some t.id ∧ TOk s.ns t ∧ BOk s.og s.pr s.arcCnt s.bpCnt t.io ∧
        (∀ o ∈ origs s.og t.io, doesIntersect (pts e.ref) (pts o) = false) ∧
        ∀ lim, Short s'.ns.n lim s.ns.cnt ↔ s.nextName ≤ lim) := by
  obtain ⟨L, hI, hJ⟩ := reach_follow (J := RowInv) hq (rowInv_start hq) (rowInv_step hq hrow hinj) h
  have hw := wp_handleEvent (E := (· = .arith)) hI hq hp (Or.inl rfl) (Or.inl rfl)
  obtain ⟨L', hst⟩ := hw.ok hun
  have hperm := hq.pop_perm _ _ _ hI.qinv.ok hp
  have hsite : e.circ = false := hJ.1 e (hperm.mem_iff.mpr (by simp))
  have hno := row_no_intersect hq hrow hinj hI hp hsite
  refine ⟨hsite, ?_⟩
  cases hst with
  | skip h => rw [hsite] at h; cases h
  | circle h => rw [hsite] at h; cases h
  | @first s1 _ _ hf =>
    have hz : s.nextName = 0 := hI.sinv.empty.mp hf.nil
    refine ⟨by rw [show (stepEnd (EvRef.site e.ref) s1).nextName = s1.nextName from rfl, hf.eq]; rfl, Or.inl ⟨?_, hz⟩⟩
    rcases hI.tree.2 with ⟨h, _⟩ | ⟨t, _, _, g3⟩
    · exact h
    · rw [hf.nil] at g3
      cases t <;> simp [T.io] at g3
  | @site s1 _ pre post m a inter _ hpost hn =>
    have hint : inter = false := by
      rw [hn.int]
      refine hno _ ?_
      rw [hn.split]
      simp [origs_append, St.og, siteStart]
    subst hint
    obtain ⟨c, h1, h2, h3, i, d, l, d1, r, d2, h4, h5⟩ := hn.shape rfl
    obtain ⟨log', _, hs1⟩ := hn.eq
    have hnm : s1.nextName = s.nextName + 1 := by rw [hs1]; rfl
    have hpe : post = [] := hpost rfl
    subst hpe
    rcases hJ.2 with ⟨h6, _⟩ | ⟨t, k0, h6, h7, h8, h9⟩
    · have : s.root = some (plug c (.leaf m (.arc a))).id := h1
      rw [h6] at this; cases this
    have hid : t.id = (plug c (.leaf m (.arc a))).id := Option.some.inj (h6.symm.trans h1)
    have ht := repr_unique h7.repr h2.repr hid
    subst ht
    obtain ⟨k', hk', hk⟩ := h8.length h3
    cases hk'
    -- the in-order list of the tree
    have hio : (plug c (.leaf m (.arc a))).io = L := by
      rcases hI.tree.2 with ⟨h, _⟩ | ⟨t', g1, g2, g3⟩
      · rw [h6] at h; cases h
      · rw [repr_unique h7.repr g2.repr (Option.some.inj (h6.symm.trans g1)), g3]
    have hio' : (plug c (.node i d (.leaf l d1) (.leaf r d2))).io = L' := by
      rcases hn.tree.2 with ⟨h, _⟩ | ⟨t', g1, g2, g3⟩
      · rw [h4] at h; cases h
      · rw [repr_unique h5.repr g2.repr (Option.some.inj (h4.symm.trans g1)), g3]
    have hi : i = s.ns.cnt := by
      rw [hn.list, io_plug, h3] at hio'
      simp only [T.io, siteItems, List.append_nil, Bool.false_eq_true, if_false] at hio'
      have := (List.append_inj' hio' (by simp)).2
      simp at this
      exact this.2.1.1
    refine ⟨hnm, Or.inr ⟨_, h6, h7, by rw [hio]; exact hI.beach, by rw [hio]; exact hno, fun lim => ?_⟩⟩
    rw [← hi]
    constructor
    · intro hsh
      have := short_plug (t := .node i d (.leaf l d1) (.leaf r d2)) h5.repr hsh
      omega
    · intro hle
      exact plug_short (t := .node i d (.leaf l d1) (.leaf r d2)) h5.repr (by omega)

/-- One step with the limit: it is a step without one, and the tree is not too deep. -/
theorem row_step (hq : q.Spec evLt ok) (hrow : ∀ p < n, (pts p).2 = (pts 0).2) (hinj : Set.InjOn pts {p | p < n}) {lim : Nat}
    {s s' : St K} {e : QE K} {rest : List (QE K)} (h : Reach pts q n poly s) (hp : q.pop s.queue = some (e, rest))
    (hr : handleEventR lim pts q e { s with queue := rest } = .ok ((), s')) : Reach pts q n poly s' ∧ s'.nextName ≤ lim + 1 := by
  obtain ⟨L, hI⟩ := reach_inv hq h
  have hw := wp_handleEvent (E := (· = .arith)) hI hq hp (Or.inl rfl) (Or.inl rfl)
  have hun : handleEvent pts q e { s with queue := rest } = .ok ((), s') := by
    rcases agree_handleEvent lim pts q e { s with queue := rest } with hA | hA | hA
    · rw [hr] at hA; cases hA
    · have := hw.err hA; cases this
    · rw [← hA, hr]
  refine ⟨h.step hp hun, ?_⟩
  obtain ⟨hsite, hnm, hc⟩ := row_facts hq hrow hinj h hp hun
  rcases hc with ⟨_, h0⟩ | ⟨t, h1, h2, h3, h4, h5⟩
  · omega
  · have hw2 : Wp any (handleEventR lim pts q e) { s with queue := rest } (fun _ s' => Short s'.ns.n lim s.ns.cnt) := by
      unfold handleEventR
      rw [wp_ite]
      refine ⟨fun h => (by rw [hsite] at h; cases h), fun _ => ?_⟩
      simp only [wp_bind, wp_get, wp_set, wp_notify, wp_modify]
      exact part_handleSite (lim := lim) (pts := pts) (q := q) (pi := e.ref) (s := siteStart e rest s) h1 h2 h3 h4
    have := (h5 lim).mp (hw2.ok hr)
    omega

/-- One step without the limit, with few sites: it is the same with the limit. -/
theorem row_step_enough (hq : q.Spec evLt ok) (hrow : ∀ p < n, (pts p).2 = (pts 0).2) (hinj : Set.InjOn pts {p | p < n}) {lim : Nat}
    {s s' : St K} {e : QE K} {rest : List (QE K)} (h : Reach pts q n poly s) (hp : q.pop s.queue = some (e, rest))
    (hle : s.nextName ≤ lim) (hun : handleEvent pts q e { s with queue := rest } = .ok ((), s')) :
    handleEventR lim pts q e { s with queue := rest } = .ok ((), s') := by
  obtain ⟨hsite, hnm, hc⟩ := row_facts hq hrow hinj h hp hun
  have hm : ∀ s1, handleSite pts q e.ref (siteStart e rest s) = .ok ((), s1) → (∀ lim, Short s1.ns.n lim s.ns.cnt ↔ Short s'.ns.n lim s.ns.cnt) →
      handleSiteR lim pts q e.ref (siteStart e rest s) = .ok ((), s1) := by
    intro s1 hs1 hsame
    rcases hc with ⟨h0, _⟩ | ⟨t, h1, h2, h3, h4, h5⟩
    · have hr0 : (siteStart e rest s).root = none := h0
      unfold handleSite at hs1
      unfold handleSiteR
      simp only [okBind] at hs1 ⊢
      obtain ⟨ai, u1, g1, ⟨⟩, u2, g2, u3, u4, g3, g4⟩ := hs1
      refine ⟨ai, u1, g1, (), u2, g2, u3, u4, g3, ?_⟩
      cases g1; cases g2; cases g3
      simp only [hr0] at g4 ⊢
      exact g4
    · exact enough_handleSite (s := siteStart e rest s) h1 h2 h3 h4 hs1 ((hsame lim).mpr ((h5 lim).mpr hle))
  unfold handleEvent at hun
  unfold handleEventR
  rw [if_neg (by simp [hsite])] at hun ⊢
  simp only [okBind] at hun ⊢
  obtain ⟨u1, u2, g1, ⟨⟩, u3, g2, ⟨⟩, u4, g3, ⟨⟩, u5, g4, g5⟩ := hun
  refine ⟨u1, u2, g1, (), u3, g2, (), u4, g3, ?_⟩
  cases g1; cases g2; cases g3
  have hn5 : u5.ns = s'.ns := by
    obtain ⟨⟨⟩, u7, k1, k2⟩ := g5
    cases k1; cases k2; rfl
  exact ⟨(), u5, hm u5 g4 (by rw [hn5]; simp), g5⟩

theorem row_loop (hq : q.Spec evLt ok) (hrow : ∀ p < n, (pts p).2 = (pts 0).2) (hinj : Set.InjOn pts {p | p < n}) {lim : Nat} :
    ∀ {fuel : Nat} {s s' : St K}, Reach pts q n poly s → s.nextName ≤ lim + 1 → sweepLoopR lim pts q fuel s = .ok ((), s') → n ≤ lim + 1 := by
  intro fuel
  induction fuel with
  | zero => intro s s' _ _ h; cases h
  | succ fuel ih =>
    intro s s' hr hs h
    unfold sweepLoopR at h
    simp only [bind, StateT.bind, Except.bind, get, getThe, MonadStateOf.get, StateT.get, pure, Except.pure] at h
    cases hp : q.pop s.queue with
    | none =>
      obtain ⟨L, hI⟩ := reach_inv hq hr
      have := (hI.done ((hq.pop_none _ hI.qinv.ok).mp hp)).1
      omega
    | some er =>
      obtain ⟨e, rest⟩ := er
      rw [hp] at h
      simp only [set, StateT.set, pure, Except.pure, StateT.bind, bind, Except.bind] at h
      cases hh : handleEventR lim pts q e { s with queue := rest } with
      | error x => rw [hh] at h; cases h
      | ok v =>
        obtain ⟨⟨⟩, s1⟩ := v
        rw [hh] at h
        obtain ⟨g1, g2⟩ := row_step hq hrow hinj hr hp hh
        exact ih g1 g2 h

theorem row_loop_enough (hq : q.Spec evLt ok) (hrow : ∀ p < n, (pts p).2 = (pts 0).2) (hinj : Set.InjOn pts {p | p < n}) {lim : Nat} (hlim : n ≤ lim + 1) :
    ∀ {fuel : Nat} {s s' : St K}, Reach pts q n poly s → sweepLoop pts q fuel s = .ok ((), s') → sweepLoopR lim pts q fuel s = .ok ((), s') := by
  intro fuel
  induction fuel with
  | zero => intro s s' _ h; cases h
  | succ fuel ih =>
    intro s s' hr h
    unfold sweepLoop at h
    unfold sweepLoopR
    simp only [okBind] at h ⊢
    obtain ⟨u1, u2, g1, g2⟩ := h
    refine ⟨u1, u2, g1, ?_⟩
    cases g1
    cases hp : q.pop s.queue with
    | none => rw [hp] at g2; exact g2
    | some er =>
      obtain ⟨e, rest⟩ := er
      rw [hp] at g2
      simp only [okBind] at g2 ⊢
      obtain ⟨⟨⟩, u3, g3, ⟨⟩, u4, g4, g5⟩ := g2
      refine ⟨(), u3, g3, (), u4, ?_⟩
      cases g3
      have hreach : Reach pts q n poly u4 := hr.step hp g4
      obtain ⟨L, hI⟩ := reach_inv hq hreach
      obtain ⟨_, hnm, _⟩ := row_facts hq hrow hinj hr hp g4
      have hle : u4.nextName ≤ n := hI.sinv.le
      exact ⟨row_step_enough hq hrow hinj hr hp (by omega) g4, ih hreach g5⟩

/-- C108: a run that is not cut off by the limit is the run without a limit. -/
theorem C108_same (hq : q.Spec evLt ok) {lim fuel : Nat} (hf : 7 * n < fuel) (h : sweepAllR lim pts q n fuel (initSt poly) ≠ .error .fuel) :
    sweepAllR lim pts q n fuel (initSt poly) = sweepAll pts q n fuel (initSt poly) := by
  rcases agree_sweepAll lim pts q n fuel (initSt poly) with h1 | h1 | h1
  · exact absurd h1 h
  · exact absurd h1 (C04_terminates hq hf)
  · exact h1

/-- **C108**: with at most `lim` nested calls, a row of more than `lim + 1` sites is not swept: `RecursionError`, or a signal of the arithmetic before. -/
theorem C108_row (hq : q.Spec evLt ok) (hrow : ∀ p < n, (pts p).2 = (pts 0).2) (hinj : Set.InjOn pts {p | p < n}) {lim fuel : Nat}
    (hlim : lim + 1 < n) (hf : 7 * n < fuel) : ∃ x, sweepAllR lim pts q n fuel (initSt poly) = .error x ∧ (x = .fuel ∨ x = .arith) := by
  cases hr : sweepAllR lim pts q n fuel (initSt poly) with
  | error x =>
    refine ⟨x, rfl, ?_⟩
    by_cases hx : x = .fuel
    · exact Or.inl hx
    · have := C108_same (poly := poly) hq (lim := lim) hf (by rw [hr]; simpa using hx)
      rw [hr] at this
      exact Or.inr (C05_sweep_errors hq hf this.symm)
  | ok v =>
    exfalso
    obtain ⟨⟨⟩, s'⟩ := v
    unfold sweepAllR at hr
    simp only [okBind] at hr
    obtain ⟨⟨⟩, u1, g1, ⟨⟩, u2, g2, _⟩ := hr
    cases g1
    have := row_loop (poly := poly) (lim := lim) hq hrow hinj (.start rfl) (Nat.zero_le _) g2
    omega

/-- C108: a row of at most `lim + 1` sites that is swept without a limit is swept with the limit, with the same result. -/
theorem C108_row_enough (hq : q.Spec evLt ok) (hrow : ∀ p < n, (pts p).2 = (pts 0).2) (hinj : Set.InjOn pts {p | p < n}) {lim fuel : Nat}
    (hlim : n ≤ lim + 1) {s : St K} (h : sweepAll pts q n fuel (initSt poly) = .ok ((), s)) :
    sweepAllR lim pts q n fuel (initSt poly) = .ok ((), s) := by
  unfold sweepAll at h
  unfold sweepAllR
  simp only [okBind] at h ⊢
  obtain ⟨⟨⟩, u1, g1, ⟨⟩, u2, g2, g3⟩ := h
  refine ⟨(), u1, g1, (), u2, ?_, g3⟩
  cases g1
  exact row_loop_enough (poly := poly) hq hrow hinj hlim (.start rfl) g2

/-- C108 with real arithmetic: a horizontal row of different sites is swept exactly if it has at most `lim + 1` of them, and else the exception is
`RecursionError`. -/
theorem C108_real {pts : Nat → ℝ × ℝ} {q : PQ (QE ℝ)} {n : Nat} {poly : Poly ℝ} {ok : List (QE ℝ) → Prop} (hq : q.Spec evLt ok)
    (hrow : ∀ p < n, (pts p).2 = (pts 0).2) (hd : Distinct pts n) {lim fuel : Nat} (hf : 7 * n < fuel) :
    (lim + 1 < n → sweepAllR lim pts q n fuel (initSt poly) = .error .fuel) ∧
    (n ≤ lim + 1 → ∃ s, sweepAllR lim pts q n fuel (initSt poly) = .ok ((), s) ∧ sweepAll pts q n fuel (initSt poly) = .ok ((), s)) := by
  obtain ⟨s, log', h, _⟩ := C23_no_errors (poly := poly) hd hq hf
  constructor
  · intro hlim
    obtain ⟨x, h1, h2⟩ := C108_row (poly := poly) hq hrow hd.injOn hlim hf
    rcases h2 with rfl | rfl
    · exact h1
    · have := C108_same (poly := poly) hq (lim := lim) hf (by rw [h1]; simp)
      rw [h1, h] at this
      cases this
  · intro hlim
    exact ⟨_, C108_row_enough hq hrow hd.injOn hlim h, h⟩

/-- C108 on the rows (0, 0), (1, 0), …: 1001 sites exceed 999 nested calls, 1000 do not. -/
theorem C108_instance {poly : Poly ℝ} : sweepAllR 999 rowPts heapq 1001 8000 (initSt poly) = .error .fuel ∧
    ∃ s, sweepAllR 999 rowPts heapq 1000 8000 (initSt poly) = .ok ((), s) :=
  ⟨(C108_real C45_event_queue (fun _ _ => rfl) (rowPts_distinct _) (by norm_num)).1 (by norm_num),
   let ⟨s, h, _⟩ := (C108_real (lim := 999) C45_event_queue (fun _ _ => rfl) (rowPts_distinct 1000) (by norm_num)).2 (by norm_num)
   ⟨s, h⟩⟩

end Foronoi
