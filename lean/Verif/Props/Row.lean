import Verif.Props.Sweep
import Verif.Props.Voronoi
import Mathlib.Data.Nat.Log
import Verif.Proof.Bridge
import Verif.Spec.Tree

/-!
# Sites in a horizontal row (C44, C68)

A site level with all earlier ones is appended at the right end of the beach line, and `handle_site_event` rebalances only if the new arc
splits the arc above (algorithm.py:327-336).  So for a row of sites the status tree degenerates to a path.
-/

namespace Foronoi

open scoped List

/-- Going to the right `k` times from node `i` leads to a leaf, and all left children on the way are leaves. -/
inductive Comb {D : Type} (n : Nat → NodeR D) : Nat → Nat → Prop where
  | leaf {i} : (n i).left = none → (n i).right = none → Comb n i 0
  | node {i l r k} : (n i).left = some l → (n i).right = some r → (n l).left = none → (n l).right = none → Comb n r k →
      Comb n i (k + 1)

/-- `k` inner nodes, each with a leaf on the left. -/
inductive RP {D : Type} : T D → Nat → Prop where
  | leaf {i d} : RP (.leaf i d) 0
  | node {i d j e r k} : RP r k → RP (.node i d (.leaf j e) r) (k + 1)

theorem RP.path {D : Type} {n : Nat → NodeR D} {t : T D} {k : Nat} (h : RP t k) : ∀ {p : Option Nat}, Repr n p t → Comb n t.id k := by
  induction h with
  | leaf => intro p hr; exact .leaf hr.2.1 hr.2.2.1
  | node _ ih =>
    intro p hr
    obtain ⟨_, h2, h3, _, h5, h6⟩ := hr
    exact .node h2 h3 h5.2.1 h5.2.2.1 (ih h6)

theorem repr_unique {D : Type} {n : Nat → NodeR D} {t : T D} : ∀ {t' : T D} {p p' : Option Nat}, Repr n p t → Repr n p' t' → t.id = t'.id →
    t = t' := by
  induction t with
  | leaf i d =>
    intro t' p p' h h' hid
    cases t' with
    | leaf i' d' =>
      simp only [T.id] at hid
      subst hid
      rw [← h.1, ← h'.1]
    | node i' d' l' r' =>
      simp only [T.id] at hid
      subst hid
      have h1 := h.2.1
      rw [h'.2.1] at h1; cases h1
  | node i d l r ihl ihr =>
    intro t' p p' h h' hid
    cases t' with
    | leaf i' d' =>
      simp only [T.id] at hid
      subst hid
      have h1 := h'.2.1
      rw [h.2.1] at h1; cases h1
    | node i' d' l' r' =>
      simp only [T.id] at hid
      subst hid
      obtain ⟨a1, a2, a3, _, a5, a6⟩ := h
      obtain ⟨b1, b2, b3, _, b5, b6⟩ := h'
      rw [a2, Option.some.injEq] at b2
      rw [a3, Option.some.injEq] at b3
      rw [ihl a5 b5 b2, ihr a6 b6 b3, ← a1, ← b1]

theorem RP.plug {D : Type} {c : Ctx D} : ∀ {t : T D} {k : Nat}, RP (plug c t) k → ioR c = [] →
    ∃ k' ≤ k, RP t k' ∧ ∀ {u : T D} {m : Nat}, RP u m → RP (Foronoi.plug c u) (k - k' + m) := by
  induction c with
  | nil => intro t k h _; exact ⟨k, le_rfl, h, fun hu => by simpa [Foronoi.plug] using hu⟩
  | cons f c ih =>
    intro t k h hc
    cases f with
    | L i d r => simp [ioR] at hc
    | R i d l =>
      obtain ⟨k', h1, h2, h3⟩ := ih (t := .node i d l t) h hc
      cases h2 with
      | @node _ _ j e _ k2 h4 =>
        refine ⟨k2, by omega, h4, ?_⟩
        intro u m hu
        have := h3 (RP.node (i := i) (d := d) (j := j) (e := e) hu)
        have e1 : k - (k2 + 1) + (m + 1) = k - k2 + m := by omega
        rw [e1] at this
        exact this

variable {K : Type} [LinearOrder K] [Arith K] [ArithLaws K]
variable {pts : Nat → K × K} {q : PQ (QE K)} {n : Nat} {poly : Poly K} {ok : List (QE K) → Prop} [MidLt pts n]

/-- The shape of the status tree while a row is swept. -/
def RowInv (s : St K) (_ : List (Item Dat)) : Prop :=
  (∀ e ∈ s.queue, e.circ = false) ∧ ((s.root = none ∧ s.nextName = 0) ∨
    ∃ (t : T Dat) (k : Nat), s.root = some t.id ∧ TOk s.ns t ∧ RP t k ∧ s.nextName = k + 1)

theorem rowInv_step (hq : q.Spec evLt ok) (hrow : ∀ p < n, (pts p).2 = (pts 0).2) (hinj : Set.InjOn pts {p | p < n})
    (s : St K) (L : List (Item Dat)) (e : QE K) (rest : List (QE K)) (s' : St K) (L' : List (Item Dat))
    (hI : Inv pts ok n poly.points.length s L) (hJ : RowInv s L) (hp : q.pop s.queue = some (e, rest))
    (hst : EvStep pts q e rest s L s' L') (_ : Inv pts ok n poly.points.length s' L') : RowInv s' L' := by
  have hperm := hq.pop_perm _ _ _ hI.qinv.ok hp
  have hsite : e.circ = false := hJ.1 e (hperm.mem_iff.mpr (by simp))
  have hrest : ∀ x ∈ rest, x.circ = false := fun x hx => hJ.1 x (hperm.mem_iff.mpr (by simp [hx]))
  cases hst with
  | skip h => rw [hsite] at h; cases h
  | circle h => rw [hsite] at h; cases h
  | @first s1 _ _ hf =>
    have hz : s.nextName = 0 := hI.sinv.empty.mp hf.nil
    have hs1 := hf.eq
    have hqu : s1.queue = rest := by rw [hs1]; rfl
    have hnm : s1.nextName = 1 := by rw [hs1]; simp [siteStart, hz]
    refine ⟨by simpa [stepEnd, hqu] using hrest, Or.inr ?_⟩
    rcases hf.tree.2 with ⟨_, h⟩ | ⟨t, h1, h2, h3⟩
    · rw [hf.list] at h; cases h
    · rw [hf.list] at h3
      cases t with
      | leaf i d => exact ⟨_, 0, h1, h2, .leaf, hnm⟩
      | node i d l r =>
        exfalso
        have := congrArg List.length h3
        obtain ⟨l', hl⟩ := l.io_last
        obtain ⟨r', hr⟩ := r.io_head
        simp [T.io, hl, hr] at this
        omega
  | @site s1 _ pre post m a inter _ hpost hn =>
    obtain ⟨he, hlt, hnone, hbef⟩ := pop_site hI hq hp hsite
    have hmem : (s.arcs a).origin ∈ origs s.og L := by
      rw [hn.split]
      simp [origs_append, St.og]
    have hsome := hI.sinv.used _ hmem
    obtain ⟨k, hk⟩ := Option.isSome_iff_exists.mp hsome
    have holt := (hI.sinv.nmLt _ _ hk).2
    have hne : pts (s.arcs a).origin ≠ pts e.ref := by
      intro h
      have := hinj (show (s.arcs a).origin ∈ {p | p < n} from holt) (show e.ref ∈ {p | p < n} from hlt) h
      rw [← this, hk] at hnone
      cases hnone
    have hy : (pts e.ref).2 = (pts (s.arcs a).origin).2 := (hrow _ hlt).trans (hrow _ holt).symm
    have hx : (pts (s.arcs a).origin).1 < (pts e.ref).1 := by
      have h1 := hbef _ hsome
      rw [he] at h1
      have hxne : (pts e.ref).1 ≠ (pts (s.arcs a).origin).1 := fun h => hne (Prod.ext h.symm hy.symm)
      simp only [evLt, siteQE, hy, hxne, and_false, if_false, if_true, decide_eq_false_iff_not, not_lt] at h1
      exact lt_of_le_of_ne h1 (Ne.symm hxne)
    have hint : inter = false := by
      rw [hn.int]
      simp only [siteStart, doesIntersect]
      simp [hy, hx]
    subst hint
    obtain ⟨c, h1, h2, h3, i, d, l, d1, r, d2, h4, h5⟩ := hn.shape rfl
    obtain ⟨log', _, hs1⟩ := hn.eq
    have hqu : s1.queue = rest := by rw [hs1]; rfl
    have hnm : s1.nextName = s.nextName + 1 := by rw [hs1]; rfl
    refine ⟨by simpa [stepEnd, hqu] using hrest, Or.inr ?_⟩
    rcases hJ.2 with ⟨h6, _⟩ | ⟨t, k0, h6, h7, h8, h9⟩
    · have : s.root = some (plug c (.leaf m (.arc a))).id := h1
      rw [h6] at this; cases this
    · have hid : t.id = (plug c (.leaf m (.arc a))).id := Option.some.inj (h6.symm.trans h1)
      have ht := repr_unique h7.repr h2.repr hid
      subst ht
      obtain ⟨k', hk', hl, hg⟩ := h8.plug (h3.trans (hpost rfl))
      cases hl
      have := hg (RP.node (i := i) (d := d) (j := l) (e := d1) (RP.leaf (i := r) (d := d2)))
      exact ⟨_, k0 + 1, h4, h5, by simpa using this, by simp [stepEnd, hnm, h9]⟩

/-- C68: while a row of sites is swept, the status tree is a path: when `k + 1` sites are handled, going to the right `k` times from the
root leads to the last arc, and each left child on the way is a leaf.  In particular no circle event is ever queued. -/
theorem C68_row_path (hq : q.Spec evLt ok) (hrow : ∀ p < n, (pts p).2 = (pts 0).2) (hinj : Set.InjOn pts {p | p < n})
    {s : St K} (h : Reach pts q n poly s) {k : Nat} (hk : s.nextName = k + 1) :
    (∃ i, s.root = some i ∧ Comb s.ns.n i k) ∧ ∀ e ∈ s.queue, e.circ = false := by
  have h0 : RowInv (startSt pts q n poly) [] := by
    refine ⟨?_, Or.inl ⟨rfl, rfl⟩⟩
    intro e he
    obtain ⟨p, _, rfl⟩ := List.mem_map.mp ((startQueue_spec (pts := pts) hq n).2.mem_iff.mp he)
    rfl
  obtain ⟨L, hI, hJ⟩ := reach_follow (J := RowInv) hq h0 (rowInv_step hq hrow hinj) h
  rcases hJ.2 with ⟨_, h⟩ | ⟨t, k', h1, h2, h3, h4⟩
  · omega
  · have : k' = k := by omega
    subst this
    exact ⟨⟨_, h1, h3.path h2.repr⟩, hJ.1⟩

/-- `j` is reached from `i` by `k` steps to a child. -/
inductive Descends {D : Type} (n : Nat → NodeR D) : Nat → Nat → Nat → Prop where
  | refl {i} : Descends n i i 0
  | left {i l j k} : (n i).left = some l → Descends n l j k → Descends n i j (k + 1)
  | right {i r j k} : (n i).right = some r → Descends n r j k → Descends n i j (k + 1)

theorem Comb.descends {D : Type} {n : Nat → NodeR D} {i k : Nat} (h : Comb n i k) : ∃ j, Descends n i j k := by
  induction h with
  | leaf => exact ⟨_, .refl⟩
  | node _ h2 _ _ _ ih => obtain ⟨j, hj⟩ := ih; exact ⟨j, .right h2 hj⟩

/-- The sites `(0, 0), (1, 0), (2, 0), …`. -/
def rowPts : Nat → ℝ × ℝ := fun i => (i, 0)

theorem rowPts_distinct (n : Nat) : Distinct rowPts n := by
  intro p _ r _ h
  simpa [rowPts] using h

/-- C68: for each `n` there is such a row, it is swept without an exception, and at the end the status tree of its `n` arcs has depth
`n - 1`. -/
theorem C68_row_instance {q : PQ (QE ℝ)} {ok : List (QE ℝ) → Prop} {poly : Poly ℝ} (hq : q.Spec evLt ok) (n : Nat) {fuel : Nat}
    (hf : 7 * (n + 1) < fuel) : ∃ s, sweepAll rowPts q (n + 1) fuel (initSt poly) = .ok ((), s) ∧
      ∃ i, s.root = some i ∧ Comb s.ns.n i n := by
  obtain ⟨s, log', h1, h2, h3⟩ := C23_no_errors (poly := poly) (rowPts_distinct (n + 1)) hq hf
  obtain ⟨L, hI⟩ := reach_inv hq h2
  exact ⟨_, h1, (C68_row_path hq (fun _ _ => rfl) (rowPts_distinct (n + 1)).injOn h2 (hI.done h3).1).1⟩

/-- C44 is false: no multiple of the logarithm of the number of sites bounds the depth of the status tree. -/
theorem C44_not_logarithmic_partial {q : PQ (QE ℝ)} {ok : List (QE ℝ) → Prop} {poly : Poly ℝ} (hq : q.Spec evLt ok) (C : Nat) :
    ∃ (n : Nat) (pts : Nat → ℝ × ℝ) (fuel : Nat) (s : St ℝ), Distinct pts n ∧ sweepAll pts q n fuel (initSt poly) = .ok ((), s) ∧
      ∃ i j k, s.root = some i ∧ Descends s.ns.n i j k ∧ C * (Nat.log 2 n + 1) < k := by
  have hpow : (2 * C + 3) * (2 * C + 3) ≤ 2 ^ (2 * (2 * C + 2)) := by
    have h : 2 * C + 3 ≤ 2 ^ (2 * C + 2) := Nat.lt_two_pow_self
    calc (2 * C + 3) * (2 * C + 3) ≤ 2 ^ (2 * C + 2) * 2 ^ (2 * C + 2) := Nat.mul_le_mul h h
      _ = 2 ^ (2 * (2 * C + 2)) := by rw [← pow_add]; congr 1; omega
  obtain ⟨m, hm⟩ : ∃ m, 2 ^ (2 * (2 * C + 2)) = m + 1 := Nat.exists_eq_succ_of_ne_zero (by positivity)
  obtain ⟨s, h1, i, h2, h3⟩ := C68_row_instance (poly := poly) hq m (Nat.lt_succ_self _)
  obtain ⟨j, hj⟩ := h3.descends
  refine ⟨m + 1, rowPts, _, s, rowPts_distinct _, h1, i, j, m, h2, hj, ?_⟩
  rw [← hm, Nat.log_pow (by norm_num)]
  rw [hm] at hpow
  nlinarith

end Foronoi
