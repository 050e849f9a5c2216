import Verif.Proof.DcelCirc

/-!
# The invariant of the sweep and its preservation
-/

namespace Foronoi

open scoped List

variable {K : Type} [LinearOrder K] [Arith K] {E : Err → Prop}
variable {pts : Nat → K × K} {q : PQ (QE K)} {ok : List (QE K) → Prop} {n pc : Nat}

/-- The site events: names, order and what is still queued. -/
structure SInv (pts : Nat → K × K) (n : Nat) (s : St K) (L : List (Item Dat)) : Prop where
  qe : ∀ e ∈ s.queue, e.circ = false → e = siteQE pts e.ref ∧ e.ref < n ∧ s.names e.ref = none
  nmLt : ∀ p k, s.names p = some k → k < s.nextName ∧ p < n
  nmInj : ∀ p p' k, s.names p = some k → s.names p' = some k → p = p'
  nmSurj : ∀ k < s.nextName, ∃ p, s.names p = some k
  ord : ∀ p p' i j, s.names p = some i → s.names p' = some j → i < j → evLt (siteQE pts p') (siteQE pts p) = false
  pend : ∀ p, (s.names p).isSome → ∀ e ∈ s.queue, e.circ = false → evLt e (siteQE pts p) = false
  all : ∀ p < n, s.names p = none → ∃ e ∈ s.queue, e.circ = false ∧ e.ref = p
  used : ∀ p ∈ origs s.og L, (s.names p).isSome
  empty : L = [] ↔ s.nextName = 0

/-- Counts: arcs, vertices, edges and names. -/
structure CInv (s : St K) (L : List (Item Dat)) : Prop where
  arcs : (origs s.og L).length + s.verts.length + 1 ≤ 2 * s.nextName ∨ s.nextName = 0
  edges : s.edges.length + 1 = s.nextName + s.verts.length ∨ (s.nextName = 0 ∧ s.edges = [] ∧ s.verts = [])
  two : 2 ≤ s.nextName → 2 ≤ (origs s.og L).length

/-- The invariant between two events; `L` is the beach line. -/
structure Inv (pts : Nat → K × K) (ok : List (QE K) → Prop) (n pc : Nat) (s : St K) (L : List (Item Dat)) : Prop where
  tree : TreeOk s.ns s.root L
  beach : BOk s.og s.pr s.arcCnt s.bpCnt L
  qinv : QInv pts ok s L
  sinv : SInv pts n s L
  dinv : s.DInv pts pc L
  cinv : CInv s L

/-- The state in which a site event is handled. -/
def siteStart (e : QE K) (rest : List (QE K)) (s : St K) : St K :=
  { s with
    queue := rest
    names := Function.update s.names e.ref (some s.nextName)
    nextName := s.nextName + 1
    sweep := some e.yd
    log := s.log ++ [.debug] }

/-- The state in which a circle event is handled. -/
def circStart (e : QE K) (rest : List (QE K)) (s : St K) : St K :=
  { s with queue := rest, sweep := some e.yd, log := s.log ++ [.debug] }

/-- After an event was handled. -/
def stepEnd (r : EvRef) (s : St K) : St K := { s with event := some r, log := s.log ++ [.stepFinished] }

/-- One iteration of the main loop, for the event `e` popped from the queue with `rest` remaining. -/
inductive EvStep (pts : Nat → K × K) (q : PQ (QE K)) (e : QE K) (rest : List (QE K)) (s : St K) (L : List (Item Dat)) :
    St K → List (Item Dat) → Prop where
  | skip : e.circ = true → (s.evs e.ref).valid = false → EvStep pts q e rest s L { s with queue := rest } L
  | first {s1 L'} : e.circ = false → SiteFirst e.ref (siteStart e rest s) L s1 L' →
      EvStep pts q e rest s L (stepEnd (.site e.ref) s1) L'
  | site {s1 L' pre post m a inter} : e.circ = false → (inter = false → post = []) →
      SiteNext pts q e.ref (siteStart e rest s) L s1 L' pre post m a inter →
      EvStep pts q e rest s L (stepEnd (.site e.ref) s1) L'
  | circle {s1 L' P m u le ri tl tr ue re} : e.circ = true → (s.evs e.ref).valid = true →
      (s.arcs P.a).cev = some e.ref →
      mkEv pts P.n ((s.arcs P.a1).origin, (s.arcs P.a).origin, (s.arcs P.a3).origin) = some (s.evs e.ref) →
      CircPre s P le ri tl tr →
      CircNext pts q e.ref (circStart e rest s) L s1 L' P m u le ri tl tr ue re →
      EvStep pts q e rest s L (stepEnd (.circle e.ref) s1) L'

/-! ### the triple of a circle event has three different sites -/

variable [ArithLaws K]

theorem circleG_same (a b : K × K) : circleG a b a = lit 0 := by
  unfold circleG
  have h1 : Arith.mul (Arith.sub b.1 a.1) (Arith.sub a.2 b.2) = Arith.mul (Arith.sub b.2 a.2) (Arith.sub a.1 b.1) := by
    rw [ArithLaws.mul_comm, ArithLaws.sub_mul]
  rw [h1, ArithLaws.sub_self, ArithLaws.two_mul_zero]

theorem mkEv_ne {m : Nat} {p x r : Nat} {ev : CevR K} (h : mkEv pts m (p, x, r) = some ev) : p ≠ r := by
  rintro rfl
  unfold mkEv at h
  simp only [createCircle, circleG_same, if_true] at h
  cases h

/-! ### where a non-intersecting site is inserted -/

omit [Arith K] [ArithLaws K] in
/-- The entry right of the leaf found by the search has a key at least `x`. -/
theorem lookup_right {D : Type} {key : D → Option K} {x : K} {t : T D} {y : Item D} (h : t.lookup key x = some y) :
    ∃ pre post, t.io = pre ++ y :: post ∧ ∀ b rest, post = b :: rest → ∃ k, key b.d = some k ∧ x ≤ k := by
  induction t with
  | leaf i d =>
    simp only [T.lookup, Option.some.injEq] at h; subst h
    exact ⟨[], [], by simp [T.io]⟩
  | node i d l r ihl ihr =>
    simp only [T.lookup, Option.bind_eq_bind, Option.bind_eq_some_iff] at h
    obtain ⟨k, hk, h⟩ := h
    split at h
    · rename_i hxk
      simp only [Option.some.injEq] at h; subst h
      obtain ⟨l', hl'⟩ := l.io_last
      refine ⟨l', ⟨i, false, d⟩ :: r.io, by simp [T.io, hl'], ?_⟩
      rintro b rest hb
      simp only [List.cons.injEq] at hb
      rw [← hb.1]
      exact ⟨k, hk, hxk.le⟩
    · split at h
      · rename_i hxk
        obtain ⟨pre, post, h1, h2⟩ := ihl h
        refine ⟨pre, post ++ ⟨i, false, d⟩ :: r.io, by simp [T.io, h1], ?_⟩
        intro b rest hb
        cases post with
        | nil =>
          simp only [List.nil_append, List.cons.injEq] at hb
          rw [← hb.1]; exact ⟨k, hk, hxk.le⟩
        | cons z post =>
          simp only [List.cons_append, List.cons.injEq] at hb
          rw [← hb.1]; exact h2 z post rfl
      · obtain ⟨pre, post, h1, h2⟩ := ihr h
        exact ⟨l.io ++ ⟨i, false, d⟩ :: pre, post, by simp [T.io, h1], h2⟩

variable [MidLt pts n]

/-- A site level with the arc above it, right of its site, is inserted at the right end. -/
theorem SiteNext.last {pi : Nat} {s s' : St K} {L L' pre post : List (Item Dat)} {m a : Nat} {inter : Bool}
    (hs : SiteNext pts q pi s L s' L' pre post m a inter) (ht : TreeOk s.ns s.root L) (hb : BOk s.og s.pr s.arcCnt s.bpCnt L)
    (hsw : s.sweep = some (pts pi).2)
    (hord : ∀ p ∈ origs s.og L, evLt (siteQE pts pi) (siteQE pts p) = false) (hpi : pi < n) (hlt : ∀ p ∈ origs s.og L, p < n) : inter = false → post = [] := by
  intro hint
  have hI := hs.int
  rw [hint] at hI
  have hI' : (pts pi).2 = (pts (s.arcs a).origin).2 ∧ (pts (s.arcs a).origin).1 < (pts pi).1 := by
    simpa [doesIntersect] using hI.symm
  obtain ⟨t, hio, l, hl, hlook⟩ := hs.found
  rw [hsw] at hl; cases hl
  obtain ⟨pre', post', h1, h2⟩ := lookup_right hlook
  have hnd := hb.nd
  have hsplit := hs.split
  -- the two splits agree
  have hpp : post' = post := by
    rw [hio, hsplit] at h1
    rw [hsplit] at hnd
    rw [List.append_eq_append_iff] at h1
    rcases h1 with ⟨M, h3, h4⟩ | ⟨M, h3, h4⟩
    · cases M with
      | nil => simpa using h4.symm
      | cons z M =>
        simp only [List.cons_append, List.cons.injEq] at h4
        exfalso
        rw [h4.2] at hnd
        simp only [List.map_append, List.map_cons, List.nodup_append, List.nodup_cons, List.mem_append, List.mem_cons] at hnd
        exact hnd.2.1.1 (Or.inr (Or.inl trivial))
    · cases M with
      | nil => simpa using h4
      | cons z M =>
        simp only [List.cons_append, List.cons.injEq] at h4
        exfalso
        rw [h3] at hnd
        simp only [List.map_append, List.map_cons, List.nodup_append, List.nodup_cons, List.mem_append, List.mem_cons] at hnd
        refine hnd.2.2 (.arc a) (Or.inr (Or.inl ?_)) (.arc a) (Or.inl rfl) rfl
        rw [← h4.1]
  rcases (hsplit ▸ hb).post_cases with hp | ⟨mb, b, n', a', post2, hp, hpair⟩
  · exact hp
  · exfalso
    obtain ⟨k, hk, hle⟩ := h2 _ _ (hpp.trans hp)
    simp only [keyOf] at hk
    have hpair' : (s.bps b).pair = ((s.arcs a).origin, (s.arcs a').origin) := hpair
    rw [hpair'] at hk
    have hmem : (s.arcs a').origin ∈ origs s.og L := by
      rw [hsplit, hp]; simp
    have ho := hord _ hmem
    simp only [Option.map_eq_some_iff] at hk
    obtain ⟨⟨kx, ky⟩, hk, rfl⟩ := hk
    simp only at hle
    unfold getIntersection at hk
    simp only [Option.bind_eq_bind] at hk
    split at hk
    · rename_i hby
      -- both at the height of the new site
      have hx : (pts (s.arcs a').origin).1 ≤ (pts pi).1 := by
        unfold evLt siteQE at ho
        simp only [Bool.not_false, Bool.and_true] at ho
        have hyy : (pts pi).2 = (pts (s.arcs a').origin).2 := hI'.1.trans hby
        by_cases hxx : (pts pi).1 = (pts (s.arcs a').origin).1
        · exact hxx.ge
        · simpa [hyy, hxx] using ho
      simp only [Option.bind_eq_some_iff] at hk
      obtain ⟨xm, hxm, hk⟩ := hk
      have hlt := MidLt.mid_lt _ (hlt _ (by rw [hsplit]; simp)) _ (hlt _ hmem) _ hpi _ hI'.2 hx hxm
      split at hk
      · simp only [Option.some.injEq, Prod.mk.injEq] at hk
        exact absurd hle (not_le_of_gt (hk.1 ▸ hlt))
      · simp only [Option.bind_eq_some_iff, Option.some.injEq, Prod.mk.injEq] at hk
        obtain ⟨_, _, hk, _⟩ := hk
        exact absurd hle (not_le_of_gt (hk ▸ hlt))
    · rw [if_pos hI'.1.symm] at hk
      simp only [Option.bind_eq_some_iff, Option.some.injEq, Prod.mk.injEq] at hk
      obtain ⟨_, _, hk, _⟩ := hk
      exact absurd hle (not_le_of_gt (hk ▸ hI'.2))

end Foronoi
