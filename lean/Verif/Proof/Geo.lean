import Verif.Proof.GeoCirc
import Verif.Proof.Bridge

/-!
# The sweep with exact arithmetic: the geometric invariant in every reachable state
-/

namespace Foronoi

open scoped List

variable {pts : Nat → Pt} {q : PQ (QE ℝ)} {ok : List (QE ℝ) → Prop} {n pc : Nat} {poly : Poly ℝ}

theorem GInv.skip {s : St ℝ} {L : List (Item Dat)} {l : ℝ} (hI : Inv pts ok n pc s L) (hG : GInv pts s L l) (hq : q.Spec evLt ok)
    {e : QE ℝ} {rest : List (QE ℝ)} (hp : q.pop s.queue = some (e, rest)) (hv : (s.evs e.ref).valid = false) :
    GInv pts { s with queue := rest } L l := by
  have hperm := hq.pop_perm _ _ _ hI.qinv.ok hp
  refine ⟨hG.sw, fun f hf => hG.qle f (hperm.mem_iff.mpr (by simp [show f ∈ rest from hf])), hG.env, ?_, hG.vtx⟩
  intro P m a R t hL ht hd
  obtain ⟨f, hf, hfc, hfv, hfa⟩ := hG.nc P m a R t hL ht hd
  refine ⟨f, ?_, hfc, hfv, hfa⟩
  rcases List.mem_cons.mp (hperm.mem_iff.mp hf) with rfl | h
  · rw [hv] at hfv; cases hfv
  · exact h

/-- Before the first event, or with the geometric invariant. -/
def JInv (pts : Nat → Pt) (s : St ℝ) (L : List (Item Dat)) : Prop :=
  (s.nextName = 0 ∧ ∀ e ∈ s.queue, e.circ = false) ∨ ∃ l, GInv pts s L l

/-- One event: the sweep line does not move up. -/
theorem GInv.step (hinj : Set.InjOn pts {p | p < n}) (hq : q.Spec evLt ok) {s s' : St ℝ} {L L' : List (Item Dat)} {l : ℝ} {e : QE ℝ}
    {rest : List (QE ℝ)} (hI : Inv pts ok n pc s L) (hG : GInv pts s L l) (hp : q.pop s.queue = some (e, rest))
    (hst : EvStep pts q e rest s L s' L') (hI' : Inv pts ok n pc s' L') : ∃ l' ≤ l, GInv pts s' L' l' := by
  have hle := (hG.next hI hq hp).1
  cases hst with
  | skip hc hv => exact ⟨l, le_rfl, hG.skip hI hq hp hv⟩
  | first hc hf => exact ⟨e.yd, hle, GInv.first hI hq hp hc hf⟩
  | site hc hpost hn => exact ⟨e.yd, hle, hG.site hinj hI hq hp hc hpost hn hI'⟩
  | circle hc hv hcev hmk hpre hn => exact ⟨e.yd, hle, hG.circle hI hq hp hc hv hcev hmk hpre hn hI'⟩

theorem JInv.step (hinj : Set.InjOn pts {p | p < n}) (hq : q.Spec evLt ok) {s s' : St ℝ} {L L' : List (Item Dat)} {e : QE ℝ}
    {rest : List (QE ℝ)} (hI : Inv pts ok n pc s L) (hJ : JInv pts s L) (hp : q.pop s.queue = some (e, rest))
    (hst : EvStep pts q e rest s L s' L') (hI' : Inv pts ok n pc s' L') : JInv pts s' L' := by
  rcases hJ with ⟨h0, hnc⟩ | ⟨l, hG⟩
  · have hperm := hq.pop_perm _ _ _ hI.qinv.ok hp
    have hc' := hnc e (hperm.mem_iff.mpr (by simp))
    cases hst with
    | skip hc hv => rw [hc'] at hc; cases hc
    | first hc hf => exact Or.inr ⟨e.yd, GInv.first hI hq hp hc hf⟩
    | site hc hpost hn =>
      have := hI.sinv.empty.mpr h0
      have h1 := hn.split
      rw [this] at h1; simp at h1
    | circle hc => rw [hc'] at hc; cases hc
  · obtain ⟨l', _, h⟩ := hG.step hinj hq hI hp hst hI'
    exact Or.inr ⟨l', h⟩

theorem JInv.start (hq : q.Spec evLt ok) : JInv pts (startSt pts q n poly) [] := by
  refine Or.inl ⟨rfl, ?_⟩
  intro e he
  obtain ⟨_, h2⟩ := startQueue_spec (pts := pts) hq n
  obtain ⟨p, _, rfl⟩ := List.mem_map.mp (h2.mem_iff.mp he)
  rfl

/-- The keys of the searches exist. -/
theorem JInv.keys (hq : q.Spec evLt ok) {s : St ℝ} {L : List (Item Dat)} {e : QE ℝ} {rest : List (QE ℝ)} (hI : Inv pts ok n pc s L)
    (hJ : JInv pts s L) (hp : q.pop s.queue = some (e, rest)) : ∀ x ∈ L, (keyOf pts s.bps s.arcs e.yd x.d).isSome := by
  intro x hx
  rcases hJ with ⟨h0, _⟩ | ⟨l, hG⟩
  · rw [hI.sinv.empty.mpr h0] at hx; cases hx
  have hlow : ∀ i ∈ origs s.og L, e.yd ≤ (pts i).2 := by
    intro i hi
    have hm : pts i ∈ apts pts s L := List.mem_map.mpr ⟨i, hi, rfl⟩
    rcases (hG.next hI hq hp).2 with hE | ⟨hel, hT⟩
    · exact hE.low _ (hE.mem hm)
    · rw [hel, hT.row _ ((hT.mem _).mp hm)]
  rcases hI.beach.kind x hx with ⟨a, _, ha, _⟩ | ⟨b, hf, hb, _⟩
  · rw [ha]; rfl
  · obtain ⟨P, R, hL⟩ := List.append_of_mem hx
    have hxx : x = ⟨x.id, false, .bp b⟩ := by
      cases x; simp only at hf hb; subst hf; subst hb; rfl
    rw [hxx] at hL
    obtain ⟨P', n1, a1, n2, a2, R', e1, e2, e3⟩ := (hL ▸ hI.beach).bp_cases
    rw [hb]
    have e4 : (s.bps b).pair = (s.og a1, s.og a2) := e3
    simp only [keyOf, e4]
    have := getIntersection_isSome (hlow (s.og a1) (by rw [hL, e1]; simp)) (hlow (s.og a2) (by rw [hL, e2]; simp)) none
    rw [this]; rfl

theorem JInv.follows (hinj : Set.InjOn pts {p | p < n}) (hq : q.Spec evLt ok) :
    Follows (fun _ => False) pts q ok n pc (JInv pts) :=
  ⟨fun _ _ _ _ hI hJ hp => Or.inr fun _ => hJ.keys hq hI hp, Or.inr fun _ _ _ => createCircle_isSome _ _ _,
    fun _ _ _ _ _ _ hI hJ hp hst hI' => hJ.step hinj hq hI hp hst hI'⟩

theorem reach_geo (hinj : Set.InjOn pts {p | p < n}) (hq : q.Spec evLt ok) {s : St ℝ} (h : Reach pts q n poly s) :
    ∃ L, Inv pts ok n poly.points.length s L ∧ JInv pts s L :=
  reach_follow hq (JInv.start hq) (fun _ _ _ _ _ _ hI hJ hp hst hI' => hJ.step hinj hq hI hp hst hI') h

/-- Sites not met yet are not above the sweep line. -/
theorem GInv.below {s : St ℝ} {L : List (Item Dat)} {l : ℝ} (hI : Inv pts ok n pc s L) (hG : GInv pts s L l) {p : Nat} (hp : p < n)
    (hn : s.names p = none) : (pts p).2 ≤ l := by
  obtain ⟨e, he, hc, hr⟩ := hI.sinv.all p hp hn
  have := hG.qle e he
  obtain ⟨h1, _⟩ := hI.sinv.qe e he hc
  rw [h1, hr] at this
  exact this

/-- Sites on the beach line's side are not below the sweep line. -/
theorem GInv.above {s : St ℝ} {L : List (Item Dat)} {l : ℝ} (hG : GInv pts s L l) {p : Nat} (hn : (s.names p).isSome) : l ≤ (pts p).2 := by
  rcases hG.env with hT | hE
  · exact (hT.row _ ⟨p, hn, rfl⟩).ge
  · exact hE.low _ ⟨p, hn, rfl⟩

/-- At a vertex, the site of every half-edge starting there is a nearest site. -/
theorem GInv.nearest {s : St ℝ} {L : List (Item Dat)} {l : ℝ} (hI : Inv pts ok n pc s L) (hG : GInv pts s L l) {e v p : Nat} {z : Pt}
    (he : e < s.d.heCnt) (ho : (s.d.he e).origin = .vtx v) (hi : (s.d.he e).incident = some p) (hz : (s.d.vs v).pos = some z) :
    ∀ c < n, dsq (pts p) z ≤ dsq (pts c) z := by
  intro c hc
  obtain ⟨m, h1, h2, h3, h4⟩ := hG.vtx e he v p z ho hi hz
  have key : 0 ≤ pw (pts c) m z := by
    cases hn : s.names c with
    | none => exact pw_below ((hG.below hI hc hn).trans h1) h2
    | some k => exact h4 _ ⟨c, by rw [hn]; rfl, rfl⟩
  unfold pw at key
  linarith

end Foronoi
