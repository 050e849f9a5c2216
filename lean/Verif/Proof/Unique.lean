import Verif.Proof.CompleteRun

/-!
# No edge is found twice

Two different edges between the cells of the same two sites, traced by breakpoints with the same sites on the same sides, lie one behind
the other on the bisector.
-/

namespace Foronoi

open scoped List

/-! ### the invariant -/

variable {pts : Nat → Pt} {q : PQ (QE ℝ)} {ok : List (QE ℝ) → Prop} {n pc : Nat} {poly : Poly ℝ}

/-- The origin of the half-edge is a vertex, or a breakpoint that comes into being below the topmost row. -/
def Moves (pts : Nat → Pt) (d : Dcel ℝ) (bps : Nat → BpR) (f : Nat) : Prop :=
  ∀ b, (d.he f).origin = .bp b → ¬ ((pts (bps b).pair.1).2 = (pts (bps b).pair.2).2 ∧ (pts (bps b).pair.2).1 < (pts (bps b).pair.1).1)

/-- The half-edge `f'` (with twin `t'`) starts at a vertex, and the origin of `f` is behind it: `f` is a piece of the bisector behind
that of `f'`, whose twin starts at a vertex. -/
def Behind (pts : Nat → Pt) (d : Dcel ℝ) (bps : Nat → BpR) (l : ℝ) (f t' i j : Nat) : Prop :=
  Moves pts d bps f ∧ (∃ v, (d.he t').origin = .vtx v) ∧ ∀ z w, Fut pts d bps l f z → Fut pts d bps l t' w → Fwd (pts j) (pts i) z w

/-- Two half-edges between the same cells are one behind the other. -/
def Apart (pts : Nat → Pt) (d : Dcel ℝ) (bps : Nat → BpR) (l : ℝ) : Prop :=
  ∀ f t f' t' i j, Edg d f t i j → Edg d f' t' i j → f ≠ f' → Behind pts d bps l f t' i j ∨ Behind pts d bps l f' t i j

/-- The vertices at the ends of half-edges are centres of circles through both sites whose lowest point was passed by the sweep line. -/
def Past (pts : Nat → Pt) (d : Dcel ℝ) (l : ℝ) : Prop :=
  ∀ f t i j, Edg d f t i j → ∀ v z, (d.he f).origin = .vtx v → (d.vs v).pos = some z →
    ∃ m, l ≤ m ∧ m ≤ z.2 ∧ dsq (pts i) z = (z.2 - m) ^ 2 ∧ dsq (pts j) z = (z.2 - m) ^ 2

section mono
variable {d : Dcel ℝ} {bps : Nat → BpR} {l l1 : ℝ}

theorem Behind.mono {f t' i j : Nat} (h : Behind pts d bps l f t' i j) (hl : l1 ≤ l) : Behind pts d bps l1 f t' i j :=
  ⟨h.1, h.2.1, fun z w hz hw => h.2.2 z w (hz.mono hl) (hw.mono hl)⟩

theorem Apart.mono (h : Apart pts d bps l) (hl : l1 ≤ l) : Apart pts d bps l1 := fun f t f' t' i j h1 h2 h3 =>
  (h f t f' t' i j h1 h2 h3).imp (fun h => h.mono hl) fun h => h.mono hl

theorem Past.mono (h : Past pts d l) (hl : l1 ≤ l) : Past pts d l1 := fun f t i j h1 v z h2 h3 => by
  obtain ⟨m, g1, g2⟩ := h f t i j h1 v z h2 h3
  exact ⟨m, hl.trans g1, g2⟩

end mono

section site
variable {d : Dcel ℝ} {bps : Nat → BpR} {l : ℝ} {done : Nat → Prop} {verts edges : List Nat} {L : List (Item Dat)} {bpCnt : Nat}

theorem Moves.site {pj pi f : Nat} (h : DInv pts pc done d bps bpCnt verts edges L) (hf : f < d.heCnt) (hM : Moves pts d bps f) :
    Moves pts (siteD d bpCnt (bpCnt + 1) pj pi) (siteB d bps bpCnt pj pi) f := by
  intro b ho
  rw [siteD_old hf] at ho
  rw [siteB_old (h.obp f hf b ho).1]
  exact hM b ho

theorem Behind.site {pj pi f t' i j : Nat} (h : DInv pts pc done d bps bpCnt verts edges L) (hf : f < d.heCnt) (ht : t' < d.heCnt)
    (hB : Behind pts d bps l f t' i j) : Behind pts (siteD d bpCnt (bpCnt + 1) pj pi) (siteB d bps bpCnt pj pi) l f t' i j := by
  obtain ⟨h1, ⟨v, h2⟩, h3⟩ := hB
  exact ⟨h1.site h hf, ⟨v, by rw [siteD_old ht]; exact h2⟩, fun z w hz hw => h3 z w (hz.site h hf) (hw.site h ht)⟩

theorem Apart.site {pj pi : Nat} (hA : Apart pts d bps l) (h : DInv pts pc done d bps bpCnt verts edges L) (hnew : ¬ done pi) (hij : pi ≠ pj) :
    Apart pts (siteD d bpCnt (bpCnt + 1) pj pi) (siteB d bps bpCnt pj pi) l := by
  have hold : ∀ f t i j, Edg d f t i j → i ≠ pi ∧ j ≠ pi := by
    intro f t i j he
    have key : ∀ f t i j, Edg d f t i j → i ≠ pi := by
      rintro f t i j he rfl
      obtain ⟨p', g1, g2⟩ := h.inc f he.lt
      rw [he.inc, Option.some.injEq] at g1
      exact hnew (g1 ▸ g2)
    exact ⟨key f t i j he, key t f j i (he.symm h)⟩
  intro f t f' t' i j h1 h2 hne
  rcases h1.site h with ⟨k1, k2⟩ | ⟨rfl, rfl, rfl, rfl⟩ | ⟨rfl, rfl, rfl, rfl⟩
  · rcases h2.site h with ⟨m1, m2⟩ | ⟨_, _, m3, _⟩ | ⟨_, _, _, m3⟩
    · exact (hA f t f' t' i j k1 m1 hne).imp (fun hb => hb.site h k1.lt m2) fun hb => hb.site h m1.lt k2
    · exact absurd m3 (hold _ _ _ _ k1).1
    · exact absurd m3 (hold _ _ _ _ k1).2
  · rcases h2.site h with ⟨m1, m2⟩ | ⟨m0, _⟩ | ⟨_, _, m3, m4⟩
    · exact absurd rfl (hold _ _ _ _ m1).1
    · exact absurd m0.symm hne
    · exact absurd m3 hij
  · rcases h2.site h with ⟨m1, m2⟩ | ⟨_, _, m3, m4⟩ | ⟨m0, _⟩
    · exact absurd rfl (hold _ _ _ _ m1).2
    · exact absurd m3.symm hij
    · exact absurd m0.symm hne

theorem Past.site {pj pi : Nat} (hP : Past pts d l) (h : DInv pts pc done d bps bpCnt verts edges L) :
    Past pts (siteD d bpCnt (bpCnt + 1) pj pi) l := by
  intro f t i j he v z ho hz
  rcases he.site h with ⟨k1, k2⟩ | ⟨rfl, rfl, rfl, rfl⟩ | ⟨rfl, rfl, rfl, rfl⟩
  · rw [siteD_old k1.lt] at ho
    exact hP f t i j k1 v z ho hz
  · rw [siteD_l] at ho; cases ho
  · rw [siteD_r] at ho; cases ho

end site

section circ
variable {d : Dcel ℝ} {bps : Nat → BpR} {l : ℝ} {done : Nat → Prop} {verts edges : List Nat} {L : List (Item Dat)} {bpCnt : Nat}
variable {c : Pt} {b1 b2 p x r u le ri tl tr ue re : Nat}

theorem Moves.circ (hc : CircAt pts d bps l c b1 b2 p x r u le ri tl tr) (h : DInv pts pc done d bps bpCnt verts edges L) {f : Nat}
    (hf : f < d.heCnt) (hM : Moves pts d bps f) :
    Moves pts (circD d c u p r le ri tl tr ue re) (Function.update bps u ⟨(p, r), some d.heCnt⟩) f := by
  intro b' ho
  have h1 : f ≠ le := by rintro rfl; rw [circD_le] at ho; cases ho
  have h2 : f ≠ ri := by rintro rfl; rw [circD_ri hc.ne.1] at ho; cases ho
  rw [circD_org hf h1 h2] at ho
  have hb := (h.obp f hf b' ho).2.1
  have hbu : b' ≠ u := by
    rintro rfl
    rcases hc.hu with rfl | rfl
    · rw [hc.el] at hb; exact h1 (by simpa using hb.symm)
    · rw [hc.er] at hb; exact h2 (by simpa using hb.symm)
  rw [Function.update_of_ne hbu]
  exact hM b' ho

theorem circD_vtx (hc : CircAt pts d bps l c b1 b2 p x r u le ri tl tr) {f v : Nat} (hf : f < d.heCnt) (ho : (d.he f).origin = .vtx v) :
    ((circD d c u p r le ri tl tr ue re).he f).origin = .vtx v := by
  rw [circD_org hf (by rintro rfl; rw [hc.ol] at ho; cases ho) (by rintro rfl; rw [hc.or] at ho; cases ho)]
  exact ho

theorem Behind.circ (hc : CircAt pts d bps l c b1 b2 p x r u le ri tl tr) (h : DInv pts pc done d bps bpCnt verts edges L) {f t' i j : Nat}
    (hf : f < d.heCnt) (ht : t' < d.heCnt) (hB : Behind pts d bps l f t' i j) :
    Behind pts (circD d c u p r le ri tl tr ue re) (Function.update bps u ⟨(p, r), some d.heCnt⟩) l f t' i j := by
  obtain ⟨h1, ⟨v, h2⟩, h3⟩ := hB
  exact ⟨h1.circ hc h hf, ⟨v, circD_vtx hc ht h2⟩, fun z w hz hw => h3 z w (hz.circ hc h hf) (hw.circ hc h ht)⟩

/-- A vertex of the bisector that was passed by the sweep line is behind the breakpoint. -/
theorem past_fwd {a b z w : Pt} {m : ℝ} (hab : a ≠ b) (hz : Bp a b l z) (hla : l ≤ a.2) (hlb : l ≤ b.2) (hm : l ≤ m) (hmw : m ≤ w.2)
    (ha : dsq a w = (w.2 - m) ^ 2) (hb : dsq b w = (w.2 - m) ^ 2) : Fwd a b w z := by
  rcases fwd_total hab (ha.trans hb.symm) (hz.ea.trans hz.eb.symm) with h | ⟨k, h1, h2, h3⟩
  · exact h
  obtain ⟨g1, g2⟩ := pencil_down hab hz ha hmw h2 h3 h1
  have : m = l := le_antisymm g1 hm
  subst this
  rw [hz.unique ⟨ha, hb, hmw, g2⟩ hab hla hlb (hz.nd hab hla hlb)]
  exact Fwd.refl ..

theorem Past.circ (hP : Past pts d l) (hc : CircAt pts d bps l c b1 b2 p x r u le ri tl tr) (h : DInv pts pc done d bps bpCnt verts edges L) :
    Past pts (circD d c u p r le ri tl tr ue re) l := by
  intro f t i j he v z ho hz
  rcases he.circ hc h with ⟨k1, k2⟩ | ⟨rfl, rfl, rfl, rfl⟩ | ⟨rfl, rfl, rfl, rfl⟩
  · by_cases h1 : f = le
    · subst h1
      rw [circD_le] at ho
      cases ho
      rw [circD_v, Option.some.injEq] at hz
      subst hz
      have hp := (k1.pair h hc.ol).1
      rw [hc.p1, Prod.mk.injEq] at hp
      rw [← hp.1, ← hp.2]
      exact ⟨l, le_rfl, hc.bl.le, hc.bl.eb, hc.bl.ea⟩
    by_cases h2 : f = ri
    · subst h2
      rw [circD_ri hc.ne.1] at ho
      cases ho
      rw [circD_v, Option.some.injEq] at hz
      subst hz
      have hp := (k1.pair h hc.or).1
      rw [hc.p2, Prod.mk.injEq] at hp
      rw [← hp.1, ← hp.2]
      exact ⟨l, le_rfl, hc.br.le, hc.br.eb, hc.br.ea⟩
    rw [circD_org k1.lt h1 h2] at ho
    have hv := (h.vts v (h.ovt f k1.lt v ho).1).2.1
    simp only [circD] at hz
    rw [Function.update_of_ne (by omega)] at hz
    exact hP f t i j k1 v z ho hz
  · rw [circD_n hc.lt] at ho; cases ho
  · rw [circD_n' hc.lt] at ho
    cases ho
    rw [circD_v, Option.some.injEq] at hz
    subst hz
    exact ⟨l, le_rfl, hc.bn.le, hc.bn.ea, hc.bn.eb⟩

theorem Apart.circ (hA : Apart pts d bps l) (hP : Past pts d l) (hc : CircAt pts d bps l c b1 b2 p x r u le ri tl tr)
    (h : DInv pts pc done d bps bpCnt verts edges L) (hne : pts p ≠ pts r) (hlp : l ≤ (pts p).2) (hlr : l ≤ (pts r).2)
    (hnp : ∀ f t b', Edg d f t r p → (d.he f).origin = .bp b' → False) :
    Apart pts (circD d c u p r le ri tl tr ue re) (Function.update bps u ⟨(p, r), some d.heCnt⟩) l := by
  have hpr : p ≠ r := fun h => hne (by rw [h])
  -- an old edge between the same cells
  have hold : ∀ f t, Edg d f t r p → (∃ v, (d.he f).origin = .vtx v) ∧ ∀ z, Fut pts d bps l f z → Fwd (pts p) (pts r) z c := by
    intro f t he
    cases ho : (d.he f).origin with
    | bp b' => exact (hnp f t b' he ho).elim
    | vtx v =>
      refine ⟨⟨v, rfl⟩, ?_⟩
      rintro z (⟨v', g1, g2⟩ | ⟨b', g1, _⟩)
      · obtain ⟨m, k1, k2, k3, k4⟩ := hP f t r p he v' z g1 g2
        exact past_fwd hne hc.bn hlp hlr k1 k2 k4 k3
      · rw [ho] at g1; cases g1
  have hnew : ∀ z, Fut pts (circD d c u p r le ri tl tr ue re) (Function.update bps u ⟨(p, r), some d.heCnt⟩) l (d.heCnt + 1) z → z = c := by
    rintro z (⟨v, g1, g2⟩ | ⟨b', g1, _⟩)
    · rw [circD_n' hc.lt] at g1; cases g1
      rw [circD_v] at g2
      simpa using g2.symm
    · rw [circD_n' hc.lt] at g1; cases g1
  have hmv : ∀ f, (∃ v, ((circD d c u p r le ri tl tr ue re).he f).origin = .vtx v) →
      Moves pts (circD d c u p r le ri tl tr ue re) (Function.update bps u ⟨(p, r), some d.heCnt⟩) f := by
    rintro f ⟨v, hv⟩ b' hb'
    rw [hv] at hb'; cases hb'
  have hnv : ∃ v, ((circD d c u p r le ri tl tr ue re).he (d.heCnt + 1)).origin = .vtx v := ⟨_, by rw [circD_n' hc.lt]⟩
  -- an old one and the new one
  have one : ∀ f t, Edg d f t r p → t < d.heCnt →
      Behind pts (circD d c u p r le ri tl tr ue re) (Function.update bps u ⟨(p, r), some d.heCnt⟩) l f (d.heCnt + 1) r p := by
    intro f t he ht
    obtain ⟨⟨v, hv⟩, h2⟩ := hold f t he
    refine ⟨hmv f ⟨v, circD_vtx hc he.lt hv⟩, hnv, fun z w hz hw => ?_⟩
    rw [hnew w hw]
    exact h2 z (hz.circ hc h he.lt)
  have two : ∀ f t, Edg d f t p r → t < d.heCnt →
      Behind pts (circD d c u p r le ri tl tr ue re) (Function.update bps u ⟨(p, r), some d.heCnt⟩) l (d.heCnt + 1) t p r := by
    intro f t he ht
    obtain ⟨⟨v, hv⟩, h2⟩ := hold t f (he.symm h)
    refine ⟨hmv _ hnv, ⟨v, circD_vtx hc ht hv⟩, fun z w hz hw => ?_⟩
    rw [hnew z hz]
    exact (h2 w (hw.circ hc h ht)).swap
  intro f t f' t' i j h1 h2 hne'
  rcases h1.circ hc h with ⟨k1, k2⟩ | ⟨rfl, rfl, rfl, rfl⟩ | ⟨rfl, rfl, rfl, rfl⟩
  · rcases h2.circ hc h with ⟨m1, m2⟩ | ⟨rfl, rfl, rfl, rfl⟩ | ⟨rfl, rfl, rfl, rfl⟩
    · exact (hA f t f' t' i j k1 m1 hne').imp (fun hb => hb.circ hc h k1.lt m2) fun hb => hb.circ hc h m1.lt k2
    · exact Or.inl (one f t k1 k2)
    · exact Or.inr (two f t k1 k2)
  · rcases h2.circ hc h with ⟨m1, m2⟩ | ⟨m0, _⟩ | ⟨_, _, m3, _⟩
    · exact Or.inr (one f' t' m1 m2)
    · exact absurd m0.symm hne'
    · exact absurd m3.symm hpr
  · rcases h2.circ hc h with ⟨m1, m2⟩ | ⟨_, _, m3, _⟩ | ⟨m0, _⟩
    · exact Or.inl (two f' t' m1 m2)
    · exact absurd m3 hpr
    · exact absurd m0.symm hne'

end circ

/-! ### along the run -/

/-- The invariants with the height of the sweep line. -/
structure UInv (pts : Nat → Pt) (s : St ℝ) (l : ℝ) : Prop where
  apart : Apart pts s.d s.bps l
  past : Past pts s.d l

/-- The half-edges of a circle event. -/
theorem GInv.circ_at {s s1 : St ℝ} {L L' : List (Item Dat)} {l : ℝ} {P : Place} {m u le ri tl tr ue re : Nat}
    (hI : Inv pts ok n pc s L) (hG : GInv pts s L l) (hq : q.Spec evLt ok)
    {e : QE ℝ} {rest : List (QE ℝ)} (hp : q.pop s.queue = some (e, rest)) (hc : e.circ = true)
    (hmk : mkEv pts P.n ((s.arcs P.a1).origin, (s.arcs P.a).origin, (s.arcs P.a3).origin) = some (s.evs e.ref))
    (hpre : CircPre s P le ri tl tr) (hn : CircNext pts q e.ref (circStart e rest s) L s1 L' P m u le ri tl tr ue re) :
    (stepEnd (.circle e.ref) s1).d = circD s.d (s.evs e.ref).center u (s.arcs P.a1).origin (s.arcs P.a3).origin le ri tl tr ue re ∧
    (stepEnd (.circle e.ref) s1).bps = Function.update s.bps u ⟨((s.arcs P.a1).origin, (s.arcs P.a3).origin), some s.d.heCnt⟩ ∧
    Env (Handled pts s) e.yd (apts pts s L) ∧
    apts pts s L = apts pts s P.pre ++ pts (s.og P.a1) :: pts (s.og P.a) :: pts (s.og P.a3) :: apts pts s P.post ∧
    det (pts (s.og P.a1)) (pts (s.og P.a)) (pts (s.og P.a3)) < 0 ∧
    e.yd < (pts (s.og P.a3)).2 ∧
    CircAt pts s.d s.bps e.yd (s.evs e.ref).center P.b1 P.b2 (s.arcs P.a1).origin (s.arcs P.a).origin (s.arcs P.a3).origin u le ri tl tr := by
  have hperm := hq.pop_perm _ _ _ hI.qinv.ok hp
  have hmem : e ∈ s.queue := hperm.mem_iff.mpr (by simp)
  have hqe := hI.qinv.qe e hmem hc
  obtain ⟨log', _, heq⟩ := hn.eq
  obtain ⟨hdet, hyd, _, hcen⟩ := mkEv_spec hmk e.ref
  simp only at hdet hyd hcen
  rw [← hqe] at hyd
  have hL : L = P.list := hn.split
  have horigs : origs s1.og L' = origs s.og P.pre ++ ([s.og P.a1, s.og P.a3] ++ origs s.og P.post) := hn.origs_eq
  have hAL : apts pts s L = apts pts s P.pre ++ pts (s.og P.a1) :: pts (s.og P.a) :: pts (s.og P.a3) :: apts pts s P.post := by
    rw [hL]; simp [apts, Place.list]
  have hA' : apts pts (stepEnd (.circle e.ref) s1) L' = apts pts s P.pre ++ pts (s.og P.a1) :: pts (s.og P.a3) :: apts pts s P.post := by
    show (origs s1.og L').map pts = _
    rw [horigs]; simp [apts]
  have hH : Handled pts (stepEnd (.circle e.ref) s1) = Handled pts s := by
    have : (stepEnd (.circle e.ref) s1).names = s.names := by
      show s1.names = _
      rw [heq]; exact checkAdd_names ..
    unfold Handled; rw [this]
  have hd : (stepEnd (.circle e.ref) s1).d = circD s.d (s.evs e.ref).center u (s.arcs P.a1).origin (s.arcs P.a3).origin le ri tl tr ue re := by
    show s1.d = _
    rw [heq]; exact checkAdd_d ..
  have hbp : (stepEnd (.circle e.ref) s1).bps = Function.update s.bps u ⟨((s.arcs P.a1).origin, (s.arcs P.a3).origin), some s.d.heCnt⟩ := by
    show s1.bps = _
    rw [heq]; exact checkAdd_bps ..
  have hvt : (stepEnd (.circle e.ref) s1).verts = s.d.vCnt :: s.verts := by
    show s1.verts = _
    rw [heq]; exact checkAdd_verts ..
  have hE : Env (Handled pts s) e.yd (apts pts s L) := by
    rcases (hG.next hI hq hp).2 with hE | ⟨_, hT⟩
    · exact hE
    · exact absurd hdet (hT.no_cw (by rw [hAL]; simp [St.og]) (by rw [hAL]; simp [St.og]) (by rw [hAL]; simp [St.og]))
  -- the half-edges of the two breakpoints that meet
  have hb : BOk s.og s.pr s.arcCnt s.bpCnt L := hI.beach
  have hb1 : (⟨P.m1, false, .bp P.b1⟩ : Item Dat) ∈ L := by rw [hL]; simp [Place.list]
  have hb2 : (⟨P.m2, false, .bp P.b2⟩ : Item Dat) ∈ L := by rw [hL]; simp [Place.list]
  have hp1 : (s.bps P.b1).pair = (s.og P.a1, s.og P.a) := by
    have hL1 : L = (P.pre ++ [⟨P.n1, true, .arc P.a1⟩]) ++ ⟨P.m1, false, .bp P.b1⟩ :: ⟨P.n, true, .arc P.a⟩ :: ⟨P.m2, false, .bp P.b2⟩ ::
        ⟨P.n3, true, .arc P.a3⟩ :: P.post := by rw [hL]; simp [Place.list]
    obtain ⟨P', n1, a1, n2, a2, R', e1, e2, e3⟩ := (hL1 ▸ hb).bp_cases
    have e3 : (s.bps P.b1).pair = (s.og a1, s.og a2) := e3
    have f1 := (List.append_inj' e1 rfl).2
    simp only [List.cons.injEq, Item.mk.injEq, Dat.arc.injEq, and_true, true_and] at f1 e2
    rw [e3, f1.2, e2.1.2]
  have hp2 : (s.bps P.b2).pair = (s.og P.a, s.og P.a3) := by
    have hL1 : L = (P.pre ++ [⟨P.n1, true, .arc P.a1⟩, ⟨P.m1, false, .bp P.b1⟩, ⟨P.n, true, .arc P.a⟩]) ++ ⟨P.m2, false, .bp P.b2⟩ ::
        ⟨P.n3, true, .arc P.a3⟩ :: P.post := by rw [hL]; simp [Place.list]
    obtain ⟨P', n1, a1, n2, a2, R', e1, e2, e3⟩ := (hL1 ▸ hb).bp_cases
    have e3 : (s.bps P.b2).pair = (s.og a1, s.og a2) := e3
    have e1' : (P.pre ++ [⟨P.n1, true, .arc P.a1⟩, ⟨P.m1, false, .bp P.b1⟩]) ++ [(⟨P.n, true, .arc P.a⟩ : Item Dat)] = P' ++ [⟨n1, true, .arc a1⟩] := by
      rw [← e1]; simp
    have f1 := (List.append_inj' e1' rfl).2
    simp only [List.cons.injEq, Item.mk.injEq, Dat.arc.injEq, and_true, true_and] at f1 e2
    rw [e3, f1.2, e2.1.2]
  have hne13 : (s.arcs P.a1).origin ≠ (s.arcs P.a3).origin := hpre.ne
  obtain ⟨le', ri', tl', tr', g1, g2, g3, g4, gnd, glt, ole, ori, ile, itl, iri, itr, ttl, ttr⟩ := hI.dinv.pre hb1 hb2 hp1 hp2 hne13
  rw [hpre.el] at g1; cases g1
  rw [hpre.er] at g2; cases g2
  rw [hpre.twl] at g3; cases g3
  rw [hpre.twr] at g4; cases g4
  obtain ⟨k1, k2, k3⟩ := hE.cw hAL hdet
  obtain ⟨_, _, _, _, _, k4⟩ := hE.circle_x hAL hdet hyd.symm
  have hca : CircAt pts s.d s.bps e.yd (s.evs e.ref).center P.b1 P.b2 (s.arcs P.a1).origin (s.arcs P.a).origin (s.arcs P.a3).origin u le ri tl tr := by
    refine ⟨gnd, glt, ole, ori, hp1, hp2, hpre.el, hpre.er, ?_, ?_, ?_, ?_⟩
    · rcases hn.upd with ⟨_, h, _⟩ | ⟨_, h, _⟩
      · exact Or.inl h
      · exact Or.inr h
    · rw [hcen, hyd]; exact k2
    · rw [hcen, hyd]; exact k3
    · rw [hcen]; exact k4
  exact ⟨hd, hbp, hE, hAL, hdet, (hE.circle_x hAL hdet hyd.symm).2.1, hca⟩

theorem UInv.step (hinj : Set.InjOn pts {p | p < n}) (hq : q.Spec evLt ok) {s s' : St ℝ} {L L' : List (Item Dat)} {l l' : ℝ} {e : QE ℝ}
    {rest : List (QE ℝ)} (hI : Inv pts ok n pc s L) (hG : GInv pts s L l) (hK : KInv pts s L l) (hU : UInv pts s l)
    (hp : q.pop s.queue = some (e, rest)) (hst : EvStep pts q e rest s L s' L') (hI' : Inv pts ok n pc s' L') (hsw : s'.sweep = some l') :
    UInv pts s' l' := by
  have hle := (hG.next hI hq hp).1
  cases hst with
  | skip hc hv' =>
    have := (hG.skip hI hq hp hv').sw
    rw [hsw, Option.some.injEq] at this
    subst this
    exact ⟨hU.apart, hU.past⟩
  | @first s1 _ hc hf =>
    exfalso
    have hnil : apts pts s L = [] := by
      have : L = [] := hf.nil
      rw [this]; rfl
    rcases hG.env with hT | hE
    · exact hT.ne hnil
    · exact hE.ne hnil
  | @site s1 _ pre post m a inter hc hpost hn =>
    have := (hG.site hinj hI hq hp hc hpost hn hI').sw
    rw [hsw, Option.some.injEq] at this
    subst this
    obtain ⟨_, hen, hnm, _⟩ := pop_site hI hq hp hc
    obtain ⟨log', _, heq⟩ := hn.eq
    have hd : (stepEnd (.site e.ref) s1).d = siteD s.d s.bpCnt (s.bpCnt + 1) (s.arcs a).origin e.ref := by
      show s1.d = _
      rw [heq]; cases inter
      · rfl
      · exact checkAdd_d ..
    have hbp : (stepEnd (.site e.ref) s1).bps = siteB s.d s.bps s.bpCnt (s.arcs a).origin e.ref := by
      show s1.bps = _
      rw [heq]; cases inter
      · rfl
      · exact checkAdd_bps ..
    have hane : e.ref ≠ (s.arcs a).origin := by
      intro hh
      have h1 : (⟨m, true, .arc a⟩ : Item Dat) ∈ L := by rw [hn.split]; simp
      have haL : pts (s.og a) ∈ apts pts s L := by rw [hn.split, apts_append, apts_arc]; simp
      have haH : pts (s.og a) ∈ Handled pts s := by
        rcases hG.env with hT | hE
        · exact (hT.mem _).mp haL
        · exact hE.mem haL
      obtain ⟨k, hk, hk'⟩ := haH
      have : k = e.ref := by
        obtain ⟨x, hx⟩ := Option.isSome_iff_exists.mp hk
        refine hinj (hI.sinv.nmLt k x hx).2 hen ?_
        rw [hk', hh]
      rw [this, hnm] at hk; simp at hk
    refine ⟨?_, ?_⟩
    · rw [hd, hbp]
      exact (hU.apart.mono hle).site hI.dinv (by rw [hnm]; simp) hane
    · rw [hd]
      exact (hU.past.mono hle).site hI.dinv
  | @circle s1 _ P m u le ri tl tr ue re hc hv hcev hmk hpre hn =>
    have := (hG.circle hI hq hp hc hv hcev hmk hpre hn hI').sw
    rw [hsw, Option.some.injEq] at this
    subst this
    obtain ⟨hd, hbp, hE, hAL, hdet, hlow, hca⟩ := hG.circ_at hI hq hp hc hmk hpre hn
    have hne : pts (s.arcs P.a1).origin ≠ pts (s.arcs P.a3).origin := by
      intro hh
      have : det (pts (s.arcs P.a1).origin) (pts (s.og P.a)) (pts (s.arcs P.a3).origin) < 0 := hdet
      rw [hh] at this; unfold det at this; ring_nf at this; exact lt_irrefl _ this
    have l1 : e.yd ≤ (pts (s.arcs P.a1).origin).2 := hE.low' (a := pts (s.og P.a1)) hAL
    refine ⟨?_, ?_⟩
    · rw [hd, hbp]
      refine (hU.apart.mono hle).circ (hU.past.mono hle) hca hI.dinv hne l1 hlow.le ?_
      intro f t b' he ho
      obtain ⟨hpair, _⟩ := he.pair hI.dinv ho
      rcases hK.live f he.lt b' ho with ⟨k, hk⟩ | hA
      · have hbc := (hI.dinv.obp f he.lt b' ho).2.1
        have m1 : b' ≠ P.b1 := by
          rintro rfl
          rw [hca.p1, Prod.mk.injEq] at hpair
          have h1 := hE.pair (B := apts pts s P.pre ++ [pts (s.og P.a1)]) (a := pts (s.og P.a)) (b := pts (s.og P.a3)) (C := apts pts s P.post)
            (by rw [hAL]; simp)
          exact h1.1 (congrArg pts hpair.2)
        have m2 : b' ≠ P.b2 := by
          rintro rfl
          rw [hca.p2, Prod.mk.injEq] at hpair
          exact (hE.pair hAL).1 (congrArg pts hpair.1).symm
        have hbu : b' ≠ u := by rcases hca.hu with h | h <;> rw [h] <;> assumption
        have hL : L = P.list := hn.split
        have hL' : L' = P.rest m u := hn.list
        have hk' : (⟨k, false, .bp b'⟩ : Item Dat) ∈ L' := by
          rw [hL] at hk
          rw [hL']
          simp only [Place.list, Place.rest, List.mem_append, List.mem_cons, Item.mk.injEq, Dat.bp.injEq, List.not_mem_nil, or_false] at hk ⊢
          rcases hk with h | h | h
          · exact Or.inl h
          · grind
          · exact Or.inr (Or.inr h)
        have hu' : (⟨m, false, .bp u⟩ : Item Dat) ∈ L' := by rw [hL']; simp [Place.rest]
        obtain ⟨A, B, hA⟩ := List.append_of_mem hk'
        obtain ⟨A', B', hA'⟩ := List.append_of_mem hu'
        have hb' : BOk _ (stepEnd (.circle e.ref) s1).pr _ _ L' := hI'.beach
        have := (hb'.pair_unique hA hA' (by
          show ((stepEnd (.circle e.ref) s1).bps b').pair = ((stepEnd (.circle e.ref) s1).bps u).pair
          rw [hbp, Function.update_of_ne hbu, Function.update_self, hpair]))
        exact hbu this.2
      · rw [hpair] at hA
        obtain ⟨h1, h2, _⟩ := hA
        have := hca.bn.or
        unfold ori at this
        have h1 : (pts (s.arcs P.a1).origin).2 = (pts (s.arcs P.a3).origin).2 := h1
        have h2 : (pts (s.arcs P.a3).origin).1 < (pts (s.arcs P.a1).origin).1 := h2
        have h3 : e.yd < (pts (s.arcs P.a3).origin).2 := hlow
        rw [h1] at this
        nlinarith
    · rw [hd]
      exact (hU.past.mono hle).circ hca hI.dinv

/-- Before the first event, or with the invariants. -/
def UJ (pts : Nat → Pt) (s : St ℝ) (L : List (Item Dat)) : Prop :=
  KJ pts s L ∧ (s.nextName = 0 ∨ ∃ l, s.sweep = some l ∧ UInv pts s l)

theorem reach_apart (hinj : Set.InjOn pts {p | p < n}) (hq : q.Spec evLt ok) {s : St ℝ} (h : Reach pts q n poly s) :
    s.nextName = 0 ∨ ∃ l, s.sweep = some l ∧ UInv pts s l := by
  suffices hs : ∃ L, Inv pts ok n poly.points.length s L ∧ UJ pts s L by
    obtain ⟨L, _, hJ⟩ := hs
    exact hJ.2
  refine reach_follow (J := UJ pts) hq ?_ ?_ h
  · refine ⟨Or.inl ⟨rfl, rfl, ?_⟩, Or.inl rfl⟩
    intro e he
    obtain ⟨_, h2⟩ := startQueue_spec (pts := pts) hq n
    obtain ⟨p, _, rfl⟩ := List.mem_map.mp (h2.mem_iff.mp he)
    rfl
  · intro s L e rest s' L' hI hJ hp hst hI'
    have hK' := hJ.1.step hinj hq hI hp hst hI'
    refine ⟨hK', ?_⟩
    rcases hK' with ⟨h0, _⟩ | ⟨l', hG', hK', _⟩
    · exact Or.inl h0
    refine Or.inr ⟨l', hG'.sw, ?_⟩
    obtain ⟨hKJ, hor⟩ := hJ
    rcases hKJ with ⟨h0, hc0, hnc⟩ | ⟨l, hG, hK, hv⟩
    · -- the first event makes no half-edges
      have hperm := hq.pop_perm _ _ _ hI.qinv.ok hp
      have hc' := hnc e (hperm.mem_iff.mpr (by simp))
      cases hst with
      | skip hc hv => rw [hc'] at hc; cases hc
      | @first s1 _ hc hf =>
        have hd : (stepEnd (.site e.ref) s1).d = s.d := by
          show s1.d = _
          rw [hf.eq]; rfl
        refine ⟨?_, ?_⟩
        · intro f t f' t' i j he
          have := he.lt
          rw [hd, hc0] at this; omega
        · intro f t i j he
          have := he.lt
          rw [hd, hc0] at this; omega
      | site hc hpost hn =>
        have := hI.sinv.empty.mpr h0
        have h1 := hn.split
        rw [this] at h1; simp at h1
      | circle hc => rw [hc'] at hc; cases hc
    · rcases hor with h0 | ⟨l0, h0, hU⟩
      · exfalso
        have := hI.sinv.empty.mpr h0
        rcases hG.env with hT | hE
        · exact hT.ne (by rw [this]; rfl)
        · exact hE.ne (by rw [this]; rfl)
      · have := hG.sw
        rw [h0, Option.some.injEq] at this
        subst this
        exact hU.step hinj hq hI hG hK hp hst hI' hG'.sw

end Foronoi
