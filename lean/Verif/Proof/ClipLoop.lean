import Verif.Proof.Links
import Verif.Spec.Sweep

/-!
# The loop of `finish_edges`
-/

namespace Foronoi

open scoped List

variable {K : Type} [LinearOrder K] [Arith K] {E : Err → Prop} {pts : Nat → K × K} {poly : Poly K}

/-- A half-edge not yet clipped: registered at its origin, which has a position, if that is a vertex. -/
def Pend (d : Dcel K) (f : Nat) : Prop := ∀ v, (d.he f).origin = .vtx v → f ∈ (d.vs v).conn ∧ (d.vs v).pos.isSome

/-- A clipped half-edge: it starts at a vertex with a position, which is inside the polygon or belongs to this half-edge only. -/
def Good (poly : Poly K) (d : Dcel K) (f : Nat) : Prop :=
  ∃ v p, (d.he f).origin = .vtx v ∧ v < d.vCnt ∧ (d.vs v).pos = some p ∧ f ∈ (d.vs v).conn ∧
    (inside poly.points p = some true ∨ (d.vs v).conn = [f])

/-- The half-edges registered at a vertex start there, unless the vertex is outside the polygon. -/
def CohW (poly : Poly K) (d : Dcel K) : Prop :=
  ∀ v < d.vCnt, (∀ c ∈ (d.vs v).conn, (d.he c).origin = .vtx v) ∨ ∃ p, (d.vs v).pos = some p ∧ inside poly.points p = some false

theorem Good.keep {X : Nat → Prop} {d d' : Dcel K} {f : Nat} (h : Good poly d f) (hk : Keeps X d d') (hx : ¬ X f) : Good poly d' f := by
  obtain ⟨v, p, h1, h2, h3, h4, h5⟩ := h
  refine ⟨v, p, by rw [hk.org f hx]; exact h1, h2.trans_le hk.vCnt, by rw [hk.pos v h2]; exact h3, hk.connK v h2 f hx h4, ?_⟩
  rcases h5 with h5 | h5
  · exact Or.inl h5
  · exact Or.inr (hk.conn1 v h2 f hx h5)

theorem Pend.keep {X : Nat → Prop} {d d' : Dcel K} {f : Nat} (h : Pend d f) (hk : Keeps X d d') (hx : ¬ X f)
    (hv : ∀ v, (d.he f).origin = .vtx v → v < d.vCnt) : Pend d' f := by
  intro v h1
  rw [hk.org f hx] at h1
  have := hv v h1
  exact ⟨hk.connK v this f hx (h v h1).1, by rw [hk.pos v this]; exact (h v h1).2⟩

theorem CohW.cut {d : Dcel K} (h : CohW poly d) {e : Nat} (pos : Option (K × K))
    (hout : ∀ v, (d.he e).origin = .vtx v → ∃ p, (d.vs v).pos = some p ∧ inside poly.points p = some false) : CohW poly (cutD d e pos) := by
  intro v hv
  by_cases hv0 : v = d.vCnt
  · left
    subst hv0
    intro c hc
    simp only [cutD, Function.update_self, List.mem_singleton] at hc
    subst hc
    simp [cutD]
  · have hv1 : v < d.vCnt := by simp only [cutD] at hv; omega
    have hp : ((cutD d e pos).vs v) = d.vs v := by simp [cutD, Function.update_of_ne hv0]
    rw [hp]
    rcases h v hv1 with hc | hc
    · by_cases he : (d.he e).origin = .vtx v
      · exact Or.inr (hout v he)
      · left
        intro c hcm
        have hce : c ≠ e := by rintro rfl; exact he (hc c hcm)
        rw [(keeps_cut d e pos).org c hce]
        exact hc c hcm
    · exact Or.inr hc

theorem CohW.del {d : Dcel K} (h : CohW poly d) (e : Nat) : CohW poly (delD d e) := by
  intro v hv
  rw [delD_pos]
  rcases h v hv with hc | hc
  · left
    intro c hcm
    rw [delD_org]
    exact hc c ((keeps_del d e).conn v hv c hcm)
  · exact Or.inr hc

/-- The geometric computations of the clipping never signal. -/
structure GeoTot (poly : Poly K) : Prop where
  ins : ∀ z, (inside poly.points z).isSome
  ipt : ∀ a b, (intersectionPoint poly.points a b).isSome
  dist : ∀ a b : K × K, (distance a b).isSome

/-- If half-edge `f` starts at a breakpoint, the place where it is cut off can be computed. -/
def OrgTot (pts : Nat → K × K) (poly : Poly K) (s : St K) (f : Nat) : Prop := ∀ b, (s.d.he f).origin = .bp b →
  (getIntersection (pts (s.bps b).pair.1) (pts (s.bps b).pair.2) (Arith.sub poly.minY (dabs poly.maxY)) (some poly.maxY)).isSome

theorem OrgTot.keep {s s' : St K} {f : Nat} (h : OrgTot pts poly s f) (hb : s'.bps = s.bps)
    (ho : ∀ b, (s'.d.he f).origin = .bp b → (s.d.he f).origin = .bp b) : OrgTot pts poly s' f := by
  intro b hv
  rw [hb]
  exact h b (ho b hv)

theorem OrgTot.get {s : St K} {f : Nat} (h : OrgTot pts poly s f) :
    (getOrigin pts s.bps s.d f (some (Arith.sub poly.minY (dabs poly.maxY))) (some poly.maxY)).isSome := by
  unfold getOrigin
  cases hv : (s.d.he f).origin with
  | vtx v => rfl
  | bp b => simpa using h b hv

theorem or_of_none {α : Type} {P : Prop} {o : Option α} (h : P ∨ o.isSome) (hn : o = none) : P := by
  rcases h with h | h
  · exact h
  · rw [hn] at h; cases h

theorem wp_outside {s : St K} {e : Nat} (hE : E .arith ∨ GeoTot poly) : Wp E (outside pts poly e) s (fun b s' => s' = s ∧
    (b = false → ∃ v p, (s.d.he e).origin = .vtx v ∧ (s.d.vs v).pos = some p ∧ inside poly.points p = some true) ∧
    (b = true → ∀ v p, (s.d.he e).origin = .vtx v → (s.d.vs v).pos = some p → inside poly.points p = some false)) := by
  simp only [outside, getOriginSt, wp_bind, wp_get, wp_liftA]
  obtain ⟨oo, hoo⟩ : ∃ o, getOrigin pts s.bps s.d e none none = some o := by
    unfold getOrigin
    cases (s.d.he e).origin <;> exact ⟨_, rfl⟩
  refine ⟨?_, fun h => by rw [hoo] at h; cases h⟩
  intro o ho
  unfold getOrigin at ho
  cases hv : (s.d.he e).origin with
  | bp b =>
    rw [hv] at ho
    simp only [Option.some.injEq] at ho
    subst ho
    simp
  | vtx v =>
    rw [hv] at ho
    simp only [Option.some.injEq] at ho
    cases hp : (s.d.vs v).pos with
    | none =>
      rw [hp] at ho
      subst ho
      simp only [Option.map_none, wp_pure, true_and, reduceCtorEq, false_implies, true_implies]
      intro w p h2 h3
      cases h2
      rw [hp] at h3
      cases h3
    | some p =>
      rw [hp] at ho
      subst ho
      simp only [Option.map_some, wp_bind, wp_liftA, wp_pure, true_and]
      refine ⟨?_, or_of_none (hE.imp_right fun h => h.ins _)⟩
      intro b hb
      constructor
      · intro h1
        refine ⟨v, p, rfl, hp, ?_⟩
        simp only [Bool.not_eq_eq_eq_not, Bool.not_false] at h1
        rw [hb, h1]
      · rintro h1 w p' h2 h3
        cases h2
        rw [hp] at h3
        cases h3
        simp only [Bool.not_eq_eq_eq_not, Bool.not_true] at h1
        rw [hb, h1]

/-- The position of the origin of a half-edge. -/
def opos (d : Dcel K) (f : Nat) : Option (K × K) :=
  match (d.he f).origin with
  | .vtx v => (d.vs v).pos
  | .bp _ => none

theorem opos_vtx {d : Dcel K} {f v : Nat} (h : (d.he f).origin = .vtx v) : opos d f = (d.vs v).pos := by
  unfold opos; rw [h]

/-- An end of an edge as `_finish_edge` sees it. -/
def rawO (pts : Nat → K × K) (poly : Poly K) (bps : Nat → BpR) (d : Dcel K) (f : Nat) : Option (Option (K × Ext K)) :=
  getOrigin pts bps d f (some (Arith.sub poly.minY (dabs poly.maxY))) (some poly.maxY)

/-- A position in the form in which `_get_intersection_point` takes it. -/
def finO (p : Option (K × K)) : Option (K × Ext K) := p.map fun z => (z.1, .fin z.2)

/-- Where an end of an edge is after it was cut off if necessary: `v` is its position if it is a vertex, `o1` the end, `o2` the opposite
end of the edge. -/
def Cut (poly : Poly K) (v : Option (K × K)) (o1 o2 : Option (Option (K × Ext K))) (r : Option (K × K)) : Prop :=
  (∃ p, v = some p ∧ inside poly.points p = some true ∧ r = some p) ∨
  ((∀ p, v = some p → inside poly.points p = some false) ∧ ∃ a b r', o1 = some a ∧ o2 = some b ∧ intersectionPoint poly.points b a = some r' ∧
    r = r'.map fun z => (Arith.ofF (Arith.toF z.1), Arith.ofF (Arith.toF z.2)))

theorem rawO_vtx {bps : Nat → BpR} {d : Dcel K} {f v : Nat} (h : (d.he f).origin = .vtx v) : rawO pts poly bps d f = some (finO (opos d f)) := by
  unfold rawO getOrigin opos; rw [h]; rfl

theorem wp_finishEdge {s : St K} {e t : Nat} (ht : (s.d.he e).twin = some t)
    (hE : E .arith ∨ GeoTot poly ∧ OrgTot pts poly s e ∧ OrgTot pts poly s t) :
    Wp E (finishEdge pts poly e) s (fun _ s' => ∃ pos, s' = { s with d := cutD s.d e pos, polyVerts := s.polyVerts ++ [s.d.vCnt] } ∧
      ∃ a b r', rawO pts poly s.bps s.d e = some a ∧ rawO pts poly s.bps s.d t = some b ∧ intersectionPoint poly.points b a = some r' ∧
        pos = r'.map fun z => (Arith.ofF (Arith.toF z.1), Arith.ofF (Arith.toF z.2))) := by
  simp only [finishEdge, getOriginSt, wp_bind, wp_get, wp_liftA, wp_deref, wp_zD, wp_newV, wp_appendConn, wp_updE, wp_modify]
  refine ⟨?_, or_of_none (hE.imp_right fun h => h.2.1.get)⟩
  intro o1 ho1
  left
  refine ⟨t, ht, ?_, or_of_none (hE.imp_right fun h => h.2.2.get)⟩
  intro o2 ho2
  refine ⟨?_, or_of_none (hE.imp_right fun h => h.1.ipt _ _)⟩
  intro p hp
  refine ⟨p.map fun z => (Arith.ofF (Arith.toF z.1), Arith.ofF (Arith.toF z.2)), ?_, o1, o2, p, ho1, ho2, hp, rfl⟩
  simp only [cutD, Function.update_self, List.nil_append, Function.update_idem]

/-- `getOrigin` without a sweep line is the position of the origin, if that is a vertex. -/
theorem getOrigin_none (bps : Nat → BpR) (d : Dcel K) (e : Nat) : ∃ o, getOrigin pts bps d e none none = some o ∧
    (o.isSome ↔ ∃ v p, (d.he e).origin = .vtx v ∧ (d.vs v).pos = some p) ∧
    ∀ v, (d.he e).origin = .vtx v → o = (d.vs v).pos.map fun p => (p.1, .fin p.2) := by
  unfold getOrigin
  cases hv : (d.he e).origin with
  | bp b => exact ⟨none, rfl, by simp, by simp⟩
  | vtx v =>
    refine ⟨_, rfl, ?_, ?_⟩
    · cases hp : (d.vs v).pos with
      | none =>
        simp only [Option.map_none, Option.isSome_none, Bool.false_eq_true, false_iff, not_exists, not_and]
        rintro w p h1 h2
        cases h1
        rw [hp] at h2
        cases h2
      | some p => simp only [Option.map_some, Option.isSome_some, true_iff]; exact ⟨v, p, rfl, hp⟩
    · intro w hw; cases hw; rfl

/-- The half-edges changed when the edges `es` are clipped. -/
def EdgesOf (d : Dcel K) (es : List Nat) (f : Nat) : Prop := f ∈ es ∨ ∃ e ∈ es, (d.he e).twin = some f

/-- The result of clipping `es`. -/
structure FE (pts : Nat → K × K) (poly : Poly K) (es : List Nat) (s : St K) (r : List Nat) (s' : St K) : Prop where
  eq : s' = { s with d := s'.d, polyVerts := s'.polyVerts, log := s'.log }
  log : steps s'.log = steps s.log
  ok : DOk s'.d
  coh : CohW poly s'.d
  keeps : Keeps (EdgesOf s.d es) s.d s'.d
  sub : r <+ es
  good : ∀ e ∈ r, Good poly s'.d e ∧ ∀ t, (s.d.he e).twin = some t → Good poly s'.d t
  nil : es = [] → s' = s
  pos : ∀ e ∈ es, ∀ t, (s.d.he e).twin = some t → ∃ a b, Cut poly (opos s.d e) (rawO pts poly s.bps s.d e) (rawO pts poly s.bps s.d t) a ∧
    Cut poly (opos s.d t) (rawO pts poly s.bps s.d t) (some (finO a)) b ∧ opos s'.d e = a ∧ opos s'.d t = b ∧ (e ∈ r ↔ a.isSome ∧ b.isSome)
  lost : ∀ e ∈ es, e ∉ r → ∃ f, (f = e ∨ (s.d.he e).twin = some f) ∧ opos s'.d f = none
  pv : ∃ new, s'.polyVerts = s.polyVerts ++ new ∧ new.Nodup ∧ ∀ v ∈ new, s.d.vCnt ≤ v ∧ v < s'.d.vCnt ∧
    ((s'.d.vs v).conn = [] ∨ ∃ c < s.d.heCnt, (s'.d.vs v).conn = [c] ∧ (s'.d.he c).origin = .vtx v ∧ EdgesOf s.d r c)
  from_ : ∀ v ∈ s'.polyVerts, v ∈ s.polyVerts ∨ s.d.vCnt ≤ v ∧ ∃ f, EdgesOf s.d es f ∧ (s'.d.he f).origin = .vtx v
  org : ∀ f, EdgesOf s.d es f → ((s'.d.he f).origin = (s.d.he f).origin ∧ ∃ p, opos s.d f = some p ∧ inside poly.points p = some true) ∨
    (∀ p, opos s.d f = some p → inside poly.points p = some false) ∧ ∃ v ∈ s'.polyVerts, s.d.vCnt ≤ v ∧ (s'.d.he f).origin = .vtx v
  links : ∀ d0 X, Lnk d0 X s.d → (∀ f, EdgesOf s.d es f → ¬ X f) → Lnk d0 (fun f => X f ∨ EdgesOf s.d es f ∧ ¬ EdgesOf s.d r f) s'.d

theorem steps_dbg (l : List Msg) : steps (l ++ [.debug]) = steps l := by simp [steps]

/-- Cutting one half-edge if its origin is outside. -/
theorem wp_cutIf {s : St K} {e t : Nat} (hok : DOk s.d) (hcoh : CohW poly s.d) (he : e < s.d.heCnt) (hp : Pend s.d e)
    (ht : (s.d.he e).twin = some t) (hE : E .arith ∨ GeoTot poly ∧ OrgTot pts poly s e ∧ OrgTot pts poly s t) {β : Type} {k : AM K β} {Q : β → St K → Prop}
    (h : ∀ s' new, s' = { s with d := s'.d, polyVerts := s.polyVerts ++ new } → DOk s'.d → CohW poly s'.d → Keeps (· = e) s.d s'.d →
      (∀ v, (s'.d.he e).origin = .vtx v → e ∈ (s'.d.vs v).conn) → ((∃ v p, (s'.d.he e).origin = .vtx v ∧ (s'.d.vs v).pos = some p) → Good poly s'.d e) →
      ((new = [] ∧ s'.d = s.d ∧ ∃ p, opos s.d e = some p ∧ inside poly.points p = some true) ∨ (new = [s.d.vCnt] ∧ s'.d.vCnt = s.d.vCnt + 1 ∧ (s'.d.vs s.d.vCnt).conn = [e] ∧
        (s'.d.he e).origin = .vtx s.d.vCnt ∧ ∀ p, opos s.d e = some p → inside poly.points p = some false)) →
      (∀ d0 X, Lnk d0 X s.d → Lnk d0 X s'.d) →
      (∃ v, (s'.d.he e).origin = .vtx v) → Cut poly (opos s.d e) (rawO pts poly s.bps s.d e) (rawO pts poly s.bps s.d t) (opos s'.d e) →
      Wp E k s' Q) :
    Wp E (do let b ← outside pts poly e; whenDo b (finishEdge pts poly e); k) s Q := by
  rw [wp_bind]
  refine wp_mono (wp_outside (hE.imp_right And.left)) ?_
  rintro b s1 ⟨h1, hf, htr⟩
  subst h1
  rw [wp_bind, wp_whenDo]
  constructor
  · intro hb
    refine wp_mono (wp_finishEdge ht hE) ?_
    rintro _ _ ⟨pos, rfl, a, b', r', c1, c2, c3, c4⟩
    refine h _ [s1.d.vCnt] rfl (hok.cut he pos) (hcoh.cut pos ?_) (keeps_cut _ e pos) ?_ ?_ (Or.inr ⟨rfl, rfl, by simp [cutD], by simp [cutD], ?_⟩)
      (fun d0 X h => h.congr ?_ ?_ rfl) ⟨s1.d.vCnt, by simp [cutD]⟩ (Or.inr ⟨?_, a, b', r', c1, c2, c3, by rw [← c4]; simp [cutD, opos]⟩)
    · intro v hv
      obtain ⟨p, hpp⟩ := Option.isSome_iff_exists.mp (hp v hv).2
      exact ⟨p, hpp, htr hb v p hv hpp⟩
    · intro v hv
      simp only [cutD, Function.update_self] at hv
      cases hv
      simp [cutD]
    · rintro ⟨v, p, hv, hpp⟩
      refine ⟨v, p, hv, ?_, hpp, ?_, Or.inr ?_⟩
      all_goals simp only [cutD, Function.update_self] at hv
      all_goals cases hv
      all_goals simp [cutD]
    · intro p hpo
      unfold opos at hpo
      cases hv : (s1.d.he e).origin with
      | bp b => rw [hv] at hpo; cases hpo
      | vtx v => rw [hv] at hpo; exact htr hb v p hv hpo
    · intro f
      by_cases hf : f = e
      · subst hf; simp [cutD]
      · simp [cutD, Function.update_of_ne hf]
    · intro f
      by_cases hf : f = e
      · subst hf; simp [cutD]
      · simp [cutD, Function.update_of_ne hf]
    · intro p hpo
      unfold opos at hpo
      cases hv : (s1.d.he e).origin with
      | bp b => rw [hv] at hpo; cases hpo
      | vtx v => rw [hv] at hpo; exact htr hb v p hv hpo
  · intro hb
    obtain ⟨v, p, h1, h2, h3⟩ := hf hb
    refine h s1 [] (by simp) hok hcoh (Keeps.refl _ _) (fun v hv => (hp v hv).1) ?_ (Or.inl ⟨rfl, rfl, p, by rw [opos_vtx h1, h2], h3⟩) (fun _ _ h => h) ⟨v, h1⟩
      (Or.inl ⟨p, by rw [opos_vtx h1, h2], h3, by rw [opos_vtx h1, h2]⟩)
    intro _
    exact ⟨v, p, h1, hok.org e he v h1, h2, (hp v h1).1, Or.inl h3⟩

/-- Reading both ends of a clipped edge. -/
theorem wp_getOriginNone {s : St K} {e : Nat} {β : Type} {k : Option (K × Ext K) → AM K β} {Q : β → St K → Prop}
    (h : ∀ o, (o.isSome ↔ ∃ v p, (s.d.he e).origin = .vtx v ∧ (s.d.vs v).pos = some p) → Wp E (k o) s Q) :
    Wp E (do let o ← getOriginSt pts e none none; k o) s Q := by
  obtain ⟨o, ho, h1, _⟩ := getOrigin_none (pts := pts) s.bps s.d e
  simp only [getOriginSt, wp_bind, wp_get, wp_liftA, ho]
  refine ⟨?_, by simp⟩
  intro o' ho'
  cases ho'
  exact h o h1

theorem EdgesOf.cons {d : Dcel K} {e : Nat} {es : List Nat} {f : Nat} (h : EdgesOf d es f) : EdgesOf d (e :: es) f := by
  rcases h with h | ⟨a, h1, h2⟩
  · exact Or.inl (List.mem_cons_of_mem _ h)
  · exact Or.inr ⟨a, List.mem_cons_of_mem _ h1, h2⟩

theorem EdgesOf.sub {d : Dcel K} {r es : List Nat} {f : Nat} (hs : r ⊆ es) (h : EdgesOf d r f) : EdgesOf d es f := by
  rcases h with h | ⟨a, h1, h2⟩
  · exact Or.inl (hs h)
  · exact Or.inr ⟨a, hs h1, h2⟩

/-- The state after one edge, before the rest of the list. -/
structure FE1 (pts : Nat → K × K) (poly : Poly K) (e t : Nat) (keep : Prop) (s s' : St K) : Prop where
  eq : s' = { s with d := s'.d, polyVerts := s'.polyVerts, log := s'.log }
  log : steps s'.log = steps s.log
  ok : DOk s'.d
  coh : CohW poly s'.d
  keeps : Keeps (fun f => f = e ∨ f = t) s.d s'.d
  good : keep → Good poly s'.d e ∧ Good poly s'.d t
  lost : ¬ keep → ∃ f, (f = e ∨ f = t) ∧ opos s'.d f = none
  pos : ∃ a b, Cut poly (opos s.d e) (rawO pts poly s.bps s.d e) (rawO pts poly s.bps s.d t) a ∧
    Cut poly (opos s.d t) (rawO pts poly s.bps s.d t) (some (finO a)) b ∧ opos s'.d e = a ∧ opos s'.d t = b ∧ (keep ↔ a.isSome ∧ b.isSome)
  pv : ∃ new, s'.polyVerts = s.polyVerts ++ new ∧ new.Nodup ∧ ∀ v ∈ new, s.d.vCnt ≤ v ∧ v < s'.d.vCnt ∧
    ((s'.d.vs v).conn = [] ∨ keep ∧ (((s'.d.vs v).conn = [e] ∧ (s'.d.he e).origin = .vtx v) ∨ ((s'.d.vs v).conn = [t] ∧ (s'.d.he t).origin = .vtx v)))
  from_ : ∀ v ∈ s'.polyVerts, v ∈ s.polyVerts ∨ s.d.vCnt ≤ v ∧ ∃ f, (f = e ∨ f = t) ∧ (s'.d.he f).origin = .vtx v
  org : ∀ f, f = e ∨ f = t → ((s'.d.he f).origin = (s.d.he f).origin ∧ ∃ p, opos s.d f = some p ∧ inside poly.points p = some true) ∨
    (∀ p, opos s.d f = some p → inside poly.points p = some false) ∧ ∃ v ∈ s'.polyVerts, s.d.vCnt ≤ v ∧ (s'.d.he f).origin = .vtx v
  links : ∀ d0 X, Lnk d0 X s.d → ¬ X e → ¬ X t → Lnk d0 (fun f => X f ∨ ¬ keep ∧ (f = e ∨ f = t)) s'.d

theorem edgesOf_congr {d d' : Dcel K} (h : ∀ f, (d'.he f).twin = (d.he f).twin) (es : List Nat) (f : Nat) : EdgesOf d' es f ↔ EdgesOf d es f := by
  unfold EdgesOf; simp only [h]

theorem opos_keep {X : Nat → Prop} {d d' : Dcel K} (h : Keeps X d d') {f : Nat} (hf : ¬ X f) (ho : ∀ v, (d.he f).origin = .vtx v → v < d.vCnt) :
    opos d' f = opos d f := by
  unfold opos
  rw [h.org f hf]
  cases hv : (d.he f).origin with
  | bp b => rfl
  | vtx v => exact h.pos v (ho v hv)

theorem rawO_keep {X : Nat → Prop} {d d' : Dcel K} (h : Keeps X d d') {bps : Nat → BpR} {f : Nat} (hf : ¬ X f)
    (ho : ∀ v, (d.he f).origin = .vtx v → v < d.vCnt) : rawO pts poly bps d' f = rawO pts poly bps d f := by
  unfold rawO getOrigin
  rw [h.org f hf]
  cases hv : (d.he f).origin with
  | bp b => rfl
  | vtx v => simp only [h.pos v (ho v hv)]

theorem FE.cons {e t : Nat} {es : List Nat} {keep : Prop} [Decidable keep] {s s1 s' : St K} {r : List Nat} (ht : (s.d.he e).twin = some t)
    (htt : (s.d.he t).twin = some e) (he : e < s.d.heCnt) (htl : t < s.d.heCnt) (hene : e ∉ es) (htes : t ∉ es)
    (htw : ∀ f < s.d.heCnt, ∀ g, (s.d.he f).twin = some g → (s.d.he g).twin = some f) (hlt : ∀ f ∈ es, f < s.d.heCnt)
    (hok : DOk s.d) (h1 : FE1 pts poly e t keep s s1) (h2 : FE pts poly es s1 r s') : FE pts poly (e :: es) s (if keep then e :: r else r) s' := by
  have hek : ∀ f, EdgesOf s1.d es f ↔ EdgesOf s.d es f := edgesOf_congr h1.keeps.twin es
  have hxe : ¬ EdgesOf s.d es e := by
    rintro (h | ⟨a, ha, h⟩)
    · exact hene h
    · have := htw a (hlt a ha) e h
      rw [ht] at this
      cases this
      exact htes ha
  have hxt : ¬ EdgesOf s.d es t := by
    rintro (h | ⟨a, ha, h⟩)
    · exact htes h
    · have := htw a (hlt a ha) t h
      rw [htt] at this
      cases this
      exact hene ha
  have hE : ∀ f, f = e ∨ f = t → EdgesOf s.d (e :: es) f := by
    rintro f (rfl | rfl)
    · exact Or.inl (List.mem_cons_self ..)
    · exact Or.inr ⟨e, List.mem_cons_self .., ht⟩
  have hX : ∀ f, f = e ∨ f = t → ¬ EdgesOf s.d es f := by
    rintro f (rfl | rfl)
    · exact hxe
    · exact hxt
  refine ⟨?_, h2.log.trans h1.log, h2.ok, h2.coh, ?_, ?_, ?_, fun h => (List.cons_ne_nil _ _ h).elim, ?_, ?_, ?_, ?_, ?_, ?_⟩
  · rw [h2.eq, h1.eq]
  · exact (h1.keeps.mono hE).trans (h2.keeps.mono fun f hf => ((hek f).mp hf).cons)
  · split
    · exact h2.sub.cons_cons e
    · exact h2.sub.cons e
  · intro f hf
    have hr : f ∈ r → Good poly s'.d f ∧ ∀ t, (s.d.he f).twin = some t → Good poly s'.d t := by
      intro hf
      refine ⟨(h2.good f hf).1, fun u hu => (h2.good f hf).2 u ?_⟩
      rw [h1.keeps.twin]; exact hu
    split at hf
    next hk =>
      rcases List.mem_cons.mp hf with rfl | hf
      · refine ⟨(h1.good hk).1.keep h2.keeps fun h => hxe ((hek _).mp h), ?_⟩
        intro u hu
        rw [ht] at hu
        cases hu
        exact (h1.good hk).2.keep h2.keeps fun h => hxt ((hek _).mp h)
      · exact hr hf
    · exact hr hf
  · intro g hg u hu
    rcases List.mem_cons.mp hg with hge | hges
    · subst hge
      rw [ht, Option.some.injEq] at hu
      subst hu
      obtain ⟨a, b, c1, c2, c3, c4, c5⟩ := h1.pos
      refine ⟨a, b, c1, c2, ?_, ?_, ?_⟩
      · rw [opos_keep h2.keeps (fun h => hxe ((hek _).mp h)) (h1.ok.org g (by rw [h1.keeps.heCnt]; exact he))]; exact c3
      · rw [opos_keep h2.keeps (fun h => hxt ((hek _).mp h)) (h1.ok.org t (by rw [h1.keeps.heCnt]; exact htl))]; exact c4
      · rw [← c5]
        split
        next hk => exact ⟨fun _ => hk, fun _ => List.mem_cons_self ..⟩
        next hk => exact ⟨fun hh => absurd (h2.sub.subset hh) hene, fun hh => absurd hh hk⟩
    · have hgu := htw g (hlt g hges) u hu
      have hge : ¬ (g = e ∨ g = t) := by
        rintro (rfl | rfl)
        · exact hene hges
        · exact htes hges
      have hue : ¬ (u = e ∨ u = t) := by
        rintro (rfl | rfl)
        · rw [ht, Option.some.injEq] at hgu; subst hgu; exact htes hges
        · rw [htt, Option.some.injEq] at hgu; subst hgu; exact hene hges
      have hul : u < s.d.heCnt := by
        obtain ⟨u', a1, _, a2, _⟩ := hok.tw g (hlt g hges)
        rw [hu, Option.some.injEq] at a2; subst a2; exact a1
      obtain ⟨a, b, c1, c2, c3, c4, c5⟩ := h2.pos g hges u (by rw [h1.keeps.twin]; exact hu)
      have hb1 : s1.bps = s.bps := by rw [h1.eq]
      rw [hb1, rawO_keep h1.keeps hge (hok.org g (hlt g hges)), rawO_keep h1.keeps hue (hok.org u hul),
        opos_keep h1.keeps hge (hok.org g (hlt g hges))] at c1
      rw [hb1, rawO_keep h1.keeps hue (hok.org u hul), opos_keep h1.keeps hue (hok.org u hul)] at c2
      refine ⟨a, b, c1, c2, c3, c4, ?_⟩
      rw [← c5]
      split
      · rw [List.mem_cons]
        exact ⟨fun hh => hh.resolve_left fun h => hge (Or.inl h), Or.inr⟩
      · exact Iff.rfl
  · intro g hg hgr
    rcases List.mem_cons.mp hg with hge | hges
    · have hk : ¬ keep := by
        intro hk
        rw [if_pos hk] at hgr
        exact hgr (hge ▸ List.mem_cons_self ..)
      obtain ⟨f, hf, hfo⟩ := h1.lost hk
      have hfx : ¬ EdgesOf s1.d es f := by
        intro h
        rcases hf with rfl | rfl
        · exact hxe ((hek _).mp h)
        · exact hxt ((hek _).mp h)
      refine ⟨f, ?_, ?_⟩
      · rcases hf with rfl | rfl
        · exact Or.inl hge.symm
        · exact Or.inr (by rw [hge]; exact ht)
      · rw [opos_keep h2.keeps hfx (h1.ok.org f ?_)]
        · exact hfo
        · rw [h1.keeps.heCnt]
          rcases hf with rfl | rfl <;> assumption
    · have hgr' : g ∉ r := by
        intro h
        apply hgr
        split
        · exact List.mem_cons_of_mem _ h
        · exact h
      obtain ⟨f, hf, hfo⟩ := h2.lost g hges hgr'
      refine ⟨f, ?_, hfo⟩
      rw [h1.keeps.twin] at hf
      exact hf
  · obtain ⟨n1, a1, a2, a3⟩ := h1.pv
    obtain ⟨n2, b1, b2, b3⟩ := h2.pv
    refine ⟨n1 ++ n2, by rw [b1, a1, List.append_assoc], ?_, ?_⟩
    · refine List.nodup_append.mpr ⟨a2, b2, ?_⟩
      rintro v hv w hw rfl
      have := (a3 v hv).2.1
      have := (b3 v hw).1
      omega
    · intro v hv
      rcases List.mem_append.mp hv with hv | hv
      · obtain ⟨c1, c2, c3⟩ := a3 v hv
        refine ⟨c1, c2.trans_le h2.keeps.vCnt, ?_⟩
        rcases c3 with c3 | ⟨hk, ⟨c3, c4⟩ | ⟨c3, c4⟩⟩
        · left
          refine List.eq_nil_iff_forall_not_mem.mpr fun c hc => ?_
          have := h2.keeps.conn v c2 c hc
          rw [c3] at this
          cases this
        · right
          refine ⟨e, he, h2.keeps.conn1 v c2 e (fun h => hxe ((hek _).mp h)) c3, by rw [h2.keeps.org e fun h => hxe ((hek _).mp h)]; exact c4, ?_⟩
          rw [if_pos hk]
          exact Or.inl (List.mem_cons_self ..)
        · right
          refine ⟨t, htl, h2.keeps.conn1 v c2 t (fun h => hxt ((hek _).mp h)) c3, by rw [h2.keeps.org t fun h => hxt ((hek _).mp h)]; exact c4, ?_⟩
          rw [if_pos hk]
          exact Or.inr ⟨e, List.mem_cons_self .., ht⟩
      · obtain ⟨c1, c2, c3⟩ := b3 v hv
        refine ⟨h1.keeps.vCnt.trans c1, c2, ?_⟩
        rcases c3 with c3 | ⟨c, c4, c5, c7, c6⟩
        · exact Or.inl c3
        · right
          refine ⟨c, by rw [h1.keeps.heCnt] at c4; exact c4, c5, c7, ?_⟩
          have c6 := (edgesOf_congr h1.keeps.twin r c).mp c6
          split
          · exact c6.cons
          · exact c6
  · intro v hv
    rcases h2.from_ v hv with hv1 | ⟨c1, f, c2, c3⟩
    · rcases h1.from_ v hv1 with hv2 | ⟨c1, f, c2, c3⟩
      · exact Or.inl hv2
      · refine Or.inr ⟨c1, f, hE f c2, ?_⟩
        rw [h2.keeps.org f (fun h => hX f c2 ((hek _).mp h))]; exact c3
    · exact Or.inr ⟨h1.keeps.vCnt.trans c1, f, ((hek f).mp c2).cons, c3⟩
  · obtain ⟨n2, b1, _⟩ := h2.pv
    intro f hf
    by_cases hfe : EdgesOf s.d es f
    · have hft : ¬ (f = e ∨ f = t) := fun h => hX f h hfe
      have hfl : f < s.d.heCnt := by
        rcases hfe with h | ⟨a, ha, h⟩
        · exact hlt f h
        · obtain ⟨u', a1, _, a2, _⟩ := hok.tw a (hlt a ha)
          rw [h, Option.some.injEq] at a2; subst a2; exact a1
      rcases h2.org f ((hek f).mpr hfe) with ⟨c1, p, c2, c3⟩ | ⟨c0, v, c1, c2, c3⟩
      · refine Or.inl ⟨by rw [c1, h1.keeps.org f hft], p, ?_, c3⟩
        rw [← opos_keep h1.keeps hft (hok.org f hfl)]; exact c2
      · refine Or.inr ⟨fun p hp => c0 p ?_, v, c1, h1.keeps.vCnt.trans c2, c3⟩
        rw [opos_keep h1.keeps hft (hok.org f hfl)]; exact hp
    · have hft : f = e ∨ f = t := by
        rcases hf with h | ⟨a, ha, h⟩
        · rcases List.mem_cons.mp h with h | h
          · exact Or.inl h
          · exact absurd (Or.inl h) hfe
        · rcases List.mem_cons.mp ha with ha | ha
          · rw [ha, ht, Option.some.injEq] at h; exact Or.inr h.symm
          · exact absurd (Or.inr ⟨a, ha, h⟩) hfe
      rw [h2.keeps.org f (fun h => hfe ((hek _).mp h))]
      rcases h1.org f hft with c | ⟨c0, v, c1, c2, c3⟩
      · exact Or.inl c
      · exact Or.inr ⟨c0, v, by rw [b1]; exact List.mem_append_left _ c1, c2, c3⟩
  · intro d0 X hL hXn
    have l1 := h1.links d0 X hL (hXn e (hE e (Or.inl rfl))) (hXn t (hE t (Or.inr rfl)))
    have l2 := h2.links d0 _ l1 (by
      intro f hf
      have hf := (hek f).mp hf
      rintro (h | ⟨_, h⟩)
      · exact hXn f hf.cons h
      · exact hX f h hf)
    refine cast (congrArg (fun Y => Lnk d0 Y s'.d) (funext fun f => propext ?_)) l2
    simp only [hek, edgesOf_congr h1.keeps.twin r f]
    have hrs : EdgesOf s.d r f → EdgesOf s.d es f := EdgesOf.sub h2.sub.subset
    have hcons : ∀ l, EdgesOf s.d (e :: l) f ↔ (f = e ∨ f = t) ∨ EdgesOf s.d l f := by
      intro l
      unfold EdgesOf
      simp only [List.mem_cons, exists_eq_or_imp, ht, Option.some.injEq]
      grind
    have hx := hX f
    rw [hcons]
    split
    next hk => rw [hcons]; grind
    next hk => grind

/-- `finish_edges`: every remaining edge has both ends at vertices with a position; nothing but arithmetic can fail. -/
theorem wp_finishEdges (hG : E .arith ∨ GeoTot poly) : ∀ (es : List Nat) (s : St K), DOk s.d → CohW poly s.d → es.Nodup →
    (E .arith ∨ ∀ e ∈ es, OrgTot pts poly s e ∧ ∀ t, (s.d.he e).twin = some t → OrgTot pts poly s t) →
    (∀ e ∈ es, e < s.d.heCnt ∧ Pend s.d e ∧ ∀ t, (s.d.he e).twin = some t → t ∉ es ∧ Pend s.d t) →
    Wp E (finishEdges pts poly es) s (fun r s' => FE pts poly es s r s') := by
  intro es
  induction es with
  | nil =>
    intro s hok hcoh _ _ _
    simp only [finishEdges, wp_pure]
    exact ⟨rfl, rfl, hok, hcoh, Keeps.refl _ _, List.Sublist.refl _, by simp, fun _ => rfl, by simp, by simp, ⟨[], by simp⟩, fun v hv => Or.inl hv,
      by simp [EdgesOf], fun d0 X h _ => by simpa [EdgesOf] using h⟩
  | cons e es ih =>
    intro s hok hcoh hnd hO hes
    obtain ⟨hene, hnd'⟩ := List.nodup_cons.mp hnd
    obtain ⟨he, hpe, hte⟩ := hes e (List.mem_cons_self ..)
    obtain ⟨t, htlt, htne, ht, htt⟩ := hok.tw e he
    obtain ⟨htes0, hpt⟩ := hte t ht
    have htes : t ∉ es := fun h => htes0 (List.mem_cons_of_mem _ h)
    have htw : ∀ f < s.d.heCnt, ∀ g, (s.d.he f).twin = some g → (s.d.he g).twin = some f := by
      intro f hf g hg
      obtain ⟨g', _, _, h1, h2⟩ := hok.tw f hf
      rw [h1] at hg; cases hg; exact h2
    have hlt : ∀ f ∈ es, f < s.d.heCnt := fun f hf => (hes f (List.mem_cons_of_mem _ hf)).1
    have hrest : ∀ (keep : Prop) (s1 : St K), FE1 pts poly e t keep s s1 → Wp E (finishEdges pts poly es) s1 (fun r s' => FE pts poly es s1 r s') := by
      intro keep s1 h1
      have hb1 : s1.bps = s.bps := by rw [h1.eq]
      refine ih s1 h1.ok h1.coh hnd' (hO.imp_right fun hO f hf => ?_) ?_
      · have hft : ∀ u, ¬ (u = e ∨ u = t) → OrgTot pts poly s u → OrgTot pts poly s1 u := by
          intro u hu h
          refine h.keep hb1 fun b hv => ?_
          rw [h1.keeps.org u hu] at hv; exact hv
        obtain ⟨g1, g2⟩ := hO f (List.mem_cons_of_mem _ hf)
        refine ⟨hft f ?_ g1, fun u hu => ?_⟩
        · rintro (rfl | rfl)
          · exact hene hf
          · exact htes hf
        · rw [h1.keeps.twin] at hu
          have huf := htw f (hlt f hf) u hu
          refine hft u ?_ (g2 u hu)
          rintro (rfl | rfl)
          · rw [ht] at huf; cases huf; exact htes hf
          · rw [htt] at huf; cases huf; exact hene hf
      intro f hf
      obtain ⟨c1, c2, c3⟩ := hes f (List.mem_cons_of_mem _ hf)
      have hfe : f ≠ e := by rintro rfl; exact hene hf
      have hft : f ≠ t := by rintro rfl; exact htes hf
      refine ⟨by rw [h1.keeps.heCnt]; exact c1, c2.keep h1.keeps (by simp [hfe, hft]) (hok.org f c1), ?_⟩
      intro u hu
      rw [h1.keeps.twin] at hu
      obtain ⟨d1, d2⟩ := c3 u hu
      have huf := htw f c1 u hu
      have hult : u < s.d.heCnt := by
        obtain ⟨g', d3, _, d4, _⟩ := hok.tw f c1
        rw [d4] at hu; cases hu; exact d3
      have hue : u ≠ e := by rintro rfl; rw [ht] at huf; cases huf; exact htes hf
      have hut : u ≠ t := by rintro rfl; rw [htt] at huf; cases huf; exact hene hf
      exact ⟨fun h => d1 (List.mem_cons_of_mem _ h), d2.keep h1.keeps (by simp [hue, hut]) (hok.org u hult)⟩
    have hO1 : E .arith ∨ GeoTot poly ∧ OrgTot pts poly s e ∧ OrgTot pts poly s t := by
      rcases hG with hG | hG
      · exact Or.inl hG
      · exact hO.imp_right fun hO => ⟨hG, (hO e (List.mem_cons_self ..)).1, (hO e (List.mem_cons_self ..)).2 t ht⟩
    simp only [finishEdges]
    refine wp_cutIf hok hcoh he hpe ht hO1 ?_
    intro s1 n1 e1 hok1 hcoh1 hk1 hcn1 hg1 hn1 hl1 hvx1 hcut1
    have ht1 : (s1.d.he e).twin = some t := by rw [hk1.twin]; exact ht
    have htt1 : (s1.d.he t).twin = some e := by rw [hk1.twin]; exact htt
    rw [wp_bind, wp_get, wp_bind, wp_deref]
    left
    refine ⟨t, ht1, ?_⟩
    have htlt1 : t < s1.d.heCnt := by rw [hk1.heCnt]; exact htlt
    have helt1 : e < s1.d.heCnt := by rw [hk1.heCnt]; exact he
    have hO2 : E .arith ∨ GeoTot poly ∧ OrgTot pts poly s1 t ∧ OrgTot pts poly s1 e := by
      have hb1 : s1.bps = s.bps := by rw [e1]
      refine hO1.imp_right fun h => ⟨h.1, h.2.2.keep hb1 fun b hv => by rw [hk1.org t htne] at hv; exact hv, h.2.1.keep hb1 fun b hv => ?_⟩
      rcases hn1 with ⟨_, hd, _⟩ | ⟨_, _, _, hd, _⟩
      · rw [hd] at hv; exact hv
      · rw [hd] at hv; cases hv
    refine wp_cutIf hok1 hcoh1 htlt1 (hpt.keep hk1 htne (hok.org t htlt)) htt1 hO2 ?_
    intro s2 n2 e2 hok2 hcoh2 hk2 hcn2 hg2 hn2 hl2 hvx2 hcut2
    have hcut2' : Cut poly (opos s.d t) (rawO pts poly s.bps s.d t) (some (finO (opos s1.d e))) (opos s2.d t) := by
      have hb1 : s1.bps = s.bps := by rw [e1]
      obtain ⟨v, hv⟩ := hvx1
      rw [opos_keep hk1 htne (hok.org t htlt), hb1, rawO_keep hk1 htne (hok.org t htlt), rawO_vtx hv] at hcut2
      exact hcut2
    have hop2 : opos s2.d e = opos s1.d e := opos_keep hk2 (Ne.symm htne) (hok1.org e helt1)
    have hsome : ∀ f, (opos s2.d f).isSome ↔ ∃ v p, (s2.d.he f).origin = .vtx v ∧ (s2.d.vs v).pos = some p := by
      intro f
      unfold opos
      cases hv : (s2.d.he f).origin with
      | bp b => simp
      | vtx v =>
        rw [Option.isSome_iff_exists]
        exact ⟨fun ⟨p, hp⟩ => ⟨v, p, rfl, hp⟩, fun ⟨w, p, h1, h2⟩ => by cases h1; exact ⟨p, h2⟩⟩
    have hcn1' : ∀ v, (s2.d.he e).origin = .vtx v → e ∈ (s2.d.vs v).conn := by
      intro v hv
      rw [hk2.org e (Ne.symm htne)] at hv
      exact hk2.connK v (hok1.org e helt1 v hv) e (Ne.symm htne) (hcn1 v hv)
    have hkk : Keeps (fun f => f = e ∨ f = t) s.d s2.d := (hk1.mono fun _ => Or.inl).trans (hk2.mono fun _ => Or.inr)
    have hs2 : s2 = { s with d := s2.d, polyVerts := s.polyVerts ++ (n1 ++ n2) } := by
      rw [e2, e1]; simp only [List.append_assoc]
    have hpv : (n1 ++ n2).Nodup ∧ ∀ v ∈ n1 ++ n2, s.d.vCnt ≤ v ∧ v < s2.d.vCnt ∧
        (((s2.d.vs v).conn = [e] ∧ (s2.d.he e).origin = .vtx v) ∨ ((s2.d.vs v).conn = [t] ∧ (s2.d.he t).origin = .vtx v)) := by
      have f1 : ∀ v ∈ n1, s.d.vCnt ≤ v ∧ v < s1.d.vCnt ∧ (s2.d.vs v).conn = [e] ∧ (s2.d.he e).origin = .vtx v := by
        intro v hv
        rcases hn1 with ⟨hn, _⟩ | ⟨hn, a1, a2, a3, _⟩
        · rw [hn] at hv; cases hv
        · rw [hn, List.mem_singleton] at hv
          subst hv
          refine ⟨le_rfl, by omega, hk2.conn1 _ (by omega) e (Ne.symm htne) a2, ?_⟩
          rw [hk2.org e (Ne.symm htne)]; exact a3
      have f2 : ∀ v ∈ n2, s1.d.vCnt ≤ v ∧ v < s2.d.vCnt ∧ (s2.d.vs v).conn = [t] ∧ (s2.d.he t).origin = .vtx v := by
        intro v hv
        rcases hn2 with ⟨hn, _⟩ | ⟨hn, a1, a2, a3, _⟩
        · rw [hn] at hv; cases hv
        · rw [hn, List.mem_singleton] at hv
          subst hv
          exact ⟨le_rfl, by omega, a2, a3⟩
      constructor
      · refine List.nodup_append.mpr ⟨?_, ?_, ?_⟩
        · rcases hn1 with ⟨hn, _⟩ | ⟨hn, _⟩ <;> simp [hn]
        · rcases hn2 with ⟨hn, _⟩ | ⟨hn, _⟩ <;> simp [hn]
        · rintro v hv w hw rfl
          have := (f1 v hv).2.1
          have := (f2 v hw).1
          omega
      · intro v hv
        rcases List.mem_append.mp hv with hv | hv
        · obtain ⟨a1, a2, a3⟩ := f1 v hv
          exact ⟨a1, a2.trans_le hk2.vCnt, Or.inl a3⟩
        · obtain ⟨a1, a2, a3⟩ := f2 v hv
          exact ⟨hk1.vCnt.trans a1, a2, Or.inr a3⟩
    have heo : (s2.d.he e).origin = (s1.d.he e).origin := hk2.org e (Ne.symm htne)
    have hfrom : ∀ v ∈ s2.polyVerts, v ∈ s.polyVerts ∨ s.d.vCnt ≤ v ∧ ∃ f, (f = e ∨ f = t) ∧ (s2.d.he f).origin = .vtx v := by
      intro v hv
      rw [hs2] at hv
      rcases List.mem_append.mp hv with hv | hv
      · exact Or.inl hv
      · obtain ⟨a1, _, ⟨_, a3⟩ | ⟨_, a3⟩⟩ := hpv.2 v hv
        · exact Or.inr ⟨a1, e, Or.inl rfl, a3⟩
        · exact Or.inr ⟨a1, t, Or.inr rfl, a3⟩
    have horg : ∀ f, f = e ∨ f = t → ((s2.d.he f).origin = (s.d.he f).origin ∧ ∃ p, opos s.d f = some p ∧ inside poly.points p = some true) ∨
        (∀ p, opos s.d f = some p → inside poly.points p = some false) ∧ ∃ v ∈ s2.polyVerts, s.d.vCnt ≤ v ∧ (s2.d.he f).origin = .vtx v := by
      have hpv2 : s2.polyVerts = s.polyVerts ++ (n1 ++ n2) := by rw [hs2]
      rintro f (rfl | rfl)
      · rw [heo]
        rcases hn1 with ⟨_, hd, p, a1, a2⟩ | ⟨hn, _, _, a3, a4⟩
        · exact Or.inl ⟨by rw [hd], p, a1, a2⟩
        · exact Or.inr ⟨a4, _, by rw [hpv2, hn]; simp, le_rfl, a3⟩
      · rcases hn2 with ⟨_, hd, p, a1, a2⟩ | ⟨hn, _, _, a3, a4⟩
        · exact Or.inl ⟨by rw [hd, hk1.org f htne], p, by rw [← opos_keep hk1 htne (hok.org f htlt)]; exact a1, a2⟩
        · refine Or.inr ⟨fun p hp => a4 p ?_, _, by rw [hpv2, hn]; simp, hk1.vCnt, a3⟩
          rw [opos_keep hk1 htne (hok.org f htlt)]; exact hp
    refine wp_getOriginNone ?_
    intro o1 ho1
    refine wp_getOriginNone ?_
    intro o2 ho2
    rw [wp_ite]
    constructor
    · intro hb
      rw [Bool.and_eq_true] at hb
      have hge : Good poly s2.d e := by
        obtain ⟨v, p, g1, g2⟩ := ho1.mp hb.1
        refine (hg1 ⟨v, p, by rw [← heo]; exact g1, ?_⟩).keep hk2 (Ne.symm htne)
        rw [← hk2.pos v (hok1.org e helt1 v (by rw [← heo]; exact g1))]
        exact g2
      have hF : FE1 pts poly e t True s s2 := by
        refine ⟨by rw [hs2], by rw [hs2], hok2, hcoh2, hkk, fun _ => ⟨hge, hg2 (ho2.mp hb.2)⟩, fun h => absurd trivial h,
          ⟨opos s1.d e, opos s2.d t, hcut1, hcut2', hop2, rfl, fun _ => ⟨by rw [← hop2, hsome, ← ho1]; exact hb.1, by rw [hsome, ← ho2]; exact hb.2⟩, fun _ => trivial⟩, ⟨n1 ++ n2, by rw [hs2], hpv.1, ?_⟩, hfrom, horg,
          fun d0 X h _ _ => by simpa using hl2 d0 X (hl1 d0 X h)⟩
        intro v hv
        obtain ⟨a1, a2, a3⟩ := hpv.2 v hv
        exact ⟨a1, a2, Or.inr ⟨trivial, a3⟩⟩
      rw [wp_bind]
      refine wp_mono (hrest True s2 hF) ?_
      intro r s' hr
      rw [wp_pure]
      exact FE.cons (keep := True) ht htt he htlt hene htes htw hlt hok hF hr
    · intro hb
      have htlt2 : t < s2.d.heCnt := by rw [hkk.heCnt]; exact htlt
      have helt2 : e < s2.d.heCnt := by rw [hkk.heCnt]; exact he
      rw [wp_bind, wp_zD]
      refine wp_deleteHE hcn1' (fun _ f hf => (hok2.nx e helt2 f hf).2) ?_
      rw [wp_bind, wp_zD]
      have hok3 := hok2.del helt2
      have hk3 := keeps_del s2.d e
      refine wp_deleteHE ?_ (fun _ f hf => (hok3.nx t htlt2 f hf).2) ?_
      · intro v hv
        rw [delD_org] at hv
        exact hk3.connK v (hok2.org t htlt2 v hv) t htne (hcn2 v hv)
      have hok4 := hok3.del (e := t) htlt2
      have hk4 := keeps_del (delD s2.d e) t
      rw [wp_bind, wp_notify]
      have hF : FE1 pts poly e t False s { s2 with d := delD (delD s2.d e) t, log := s2.log ++ [.debug] } := by
        refine ⟨by rw [hs2], by rw [hs2]; exact steps_dbg _, hok4, (hcoh2.del e).del t,
          hkk.trans ((hk3.mono fun _ => Or.inl).trans (hk4.mono fun _ => Or.inr)), False.elim, ?_,
          ⟨opos s1.d e, opos s2.d t, hcut1, hcut2', ?_, ?_, False.elim, fun hh => hb ?_⟩, ⟨n1 ++ n2, by rw [hs2], hpv.1, ?_⟩, ?_, ?_, ?_⟩
        · intro _
          have hnone : ∀ f, ¬ (∃ v p, (s2.d.he f).origin = .vtx v ∧ (s2.d.vs v).pos = some p) → opos (delD (delD s2.d e) t) f = none := by
            intro f hf
            unfold opos
            rw [delD_org, delD_org]
            cases hv : (s2.d.he f).origin with
            | bp b => rfl
            | vtx v =>
              show ((delD (delD s2.d e) t).vs v).pos = none
              rw [delD_pos, delD_pos]
              by_contra hne
              obtain ⟨p, hp⟩ := Option.ne_none_iff_exists'.mp hne
              exact hf ⟨v, p, hv, hp⟩
          rw [Bool.and_eq_true] at hb
          by_cases h1 : o1.isSome
          · exact ⟨t, Or.inr rfl, hnone t fun h => hb ⟨h1, ho2.mpr h⟩⟩
          · exact ⟨e, Or.inl rfl, hnone e fun h => h1 (ho1.mpr h)⟩
        · rw [← hop2]
          show opos (delD (delD s2.d e) t) e = _
          unfold opos
          rw [delD_org, delD_org]
          cases (s2.d.he e).origin with
          | bp b => rfl
          | vtx v => simp only [delD_pos]
        · show opos (delD (delD s2.d e) t) t = _
          unfold opos
          rw [delD_org, delD_org]
          cases (s2.d.he t).origin with
          | bp b => rfl
          | vtx v => simp only [delD_pos]
        · rw [Bool.and_eq_true, ho1, ho2, ← hsome, ← hsome, hop2]
          exact hh
        · intro v hv
          obtain ⟨a1, a2, a3⟩ := hpv.2 v hv
          refine ⟨a1, a2, Or.inl ?_⟩
          show ((delD (delD s2.d e) t).vs v).conn = []
          rw [delD_conn, delD_conn, delD_org]
          rcases a3 with ⟨a3, a4⟩ | ⟨a3, a4⟩
          · rw [if_pos a4, a3]; simp
          · rw [if_pos a4, a3]
            split
            · have hnm : e ∉ [t] := by simp [Ne.symm htne]
              rw [List.erase_of_not_mem hnm]
              exact List.erase_cons_head ..
            · exact List.erase_cons_head ..
        · simp only [delD_org]; exact hfrom
        · simp only [delD_org]; exact horg
        · intro d0 X h he0 ht0
          have h3 := (hl2 d0 X (hl1 d0 X h)).del (fun q h => (hok2.fe q e h).2) he0 (Y := fun f => X f ∨ f = e) fun f => Iff.rfl
          exact h3.del (fun q h => (hok3.fe q t h).2) (by simp [ht0, htne]) fun f => by simp [or_assoc]
      refine wp_mono (hrest False _ hF) ?_
      intro r s' hr
      exact FE.cons (keep := False) ht htt he htlt hene htes htw hlt hok hF hr

end Foronoi
