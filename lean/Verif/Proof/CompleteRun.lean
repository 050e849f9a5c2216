import Verif.Proof.Trace

/-!
# Nothing is missed by the sweep: the run

The invariant of `Verif.Proof.Complete` along the events handled by the main loop.
-/

namespace Foronoi

open scoped List

variable {pts : Nat → Pt} {q : PQ (QE ℝ)} {ok : List (QE ℝ) → Prop} {n pc : Nat} {poly : Poly ℝ}

/-- Splitting the beach line at an entry of the list of its sites. -/
theorem apts_cut {s : St ℝ} : ∀ (L : List (Item Dat)) (B C : List Pt) (b : Pt), KindsOk L → apts pts s L = B ++ b :: C →
    ∃ P m x R, L = P ++ ⟨m, true, .arc x⟩ :: R ∧ apts pts s P = B ∧ pts (s.og x) = b ∧ apts pts s R = C := by
  intro L
  induction L with
  | nil => intro B C b _ h; simp [apts] at h
  | cons y L ih =>
    intro B C b hk h
    rcases hk y (by simp) with ⟨x, h1, h2⟩ | ⟨x, h1, h2⟩
    · obtain ⟨i, f, d⟩ := y
      simp only at h1 h2; subst h1; subst h2
      have e : apts pts s (⟨i, true, .arc x⟩ :: L) = pts (s.og x) :: apts pts s L := by simp [apts]
      rw [e] at h
      cases B with
      | nil =>
        simp only [List.nil_append, List.cons.injEq] at h
        exact ⟨[], i, x, L, rfl, rfl, h.1, h.2⟩
      | cons z B =>
        simp only [List.cons_append, List.cons.injEq] at h
        obtain ⟨P, m, x', R, g1, g2, g3, g4⟩ := ih B C b (fun y hy => hk y (by simp [hy])) h.2
        exact ⟨⟨i, true, .arc x⟩ :: P, m, x', R, by rw [g1]; rfl, by
          have : apts pts s (⟨i, true, .arc x⟩ :: P) = pts (s.og x) :: apts pts s P := by simp [apts]
          rw [this, g2, h.1], g3, g4⟩
    · obtain ⟨i, f, d⟩ := y
      simp only at h1 h2; subst h1; subst h2
      have e : ∀ L, apts pts s (⟨i, false, .bp x⟩ :: L) = apts pts s L := by intro L; simp [apts]
      rw [e] at h
      obtain ⟨P, m, x', R, g1, g2, g3, g4⟩ := ih B C b (fun y hy => hk y (by simp [hy])) h
      exact ⟨⟨i, false, .bp x⟩ :: P, m, x', R, by rw [g1]; rfl, by rw [e]; exact g2, g3, g4⟩

/-- The beach line after a site event, in terms of the sites of its arcs. -/
theorem GInv.site_shape {s s1 : St ℝ} {L L' pre post : List (Item Dat)} {l : ℝ} {m a : Nat} {inter : Bool} (hinj : Set.InjOn pts {p | p < n})
    (hI : Inv pts ok n pc s L) (hG : GInv pts s L l) (hq : q.Spec evLt ok)
    {e : QE ℝ} {rest : List (QE ℝ)} (hp : q.pop s.queue = some (e, rest)) (hc : e.circ = false) (hpost : inter = false → post = [])
    (hs : SiteNext pts q e.ref (siteStart e rest s) L s1 L' pre post m a inter) :
    Handled pts (stepEnd (.site e.ref) s1) = Insert.insert (pts e.ref) (Handled pts s) ∧
    (∀ c ∈ Handled pts s, e.yd ≤ c.2 ∧ (c.2 = e.yd → c.1 < (pts e.ref).1)) ∧ (pts e.ref).2 = e.yd ∧
    ((inter = false ∧ apts pts s L = apts pts s pre ++ [pts (s.og a)] ∧ apts pts (stepEnd (.site e.ref) s1) L' = apts pts s L ++ [pts e.ref] ∧
        TopRow (Handled pts (stepEnd (.site e.ref) s1)) e.yd (apts pts (stepEnd (.site e.ref) s1) L')) ∨
      (inter = true ∧ Env (Handled pts s) e.yd (apts pts s L) ∧ (pts e.ref).2 = e.yd ∧ e.yd < (pts (s.og a)).2 ∧
        apts pts s L = apts pts s pre ++ pts (s.og a) :: apts pts s post ∧
        apts pts (stepEnd (.site e.ref) s1) L' = apts pts s pre ++ pts (s.og a) :: pts e.ref :: pts (s.og a) :: apts pts s post ∧
        ∀ c ∈ (apts pts s pre).getLast?, bpX c (pts (s.og a)) e.yd < (pts e.ref).1)) := by
  obtain ⟨h1, h2, h3, h4⟩ := pop_site hI hq hp hc
  have hmin := hq.pop_min _ _ _ hI.qinv.ok hp
  have hperm := hq.pop_perm _ _ _ hI.qinv.ok hp
  obtain ⟨hle, hor⟩ := hG.next hI hq hp
  have hy : e.yd = (pts e.ref).2 := by rw [h1]; rfl
  have hx : e.xd = (pts e.ref).1 := by rw [h1]; rfl
  obtain ⟨log', _, heq⟩ := hs.eq
  have hL := hs.split
  have hb : BOk s.og s.pr s.arcCnt s.bpCnt L := hI.beach
  -- sites on the sweep line are left of the new one
  have hlast : ∀ c ∈ Handled pts s, c.2 = e.yd → c.1 < (pts e.ref).1 := by
    rintro c ⟨p, hpn, rfl⟩ hcy
    obtain ⟨_, g2, _⟩ := evLt_false (h4 p hpn)
    have g3 := g2 (by rw [← hcy]; rfl)
    have g4 : (pts p).1 ≤ (pts e.ref).1 := by rw [← hx]; exact g3
    refine lt_of_le_of_ne g4 fun hh => ?_
    have hpe : pts p = pts e.ref := Prod.ext hh (by rw [hcy, hy])
    obtain ⟨k, hk⟩ := Option.isSome_iff_exists.mp hpn
    have := hinj (hI.sinv.nmLt p k hk).2 h2 hpe
    rw [this, h3] at hpn; simp at hpn
  have hnames : (stepEnd (.site e.ref) s1).names = Function.update s.names e.ref (some s.nextName) := by
    show s1.names = _
    rw [heq]; cases inter
    · rfl
    · exact checkAdd_names ..
  have hH := handled_site (pts := pts) hnames h3
  have horigs : origs s1.og L' = origs s.og pre ++ ((if inter then [(s.arcs a).origin, e.ref, (s.arcs a).origin] else [(s.arcs a).origin, e.ref]) ++
      origs s.og post) := hs.origs_eq hb
  have hAL : apts pts s L = apts pts s pre ++ pts (s.og a) :: apts pts s post := by rw [hL, apts_append, apts_arc]
  -- the topmost row
  rcases hor with hE | ⟨hel, hT⟩
  swap
  · have haS : pts (s.og a) ∈ Handled pts s := (hT.mem _).mp (by rw [hAL]; simp)
    have hint : inter = false := by
      rw [hs.int]
      have g1 := hT.row _ haS
      have g2 := hlast _ haS (by rw [g1, hel])
      unfold doesIntersect
      have g3 : (pts e.ref).2 = (pts (s.og a)).2 := by rw [g1, ← hel, hy]
      show (!(decide ((pts e.ref).2 = (pts (s.og a)).2) && decide ((pts (s.og a)).1 < (pts e.ref).1))) = false
      rw [decide_eq_true g3, decide_eq_true g2]; rfl
    have hpn := hpost hint
    subst hint; subst hpn
    have hA' : apts pts (stepEnd (.site e.ref) s1) L' = apts pts s L ++ [pts e.ref] := by
      show (origs s1.og L').map pts = _
      rw [horigs, hAL]
      simp [apts, St.og]
    have hT' : TopRow (Handled pts (stepEnd (.site e.ref) s1)) e.yd (apts pts (stepEnd (.site e.ref) s1) L') := by
      rw [hH, hA', hel]
      exact hT.snoc (by rw [← hy, hel]) fun c hc => hlast c hc (by rw [hT.row c hc, hel])
    exact ⟨hH, fun c hc => ⟨by rw [hT.row c hc, hel], hlast c hc⟩, hy.symm, Or.inl ⟨rfl, hAL, hA', hT'⟩⟩
  -- the place found by the search
  obtain ⟨t, hio, l', hl', hlook⟩ := hs.found
  have hll : l' = e.yd := by
    have : (siteStart e rest s).sweep = some e.yd := rfl
    rw [this] at hl'; simpa using hl'.symm
  subst hll
  obtain ⟨pre', post', g1, g2, g3⟩ := lookup_left hlook
  rw [hio] at g1
  obtain ⟨rfl, rfl⟩ := hb.split_unique hL g1
  have hmemS : ∀ i ∈ origs s.og L, pts i ∈ Handled pts s := fun i hi => hE.mem (List.mem_map.mpr ⟨i, hi, rfl⟩)
  have hlow : ∀ i ∈ origs s.og L, e.yd ≤ (pts i).2 := fun i hi => hE.low _ (hmemS i hi)
  have hkey : ∀ b i j, s.pr b = (i, j) → i ∈ origs s.og L → j ∈ origs s.og L →
      keyOf pts (siteStart e rest s).bps (siteStart e rest s).arcs e.yd (.bp b) = some (bpX (pts i) (pts j) e.yd) := by
    intro b i j hb hi hj
    simp only [keyOf]
    have e1 : ((siteStart e rest s).bps b).pair = (i, j) := hb
    rw [e1]
    exact getIntersection_isSome (hlow i hi) (hlow j hj) none
  -- the right neighbour
  have hright : ∀ b ∈ (apts pts s post).head?, (pts e.ref).1 ≤ bpX (pts (s.og a)) b e.yd := by
    intro b' hb'
    rcases (hL ▸ hb).post_cases with hpn | ⟨mb, b, n', a', post2, hpn, hpair⟩
    · rw [hpn] at hb'; simp [apts] at hb'
    · obtain ⟨k, hk, hle'⟩ := g2 _ _ hpn
      rw [hkey b _ _ hpair (by rw [hL]; simp) (by rw [hL, hpn]; simp)] at hk
      have : b' = pts (s.og a') := by
        rw [hpn] at hb'
        simpa [apts] using hb'.symm
      rw [this]
      simp only [Option.some.injEq] at hk
      rw [hk]; exact hle'
  have hsame : apts pts s L = apts pts s pre ++ pts (s.og a) :: apts pts s post := hAL
  have hAok := hE.arcs _ _ _ hsame
  -- the left neighbour
  have hleft : ∀ c ∈ (apts pts s pre).getLast?, bpX c (pts (s.og a)) e.yd < (pts e.ref).1 := by
    intro c hc'
    rcases (hL ▸ hb).pre_cases with hpn | ⟨pre2, n', a', mb, b, hpn, hpair⟩
    · rw [hpn] at hc'; simp [apts] at hc'
    have hcc : c = pts (s.og a') := by
      rw [hpn] at hc'
      simpa [apts] using hc'.symm
    rcases g3 with g3 | ⟨bi, rest', hpo, hkx⟩
    · obtain ⟨k, hk, hlt⟩ := g3 ⟨mb, false, .bp b⟩ (by rw [hpn]; simp)
      rw [hkey b _ _ hpair (by rw [hL, hpn]; simp) (by rw [hL]; simp)] at hk
      rw [hcc]
      simp only [Option.some.injEq] at hk
      rw [hk]; exact hlt
    · rcases (hL ▸ hb).post_cases with hpn' | ⟨mb', b', n'', a'', post2, hpn', hpair'⟩
      · rw [hpn'] at hpo; cases hpo
      rw [hpn'] at hpo
      simp only [List.cons.injEq] at hpo
      rw [← hpo.1, hkey b' _ _ hpair' (by rw [hL]; simp) (by rw [hL, hpn']; simp)] at hkx
      simp only [Option.some.injEq] at hkx
      have hsr := hAok.srt c hc' (pts (s.og a'')) (by rw [hpn']; simp [apts])
      rw [hkx] at hsr
      refine lt_of_le_of_ne hsr fun hh => ?_
      have haS : pts (s.og a) ∈ Handled pts s := hmemS _ (by rw [hL]; simp)
      rcases eq_or_lt_of_le (hE.low _ haS) with hdeg | hnd
      · obtain ⟨⟨c', hc'', _, ec⟩, _⟩ := hE.head_deg hsame hdeg.symm
        have : c' = c := by rw [hc''] at hc'; simpa using hc'
        subst this
        have := hlast _ haS hdeg.symm
        linarith
      · obtain ⟨D, hD⟩ := List.getLast?_eq_some_iff.mp hc'
        have := hG.no_zero hI hq hp hc hE (B := D) (a := c) (b := pts (s.og a)) (c := pts (s.og a'')) (C := apts pts s post2)
          (by rw [hsame, hD, hpn']; simp [apts]) hnd (by rw [hkx]; exact hh)
        rw [hh, hx] at this
        exact lt_irrefl _ this
  obtain ⟨haq, hE'⟩ := (hsame ▸ hE).site hy.symm ⟨fun c hc => (hleft c hc).le, hright⟩ hleft hlast
  have hint : inter = true := by
    rw [hs.int]
    have : ¬ (pts e.ref).2 = (pts (s.og a)).2 := by rw [← hy]; exact ne_of_lt haq
    show (!(decide ((pts e.ref).2 = (pts (s.og a)).2) && decide ((pts (s.og a)).1 < (pts e.ref).1))) = true
    rw [decide_eq_false this]; rfl
  subst hint
  have hA' : apts pts (stepEnd (.site e.ref) s1) L' = apts pts s pre ++ pts (s.og a) :: pts e.ref :: pts (s.og a) :: apts pts s post := by
    show (origs s1.og L').map pts = _
    rw [horigs]
    simp [apts, St.og]
  exact ⟨hH, fun c hc => ⟨hE.low c hc, hlast c hc⟩, hy.symm, Or.inr ⟨rfl, hE, hy.symm, haq, hAL, hA', hleft⟩⟩

/-- A vertex made by a circle event is at `z`. -/
def FoundAt (s : St ℝ) (z : Pt) : Prop := ∃ v ∈ s.verts, (s.d.vs v).pos = some z

/-- There is an edge between the cells of two sites, and `z` is between its ends. -/
def EdgeAt (pts : Nat → Pt) (s : St ℝ) (l : ℝ) (p r z : Pt) : Prop :=
  ∃ f t i j, Edg s.d f t i j ∧ Covers pts s.d s.bps l f t i j z ∧ pts i = p ∧ pts j = r

theorem EdgeAt.symm {s : St ℝ} {L : List (Item Dat)} (hI : Inv pts ok n pc s L) {l : ℝ} {p r z : Pt} (h : EdgeAt pts s l p r z) :
    EdgeAt pts s l r p z := by
  obtain ⟨f, t, i, j, h1, h2, h3, h4⟩ := h
  exact ⟨t, f, j, i, h1.symm hI.dinv, h2.symm, h4, h3⟩

/-- Neighbouring arcs are separated by an edge that starts at their breakpoint. -/
theorem adj_edge {s : St ℝ} {L : List (Item Dat)} (hI : Inv pts ok n pc s L) {B C : List Pt} {a b : Pt} (h : apts pts s L = B ++ a :: b :: C) :
    ∃ f t i j b', Edg s.d f t i j ∧ (s.d.he f).origin = .bp b' ∧ pts i = b ∧ pts j = a := by
  have hb : BOk s.og s.pr s.arcCnt s.bpCnt L := hI.beach
  obtain ⟨P, m, x, R, h1, h2, h3, h4⟩ := apts_cut L B (b :: C) a hb.kindsOk h
  rcases (h1 ▸ hb).post_cases with hpn | ⟨mb, bp, n', a', post2, hpn, hpair⟩
  · rw [hpn] at h4; simp [apts] at h4
  · obtain ⟨e, g1, g2, g3⟩ := hI.dinv.tbp mb bp (by rw [h1, hpn]; simp)
    obtain ⟨_, _, g4, g5⟩ := hI.dinv.obp e g1 bp g3
    obtain ⟨t, g6, _⟩ := hI.dinv.tw e g1
    have hpair' : (s.bps bp).pair = (s.og x, s.og a') := hpair
    rw [hpair'] at g4 g5
    refine ⟨e, t, _, _, bp, ⟨g1, g6, g4, g5 t g6⟩, g3, ?_, h3⟩
    rw [hpn] at h4
    simp only [apts, origs] at h4
    simpa using (List.cons.inj h4).1

/-- A site with a half-edge. -/
theorem Edg.site_lt {s : St ℝ} {L : List (Item Dat)} (hI : Inv pts ok n pc s L) {f t i j : Nat} (h : Edg s.d f t i j) :
    i < n ∧ (s.names i).isSome := by
  obtain ⟨i', g1, g2⟩ := hI.dinv.inc f h.lt
  rw [h.inc, Option.some.injEq] at g1
  subst g1
  obtain ⟨k, hk⟩ := Option.isSome_iff_exists.mp g2
  exact ⟨(hI.sinv.nmLt _ k hk).2, g2⟩

theorem Edg.pts_ne {s : St ℝ} {L : List (Item Dat)} (hinj : Set.InjOn pts {p | p < n}) (hI : Inv pts ok n pc s L) {f t i j : Nat}
    (h : Edg s.d f t i j) : pts i ≠ pts j := fun he =>
  h.ne hI.dinv (hinj (h.site_lt hI).1 ((h.symm hI.dinv).site_lt hI).1 he)

/-- The invariant. -/
structure KInv (pts : Nat → Pt) (s : St ℝ) (L : List (Item Dat)) (l : ℝ) : Prop where
  known : Known (Handled pts s) l (apts pts s L) (FoundAt s) (EdgeAt pts s l)
  runs : Runs pts s.d s.bps l
  live : Live pts (Handled pts s) s.d s.bps L

/-- The sweep line may be moved down to the next event. -/
theorem KInv.next {s : St ℝ} {L : List (Item Dat)} {l l1 : ℝ} (hinj : Set.InjOn pts {p | p < n}) (hI : Inv pts ok n pc s L) (hG : GInv pts s L l)
    (hK : KInv pts s L l) (hle : l1 ≤ l) (hev : ∀ e ∈ s.queue, e.yd ≤ l1) : KInv pts s L l1 := by
  rcases eq_or_lt_of_le hle with rfl | hlt
  · exact hK
  · refine ⟨(hK.known.mono (fun _ h => h) ?_).advance (handled_finite hI) hG.env hlt ?_ ?_, hK.runs.mono hle, hK.live⟩
    · rintro p r z ⟨f, t, i, j, h1, h2, h3, h4⟩
      exact ⟨f, t, i, j, h1, h2.mono hle, h3, h4⟩
    · intro B a b c C he hd
      obtain ⟨e, h1, _, _, h2, _⟩ := hG.due hI B a b c C he hd
      rw [← h2]; exact hev e h1
    · intro B a b C he m z h1 h2 hz
      obtain ⟨f, t, i, j, b', hf, ho, rfl, rfl⟩ := adj_edge hI he
      have hc := hK.runs.covers hI.dinv hf ho (hf.pts_ne hinj hI).symm (hG.above (hf.site_lt hI).2) (hG.above ((hf.symm hI.dinv).site_lt hI).2) h2
        h1.le hz
      have he : EdgeAt pts s l1 (pts i) (pts j) z := ⟨f, t, i, j, hf, hc, rfl, rfl⟩
      exact ⟨he.symm hI, he⟩

theorem TopPair.insert {S : Set Pt} {a b p : Pt} (h : TopPair S a b) (ha : a ∈ S) (hp : ∀ c ∈ S, p.2 ≤ c.2 ∧ (c.2 = p.2 → c.1 < p.1)) :
    TopPair (Insert.insert p S) a b := by
  refine ⟨h.1, h.2.1, ?_⟩
  rintro c (rfl | hc)
  · rcases eq_or_lt_of_le (hp a ha).1 with he | hlt
    · exact Or.inr ⟨he, Or.inr ((hp a ha).2 he.symm).le⟩
    · exact Or.inl hlt
  · exact h.2.2 c hc

/-- The height of the sweep line is that of a site, or of the lowest point of the empty circle around a vertex. -/
def Lvl (pts : Nat → Pt) (s : St ℝ) (l : ℝ) : Prop :=
  (∃ p, (s.names p).isSome ∧ (pts p).2 = l) ∨ ∃ z, FoundAt s z ∧ l ≤ z.2 ∧ ∀ c ∈ Handled pts s, (z.2 - l) ^ 2 ≤ dsq c z

theorem KInv.step (hinj : Set.InjOn pts {p | p < n}) (hq : q.Spec evLt ok) {s s' : St ℝ} {L L' : List (Item Dat)} {l : ℝ} {e : QE ℝ}
    {rest : List (QE ℝ)} (hI : Inv pts ok n pc s L) (hG : GInv pts s L l) (hK : KInv pts s L l) (hv : Lvl pts s l)
    (hp : q.pop s.queue = some (e, rest)) (hst : EvStep pts q e rest s L s' L') (hI' : Inv pts ok n pc s' L') :
    ∃ l', GInv pts s' L' l' ∧ KInv pts s' L' l' ∧ Lvl pts s' l' := by
  have hperm := hq.pop_perm _ _ _ hI.qinv.ok hp
  have hmin := hq.pop_min _ _ _ hI.qinv.ok hp
  have hev : ∀ f ∈ s.queue, f.yd ≤ e.yd := by
    intro f hf
    rcases List.mem_cons.mp (hperm.mem_iff.mp hf) with rfl | hf
    · exact le_rfl
    · exact (evLt_false (hmin f hf)).1
  have hle := (hG.next hI hq hp).1
  have hN := hK.next hinj hI hG hle hev
  have hab : ∀ p, (s.names p).isSome → e.yd ≤ (pts p).2 := fun p hp => hle.trans (hG.above hp)
  cases hst with
  | skip hc hv' => exact ⟨l, hG.skip hI hq hp hv', ⟨hK.known, hK.runs, hK.live⟩, hv⟩
  | @first s1 _ hc hf =>
    exfalso
    have hnil : apts pts s L = [] := by
      have : L = [] := hf.nil
      rw [this]; rfl
    rcases hG.env with hT | hE
    · exact hT.ne hnil
    · exact hE.ne hnil
  | @site s1 _ pre post m a inter hc hpost hn =>
    obtain ⟨hH, hlast, hye, hor⟩ := hG.site_shape hinj hI hq hp hc hpost hn
    refine ⟨e.yd, hG.site hinj hI hq hp hc hpost hn hI', ?_, Or.inl ⟨e.ref, ?_, hye⟩⟩
    swap
    · have hm : pts e.ref ∈ Handled pts (stepEnd (.site e.ref) s1) := by rw [hH]; exact Or.inl rfl
      obtain ⟨p, hp1, hp2⟩ := hm
      obtain ⟨k, hk⟩ := Option.isSome_iff_exists.mp hp1
      obtain ⟨_, hen, _, _⟩ := pop_site hI hq hp hc
      rw [← hinj (hI'.sinv.nmLt p k hk).2 hen hp2]
      exact hp1
    obtain ⟨_, hen, hnm, _⟩ := pop_site hI hq hp hc
    obtain ⟨log', _, heq⟩ := hn.eq
    have hd : (stepEnd (.site e.ref) s1).d = siteD s.d s.bpCnt (s.bpCnt + 1) (s.arcs a).origin e.ref := by
      show s1.d = _
      rw [heq]; cases inter
      · rfl
      · exact checkAdd_d ..
    have hbp : (stepEnd (.site e.ref) s1).bps = siteB s.d s.bps s.bpCnt (s.arcs a).origin e.ref := by
      show s1.bps = _
      rw [heq]; cases inter
      · rfl
      · exact checkAdd_bps ..
    have hv : (stepEnd (.site e.ref) s1).verts = s.verts := by
      show s1.verts = _
      rw [heq]; cases inter
      · rfl
      · exact checkAdd_verts ..
    have hF : ∀ z, FoundAt s z → FoundAt (stepEnd (.site e.ref) s1) z := by
      rintro z ⟨v, h1, h2⟩
      exact ⟨v, by rw [hv]; exact h1, by rw [hd]; exact h2⟩
    have hGm : ∀ p r z, EdgeAt pts s e.yd p r z → EdgeAt pts (stepEnd (.site e.ref) s1) e.yd p r z := by
      rintro p r z ⟨f, t, i, j, h1, h2, h3, h4⟩
      refine ⟨f, t, i, j, ?_, ?_, h3, h4⟩
      · rw [hd]; exact h1.site' hI.dinv
      · rw [hd, hbp]; exact h2.site hI.dinv h1
    -- the arc above the new site
    have haL : pts (s.og a) ∈ apts pts s L := by
      rw [hn.split, apts_append, apts_arc]; simp
    have haH : pts (s.og a) ∈ Handled pts s := by
      rcases hG.env with hT | hE
      · exact (hT.mem _).mp haL
      · exact hE.mem haL
    have hane : pts (s.og a) ≠ pts e.ref := by
      intro hh
      obtain ⟨k, hk, hk'⟩ := haH
      have : k = e.ref := by
        obtain ⟨x, hx⟩ := Option.isSome_iff_exists.mp hk
        exact hinj (hI.sinv.nmLt k x hx).2 hen (by rw [hk', hh])
      rw [this, hnm] at hk; simp at hk
    refine ⟨?_, ?_, ?_⟩
    · rcases hor with ⟨_, _, _, hT⟩ | ⟨_, _, h1, h2, h3, h4, _⟩
      · exact Known.row hT.row fun p hp => (hT.mem p).mp hp
      · have hk := hN.known
        rw [hH, h4]
        rw [h3] at hk
        exact (hk.site h1 h2).mono hF hGm
    · rw [hd, hbp]
      exact hN.runs.site hI.dinv hane (hlast _ haH).1 hye.ge
    · have hlast' : ∀ c ∈ Handled pts s, (pts e.ref).2 ≤ c.2 ∧ (c.2 = (pts e.ref).2 → c.1 < (pts e.ref).1) := by rw [hye]; exact hlast
      rw [hd, hbp, hH]
      intro f hf b' ho
      have hf : f < s.d.heCnt + 2 := hf
      have hcase : f < s.d.heCnt ∨ f = s.d.heCnt ∨ f = s.d.heCnt + 1 := by omega
      rcases hcase with hf | rfl | rfl
      · rw [siteD_old hf] at ho
        have hbc := (hI.dinv.obp f hf b' ho)
        rw [siteB_old hbc.1]
        rcases hK.live f hf b' ho with ⟨k, hk⟩ | hA
        · left
          refine ⟨k, ?_⟩
          rw [hn.list]
          have hsp := hn.split
          rw [hsp] at hk
          simp only [List.mem_append, List.mem_cons] at hk ⊢
          rcases hk with h | h | h
          · exact Or.inl h
          · simp at h
          · exact Or.inr (Or.inr h)
        · right
          refine hA.insert ?_ hlast'
          obtain ⟨t, g1, g2, _, g4⟩ := hI.dinv.tw f hf
          obtain ⟨p', g5, g6⟩ := hI.dinv.inc t g2
          have := hbc.2.2.2 t g1
          rw [g5, Option.some.injEq] at this
          rw [← this]
          exact ⟨p', g6, rfl⟩
      · rw [siteD_l] at ho
        cases ho
        left
        rw [hn.list]
        cases inter
        · exact ⟨s.ns.cnt, by simp [siteItems, siteStart]⟩
        · exact ⟨s.ns.cnt, by simp [siteItems, siteStart]⟩
      · rw [siteD_r] at ho
        cases ho
        rcases hor with ⟨_, hA, hA', hT⟩ | ⟨rfl, _⟩
        swap
        · left
          rw [hn.list]
          exact ⟨s.ns.cnt + 2, by simp [siteItems, siteStart]⟩
        right
        rw [siteB_r]
        rw [hH, hA', hA] at hT
        have hrow := hT.row
        have hinc := hT.inc
        rw [List.append_assoc, List.pairwise_append] at hinc
        refine ⟨?_, ?_, ?_⟩
        · rw [hrow (pts e.ref) (Set.mem_insert _ _)]
          exact (hrow _ (Set.mem_insert_of_mem _ haH)).symm
        · have := hinc.2.1
          simp only [List.singleton_append, List.pairwise_cons] at this
          exact this.1 _ (by simp)
        · intro c hc
          right
          refine ⟨by rw [hrow c hc, hrow (pts e.ref) (Set.mem_insert _ _)], ?_⟩
          have hcm := (hT.mem c).mpr hc
          simp only [List.append_assoc, List.mem_append, List.mem_cons, List.not_mem_nil, or_false] at hcm
          rcases hcm with h | h | h
          · exact Or.inl (hinc.2.2 c h _ (by simp)).le
          · exact Or.inl (by rw [h])
          · exact Or.inr (by rw [h])
  | @circle s1 _ P m u le ri tl tr ue re hc hv hcev hmk hpre hn =>
    have hg := hG.circle hI hq hp hc hv hcev hmk hpre hn hI'
    refine ⟨e.yd, hg, ?_⟩
    have hmem : e ∈ s.queue := hperm.mem_iff.mpr (by simp)
    have hqe := hI.qinv.qe e hmem hc
    obtain ⟨log', _, heq⟩ := hn.eq
    obtain ⟨hdet, hyd, _, hcen⟩ := mkEv_spec hmk e.ref
    simp only at hdet hyd hcen
    rw [← hqe] at hyd
    have hL : L = P.list := hn.split
    have horigs : origs s1.og L' = origs s.og P.pre ++ ([s.og P.a1, s.og P.a3] ++ origs s.og P.post) := hn.origs_eq
    have hAL : apts pts s L = apts pts s P.pre ++ pts (s.og P.a1) :: pts (s.og P.a) :: pts (s.og P.a3) :: apts pts s P.post := by
      rw [hL]; simp [apts, Place.list]
    have hA' : apts pts (stepEnd (.circle e.ref) s1) L' = apts pts s P.pre ++ pts (s.og P.a1) :: pts (s.og P.a3) :: apts pts s P.post := by
      show (origs s1.og L').map pts = _
      rw [horigs]; simp [apts]
    have hH : Handled pts (stepEnd (.circle e.ref) s1) = Handled pts s := by
      have : (stepEnd (.circle e.ref) s1).names = s.names := by
        show s1.names = _
        rw [heq]; exact checkAdd_names ..
      unfold Handled; rw [this]
    have hd : (stepEnd (.circle e.ref) s1).d = circD s.d (s.evs e.ref).center u (s.arcs P.a1).origin (s.arcs P.a3).origin le ri tl tr ue re := by
      show s1.d = _
      rw [heq]; exact checkAdd_d ..
    have hbp : (stepEnd (.circle e.ref) s1).bps = Function.update s.bps u ⟨((s.arcs P.a1).origin, (s.arcs P.a3).origin), some s.d.heCnt⟩ := by
      show s1.bps = _
      rw [heq]; exact checkAdd_bps ..
    have hvt : (stepEnd (.circle e.ref) s1).verts = s.d.vCnt :: s.verts := by
      show s1.verts = _
      rw [heq]; exact checkAdd_verts ..
    have hE : Env (Handled pts s) e.yd (apts pts s L) := by
      rcases (hG.next hI hq hp).2 with hE | ⟨_, hT⟩
      · exact hE
      · exact absurd hdet (hT.no_cw (by rw [hAL]; simp [St.og]) (by rw [hAL]; simp [St.og]) (by rw [hAL]; simp [St.og]))
    -- the half-edges of the two breakpoints that meet
    have hb : BOk s.og s.pr s.arcCnt s.bpCnt L := hI.beach
    have hb1 : (⟨P.m1, false, .bp P.b1⟩ : Item Dat) ∈ L := by rw [hL]; simp [Place.list]
    have hb2 : (⟨P.m2, false, .bp P.b2⟩ : Item Dat) ∈ L := by rw [hL]; simp [Place.list]
    have hp1 : (s.bps P.b1).pair = (s.og P.a1, s.og P.a) := by
      have hL1 : L = (P.pre ++ [⟨P.n1, true, .arc P.a1⟩]) ++ ⟨P.m1, false, .bp P.b1⟩ :: ⟨P.n, true, .arc P.a⟩ :: ⟨P.m2, false, .bp P.b2⟩ ::
          ⟨P.n3, true, .arc P.a3⟩ :: P.post := by rw [hL]; simp [Place.list]
      obtain ⟨P', n1, a1, n2, a2, R', e1, e2, e3⟩ := (hL1 ▸ hb).bp_cases
      have e3 : (s.bps P.b1).pair = (s.og a1, s.og a2) := e3
      have f1 := (List.append_inj' e1 rfl).2
      simp only [List.cons.injEq, Item.mk.injEq, Dat.arc.injEq, and_true, true_and] at f1 e2
      rw [e3, f1.2, e2.1.2]
    have hp2 : (s.bps P.b2).pair = (s.og P.a, s.og P.a3) := by
      have hL1 : L = (P.pre ++ [⟨P.n1, true, .arc P.a1⟩, ⟨P.m1, false, .bp P.b1⟩, ⟨P.n, true, .arc P.a⟩]) ++ ⟨P.m2, false, .bp P.b2⟩ ::
          ⟨P.n3, true, .arc P.a3⟩ :: P.post := by rw [hL]; simp [Place.list]
      obtain ⟨P', n1, a1, n2, a2, R', e1, e2, e3⟩ := (hL1 ▸ hb).bp_cases
      have e3 : (s.bps P.b2).pair = (s.og a1, s.og a2) := e3
      have e1' : (P.pre ++ [⟨P.n1, true, .arc P.a1⟩, ⟨P.m1, false, .bp P.b1⟩]) ++ [(⟨P.n, true, .arc P.a⟩ : Item Dat)] = P' ++ [⟨n1, true, .arc a1⟩] := by
        rw [← e1]; simp
      have f1 := (List.append_inj' e1' rfl).2
      simp only [List.cons.injEq, Item.mk.injEq, Dat.arc.injEq, and_true, true_and] at f1 e2
      rw [e3, f1.2, e2.1.2]
    have hne13 : (s.arcs P.a1).origin ≠ (s.arcs P.a3).origin := hpre.ne
    obtain ⟨le', ri', tl', tr', g1, g2, g3, g4, gnd, glt, ole, ori, ile, itl, iri, itr, ttl, ttr⟩ := hI.dinv.pre hb1 hb2 hp1 hp2 hne13
    rw [hpre.el] at g1; cases g1
    rw [hpre.er] at g2; cases g2
    rw [hpre.twl] at g3; cases g3
    rw [hpre.twr] at g4; cases g4
    obtain ⟨k1, k2, k3⟩ := hE.cw hAL hdet
    obtain ⟨_, _, _, _, _, k4⟩ := hE.circle_x hAL hdet hyd.symm
    have hca : CircAt pts s.d s.bps e.yd (s.evs e.ref).center P.b1 P.b2 (s.arcs P.a1).origin (s.arcs P.a).origin (s.arcs P.a3).origin u le ri tl tr := by
      refine ⟨gnd, glt, ole, ori, hp1, hp2, hpre.el, hpre.er, ?_, ?_, ?_, ?_⟩
      · rcases hn.upd with ⟨_, h, _⟩ | ⟨_, h, _⟩
        · exact Or.inl h
        · exact Or.inr h
      · rw [hcen, hyd]; exact k2
      · rw [hcen, hyd]; exact k3
      · rw [hcen]; exact k4
    have hF : ∀ z, (FoundAt s z ∨ z = (ccx (pts (s.og P.a1)) (pts (s.og P.a)) (pts (s.og P.a3)), ccy (pts (s.og P.a1)) (pts (s.og P.a)) (pts (s.og P.a3)))) →
        FoundAt (stepEnd (.circle e.ref) s1) z := by
      rintro z (⟨v, h1, h2⟩ | h)
      · refine ⟨v, by rw [hvt]; simp [h1], ?_⟩
        rw [hd]
        have := (hI.dinv.vts v h1).2.1
        simp only [circD]
        rw [Function.update_of_ne (by omega)]
        exact h2
      · refine ⟨s.d.vCnt, by rw [hvt]; simp, ?_⟩
        rw [hd]
        simp only [circD, Function.update_self]
        rw [h, hcen]
    have hGm : ∀ p r z, EdgeAt pts s e.yd p r z → EdgeAt pts (stepEnd (.circle e.ref) s1) e.yd p r z := by
      rintro p r z ⟨f, t, i, j, h1, h2, h3, h4⟩
      refine ⟨f, t, i, j, ?_, ?_, h3, h4⟩
      · rw [hd]; exact h1.circ' hI.dinv
      · rw [hd, hbp]; exact h2.circ hca hI.dinv h1
    refine ⟨⟨?_, ?_, ?_⟩, Or.inr ⟨_, hF _ (Or.inr rfl), k4.le, fun x hx => ?_⟩⟩
    rotate_right
    · have hn1 := (hE.pair hAL).1
      have hy1 := hE.low' hAL
      have hy2 := hE.low' (B := apts pts s P.pre ++ [pts (s.og P.a1)]) (C := pts (s.og P.a3) :: apts pts s P.post) (a := pts (s.og P.a)) (by rw [hAL]; simp)
      have hbp1 := hE.bp hAL
      have k2' := k2
      rw [← hyd] at k2'
      rw [k2'.unique hbp1 hn1 hy1 hy2 (hE.pair hAL).2.1]
      rw [hH] at hx
      have := hE.out hAL hx
      unfold pw at this
      linarith
    · have hk := hN.known
      rw [hH, hA']
      rw [hAL] at hk hE
      exact (hk.circle hE hdet hyd.symm).mono hF hGm
    · rw [hd, hbp]
      have hac : pts (s.og P.a1) ≠ pts (s.og P.a3) := by
        intro hh
        have : det (pts (s.og P.a1)) (pts (s.og P.a)) (pts (s.og P.a3)) < 0 := hdet
        rw [hh] at this; unfold det at this; ring_nf at this; exact lt_irrefl _ this
      exact hN.runs.circ hca hI.dinv hac (hE.low _ (hE.mem (by rw [hAL]; simp [St.og]))) (hE.low _ (hE.mem (by rw [hAL]; simp [St.og])))
    · rw [hd, hbp, hH]
      intro f hf b' ho
      have hf : f < s.d.heCnt + 2 := hf
      have hcase : f < s.d.heCnt ∨ f = s.d.heCnt ∨ f = s.d.heCnt + 1 := by omega
      have hlist : L' = P.rest m u := hn.list
      rcases hcase with hf | rfl | rfl
      · have n1 : f ≠ le := by rintro rfl; rw [circD_le] at ho; cases ho
        have n2 : f ≠ ri := by rintro rfl; rw [circD_ri hca.ne.1] at ho; cases ho
        rw [circD_org hf n1 n2] at ho
        have hbc := (hI.dinv.obp f hf b' ho)
        have m1 : b' ≠ P.b1 := by rintro rfl; rw [hpre.el] at hbc; exact n1 (by simpa using hbc.2.1.symm)
        have m2 : b' ≠ P.b2 := by rintro rfl; rw [hpre.er] at hbc; exact n2 (by simpa using hbc.2.1.symm)
        have mu : b' ≠ u := by rcases hca.hu with h | h <;> rw [h] <;> assumption
        rw [Function.update_of_ne mu]
        rcases hK.live f hf b' ho with ⟨k, hk⟩ | hA
        · left
          refine ⟨k, ?_⟩
          rw [hL] at hk
          rw [hlist]
          simp only [Place.list, Place.rest, List.mem_append, List.mem_cons, Item.mk.injEq, Dat.bp.injEq, List.not_mem_nil, or_false] at hk ⊢
          rcases hk with h | h | h
          · exact Or.inl h
          · grind
          · exact Or.inr (Or.inr h)
        · exact Or.inr hA
      · rw [circD_n glt] at ho
        cases ho
        left
        rw [hlist]
        exact ⟨m, by simp [Place.rest]⟩
      · rw [circD_n' glt] at ho
        cases ho

/-- Before the first event, or with the invariants. -/
def KJ (pts : Nat → Pt) (s : St ℝ) (L : List (Item Dat)) : Prop :=
  (s.nextName = 0 ∧ s.d.heCnt = 0 ∧ ∀ e ∈ s.queue, e.circ = false) ∨ ∃ l, GInv pts s L l ∧ KInv pts s L l ∧ Lvl pts s l

theorem KJ.step (hinj : Set.InjOn pts {p | p < n}) (hq : q.Spec evLt ok) {s s' : St ℝ} {L L' : List (Item Dat)} {e : QE ℝ}
    {rest : List (QE ℝ)} (hI : Inv pts ok n pc s L) (hJ : KJ pts s L) (hp : q.pop s.queue = some (e, rest))
    (hst : EvStep pts q e rest s L s' L') (hI' : Inv pts ok n pc s' L') : KJ pts s' L' := by
  rcases hJ with ⟨h0, hc0, hnc⟩ | ⟨l, hG, hK, hv⟩
  · have hperm := hq.pop_perm _ _ _ hI.qinv.ok hp
    have hc' := hnc e (hperm.mem_iff.mpr (by simp))
    cases hst with
    | skip hc hv => rw [hc'] at hc; cases hc
    | @first s1 _ hc hf =>
      have hg := GInv.first hI hq hp hc hf
      have hd : (stepEnd (.site e.ref) s1).d = s.d := by
        show s1.d = _
        rw [hf.eq]; rfl
      have hl : Lvl pts (stepEnd (.site e.ref) s1) e.yd := by
        obtain ⟨h2, _⟩ := pop_site hI hq hp hc
        have hy : e.yd = (pts e.ref).2 := by rw [h2]; rfl
        refine Or.inl ⟨e.ref, ?_, hy.symm⟩
        show (s1.names e.ref).isSome
        rw [hf.eq]
        simp [siteStart]
      refine Or.inr ⟨e.yd, hg, ⟨?_, ?_, ?_⟩, hl⟩
      rotate_left
      · intro f t i j he
        have := he.lt
        rw [hd, hc0] at this; omega
      · intro f hf'
        rw [hd, hc0] at hf'; omega
      rcases hg.env with hT | hE
      · exact Known.row hT.row fun p hp => (hT.mem p).mp hp
      · exfalso
        have hA : apts pts (stepEnd (.site e.ref) s1) L' = [pts e.ref] := by
          show (origs s1.og L').map pts = _
          rw [hf.origs_eq]; rfl
        have h1 := (hE.arcs [] (pts e.ref) [] (by rw [hA]; rfl)).endL rfl
        obtain ⟨h2, _⟩ := pop_site hI hq hp hc
        have : e.yd = (pts e.ref).2 := by rw [h2]; rfl
        linarith
    | site hc hpost hn =>
      have := hI.sinv.empty.mpr h0
      have h1 := hn.split
      rw [this] at h1; simp at h1
    | circle hc => rw [hc'] at hc; cases hc
  · exact Or.inr (hK.step hinj hq hI hG hv hp hst hI')

theorem reach_known (hinj : Set.InjOn pts {p | p < n}) (hq : q.Spec evLt ok) {s : St ℝ} (h : Reach pts q n poly s) :
    ∃ L, Inv pts ok n poly.points.length s L ∧ KJ pts s L := by
  refine reach_follow hq (Or.inl ?_) (fun _ _ _ _ _ _ hI hJ hp hst hI' => hJ.step hinj hq hI hp hst hI') h
  refine ⟨rfl, rfl, ?_⟩
  intro e he
  obtain ⟨_, h2⟩ := startQueue_spec (pts := pts) hq n
  obtain ⟨p, _, rfl⟩ := List.mem_map.mp (h2.mem_iff.mp he)
  rfl

/-- When the queue is empty: the beach line at all heights below, every empty circle through three sites has its centre in the diagram,
and two sites that are the only ones on an empty circle have an edge between them that passes through its centre. -/
theorem known_end (hinj : Set.InjOn pts {p | p < n}) (hq : q.Spec evLt ok) {s : St ℝ} (h : Reach pts q n poly s) (hend : s.queue = [])
    (hn : 0 < n) : Handled pts s = {x | ∃ p < n, pts p = x} ∧
    (∃ L l, Inv pts ok n poly.points.length s L ∧ GInv pts s L l ∧ KInv pts s L l ∧ (∀ m < l, Env (Handled pts s) m (apts pts s L)) ∧
      (∀ m ≤ l, KInv pts s L m) ∧ Lvl pts s l) ∧
    (∀ z m, Emp (Handled pts s) m z → Three (Handled pts s) m z → FoundAt s z) ∧
    ∀ z m, Emp (Handled pts s) m z → ∀ p r, p ≠ r → OnC (Handled pts s) m z p → OnC (Handled pts s) m z r →
      (∀ c, OnC (Handled pts s) m z c → c = p ∨ c = r) → ∃ l', ∀ l ≤ l', EdgeAt pts s l p r z := by
  obtain ⟨L, hI, hJ⟩ := reach_known hinj hq h
  have hall : ∀ p < n, (s.names p).isSome := by
    intro p hp
    cases hh : s.names p with
    | some k => rfl
    | none =>
      obtain ⟨e, he, _⟩ := hI.sinv.all p hp hh
      rw [hend] at he; cases he
  have hH : Handled pts s = {x | ∃ p < n, pts p = x} := by
    ext x
    constructor
    · rintro ⟨p, hp, rfl⟩
      obtain ⟨k, hk⟩ := Option.isSome_iff_exists.mp hp
      exact ⟨p, (hI.sinv.nmLt p k hk).2, rfl⟩
    · rintro ⟨p, hp, rfl⟩
      exact ⟨p, hall p hp, rfl⟩
  refine ⟨hH, ?_⟩
  rcases hJ with ⟨h0, _⟩ | ⟨l, hG, hK, hlv⟩
  · exfalso
    obtain ⟨k, hk⟩ := Option.isSome_iff_exists.mp (hall 0 hn)
    have := (hI.sinv.nmLt 0 k hk).1
    omega
  have hdown' : ∀ m ≤ l, KInv pts s L m := fun m hm => hK.next hinj hI hG hm (by rw [hend]; simp)
  have hdown : ∀ m, KInv pts s L (min l (m - 1)) := fun m => hdown' _ (min_le_left _ _)
  refine ⟨⟨L, l, hI, hG, hK, ?_, hdown', hlv⟩, ?_, ?_⟩
  · intro m hm
    rcases hG.env with hT | hE
    · exact hT.env hm
    · refine hE.advance_to (handled_finite hI) hm.le fun B a b c C he hd => ?_
      obtain ⟨e, h1, _⟩ := hG.due hI B a b c C he hd
      rw [hend] at h1; cases h1
  · intro z m hem h3
    exact (hdown m).known.tri z m (lt_of_le_of_lt (min_le_right _ _) (by linarith)) hem h3
  · intro z m hem p r h1 h2 h3 h4
    refine ⟨min l (m - 1), fun l' hl' => ?_⟩
    obtain ⟨f, t, i, j, g1, g2, g3, g4⟩ := (hdown m).known.two z m (lt_of_le_of_lt (min_le_right _ _) (by linarith)) hem p r h1 h2 h3 h4
    exact ⟨f, t, i, j, g1, g2.mono hl', g3, g4⟩

end Foronoi
