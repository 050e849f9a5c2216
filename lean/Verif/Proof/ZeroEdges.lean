import Verif.Proof.Unique

/-!
# Edges of length zero

An edge of length zero is one that was made by a circle event, at its first vertex: the edge made by a site event never has both ends
in the same point.  For at a site event no arc above the new site has width zero, because circle events come first; so only one of the
two breakpoints of the new site can end above it.
-/

namespace Foronoi

open scoped List

/-! ### arcs of width zero -/

/-- The arc number `k + 1` has width zero and is at the abscissa `x`. -/
def Zero (A : List Pt) (l x : ℝ) (k : Nat) : Prop :=
  ∃ B a b c C, A = B ++ a :: b :: c :: C ∧ B.length = k ∧ l < b.2 ∧ bpX a b l = x ∧ bpX b c l = x

theorem zero_circ {B C : List Pt} {a b c : Pt} {l x : ℝ} {k : Nat} (h1 : bpX a c l = bpX a b l) (h2 : bpX a c l = bpX b c l)
    (h : Zero (B ++ a :: c :: C) l x k) :
    (k < B.length ∧ Zero (B ++ a :: b :: c :: C) l x k) ∨ (B.length ≤ k ∧ Zero (B ++ a :: b :: c :: C) l x (k + 1)) := by
  obtain ⟨B', a', b', c', C', e, hk, g1, g2, g3⟩ := h
  rcases List.append_eq_append_iff.mp e with ⟨D, e1, e2⟩ | ⟨D, e1, e2⟩
  · right
    subst e1
    refine ⟨by rw [← hk]; simp, ?_⟩
    rcases D with _ | ⟨d, _ | ⟨d', D⟩⟩
    · simp only [List.nil_append, List.cons.injEq] at e2
      obtain ⟨rfl, rfl, rfl⟩ := e2
      exact ⟨B ++ [a], b, c, c', C', by simp, by simp at hk ⊢; omega, g1, by rw [← h2]; exact g2, g3⟩
    · simp only [List.cons_append, List.nil_append, List.cons.injEq] at e2
      obtain ⟨rfl, rfl, rfl⟩ := e2
      exact ⟨B ++ [a, b], c, b', c', C', by simp, by simp at hk ⊢; omega, g1, g2, g3⟩
    · simp only [List.cons_append, List.cons.injEq] at e2
      obtain ⟨rfl, rfl, rfl⟩ := e2
      exact ⟨B ++ [a, b, c] ++ D, a', b', c', C', by simp, by simp at hk ⊢; omega, g1, g2, g3⟩
  · subst e1
    rcases D with _ | ⟨d, _ | ⟨d', _ | ⟨d'', D⟩⟩⟩
    · simp only [List.nil_append, List.cons.injEq] at e2
      obtain ⟨rfl, rfl, rfl⟩ := e2
      exact Or.inr ⟨by simp [hk], B' ++ [a'], b, b', c', C', by simp, by simp [hk], g1, by rw [← h2]; exact g2, g3⟩
    · simp only [List.cons_append, List.nil_append, List.cons.injEq] at e2
      obtain ⟨rfl, rfl, rfl, rfl⟩ := e2
      exact Or.inl ⟨by simp [hk], B', a', b', b, c' :: C', by simp, hk, g1, g2, by rw [← h1]; exact g3⟩
    · simp only [List.cons_append, List.nil_append, List.cons.injEq] at e2
      obtain ⟨rfl, rfl, rfl, rfl⟩ := e2
      exact Or.inl ⟨by simp [hk], B', a', b', c', b :: c :: C, by simp, hk, g1, g2, g3⟩
    · simp only [List.cons_append, List.cons.injEq] at e2
      obtain ⟨rfl, rfl, rfl, rfl⟩ := e2
      exact Or.inl ⟨by simp [hk], B', a', b', c', D ++ a :: b :: c :: C, by simp, hk, g1, g2, g3⟩

theorem zero_site {B C : List Pt} {a p : Pt} {l x : ℝ} {k : Nat} (hp : p.2 = l) (ha : l < a.2) (hl : ∀ o ∈ B.getLast?, bpX o a l < p.1)
    (h : Zero (B ++ a :: p :: a :: C) l x k) :
    (x = p.1 ∧ k = B.length + 1) ∨ (k < B.length ∧ Zero (B ++ a :: C) l x k) ∨ (B.length + 2 ≤ k ∧ Zero (B ++ a :: C) l x (k - 2)) := by
  obtain ⟨B', a', b', c', C', e, hk, g1, g2, g3⟩ := h
  have hne : a.2 ≠ p.2 := by rw [hp]; exact ha.ne'
  have d1 : bpX a p l = p.1 := bpX_degB hne hp
  have d2 : bpX p a l = p.1 := bpX_degA hne.symm hp
  rcases List.append_eq_append_iff.mp e with ⟨D, e1, e2⟩ | ⟨D, e1, e2⟩
  · subst e1
    rcases D with _ | ⟨d, _ | ⟨d', D⟩⟩
    · simp only [List.nil_append, List.cons.injEq] at e2
      obtain ⟨rfl, rfl, rfl, rfl⟩ := e2
      exact absurd g1 (by rw [hp]; exact lt_irrefl _)
    · simp only [List.cons_append, List.nil_append, List.cons.injEq] at e2
      obtain ⟨rfl, rfl, rfl, rfl⟩ := e2
      exact Or.inl ⟨by rw [← g2, d2], by rw [← hk]; simp⟩
    · right; right
      simp only [List.cons_append, List.cons.injEq] at e2
      obtain ⟨rfl, rfl, e2⟩ := e2
      refine ⟨by rw [← hk]; simp, B ++ D, a', b', c', C', by simp [e2], ?_, g1, g2, g3⟩
      rw [← hk]; simp only [List.length_append, List.length_cons]; omega
  · subst e1
    rcases D with _ | ⟨d, _ | ⟨d', _ | ⟨d'', D⟩⟩⟩
    · simp only [List.nil_append, List.cons.injEq] at e2
      obtain ⟨rfl, rfl, rfl, rfl⟩ := e2
      exact absurd g1 (by rw [hp]; exact lt_irrefl _)
    · simp only [List.cons_append, List.nil_append, List.cons.injEq] at e2
      obtain ⟨rfl, rfl, rfl, rfl⟩ := e2
      have := hl a' (by simp)
      rw [g2, ← g3, d1] at this
      exact absurd this (lt_irrefl _)
    · simp only [List.cons_append, List.nil_append, List.cons.injEq] at e2
      obtain ⟨rfl, rfl, rfl, rfl⟩ := e2
      exact Or.inr (Or.inl ⟨by simp [hk], B', a', b', c', C, by simp, hk, g1, g2, g3⟩)
    · simp only [List.cons_append, List.cons.injEq] at e2
      obtain ⟨rfl, rfl, rfl, rfl⟩ := e2
      exact Or.inr (Or.inl ⟨by simp [hk], B', a', b', c', D ++ a :: C, by simp, hk, g1, g2, g3⟩)

/-- The two breakpoints of two sites are in one place only when one of the sites is on the sweep line. -/
theorem bp_both {a b z : Pt} {l m : ℝ} (hab : a ≠ b) (h1 : Bp a b l z) (h2 : Bp b a m z) : m = l ∧ (a = (z.1, l) ∨ b = (z.1, l)) := by
  have hm : m = l := by
    have e := h1.ea.symm.trans h2.eb
    have g1 := h1.le
    have g2 := h2.le
    nlinarith [sq_nonneg (m - l)]
  subst hm
  refine ⟨rfl, ?_⟩
  have h5 := h2.or
  rw [ori_symm] at h5
  have h6 : ori a b m z.1 = 0 := le_antisymm (by linarith) h1.or
  have h7 := h1.ori_sq
  rw [h6] at h7
  have h9 : (a.2 - m) * (b.2 - m) = 0 := by
    have : (a.2 - m) * (b.2 - m) * dsq a b = 0 := by rw [← h7]; ring
    exact (mul_eq_zero.mp this).resolve_right (dsq_pos hab).ne'
  have key : ∀ c : Pt, c.2 = m → dsq c z = (z.2 - m) ^ 2 → c = (z.1, m) := by
    intro c hc e
    unfold dsq at e
    rw [hc] at e
    have : (c.1 - z.1) ^ 2 = 0 := by linarith
    exact Prod.ext (by have := pow_eq_zero_iff two_ne_zero |>.mp this; linarith) hc
  rcases mul_eq_zero.mp h9 with h | h
  · exact Or.inl (key a (by linarith) h1.ea)
  · exact Or.inr (key b (by linarith) h1.eb)

/-! ### the invariant -/

variable {pts : Nat → Pt} {q : PQ (QE ℝ)} {ok : List (QE ℝ) → Prop} {n pc : Nat} {poly : Poly ℝ}

/-- Both ends of all edges around the site `p` are breakpoints. -/
def Open (d : Dcel ℝ) (p : Nat) : Prop := ∀ f t i, Edg d f t p i → (∃ b, (d.he f).origin = .bp b) ∧ ∃ b, (d.he t).origin = .bp b

/-- Above a site on the sweep line there is no arc of width zero, or there is one and the edge of the site has not ended anywhere. -/
def Calm (pts : Nat → Pt) (s : St ℝ) (L : List (Item Dat)) (l : ℝ) : Prop :=
  ∀ p, (s.names p).isSome → (pts p).2 = l → (∀ k, ¬ Zero (apts pts s L) l (pts p).1 k) ∨
    (Open s.d p ∧ ∀ k k', Zero (apts pts s L) l (pts p).1 k → Zero (apts pts s L) l (pts p).1 k' → k = k')

/-- The half-edge registered last at a vertex. -/
def LastAt (d : Dcel ℝ) (v f : Nat) : Prop := (d.vs v).conn.getLast? = some f

structure ZInv (pts : Nat → Pt) (s : St ℝ) (L : List (Item Dat)) (l : ℝ) : Prop where
  calm : Calm pts s L l
  last : ∀ v ∈ s.verts, ∃ e ∈ s.edges, LastAt s.d v e
  half : ∀ f t i j v z, Edg s.d f t i j → (s.d.he f).origin = .vtx v → (s.d.vs v).pos = some z →
    LastAt s.d v f ∨ ∃ m, l ≤ m ∧ Bp (pts j) (pts i) m z
  both : ∀ f t i j v w z, Edg s.d f t i j → (s.d.he f).origin = .vtx v → (s.d.he t).origin = .vtx w → (s.d.vs v).pos = some z →
    (s.d.vs w).pos = some z → LastAt s.d v f ∨ LastAt s.d w t
  ord : ∀ f t i j v w, Edg s.d f t i j → (s.d.he f).origin = .vtx v → (s.d.he t).origin = .vtx w → LastAt s.d v f → v < w

theorem Calm.mono {s : St ℝ} {L : List (Item Dat)} {l l1 : ℝ} (h : Calm pts s L l) (hG : GInv pts s L l) (hl : l1 ≤ l) : Calm pts s L l1 := by
  intro p hp hy
  have : l1 = l := le_antisymm hl (by rw [← hy]; exact hG.above hp)
  subst this
  exact h p hp hy

theorem TopRow.no_zero {S : Set Pt} {A : List Pt} {l x : ℝ} (h : TopRow S l A) (k : Nat) : ¬ Zero A l x k := by
  rintro ⟨B, a, b, c, C, rfl, _, hb, _⟩
  have := h.row b ((h.mem b).mp (by simp))
  linarith

theorem ZInv.step (hinj : Set.InjOn pts {p | p < n}) (hq : q.Spec evLt ok) {s s' : St ℝ} {L L' : List (Item Dat)} {l l' : ℝ} {e : QE ℝ}
    {rest : List (QE ℝ)} (hI : Inv pts ok n pc s L) (hG : GInv pts s L l) (hZ : ZInv pts s L l)
    (hp : q.pop s.queue = some (e, rest)) (hst : EvStep pts q e rest s L s' L') (hI' : Inv pts ok n pc s' L') (hsw : s'.sweep = some l') :
    ZInv pts s' L' l' := by
  have hle := (hG.next hI hq hp).1
  have hcalm := hZ.calm.mono hG hle
  cases hst with
  | skip hc hv' =>
    have := (hG.skip hI hq hp hv').sw
    rw [hsw, Option.some.injEq] at this
    subst this
    exact ⟨hZ.calm, hZ.last, hZ.half, hZ.both, hZ.ord⟩
  | @first s1 _ hc hf =>
    exfalso
    have hnil : apts pts s L = [] := by
      have : L = [] := hf.nil
      rw [this]; rfl
    rcases hG.env with hT | hE
    · exact hT.ne hnil
    · exact hE.ne hnil
  | @site s1 _ pre post m a inter hc hpost hn =>
    have := (hG.site hinj hI hq hp hc hpost hn hI').sw
    rw [hsw, Option.some.injEq] at this
    subst this
    obtain ⟨hH, hlast, hye, hor⟩ := hG.site_shape hinj hI hq hp hc hpost hn
    obtain ⟨hqe, hen, hnm, _⟩ := pop_site hI hq hp hc
    obtain ⟨log', _, heq⟩ := hn.eq
    have hd : (stepEnd (.site e.ref) s1).d = siteD s.d s.bpCnt (s.bpCnt + 1) (s.arcs a).origin e.ref := by
      show s1.d = _
      rw [heq]; cases inter
      · rfl
      · exact checkAdd_d ..
    have hv : (stepEnd (.site e.ref) s1).verts = s.verts := by
      show s1.verts = _
      rw [heq]; cases inter
      · rfl
      · exact checkAdd_verts ..
    have hed : (stepEnd (.site e.ref) s1).edges = s.edges ++ [s.d.heCnt] := by
      show s1.edges = _
      rw [heq]; cases inter
      · rfl
      · exact checkAdd_edges ..
    have hnames : (stepEnd (.site e.ref) s1).names = Function.update s.names e.ref (some s.nextName) := by
      show s1.names = _
      rw [heq]; cases inter
      · rfl
      · exact checkAdd_names ..
    have hvs : ∀ v, (stepEnd (.site e.ref) s1).d.vs v = s.d.vs v := fun v => by rw [hd]; rfl
    -- half-edges that start at a vertex are old
    have hold : ∀ f t i j v, Edg (stepEnd (.site e.ref) s1).d f t i j → ((stepEnd (.site e.ref) s1).d.he f).origin = .vtx v →
        Edg s.d f t i j ∧ t < s.d.heCnt ∧ (s.d.he f).origin = .vtx v := by
      intro f t i j v he ho
      rw [hd] at he ho
      rcases he.site hI.dinv with ⟨k1, k2⟩ | ⟨rfl, rfl, rfl, rfl⟩ | ⟨rfl, rfl, rfl, rfl⟩
      · rw [siteD_old k1.lt] at ho
        exact ⟨k1, k2, ho⟩
      · rw [siteD_l] at ho; cases ho
      · rw [siteD_r] at ho; cases ho
    refine ⟨?_, ?_, ?_, ?_, ?_⟩
    · rcases hor with ⟨_, _, _, hT⟩ | ⟨_, hE, _, hay, hA, hA', hleft⟩
      · exact fun p _ _ => Or.inl fun k => hT.no_zero k
      intro p hpn hpy
      rw [hA']
      by_cases hpe : p = e.ref
      · subst hpe
        right
        have hno : ∀ k, ¬ Zero (apts pts s pre ++ pts (s.og a) :: apts pts s post) e.yd (pts e.ref).1 k := by
          rintro k ⟨B, a', b', c', C, h1, _, h3, h4, h5⟩
          have := hG.no_zero hI hq hp hc hE (hA.trans h1) h3 (h4.trans h5.symm)
          rw [h4, hqe] at this
          exact lt_irrefl _ this
        constructor
        · intro f t i he
          rw [hd] at he ⊢
          rcases he.site hI.dinv with ⟨k1, k2⟩ | ⟨rfl, rfl, _, rfl⟩ | ⟨rfl, rfl, _, rfl⟩
          · have := (k1.site_lt hI).2
            rw [hnm] at this; simp at this
          · exact ⟨⟨_, by rw [siteD_l]⟩, ⟨_, by rw [siteD_r]⟩⟩
          · exact ⟨⟨_, by rw [siteD_r]⟩, ⟨_, by rw [siteD_l]⟩⟩
        · have key : ∀ k, Zero (apts pts s pre ++ pts (s.og a) :: pts e.ref :: pts (s.og a) :: apts pts s post) e.yd (pts e.ref).1 k →
              k = (apts pts s pre).length + 1 := by
            intro k hk
            rcases zero_site hye hay hleft hk with ⟨_, h⟩ | ⟨_, h⟩ | ⟨_, h⟩
            · exact h
            · exact absurd h (hno _)
            · exact absurd h (hno _)
          intro k k' h h'
          rw [key k h, key k' h']
      · rw [hnames, Function.update_of_ne hpe] at hpn
        have hpx := (hlast _ ⟨p, hpn, rfl⟩).2 hpy
        have hback : ∀ k, Zero (apts pts s pre ++ pts (s.og a) :: pts e.ref :: pts (s.og a) :: apts pts s post) e.yd (pts p).1 k →
            (k < (apts pts s pre).length ∧ Zero (apts pts s L) e.yd (pts p).1 k) ∨
            ((apts pts s pre).length + 2 ≤ k ∧ Zero (apts pts s L) e.yd (pts p).1 (k - 2)) := by
          intro k hk
          rw [hA]
          rcases zero_site hye hay hleft hk with ⟨h, _⟩ | h
          · exact absurd h hpx.ne
          · exact h
        rcases hcalm p hpn hpy with h0 | ⟨h1, h2⟩
        · left
          intro k hk
          rcases hback k hk with ⟨_, h⟩ | ⟨_, h⟩
          · exact h0 _ h
          · exact h0 _ h
        · right
          constructor
          · intro f t i he
            rw [hd] at he ⊢
            rcases he.site hI.dinv with ⟨k1, k2⟩ | ⟨_, _, h, _⟩ | ⟨_, _, h, _⟩
            · rw [siteD_old k1.lt, siteD_old k2]
              exact h1 f t i k1
            · exact absurd h hpe
            · rw [h] at hpy
              have : e.yd < (pts (s.arcs a).origin).2 := hay
              linarith
          · intro k k' h h'
            rcases hback k h with ⟨g1, g2⟩ | ⟨g1, g2⟩ <;> rcases hback k' h' with ⟨g3, g4⟩ | ⟨g3, g4⟩ <;> have := h2 _ _ g2 g4 <;> omega
    · intro v hv'
      rw [hv] at hv'
      obtain ⟨f, h1, h2⟩ := hZ.last v hv'
      refine ⟨f, by rw [hed]; exact List.mem_append_left _ h1, ?_⟩
      unfold LastAt
      rw [hvs]; exact h2
    · intro f t i j v z he ho hz
      obtain ⟨k1, _, k2⟩ := hold f t i j v he ho
      unfold LastAt
      rw [hvs] at hz ⊢
      rcases hZ.half f t i j v z k1 k2 hz with h | ⟨m, h1, h2⟩
      · exact Or.inl h
      · exact Or.inr ⟨m, hle.trans h1, h2⟩
    · intro f t i j v w z he ho hw hz hz'
      obtain ⟨k1, k3, k2⟩ := hold f t i j v he ho
      have hw' : (s.d.he t).origin = .vtx w := by rw [hd, siteD_old k3] at hw; exact hw
      unfold LastAt
      rw [hvs] at hz hz' ⊢
      rw [hvs]
      exact hZ.both f t i j v w z k1 k2 hw' hz hz'
    · intro f t i j v w he ho hw hl
      obtain ⟨k1, k3, k2⟩ := hold f t i j v he ho
      have hw' : (s.d.he t).origin = .vtx w := by rw [hd, siteD_old k3] at hw; exact hw
      unfold LastAt at hl
      rw [hvs] at hl
      exact hZ.ord f t i j v w k1 k2 hw' hl
  | @circle s1 _ P m u le ri tl tr ue re hc hv hcev hmk hpre hn =>
    have := (hG.circle hI hq hp hc hv hcev hmk hpre hn hI').sw
    rw [hsw, Option.some.injEq] at this
    subst this
    obtain ⟨hd, hbp, hE, hAL, hdet, hlow, hca⟩ := hG.circ_at hI hq hp hc hmk hpre hn
    have hqe := hI.qinv.qe e ((hq.pop_perm _ _ _ hI.qinv.ok hp).mem_iff.mpr (by simp)) hc
    obtain ⟨_, hyd, _, hcen⟩ := mkEv_spec hmk e.ref
    simp only at hyd hcen
    rw [← hqe] at hyd
    obtain ⟨x1, x2, x3, x4, x5, _⟩ := hE.circle_x hAL hdet hyd.symm
    obtain ⟨log', _, heq⟩ := hn.eq
    have hvt : (stepEnd (.circle e.ref) s1).verts = s.d.vCnt :: s.verts := by
      show s1.verts = _
      rw [heq]; exact checkAdd_verts ..
    have hed : (stepEnd (.circle e.ref) s1).edges = s.edges ++ [s.d.heCnt + 1] := by
      show s1.edges = _
      rw [heq]; exact checkAdd_edges ..
    have hnames : (stepEnd (.circle e.ref) s1).names = s.names := by
      show s1.names = _
      rw [heq]; exact checkAdd_names ..
    have horigs : origs s1.og L' = origs s.og P.pre ++ ([s.og P.a1, s.og P.a3] ++ origs s.og P.post) := hn.origs_eq
    have hA' : apts pts (stepEnd (.circle e.ref) s1) L' = apts pts s P.pre ++ pts (s.og P.a1) :: pts (s.og P.a3) :: apts pts s P.post := by
      show (origs s1.og L').map pts = _
      rw [horigs]; simp [apts]
    obtain ⟨c, hcc⟩ : ∃ c, c = (s.evs e.ref).center := ⟨_, rfl⟩
    have hc1 : ccx (pts (s.og P.a1)) (pts (s.og P.a)) (pts (s.og P.a3)) = c.1 := by rw [hcc, hcen]
    rw [← hcc] at hd hca
    rw [hc1] at x3 x4 x5
    have hzero : Zero (apts pts s L) e.yd c.1 (apts pts s P.pre).length := ⟨_, _, _, _, _, hAL, rfl, x1, x3, x4⟩
    have hvold : ∀ v, v < s.d.vCnt → (stepEnd (.circle e.ref) s1).d.vs v = s.d.vs v := by
      intro v hv
      rw [hd]
      simp only [circD]
      rw [Function.update_of_ne (by omega)]
    have hvlt : ∀ f v, f < s.d.heCnt → (s.d.he f).origin = .vtx v → v < s.d.vCnt := fun f v hf ho => (hI.dinv.vts v (hI.dinv.ovt f hf v ho).1).2.1
    have hvn : ((stepEnd (.circle e.ref) s1).d.vs s.d.vCnt).pos = some c := by rw [hd]; exact circD_v
    have hln : LastAt (stepEnd (.circle e.ref) s1).d s.d.vCnt (s.d.heCnt + 1) := by
      unfold LastAt
      rw [hd]; simp [circD]
    -- the origins of old half-edges
    have horg : ∀ f v, f < s.d.heCnt → ((stepEnd (.circle e.ref) s1).d.he f).origin = .vtx v →
        (f = le ∧ v = s.d.vCnt) ∨ (f = ri ∧ v = s.d.vCnt) ∨ (f ≠ le ∧ f ≠ ri ∧ (s.d.he f).origin = .vtx v) := by
      intro f v hf ho
      rw [hd] at ho
      by_cases h1 : f = le
      · subst h1; rw [circD_le] at ho; cases ho; exact Or.inl ⟨rfl, rfl⟩
      by_cases h2 : f = ri
      · subst h2; rw [circD_ri hca.ne.1] at ho; cases ho; exact Or.inr (Or.inl ⟨rfl, rfl⟩)
      rw [circD_org hf h1 h2] at ho
      exact Or.inr (Or.inr ⟨h1, h2, ho⟩)
    have hedge : ∀ f t i j, Edg s.d f t i j → f = le ∨ f = ri → Bp (pts j) (pts i) e.yd c := by
      intro f t i j he hf
      rcases hf with rfl | rfl
      · have hp := (he.pair hI.dinv hca.ol).1
        rw [hca.p1, Prod.mk.injEq] at hp
        rw [← hp.1, ← hp.2]; exact hca.bl
      · have hp := (he.pair hI.dinv hca.or).1
        rw [hca.p2, Prod.mk.injEq] at hp
        rw [← hp.1, ← hp.2]; exact hca.br
    -- the second end of an edge is not at its first end
    have hsec : ∀ f t i j v, Edg s.d f t i j → f = le ∨ f = ri → (s.d.he t).origin = .vtx v → (s.d.vs v).pos = some c → LastAt s.d v t := by
      intro f t i j v he hf ho hz
      rcases hZ.half t f j i v c (he.symm hI.dinv) ho hz with h | ⟨m, _, hm⟩
      · exact h
      exfalso
      have hne := he.pts_ne hinj hI
      obtain ⟨_, h2⟩ := bp_both hne.symm (hedge f t i j he hf) hm
      rcases h2 with h2 | h2
      · rcases hcalm j ((he.symm hI.dinv).site_lt hI).2 (by rw [h2]) with h3 | ⟨h3, _⟩
        · rw [h2] at h3; exact h3 _ hzero
        · obtain ⟨⟨b, h4⟩, _⟩ := h3 t f i (he.symm hI.dinv)
          rw [ho] at h4; cases h4
      · rcases hcalm i (he.site_lt hI).2 (by rw [h2]) with h3 | ⟨h3, _⟩
        · rw [h2] at h3; exact h3 _ hzero
        · obtain ⟨_, ⟨b, h4⟩⟩ := h3 f t j he
          rw [ho] at h4; cases h4
    have hside : ∀ f t i j, Edg s.d f t i j → (f = le ∨ f = ri) → t ≠ le ∧ t ≠ ri := by
      intro f t i j he hf
      have hne := he.pts_ne hinj hI
      have hx : (s.arcs P.a1).origin ≠ (s.arcs P.a3).origin := by
        intro h
        have h' : det (pts (s.arcs P.a1).origin) (pts (s.og P.a)) (pts (s.arcs P.a3).origin) < 0 := hdet
        rw [h] at h'
        unfold det at h'
        linarith
      have hself : ∀ g, ¬ Edg s.d g g i j := fun g h' => h'.ne hI.dinv (Option.some.inj (h'.inc.symm.trans h'.tinc))
      rcases hf with rfl | rfl
      · refine ⟨fun h => hself _ (h ▸ he), ?_⟩
        rintro rfl
        have h1 := (he.pair hI.dinv hca.ol).1
        have h2 := ((he.symm hI.dinv).pair hI.dinv hca.or).1
        rw [hca.p1, Prod.mk.injEq] at h1
        rw [hca.p2, Prod.mk.injEq] at h2
        exact hx (h1.1.trans h2.2.symm)
      · refine ⟨?_, fun h => hself _ (h ▸ he)⟩
        rintro rfl
        have h1 := (he.pair hI.dinv hca.or).1
        have h2 := ((he.symm hI.dinv).pair hI.dinv hca.ol).1
        rw [hca.p2, Prod.mk.injEq] at h1
        rw [hca.p1, Prod.mk.injEq] at h2
        exact hx (h2.1.trans h1.2.symm)
    refine ⟨?_, ?_, ?_, ?_, ?_⟩
    · intro p hpn hpy
      rw [hnames] at hpn
      rw [hA']
      have hback : ∀ k, Zero (apts pts s P.pre ++ pts (s.og P.a1) :: pts (s.og P.a3) :: apts pts s P.post) e.yd (pts p).1 k →
          (k < (apts pts s P.pre).length ∧ Zero (apts pts s L) e.yd (pts p).1 k) ∨
          ((apts pts s P.pre).length ≤ k ∧ Zero (apts pts s L) e.yd (pts p).1 (k + 1)) := by
        intro k hk
        rw [hAL]
        exact zero_circ (x5.trans x3.symm) (x5.trans x4.symm) hk
      rcases hcalm p hpn hpy with h0 | ⟨h1, h2⟩
      · left
        intro k hk
        rcases hback k hk with ⟨_, h⟩ | ⟨_, h⟩
        · exact h0 _ h
        · exact h0 _ h
      by_cases hpx : (pts p).1 = c.1
      · left
        intro k hk
        rw [← hpx] at hzero
        rcases hback k hk with ⟨g, h⟩ | ⟨g, h⟩
        · have := h2 _ _ h hzero; omega
        · have := h2 _ _ h hzero; omega
      right
      have n2 : p ≠ s.og P.a := by rintro rfl; linarith
      have n3 : p ≠ s.og P.a3 := by rintro rfl; linarith
      have n1 : p ≠ s.og P.a1 := by
        rintro rfl
        have : bpX (pts (s.og P.a1)) (pts (s.og P.a)) e.yd = (pts (s.og P.a1)).1 := bpX_degA (by rw [hpy]; exact x1.ne) hpy
        exact hpx (by rw [← this, x3])
      constructor
      · intro f t i he
        rw [hd] at he ⊢
        rcases he.circ hca hI.dinv with ⟨k1, k2⟩ | ⟨_, _, h, _⟩ | ⟨_, _, h, _⟩
        · obtain ⟨⟨b, g1⟩, ⟨b', g2⟩⟩ := h1 f t i k1
          have hn : ∀ f t i j, Edg s.d f t i j → (i = p ∨ j = p) → f ≠ le ∧ f ≠ ri := by
            intro f t i j he' hij
            constructor
            · rintro rfl
              have hp := (he'.pair hI.dinv hca.ol).1
              rw [hca.p1, Prod.mk.injEq] at hp
              rcases hij with h | h
              · exact n2 (h.symm.trans hp.2.symm)
              · exact n1 (h.symm.trans hp.1.symm)
            · rintro rfl
              have hp := (he'.pair hI.dinv hca.or).1
              rw [hca.p2, Prod.mk.injEq] at hp
              rcases hij with h | h
              · exact n3 (h.symm.trans hp.2.symm)
              · exact n2 (h.symm.trans hp.1.symm)
          obtain ⟨q1, q2⟩ := hn f t p i k1 (Or.inl rfl)
          obtain ⟨q3, q4⟩ := hn t f i p (k1.symm hI.dinv) (Or.inr rfl)
          rw [circD_org k1.lt q1 q2, circD_org k2 q3 q4]
          exact ⟨⟨b, g1⟩, ⟨b', g2⟩⟩
        · exact absurd h n3
        · exact absurd h n1
      · intro k k' h h'
        rcases hback k h with ⟨g1, g2⟩ | ⟨g1, g2⟩ <;> rcases hback k' h' with ⟨g3, g4⟩ | ⟨g3, g4⟩ <;> have := h2 _ _ g2 g4 <;> omega
    · intro v hv'
      rw [hvt] at hv'
      rw [hed]
      rcases List.mem_cons.mp hv' with rfl | hv'
      · exact ⟨_, by simp, hln⟩
      · obtain ⟨f, h1, h2⟩ := hZ.last v hv'
        refine ⟨f, List.mem_append_left _ h1, ?_⟩
        unfold LastAt
        rw [hvold v (hI.dinv.vts v hv').2.1]; exact h2
    · intro f t i j v z he ho hz
      rw [hd] at he
      rcases he.circ hca hI.dinv with ⟨k1, k2⟩ | ⟨rfl, rfl, rfl, rfl⟩ | ⟨rfl, rfl, rfl, rfl⟩
      · rcases horg f v k1.lt ho with ⟨h1, rfl⟩ | ⟨h1, rfl⟩ | ⟨_, _, h1⟩
        · rw [hvn, Option.some.injEq] at hz
          subst hz
          exact Or.inr ⟨e.yd, le_rfl, hedge f t i j k1 (Or.inl h1)⟩
        · rw [hvn, Option.some.injEq] at hz
          subst hz
          exact Or.inr ⟨e.yd, le_rfl, hedge f t i j k1 (Or.inr h1)⟩
        · unfold LastAt
          rw [hvold v (hvlt f v k1.lt h1)] at hz ⊢
          rcases hZ.half f t i j v z k1 h1 hz with h | ⟨m, h2, h3⟩
          · exact Or.inl h
          · exact Or.inr ⟨m, hle.trans h2, h3⟩
      · rw [hd, circD_n hca.lt] at ho; cases ho
      · rw [hd, circD_n' hca.lt] at ho
        cases ho
        exact Or.inl hln
    · intro f t i j v w z he ho hw hz hz'
      rw [hd] at he
      rcases he.circ hca hI.dinv with ⟨k1, k2⟩ | ⟨rfl, rfl, rfl, rfl⟩ | ⟨rfl, rfl, rfl, rfl⟩
      · have main : ∀ f t i j v w, Edg s.d f t i j → t < s.d.heCnt → (f = le ∨ f = ri) → v = s.d.vCnt →
            ((stepEnd (.circle e.ref) s1).d.he t).origin = .vtx w → ((stepEnd (.circle e.ref) s1).d.vs v).pos = some z →
            ((stepEnd (.circle e.ref) s1).d.vs w).pos = some z → LastAt (stepEnd (.circle e.ref) s1).d w t := by
          intro f t i j v w k1 k2 hf hv hw hz hz'
          obtain ⟨t1, t2⟩ := hside f t i j k1 hf
          subst hv
          rw [hvn, Option.some.injEq] at hz
          subst hz
          rcases horg t w k2 hw with ⟨h, _⟩ | ⟨h, _⟩ | ⟨_, _, h1⟩
          · exact absurd h t1
          · exact absurd h t2
          · have hvo := hvold w (hvlt t w k2 h1)
            unfold LastAt
            rw [hvo] at hz' ⊢
            exact hsec f t i j w k1 hf h1 hz'
        rcases horg f v k1.lt ho with ⟨h1, h1'⟩ | ⟨h1, h1'⟩ | ⟨_, _, h1⟩
        · exact Or.inr (main f t i j v w k1 k2 (Or.inl h1) h1' hw hz hz')
        · exact Or.inr (main f t i j v w k1 k2 (Or.inr h1) h1' hw hz hz')
        · rcases horg t w k2 hw with ⟨h2, h2'⟩ | ⟨h2, h2'⟩ | ⟨_, _, h2⟩
          · exact Or.inl (main t f j i w v (k1.symm hI.dinv) k1.lt (Or.inl h2) h2' ho hz' hz)
          · exact Or.inl (main t f j i w v (k1.symm hI.dinv) k1.lt (Or.inr h2) h2' ho hz' hz)
          · unfold LastAt
            rw [hvold v (hvlt f v k1.lt h1)] at hz ⊢
            rw [hvold w (hvlt t w k2 h2)] at hz' ⊢
            exact hZ.both f t i j v w z k1 h1 h2 hz hz'
      · rw [hd, circD_n hca.lt] at ho; cases ho
      · rw [hd, circD_n' hca.lt] at ho
        cases ho
        exact Or.inl hln
    · intro f t i j v w he ho hw hl
      rw [hd] at he
      rcases he.circ hca hI.dinv with ⟨k1, k2⟩ | ⟨rfl, rfl, rfl, rfl⟩ | ⟨rfl, rfl, rfl, rfl⟩
      · have hnew : v ≠ s.d.vCnt := by
          rintro rfl
          unfold LastAt at hl hln
          rw [hln, Option.some.injEq] at hl
          have := k1.lt
          omega
        rcases horg f v k1.lt ho with ⟨_, h1⟩ | ⟨_, h1⟩ | ⟨_, _, h1⟩
        · exact absurd h1 hnew
        · exact absurd h1 hnew
        · have hvl := hvlt f v k1.lt h1
          rcases horg t w k2 hw with ⟨_, h2⟩ | ⟨_, h2⟩ | ⟨_, _, h2⟩
          · omega
          · omega
          · unfold LastAt at hl
            rw [hvold v hvl] at hl
            exact hZ.ord f t i j v w k1 h1 h2 hl
      · rw [hd, circD_n hca.lt] at ho; cases ho
      · rw [hd, circD_n hca.lt] at hw; cases hw

/-- Before the first event, or with the invariants. -/
def ZJ (pts : Nat → Pt) (s : St ℝ) (L : List (Item Dat)) : Prop :=
  KJ pts s L ∧ (s.nextName = 0 ∨ ∃ l, s.sweep = some l ∧ ZInv pts s L l)

theorem reach_zero (hinj : Set.InjOn pts {p | p < n}) (hq : q.Spec evLt ok) {s : St ℝ} (h : Reach pts q n poly s) :
    ∃ L, Inv pts ok n poly.points.length s L ∧ (s.nextName = 0 ∨ ∃ l, s.sweep = some l ∧ ZInv pts s L l) := by
  suffices hs : ∃ L, Inv pts ok n poly.points.length s L ∧ ZJ pts s L by
    obtain ⟨L, h1, hJ⟩ := hs
    exact ⟨L, h1, hJ.2⟩
  refine reach_follow (J := ZJ pts) hq ?_ ?_ h
  · refine ⟨Or.inl ⟨rfl, rfl, ?_⟩, Or.inl rfl⟩
    intro e he
    obtain ⟨_, h2⟩ := startQueue_spec (pts := pts) hq n
    obtain ⟨p, _, rfl⟩ := List.mem_map.mp (h2.mem_iff.mp he)
    rfl
  · intro s L e rest s' L' hI hJ hp hst hI'
    have hK' := hJ.1.step hinj hq hI hp hst hI'
    refine ⟨hK', ?_⟩
    rcases hK' with ⟨h0, _⟩ | ⟨l', hG', hK', _⟩
    · exact Or.inl h0
    refine Or.inr ⟨l', hG'.sw, ?_⟩
    obtain ⟨hKJ, hor⟩ := hJ
    rcases hKJ with ⟨h0, hc0, hnc⟩ | ⟨l, hG, hK, hv⟩
    · -- the first event makes no half-edges
      have hperm := hq.pop_perm _ _ _ hI.qinv.ok hp
      have hc' := hnc e (hperm.mem_iff.mpr (by simp))
      cases hst with
      | skip hc hv => rw [hc'] at hc; cases hc
      | @first s1 _ hc hf =>
        have hd : (stepEnd (.site e.ref) s1).d = s.d := by
          show s1.d = _
          rw [hf.eq]; rfl
        have hno : ∀ f t i j, ¬ Edg (stepEnd (.site e.ref) s1).d f t i j := by
          intro f t i j he
          have := he.lt
          rw [hd, hc0] at this; omega
        refine ⟨?_, ?_, fun f t i j v z he => absurd he (hno f t i j), fun f t i j v w z he => absurd he (hno f t i j),
          fun f t i j v w he => absurd he (hno f t i j)⟩
        · intro p hpn hpy
          left
          rintro k ⟨B, a, b, c, C, h1, _, h3, _⟩
          have hlen : (apts pts (stepEnd (.site e.ref) s1) L').length = 1 := by rw [hf.list]; rfl
          rw [h1] at hlen
          simp at hlen
          omega
        · intro v hv
          obtain ⟨_, _, p, x, r, e1, e2, e3, hvok⟩ := hI'.dinv.vts v hv
          have := hvok.lt.1
          rw [hd, hc0] at this; omega
      | site hc hpost hn =>
        have := hI.sinv.empty.mpr h0
        have h1 := hn.split
        rw [this] at h1; simp at h1
      | circle hc => rw [hc'] at hc; cases hc
    · rcases hor with h0 | ⟨l0, h0, hZ⟩
      · exfalso
        have := hI.sinv.empty.mpr h0
        rcases hG.env with hT | hE
        · exact hT.ne (by rw [this]; rfl)
        · exact hE.ne (by rw [this]; rfl)
      · have := hG.sw
        rw [h0, Option.some.injEq] at this
        subst this
        exact hZ.step hinj hq hI hG hp hst hI' hG'.sw

end Foronoi
