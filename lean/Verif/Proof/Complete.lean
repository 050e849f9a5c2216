import Verif.Proof.Geo

/-!
# Nothing is missed by the sweep: the geometric part

`S` are the sites met so far, `l` the height of the sweep line, `A` the sites of the arcs from left to right, `F` the positions of the
vertices found, `G` the pairs of sites with an edge through a point.  A circle is given by its centre `z` and the height `m` of its lowest point.
-/

namespace Foronoi

open scoped List

variable {S : Set Pt} {l m x : ℝ} {A : List Pt} {z : Pt}

/-- No site is inside of the circle. -/
def Emp (S : Set Pt) (m : ℝ) (z : Pt) : Prop := m ≤ z.2 ∧ ∀ c ∈ S, 0 ≤ pw c m z

/-- A site on the circle. -/
def OnC (S : Set Pt) (m : ℝ) (z : Pt) (c : Pt) : Prop := c ∈ S ∧ pw c m z = 0

def Three (S : Set Pt) (m : ℝ) (z : Pt) : Prop := ∃ a b c, a ≠ b ∧ b ≠ c ∧ a ≠ c ∧ OnC S m z a ∧ OnC S m z b ∧ OnC S m z c

/-- The site has an arc that reaches `x`. -/
def OnArc (A : List Pt) (l : ℝ) (c : Pt) (x : ℝ) : Prop := ∃ B C, A = B ++ c :: C ∧ InArc l B.getLast? c C.head? x

/-- What is known about vertices and edges when the sweep line is at `l`. -/
structure Known (S : Set Pt) (l : ℝ) (A : List Pt) (F : Pt → Prop) (G : Pt → Pt → Pt → Prop) : Prop where
  tri : ∀ z m, l < m → Emp S m z → Three S m z → F z
  two : ∀ z m, l < m → Emp S m z → ∀ p r, p ≠ r → OnC S m z p → OnC S m z r → (∀ c, OnC S m z c → c = p ∨ c = r) → G p r z
  arc : ∀ z, Emp S l z → ∀ c, OnC S l z c → l < c.2 → OnArc A l c z.1 ∨ (F z ∧ Three S l z)
  dg : Arcs (fun o p r => p.2 = l → ∀ a ∈ o, ∀ b ∈ r, l < a.2 → l < b.2 → a ≠ b → F (p.1, par a l p.1)) A

theorem OnC.deg {c : Pt} (h : OnC S m z c) (hc : c.2 = m) : c = (z.1, m) := by
  have := h.2
  rw [pw_deg hc] at this
  have h1 : z.1 - c.1 = 0 := by simpa using this
  exact Prod.ext (by simp only; linarith) hc

theorem OnC.par {c : Pt} (h : OnC S m z c) (hc : m < c.2) : z.2 = par c m z.1 := eq_par hc (by have := h.2; unfold pw at this; linarith)

/-- Two arcs reaching `x`: all breakpoints between them are at `x`. -/
theorem bp_between (hs : Srt A l) {B C B' C' D E : List Pt} {p q a b : Pt} (he : A = B ++ p :: C) (he' : A = B' ++ q :: C')
    (hx : InArc l B.getLast? p C.head? x) (hx' : InArc l B'.getLast? q C'.head? x) (hD : A = D ++ a :: b :: E)
    (h1 : B.length ≤ D.length) (h2 : D.length < B'.length) : bpX a b l = x := by
  apply le_antisymm
  · rcases List.eq_nil_or_concat B' with h | ⟨B2, o, h⟩
    · rw [h] at h2; simp at h2
    · rw [List.concat_eq_append] at h
      refine (hs.le hD (B' := B2) (a' := o) (b' := q) (C' := C') (by rw [he', h]; simp) ?_).trans (hx'.1 o (by rw [h]; simp))
      rw [h] at h2; simp at h2; omega
  · cases C with
    | nil =>
      have e1 := congrArg List.length he
      have e2 := congrArg List.length hD
      simp at e1 e2; omega
    | cons r C => exact (hx.2 r rfl).trans (hs.le he hD h1)

theorem split_neq {B C B' C' : List Pt} {p q : Pt} (he : A = B ++ p :: C) (he' : A = B' ++ q :: C') (h : B.length = B'.length) : B = B' ∧ p = q ∧ C = C' := by
  rw [he] at he'
  obtain ⟨h1, h2⟩ := List.append_inj he' h
  simp only [List.cons.injEq] at h2
  exact ⟨h1, h2⟩

/-- Three arcs reaching the same abscissa, without arcs of width zero other than those of sites on the sweep line. -/
theorem core_tri (hE : Env S l A) (hz : ∀ B a b c C, A = B ++ a :: b :: c :: C → l < b.2 → bpX a b l = bpX b c l → False)
    {B1 C1 B2 C2 B3 C3 : List Pt} {a b c : Pt} (e1 : A = B1 ++ a :: C1) (e2 : A = B2 ++ b :: C2) (e3 : A = B3 ++ c :: C3)
    (x1 : InArc l B1.getLast? a C1.head? x) (x2 : InArc l B2.getLast? b C2.head? x) (x3 : InArc l B3.getLast? c C3.head? x)
    (h12 : B1.length < B2.length) (h23 : B2.length < B3.length) :
    b.2 = l ∧ B2.getLast? = some a ∧ C2.head? = some c := by
  rcases List.eq_nil_or_concat B2 with h | ⟨D, o, h⟩
  · rw [h] at h12; simp at h12
  rw [List.concat_eq_append] at h
  cases hC : C2 with
  | nil =>
    have g1 := congrArg List.length e2
    have g2 := congrArg List.length e3
    rw [hC] at g1; simp at g1 g2; omega
  | cons r C2' =>
  have s1 : A = D ++ o :: b :: (r :: C2') := by rw [e2, h, hC]; simp
  have s2 : A = (D ++ [o]) ++ b :: r :: C2' := by rw [e2, h, hC]
  have hD : B2.length = D.length + 1 := by rw [h]; simp
  have t1 : bpX o b l = x := bp_between hE.srt' e1 e2 x1 x2 s1 (by omega) (by omega)
  have t2 : bpX b r l = x := bp_between hE.srt' e2 e3 x2 x3 s2 (by simp; omega) (by simp; omega)
  rcases eq_or_lt_of_le (hE.low' e2) with hb | hb
  swap
  · exact (hz D o b r C2' s1 hb (t1.trans t2.symm)).elim
  obtain ⟨⟨o', ho', ho, _⟩, ⟨r', hr', hr, _⟩⟩ := hE.head_deg e2 hb.symm
  have : o' = o := by rw [h] at ho'; simpa using ho'.symm
  subst this
  have : r' = r := by rw [hC] at hr'; simpa using hr'.symm
  subst this
  refine ⟨hb.symm, ?_, ?_⟩
  · rcases Nat.lt_or_ge B1.length D.length with hlt | hge
    · exfalso
      rcases List.eq_nil_or_concat D with h' | ⟨D', o2, h'⟩
      · rw [h'] at hlt; simp at hlt
      rw [List.concat_eq_append] at h'
      have s3 : A = D' ++ o2 :: o' :: (b :: r' :: C2') := by rw [s1, h']; simp
      refine hz D' o2 o' b (r' :: C2') s3 ho ?_
      rw [t1]
      refine bp_between hE.srt' e1 e2 x1 x2 s3 ?_ ?_
      · rw [h'] at hlt; simp at hlt; omega
      · rw [hD, h']; simp
    · obtain ⟨_, h5, _⟩ := split_neq e1 (B' := D) (q := o') (C' := b :: r' :: C2') s1 (by omega)
      rw [h, h5]; simp
  · have hlen : A.length = B2.length + 2 + C2'.length := by rw [e2, hC]; simp; omega
    rcases Nat.lt_or_ge (B2.length + 1) B3.length with hlt | hge
    · exfalso
      cases hC' : C2' with
      | nil =>
        have g2 := congrArg List.length e3
        rw [hC'] at hlen; simp at g2 hlen; omega
      | cons r2 C4 =>
      have s3 : A = B2 ++ b :: r' :: r2 :: C4 := by rw [e2, hC, hC']
      refine hz B2 b r' r2 C4 s3 hr ?_
      rw [t2]
      refine (bp_between hE.srt' e2 e3 x2 x3 (D := B2 ++ [b]) (a := r') (b := r2) (E := C4) (by rw [s3]; simp) ?_ ?_).symm
      · simp
      · simp; omega
    · obtain ⟨_, h5, _⟩ := split_neq e3 (B' := B2 ++ [b]) (q := r') (C' := C2') (by rw [e2, hC]; simp) (by simp; omega)
      rw [h5]; rfl

/-- At the height of the lowest point of an empty circle all sites on it have an arc at its centre. -/
theorem onArc_all (hE : Env S m A) (harc : ∀ c, OnC S m z c → m < c.2 → OnArc A m c z.1) {c : Pt} (h : OnC S m z c) : OnArc A m c z.1 := by
  rcases eq_or_lt_of_le (hE.low c h.1) with hd | hn
  · obtain ⟨B, C, he⟩ := List.append_of_mem (hE.deg c h.1 hd.symm)
    obtain ⟨⟨a, ha, _, h1⟩, ⟨b, hb, _, h2⟩⟩ := hE.head_deg he hd.symm
    have hz := h.deg hd.symm
    refine ⟨B, C, he, ?_, ?_⟩
    · intro a' ha'
      rw [ha] at ha'; simp only [Option.mem_def, Option.some.injEq] at ha'
      rw [← ha', h1, hz]
    · intro b' hb'
      rw [hb] at hb'; simp only [Option.mem_def, Option.some.injEq] at hb'
      rw [← hb', h2, hz]
  · exact harc c h hn

theorem level_tri {F : Pt → Prop} (hE : Env S m A) (hz : ∀ B a b c C, A = B ++ a :: b :: c :: C → m < b.2 → bpX a b m = bpX b c m → False)
    (harc : ∀ c, OnC S m z c → m < c.2 → OnArc A m c z.1)
    (hdg : Arcs (fun o p r => p.2 = m → ∀ a ∈ o, ∀ b ∈ r, m < a.2 → m < b.2 → a ≠ b → F (p.1, par a m p.1)) A) (h3 : Three S m z) : F z := by
  have core : ∀ a b c, OnC S m z a → OnC S m z b → OnC S m z c → a ≠ b → b ≠ c → a ≠ c →
      ∀ B1 C1 B2 C2 B3 C3, A = B1 ++ a :: C1 → A = B2 ++ b :: C2 → A = B3 ++ c :: C3 →
      InArc m B1.getLast? a C1.head? z.1 → InArc m B2.getLast? b C2.head? z.1 → InArc m B3.getLast? c C3.head? z.1 →
      B1.length < B2.length → B2.length < B3.length → F z := by
    intro a b c ha hb hc hab hbc hac B1 C1 B2 C2 B3 C3 e1 e2 e3 x1 x2 x3 h12 h23
    obtain ⟨h1, h2, h3⟩ := core_tri hE hz e1 e2 e3 x1 x2 x3 h12 h23
    have hbz := hb.deg h1
    have ha' : m < a.2 := lt_of_le_of_ne (hE.low a ha.1) fun h => hab (by rw [ha.deg h.symm, hbz])
    have hc' : m < c.2 := lt_of_le_of_ne (hE.low c hc.1) fun h => hbc (by rw [hc.deg h.symm, hbz])
    have := hdg B2 b C2 e2 h1 a h2 c h3 ha' hc' hac
    rw [hbz] at this
    have e : ((z.1, par a m z.1) : Pt) = z := Prod.ext rfl (ha.par ha').symm
    rw [e] at this
    exact this
  obtain ⟨a, b, c, hab, hbc, hac, ha, hb, hc⟩ := h3
  obtain ⟨B1, C1, e1, x1⟩ := onArc_all hE harc ha
  obtain ⟨B2, C2, e2, x2⟩ := onArc_all hE harc hb
  obtain ⟨B3, C3, e3, x3⟩ := onArc_all hE harc hc
  have n12 : B1.length ≠ B2.length := fun h => hab (split_neq e1 e2 h).2.1
  have n23 : B2.length ≠ B3.length := fun h => hbc (split_neq e2 e3 h).2.1
  have n13 : B1.length ≠ B3.length := fun h => hac (split_neq e1 e3 h).2.1
  rcases lt_or_gt_of_ne n12 with h1 | h1 <;> rcases lt_or_gt_of_ne n23 with h2 | h2 <;> rcases lt_or_gt_of_ne n13 with h3 | h3
  · exact core a b c ha hb hc hab hbc hac _ _ _ _ _ _ e1 e2 e3 x1 x2 x3 h1 h2
  · omega
  · exact core a c b ha hc hb hac hbc.symm hab _ _ _ _ _ _ e1 e3 e2 x1 x3 x2 h3 h2
  · exact core c a b hc ha hb hac.symm hab hbc.symm _ _ _ _ _ _ e3 e1 e2 x3 x1 x2 h3 h1
  · exact core b a c hb ha hc hab.symm hac hbc _ _ _ _ _ _ e2 e1 e3 x2 x1 x3 h1 h3
  · exact core b c a hb hc ha hbc hac.symm hab.symm _ _ _ _ _ _ e2 e3 e1 x2 x3 x1 h2 h3
  · omega
  · exact core c b a hc hb ha hbc.symm hab.symm hac.symm _ _ _ _ _ _ e3 e2 e1 x3 x2 x1 h2 h1

/-- The breakpoint of two neighbours is the centre of a circle through both. -/
theorem Env.bp_at (hE : Env S m A) {B C : List Pt} {p r : Pt} (he : A = B ++ p :: r :: C) (hx : bpX p r m = z.1) (hp : OnC S m z p)
    (hr : OnC S m z r) : Bp p r m z := by
  have hb := hE.bp he
  have e : (bpX p r m, bpYv p r m) = z := by
    refine Prod.ext hx ?_
    rcases (hE.pair he).2.1 with h | h
    · rw [hp.par h, ← hx]; exact hb.y_eq h
    · rw [hr.par h, ← hx]; exact hb.y_eq' h
  rwa [e] at hb

/-- If exactly two sites are on an empty circle then their arcs are neighbours, and the centre is their breakpoint. -/
theorem level_two (hE : Env S m A) (hem : Emp S m z) (harc : ∀ c, OnC S m z c → m < c.2 → OnArc A m c z.1) {p r : Pt} (hne : p ≠ r)
    (hp : OnC S m z p) (hr : OnC S m z r) (hall : ∀ c, OnC S m z c → c = p ∨ c = r) :
    ((∃ B C, A = B ++ p :: r :: C) ∧ Bp p r m z) ∨ ((∃ B C, A = B ++ r :: p :: C) ∧ Bp r p m z) := by
  have core : ∀ p r, p ≠ r → OnC S m z p → OnC S m z r → (∀ c, OnC S m z c → c = p ∨ c = r) →
      ∀ B1 C1 B2 C2, A = B1 ++ p :: C1 → A = B2 ++ r :: C2 → InArc m B1.getLast? p C1.head? z.1 → InArc m B2.getLast? r C2.head? z.1 →
      B1.length < B2.length → (∃ B C, A = B ++ p :: r :: C) ∧ Bp p r m z := by
    intro p r hne hp hr hall B1 C1 B2 C2 e1 e2 x1 x2 h12
    cases hC : C1 with
    | nil =>
      have g1 := congrArg List.length e1
      have g2 := congrArg List.length e2
      rw [hC] at g1; simp at g1 g2; omega
    | cons o C1' =>
    have s1 : A = B1 ++ p :: o :: C1' := by rw [e1, hC]
    have s1' : A = (B1 ++ [p]) ++ o :: C1' := by rw [s1]; simp
    rcases Nat.lt_or_ge (B1.length + 1) B2.length with hlt | hge
    swap
    · obtain ⟨h4, h5, _⟩ := split_neq s1' e2 (by simp; omega)
      have s2 : A = B1 ++ p :: r :: C1' := by rw [s1, h5]
      refine ⟨⟨B1, C1', s2⟩, hE.bp_at s2 (le_antisymm ?_ ?_) hp hr⟩
      · exact x2.1 p (by rw [← h4]; simp)
      · exact x1.2 r (by rw [hC, h5]; simp)
    have t1 : bpX p o m = z.1 := bp_between hE.srt' e1 e2 x1 x2 s1 (by omega) (by omega)
    have hno : OnC S m z o := by
      have hoS : o ∈ S := hE.mem (by rw [s1]; simp)
      refine ⟨hoS, ?_⟩
      rcases eq_or_lt_of_le (hE.low o hoS) with hd | hn
      · obtain ⟨⟨a, ha, _, h1⟩, _⟩ := hE.head_deg s1' hd.symm
        simp at ha
        subst ha
        rw [pw_deg hd.symm, ← t1, h1]; ring
      · -- some site on the circle is above its lowest point
        obtain ⟨d, hd, hdn⟩ : ∃ d, OnC S m z d ∧ m < d.2 := by
          rcases eq_or_lt_of_le (hE.low p hp.1) with hpd | hpn
          · refine ⟨r, hr, lt_of_le_of_ne (hE.low r hr.1) fun h => hne ?_⟩
            rw [hp.deg hpd.symm, hr.deg h.symm]
          · exact ⟨p, hp, hpn⟩
        have hin : InArc m (B1 ++ [p]).getLast? o C1'.head? z.1 := by
          refine ⟨?_, ?_⟩
          · intro a ha; simp at ha; subst ha; exact t1.le
          · intro b hb
            obtain ⟨C3, hC3⟩ := List.head?_eq_some_iff.mp hb
            rw [bp_between hE.srt' e1 e2 x1 x2 (D := B1 ++ [p]) (a := o) (b := b) (E := C3) (by rw [s1', hC3]) (by simp) (by simp; omega)]
        have := (hE.arcs _ _ _ s1').own hn z.1 hin d hd.1 hdn
        rw [← hd.par hdn] at this
        refine le_antisymm ?_ (hem.2 o hoS)
        have e := pw_par hn z.1 z.2
        rw [show pw o m z = pw o m (z.1, z.2) from rfl, e]
        have : par o m z.1 - z.2 ≤ 0 := by linarith
        have h2 : 0 ≤ 2 * (o.2 - m) := by linarith
        exact mul_nonpos_of_nonneg_of_nonpos h2 this
    rcases hall o hno with h | h
    · exact absurd h (hE.pair s1).1.symm
    · rw [h] at s1 t1
      exact ⟨⟨B1, C1', s1⟩, hE.bp_at s1 t1 hp hr⟩
  obtain ⟨B1, C1, e1, x1⟩ := onArc_all hE harc hp
  obtain ⟨B2, C2, e2, x2⟩ := onArc_all hE harc hr
  have n12 : B1.length ≠ B2.length := fun h => hne (split_neq e1 e2 h).2.1
  rcases lt_or_gt_of_ne n12 with h1 | h1
  · exact Or.inl (core p r hne hp hr hall _ _ _ _ e1 e2 x1 x2 h1)
  · exact Or.inr (core r p hne.symm hr hp (fun c hc => (hall c hc).symm) _ _ _ _ e2 e1 x2 x1 h1)

variable {F F' : Pt → Prop} {G G' : Pt → Pt → Pt → Prop} {l1 : ℝ}

theorem Known.mono (h : Known S l A F G) (hF : ∀ z, F z → F' z) (hG : ∀ p r z, G p r z → G' p r z) : Known S l A F' G' :=
  ⟨fun z m h1 h2 h3 => hF z (h.tri z m h1 h2 h3), fun z m h1 h2 p r h3 h4 h5 h6 => hG p r z (h.two z m h1 h2 p r h3 h4 h5 h6),
    fun z h1 c h2 h3 => (h.arc z h1 c h2 h3).imp_right fun h => ⟨hF z h.1, h.2⟩,
    fun B p C he hp a ha b hb h1 h2 h3 => hF _ (h.dg B p C he hp a ha b hb h1 h2 h3)⟩

/-- All sites on the sweep line. -/
theorem Known.row (hrow : ∀ p ∈ S, p.2 = l) (hA : ∀ p ∈ A, p ∈ S) : Known S l A F G := by
  have hon : ∀ z m, l < m → Emp S m z → ∀ p, OnC S m z p → False := by
    intro z m hm hem p hp
    have h1 := hp.2
    have h2 := hrow p hp.1
    have h3 := hem.1
    unfold pw dsq at h1
    nlinarith [sq_nonneg (p.1 - z.1)]
  refine ⟨?_, ?_, ?_, ?_⟩
  · rintro z m hm hem ⟨a, b, c, _, _, _, ha, _⟩
    exact (hon z m hm hem a ha).elim
  · intro z m hm hem p r _ hp
    exact (hon z m hm hem p hp).elim
  · intro z _ c hc hlt
    have := hrow c hc.1
    linarith
  · intro B p C he _ a ha b _ hlt
    have := hrow a (hA a (by rw [he]; have := List.mem_of_getLast? ha; simp [this]))
    linarith

/-- The sweep line moves down to the next event. -/
theorem Known.advance (h : Known S l A F G) (hS : S.Finite) (hTE : TopRow S l A ∨ Env S l A) (hl : l1 < l)
    (hdue : ∀ B a b c C, A = B ++ a :: b :: c :: C → Due S a b c → cbot a b c ≤ l1)
    (hadj : ∀ B a b C, A = B ++ a :: b :: C → ∀ m z, l1 < m → m ≤ l → Bp a b m z → G a b z ∧ G b a z) : Known S l1 A F G := by
  have hlow : ∀ p ∈ S, l ≤ p.2 := by
    rcases hTE with hT | hE
    · exact fun p hp => (hT.row p hp).ge
    · exact hE.low
  -- the beach line between the two heights
  have henv : ∀ m, l1 ≤ m → m < l → Env S m A := by
    intro m h1 h2
    rcases hTE with hT | hE
    · exact hT.env h2
    · exact hE.advance_to hS h2.le fun B a b c C he hd => (hdue B a b c C he hd).trans h1
  have harc : ∀ m, m < l → ∀ z, Emp S m z → ∀ c, OnC S m z c → m < c.2 → OnArc A m c z.1 := by
    intro m h2 z hem c hc hlt
    obtain ⟨l0, hl0, hE⟩ : ∃ l0, m < l0 ∧ Env S l0 A := by
      rcases hTE with hT | hE
      · exact ⟨(m + l) / 2, by linarith, hT.env (by linarith)⟩
      · exact ⟨l, h2, hE⟩
    refine hE.advance_at hl0 hc.1 fun d hd => ?_
    have hdm : m < d.2 := lt_of_lt_of_le h2 (hlow d hd)
    rw [par_le_iff hdm, ← hc.par hlt]
    exact hem.2 d hd
  have hnz : ∀ m, l1 < m → ∀ B a b c C, Env S m A → A = B ++ a :: b :: c :: C → m < b.2 → bpX a b m = bpX b c m → False := by
    intro m hm B a b c C hE he hb hx
    obtain ⟨B', a', b', c', C', he', hd, hcb, _⟩ := hE.due_of_zero B.length B a b c C rfl he hb hx
    have := hdue B' a' b' c' C' he' hd
    linarith
  -- no site on the sweep line
  have hdg : ∀ m, m < l → Arcs (fun o p r => p.2 = m → ∀ a ∈ o, ∀ b ∈ r, m < a.2 → m < b.2 → a ≠ b → F (p.1, par a m p.1)) A := by
    intro m hm B p C he hp
    have hmem : ∀ p ∈ A, p ∈ S := by
      rcases hTE with hT | hE
      · exact fun p hp => (hT.mem p).mp hp
      · exact fun p hp => hE.mem hp
    have := hlow p (hmem p (by rw [he]; simp))
    linarith
  have hadj' : ∀ p r m z, l1 < m → m ≤ l → (((∃ B C, A = B ++ p :: r :: C) ∧ Bp p r m z) ∨ ((∃ B C, A = B ++ r :: p :: C) ∧ Bp r p m z)) →
      G p r z := by
    rintro p r m z h1 h2 (⟨⟨B, C, he⟩, hb⟩ | ⟨⟨B, C, he⟩, hb⟩)
    · exact (hadj B p r C he m z h1 h2 hb).1
    · exact (hadj B r p C he m z h1 h2 hb).2
  refine ⟨?_, ?_, ?_, hdg l1 hl⟩
  · intro z m hm hem h3
    rcases lt_trichotomy l m with hlm | rfl | hlm
    · exact h.tri z m hlm hem h3
    · rcases hTE with hT | hE
      · obtain ⟨a, b, c, hab, _, _, ha, hb, _⟩ := h3
        exact absurd ((ha.deg (hT.row a ha.1)).trans (hb.deg (hT.row b hb.1)).symm) hab
      · by_cases hF : F z
        · exact hF
        refine level_tri hE (fun B a b c C => hnz l hm B a b c C hE) (fun c hc hlt => ?_) h.dg h3
        exact (h.arc z hem c hc hlt).resolve_right fun h => hF h.1
    · have hE := henv m hm.le hlm
      exact level_tri hE (fun B a b c C => hnz m hm B a b c C hE) (harc m hlm z hem) (hdg m hlm) h3
  · intro z m hm hem p r hne hp hr hall
    rcases lt_trichotomy l m with hlm | rfl | hlm
    · exact h.two z m hlm hem p r hne hp hr hall
    · rcases hTE with hT | hE
      · exact absurd ((hp.deg (hT.row p hp.1)).trans (hr.deg (hT.row r hr.1)).symm) hne
      · refine hadj' p r _ z hm le_rfl (level_two hE hem (fun c hc hlt => ?_) hne hp hr hall)
        refine (h.arc z hem c hc hlt).resolve_right ?_
        rintro ⟨_, a, b, c, hab, hbc, hac, ha, hb, hc⟩
        rcases hall a ha with rfl | rfl <;> rcases hall b hb with rfl | rfl <;> rcases hall c hc with rfl | rfl <;> simp at hab hbc hac
    · exact hadj' p r m z hm hlm.le (level_two (henv m hm.le hlm) hem (harc m hlm z hem) hne hp hr hall)
  · intro z hem c hc hlt
    exact Or.inl (harc l1 hl z hem c hc hlt)

theorem Emp.mono {S' : Set Pt} (h : Emp S' m z) (hs : S ⊆ S') : Emp S m z := ⟨h.1, fun c hc => h.2 c (hs hc)⟩

theorem Three.mono {S' : Set Pt} (h : Three S m z) (hs : S ⊆ S') : Three S' m z := by
  obtain ⟨a, b, c, h1, h2, h3, ha, hb, hc⟩ := h
  exact ⟨a, b, c, h1, h2, h3, ⟨hs ha.1, ha.2⟩, ⟨hs hb.1, hb.2⟩, ⟨hs hc.1, hc.2⟩⟩

theorem onC_insert {p c : Pt} (hem : Emp (Insert.insert p S) m z) (hp : p.2 < m) (h : OnC (Insert.insert p S) m z c) : OnC S m z c := by
  refine ⟨?_, h.2⟩
  rcases h.1 with rfl | hc
  · exfalso
    have h1 := h.2
    have h2 := hem.1
    unfold pw dsq at h1
    nlinarith [sq_nonneg (c.1 - z.1)]
  · exact hc

theorem onArc_iff {c : Pt} : OnArc A l c x ↔ ¬ Arcs (fun o p r => ¬ (p = c ∧ InArc l o p r x)) A := by
  unfold OnArc Arcs
  constructor
  · rintro ⟨B, C, he, hx⟩ h
    exact h B c C he ⟨rfl, hx⟩
  · intro h
    push Not at h
    obtain ⟨B, p, C, he, rfl, hx⟩ := h
    exact ⟨B, C, he, hx⟩

/-- A new site splits an arc. -/
theorem Known.site {B C : List Pt} {q p : Pt} (h : Known S l (B ++ q :: C) F G) (hp : p.2 = l) (hq : l < q.2) :
    Known (Insert.insert p S) l (B ++ q :: p :: q :: C) F G := by
  have hsub : S ⊆ Insert.insert p S := Set.subset_insert _ _
  refine ⟨?_, ?_, ?_, ?_⟩
  · rintro z m hm hem ⟨a, b, c, h1, h2, h3, ha, hb, hc⟩
    have hpm : p.2 < m := by rw [hp]; exact hm
    exact h.tri z m hm (hem.mono hsub) ⟨a, b, c, h1, h2, h3, onC_insert hem hpm ha, onC_insert hem hpm hb, onC_insert hem hpm hc⟩
  · intro z m hm hem p' r' hne hp' hr' hall
    have hpm : p.2 < m := by rw [hp]; exact hm
    exact h.two z m hm (hem.mono hsub) p' r' hne (onC_insert hem hpm hp') (onC_insert hem hpm hr') fun c hc => hall c ⟨hsub hc.1, hc.2⟩
  · intro z hem c hc hlt
    have hcS : OnC S l z c := by
      refine ⟨?_, hc.2⟩
      rcases hc.1 with rfl | hcS
      · rw [hp] at hlt; exact absurd hlt (lt_irrefl _)
      · exact hcS
    rcases h.arc z (hem.mono hsub) c hcS hlt with ho | ⟨hF, h3⟩
    swap
    · exact Or.inr ⟨hF, h3.mono hsub⟩
    left
    rw [onArc_iff] at ho ⊢
    refine fun hA => ho ?_
    rw [arcs_iff, arcsR_append] at hA ⊢
    simp only [ArcsR, List.head?_cons] at hA ⊢
    obtain ⟨h1, h2, _, h4, h5⟩ := hA
    refine ⟨h1, ?_, h5⟩
    rintro ⟨rfl, hx⟩
    have e1 : bpX q p l = p.1 := bpX_degB (by rw [hp]; exact hq.ne') hp
    have e2 : bpX p q l = p.1 := bpX_degA (by rw [hp]; exact hq.ne) hp
    rcases le_total z.1 p.1 with hz | hz
    · refine h2 ⟨rfl, hx.1, ?_⟩
      rintro b ⟨⟩
      rw [e1]; exact hz
    · refine h4 ⟨rfl, ?_, hx.2⟩
      rintro b ⟨⟩
      rw [e2]; exact hz
  · have hA := h.dg
    rw [arcs_iff, arcsR_append] at hA ⊢
    simp only [ArcsR, List.head?_cons] at hA ⊢
    obtain ⟨h1, h2, h3⟩ := hA
    refine ⟨h1, ?_, ?_, ?_, h3⟩
    · intro hql; linarith
    · rintro _ a ⟨⟩ b ⟨⟩ _ _ hne
      exact absurd rfl hne
    · intro hql; linarith

/-- An arc disappears in a vertex. -/
theorem Known.circle {B C : List Pt} {a b c : Pt} (h : Known S l (B ++ a :: b :: c :: C) F G) (hE : Env S l (B ++ a :: b :: c :: C))
    (hd : det a b c < 0) (hb : cbot a b c = l) : Known S l (B ++ a :: c :: C) (fun z => F z ∨ z = (ccx a b c, ccy a b c)) G := by
  obtain ⟨hbn, hcn, e1, e2, e3, g⟩ := hE.circle_x rfl hd hb
  obtain ⟨k1, k2, k3, _⟩ := circ_spec hd.ne
  rw [hb] at k1 k2 k3
  have haS : a ∈ S := hE.mem (by simp)
  have hbS : b ∈ S := hE.mem (by simp)
  have hcS : c ∈ S := hE.mem (by simp)
  have hab := (hE.pair rfl).1
  have hbc := (hE.pair (B := B ++ [a]) (a := b) (b := c) (C := C) (by simp)).1
  have hac : a ≠ c := by rintro rfl; unfold det at hd; ring_nf at hd; exact lt_irrefl _ hd
  have hthree : Three S l (ccx a b c, ccy a b c) := by
    refine ⟨a, b, c, hab, hbc, hac, ⟨haS, ?_⟩, ⟨hbS, ?_⟩, ⟨hcS, ?_⟩⟩ <;> unfold pw <;> simp only
    · rw [k1]; ring
    · rw [k2]; ring
    · rw [k3]; ring
  refine ⟨fun z m h1 h2 h3 => Or.inl (h.tri z m h1 h2 h3), h.two, ?_, ?_⟩
  · intro z hem d hdS hlt
    rcases h.arc z hem d hdS hlt with ho | ⟨hF, h3⟩
    swap
    · exact Or.inr ⟨Or.inl hF, h3⟩
    by_cases hbd : d = b ∧ z.1 = ccx a b c
    · right
      have : z = (ccx a b c, ccy a b c) := same_center (q := b) (m := l) hbn (by rw [← hbd.1]; have := hdS.2; unfold pw at this; linarith) k2 hbd.2
      exact ⟨Or.inr this, by rw [this]; exact hthree⟩
    left
    rw [onArc_iff] at ho ⊢
    refine fun hA => ho ?_
    rw [arcs_iff, arcsR_append] at hA ⊢
    simp only [ArcsR, List.head?_cons] at hA ⊢
    obtain ⟨h1, h2, h3, h4⟩ := hA
    refine ⟨h1, ?_, ?_, ?_, h4⟩
    · rintro ⟨rfl, hx⟩
      refine h2 ⟨rfl, hx.1, ?_⟩
      rintro b' ⟨⟩
      rw [e3, ← e1]; exact hx.2 b rfl
    · rintro ⟨rfl, hx⟩
      have x1 := hx.1 a rfl
      have x2 := hx.2 c rfl
      rw [e1] at x1; rw [e2] at x2
      exact hbd ⟨rfl, le_antisymm x2 x1⟩
    · rintro ⟨rfl, hx⟩
      refine h3 ⟨rfl, ?_, hx.2⟩
      rintro b' ⟨⟩
      rw [e3, ← e2]; exact hx.1 b rfl
  · have hA := h.dg
    rw [arcs_iff, arcsR_append] at hA ⊢
    simp only [ArcsR, List.head?_cons] at hA ⊢
    obtain ⟨h1, h2, _, h3, h4⟩ := hA
    have weak : ∀ {o : Option Pt} {A : List Pt} {P P' : Option Pt → Pt → Option Pt → Prop}, (∀ o p r, P o p r → P' o p r) → ArcsR P o A → ArcsR P' o A := by
      intro o A P P' hw
      induction A generalizing o with
      | nil => exact fun _ => trivial
      | cons y A ih => exact fun hh => ⟨hw _ _ _ hh.1, ih hh.2⟩
    refine ⟨weak (fun o p r hh hp u hu v hv g1 g2 g3 => Or.inl (hh hp u hu v hv g1 g2 g3)) h1, ?_, ?_,
      weak (fun o p r hh hp u hu v hv g1 g2 g3 => Or.inl (hh hp u hu v hv g1 g2 g3)) h4⟩
    · rintro hal o ho v ⟨⟩ hol _ _
      by_cases hob : o = b
      · right
        subst hob
        have ha1 : a.1 = ccx a o c := by
          rw [← e1]; exact (bpX_degA (by rw [hal]; exact hbn.ne) hal).symm
        rw [← ha1]
        exact Prod.ext rfl (by rw [← eq_par (z := (a.1, ccy a o c)) hbn (by rw [ha1]; exact k2)])
      · exact Or.inl (h2 hal o ho b rfl hol hbn hob)
    · intro hcl; linarith

end Foronoi
