import Verif.Proof.Advance

/-!
# Events on the lower envelope

A new site splits the arc above it, an arc of width zero is removed at a circle event; the row of the topmost sites.
-/

namespace Foronoi

variable {S : Set Pt} {l : ℝ} {A : List Pt}

/-- The circle of three neighbouring sites has to be a circle event: the triple is clockwise, no site is inside its circle, and none of
the sites on the circle comes before the first of the three (counted clockwise from the lowest point, which itself comes first). -/
def Due (S : Set Pt) (a b c : Pt) : Prop :=
  det a b c < 0 ∧ (∀ s ∈ S, 0 ≤ pw s (cbot a b c) (ccx a b c, ccy a b c)) ∧
    ∀ s ∈ S, pw s (cbot a b c) (ccx a b c, ccy a b c) = 0 → ori s a (cbot a b c) (ccx a b c) ≤ 0 ∧ (s.2 = cbot a b c → a.2 = cbot a b c)

theorem ori_symm (a b : Pt) (l x : ℝ) : ori a b l x = -ori b a l x := by unfold ori; ring

/-- An arc of width zero is the middle of a clockwise triple whose circle touches the sweep line. -/
theorem Env.zero_cw (h : Env S l A) {B C : List Pt} {a b c : Pt} (he : A = B ++ a :: b :: c :: C) (hb : l < b.2)
    (hx : bpX a b l = bpX b c l) :
    det a b c < 0 ∧ cbot a b c = l ∧ (ccx a b c, ccy a b c) = (bpX a b l, bpYv a b l) := by
  have he' : A = (B ++ [a]) ++ b :: c :: C := by rw [he]; simp
  have he'' : A = (B ++ [a, b]) ++ c :: C := by rw [he]; simp
  have b1 := h.bp he
  have b2 := h.bp he'
  have e : (bpX b c l, bpYv b c l) = (bpX a b l, bpYv a b l) := by
    refine Prod.ext hx.symm ?_
    have e1 := b1.y_eq' hb
    have e2 := b2.y_eq hb
    simp only at e1 e2 ⊢
    rw [e1, e2, hx]
  rw [e] at b2
  have hac : l < a.2 ∨ l < c.2 := by
    by_contra hcon
    push Not at hcon
    have ea : a.2 = l := le_antisymm hcon.1 (h.low' he)
    have ec : c.2 = l := le_antisymm hcon.2 (h.low' he'')
    have h2 : bpX b c l = c.1 := bpX_degB (by linarith) ec
    have := (h.arcs (B ++ [a]) b (c :: C) (by rw [he]; simp)).pos c (by simp) ec a (by simp)
    linarith
  obtain ⟨hd, _, _⟩ := meet (h.pair he).1 (h.pair he').1 b1 b2 (h.low' he) hb (h.low' he'') hac
  obtain ⟨g1, g2⟩ := circ_eq hd.ne b1.ea b1.eb b2.eb b1.le
  exact ⟨hd, g2.symm, g1.symm⟩

/-- The first arc of width zero at an abscissa is due for removal. -/
theorem Env.due_of_zero (h : Env S l A) : ∀ (n : Nat) (B : List Pt) (a b c : Pt) (C : List Pt), B.length = n →
    A = B ++ a :: b :: c :: C → l < b.2 → bpX a b l = bpX b c l →
    ∃ B' a' b' c' C', A = B' ++ a' :: b' :: c' :: C' ∧ Due S a' b' c' ∧ cbot a' b' c' = l ∧ ccx a' b' c' = bpX a b l := by
  intro n
  induction n using Nat.strongRecOn with
  | _ n ih =>
    intro B a b c C hn he hb hx
    by_cases hrec : l < a.2 ∧ ∃ o, B.getLast? = some o ∧ bpX o a l = bpX a b l
    · obtain ⟨ha, o, ho, hox⟩ := hrec
      obtain ⟨B0, hB⟩ := List.getLast?_eq_some_iff.mp ho
      obtain ⟨B', a', b', c', C', h1, h2, h3, h4⟩ := ih B0.length (by rw [← hn, hB]; simp) B0 o a b (c :: C) rfl
        (by rw [he, hB]; simp) ha hox
      exact ⟨B', a', b', c', C', h1, h2, h3, h4.trans hox⟩
    · obtain ⟨hd, hcb, hz⟩ := h.zero_cw he hb hx
      have hccx : ccx a b c = bpX a b l := congrArg Prod.fst hz
      refine ⟨B, a, b, c, C, he, ⟨hd, ?_, ?_⟩, hcb, hccx⟩
      · rw [hcb, hz]; exact fun s hs => h.out he hs
      · rw [hcb, hz, hccx]
        intro s hs hpw
        have haS : a ∈ S := h.mem (by rw [he]; simp)
        rcases eq_or_lt_of_le (h.low a haS) with had | han
        · refine ⟨?_, fun _ => had.symm⟩
          have : bpX a b l = a.1 := bpX_degA (by linarith) had.symm
          unfold ori
          rw [this, ← had]
          simp
        · -- the arc of a has positive width on the left
          have ho := h.arcs B a (b :: c :: C) he
          have hab := h.bp he
          have hright : ∀ t, t ≤ bpX a b l → ∀ b' ∈ (b :: c :: C).head?, t ≤ bpX a b' l := by
            intro t ht b' hb'
            simp only [List.head?_cons, Option.mem_def, Option.some.injEq] at hb'
            subst hb'; exact ht
          have hleft : ∃ y < bpX a b l, ∀ o ∈ B.getLast?, bpX o a l ≤ y := by
            cases hB : B.getLast? with
            | none => exact ⟨bpX a b l - 1, by linarith, by simp⟩
            | some o =>
              refine ⟨bpX o a l, ?_, by simp⟩
              have h1 := ho.srt o (by rw [hB]; rfl) b (by simp)
              refine lt_of_le_of_ne h1 fun hh => hrec ⟨han, o, hB, hh⟩
          obtain ⟨y, hy, hyl⟩ := hleft
          rcases eq_or_lt_of_le (h.low s hs) with hsd | hsn
          · exfalso
            rw [pw_deg hsd.symm] at hpw
            have hsx : s.1 = bpX a b l := by
              simp only at hpw
              have := pow_eq_zero_iff two_ne_zero |>.mp hpw
              linarith
            obtain ⟨B', C', he'⟩ := List.append_of_mem (h.deg s hs hsd.symm)
            obtain ⟨⟨a', ha', _, hX⟩, _⟩ := h.head_deg he' hsd.symm
            obtain ⟨B0, hB0⟩ := List.getLast?_eq_some_iff.mp ha'
            have he2 : A = B0 ++ a' :: s :: C' := by rw [he', hB0]; simp
            have hpos : ∀ o ∈ B0.getLast?, bpX o a' l < s.1 := fun o ho => (h.arcs B0 a' (s :: C') he2).pos s (by simp) hsd.symm o ho
            rcases lt_trichotomy B0.length B.length with hlt | heq | hgt
            · obtain ⟨o, hBo⟩ : ∃ o, B.getLast? = some o := by
                cases hB : B.getLast? with
                | none => simp only [List.getLast?_eq_none_iff] at hB; subst hB; simp at hlt
                | some o => exact ⟨o, rfl⟩
              obtain ⟨B1, hB1⟩ := List.getLast?_eq_some_iff.mp hBo
              have := h.srt'.le he2 (B' := B1) (a' := o) (b' := a) (C' := b :: c :: C) (by rw [he, hB1]; simp)
                (by rw [hB1] at hlt; simp at hlt; omega)
              have := hyl o hBo
              linarith
            · have := List.append_inj (he2.symm.trans he) heq
              simp only [List.cons.injEq] at this
              have : s = b := this.2.2.1
              subst this; linarith
            · obtain ⟨o, hBo⟩ : ∃ o, B0.getLast? = some o := by
                cases hB : B0.getLast? with
                | none => simp only [List.getLast?_eq_none_iff] at hB; subst hB; simp at hgt
                | some o => exact ⟨o, rfl⟩
              obtain ⟨B1, hB1⟩ := List.getLast?_eq_some_iff.mp hBo
              have := h.srt'.le he (B' := B1) (a' := o) (b' := a') (C' := s :: C') (by rw [he2, hB1]; simp)
                (by rw [hB1] at hgt; simp at hgt; omega)
              have := hpos o hBo
              linarith
          · refine ⟨?_, fun hh => absurd hh (ne_of_gt hsn)⟩
            have htie : par a l (bpX a b l) = par s l (bpX a b l) := by
              have e1 := hab.y_eq han
              simp only at e1
              rw [← e1]
              have := eq_par (z := (bpX a b l, bpYv a b l)) hsn (by unfold pw at hpw; linarith)
              simpa using this
            have := slope_of_left han hsn hy htie fun t h1 h2 =>
              ho.own han t ⟨fun o ho' => (hyl o ho').trans h1, hright t h2⟩ s hs hsn
            rw [ori_symm]; linarith

theorem ArcOk.insert {S : Set Pt} {l : ℝ} {o r : Option Pt} {p x : Pt} (h : ArcOk S l o p r) (hx : x.2 = l) :
    ArcOk (Insert.insert x S) l o p r := by
  refine ⟨Or.inr h.mem, h.lft, h.endL, h.endR, h.srt, ?_, h.pos⟩
  intro hp t ht c hc hcl
  rcases hc with rfl | hc
  · linarith
  · exact h.own hp t ht c hc hcl

/-- **A new site on the sweep line** splits the arc above it. -/
theorem Env.site {B C : List Pt} {q p : Pt} (h : Env S l (B ++ q :: C)) (hp : p.2 = l) (hin : InArc l B.getLast? q C.head? p.1)
    (hstrict : ∀ a ∈ B.getLast?, bpX a q l < p.1) (hlast : ∀ s ∈ S, s.2 = l → s.1 < p.1) :
    l < q.2 ∧ Env (Insert.insert p S) l (B ++ q :: p :: q :: C) := by
  have hqS : q ∈ S := h.mem (by simp)
  have hq : l < q.2 := by
    refine lt_of_le_of_ne (h.low q hqS) fun hd => ?_
    obtain ⟨⟨a, ha, _, ea⟩, ⟨b, hb, _, eb⟩⟩ := h.head_deg rfl hd.symm
    have h1 := hin.1 a ha
    have h2 := hin.2 b hb
    have := hlast q hqS hd.symm
    linarith
  refine ⟨hq, ?_, by simp, ?_, ?_⟩
  · rintro s (rfl | hs)
    · exact hp.ge
    · exact h.low s hs
  · have hqp : q ≠ p := by rintro rfl; linarith
    have hA := arcs_iff.mp h.arcs
    rw [arcsR_append] at hA
    simp only [ArcsR, Option.or_none] at hA
    obtain ⟨h1, h2, h3⟩ := hA
    rw [arcs_iff, arcsR_append]
    simp only [ArcsR, Option.or_none, List.head?_cons]
    have x1 : bpX q p l = p.1 := bpX_degB (by linarith) hp
    have x2 : bpX p q l = p.1 := bpX_degA (by linarith) hp
    refine ⟨arcsR_mono (fun o x r hx => hx.insert hp) h1, ?_, ?_, ?_, arcsR_mono (fun o x r hx => hx.insert hp) h3⟩
    · refine ⟨Or.inr hqS, h2.lft, h2.endL, by simp, ?_, ?_, ?_⟩
      · intro a ha b hb
        simp only [Option.mem_def, Option.some.injEq] at hb; subst hb
        rw [x1]; exact hin.1 a ha
      · intro _ t ht c hc hcl
        rcases hc with rfl | hc
        · linarith
        · refine h2.own hq t ⟨ht.1, fun b hb => ?_⟩ c hc hcl
          have := ht.2 p rfl
          rw [x1] at this
          exact this.trans (hin.2 b hb)
      · intro b hb _ a ha
        simp only [Option.mem_def, Option.some.injEq] at hb; subst hb
        exact hstrict a ha
    · refine ⟨Or.inl rfl, ?_, by simp, by simp, ?_, fun hh => by linarith, ?_⟩
      · intro a ha
        simp only [Option.mem_def, Option.some.injEq] at ha; subst ha
        exact ⟨hqp, Or.inl hq, fun hh => by linarith⟩
      · intro a ha b hb
        simp only [Option.mem_def, Option.some.injEq] at ha hb; subst ha; subst hb
        rw [x1, x2]
      · intro b hb hbl
        simp only [Option.mem_def, Option.some.injEq] at hb; subst hb
        linarith
    · refine ⟨Or.inr hqS, ?_, by simp, h2.endR, ?_, ?_, ?_⟩
      · intro a ha
        simp only [Option.mem_def, Option.some.injEq] at ha; subst ha
        exact ⟨hqp.symm, Or.inr hq, fun hh => by linarith⟩
      · intro a ha b hb
        simp only [Option.mem_def, Option.some.injEq] at ha; subst ha
        rw [x2]; exact hin.2 b hb
      · intro _ t ht c hc hcl
        rcases hc with rfl | hc
        · linarith
        · refine h2.own hq t ⟨fun a ha => ?_, ht.2⟩ c hc hcl
          have := ht.1 p rfl
          rw [x2] at this
          exact (hin.1 a ha).trans this
      · intro b hb hbl a ha
        exfalso
        have hbS : b ∈ S := h.mem (by have := List.mem_of_head? hb; simp [this])
        have h4 := hin.2 b hb
        have h5 : bpX q b l = b.1 := bpX_degB (by linarith) hbl
        have := hlast b hbS hbl
        linarith
  · rintro s (rfl | hs) hsl
    · simp
    · have := h.deg s hs hsl
      simp only [List.mem_append, List.mem_cons] at this ⊢
      tauto

/-- At a circle event the three breakpoints are in the same place. -/
theorem Env.circle_x {B C : List Pt} {a b c : Pt} (h : Env S l A) (he : A = B ++ a :: b :: c :: C) (hd : det a b c < 0)
    (hb : cbot a b c = l) : l < b.2 ∧ l < c.2 ∧ bpX a b l = ccx a b c ∧ bpX b c l = ccx a b c ∧ bpX a c l = ccx a b c ∧
      Bp a c l (ccx a b c, ccy a b c) := by
  obtain ⟨_, g2, g3⟩ := h.cw he hd
  rw [hb] at g2 g3
  have hbn := h.cw_mid he hd
  have he' : A = (B ++ [a]) ++ b :: c :: C := by rw [he]; simp
  have he'' : A = (B ++ [a, b]) ++ c :: C := by rw [he]; simp
  have e1 := g2.x_eq (h.pair he).1 (h.low' he) hbn.le
  have e2 := g3.x_eq (h.pair he').1 hbn.le (h.low' he'')
  simp only at e1 e2
  have hc : l < c.2 := by
    refine lt_of_le_of_ne (h.low' he'') fun hh => ?_
    have h2 : bpX b c l = c.1 := bpX_degB (by linarith) hh.symm
    have := (h.arcs (B ++ [a]) b (c :: C) (by rw [he]; simp)).pos c (by simp) hh.symm a (by simp)
    linarith
  obtain ⟨_, g4, _⟩ := meet (h.pair he).1 (h.pair he').1 g2 g3 (h.low' he) hbn (h.low' he'') (Or.inr hc)
  have hac : a ≠ c := by rintro rfl; unfold det at hd; ring_nf at hd; exact lt_irrefl _ hd
  have e3 := g4.x_eq hac (h.low' he) hc.le
  simp only at e3
  exact ⟨hbn, hc, e1.symm, e2.symm, e3.symm, g4⟩

/-- **A circle event** removes an arc of width zero. -/
theorem Env.circle {B C : List Pt} {a b c : Pt} (h : Env S l (B ++ a :: b :: c :: C)) (hd : det a b c < 0)
    (hb : cbot a b c = l) : Env S l (B ++ a :: c :: C) := by
  obtain ⟨hbn, hcn, e1, e2, e3, g⟩ := h.circle_x rfl hd hb
  have hac : a ≠ c := by rintro rfl; unfold det at hd; ring_nf at hd; exact lt_irrefl _ hd
  refine ⟨h.low, by simp, ?_, ?_⟩
  · have hA := arcs_iff.mp h.arcs
    rw [arcsR_append] at hA
    simp only [ArcsR, Option.or_none, List.head?_cons] at hA
    obtain ⟨h1, h2, h3, h4, h5⟩ := hA
    rw [arcs_iff, arcsR_append]
    simp only [ArcsR, Option.or_none, List.head?_cons]
    refine ⟨h1, ?_, ?_, h5⟩
    · refine ⟨h2.mem, h2.lft, h2.endL, by simp, ?_, ?_, ?_⟩
      · intro o ho c' hc'
        simp only [Option.mem_def, Option.some.injEq] at hc'; subst hc'
        have := h2.srt o ho b rfl
        linarith
      · intro ha t ht
        refine h2.own ha t ⟨ht.1, fun b' hb' => ?_⟩
        simp only [Option.mem_def, Option.some.injEq] at hb'; subst hb'
        have := ht.2 c rfl
        linarith
      · intro c' hc' hcl
        simp only [Option.mem_def, Option.some.injEq] at hc'; subst hc'
        linarith
    · refine ⟨h4.mem, ?_, by simp, h4.endR, ?_, ?_, ?_⟩
      · intro a' ha'
        simp only [Option.mem_def, Option.some.injEq] at ha'; subst ha'
        refine ⟨hac, Or.inr hcn, fun hh => ?_⟩
        have ho := g.or
        simp only at ho
        unfold ori at ho
        rw [hh] at ho
        have h6 : 0 ≤ (c.1 - a.1) * (c.2 - l) := by linarith
        have h7 : 0 ≤ c.1 - a.1 := nonneg_of_mul_nonneg_left h6 (by linarith)
        exact lt_of_le_of_ne (by linarith) fun h8 => hac (Prod.ext h8 hh)
      · intro a' ha' d hd'
        simp only [Option.mem_def, Option.some.injEq] at ha'; subst ha'
        have := h4.srt b rfl d hd'
        linarith
      · intro hc t ht
        refine h4.own hc t ⟨fun b' hb' => ?_, ht.2⟩
        simp only [Option.mem_def, Option.some.injEq] at hb'; subst hb'
        have := ht.1 a rfl
        linarith
      · intro d hd' hdl a' ha'
        simp only [Option.mem_def, Option.some.injEq] at ha'; subst ha'
        have := h4.pos d hd' hdl b rfl
        linarith
  · intro s hs hsl
    have := h.deg s hs hsl
    simp only [List.mem_append, List.mem_cons] at this ⊢
    rcases this with h | h | h | h | h
    · exact Or.inl h
    · exact Or.inr (Or.inl h)
    · subst h; linarith
    · exact Or.inr (Or.inr (Or.inl h))
    · exact Or.inr (Or.inr (Or.inr h))

/-! ### the topmost sites -/

/-- All sites handled so far are at height `y`, and the beach line has them from left to right. -/
structure TopRow (S : Set Pt) (y : ℝ) (A : List Pt) : Prop where
  ne : A ≠ []
  mem : ∀ p, p ∈ A ↔ p ∈ S
  row : ∀ p ∈ S, p.2 = y
  inc : A.Pairwise (fun a b => a.1 < b.1)

theorem bpX_level {a b : Pt} (h : a.2 = b.2) (l : ℝ) : bpX a b l = (a.1 + b.1) / 2 := by unfold bpX; rw [if_pos h]

theorem par_level {a b : Pt} {l x : ℝ} (h : a.2 = b.2) (hl : l < a.2) (hx : (x - a.1) ^ 2 ≤ (x - b.1) ^ 2) : par a l x ≤ par b l x := by
  unfold par
  rw [← h]
  have : (0 : ℝ) < 2 * (a.2 - l) := by linarith
  gcongr

theorem TopRow.env {y : ℝ} (h : TopRow S y A) (hl : l < y) : Env S l A := by
  have hrow : ∀ p ∈ A, p.2 = y := fun p hp => h.row p ((h.mem p).mp hp)
  refine ⟨fun p hp => by rw [h.row p hp]; exact hl.le, h.ne, ?_, fun p hp hpl => by rw [h.row p hp] at hpl; linarith⟩
  intro B p C he
  have hpA : p ∈ A := by rw [he]; simp
  have hpy := hrow p hpA
  have hinc := h.inc
  rw [he, List.pairwise_append, List.pairwise_cons] at hinc
  obtain ⟨i1, ⟨i2, i3⟩, i4⟩ := hinc
  have hBA : ∀ a ∈ B, a ∈ A := fun a ha => by rw [he]; simp [ha]
  have hCA : ∀ a ∈ C, a ∈ A := fun a ha => by rw [he]; simp [ha]
  have hBp : ∀ a ∈ B, a.1 < p.1 := fun a ha => i4 a ha p (by simp)
  refine ⟨(h.mem p).mp hpA, ?_, fun _ => by linarith, fun _ => by linarith, ?_, ?_, ?_⟩
  · intro a ha
    have haB := List.mem_of_getLast? ha
    have := hBp a haB
    refine ⟨fun hh => by rw [hh] at this; exact lt_irrefl _ this, Or.inr (by linarith), fun _ => this⟩
  · intro a ha b hb
    have haB := List.mem_of_getLast? ha
    have hbC := List.mem_of_head? hb
    rw [bpX_level (by rw [hrow a (hBA a haB), hpy]), bpX_level (by rw [hrow b (hCA b hbC), hpy])]
    have := hBp a haB
    have := i2 b hbC
    linarith
  · intro _ x hx c hc hcl
    have hcA := (h.mem c).mpr hc
    refine par_level (by rw [hpy, h.row c hc]) (by linarith) ?_
    rw [he] at hcA
    rcases List.mem_append.mp hcA with hcB | hcC
    · -- left of p
      cases hB : B.getLast? with
      | none => simp only [List.getLast?_eq_none_iff] at hB; subst hB; simp at hcB
      | some a =>
        obtain ⟨D, hD⟩ := List.getLast?_eq_some_iff.mp hB
        have h1 := hx.1 a (by rw [hB]; rfl)
        have haB := List.mem_of_getLast? hB
        rw [bpX_level (by rw [hrow a (hBA a haB), hpy])] at h1
        have hca : c.1 ≤ a.1 := by
          rw [hD] at hcB i1
          rw [List.pairwise_append] at i1
          rcases List.mem_append.mp hcB with h | h
          · exact (i1.2.2 c h a (by simp)).le
          · simp only [List.mem_singleton] at h; rw [h]
        have := hBp c hcB
        nlinarith
    · rcases List.mem_cons.mp hcC with rfl | hcC
      · exact le_rfl
      · cases C with
        | nil => simp at hcC
        | cons b C =>
          have h1 := hx.2 b (by simp)
          rw [bpX_level (by rw [hrow b (hCA b (by simp)), hpy])] at h1
          have hcb : b.1 ≤ c.1 := by
            rcases List.mem_cons.mp hcC with h | h
            · rw [h]
            · rw [List.pairwise_cons] at i3
              exact (i3.1 c h).le
          have := i2 c hcC
          nlinarith
  · intro b hb hbl
    have hbC := List.mem_of_head? hb
    have := hrow b (hCA b hbC)
    linarith

/-- The next site of the topmost row. -/
theorem TopRow.snoc {y : ℝ} {p : Pt} (h : TopRow S y A) (hp : p.2 = y) (hx : ∀ s ∈ S, s.1 < p.1) :
    TopRow (Insert.insert p S) y (A ++ [p]) := by
  refine ⟨by simp, ?_, ?_, ?_⟩
  · intro s
    simp only [List.mem_append, List.mem_singleton, Set.mem_insert_iff, h.mem]
    tauto
  · rintro s (rfl | hs)
    · exact hp
    · exact h.row s hs
  · rw [List.pairwise_append]
    refine ⟨h.inc, by simp, ?_⟩
    intro a ha b hb
    simp only [List.mem_singleton] at hb; subst hb
    exact hx a ((h.mem a).mp ha)

theorem TopRow.one (p : Pt) : TopRow {p} p.2 [p] :=
  ⟨by simp, by simp, by simp, by simp⟩

theorem TopRow.no_cw {y : ℝ} (h : TopRow S y A) {a b c : Pt} (ha : a ∈ A) (hb : b ∈ A) (hc : c ∈ A) : ¬ det a b c < 0 := by
  have h1 := h.row a ((h.mem a).mp ha)
  have h2 := h.row b ((h.mem b).mp hb)
  have h3 := h.row c ((h.mem c).mp hc)
  unfold det
  rw [h1, h2, h3]
  simp

end Foronoi
