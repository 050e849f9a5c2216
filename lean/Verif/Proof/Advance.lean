import Verif.Proof.Envelope
import Mathlib.Topology.Order.IntermediateValue

/-!
# Moving the sweep line down

Between events the order of the arcs stays the same: while no circle through three neighbouring sites in clockwise order has been passed,
the same list of sites is the lower envelope for the lower sweep line.
-/

namespace Foronoi

variable {S : Set Pt} {l l0 l1 : ℝ} {A : List Pt}

theorem between_of_le {p q : Pt} {l x : ℝ} (hp : l < p.2) (hpq : p.2 < q.2) (h : par p l x ≤ par q l x) :
    bpX q p l ≤ x ∧ x ≤ bpX p q l := by
  have hq : l < q.2 := by linarith
  have hAB : 0 < (p.2 - l) * (q.2 - l) := mul_pos (by linarith) (by linarith)
  constructor
  · have e := par_sub hq hp (fun hh => absurd hh (by linarith)) x
    have hb := bp_exists hq.le hp.le (Or.inl hq) (fun hh => absurd hh (by linarith) : q.2 = p.2 → q.1 < p.1)
    have ho := hb.or
    simp only at ho
    by_contra hcon
    push Not at hcon
    have h1 : 0 ≤ 2 * ((q.2 - l) * (p.2 - l)) * (par q l x - par p l x) :=
      mul_nonneg (by linarith [mul_comm (q.2 - l) (p.2 - l)]) (by linarith)
    rw [e] at h1
    have h2 : 0 < (p.2 - q.2) * (x - bpX q p l) := mul_pos_of_neg_of_neg (by linarith) (by linarith)
    have : (x - bpX q p l) * ((p.2 - q.2) * (x - bpX q p l) + 2 * ori q p l (bpX q p l)) < 0 :=
      mul_neg_of_neg_of_pos (by linarith) (by linarith)
    linarith
  · have e := par_sub hp hq (fun hh => absurd hh (by linarith)) x
    have hb := bp_exists hp.le hq.le (Or.inl hp) (fun hh => absurd hh (by linarith) : p.2 = q.2 → p.1 < q.1)
    have ho := hb.or
    simp only at ho
    by_contra hcon
    push Not at hcon
    have h1 : 2 * ((p.2 - l) * (q.2 - l)) * (par p l x - par q l x) ≤ 0 :=
      mul_nonpos_of_nonneg_of_nonpos (by linarith) (by linarith)
    rw [e] at h1
    have h2 : 0 < (q.2 - p.2) * (x - bpX p q l) := mul_pos (by linarith) (by linarith)
    have : 0 < (x - bpX p q l) * ((q.2 - p.2) * (x - bpX p q l) + 2 * ori p q l (bpX p q l)) :=
      mul_pos (by linarith) (by linarith)
    linarith

/-- A continuous function going from negative to nonnegative. -/
theorem ivt {g : ℝ → ℝ} (hg : Continuous g) (hl : l1 < l0) (h1 : g l1 < 0) (h0 : 0 ≤ g l0) : ∃ m, l1 < m ∧ m ≤ l0 ∧ g m = 0 := by
  obtain ⟨m, ⟨hm1, hm2⟩, hm⟩ := intermediate_value_Icc hl.le hg.continuousOn ⟨h1.le, h0⟩
  refine ⟨m, lt_of_le_of_ne hm1 ?_, hm2, hm⟩
  rintro rfl
  linarith

/-- All clockwise triples of neighbours have their event at or below `l1`. -/
def NoEvent (A : List Pt) (l1 : ℝ) : Prop := ∀ B a b c C, A = B ++ a :: b :: c :: C → det a b c < 0 → cbot a b c ≤ l1

theorem Env.advance_srt (h : Env S l0 A) (hl : l1 < l0) (hn : NoEvent A l1) : Srt A l1 := by
  intro B a b c C he
  by_contra hcon
  push Not at hcon
  have he' : A = (B ++ [a]) ++ b :: c :: C := by rw [he]; simp
  have he'' : A = (B ++ [a, b]) ++ c :: C := by rw [he]; simp
  obtain ⟨hab, hn1, ho1⟩ := h.pair he
  obtain ⟨hbc, hn2, ho2⟩ := h.pair he'
  have ha := h.low' he
  have hb := h.low' he'
  have hc := h.low' he''
  rcases eq_or_lt_of_le hb with hbd | hbn
  · have ha' : b.2 < a.2 := by rcases hn1 with h | h <;> linarith
    have hc' : b.2 < c.2 := by rcases hn2 with h | h <;> linarith
    have hb' : l1 < b.2 := by linarith
    have h1 := between_of_lt hb' ha' (par_self_lt hb' ha'.le hab.symm)
    have h2 := between_of_lt hb' hc' (par_self_lt hb' hc'.le hbc)
    linarith [h1.1, h2.2]
  obtain ⟨m, hm1, hm0, hm⟩ := ivt (g := fun t => bpX b c t - bpX a b t) ((bpX_continuous b c).sub (bpX_continuous a b)) hl
    (by linarith) (by linarith [h.srt he])
  have hx : bpX a b m = bpX b c m := by linarith
  have hmb : m < b.2 := by linarith
  by_cases hac : m < a.2 ∨ m < c.2
  · have b1 := bp_exists (hm0.trans ha) hmb.le (Or.inr hmb) ho1
    have b2 := bp_exists hmb.le (hm0.trans hc) (Or.inl hmb) ho2
    have e : (bpX b c m, bpYv b c m) = (bpX a b m, bpYv a b m) := by
      refine Prod.ext hx.symm ?_
      have e1 := b1.y_eq' hmb
      have e2 := b2.y_eq hmb
      simp only at e1 e2 ⊢
      rw [e1, e2, hx]
    rw [e] at b2
    obtain ⟨hd, _, _⟩ := meet hab hbc b1 b2 (hm0.trans ha) hmb (hm0.trans hc) hac
    have := (circ_eq hd.ne b1.ea b1.eb b2.eb b1.le).2
    have := hn B a b c C he hd
    linarith
  · push Not at hac
    have ea : a.2 = l0 := by linarith [hac.1]
    have ec : c.2 = l0 := by linarith [hac.2]
    have hml : m = l0 := by linarith [hac.1]
    subst hml
    have h1 : bpX a b m = a.1 := bpX_degA (by linarith) ea
    have h2 : bpX b c m = c.1 := bpX_degB (by linarith) ec
    have := (h.arcs (B ++ [a]) b (c :: C) (by rw [he]; simp)).pos c (by simp) ec a (by simp)
    linarith

theorem Env.head_deg (h : Env S l A) {B C : List Pt} {p : Pt} (he : A = B ++ p :: C) (hp : p.2 = l) :
    (∃ a, B.getLast? = some a ∧ l < a.2 ∧ bpX a p l = p.1) ∧ (∃ b, C.head? = some b ∧ l < b.2 ∧ bpX p b l = p.1) := by
  have ho := h.arcs B p C he
  constructor
  · cases hB : B.getLast? with
    | none => have := ho.endL hB; linarith
    | some a =>
      have := (ho.lft a (by rw [hB]; rfl)).2.1
      have ha : l < a.2 := by rcases this with h | h <;> linarith
      exact ⟨a, rfl, ha, bpX_degB (by linarith) hp⟩
  · cases C with
    | nil => have := ho.endR rfl; linarith
    | cons b C =>
      have := (h.pair he).2.1
      have hb : l < b.2 := by rcases this with h | h <;> linarith
      exact ⟨b, rfl, hb, bpX_degA (by linarith) hp⟩

/-- The arc found for an abscissa, when the site that is strictly lowest there is known. -/
theorem Env.strict_at (h : Env S l A) {p : Pt} (hp : p ∈ S) (hpl : l < p.2) {x : ℝ}
    (hs : ∀ c ∈ S, c ≠ p → 0 < pw c l (x, par p l x)) : ∃ B C, A = B ++ p :: C ∧ InArc l B.getLast? p C.head? x := by
  obtain ⟨B, q, C, he, hin⟩ := cover l x A none h.ne (by simp)
  simp only [Option.or_none] at hin
  have hq : q ∈ S := h.mem (by rw [he]; simp)
  have : q = p := by
    by_contra hne
    have h0 := hs q hq hne
    rcases eq_or_lt_of_le (h.low q hq) with hd | hn
    · obtain ⟨⟨a, ha, _, ea⟩, ⟨b, hb, _, eb⟩⟩ := h.head_deg he hd.symm
      have h1 := hin.1 a ha
      have h2 := hin.2 b hb
      have hx : x = q.1 := by linarith
      rw [pw_deg hd.symm] at h0
      simp only [hx, sub_self] at h0
      norm_num at h0
    · rw [← par_lt_iff hn] at h0
      have := (h.arcs B q C he).own hn x hin p hp hpl
      linarith
  subst this
  exact ⟨B, C, he, hin⟩

theorem pw_bp {a b : Pt} {l : ℝ} (ha : l ≤ a.2) (hb : l < b.2) (hab : a.2 = b.2 → a.1 < b.1) :
    pw a l (bpX a b l, par b l (bpX a b l)) = 0 := by
  have hbp := bp_exists ha hb.le (Or.inr hb) hab
  have e := hbp.y_eq' hb
  simp only at e
  rw [← e]
  have := hbp.ea
  unfold pw
  simp only at this ⊢
  linarith

theorem pw_bp' {a b : Pt} {l : ℝ} (ha : l < a.2) (hb : l ≤ b.2) (hab : a.2 = b.2 → a.1 < b.1) :
    pw b l (bpX a b l, par a l (bpX a b l)) = 0 := by
  have hbp := bp_exists ha.le hb (Or.inl ha) hab
  have e := hbp.y_eq ha
  simp only at e
  rw [← e]
  have := hbp.eb
  unfold pw
  simp only at this ⊢
  linarith

/-- Where the lowest site at an abscissa has its arc after moving down. -/
theorem Env.advance_at (h : Env S l0 A) (hl : l1 < l0) {p : Pt} (hp : p ∈ S) {x : ℝ} (hmin : ∀ c ∈ S, par p l1 x ≤ par c l1 x) :
    ∃ B C, A = B ++ p :: C ∧ InArc l1 B.getLast? p C.head? x := by
  have low1 : ∀ c ∈ S, l1 < c.2 := fun c hc => lt_of_lt_of_le hl (h.low c hc)
  rcases eq_or_lt_of_le (h.low p hp) with hd | hn
  · obtain ⟨B, C, he⟩ := List.append_of_mem (h.deg p hp hd.symm)
    refine ⟨B, C, he, ?_, ?_⟩
    · intro a ha
      obtain ⟨⟨a', ha', h1, _⟩, _⟩ := h.head_deg he hd.symm
      rw [ha'] at ha
      simp only [Option.mem_def, Option.some.injEq] at ha
      subst ha
      have haS : a' ∈ S := h.mem (by rw [he]; have := List.mem_of_getLast? ha'; simp [this])
      exact (between_of_le (low1 p hp) (by linarith) (hmin a' haS)).1
    · intro b hb
      obtain ⟨_, ⟨b', hb', h1, _⟩⟩ := h.head_deg he hd.symm
      rw [hb'] at hb
      simp only [Option.mem_def, Option.some.injEq] at hb
      subst hb
      have hbS : b' ∈ S := h.mem (by rw [he]; have := List.mem_of_head? hb'; simp [this])
      exact (between_of_le (low1 p hp) (by linarith) (hmin b' hbS)).2
  · set m := (x - p.1) / (p.2 - l1) with hm
    have hpl1 := low1 p hp
    have hx1 : slideX p m l1 = x := by
      have : p.2 - l1 ≠ 0 := by linarith
      unfold slideX; rw [hm]; field_simp; ring
    have hstr : ∀ t, l1 < t → t ≤ l0 → ∀ c ∈ S, c ≠ p → 0 < pw c t (slideX p m t, par p t (slideX p m t)) := by
      intro t ht1 ht0 c hc hne
      exact slide hpl1 ht1 (by linarith) hne ((par_le_iff (low1 c hc)).mp (hmin c hc))
    have hcont : Continuous (slideX p m) := by unfold slideX; fun_prop
    obtain ⟨B, C, he, hin⟩ := h.strict_at hp hn (hstr l0 hl le_rfl)
    refine ⟨B, C, he, ?_, ?_⟩
    · intro a ha
      by_contra hcon
      push Not at hcon
      have hla := (h.arcs B p C he).lft a ha
      have haS : a ∈ S := h.mem (by rw [he]; have := List.mem_of_getLast? ha; simp [this])
      obtain ⟨t, ht1, ht0, ht⟩ := ivt (g := fun t => slideX p m t - bpX a p t) (hcont.sub (bpX_continuous a p)) hl
        (by rw [hx1]; linarith) (by linarith [hin.1 a ha])
      have hs := hstr t ht1 ht0 a haS hla.1
      have e : slideX p m t = bpX a p t := by linarith
      rw [e, pw_bp (ht0.trans (h.low a haS)) (by linarith) hla.2.2] at hs
      exact lt_irrefl _ hs
    · intro b hb
      by_contra hcon
      push Not at hcon
      obtain ⟨D, hD⟩ : ∃ D, C = b :: D := by
        cases C with
        | nil => simp at hb
        | cons y D => simp only [List.head?_cons, Option.mem_def, Option.some.injEq] at hb; exact ⟨D, by rw [hb]⟩
      have hla := h.pair (B := B) (a := p) (b := b) (C := D) (by rw [he, hD])
      have hbS : b ∈ S := h.mem (by rw [he, hD]; simp)
      obtain ⟨t, ht1, ht0, ht⟩ := ivt (g := fun t => bpX p b t - slideX p m t) ((bpX_continuous p b).sub hcont) hl
        (by rw [hx1]; linarith) (by linarith [hin.2 b hb])
      have hs := hstr t ht1 ht0 b hbS hla.1.symm
      have e : slideX p m t = bpX p b t := by linarith
      rw [e, pw_bp' (by linarith) (ht0.trans (h.low b hbS)) hla.2.2] at hs
      exact lt_irrefl _ hs

/-- Two places of the same abscissa, in any order. -/
theorem tie' (hs : Srt A l) (hlow : ∀ p ∈ A, l < p.2) (hp : ∀ B a b C, A = B ++ a :: b :: C → a.2 = b.2 → a.1 < b.1) {x : ℝ}
    {B B' C C' : List Pt} {p q : Pt} (h1 : A = B ++ p :: C) (h2 : A = B' ++ q :: C') (i1 : InArc l B.getLast? p C.head? x)
    (i2 : InArc l B'.getLast? q C'.head? x) : par p l x = par q l x := by
  have key : ∀ {B B' C C' : List Pt} {p q : Pt}, A = B ++ p :: C → A = B' ++ q :: C' → InArc l B.getLast? p C.head? x →
      InArc l B'.getLast? q C'.head? x → B.length < B'.length → par p l x = par q l x := by
    intro B B' C C' p q h1 h2 i1 i2 hlt
    obtain ⟨D, hD⟩ : ∃ D, B' = B ++ p :: D := by
      have hpre : (B ++ [p]) <+: B' := by
        refine List.prefix_of_prefix_length_le (l₃ := A) ⟨C, by rw [h1]; simp⟩ ⟨q :: C', h2.symm⟩ (by simp; omega)
      obtain ⟨D, hD⟩ := hpre
      exact ⟨D, by rw [← hD]; simp⟩
    subst hD
    have hC : C = D ++ q :: C' := by
      have := h1.symm.trans h2
      simpa using this
    subst hC
    refine (tie (C := C') hs hlow hp D B p h1 i1.2 ?_).1
    intro o ho
    refine i2.1 o ?_
    simpa [List.getLast?_append] using ho
  rcases lt_trichotomy B.length B'.length with hlt | heq | hgt
  · exact key h1 h2 i1 i2 hlt
  · have := List.append_inj (h1.symm.trans h2) heq
    have := this.2
    simp only [List.cons.injEq] at this
    rw [this.1]
  · exact (key h2 h1 i2 i1 hgt).symm

/-- **Moving the sweep line down keeps the lower envelope** while no circle event is passed. -/
theorem Env.advance (hS : S.Finite) (h : Env S l0 A) (hl : l1 < l0) (hn : NoEvent A l1) : Env S l1 A := by
  have low1 : ∀ c ∈ S, l1 < c.2 := fun c hc => lt_of_lt_of_le hl (h.low c hc)
  have hsrt := h.advance_srt hl hn
  have hord : ∀ B a b C, A = B ++ a :: b :: C → a.2 = b.2 → a.1 < b.1 := fun B a b C he => (h.pair he).2.2
  refine ⟨fun p hp => (low1 p hp).le, h.ne, ?_, fun p hp hd => absurd hd (ne_of_gt (low1 p hp))⟩
  intro B p C he
  have ho := h.arcs B p C he
  have hpl := low1 p ho.mem
  refine ⟨ho.mem, fun a ha => ⟨(ho.lft a ha).1, Or.inr hpl, (ho.lft a ha).2.2⟩, fun _ => hpl, fun _ => hpl, ?_, ?_, ?_⟩
  · intro a ha b hb
    obtain ⟨D, hD⟩ : ∃ D, C = b :: D := by
      cases C with
      | nil => simp at hb
      | cons y D => simp only [List.head?_cons, Option.mem_def, Option.some.injEq] at hb; exact ⟨D, by rw [hb]⟩
    obtain ⟨E, hE⟩ := List.getLast?_eq_some_iff.mp ha
    exact hsrt E a p b D (by rw [he, hD, hE]; simp)
  · intro _ x hin c hc _
    obtain ⟨q, hq, hmin⟩ := Set.exists_min_image S (fun c => par c l1 x) hS ⟨p, ho.mem⟩
    obtain ⟨B', C', he', hin'⟩ := h.advance_at hl hq hmin
    have := tie' hsrt (fun p hp => low1 p (h.mem hp)) hord he he' hin hin'
    rw [this]
    exact hmin c hc
  · intro b hb hbl
    have hbS : b ∈ S := h.mem (by rw [he]; have := List.mem_of_head? hb; simp [this])
    exact absurd hbl (ne_of_gt (low1 b hbS))

end Foronoi
