import Verif.Proof.Breakpoint
import Mathlib.Data.Set.Finite.Lattice
import Mathlib.Data.List.Chain

/-!
# The beach line as lower envelope

`Env S l A`: the arcs of the sites `A`, left to right, are the lower envelope of the parabolas of the sites `S` with directrix
`y = l`.  Sites on the directrix itself (just reached by the sweep line) have arcs of width zero.
-/

namespace Foronoi

/-- `x` lies between the breakpoints of the arc of `p` with left and right neighbours `o`, `r`. -/
def InArc (l : ℝ) (o : Option Pt) (p : Pt) (r : Option Pt) (x : ℝ) : Prop :=
  (∀ a ∈ o, bpX a p l ≤ x) ∧ (∀ b ∈ r, x ≤ bpX p b l)

/-- One arc of the envelope with its neighbours. -/
structure ArcOk (S : Set Pt) (l : ℝ) (o : Option Pt) (p : Pt) (r : Option Pt) : Prop where
  mem : p ∈ S
  lft : ∀ a ∈ o, a ≠ p ∧ (l < a.2 ∨ l < p.2) ∧ (a.2 = p.2 → a.1 < p.1)
  endL : o = none → l < p.2
  endR : r = none → l < p.2
  srt : ∀ a ∈ o, ∀ b ∈ r, bpX a p l ≤ bpX p b l
  own : l < p.2 → ∀ x, InArc l o p r x → ∀ c ∈ S, l < c.2 → par p l x ≤ par c l x
  pos : ∀ b ∈ r, b.2 = l → ∀ a ∈ o, bpX a p l < b.1

/-- A property of all entries of a list together with their neighbours. -/
def Arcs {α : Type} (P : Option α → α → Option α → Prop) (A : List α) : Prop :=
  ∀ B p C, A = B ++ p :: C → P B.getLast? p C.head?

structure Env (S : Set Pt) (l : ℝ) (A : List Pt) : Prop where
  low : ∀ p ∈ S, l ≤ p.2
  ne : A ≠ []
  arcs : Arcs (ArcOk S l) A
  deg : ∀ p ∈ S, p.2 = l → p ∈ A

/-! ### lists with neighbours -/

section lists
variable {α : Type}

/-- The same property, recursively, with a left neighbour given. -/
def ArcsR (P : Option α → α → Option α → Prop) : Option α → List α → Prop
  | _, [] => True
  | o, p :: C => P o p C.head? ∧ ArcsR P (some p) C

theorem arcsR_iff {P : Option α → α → Option α → Prop} {o : Option α} {A : List α} :
    ArcsR P o A ↔ ∀ B p C, A = B ++ p :: C → P (B.getLast?.or o) p C.head? := by
  induction A generalizing o with
  | nil => simp [ArcsR]
  | cons q A ih =>
    simp only [ArcsR]
    constructor
    · rintro ⟨h1, h2⟩ B p C he
      cases B with
      | nil =>
        simp only [List.nil_append, List.cons.injEq] at he
        obtain ⟨rfl, rfl⟩ := he
        simpa using h1
      | cons b B =>
        simp only [List.cons_append, List.cons.injEq] at he
        obtain ⟨rfl, rfl⟩ := he
        have := ih.mp h2 B p C rfl
        cases hB : B.getLast? with
        | none =>
          have : B = [] := by simpa using hB
          subst this
          simpa using this
        | some x =>
          rw [hB] at this
          rw [List.getLast?_cons, hB]
          simpa using this
    · intro h
      refine ⟨by simpa using h [] q A rfl, ih.mpr ?_⟩
      rintro B p C rfl
      have := h (q :: B) p C rfl
      rw [List.getLast?_cons] at this
      cases hB : B.getLast? with
      | none => rw [hB] at this; simpa using this
      | some x => rw [hB] at this; simpa using this

theorem arcs_iff {P : Option α → α → Option α → Prop} {A : List α} : Arcs P A ↔ ArcsR P none A := by
  rw [arcsR_iff]
  constructor
  · intro h B p C he; simpa using h B p C he
  · intro h B p C he; simpa using h B p C he

theorem arcsR_append {P : Option α → α → Option α → Prop} {o : Option α} {A : List α} {x : α} {B : List α} :
    ArcsR P o (A ++ x :: B) ↔ ArcsR (fun o p r => P o p (r.or (some x))) o A ∧ ArcsR P (A.getLast?.or o) (x :: B) := by
  induction A generalizing o with
  | nil => simp [ArcsR]
  | cons q A ih =>
    simp only [List.cons_append, ArcsR]
    have e1 : (A ++ x :: B).head? = A.head?.or (some x) := by cases A <;> simp
    have e2 : (q :: A).getLast?.or o = A.getLast?.or (some q) := by
      rw [List.getLast?_cons]; cases A.getLast? <;> simp
    rw [e1, e2, ih]
    simp only [ArcsR]
    tauto

theorem arcsR_mono {P Q : Option α → α → Option α → Prop} (h : ∀ o p r, P o p r → Q o p r) {o : Option α} {A : List α} :
    ArcsR P o A → ArcsR Q o A := by
  induction A generalizing o with
  | nil => simp [ArcsR]
  | cons q A ih => exact fun ⟨h1, h2⟩ => ⟨h _ _ _ h1, ih h2⟩

/-- Neighbours in a list. -/
theorem Arcs.at {P : Option α → α → Option α → Prop} {A : List α} (h : Arcs P A) {B C : List α} {p : α} (he : A = B ++ p :: C) :
    P B.getLast? p C.head? := h B p C he

end lists

/-- Where an abscissa is on the beach line. -/
theorem cover (l x : ℝ) : ∀ (A : List Pt) (o : Option Pt), A ≠ [] → (∀ a ∈ o, ∀ p ∈ A.head?, bpX a p l ≤ x) →
    ∃ B p C, A = B ++ p :: C ∧ InArc l (B.getLast?.or o) p C.head? x := by
  intro A
  induction A with
  | nil => intro o h; exact absurd rfl h
  | cons p A ih =>
    intro o _ ho
    have hl : ∀ a ∈ o, bpX a p l ≤ x := fun a ha => ho a ha p rfl
    cases A with
    | nil => exact ⟨[], p, [], rfl, by simpa using hl, by simp⟩
    | cons q A =>
      by_cases hx : x ≤ bpX p q l
      · exact ⟨[], p, q :: A, rfl, by simpa using hl, by simpa using hx⟩
      · obtain ⟨B, r, C, he, h1, h2⟩ := ih (some p) (by simp) (by
          intro a ha r hr
          simp only [Option.mem_def, Option.some.injEq, List.head?_cons] at ha hr
          subst ha; subst hr; exact le_of_lt (not_le.mp hx))
        refine ⟨p :: B, r, C, by rw [he]; rfl, ?_, h2⟩
        rw [List.getLast?_cons]
        cases hB : B.getLast? with
        | none => rw [hB] at h1; simpa using h1
        | some y => rw [hB] at h1; simpa using h1

/-! ### breakpoints of an envelope -/

variable {S : Set Pt} {l : ℝ} {A : List Pt}

theorem Env.mem (h : Env S l A) {p : Pt} (hp : p ∈ A) : p ∈ S := by
  obtain ⟨B, C, rfl⟩ := List.append_of_mem hp
  exact (h.arcs B p C rfl).mem

theorem Env.pair (h : Env S l A) {B C : List Pt} {a b : Pt} (he : A = B ++ a :: b :: C) :
    a ≠ b ∧ (l < a.2 ∨ l < b.2) ∧ (a.2 = b.2 → a.1 < b.1) :=
  (h.arcs (B ++ [a]) b C (by rw [he]; simp)).lft a (by simp)

theorem Env.low' (h : Env S l A) {B C : List Pt} {a : Pt} (he : A = B ++ a :: C) : l ≤ a.2 :=
  h.low _ (h.mem (by rw [he]; simp))

theorem Env.bp (h : Env S l A) {B C : List Pt} {a b : Pt} (he : A = B ++ a :: b :: C) : Bp a b l (bpX a b l, bpYv a b l) := by
  obtain ⟨_, h2, h3⟩ := h.pair he
  exact bp_exists (h.low' he) (h.low' (B := B ++ [a]) (C := C) (by rw [he]; simp)) h2 h3

theorem Env.srt (h : Env S l A) {B C : List Pt} {a b c : Pt} (he : A = B ++ a :: b :: c :: C) : bpX a b l ≤ bpX b c l :=
  (h.arcs (B ++ [a]) b (c :: C) (by rw [he]; simp)).srt a (by simp) c (by simp)

/-- No site is inside the circle at a breakpoint. -/
theorem Env.out (h : Env S l A) {B C : List Pt} {a b : Pt} (he : A = B ++ a :: b :: C) {c : Pt} (hc : c ∈ S) :
    0 ≤ pw c l (bpX a b l, bpYv a b l) := by
  have hb := h.bp he
  rcases eq_or_lt_of_le (h.low c hc) with hcl | hcl
  · rw [pw_deg hcl.symm]; positivity
  obtain ⟨_, h2, _⟩ := h.pair he
  rcases h2 with ha | hb2
  · have hy := hb.y_eq ha
    simp only at hy
    rw [hy]
    rw [← par_le_iff hcl]
    have ho := h.arcs B a (b :: C) he
    refine ho.own ha _ ⟨fun o ho' => ho.srt o ho' b (by simp), by simp⟩ c hc hcl
  · have hy := hb.y_eq' hb2
    simp only at hy
    rw [hy]
    rw [← par_le_iff hcl]
    have ho := h.arcs (B ++ [a]) b C (by rw [he]; simp)
    refine ho.own hb2 _ ⟨by simp, fun c' hc' => ho.srt a (by simp) c' hc'⟩ c hc hcl

/-! ### circles through consecutive sites -/

/-- Lowest point of the circle through three points. -/
noncomputable def cbot (a b c : Pt) : ℝ := ccy a b c - Real.sqrt (dsq a (ccx a b c, ccy a b c))

theorem circ_spec {a b c : Pt} (h : det a b c ≠ 0) :
    dsq a (ccx a b c, ccy a b c) = (ccy a b c - cbot a b c) ^ 2 ∧ dsq b (ccx a b c, ccy a b c) = (ccy a b c - cbot a b c) ^ 2 ∧
    dsq c (ccx a b c, ccy a b c) = (ccy a b c - cbot a b c) ^ 2 ∧ cbot a b c ≤ ccy a b c := by
  have e : ccy a b c - cbot a b c = Real.sqrt (dsq a (ccx a b c, ccy a b c)) := by unfold cbot; ring
  have h0 := Real.sqrt_nonneg (dsq a (ccx a b c, ccy a b c))
  rw [e, Real.sq_sqrt (dsq_nonneg _ _)]
  obtain ⟨h1, h2⟩ := dsq_center a b c h
  exact ⟨rfl, h1, h2, by linarith⟩

theorem circ_eq {a b c z : Pt} {m : ℝ} (h : det a b c ≠ 0) (ha : dsq a z = (z.2 - m) ^ 2) (hb : dsq b z = (z.2 - m) ^ 2)
    (hc : dsq c z = (z.2 - m) ^ 2) (hm : m ≤ z.2) : z = (ccx a b c, ccy a b c) ∧ m = cbot a b c := by
  obtain ⟨h1, h2, h3, h4⟩ := circ_spec h
  have e : z = (ccx a b c, ccy a b c) :=
    center_unique h (hb.trans ha.symm) (hc.trans ha.symm) (h2.trans h1.symm) (h3.trans h1.symm)
  refine ⟨e, ?_⟩
  have e2 : z.2 = ccy a b c := by rw [e]
  have : (z.2 - m) ^ 2 = (ccy a b c - cbot a b c) ^ 2 := by rw [← ha, ← h1, e]
  have h5 : z.2 - m = ccy a b c - cbot a b c := by
    have h6 : 0 ≤ z.2 - m := by linarith
    have h7 : 0 ≤ ccy a b c - cbot a b c := by linarith
    exact (pow_left_inj₀ h6 h7 two_ne_zero).mp this
  linarith

theorem det_cyc (a b c : Pt) : det b c a = det a b c := by unfold det; ring

/-- A clockwise triple of neighbours: the lowest point of its circle is not above the sweep line, and the two breakpoints run
into the centre of the circle. -/
theorem Env.cw (h : Env S l A) {B C : List Pt} {a b c : Pt} (he : A = B ++ a :: b :: c :: C) (hd : det a b c < 0) :
    cbot a b c ≤ l ∧ Bp a b (cbot a b c) (ccx a b c, ccy a b c) ∧ Bp b c (cbot a b c) (ccx a b c, ccy a b c) := by
  obtain ⟨h1, h2, h3, h4⟩ := circ_spec hd.ne
  have he' : A = (B ++ [a]) ++ b :: c :: C := by rw [he]; simp
  have hab := (h.pair he).1
  have hbc := (h.pair he').1
  have hc : c ∈ S := h.mem (by rw [he]; simp)
  have ha : a ∈ S := h.mem (by rw [he]; simp)
  obtain ⟨g1, g2⟩ := pencil_cw hab (h.bp he) hd (h.out he hc) h1 h2 h3 h4
  obtain ⟨_, g4⟩ := pencil_cw hbc (h.bp he') (by rw [det_cyc]; exact hd) (h.out he' ha) h2 h3 h1 h4
  exact ⟨g1, g2, g4⟩

/-- The middle site of a clockwise triple is above the sweep line. -/
theorem Env.cw_mid (h : Env S l A) {B C : List Pt} {a b c : Pt} (he : A = B ++ a :: b :: c :: C) (hd : det a b c < 0) : l < b.2 := by
  obtain ⟨g1, g2, g3⟩ := h.cw he hd
  have he' : A = (B ++ [a]) ++ b :: c :: C := by rw [he]; simp
  obtain ⟨hab, hn1, _⟩ := h.pair he
  obtain ⟨hbc, hn2, _⟩ := h.pair he'
  rcases eq_or_lt_of_le (h.low' he') with hb | hb
  swap
  · exact hb
  exfalso
  have ha : l < a.2 := by rcases hn1 with h | h <;> linarith
  have hc : l < c.2 := by rcases hn2 with h | h <;> linarith
  rcases eq_or_lt_of_le g1 with hm | hm
  · -- the circle touches the sweep line in b
    rw [hm] at g2 g3
    set z : Pt := (ccx a b c, ccy a b c) with hz
    have hx : b.1 = z.1 := by
      have e := g2.eb
      unfold dsq at e
      have : (b.1 - z.1) ^ 2 = 0 := by rw [← hb] at e; linear_combination e
      have := pow_eq_zero_iff two_ne_zero |>.mp this
      linarith
    have e1 : det a b c = ori a c l z.1 := by unfold det ori; rw [hx, ← hb]; ring
    have ho := h.arcs B a (b :: c :: C) he
    have hX : bpX a b l = b.1 := bpX_degB (by linarith) hb.symm
    have htie : par a l z.1 = par c l z.1 := by rw [← g2.y_eq ha, ← g3.y_eq' hc]
    have hcS : c ∈ S := h.mem (by rw [he]; simp)
    -- left of b the arc of a is the lowest
    obtain ⟨y, hy, hown⟩ : ∃ y < z.1, ∀ t, y ≤ t → t ≤ z.1 → par a l t ≤ par c l t := by
      cases hB : B.getLast? with
      | none =>
        refine ⟨z.1 - 1, by linarith, fun t _ ht => ?_⟩
        refine ho.own ha t ⟨by rw [hB]; simp, ?_⟩ c hcS hc
        intro b' hb'
        simp only [List.head?_cons, Option.mem_def, Option.some.injEq] at hb'
        subst hb'; rw [hX, hx]; exact ht
      | some o =>
        have hp := ho.pos b (by simp) hb.symm o (by rw [hB]; rfl)
        refine ⟨bpX o a l, by rw [← hx]; exact hp, fun t h1 h2 => ?_⟩
        refine ho.own ha t ⟨?_, ?_⟩ c hcS hc
        · intro o' ho'
          rw [hB] at ho'
          simp only [Option.mem_def, Option.some.injEq] at ho'
          subst ho'; exact h1
        · intro b' hb'
          simp only [List.head?_cons, Option.mem_def, Option.some.injEq] at hb'
          subst hb'; rw [hX, hx]; exact h2
    have := slope_of_left ha hc hy htie hown
    linarith
  · -- the breakpoints of the lowest site never meet
    have hb' : cbot a b c < b.2 := by linarith
    have h1 := between_of_lt hb' (by linarith : b.2 < a.2) (par_self_lt hb' (by linarith) hab.symm)
    have h2 := between_of_lt hb' (by linarith : b.2 < c.2) (par_self_lt hb' (by linarith) hbc)
    have e1 := g2.x_eq hab (by linarith) hb'.le
    have e2 := g3.x_eq hbc hb'.le (by linarith)
    simp only at e1 e2
    linarith [h1.1, h2.2]

/-! ### positions on the beach line -/

/-- The `i`-th breakpoint. -/
noncomputable def bxi (A : List Pt) (l : ℝ) (i : Nat) : ℝ := bpX (A.getD i 0) (A.getD (i + 1) 0) l

theorem bxi_split {A B C : List Pt} {a b : Pt} (he : A = B ++ a :: b :: C) (l : ℝ) : bxi A l B.length = bpX a b l := by
  have h1 : A.getD B.length 0 = a := by rw [he]; simp
  have h2 : A.getD (B.length + 1) 0 = b := by rw [he]; simp
  unfold bxi; rw [h1, h2]

theorem split_at {A : List Pt} {i : Nat} (h : i + 2 < A.length) :
    ∃ B a b c C, A = B ++ a :: b :: c :: C ∧ B.length = i := by
  refine ⟨A.take i, A[i], A[i + 1], A[i + 2], A.drop (i + 3), ?_, by simp; omega⟩
  rw [← List.drop_eq_getElem_cons h, ← List.drop_eq_getElem_cons (by omega), ← List.drop_eq_getElem_cons (by omega),
    List.take_append_drop]

/-- Sortedness of neighbouring breakpoints. -/
def Srt (A : List Pt) (l : ℝ) : Prop := ∀ B a b c C, A = B ++ a :: b :: c :: C → bpX a b l ≤ bpX b c l

theorem Srt.mono (h : Srt A l) {i j : Nat} (hij : i ≤ j) (hj : j + 1 < A.length) : bxi A l i ≤ bxi A l j := by
  induction j, hij using Nat.le_induction with
  | base => exact le_rfl
  | succ j hij ih =>
    refine (ih (by omega)).trans ?_
    obtain ⟨B, a, b, c, C, he, hB⟩ := split_at (A := A) (i := j) (by omega)
    have e1 := bxi_split he l
    have e2 := bxi_split (A := A) (B := B ++ [a]) (a := b) (b := c) (C := C) (by rw [he]; simp) l
    rw [List.length_append, List.length_singleton, hB] at e2
    rw [hB] at e1
    rw [e1, e2]
    exact h B a b c C he

/-- Comparing two breakpoints by their position. -/
theorem Srt.le (h : Srt A l) {B C B' C' : List Pt} {a b a' b' : Pt} (he : A = B ++ a :: b :: C) (he' : A = B' ++ a' :: b' :: C')
    (hl : B.length ≤ B'.length) : bpX a b l ≤ bpX a' b' l := by
  rw [← bxi_split he, ← bxi_split he']
  exact h.mono hl (by rw [he']; simp)

theorem Env.srt' (h : Env S l A) : Srt A l := fun _ _ _ _ _ he => h.srt he

/-- Two places at which an abscissa is: the parabolas agree. -/
theorem tie (hs : Srt A l) (hlow : ∀ p ∈ A, l < p.2) (hp : ∀ B a b C, A = B ++ a :: b :: C → a.2 = b.2 → a.1 < b.1) {x : ℝ}
    {q : Pt} {C : List Pt} : ∀ (M : List Pt) (B : List Pt) (p : Pt), A = B ++ p :: (M ++ q :: C) →
      (∀ r ∈ (M ++ q :: C).head?, x ≤ bpX p r l) → (∀ o ∈ (p :: M).getLast?, bpX o q l ≤ x) →
      par p l x = par q l x ∧ ∀ r ∈ (M ++ q :: C).head?, bpX p r l ≤ x := by
  intro M
  induction M with
  | nil =>
    intro B p he h1 h2
    simp only [List.nil_append] at he
    have g1 := h1 q (by simp)
    have g2 := h2 p (by simp)
    have hx : x = bpX p q l := le_antisymm g1 g2
    have hb := bp_exists (hlow p (by rw [he]; simp)).le (hlow q (by rw [he]; simp)).le (Or.inl (hlow p (by rw [he]; simp)))
      (hp B p q C he)
    refine ⟨?_, by simpa using g2⟩
    rw [hx]
    have e1 := hb.y_eq (hlow p (by rw [he]; simp))
    have e2 := hb.y_eq' (hlow q (by rw [he]; simp))
    simp only at e1 e2
    rw [← e1, ← e2]
  | cons m M ih =>
    intro B p he h1 h2
    have g1 := h1 m (by simp)
    have hhead : ∀ r ∈ (M ++ q :: C).head?, bpX p m l ≤ bpX m r l := by
      intro r hr
      obtain ⟨D, hD⟩ : ∃ D, M ++ q :: C = r :: D := by
        cases hh : M ++ q :: C with
        | nil => simp at hh
        | cons y D => rw [hh] at hr; simp only [List.head?_cons, Option.mem_def, Option.some.injEq] at hr; exact ⟨D, by rw [hr]⟩
      exact hs B p m r D (by rw [he]; simp [hD])
    obtain ⟨g2, g3⟩ := ih (B ++ [p]) m (by rw [he]; simp) (fun r hr => g1.trans (hhead r hr)) (by
      intro o ho
      refine h2 o ?_
      simpa [List.getLast?_cons] using ho)
    have hne : ∃ r, r ∈ (M ++ q :: C).head? := by cases M <;> simp
    obtain ⟨r, hr⟩ := hne
    have g4 := (hhead r hr).trans (g3 r hr)
    have hx : x = bpX p m l := le_antisymm g1 g4
    have hb := bp_exists (hlow p (by rw [he]; simp)).le (hlow m (by rw [he]; simp)).le (Or.inl (hlow p (by rw [he]; simp)))
      (hp B p m _ (by rw [he]; rfl))
    refine ⟨?_, by simpa using g4⟩
    rw [← g2, hx]
    have e1 := hb.y_eq (hlow p (by rw [he]; simp))
    have e2 := hb.y_eq' (hlow m (by rw [he]; simp))
    simp only at e1 e2
    rw [← e1, ← e2]

end Foronoi
