import Verif.Proof.CellFirst
import Verif.Props.BorderCells
import Verif.Spec.Cells

/-!
# The cells after the clean-up
-/

namespace Foronoi

open scoped List

variable {pts : Nat → ℝ × ℝ} {q : PQ (QE ℝ)} {ok : List (QE ℝ) → Prop} {n : Nat} {rz : Bool} {poly : Poly ℝ} {s s1 s2 s' : St ℝ} {vs : List Nat} {V : Nat → Nat} {cell : Nat}

/-- All stages of a run. -/
structure Finish (pts : Nat → ℝ × ℝ) (q : PQ (QE ℝ)) (ok : List (QE ℝ) → Prop) (n : Nat) (poly : Poly ℝ) (rz : Bool) (s s1 s2 s' : St ℝ) (vs : List Nat)
    (V : Nat → Nat) (cell : Nat) : Prop where
  B : Closing pts q ok n poly s s1 s2 vs V cell
  hn : 0 < n
  edges : s2.edges = s1.edges ++ (List.range vs.length).map (fun j => s1.d.heCnt + 2 * j + 1)
  cu : if rz then CU s2.edges s2 s'.edges { s' with edges := s2.edges, log := s2.log } else s' = { s2 with log := s'.log }

/-- A half-edge deleted by the clean-up. -/
def Gone (s2 s' : St ℝ) (f : Nat) : Prop := EdgesOf s2.d s2.edges f ∧ ¬ EdgesOf s2.d s'.edges f

/-- The half-edges that are linked to each other: those of the cells, and the twins of border edges without a length. -/
def CellLinked (s s1 : St ℝ) (vs : List Nat) (V : Nat → Nat) (cell f : Nat) : Prop :=
  (∃ p, OfCell s s1 vs V cell p f) ∨ ∃ j < vs.length, f = s1.d.heCnt + 2 * j ∧ place s1.d (V j) = place s1.d (V (j + 1))

/-- A deleted half-edge that is its own successor. -/
def Orphan (s s1 s2 : St ℝ) (f : Nat) : Prop := f < s.d.heCnt ∧ ¬ EdgesOf s.d s1.edges f ∧ (s2.d.he f).next = some f

/-- A half-edge of the cell of `p` in the result. -/
def LiveIn (s s1 s2 s' : St ℝ) (vs : List Nat) (V : Nat → Nat) (cell p f : Nat) : Prop := OfCell s s1 vs V cell p f ∧ ¬ Gone s2 s' f

namespace Finish

variable (F : Finish pts q ok n poly rz s s1 s2 s' vs V cell)
include F

theorem ofCell_iff {p f : Nat} : OfCell s s1 vs V cell p f ↔ EdgesOf s2.d s2.edges f ∧ (s2.d.he f).incident = some p := by
  have B := F.B
  obtain ⟨L, hI⟩ := reach_inv B.spec B.reach
  have hlt : ∀ e ∈ s1.edges, e < s.d.heCnt := fun e he => hI.dinv.elt e (B.clip.sub.subset he)
  constructor
  · rintro (⟨h, hp⟩ | ⟨j, hj, rfl, hl⟩)
    · rw [B.inc2 (B.kept_lt h)]
      refine ⟨?_, hp⟩
      unfold EdgesOf
      rw [F.edges]
      rcases h with h | ⟨e, h1, h2⟩
      · exact Or.inl (List.mem_append_left _ h)
      · exact Or.inr ⟨e, List.mem_append_left _ h1, by rw [B.twin2 (hlt e h1)]; exact h2⟩
    · refine ⟨Or.inl ?_, by rw [(B.border hj).2.2.1, hl]⟩
      rw [F.edges]
      exact List.mem_append_right _ (List.mem_map.mpr ⟨j, List.mem_range.mpr hj, rfl⟩)
  · rintro ⟨h | ⟨e, h1, h2⟩, hp⟩
    · rw [F.edges] at h
      rcases List.mem_append.mp h with h | h
      · exact Or.inl ⟨Or.inl h, by rw [← B.inc2 (hlt f h)]; exact hp⟩
      · obtain ⟨j, hj, rfl⟩ := List.mem_map.mp h
        have hj := List.mem_range.mp hj
        exact Or.inr ⟨j, hj, rfl, by rw [← (B.border hj).2.2.1]; exact hp⟩
    · rw [F.edges] at h1
      rcases List.mem_append.mp h1 with h1 | h1
      · rw [B.twin2 (hlt e h1)] at h2
        have hk : EdgesOf s.d s1.edges f := Or.inr ⟨e, h1, h2⟩
        exact Or.inl ⟨hk, by rw [← B.inc2 (B.kept_lt hk)]; exact hp⟩
      · obtain ⟨j, hj, rfl⟩ := List.mem_map.mp h1
        have hj := List.mem_range.mp hj
        rw [(B.border hj).1, Option.some.injEq] at h2
        rw [← h2, (B.border hj).2.1] at hp
        cases hp

theorem twin : ∀ f, (s'.d.he f).twin = (s2.d.he f).twin := (cleaned F.cu).1
theorem inc : ∀ f, (s'.d.he f).incident = (s2.d.he f).incident := (cleaned F.cu).2.1
theorem op : ∀ f, opos s'.d f = opos s2.d f := (cleaned F.cu).2.2.1

/-- The half-edges of a cell in the result. -/
theorem live_iff {p f : Nat} : HalfEdgeOf s'.d s'.edges f ∧ (s'.d.he f).incident = some p ↔ OfCell s s1 vs V cell p f ∧ ¬ Gone s2 s' f := by
  have e1 : HalfEdgeOf s'.d s'.edges f ↔ EdgesOf s2.d s'.edges f := by
    unfold HalfEdgeOf EdgesOf
    simp only [F.twin]
  rw [e1, F.inc, F.ofCell_iff]
  unfold Gone
  have := @EdgesOf.sub ℝ _ _ s2.d s'.edges s2.edges f (fun e he => (cleaned F.cu).2.2.2.1 e he)
  grind

/-- Twins of twins. -/
theorem twin_twin {e t : Nat} (he : e ∈ s2.edges) (ht : (s2.d.he e).twin = some t) : (s2.d.he t).twin = some e := by
  have B := F.B
  obtain ⟨L, hI⟩ := reach_inv B.spec B.reach
  rw [F.edges] at he
  rcases List.mem_append.mp he with h | h
  · have hel := hI.dinv.elt e (B.clip.sub.subset h)
    obtain ⟨t', i, o, hE⟩ := B.edg hel
    rw [B.twin2 hel, hE.tw, Option.some.injEq] at ht
    subst ht
    have := hE.symm hI.dinv
    rw [B.twin2 this.lt, this.tw]
  · obtain ⟨j, hj, rfl⟩ := List.mem_map.mp h
    have hj := List.mem_range.mp hj
    rw [(B.border hj).1, Option.some.injEq] at ht
    rw [← ht, (B.fp.binv.newT j hj).1]

/-- A deleted half-edge has no length. -/
theorem gone_eq {f t : Nat} (h : Gone s2 s' f) (ht : (s2.d.he f).twin = some t) : opos s2.d f = opos s2.d t := by
  obtain ⟨h1, h2⟩ := h
  have hc5 := (cleaned F.cu).2.2.2.2
  rcases h1 with h1 | ⟨e, h1, h3⟩
  · have : ¬ ∀ t, (s2.d.he f).twin = some t → opos s2.d f ≠ opos s2.d t := fun hh => h2 (Or.inl (hc5 f h1 hh))
    push Not at this
    obtain ⟨t', a, b⟩ := this
    rw [ht, Option.some.injEq] at a
    subst a; exact b
  · have hte := F.twin_twin h1 h3
    rw [ht, Option.some.injEq] at hte
    subst hte
    have : ¬ ∀ u, (s2.d.he t).twin = some u → opos s2.d t ≠ opos s2.d u := fun hh => h2 (Or.inr ⟨t, hc5 t h1 hh, h3⟩)
    push Not at this
    obtain ⟨t', a, b⟩ := this
    rw [h3, Option.some.injEq] at a
    subst a; exact b.symm

theorem gone_stays {p f : Nat} (hf : OfCell s s1 vs V cell p f) (h : Gone s2 s' f) : startAt s2.d f = startAt s2.d (nxt s2.d f) := by
  obtain ⟨_, _, _, t, h1, h2⟩ := F.B.step F.hn hf
  have := F.gone_eq h h1
  rw [(F.B.piece F.hn hf).1, h2] at this
  exact Option.some.inj this

/-- Border edges with a length are not deleted. -/
theorem border_stays {j : Nat} (hj : j < vs.length) (hne : place s1.d (V j) ≠ place s1.d (V (j + 1))) :
    ¬ Gone s2 s' (s1.d.heCnt + 2 * j) ∧ ¬ Gone s2 s' (s1.d.heCnt + 2 * j + 1) := by
  obtain ⟨b1, b2, b3, b4, b5⟩ := F.B.border hj
  constructor
  · intro h
    have := F.gone_eq h (F.B.fp.binv.newT j hj).1
    rw [b4, b5] at this
    exact hne (Option.some.inj this).symm
  · intro h
    have := F.gone_eq h b1
    rw [b4, b5] at this
    exact hne (Option.some.inj this)

/-- The twin of a border edge without a length is not linked. -/
theorem flat_twin {j : Nat} (hj : j < vs.length) (h : place s1.d (V j) = place s1.d (V (j + 1))) :
    (s2.d.he (s1.d.heCnt + 2 * j)).next = none ∧ (s2.d.he (s1.d.heCnt + 2 * j)).prev = none := by
  obtain ⟨h0, _, _, h1, _⟩ := F.B.flat_border hj h
  exact ⟨F.B.fp.binv.nextT j hj h0, F.B.fp.binv.prevT j hj h1⟩

theorem orphan_not {f : Nat} (h : Orphan s s1 s2 f) : ¬ CellLinked s s1 vs V cell f := by
  obtain ⟨h1, h2, _⟩ := h
  rintro (⟨p, ⟨h, _⟩ | ⟨j, _, rfl, _⟩⟩ | ⟨j, _, rfl, _⟩)
  · exact h2 h
  · rw [F.B.heCnt] at h1; omega
  · rw [F.B.heCnt] at h1; omega

/-- The first edge of a cell before the clean-up. -/
theorem first_cases {p x : Nat} (hx : s2.d.fe p = some x) : OfCell s s1 vs V cell p x ∨ Orphan s s1 s2 x ∧ (s2.d.he x).incident = some p := by
  rcases F.B.fp.binv.feN p x hx with h | ⟨j, hj, e, h⟩
  · rcases F.B.first_kept h with h | ⟨h1, h2, h3, h4⟩
    · exact Or.inl h
    · exact Or.inr ⟨⟨h1, h3, h4⟩, by rw [F.B.inc2 h1]; exact h2⟩
  · exact Or.inl (Or.inr ⟨j, hj, e, h⟩)

theorem closed : ClosedCells s2.d (fun f => CellLinked s s1 vs V cell f ∨ Orphan s s1 s2 f) := by
  have B := F.B
  obtain ⟨L, hI⟩ := reach_inv B.spec B.reach
  refine ⟨?_, ?_⟩
  · rintro x ((⟨p, hx⟩ | ⟨j, hj, rfl, he⟩) | h) g hg
    · obtain ⟨h1, h2, _⟩ := B.step F.hn hx
      rw [h2, Option.some.injEq] at hg
      subst hg
      exact ⟨Or.inl (Or.inl ⟨p, h1⟩), by rw [(F.ofCell_iff.mp h1).2, (F.ofCell_iff.mp hx).2]⟩
    · rw [(F.flat_twin hj he).1] at hg; cases hg
    · rw [h.2.2, Option.some.injEq] at hg
      subst hg
      exact ⟨Or.inr h, rfl⟩
  · intro p x hx
    rcases F.first_cases hx with h | ⟨h, h'⟩
    · exact ⟨Or.inl (Or.inl ⟨p, h⟩), (F.ofCell_iff.mp h).2⟩
    · exact ⟨Or.inr h, h'⟩

/-- The links before the clean-up. -/
theorem lnk0 : Lnk s2.d (fun f => ¬ CellLinked s s1 vs V cell f) s2.d := by
  have B := F.B
  have hcl := F.closed
  refine ⟨?_, ?_, fun x g hg => .one hg, fun f g hg _ => hg, fun q x hx => ?_, fun x hn => Or.inl hn,
    fun q x hx => Or.inl hx, fun q hq => Or.inl hq⟩
  · intro x hx g hg
    rcases not_not.mp hx with ⟨p, hx⟩ | ⟨j, hj, rfl, he⟩
    rotate_left
    · rw [(F.flat_twin hj he).1] at hg; cases hg
    obtain ⟨h1, h2, h3, _⟩ := B.step F.hn hx
    rw [h2, Option.some.injEq] at hg
    subst hg
    exact ⟨h3, not_not.mpr (Or.inl ⟨p, h1⟩)⟩
  · intro x hx f hf
    rcases not_not.mp hx with ⟨p, hx⟩ | ⟨j, hj, rfl, he⟩
    rotate_left
    · rw [(F.flat_twin hj he).2] at hf; cases hf
    obtain ⟨k, k0, hk⟩ := B.period F.hn hx
    obtain ⟨i, rfl⟩ : ∃ i, k = i + 1 := ⟨k - 1, by omega⟩
    rw [Function.iterate_succ_apply'] at hk
    obtain ⟨_, h2, h3, _⟩ := B.step F.hn (B.iter F.hn hx i)
    rw [hk] at h2 h3
    rw [h3, Option.some.injEq] at hf
    subst hf
    exact h2
  · rcases (hcl.fe q x hx).1 with h | h
    · exact Or.inl (not_not.mpr h)
    · exact Or.inr h.2.2

theorem lnk : Lnk s2.d (fun f => ¬ CellLinked s s1 vs V cell f ∨ Gone s2 s' f) s'.d := by
  have B := F.B
  have hcl := F.closed
  have h0 := F.lnk0
  cases hrz : rz with
  | false =>
    have hcu := F.cu
    rw [hrz] at hcu
    simp only [Bool.false_eq_true, if_false] at hcu
    have e1 : s'.d = s2.d := by rw [hcu]
    have e2 : s'.edges = s2.edges := by rw [hcu]
    have : (fun f => ¬ CellLinked s s1 vs V cell f ∨ Gone s2 s' f) = fun f => ¬ CellLinked s s1 vs V cell f := by
      funext f
      apply propext
      unfold Gone
      rw [e2]
      grind
    rw [this, e1]
    exact h0
  | true =>
    have hcu := F.cu
    rw [hrz] at hcu
    simp only [if_true] at hcu
    refine hcu.links s2.d _ _ h0 hcl (fun _ => rfl) ?_
    intro f hf hr
    refine not_not.mpr ?_
    have hg : Gone s2 s' f := ⟨hf, hr⟩
    obtain ⟨L, hI⟩ := reach_inv B.spec B.reach
    have key : ∀ e, e < s.d.heCnt → EdgesOf s2.d s2.edges e → CellLinked s s1 vs V cell e := by
      intro e he h
      obtain ⟨t, i, o, hE⟩ := B.edg he
      exact Or.inl ⟨i, F.ofCell_iff.mpr ⟨h, by rw [B.inc2 he, hE.inc]⟩⟩
    have hf' := hf
    rcases hf with hf | ⟨e, he, h2⟩
    · rw [F.edges] at hf
      rcases List.mem_append.mp hf with h | h
      · exact key f (hI.dinv.elt f (B.clip.sub.subset h)) hf'
      · obtain ⟨j, hj, rfl⟩ := List.mem_map.mp h
        have hj := List.mem_range.mp hj
        obtain ⟨p, h1, _⟩ := B.labels F.hn hj
        exact Or.inl ⟨p, Or.inr ⟨j, hj, rfl, h1⟩⟩
    · rw [F.edges] at he
      rcases List.mem_append.mp he with h | h
      · have hel := hI.dinv.elt e (B.clip.sub.subset h)
        obtain ⟨t, i, o, hE⟩ := B.edg hel
        rw [B.twin2 hel, hE.tw, Option.some.injEq] at h2
        rw [← h2] at hf' ⊢
        exact key t (hE.symm hI.dinv).lt hf'
      · obtain ⟨j, hj, rfl⟩ := List.mem_map.mp h
        have hj := List.mem_range.mp hj
        rw [(B.border hj).1, Option.some.injEq] at h2
        rw [← h2] at hg ⊢
        refine Or.inr ⟨j, hj, rfl, ?_⟩
        by_contra hne
        exact (F.border_stays hj hne).1 hg

/-- `Via` along the chain of a cell. -/
theorem via_iter {X : Nat → Prop} {p x y : Nat} (hx : OfCell s s1 vs V cell p x) (h : Via s2.d X x y) :
    ∃ m, 0 < m ∧ (nxt s2.d)^[m] x = y ∧ ∀ i, 0 < i → i < m → X ((nxt s2.d)^[i] x) := by
  obtain ⟨G, k, k0, e0, ek, hnx, hX⟩ := h.path
  have key : ∀ i ≤ k, G i = (nxt s2.d)^[i] x := by
    intro i
    induction i with
    | zero => exact fun _ => e0
    | succ i ih =>
      intro hi
      have h1 := hnx i (by omega)
      rw [ih (by omega), (F.B.step F.hn (F.B.iter F.hn hx i)).2.1, Option.some.injEq] at h1
      rw [← h1, Function.iterate_succ_apply']
  refine ⟨k, k0, by rw [← key k le_rfl, ek], fun i h1 h2 => ?_⟩
  rw [← key i (by omega)]
  exact hX i h1 h2

/-- Over deleted half-edges one stays at the same place. -/
theorem stays {p x m : Nat} (hx : OfCell s s1 vs V cell p x) (h : ∀ i, 0 < i → i < m → Gone s2 s' ((nxt s2.d)^[i] x)) (hm : 0 < m) :
    startAt s2.d ((nxt s2.d)^[m] x) = startAt s2.d (nxt s2.d x) := by
  induction m with
  | zero => omega
  | succ m ih =>
    by_cases h0 : m = 0
    · subst h0; rfl
    rw [Function.iterate_succ_apply', ← F.gone_stays (F.B.iter F.hn hx m) (h m (by omega) (by omega))]
    exact ih (fun i h1 h2 => h i h1 (by omega)) (by omega)

theorem not_X {p f : Nat} (h : LiveIn s s1 s2 s' vs V cell p f) : ¬ (¬ CellLinked s s1 vs V cell f ∨ Gone s2 s' f) := by
  rintro (h1 | h1)
  · exact h1 (Or.inl ⟨p, h.1⟩)
  · exact h.2 h1

theorem gone_of_X {p f : Nat} (h : OfCell s s1 vs V cell p f) (hX : ¬ CellLinked s s1 vs V cell f ∨ Gone s2 s' f) : Gone s2 s' f := by
  rcases hX with h1 | h1
  · exact absurd (Or.inl ⟨p, h⟩) h1
  · exact h1

/-- The next half-edge in the result. -/
theorem step {p f : Nat} (hf : LiveIn s s1 s2 s' vs V cell p f) :
    ∃ m, 0 < m ∧ (s'.d.he f).next = some (nxt s'.d f) ∧ nxt s'.d f = (nxt s2.d)^[m] f ∧ (∀ i, 0 < i → i < m → Gone s2 s' ((nxt s2.d)^[i] f)) ∧
      LiveIn s s1 s2 s' vs V cell p (nxt s'.d f) ∧ (s'.d.he (nxt s'.d f)).prev = some f ∧ startAt s2.d (nxt s'.d f) = startAt s2.d (nxt s2.d f) := by
  have hl := F.lnk
  have hnn : (s'.d.he f).next ≠ none := by
    intro hh
    rcases hl.nn f hh with h1 | ⟨y, h1, _, h3⟩
    · rw [(F.B.step F.hn hf.1).2.1] at h1; cases h1
    · obtain ⟨m, _, rfl, _⟩ := F.via_iter hf.1 h1
      rw [(F.B.step F.hn (F.B.iter F.hn hf.1 m)).2.1] at h3; cases h3
  obtain ⟨g, hg⟩ := Option.ne_none_iff_exists'.mp hnn
  have e : nxt s'.d f = g := by unfold nxt; rw [hg]; rfl
  obtain ⟨h1, h2⟩ := hl.nx f (F.not_X hf) g hg
  obtain ⟨m, m0, m1, m2⟩ := F.via_iter hf.1 (hl.via f g hg)
  have m3 : ∀ i, 0 < i → i < m → Gone s2 s' ((nxt s2.d)^[i] f) := fun i i1 i2 => F.gone_of_X (F.B.iter F.hn hf.1 i) (m2 i i1 i2)
  rw [e]
  refine ⟨m, m0, hg, m1.symm, m3, ⟨?_, fun h => h2 (Or.inr h)⟩, h1, ?_⟩
  · rw [← m1]; exact F.B.iter F.hn hf.1 m
  · rw [← m1]; exact F.stays hf.1 m3 m0

theorem iter {p f : Nat} (hf : LiveIn s s1 s2 s' vs V cell p f) (i : Nat) : LiveIn s s1 s2 s' vs V cell p ((nxt s'.d)^[i] f) := by
  induction i with
  | zero => exact hf
  | succ i ih => rw [Function.iterate_succ_apply']; exact (F.step ih).choose_spec.2.2.2.2.1

/-- Half-edges reached before are reached now. -/
theorem reached {p f : Nat} : ∀ (i : Nat) {g : Nat}, LiveIn s s1 s2 s' vs V cell p g → (nxt s2.d)^[i] g = f → ¬ Gone s2 s' f → ∃ j, (nxt s'.d)^[j] g = f := by
  intro i
  induction i using Nat.strong_induction_on with
  | _ i ih =>
    intro g hg hi hf
    by_cases h0 : i = 0
    · subst h0; exact ⟨0, hi⟩
    obtain ⟨m, m0, _, m1, m2, m3, _⟩ := F.step hg
    have hmi : m ≤ i := by
      by_contra hcon
      have := m2 i (by omega) (by omega)
      rw [hi] at this
      exact hf this
    have : (nxt s2.d)^[i - m] (nxt s'.d g) = f := by
      rw [m1, ← Function.iterate_add_apply, Nat.sub_add_cancel hmi, hi]
    obtain ⟨j, hj⟩ := ih (i - m) (by omega) m3 this hf
    exact ⟨j + 1, by rw [Function.iterate_succ_apply]; exact hj⟩

theorem one_chain {p f g : Nat} {c : Pt} (hm : Mid pts n poly p c) (hf : LiveIn s s1 s2 s' vs V cell p f) (hg : LiveIn s s1 s2 s' vs V cell p g) : ∃ i, (nxt s'.d)^[i] g = f := by
  obtain ⟨i, hi⟩ := F.B.one_chain F.hn hm hf.1 hg.1
  exact F.reached i hg hi hf.2

theorem period {p f : Nat} {c : Pt} (hm : Mid pts n poly p c) (hf : LiveIn s s1 s2 s' vs V cell p f) : ∃ k, 0 < k ∧ (nxt s'.d)^[k] f = f := by
  obtain ⟨_, _, _, _, _, h, _⟩ := F.step hf
  obtain ⟨i, hi⟩ := F.one_chain hm hf h
  exact ⟨i + 1, by omega, by rw [Function.iterate_succ_apply]; exact hi⟩

/-- A cell with half-edges has one that is not deleted in the clean-up. -/
theorem some_live {p x : Nat} (hx : OfCell s s1 vs V cell p x) : ∃ i, LiveIn s s1 s2 s' vs V cell p ((nxt s2.d)^[i] x) := by
  obtain ⟨k, k0, hk⟩ := F.B.period F.hn hx
  obtain ⟨i, _, hne⟩ := F.B.moves F.hn hx k0 hk
  refine ⟨i, F.B.iter F.hn hx i, fun hg => hne ?_⟩
  rw [Function.iterate_succ_apply']
  exact F.gone_stays (F.B.iter F.hn hx i) hg

theorem first_of {p e : Nat} (h1 : s2.d.fe p = some e) (h2 : OfCell s s1 vs V cell p e) : ∃ e, s'.d.fe p = some e ∧ LiveIn s s1 s2 s' vs V cell p e := by
  have hl := F.lnk
  have hnn : s'.d.fe p ≠ none := by
    intro hh
    rcases hl.feN p hh with h | ⟨x, y, h3, h4, h5⟩
    · rw [h1] at h; cases h
    · rw [h1, Option.some.injEq] at h3
      subst h3
      rcases h4 with rfl | h4
      · rw [(F.B.step F.hn h2).2.1] at h5; cases h5
      · obtain ⟨m, _, rfl, _⟩ := F.via_iter h2 h4
        rw [(F.B.step F.hn (F.B.iter F.hn h2 m)).2.1] at h5; cases h5
  obtain ⟨x, hx⟩ := Option.ne_none_iff_exists'.mp hnn
  refine ⟨x, hx, ?_⟩
  have hxc : OfCell s s1 vs V cell p x := by
    rcases hl.feS p x hx with h | ⟨y, h, _, h'⟩
    · rw [h1, Option.some.injEq] at h
      rw [← h]; exact h2
    · rw [h1, Option.some.injEq] at h
      subst h
      obtain ⟨m, _, rfl, _⟩ := F.via_iter h2 h'
      exact F.B.iter F.hn h2 m
  refine ⟨hxc, fun hg => ?_⟩
  rcases hl.fe p x hx with h | h
  · exact h (Or.inr hg)
  · obtain ⟨m, m0, m1, m2⟩ := F.via_iter hxc (hl.via x x h)
    obtain ⟨i, hi, hne⟩ := F.B.moves F.hn hxc m0 m1
    refine hne ?_
    rw [Function.iterate_succ_apply']
    refine F.gone_stays (F.B.iter F.hn hxc i) ?_
    by_cases h0 : i = 0
    · subst h0; exact hg
    · exact F.gone_of_X (F.B.iter F.hn hxc i) (m2 i (by omega) hi)

theorem first {p : Nat} (hS : Shown pts n poly p) : ∃ e, s'.d.fe p = some e ∧ LiveIn s s1 s2 s' vs V cell p e := by
  obtain ⟨e, h1, h2⟩ := F.B.first F.hn hS
  exact F.first_of h1 h2

end Finish

end Foronoi
