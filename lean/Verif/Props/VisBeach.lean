import Verif.Model.Visualizer
import Verif.Proof.ArcSet
import Verif.Proof.Polygon
import Verif.Props.Voronoi
import Verif.Spec.Picture

/-!
# The picture of the beach line

C76: the curve drawn as beach line is the beach line of the sites met so far.
-/

namespace Foronoi

open scoped List

/-- At every abscissa some arc of the envelope is lowest. -/
theorem Env.lowest_at {S : Set Pt} {l : ℝ} {A : List Pt} (h : Env S l A) (x : ℝ) :
    ∃ p ∈ A, l < p.2 ∧ ∀ c ∈ S, l < c.2 → par p l x ≤ par c l x := by
  obtain ⟨B, p, C, he, hin⟩ := cover l x A none h.ne (by simp)
  simp only [Option.or_none] at hin
  have hok := h.arcs B p C he
  rcases eq_or_lt_of_le (h.low p hok.mem) with hd | hn
  · obtain ⟨⟨a, ha, hal, ea⟩, ⟨b, hb, _, eb⟩⟩ := h.head_deg he hd.symm
    have h1 := hin.1 a ha
    have h2 := hin.2 b hb
    obtain ⟨B', rfl⟩ : ∃ B', B = B' ++ [a] := by
      rw [List.getLast?_eq_some_iff] at ha
      exact ha
    have he' : A = B' ++ a :: (p :: C) := by rw [he]; simp
    have hoka := h.arcs B' a (p :: C) he'
    refine ⟨a, by rw [he']; simp, hal, hoka.own hal x ⟨?_, ?_⟩⟩
    · intro o ho
      exact (hoka.srt o ho p rfl).trans h1
    · intro r hr
      simp only [List.head?_cons, Option.mem_def, Option.some.injEq] at hr
      subst hr
      linarith
  · exact ⟨p, by rw [he]; simp, hn, hok.own hn x hin⟩

variable {pts : Nat → Pt} {q : PQ (QE ℝ)} {ok : List (QE ℝ) → Prop} {n : Nat} {poly : Poly ℝ} {s : St ℝ} {l : ℝ}

theorem mem_origs {og : Nat → Nat} {L : List (Item Dat)} {p : Nat} (h : p ∈ origs og L) : ∃ a, ArcIn L a ∧ og a = p := by
  simp only [origs, List.mem_filterMap] at h
  obtain ⟨⟨i, f, d⟩, hx, hp⟩ := h
  cases d with
  | arc a => exact ⟨a, ⟨_, hx, rfl⟩, by simpa [iOrg] using hp⟩
  | bp b => simp [iOrg] at hp

/-- Among the arcs in the set, one is lowest at a given abscissa, if there is a site above the sweep line. -/
theorem lowest_arc (hd : Distinct pts n) (hq : q.Spec evLt ok) (h : Reach pts q n poly s) (hl : s.sweep = some l) :
    (∀ a ∈ s.arcSet, (s.names (s.og a)).isSome) ∧ (∀ a ∈ s.arcSet, ∀ b ∈ s.arcSet, s.og a = s.og b → a = b) ∧ s.arcSet.Nodup ∧ (∀ p, (s.names p).isSome → l ≤ (pts p).2) ∧
    ((∃ p, (s.names p).isSome ∧ l < (pts p).2) → ∀ x, ∃ a ∈ s.arcSet, l < (pts (s.og a)).2 ∧
      ∀ p, (s.names p).isSome → l < (pts p).2 → par (pts (s.og a)) l x ≤ par (pts p) l x) := by
  obtain ⟨L, hI, hJ, hA⟩ := reach_follow (J := fun s L => JInv pts s L ∧ ASet s L) hq
    ⟨JInv.start hq, by simp [startSt, initSt], by simp [startSt, initSt], by simp [startSt, initSt], by simp [startSt, initSt],
      by rintro a ⟨x, hx, _⟩; simp at hx, by simp [startSt, initSt]⟩
    (fun _ _ _ _ _ _ hI hJ hp hst hI' => ⟨hJ.1.step hd.injOn hq hI hp hst hI', ASet.step hI hJ.2 hq hp hst⟩) h
  refine ⟨hA.nm, hA.inj, hA.nd, ?_⟩
  have hno : s.nextName = 0 → ∀ p, ¬ (s.names p).isSome := by
    intro h0 p hp
    obtain ⟨k, hk⟩ := Option.isSome_iff_exists.mp hp
    have := (hI.sinv.nmLt p k hk).1
    omega
  rcases hJ with ⟨h0, _⟩ | ⟨l', hG⟩
  · exact ⟨fun p hp => absurd hp (hno h0 p), fun ⟨p, hp, _⟩ => absurd hp (hno h0 p)⟩
  · have : l' = l := by have := hG.sw; rw [hl] at this; simpa using this.symm
    subst this
    have hmem : ∀ p, (s.names p).isSome → pts p ∈ Handled pts s := fun p hp => ⟨p, hp, rfl⟩
    refine ⟨fun p hp => ?_, ?_⟩
    · rcases hG.env with hT | hE
      · exact (hT.row _ (hmem p hp)).ge
      · exact hE.low _ (hmem p hp)
    · rintro ⟨p0, hp0, hlt⟩ x
      rcases hG.env with hT | hE
      · have := hT.row _ (hmem p0 hp0)
        linarith
      · obtain ⟨z, hz, hzl, hmin⟩ := hE.lowest_at x
        obtain ⟨r, hr, rfl⟩ := List.mem_map.mp hz
        obtain ⟨b, hb, rfl⟩ := mem_origs hr
        obtain ⟨a, ha, hab⟩ := hA.has b hb
        exact ⟨a, ha, by rw [hab]; exact hzl, fun p hp hpl => by rw [hab]; exact hmin _ (hmem p hp) hpl⟩

/-! ### the lowest of several lines -/

theorem listMin_spec : ∀ (L : List ℝ), (L = [] ∧ listMin L = none) ∨ ∃ m ∈ L, listMin L = some m ∧ ∀ y ∈ L, m ≤ y := by
  intro L
  cases L with
  | nil => exact Or.inl ⟨rfl, rfl⟩
  | cons a L =>
    right
    have key : ∀ (L : List ℝ) (a : ℝ), L.foldl min a ≤ a ∧ (L.foldl min a = a ∨ L.foldl min a ∈ L) ∧ ∀ y ∈ L, L.foldl min a ≤ y := by
      intro L
      induction L with
      | nil => intro a; simp
      | cons b L ih =>
        intro a
        obtain ⟨h1, h2, h3⟩ := ih (min a b)
        simp only [List.foldl_cons, List.mem_cons]
        refine ⟨h1.trans (min_le_left _ _), ?_, ?_⟩
        · rcases h2 with h2 | h2
          · rw [h2]
            rcases min_choice a b with h | h
            · exact Or.inl h
            · exact Or.inr (Or.inl h)
          · exact Or.inr (Or.inr h2)
        · rintro y (rfl | hy)
          · exact h1.trans (min_le_right _ _)
          · exact h3 y hy
    obtain ⟨h1, h2, h3⟩ := key L a
    refine ⟨L.foldl min a, ?_, rfl, ?_⟩
    · rcases h2 with h2 | h2
      · rw [h2]; simp
      · exact List.mem_cons_of_mem _ h2
    · intro y hy
      rcases List.mem_cons.mp hy with rfl | hy
      · exact h1
      · exact h3 y hy

theorem arcLine_real (xs : List ℝ) (a : Nat) : arcLine pts s xs l a =
    if (pts (s.og a)).2 = l then none else some (xs.map (par (pts (s.og a)) l)) := by
  unfold arcLine
  simp only [arcPlot_real]
  simp only [rToF, rFsub, lit, rI, Int.cast_zero, sub_eq_zero]
  show (if (pts (s.og a)).2 = l then _ else _) = _
  split
  · rfl
  · next hne =>
    congr 1

/-- The heights of the lines above the sample with index `i`. -/
theorem column {xs : List ℝ} {arcs : List Nat} {i : Nat} {x : ℝ} (hx : xs[i]? = some x) (y : ℝ) :
    y ∈ (arcs.filterMap (arcLine pts s xs l)).filterMap (·[i]?) ↔ ∃ a ∈ arcs, (pts (s.og a)).2 ≠ l ∧ y = par (pts (s.og a)) l x := by
  simp only [List.mem_filterMap, arcLine_real]
  constructor
  · rintro ⟨ys, ⟨a, ha, h1⟩, h2⟩
    split at h1
    · cases h1
    · next hne =>
      simp only [Option.some.injEq] at h1
      subst h1
      rw [List.getElem?_map, hx] at h2
      exact ⟨a, ha, hne, by simpa using h2.symm⟩
  · rintro ⟨a, ha, hne, rfl⟩
    exact ⟨_, ⟨a, ha, by rw [if_neg hne]⟩, by rw [List.getElem?_map, hx]; rfl⟩

theorem filterMap_range_some {α β : Type} (f : Nat → Option β) (g : β → α) : ∀ (xs : List α) (k : Nat),
    (∀ i x, xs[i]? = some x → ∃ z, f (k + i) = some z ∧ g z = x) →
    ((List.range' k xs.length).filterMap f).map g = xs := by
  intro xs
  induction xs with
  | nil => intro k _; rfl
  | cons x xs ih =>
    intro k h
    obtain ⟨z, hz, hgz⟩ := h 0 x rfl
    simp only [Nat.add_zero] at hz
    rw [List.length_cons, List.range'_succ, List.filterMap_cons, hz]
    simp only [List.map_cons, hgz]
    congr 1
    refine ih (k + 1) fun i y hy => ?_
    obtain ⟨w, hw⟩ := h (i + 1) y (by simpa using hy)
    exact ⟨w, by rw [show k + 1 + i = k + (i + 1) by omega]; exact hw⟩

/-- The sites met so far. -/
def Met (pts : Nat → ℝ × ℝ) (s : St ℝ) : Set (ℝ × ℝ) := {x | ∃ p, (s.names p).isSome ∧ pts p = x}

theorem beachOf_ok (hd : Distinct pts n) (hq : q.Spec evLt ok) (h : Reach pts q n poly s) (hl : s.sweep = some l) {arcs : List Nat}
    (harcs : arcs ~ s.arcSet) (xs : List ℝ) (hup : ∃ p, (s.names p).isSome ∧ l < (pts p).2) :
    (beachOf xs (arcs.filterMap (arcLine pts s xs l))).map Prod.fst = xs ∧
    ∀ z ∈ beachOf xs (arcs.filterMap (arcLine pts s xs l)), OnBeachLine (Met pts s) l z := by
  obtain ⟨hnm, _, _, hlow, hmin⟩ := lowest_arc hd hq h hl
  have key : ∀ i x, xs[i]? = some x → ∃ y, bottomAt (arcs.filterMap (arcLine pts s xs l)) i = some y ∧ OnBeachLine (Met pts s) l (x, y) := by
    intro i x hx
    obtain ⟨a, ha, hal, hamin⟩ := hmin hup x
    have ha' : a ∈ arcs := harcs.mem_iff.mpr ha
    rcases listMin_spec ((arcs.filterMap (arcLine pts s xs l)).filterMap (·[i]?)) with ⟨h1, _⟩ | ⟨m, hm, h1, h2⟩
    · exfalso
      have := (column (pts := pts) (s := s) (l := l) (arcs := arcs) hx (par (pts (s.og a)) l x)).mpr ⟨a, ha', hal.ne', rfl⟩
      rw [h1] at this
      simp at this
    · refine ⟨m, h1, ?_⟩
      obtain ⟨b, hb, hbne, rfl⟩ := (column hx m).mp hm
      have hbn := hnm b (harcs.mem_iff.mp hb)
      have hbl : l < (pts (s.og b)).2 := lt_of_le_of_ne (hlow _ hbn) (Ne.symm hbne)
      refine ⟨⟨_, ⟨_, hbn, rfl⟩, hbl, (onParabola_iff hbl).mpr rfl⟩, ?_⟩
      rintro _ ⟨p, hp, rfl⟩ hpl y hy
      rw [onParabola_iff hpl] at hy
      rw [hy]
      exact (h2 _ ((column hx _).mpr ⟨a, ha', hal.ne', rfl⟩)).trans (hamin p hp hpl)
  constructor
  · unfold beachOf
    rw [List.range_eq_range']
    refine filterMap_range_some _ _ xs 0 fun i x hx => ?_
    obtain ⟨y, hy, _⟩ := key i x hx
    rw [Nat.zero_add, hx, hy]
    exact ⟨(x, y), rfl, rfl⟩
  · intro z hz
    unfold beachOf at hz
    simp only [List.mem_filterMap] at hz
    obtain ⟨i, _, hi⟩ := hz
    cases hx : xs[i]? with
    | none => rw [hx] at hi; cases hi
    | some x =>
      obtain ⟨y, hy, hon⟩ := key i x hx
      rw [hx, hy] at hi
      have : z = (x, y) := by
        have : (some (x, y) : Option (ℝ × ℝ)) = some z := hi
        simpa using this.symm
      rw [this]; exact hon

theorem drawEach_ok {α : Type} {f : α → Except Err (List (Draw ℝ))} (g : α → List (Draw ℝ)) : ∀ (L : List α), (∀ a ∈ L, f a = .ok (g a)) →
    drawEach f L = .ok (L.flatMap g) := by
  intro L
  induction L with
  | nil => intro _; rfl
  | cons a L ih =>
    intro h
    unfold drawEach
    rw [h a (by simp), ih fun b hb => h b (by simp [hb])]
    rfl

/-- What is drawn for a single arc of the site `p`. -/
def ArcDrawn (p : ℝ × ℝ) (l : ℝ) (xs : List ℝ) (d : Draw ℝ) : Prop :=
  p.2 = l ∧ d = .vline p.1 .sweepLine ∨ l < p.2 ∧ ∃ c, d = .curve c .arc ∧ c.map Prod.fst = xs ∧ ∀ z ∈ c, OnParabola p l z

theorem single_ok (hd : Distinct pts n) (hq : q.Spec evLt ok) (h : Reach pts q n poly s) (hl : s.sweep = some l) {a : Nat}
    (ha : a ∈ s.arcSet) (xs : List ℝ) : ∃ d, plotArc pts s xs l a = [d] ∧ ArcDrawn (pts (s.og a)) l xs d := by
  obtain ⟨hnm, _, _, hlow, _⟩ := lowest_arc hd hq h hl
  have han := hnm a ha
  unfold plotArc
  rw [arcLine_real]
  by_cases he : (pts (s.og a)).2 = l
  · rw [if_pos he]
    exact ⟨_, rfl, Or.inl ⟨he, rfl⟩⟩
  · rw [if_neg he]
    have hlt := lt_of_le_of_ne (hlow _ han) (Ne.symm he)
    refine ⟨_, rfl, Or.inr ⟨hlt, xs.zip (xs.map (par (pts (s.og a)) l)), rfl, ?_, ?_⟩⟩
    · rw [List.map_fst_zip]; simp
    · intro z hz
      rw [List.zip_map_right] at hz
      simp only [List.mem_map] at hz
      obtain ⟨⟨x, x'⟩, hxx, rfl⟩ := hz
      have : x = x' := by
        have := List.of_mem_zip hxx
        rw [List.mem_iff_getElem] at hxx
        obtain ⟨i, hi, he⟩ := hxx
        simp only [List.getElem_zip, Prod.mk.injEq] at he
        exact he.1.symm.trans he.2
      subst this
      exact (onParabola_iff hlt).mpr rfl

theorem singles_ok {P : Nat → Draw ℝ → Prop} {f : Nat → List (Draw ℝ)} : ∀ (arcs : List Nat), (∀ a ∈ arcs, ∃ d, f a = [d] ∧ P a d) → List.Forall₂ P arcs (arcs.flatMap f) := by
  intro arcs
  induction arcs with
  | nil => intro _; exact .nil
  | cons a L ih =>
    intro h
    obtain ⟨d, h1, h2⟩ := h a (by simp)
    rw [List.flatMap_cons, h1]
    exact .cons h2 (ih fun b hb => h b (by simp [hb]))

/-- C76: whatever the order of the arcs and the samples, the curve drawn as beach line has exactly the samples as abscissas, and all its
points are on the beach line of the sites met so far.  If all these sites are on the sweep line, there is none, and no curve is drawn.  If single arcs are asked for,
there is one drawing for each arc: the parabola of its site, or a vertical line if the site is on the sweep line. -/
theorem C76_beach_line (hd : Distinct pts n) (hq : q.Spec evLt ok) (h : Reach pts q n poly s) (hl : s.sweep = some l) {arcs : List Nat}
    (harcs : arcs ~ s.arcSet) (cv : Canvas ℝ) (med : List ℝ → ℝ) (xs : List ℝ) (showArcs : Bool) :
    ∃ single beach, plotArcs pts cv s med xs arcs showArcs false = .ok (single ++ beach) ∧
      ((∀ p ∈ Met pts s, p.2 = l) ∧ beach = [] ∨
        (∃ p ∈ Met pts s, l < p.2) ∧ ∃ c, beach = [.curve c .beachLine] ∧ c.map Prod.fst = xs ∧ ∀ z ∈ c, OnBeachLine (Met pts s) l z) ∧
      (showArcs = false → single = []) ∧
      (showArcs = true → List.Forall₂ (fun a d => pts (s.arcs a).origin ∈ Met pts s ∧ ArcDrawn (pts (s.arcs a).origin) l xs d) arcs single) := by
  obtain ⟨hnm, _, _, hlow, hmin⟩ := lowest_arc hd hq h hl
  have hsingle : showArcs = true → List.Forall₂ (fun a d => pts (s.arcs a).origin ∈ Met pts s ∧ ArcDrawn (pts (s.arcs a).origin) l xs d) arcs
      (if showArcs then arcs.flatMap (plotArc pts s xs l) else []) := by
    rintro rfl
    refine singles_ok arcs fun a ha => ?_
    obtain ⟨d, h1, h2⟩ := single_ok hd hq h hl (harcs.mem_iff.mp ha) xs
    exact ⟨d, h1, ⟨_, hnm a (harcs.mem_iff.mp ha), rfl⟩, h2⟩
  have hS : showArcs = false → (if showArcs then arcs.flatMap (plotArc pts s xs l) else []) = [] := by rintro rfl; rfl
  by_cases hup : ∃ p, (s.names p).isSome ∧ l < (pts p).2
  · obtain ⟨p, hp, hpl⟩ := id hup
    obtain ⟨c1, c2⟩ := beachOf_ok hd hq h hl harcs xs hup
    refine ⟨_, [.curve (beachOf xs (arcs.filterMap (arcLine pts s xs l))) .beachLine], ?_, Or.inr ⟨⟨_, ⟨p, hp, rfl⟩, hpl⟩, _, rfl, c1, c2⟩,
      hS, hsingle⟩
    obtain ⟨a, ha, hal, _⟩ := hmin hup 0
    have hne : (arcs.filterMap (arcLine pts s xs l)).length > 0 := by
      refine List.length_pos_of_mem (a := xs.map (par (pts (s.og a)) l)) ?_
      simp only [List.mem_filterMap, arcLine_real]
      exact ⟨a, harcs.mem_iff.mpr ha, by rw [if_neg hal.ne']⟩
    unfold plotArcs
    simp only [hl, Option.getD_some]
    rw [if_pos hne]
    rfl
  · refine ⟨_, [], ?_, Or.inl ⟨?_, rfl⟩, hS, hsingle⟩
    · have hne : arcs.filterMap (arcLine pts s xs l) = [] := by
        rw [List.filterMap_eq_nil_iff]
        intro a ha
        have han := hnm a (harcs.mem_iff.mp ha)
        rw [arcLine_real, if_pos]
        by_contra hcon
        exact hup ⟨_, han, lt_of_le_of_ne (hlow _ han) (Ne.symm hcon)⟩
      unfold plotArcs
      simp only [hl, Option.getD_some]
      rw [hne]
      simp
    · rintro _ ⟨p, hp, rfl⟩
      by_contra hcon
      exact hup ⟨p, hp, lt_of_le_of_ne (hlow p hp) (Ne.symm hcon)⟩

/-! ### labels -/

theorem lines_all {xs : List ℝ} {arcs : List Nat} (hno : ∀ a ∈ arcs, (pts (s.og a)).2 ≠ l) :
    arcs.filterMap (arcLine pts s xs l) = arcs.map fun a => xs.map (par (pts (s.og a)) l) := by
  rw [← List.filterMap_eq_map]
  refine List.filterMap_congr fun a ha => ?_
  rw [arcLine_real, if_neg (hno a ha)]
  rfl

theorem column_all {xs : List ℝ} {arcs : List Nat} (hno : ∀ a ∈ arcs, (pts (s.og a)).2 ≠ l) {i : Nat} {x : ℝ} (hx : xs[i]? = some x) :
    (arcs.filterMap (arcLine pts s xs l)).filterMap (·[i]?) = arcs.map fun a => par (pts (s.og a)) l x := by
  rw [lines_all hno, List.filterMap_map, ← List.filterMap_eq_map]
  refine List.filterMap_congr fun a _ => ?_
  simp [hx]

/-- The index of the lowest line at a sample is that of an arc that is lowest there. -/
theorem lowest_index (hd : Distinct pts n) (hq : q.Spec evLt ok) (h : Reach pts q n poly s) (hl : s.sweep = some l) {arcs : List Nat}
    (harcs : arcs ~ s.arcSet) {xs : List ℝ} (hno : ∀ p ∈ Met pts s, p.2 ≠ l) (hup : ∃ p, (s.names p).isSome ∧ l < (pts p).2)
    {i : Nat} {x : ℝ} (hx : xs[i]? = some x) :
    ∃ k a, (lowestAt (arcs.filterMap (arcLine pts s xs l)) xs.length)[i]? = some (some k) ∧ arcs[k]? = some a ∧
      LowestAt (Met pts s) l (pts (s.og a)) x := by
  obtain ⟨hnm, _, _, hlow, hmin⟩ := lowest_arc hd hq h hl
  have hno' : ∀ a ∈ arcs, (pts (s.og a)).2 ≠ l := fun a ha => hno _ ⟨_, hnm a (harcs.mem_iff.mp ha), rfl⟩
  obtain ⟨a0, ha0, hal0, hamin⟩ := hmin hup x
  have ha0' : a0 ∈ arcs := harcs.mem_iff.mpr ha0
  have hcol := column_all hno' hx
  obtain ⟨k, y, h1, h2, h3⟩ := argmin_spec (l := arcs.map fun a => par (pts (s.og a)) l x) (by
    intro hh
    rw [List.map_eq_nil_iff] at hh
    rw [hh] at ha0'
    simp at ha0')
  rw [List.getElem?_map] at h2
  cases hk : arcs[k]? with
  | none => rw [hk] at h2; cases h2
  | some a =>
    rw [hk] at h2
    have hy : par (pts (s.og a)) l x = y := by simpa using h2
    have ham : a ∈ arcs := List.mem_of_getElem? hk
    have han := hnm a (harcs.mem_iff.mp ham)
    have hal : l < (pts (s.og a)).2 := lt_of_le_of_ne (hlow _ han) (Ne.symm (hno' a ham))
    refine ⟨k, a, ?_, hk, y, (onParabola_iff hal).mpr hy.symm, ?_⟩
    · have hi : i < xs.length := (List.getElem?_eq_some_iff.mp hx).1
      unfold lowestAt
      rw [List.getElem?_map, List.getElem?_range hi]
      simp only [Option.map_some]
      rw [hcol, h1]
    · rintro _ ⟨p, hp, rfl⟩ y' hy'
      have hpl : l < (pts p).2 := lt_of_le_of_ne (hlow p hp) (Ne.symm (hno _ ⟨p, hp, rfl⟩))
      rw [onParabola_iff hpl] at hy'
      rw [hy']
      exact (h3 _ (List.mem_map.mpr ⟨a0, ha0', rfl⟩)).trans (hamin p hp hpl)

/-- C77: when no site is on the sweep line, the labels of the arcs are right: each stands on the parabola of the site it names, at the
median of samples at which this site is lowest; no site has two labels; and at each sample a lowest site has a label. -/
theorem C77_labels (hd : Distinct pts n) (hq : q.Spec evLt ok) (h : Reach pts q n poly s) (hl : s.sweep = some l) {arcs : List Nat}
    (harcs : arcs ~ s.arcSet) (cv : Canvas ℝ) (med : List ℝ → ℝ) (xs : List ℝ) (showArcs : Bool) (hno : ∀ p ∈ Met pts s, p.2 ≠ l)
    (hmet : ∃ p, (s.names p).isSome) :
    ∃ rest texts, plotArcs pts cv s med xs arcs showArcs false = .ok rest ∧ plotArcs pts cv s med xs arcs showArcs true = .ok (rest ++ texts) ∧
      (∀ d ∈ texts, ∃ p x y sel, (s.names p).isSome ∧ d = .text x (some (.fin y)) (.arc (s.names p)) ∧ OnParabola (pts p) l (x, y) ∧
        x = med sel ∧ ∀ x' ∈ sel, x' ∈ xs ∧ LowestAt (Met pts s) l (pts p) x' ∧ ∀ y', OnParabola (pts p) l (x', y') → y' < cv.maxY) ∧
      (∀ x' ∈ xs, ∃ p x y, (s.names p).isSome ∧ LowestAt (Met pts s) l (pts p) x' ∧ .text x y (.arc (s.names p)) ∈ texts) ∧
      texts.Pairwise fun d d' => ∀ x y t x' y' t', d = .text x y t → d' = .text x' y' t' → t ≠ t' := by
  obtain ⟨hnm, hinj, hnd, hlow, hmin⟩ := lowest_arc hd hq h hl
  obtain ⟨p0, hp0⟩ := hmet
  have hup : ∃ p, (s.names p).isSome ∧ l < (pts p).2 := ⟨p0, hp0, lt_of_le_of_ne (hlow p0 hp0) (Ne.symm (hno _ ⟨p0, hp0, rfl⟩))⟩
  have hno' : ∀ a ∈ arcs, (pts (s.og a)).2 ≠ l := fun a ha => hno _ ⟨_, hnm a (harcs.mem_iff.mp ha), rfl⟩
  set lines := arcs.filterMap (arcLine pts s xs l) with hlines
  have hlen : lines.length = arcs.length := by rw [hlines, lines_all hno']; simp
  obtain ⟨a0, ha0, _⟩ := hmin hup 0
  have hpos : lines.length > 0 := by rw [hlen]; exact List.length_pos_of_mem (harcs.mem_iff.mpr ha0)
  set low := lowestAt lines xs.length with hlow'
  let sel : Nat → List ℝ := fun k => (List.range xs.length).filterMap fun i =>
    if low[i]? = some (some k) ∧ (∃ y ∈ bottomAt lines i, y < cv.maxY) then xs[i]? else none
  let g : Nat → List (Draw ℝ) := fun k => if some k ∈ low then
      match arcs[k]? with
      | none => []
      | some a => [.text (med (sel k)) (some (.fin (par (pts (s.og a)) l (med (sel k))))) (.arc (s.names (s.og a)))]
    else []
  have hlab : plotArcLabels pts cv s med xs lines l arcs = .ok ((List.range lines.length).flatMap g) := by
    unfold plotArcLabels
    refine drawEach_ok g _ fun k hk => ?_
    rw [List.mem_range, hlen] at hk
    have hka : arcs[k]? = some arcs[k] := List.getElem?_eq_getElem hk
    simp only [g]
    by_cases hin : some k ∈ low
    · rw [if_pos hin, if_pos hin]
      simp only [hka]
      have hne := hno' arcs[k] (List.getElem_mem hk)
      rw [show Arith.toF l = l from rfl, arcPlot_real, if_neg hne]
      rfl
    · rw [if_neg hin, if_neg hin]
  have hsel : ∀ k, ∀ x' ∈ sel k, ∃ i, xs[i]? = some x' ∧ low[i]? = some (some k) ∧ ∃ y ∈ bottomAt lines i, y < cv.maxY := by
    intro k x' hx'
    simp only [sel, List.mem_filterMap] at hx'
    obtain ⟨i, _, hi⟩ := hx'
    split at hi
    · next hc => exact ⟨i, hi, hc.1, hc.2⟩
    · cases hi
  have hg : ∀ k d, d ∈ g k → ∃ a, arcs[k]? = some a ∧
      d = .text (med (sel k)) (some (.fin (par (pts (s.og a)) l (med (sel k))))) (.arc (s.names (s.og a))) := by
    intro k d hdk
    simp only [g] at hdk
    split at hdk
    · split at hdk
      · simp at hdk
      · next a ha => exact ⟨a, ha, by simpa using hdk⟩
    · simp at hdk
  have hlt : ∀ a ∈ arcs, l < (pts (s.og a)).2 := fun a ha =>
    lt_of_le_of_ne (hlow _ (hnm a (harcs.mem_iff.mp ha))) (Ne.symm (hno' a ha))
  obtain ⟨L, hI⟩ := reach_inv hq h
  refine ⟨(if showArcs then arcs.flatMap (plotArc pts s xs l) else []) ++ [.curve (beachOf xs lines) .beachLine],
    (List.range lines.length).flatMap g, ?_, ?_, ?_, ?_, ?_⟩
  · unfold plotArcs
    simp only [hl, Option.getD_some]
    rw [if_pos hpos]
    rfl
  · unfold plotArcs
    simp only [hl, Option.getD_some]
    rw [if_pos hpos, if_pos trivial]
    change (plotArcLabels pts cv s med xs lines l arcs >>= _) = _
    rw [hlab]
    show Except.ok (_ ++ _) = Except.ok _
    simp [lines]
  · intro d hdm
    obtain ⟨k, _, hdk⟩ := List.mem_flatMap.mp hdm
    obtain ⟨a, ha, rfl⟩ := hg k d hdk
    have ham := List.mem_of_getElem? ha
    refine ⟨s.og a, _, _, sel k, hnm a (harcs.mem_iff.mp ham), rfl, (onParabola_iff (hlt a ham)).mpr rfl, rfl, ?_⟩
    intro x' hx'
    obtain ⟨i, hi, hk, y, hy, hyc⟩ := hsel k x' hx'
    obtain ⟨k', a', hk', ha', hL⟩ := lowest_index hd hq h hl harcs hno hup hi
    have : k' = k := by
      have hk2 : low[i]? = some (some k') := hk'
      rw [hk] at hk2
      simpa using hk2.symm
    subst this
    rw [ha] at ha'
    cases ha'
    refine ⟨List.mem_of_getElem? hi, hL, ?_⟩
    intro y' hy'
    rw [onParabola_iff (hlt a ham)] at hy'
    have hbot : y = par (pts (s.og a)) l x' := by
      obtain ⟨m, hm, hmin'⟩ := hL
      rw [onParabola_iff (hlt a ham)] at hm
      rcases listMin_spec (lines.filterMap (·[i]?)) with ⟨_, h1⟩ | ⟨m', hm', h1, h2⟩
      · rw [bottomAt, h1] at hy; cases hy
      · rw [bottomAt, h1] at hy
        simp only [Option.mem_def, Option.some.injEq] at hy
        subst hy
        refine le_antisymm (h2 _ ((column hi _).mpr ⟨a, ham, hno' a ham, rfl⟩)) ?_
        obtain ⟨b, hb, _, rfl⟩ := (column hi _).mp hm'
        rw [← hm]
        exact hmin' _ ⟨_, hnm b (harcs.mem_iff.mp hb), rfl⟩ _ ((onParabola_iff (hlt b hb)).mpr rfl)
    rw [hy', ← hbot]
    exact hyc
  · intro x' hx'
    obtain ⟨i, hi⟩ := List.mem_iff_getElem?.mp hx'
    obtain ⟨k, a, hk, ha, hL⟩ := lowest_index hd hq h hl harcs hno hup hi
    have hka := (List.getElem?_eq_some_iff.mp ha).1
    refine ⟨s.og a, med (sel k), some (.fin (par (pts (s.og a)) l (med (sel k)))), hnm a (harcs.mem_iff.mp (List.mem_of_getElem? ha)), hL,
      List.mem_flatMap.mpr ⟨k, by rw [List.mem_range]; omega, ?_⟩⟩
    have hin : some k ∈ low := List.mem_of_getElem? hk
    simp only [g, if_pos hin, ha, List.mem_singleton]
  · rw [List.pairwise_flatMap]
    constructor
    · intro k _
      simp only [g]
      split
      · split <;> simp
      · simp
    · refine List.nodup_range.imp_of_mem ?_
      intro k k' _ _ hkk d hd1 d' hd2 x y t x' y' t' e1 e2 htt
      obtain ⟨a, ha, rfl⟩ := hg k d hd1
      obtain ⟨a', ha', rfl⟩ := hg k' d' hd2
      simp only [Draw.text.injEq] at e1 e2
      have hn : s.names (s.og a) = s.names (s.og a') := by
        have := e1.2.2.trans (htt.trans e2.2.2.symm)
        simpa using this
      have ham := harcs.mem_iff.mp (List.mem_of_getElem? ha)
      have ham' := harcs.mem_iff.mp (List.mem_of_getElem? ha')
      obtain ⟨v, hv⟩ := Option.isSome_iff_exists.mp (hnm a ham)
      have hoo := hI.sinv.nmInj _ _ v hv (hn ▸ hv)
      have haa := hinj a ham a' ham' hoo
      subst haa
      have hnd' : arcs.Nodup := harcs.nodup_iff.mpr hnd
      obtain ⟨u1, u2⟩ := List.getElem?_eq_some_iff.mp ha
      obtain ⟨u3, u4⟩ := List.getElem?_eq_some_iff.mp ha'
      exact hkk ((List.Nodup.getElem_inj_iff hnd').mp (u2.trans u4.symm))

end Foronoi
