import Verif.Proof.TreeRep

/-!
# Rotations and rebalancing keep the in-order sequence
-/

namespace Foronoi

variable {D : Type} {E : Err → Prop}

/-- Only pointers and heights changed: same counter and same data everywhere. -/
def DataSame (s s' : NS D) : Prop := s'.cnt = s.cnt ∧ ∀ i, (s'.n i).data = (s.n i).data

theorem DataSame.refl (s : NS D) : DataSame s s := ⟨rfl, fun _ => rfl⟩

theorem DataSame.trans {s t u : NS D} (h : DataSame s t) (h' : DataSame t u) : DataSame s u :=
  ⟨h'.1.trans h.1, fun i => (h'.2 i).trans (h.2 i)⟩

theorem SameS.data {s s' : NS D} (h : SameS s s') : DataSame s s' := ⟨h.1, fun i => (h.2 i).1⟩

@[simp] theorem wp_setLeft (i c : Nat) (s : NS D) (Q : Unit → NS D → Prop) :
    Wp E (setLeft i (some c)) s Q ↔
      Q () ⟨Function.update (Function.update s.n c { s.n c with parent := some i }) i
        { (Function.update s.n c { s.n c with parent := some i } i) with left := some c }, s.cnt⟩ := Iff.rfl

@[simp] theorem wp_setRight (i c : Nat) (s : NS D) (Q : Unit → NS D → Prop) :
    Wp E (setRight i (some c)) s Q ↔
      Q () ⟨Function.update (Function.update s.n c { s.n c with parent := some i }) i
        { (Function.update s.n c { s.n c with parent := some i } i) with right := some c }, s.cnt⟩ := Iff.rfl

theorem Repr.parent_eq {n : Nat → NodeR D} {p : Option Nat} {t : T D} (h : Repr n p t) :
    (n t.id).parent = p := by
  cases t <;> simp only [Repr, T.id] at h ⊢ <;> tauto

/-- The pointer part of a rotation at `z` with parent context `c` brings `y` to the hole. -/
def Swung (n n' : Nat → NodeR D) (c : Ctx D) (y : Nat) : Prop :=
  match c with
  | [] => True
  | .L g _ _ :: _ => n' g = { n g with left := some y }
  | .R g _ _ :: _ => n' g = { n g with right := some y }

/-- tree.py:248-256 (shared by both rotations). -/
theorem wp_swing {s : NS D} {c : Ctx D} {z y : Nat}
    (hc : ReprC s.n c z) (hz : (s.n z).parent = ctxPar c)
    (hzc : z ∉ idsL c ∧ z ∉ idsR c) (hyc : y ∉ idsL c ∧ y ∉ idsR c) (hzy : z ≠ y)
    {Q : Unit → NS D → Prop}
    (hQ : ∀ n', (∀ i, i ≠ y → ctxPar c ≠ some i → n' i = s.n i) → n' y = { s.n y with parent := ctxPar c } →
      Swung s.n n' c y → Q () { s with n := n' }) :
    Wp E (swing z y (ctxPar c)) s Q := by
  unfold swing
  cases c with
  | nil =>
    simp only [ctxPar, optDo, wp_bind, wp_updN, wp_pure]
    apply hQ
    · intro i hi _; simp [Function.update_of_ne hi]
    · simp [ctxPar]
    · trivial
  | cons f c =>
    cases f with
    | L g d r =>
      simp only [idsL, idsR, List.cons_append, List.mem_cons, List.mem_append, not_or] at hzc hyc
      obtain ⟨hzl, hzg, hzr, hzr'⟩ := hzc
      obtain ⟨hyl, hyg, hyr, hyr'⟩ := hyc
      simp only [ReprC] at hc
      simp only [ctxPar] at hz
      have hlc : (Function.update s.n y { s.n y with parent := some g } z).parent = some g := by
        rw [Function.update_of_ne hzy]; exact hz
      have hgl : (Function.update s.n y { s.n y with parent := some g } g).left = some z := by
        rw [Function.update_of_ne (Ne.symm hyg)]; exact hc.2.1
      simp only [ctxPar, optDo, wp_bind, wp_updN, isLeftChild, wp_rd, hlc, hgl, wp_pure, beq_self_eq_true, if_true,
        wp_setLeft]
      apply hQ
      · intro i hi hi'
        have : i ≠ g := by rintro rfl; exact hi' rfl
        simp [Function.update_of_ne hi, Function.update_of_ne this]
      · simp [Function.update_of_ne hyg, ctxPar]
      · simp [Swung, Function.update_of_ne (Ne.symm hyg)]
    | R g d l =>
      simp only [idsL, idsR, List.mem_cons, List.mem_append, not_or, List.not_mem_nil, not_false_eq_true,
        and_true] at hzc hyc
      obtain ⟨⟨⟨hzl, hzl'⟩, hzg⟩, hzr⟩ := hzc
      obtain ⟨⟨⟨hyl, hyl'⟩, hyg⟩, hyr⟩ := hyc
      simp only [ReprC] at hc
      simp only [ctxPar] at hz
      have hlc : (Function.update s.n y { s.n y with parent := some g } z).parent = some g := by
        rw [Function.update_of_ne hzy]; exact hz
      have hgl : (Function.update s.n y { s.n y with parent := some g } g).left = some l.id := by
        rw [Function.update_of_ne (Ne.symm hyg)]; exact hc.2.1
      have hne : (some l.id == some z) = false := by
        simp only [beq_eq_false_iff_ne, ne_eq, Option.some.injEq]
        rintro rfl; exact hzl' l.id_mem_ids
      simp only [ctxPar, optDo, wp_bind, wp_updN, isLeftChild, wp_rd, hlc, hgl, wp_pure, hne, Bool.false_eq_true, if_false,
        wp_setRight]
      apply hQ
      · intro i hi hi'
        have : i ≠ g := by rintro rfl; exact hi' rfl
        simp [Function.update_of_ne hi, Function.update_of_ne this]
      · simp [Function.update_of_ne hyg, ctxPar]
      · simp [Swung, Function.update_of_ne (Ne.symm hyg)]

theorem ctxPar_mem {c : Ctx D} {g : Nat} (h : ctxPar c = some g) : g ∈ idsL c ∨ g ∈ idsR c := by
  cases c with
  | nil => simp [ctxPar] at h
  | cons f c => cases f <;> simp_all [ctxPar, idsL, idsR]

/-- The context after a swing represents the new hole. -/
theorem ReprC.swung {n n' : Nat → NodeR D} {c : Ctx D} {z y : Nat} (hc : ReprC n c z)
    (hnd : (idsL c ++ idsR c).Nodup)
    (hsame : ∀ i, (i ∈ idsL c ∨ i ∈ idsR c) → ctxPar c ≠ some i → n' i = n i)
    (hsw : Swung n n' c y) : ReprC n' c y := by
  refine hc.rehole hnd (fun i hi hp => by rw [hsame i hi hp]; exact .refl _) ?_
  cases c with
  | nil => trivial
  | cons f c => cases f <;> simp only [Swung] at hsw <;> simp [hsw]

theorem wp_rotateLeft {s : NS D} {c : Ctx D} {z y : Nat} {dz dy : D} {a b e : T D}
    (hr : Repr s.n none (plug c (.node z dz a (.node y dy b e))))
    (hnd : (plug c (.node z dz a (.node y dy b e))).ids.Nodup) (hi : HInv s)
    {fuel : Nat} (hf : (plug c (.node z dz a (.node y dy b e))).ids.length ≤ fuel) :
    Wp E (rotateLeft fuel z) s (fun r s' => r = y ∧ DataSame s s' ∧ HInv s' ∧
      Repr s'.n none (plug c (.node y dy (.node z dz a b) e))) := by
  obtain ⟨⟨hzd, hzl, hzr, hzp, hA, hyd, hyl, hyr, hyp, hB, hE⟩, hC⟩ := (repr_plug _ _ _).mp hr
  have hf' : (plug c (.node y dy (.node z dz a b) e)).ids.length ≤ fuel := by
    have : (plug c (.node y dy (.node z dz a b) e)).ids = (plug c (.node z dz a (.node y dy b e))).ids := by
      simp [ids_plug, T.ids]
    rw [this]; exact hf
  have hnd' := hnd
  simp only [ids_plug, T.ids] at hnd
  have hzy : z ≠ y := by grind
  have hza : z ∉ a.ids := by grind
  have hzb : z ∉ b.ids := by grind
  have hze : z ∉ e.ids := by grind
  have hya : y ∉ a.ids := by grind
  have hyb : y ∉ b.ids := by grind
  have hye : y ∉ e.ids := by grind
  have hzc : z ∉ idsL c ∧ z ∉ idsR c := by grind
  have hyc : y ∉ idsL c ∧ y ∉ idsR c := by grind
  have hbc : b.id ∉ idsL c ∧ b.id ∉ idsR c := by have := b.id_mem_ids; grind
  have hba : b.id ∉ a.ids := by have := b.id_mem_ids; grind
  have hbe : b.id ∉ e.ids := by have := b.id_mem_ids; grind
  have hbz : b.id ≠ z := by rintro h; exact hzb (h ▸ b.id_mem_ids)
  have hby : b.id ≠ y := by rintro h; exact hyb (h ▸ b.id_mem_ids)
  have hndC : (idsL c ++ idsR c).Nodup := by grind
  have hndB : b.ids.Nodup := by grind
  have hac : ∀ i ∈ a.ids, i ∉ idsL c ∧ i ∉ idsR c := by grind
  have hbc' : ∀ i ∈ b.ids, i ∉ idsL c ∧ i ∉ idsR c := by grind
  have hec : ∀ i ∈ e.ids, i ∉ idsL c ∧ i ∉ idsR c := by grind
  have hpc : ∀ i, i ∉ idsL c ∧ i ∉ idsR c → ctxPar c ≠ some i := by
    intro i h h'; rcases ctxPar_mem h' with h'' | h'' <;> tauto
  simp only [T.id] at hzr hC
  unfold rotateLeft
  simp only [wp_bind, wp_rd, wp_deref, hzr, Option.some.injEq, exists_eq_left', reduceCtorEq, false_and, or_false,
    hyl, hzp]
  refine wp_swing hC hzp hzc hyc hzy ?_
  intro n' hn1 hn2 hsw
  simp only [wp_setLeft, wp_setRight]
  -- the final pointer store
  generalize hN : Function.update (Function.update (Function.update (Function.update n' z _) y _) b.id _) z _ = N
  have hNz : N z = { s.n z with parent := some y, right := some b.id } := by
    rw [← hN]; simp [Function.update_apply, hzy, Ne.symm hbz, hn1 z hzy (hpc z hzc)]
  have hNy : N y = { s.n y with parent := ctxPar c, left := some z } := by
    rw [← hN]; simp [Function.update_apply, Ne.symm hzy, Ne.symm hby, hn2]
  have hNb : N b.id = { s.n b.id with parent := some z } := by
    rw [← hN]; simp [Function.update_apply, hbz, hby, hn1 b.id hby (hpc _ hbc)]
  have hNo : ∀ i, i ≠ z → i ≠ y → i ≠ b.id → N i = n' i := by
    intro i h1 h2 h3; rw [← hN]; simp [Function.update_apply, h1, h2, h3]
  clear hN
  have hNc : ∀ i, (i ∈ idsL c ∨ i ∈ idsR c) → N i = n' i := by
    intro i h
    refine hNo i ?_ ?_ ?_ <;> rintro rfl <;> tauto
  have hd : ∀ i, (N i).data = (s.n i).data := by
    intro i
    by_cases h1 : i = z
    · rw [h1, hNz]
    by_cases h2 : i = y
    · rw [h2, hNy]
    by_cases h3 : i = b.id
    · rw [h3, hNb]
    rw [hNo i h1 h2 h3]
    by_cases h4 : ctxPar c = some i
    · cases c with
      | nil => simp [ctxPar] at h4
      | cons f c => cases f <;> simp only [ctxPar, Option.some.injEq, Swung] at h4 hsw <;> subst h4 <;> rw [hsw]
    · rw [hn1 i h2 h4]
  have hA' : Repr N (some z) a := hA.congr fun i h => by
    rw [hNo i (by rintro rfl; tauto) (by rintro rfl; tauto) (by rintro rfl; tauto),
      hn1 i (by rintro rfl; tauto) (hpc i (hac i h))]
    exact .refl _
  have hE' : Repr N (some y) e := hE.congr fun i h => by
    rw [hNo i (by rintro rfl; tauto) (by rintro rfl; tauto) (by rintro rfl; tauto),
      hn1 i (by rintro rfl; tauto) (hpc i (hec i h))]
    exact .refl _
  have hB' : Repr N (some z) b := hB.reparent hndB (fun i h hne => by
    rw [hNo i (by rintro rfl; tauto) (by rintro rfl; tauto) hne,
      hn1 i (by rintro rfl; tauto) (hpc i (hbc' i h))]
    exact .refl _) (by rw [hNb]; simp)
  have hC' : ReprC N c y := (hC.swung hndC (n' := n') (y := y)
      (fun i h hp => hn1 i (by rintro rfl; tauto) hp) hsw).congr (fun i h => by rw [hNc i h]; exact .refl _)
  have hfull : Repr N none (plug c (.node y dy (.node z dz a b) e)) := by
    rw [repr_plug]
    refine ⟨⟨?_, ?_, ?_, ?_, ⟨?_, ?_, ?_, ?_, hA', hB'⟩, hE'⟩, hC'⟩
    all_goals simp [hNy, hNz, hyd, hyr, hzd, hzl, T.id]
  have hdepth := depth_plug c (.node y dy (.node z dz a b) e)
  have hlen := (plug c (.node y dy (.node z dz a b) e)).depth_le_length
  simp only [T.depth] at hdepth
  have hiN : HInv ⟨N, s.cnt⟩ := by
    intro i
    by_cases h1 : i = z
    · subst h1
      have := hi i
      simpa [HOk, hNz, hzl, hzr] using this
    by_cases h2 : i = y
    · subst h2
      have := hi i
      simpa [HOk, hNy, hyl, hyr] using this
    by_cases h3 : i = b.id
    · subst h3
      have := hi b.id
      simp only [HOk, hNb] at this ⊢
      exact this
    simp only [hNo i h1 h2 h3]
    by_cases h4 : ctxPar c = some i
    · cases c with
      | nil => simp [ctxPar] at h4
      | cons f c =>
        have := hi i
        cases f with
        | L g d r =>
          simp only [ctxPar, Option.some.injEq] at h4; subst h4
          simp only [Swung] at hsw
          simp only [ReprC] at hC
          simpa [HOk, hsw, hC.2.1, hC.2.2.1] using this
        | R g d l =>
          simp only [ctxPar, Option.some.injEq] at h4; subst h4
          simp only [Swung] at hsw
          simp only [ReprC] at hC
          simpa [HOk, hsw, hC.2.1, hC.2.2.1] using this
    · rw [hn1 i h2 h4]; exact hi i
  refine wp_mono (wp_updateHeight_node (s := ⟨N, s.cnt⟩) (l := a) (r := b) (by simp [hNz, hzl]) (by simp [hNz]) hA' hB'
    hiN (by omega) (by omega)) ?_
  rintro _ s1 ⟨hs1, hi1⟩
  have hrz : Repr s1.n (some y) (.node z dz a b) := by
    have := ((repr_plug _ _ _).mp hfull).1
    have h : Repr N (some y) (.node z dz a b) := this.2.2.2.2.1
    exact Repr.same (s := ⟨N, s.cnt⟩) h hs1
  refine wp_mono (wp_updateHeight_node (s := s1) (l := .node z dz a b) (r := e)
    (by rw [(hs1.2 y).2.1]; simp [hNy, T.id]) (by rw [(hs1.2 y).2.2.1]; simp [hNy, hyr])
    hrz (hE'.same (s := ⟨N, s.cnt⟩) hs1) hi1 (by simp only [T.depth]; omega) (by omega)) ?_
  rintro _ s2 ⟨hs2, hi2⟩
  have hs := hs1.trans hs2
  exact ⟨rfl, ⟨hs.1, fun i => ((hs.2 i).1).trans (hd i)⟩, hi2, hfull.same (s := ⟨N, s.cnt⟩) hs⟩

theorem wp_rotateRight {s : NS D} {c : Ctx D} {z y : Nat} {dz dy : D} {a b e : T D}
    (hr : Repr s.n none (plug c (.node z dz (.node y dy e b) a)))
    (hnd : (plug c (.node z dz (.node y dy e b) a)).ids.Nodup) (hi : HInv s)
    {fuel : Nat} (hf : (plug c (.node z dz (.node y dy e b) a)).ids.length ≤ fuel) :
    Wp E (rotateRight fuel z) s (fun r s' => r = y ∧ DataSame s s' ∧ HInv s' ∧
      Repr s'.n none (plug c (.node y dy e (.node z dz b a)))) := by
  obtain ⟨⟨hzd, hzl, hzr, hzp, ⟨hyd, hyl, hyr, hyp, hE, hB⟩, hA⟩, hC⟩ := (repr_plug _ _ _).mp hr
  have hf' : (plug c (.node y dy e (.node z dz b a))).ids.length ≤ fuel := by
    have : (plug c (.node y dy e (.node z dz b a))).ids = (plug c (.node z dz (.node y dy e b) a)).ids := by
      simp [ids_plug, T.ids]
    rw [this]; exact hf
  have hnd' := hnd
  simp only [ids_plug, T.ids] at hnd
  have hzy : z ≠ y := by grind
  have hza : z ∉ a.ids := by grind
  have hzb : z ∉ b.ids := by grind
  have hze : z ∉ e.ids := by grind
  have hya : y ∉ a.ids := by grind
  have hyb : y ∉ b.ids := by grind
  have hye : y ∉ e.ids := by grind
  have hzc : z ∉ idsL c ∧ z ∉ idsR c := by grind
  have hyc : y ∉ idsL c ∧ y ∉ idsR c := by grind
  have hbc : b.id ∉ idsL c ∧ b.id ∉ idsR c := by have := b.id_mem_ids; grind
  have hba : b.id ∉ a.ids := by have := b.id_mem_ids; grind
  have hbe : b.id ∉ e.ids := by have := b.id_mem_ids; grind
  have hbz : b.id ≠ z := by rintro h; exact hzb (h ▸ b.id_mem_ids)
  have hby : b.id ≠ y := by rintro h; exact hyb (h ▸ b.id_mem_ids)
  have hndC : (idsL c ++ idsR c).Nodup := by grind
  have hndB : b.ids.Nodup := by grind
  have hac : ∀ i ∈ a.ids, i ∉ idsL c ∧ i ∉ idsR c := by grind
  have hbc' : ∀ i ∈ b.ids, i ∉ idsL c ∧ i ∉ idsR c := by grind
  have hec : ∀ i ∈ e.ids, i ∉ idsL c ∧ i ∉ idsR c := by grind
  have hpc : ∀ i, i ∉ idsL c ∧ i ∉ idsR c → ctxPar c ≠ some i := by
    intro i h h'; rcases ctxPar_mem h' with h'' | h'' <;> tauto
  simp only [T.id] at hzl hC
  unfold rotateRight
  simp only [wp_bind, wp_rd, wp_deref, hzl, Option.some.injEq, exists_eq_left', reduceCtorEq, false_and, or_false,
    hyr, hzp]
  refine wp_swing hC hzp hzc hyc hzy ?_
  intro n' hn1 hn2 hsw
  simp only [wp_setLeft, wp_setRight]
  -- the final pointer store
  generalize hN : Function.update (Function.update (Function.update (Function.update n' z _) y _) b.id _) z _ = N
  have hNz : N z = { s.n z with parent := some y, left := some b.id } := by
    rw [← hN]; simp [Function.update_apply, hzy, Ne.symm hbz, hn1 z hzy (hpc z hzc)]
  have hNy : N y = { s.n y with parent := ctxPar c, right := some z } := by
    rw [← hN]; simp [Function.update_apply, Ne.symm hzy, Ne.symm hby, hn2]
  have hNb : N b.id = { s.n b.id with parent := some z } := by
    rw [← hN]; simp [Function.update_apply, hbz, hby, hn1 b.id hby (hpc _ hbc)]
  have hNo : ∀ i, i ≠ z → i ≠ y → i ≠ b.id → N i = n' i := by
    intro i h1 h2 h3; rw [← hN]; simp [Function.update_apply, h1, h2, h3]
  clear hN
  have hNc : ∀ i, (i ∈ idsL c ∨ i ∈ idsR c) → N i = n' i := by
    intro i h
    refine hNo i ?_ ?_ ?_ <;> rintro rfl <;> tauto
  have hd : ∀ i, (N i).data = (s.n i).data := by
    intro i
    by_cases h1 : i = z
    · rw [h1, hNz]
    by_cases h2 : i = y
    · rw [h2, hNy]
    by_cases h3 : i = b.id
    · rw [h3, hNb]
    rw [hNo i h1 h2 h3]
    by_cases h4 : ctxPar c = some i
    · cases c with
      | nil => simp [ctxPar] at h4
      | cons f c => cases f <;> simp only [ctxPar, Option.some.injEq, Swung] at h4 hsw <;> subst h4 <;> rw [hsw]
    · rw [hn1 i h2 h4]
  have hA' : Repr N (some z) a := hA.congr fun i h => by
    rw [hNo i (by rintro rfl; tauto) (by rintro rfl; tauto) (by rintro rfl; tauto),
      hn1 i (by rintro rfl; tauto) (hpc i (hac i h))]
    exact .refl _
  have hE' : Repr N (some y) e := hE.congr fun i h => by
    rw [hNo i (by rintro rfl; tauto) (by rintro rfl; tauto) (by rintro rfl; tauto),
      hn1 i (by rintro rfl; tauto) (hpc i (hec i h))]
    exact .refl _
  have hB' : Repr N (some z) b := hB.reparent hndB (fun i h hne => by
    rw [hNo i (by rintro rfl; tauto) (by rintro rfl; tauto) hne,
      hn1 i (by rintro rfl; tauto) (hpc i (hbc' i h))]
    exact .refl _) (by rw [hNb]; simp)
  have hC' : ReprC N c y := (hC.swung hndC (n' := n') (y := y)
      (fun i h hp => hn1 i (by rintro rfl; tauto) hp) hsw).congr (fun i h => by rw [hNc i h]; exact .refl _)
  have hfull : Repr N none (plug c (.node y dy e (.node z dz b a))) := by
    rw [repr_plug]
    refine ⟨⟨?_, ?_, ?_, ?_, hE', ⟨?_, ?_, ?_, ?_, hB', hA'⟩⟩, hC'⟩
    all_goals simp [hNy, hNz, hyd, hyl, hzd, hzr, T.id]
  have hdepth := depth_plug c (.node y dy e (.node z dz b a))
  have hlen := (plug c (.node y dy e (.node z dz b a))).depth_le_length
  simp only [T.depth] at hdepth
  have hiN : HInv ⟨N, s.cnt⟩ := by
    intro i
    by_cases h1 : i = z
    · subst h1
      have := hi i
      simpa [HOk, hNz, hzl, hzr] using this
    by_cases h2 : i = y
    · subst h2
      have := hi i
      simpa [HOk, hNy, hyl, hyr] using this
    by_cases h3 : i = b.id
    · subst h3
      have := hi b.id
      simp only [HOk, hNb] at this ⊢
      exact this
    simp only [hNo i h1 h2 h3]
    by_cases h4 : ctxPar c = some i
    · cases c with
      | nil => simp [ctxPar] at h4
      | cons f c =>
        have := hi i
        cases f with
        | L g d r =>
          simp only [ctxPar, Option.some.injEq] at h4; subst h4
          simp only [Swung] at hsw
          simp only [ReprC] at hC
          simpa [HOk, hsw, hC.2.1, hC.2.2.1] using this
        | R g d l =>
          simp only [ctxPar, Option.some.injEq] at h4; subst h4
          simp only [Swung] at hsw
          simp only [ReprC] at hC
          simpa [HOk, hsw, hC.2.1, hC.2.2.1] using this
    · rw [hn1 i h2 h4]; exact hi i
  refine wp_mono (wp_updateHeight_node (s := ⟨N, s.cnt⟩) (l := b) (r := a) (by simp [hNz]) (by simp [hNz, hzr]) hB' hA'
    hiN (by omega) (by omega)) ?_
  rintro _ s1 ⟨hs1, hi1⟩
  have hrz : Repr s1.n (some y) (.node z dz b a) := by
    have := ((repr_plug _ _ _).mp hfull).1
    have h : Repr N (some y) (.node z dz b a) := this.2.2.2.2.2
    exact Repr.same (s := ⟨N, s.cnt⟩) h hs1
  refine wp_mono (wp_updateHeight_node (s := s1) (l := e) (r := .node z dz b a)
    (by rw [(hs1.2 y).2.1]; simp [hNy, hyl]) (by rw [(hs1.2 y).2.2.1]; simp [hNy, T.id])
    (hE'.same (s := ⟨N, s.cnt⟩) hs1) hrz hi1 (by omega) (by simp only [T.depth]; omega)) ?_
  rintro _ s2 ⟨hs2, hi2⟩
  have hs := hs1.trans hs2
  exact ⟨rfl, ⟨hs.1, fun i => ((hs.2 i).1).trans (hd i)⟩, hi2, hfull.same (s := ⟨N, s.cnt⟩) hs⟩


/-- The postcondition of rebalancing actions at the subtree `t` in context `c`: the result is the root
of a tree with the same in-order sequence. -/
def Rebal (s : NS D) (c : Ctx D) (t : T D) (r : Nat) (s' : NS D) : Prop :=
  ∃ t' : T D, r = t'.id ∧ t'.io = t.io ∧ DataSame s s' ∧ HInv s' ∧ Repr s'.n none (plug c t')

theorem ids_of_io {t t' : T D} (h : t'.io = t.io) : t'.ids = t.ids := by
  rw [T.ids_eq, T.ids_eq, h]

theorem ids_plug_of_io {c : Ctx D} {t t' : T D} (h : t'.io = t.io) : (plug c t').ids = (plug c t).ids := by
  rw [ids_plug, ids_plug, ids_of_io h]

/-- Writing pointers that are already there changes nothing. -/
theorem wp_setLeft_noop {s : NS D} {i c : Nat} {Q : Unit → NS D → Prop}
    (h1 : (s.n c).parent = some i) (h2 : (s.n i).left = some c) (hQ : Q () s) :
    Wp E (setLeft i (some c)) s Q := by
  rw [wp_setLeft]
  have e1 : ({ s.n c with parent := some i } : NodeR D) = s.n c := by rw [← h1]
  have e2 : Function.update s.n c (s.n c) = s.n := Function.update_eq_self _ _
  have e3 : ({ s.n i with left := some c } : NodeR D) = s.n i := by rw [← h2]
  simp only [e1, e2, e3, Function.update_eq_self]
  exact hQ

theorem wp_setRight_noop {s : NS D} {i c : Nat} {Q : Unit → NS D → Prop}
    (h1 : (s.n c).parent = some i) (h2 : (s.n i).right = some c) (hQ : Q () s) :
    Wp E (setRight i (some c)) s Q := by
  rw [wp_setRight]
  have e1 : ({ s.n c with parent := some i } : NodeR D) = s.n c := by rw [← h1]
  have e2 : Function.update s.n c (s.n c) = s.n := Function.update_eq_self _ _
  have e3 : ({ s.n i with right := some c } : NodeR D) = s.n i := by rw [← h2]
  simp only [e1, e2, e3, Function.update_eq_self]
  exact hQ

theorem wp_rotateLR {s : NS D} {c : Ctx D} {z y x : Nat} {dz dy dx : D} {a b e f : T D}
    (hr : Repr s.n none (plug c (.node z dz (.node y dy a (.node x dx b e)) f)))
    (hnd : (plug c (.node z dz (.node y dy a (.node x dx b e)) f)).ids.Nodup) (hi : HInv s)
    {fuel : Nat} (hf : (plug c (.node z dz (.node y dy a (.node x dx b e)) f)).ids.length ≤ fuel) :
    Wp E (rotateLR fuel z) s (Rebal s c (.node z dz (.node y dy a (.node x dx b e)) f)) := by
  have h := ((repr_plug _ _ _).mp hr).1
  simp only [Repr, T.id] at h
  unfold rotateLR
  simp only [wp_bind, wp_rd, wp_deref, h.2.1, Option.some.injEq, exists_eq_left', reduceCtorEq, false_and, or_false]
  refine wp_mono (wp_rotateLeft (c := .L z dz f :: c) (z := y) (y := x) (dz := dy) (dy := dx) (a := a) (b := b) (e := e)
    hr hnd hi hf) ?_
  rintro r s1 ⟨rfl, hd1, hi1, hr1⟩
  have hr1' := ((repr_plug _ _ _).mp hr1)
  simp only [plug] at hr1
  refine wp_setLeft_noop (hr1'.1.parent_eq) (by have := hr1'.2; simp only [ReprC, T.id] at this; exact this.2.1) ?_
  have hio : (T.node z dz (.node r dx (.node y dy a b) e) f).io = (T.node z dz (.node y dy a (.node r dx b e)) f).io := by
    simp [T.io]
  have hids := ids_plug_of_io (c := c) hio
  refine wp_mono (wp_rotateRight (c := c) (z := z) (y := r) (dz := dz) (dy := dx) (a := f) (b := e)
    (e := .node y dy a b) hr1 (by rw [hids]; exact hnd) hi1 (by rw [hids]; exact hf)) ?_
  rintro r' s2 ⟨rfl, hd2, hi2, hr2⟩
  exact ⟨_, rfl, by simp [T.io], hd1.trans hd2, hi2, hr2⟩

theorem wp_rotateRL {s : NS D} {c : Ctx D} {z y x : Nat} {dz dy dx : D} {a b e f : T D}
    (hr : Repr s.n none (plug c (.node z dz f (.node y dy (.node x dx e b) a))))
    (hnd : (plug c (.node z dz f (.node y dy (.node x dx e b) a))).ids.Nodup) (hi : HInv s)
    {fuel : Nat} (hf : (plug c (.node z dz f (.node y dy (.node x dx e b) a))).ids.length ≤ fuel) :
    Wp E (rotateRL fuel z) s (Rebal s c (.node z dz f (.node y dy (.node x dx e b) a))) := by
  have h := ((repr_plug _ _ _).mp hr).1
  simp only [Repr, T.id] at h
  unfold rotateRL
  simp only [wp_bind, wp_rd, wp_deref, h.2.2.1, Option.some.injEq, exists_eq_left', reduceCtorEq, false_and, or_false]
  refine wp_mono (wp_rotateRight (c := .R z dz f :: c) (z := y) (y := x) (dz := dy) (dy := dx) (a := a) (b := b) (e := e)
    hr hnd hi hf) ?_
  rintro r s1 ⟨rfl, hd1, hi1, hr1⟩
  have hr1' := ((repr_plug _ _ _).mp hr1)
  simp only [plug] at hr1
  refine wp_setRight_noop (hr1'.1.parent_eq) (by have := hr1'.2; simp only [ReprC, T.id] at this; exact this.2.2.1) ?_
  have hio : (T.node z dz f (.node r dx e (.node y dy b a))).io = (T.node z dz f (.node y dy (.node r dx e b) a)).io := by
    simp [T.io]
  have hids := ids_plug_of_io (c := c) hio
  refine wp_mono (wp_rotateLeft (c := c) (z := z) (y := r) (dz := dz) (dy := dx) (a := f) (b := e)
    (e := .node y dy b a) hr1 (by rw [hids]; exact hnd) hi1 (by rw [hids]; exact hf)) ?_
  rintro r' s2 ⟨rfl, hd2, hi2, hr2⟩
  exact ⟨_, rfl, by simp [T.io], hd1.trans hd2, hi2, hr2⟩

theorem wp_leftHeavy {s : NS D} {p : Option Nat} {i : Nat} {d : D} {l r : T D} {b : Int} {pr : Int → Bool}
    (hr : Repr s.n p (.node i d l r)) (hi : HInv s)
    {fuel : Nat} (hf : l.depth ≤ fuel) :
    Wp E (leftHeavy fuel i b pr) s (fun res s' => SameS s s' ∧ HInv s' ∧
      (res = true → b > 1 ∧ ∃ lb, pr lb = true ∧ (match l with
        | .leaf _ _ => lb = 0
        | .node _ _ _ lr => lb < 0 → lr.isLeaf = false))) := by
  unfold leftHeavy
  rw [wp_ite]
  constructor
  · intro hb
    simp only [Repr] at hr
    simp only [leftBalance, wp_bind, wp_rd, wp_deref, hr.2.1, Option.some.injEq, exists_eq_left', reduceCtorEq,
      false_and, or_false, wp_pure]
    refine wp_mono (wp_heightO_balance hr.2.2.2.2.1 hi hf) ?_
    rintro lb s1 ⟨hs, hi1, hm⟩
    refine ⟨hs, hi1, fun hp => ⟨hb, lb, hp, ?_⟩⟩
    cases l with
    | leaf => exact hm
    | node => exact hm.2
  · intro hb
    exact ⟨.refl _, hi, by simp⟩

theorem wp_rightHeavy {s : NS D} {p : Option Nat} {i : Nat} {d : D} {l r : T D} {b : Int} {pr : Int → Bool}
    (hr : Repr s.n p (.node i d l r)) (hi : HInv s)
    {fuel : Nat} (hf : r.depth ≤ fuel) :
    Wp E (rightHeavy fuel i b pr) s (fun res s' => SameS s s' ∧ HInv s' ∧
      (res = true → b < -1 ∧ ∃ rb, pr rb = true ∧ (match r with
        | .leaf _ _ => rb = 0
        | .node _ _ rl _ => rb > 0 → rl.isLeaf = false))) := by
  unfold rightHeavy
  rw [wp_ite]
  constructor
  · intro hb
    simp only [Repr] at hr
    simp only [rightBalance, wp_bind, wp_rd, wp_deref, hr.2.2.1, Option.some.injEq, exists_eq_left', reduceCtorEq,
      false_and, or_false, wp_pure]
    refine wp_mono (wp_heightO_balance hr.2.2.2.2.2 hi hf) ?_
    rintro lb s1 ⟨hs, hi1, hm⟩
    refine ⟨hs, hi1, fun hp => ⟨hb, lb, hp, ?_⟩⟩
    cases r with
    | leaf => exact hm
    | node => exact hm.1
  · intro hb
    exact ⟨.refl _, hi, by simp⟩

theorem wp_balance {s : NS D} {c : Ctx D} {t : T D}
    (hr : Repr s.n none (plug c t)) (hnd : (plug c t).ids.Nodup) (hi : HInv s)
    {fuel : Nat} (hf : (plug c t).ids.length ≤ fuel) :
    Wp E (balance fuel t.id) s (Rebal s c t) := by
  have hlen := (plug c t).depth_le_length
  have hdep := depth_plug c t
  unfold balance
  simp only [wp_bind]
  refine wp_mono (wp_heightO_balance ((repr_plug _ _ _).mp hr).1 hi (by omega)) ?_
  rintro b s1 ⟨hs1, hi1, hm⟩
  have hr1 := hr.same hs1
  cases t with
  | leaf i d =>
    simp only at hm
    subst hm
    simp only [leftHeavy, rightHeavy, wp_ite, wp_pure]
    simp only [gt_iff_lt, Int.reduceLT, Int.reduceNeg, IsEmpty.forall_iff, not_false_eq_true, forall_const, true_and,
      Bool.false_eq_true]
    exact ⟨.leaf i d, rfl, rfl, hs1.data, hi1, hr1⟩
  | node z dz l r =>
    simp only at hm
    simp only [T.depth] at hdep
    simp only [T.id]
    refine wp_mono (wp_leftHeavy ((repr_plug _ _ _).mp hr1).1 hi1 (by omega)) ?_
    rintro c1 s2 ⟨hs2, hi2, hm2⟩
    have hr2 := hr1.same hs2
    rw [wp_ite]
    refine ⟨fun hc1 => ?_, fun _ => ?_⟩
    · obtain ⟨hb, lb, hlb, hl⟩ := hm2 hc1
      have := hm.1 (by omega)
      cases l with
      | leaf => simp [T.isLeaf] at this
      | node y dy e b' =>
        refine wp_mono (wp_rotateRight hr2 hnd hi2 hf) ?_
        rintro r' s3 ⟨rfl, hd3, hi3, hr3⟩
        exact ⟨_, rfl, by simp [T.io], (hs1.trans hs2).data.trans hd3, hi3, hr3⟩
    rw [wp_bind]
    refine wp_mono (wp_rightHeavy ((repr_plug _ _ _).mp hr2).1 hi2 (by omega)) ?_
    rintro c2 s3 ⟨hs3, hi3, hm3⟩
    have hr3 := hr2.same hs3
    rw [wp_ite]
    refine ⟨fun hc2 => ?_, fun _ => ?_⟩
    · obtain ⟨hb, lb, hlb, hl⟩ := hm3 hc2
      have := hm.2 (by omega)
      cases r with
      | leaf => simp [T.isLeaf] at this
      | node y dy e b' =>
        refine wp_mono (wp_rotateLeft hr3 hnd hi3 hf) ?_
        rintro r' s4 ⟨rfl, hd4, hi4, hr4⟩
        exact ⟨_, rfl, by simp [T.io], ((hs1.trans hs2).trans hs3).data.trans hd4, hi4, hr4⟩
    rw [wp_bind]
    refine wp_mono (wp_leftHeavy ((repr_plug _ _ _).mp hr3).1 hi3 (by omega)) ?_
    rintro c3 s4 ⟨hs4, hi4, hm4⟩
    have hr4 := hr3.same hs4
    have hs14 := ((hs1.trans hs2).trans hs3).trans hs4
    rw [wp_ite]
    refine ⟨fun hc3 => ?_, fun _ => ?_⟩
    · obtain ⟨hb, lb, hlb, hl⟩ := hm4 hc3
      simp only [decide_eq_true_eq] at hlb
      have := hm.1 (by omega)
      cases l with
      | leaf => simp [T.isLeaf] at this
      | node y dy a lr =>
        have := hl hlb
        cases lr with
        | leaf => simp [T.isLeaf] at this
        | node x dx b' e =>
          refine wp_mono (wp_rotateLR hr4 hnd hi4 hf) ?_
          rintro r' s5 ⟨t', h1, h2, h3, h4, h5⟩
          exact ⟨t', h1, h2, hs14.data.trans h3, h4, h5⟩
    rw [wp_bind]
    refine wp_mono (wp_rightHeavy ((repr_plug _ _ _).mp hr4).1 hi4 (by omega)) ?_
    rintro c4 s5 ⟨hs5, hi5, hm5⟩
    have hr5 := hr4.same hs5
    have hs15 := hs14.trans hs5
    rw [wp_ite]
    refine ⟨fun hc4 => ?_, fun _ => ?_⟩
    · obtain ⟨hb, lb, hlb, hl⟩ := hm5 hc4
      simp only [decide_eq_true_eq] at hlb
      have := hm.2 (by omega)
      cases r with
      | leaf => simp [T.isLeaf] at this
      | node y dy rl a =>
        have := hl hlb
        cases rl with
        | leaf => simp [T.isLeaf] at this
        | node x dx e b' =>
          refine wp_mono (wp_rotateRL hr5 hnd hi5 hf) ?_
          rintro r' s6 ⟨t', h1, h2, h3, h4, h5⟩
          exact ⟨t', h1, h2, hs15.data.trans h3, h4, h5⟩
    exact ⟨.node z dz l r, rfl, rfl, hs15.data, hi5, hr5⟩

theorem wp_balanceAndPropagate {s : NS D} {c : Ctx D} {t : T D}
    (hr : Repr s.n none (plug c t)) (hnd : (plug c t).ids.Nodup) (hi : HInv s)
    {hf fuel : Nat} (hhf : (plug c t).ids.length ≤ hf) (hfu : c.length < fuel) :
    Wp E (balanceAndPropagate hf fuel t.id) s (fun r s' => Rebal s [] (plug c t) r s') := by
  induction c generalizing s t fuel with
  | nil =>
    obtain ⟨f, rfl⟩ : ∃ f, fuel = f + 1 := ⟨fuel - 1, by simp at hfu; omega⟩
    simp only [plug] at *
    simp only [balanceAndPropagate, wp_bind, wp_rd]
    refine wp_mono (wp_balance (c := []) hr hnd hi hhf) ?_
    rintro r s1 ⟨t', rfl, hio, hd, hi1, hr1⟩
    have : (s1.n t'.id).parent = none := Repr.parent_eq hr1
    rw [this]
    exact ⟨t', rfl, hio, hd, hi1, hr1⟩
  | cons f c ih =>
    obtain ⟨f', rfl⟩ : ∃ f, fuel = f + 1 := ⟨fuel - 1, by simp at hfu; omega⟩
    simp only [balanceAndPropagate, wp_bind, wp_rd]
    refine wp_mono (wp_balance (c := f :: c) hr hnd hi hhf) ?_
    rintro r s1 ⟨t', rfl, hio, hd, hi1, hr1⟩
    have hp : (s1.n t'.id).parent = ctxPar (f :: c) := Repr.parent_eq ((repr_plug _ _ _).mp hr1).1
    rw [hp]
    have hids := ids_plug_of_io (c := f :: c) hio
    have hio' : (plug (f :: c) t').io = (plug (f :: c) t).io := by simp only [io_plug, hio]
    cases f with
    | L i d r =>
      simp only [ctxPar]
      have := ih (s := s1) (t := .node i d t' r) (fuel := f') hr1 (by simp only [plug] at hids; rw [hids]; exact hnd) hi1
        (by simp only [plug] at hids; rw [hids]; exact hhf) (by simp at hfu; omega)
      refine wp_mono this ?_
      rintro r' s2 ⟨t2, rfl, h2, h3, h4, h5⟩
      exact ⟨t2, rfl, h2.trans hio', hd.trans h3, h4, h5⟩
    | R i d l =>
      simp only [ctxPar]
      have := ih (s := s1) (t := .node i d l t') (fuel := f') hr1 (by simp only [plug] at hids; rw [hids]; exact hnd) hi1
        (by simp only [plug] at hids; rw [hids]; exact hhf) (by simp at hfu; omega)
      refine wp_mono this ?_
      rintro r' s2 ⟨t2, rfl, h2, h3, h4, h5⟩
      exact ⟨t2, rfl, h2.trans hio', hd.trans h3, h4, h5⟩

end Foronoi
