import Verif.Proof.AvlOps

/-!
# `Tree.delete`, `Tree.find` and `Tree.get_leaves` on the pointer structure
-/

namespace Foronoi

open scoped List

variable {D K : Type} {E : Err → Prop}

theorem wp_leftHeavyB {s : NS D} {p : Option Nat} {i fuel : Nat} {d : D} {l r : BT D} (h : Holds s.n p (.node i d l r))
    (hnd : (BT.node i d l r).ids.Nodup) (hl : l.depth ≤ fuel) (f : Int → Bool) (Q : Bool → NS D → Prop)
    (hQ : ∀ s', s'.cnt = s.cnt → Holds s'.n p (.node i d l r) → Hc (BT.node i d l r).ids s.n s'.n →
      (¬ r.depth + 1 < l.depth → Q false s') ∧
      (∀ y dy a b, r.depth + 1 < l.depth → l = .node y dy a b → Q (f ((a.depth : Int) - b.depth)) s')) :
    Wp E (leftHeavy fuel i ((l.depth : Int) - r.depth) f) s Q := by
  unfold leftHeavy
  by_cases c : r.depth + 1 < l.depth
  · rw [if_pos (by omega)]
    obtain ⟨y, dy, a, b, rfl⟩ := BT.depth_pos_of_ne (t := l) (by omega)
    obtain ⟨h1, h2, h3, h4, h5, h6, h7⟩ := h
    have hDl : (BT.node y dy a b).depth = 1 + max a.depth b.depth := rfl
    rw [hDl] at hl
    simp only [BT.ids] at hnd
    simp only [leftBalance, wp_bind, wp_rd, wp_deref, h2, BT.root, Option.some.injEq, exists_eq_left', reduceCtorEq, false_and, or_false]
    refine wp_mono (wp_balanceB h6 (by grind) (by omega) (by omega)) ?_
    rintro _ s1 ⟨rfl, c1, g1, k1⟩
    rw [wp_pure]
    have e1 : s1.n i = s.n i := k1.1 i (by grind)
    refine (hQ s1 c1 ⟨by rw [e1, h1], by rw [e1, h2], by rw [e1, h3], by rw [e1, h4], by rw [e1]; exact h5, g1,
      h7.congr (fun j hj => k1.1 j (by grind))⟩ (k1.mono (fun j hj => by simp only [BT.ids]; grind))).2 _ _ _ _ c rfl
  · rw [if_neg (by omega), wp_pure]
    exact (hQ s rfl h (.refl _ _)).1 c

theorem wp_rightHeavyB {s : NS D} {p : Option Nat} {i fuel : Nat} {d : D} {l r : BT D} (h : Holds s.n p (.node i d l r))
    (hnd : (BT.node i d l r).ids.Nodup) (hr : r.depth ≤ fuel) (f : Int → Bool) (Q : Bool → NS D → Prop)
    (hQ : ∀ s', s'.cnt = s.cnt → Holds s'.n p (.node i d l r) → Hc (BT.node i d l r).ids s.n s'.n →
      (¬ l.depth + 1 < r.depth → Q false s') ∧
      (∀ y dy a b, l.depth + 1 < r.depth → r = .node y dy a b → Q (f ((a.depth : Int) - b.depth)) s')) :
    Wp E (rightHeavy fuel i ((l.depth : Int) - r.depth) f) s Q := by
  unfold rightHeavy
  by_cases c : l.depth + 1 < r.depth
  · rw [if_pos (by omega)]
    obtain ⟨y, dy, a, b, rfl⟩ := BT.depth_pos_of_ne (t := r) (by omega)
    obtain ⟨h1, h2, h3, h4, h5, h6, h7⟩ := h
    have hDl : (BT.node y dy a b).depth = 1 + max a.depth b.depth := rfl
    rw [hDl] at hr
    simp only [BT.ids] at hnd
    simp only [rightBalance, wp_bind, wp_rd, wp_deref, h3, BT.root, Option.some.injEq, exists_eq_left', reduceCtorEq, false_and, or_false]
    refine wp_mono (wp_balanceB h7 (by grind) (by omega) (by omega)) ?_
    rintro _ s1 ⟨rfl, c1, g1, k1⟩
    rw [wp_pure]
    have e1 : s1.n i = s.n i := k1.1 i (by grind)
    refine (hQ s1 c1 ⟨by rw [e1, h1], by rw [e1, h2], by rw [e1, h3], by rw [e1, h4], by rw [e1]; exact h5,
      h6.congr (fun j hj => k1.1 j (by grind)), g1⟩ (k1.mono (fun j hj => by simp only [BT.ids]; grind))).2 _ _ _ _ c rfl
  · rw [if_neg (by omega), wp_pure]
    exact (hQ s rfl h (.refl _ _)).1 c

/-- `Tree.balance` on the node of a tree. -/
theorem wp_balB {s : NS D} {p : Option Nat} {side : Bool} {i fuel : Nat} {d : D} {l r : BT D}
    (h : Holds s.n p (.node i d l r)) (hnd : (BT.node i d l r).ids.Nodup) (hp : Pos s.n p side (.node i d l r))
    (hf : (BT.node i d l r).ids.length ≤ fuel) :
    Wp E (balance fuel i) s (Post (BT.node i d l r).ids p side s (BT.bal (.node i d l r))) := by
  have hpi : ∀ g, p = some g → g ∉ (BT.node i d l r).ids := fun g hg => (hp g hg).1
  have ll := l.depth_le
  have lr := r.depth_le
  have hlen : l.ids.length + (r.ids.length + 1) ≤ fuel := by simpa [BT.ids] using hf
  have step : ∀ {s1 s2 : NS D}, Pos s1.n p side (.node i d l r) → Hc (BT.node i d l r).ids s1.n s2.n → Pos s2.n p side (.node i d l r) :=
    fun hp1 hk => hp1.of_fr rfl hpi (fun g hg => hk.1 g (hpi g hg))
  have back : ∀ {s1 s2 : NS D} {t' : BT D} {q : Nat} {s' : NS D}, Hc (BT.node i d l r).ids s1.n s2.n → s2.cnt = s1.cnt →
      Post (BT.node i d l r).ids p side s2 t' q s' → Post (BT.node i d l r).ids p side s1 t' q s' :=
    fun hk hc hP => hP.of_hc (t := .nil) hk hc (fun _ h => h) hpi
  have same : ∀ {s1 : NS D}, Holds s1.n p (.node i d l r) → Post (BT.node i d l r).ids p side s1 (.node i d l r) i s1 :=
    fun h1 => ⟨rfl, rfl, h1, .of_only (fun _ _ => rfl) hpi⟩
  unfold balance
  rw [wp_bind]
  refine wp_mono (wp_balanceB h hnd (by omega) (by omega)) ?_
  rintro _ s1 ⟨rfl, c1, h1, k1⟩
  have p1 := step hp k1
  refine wp_mono (Q := Post (BT.node i d l r).ids p side s1 (BT.bal (.node i d l r))) ?_ (fun q s' hP => back k1 c1 hP)
  rw [wp_bind]
  refine wp_leftHeavyB h1 hnd (by omega) _ _ (fun s2 c2 h2 k2 => ⟨fun hc => ?_, fun y dy a b hc he => ?_⟩)
  swap
  · -- left side too deep
    subst he
    have hp2 := step p1 k2
    by_cases c : b.depth ≤ a.depth
    · rw [if_pos (by simp; omega)]
      have hB : BT.bal (.node i d (.node y dy a b) r) = .node y dy a (.node i d b r) := by simp only [BT.bal]; rw [if_pos hc, if_pos c]; rfl
      rw [hB]
      refine wp_mono (wp_rotR h2.to0 hnd hp2 hf) ?_
      rintro q s3 ⟨rfl, c3, h3, f3⟩
      exact back k2 c2 ⟨rfl, c3, h3, f3⟩
    · rw [if_neg (by simp; omega), wp_bind]
      refine wp_rightHeavyB h2 hnd (by omega) _ _ (fun s3 c3 h3 k3 => ⟨fun hc' => ?_, fun y dy a b hc' he => absurd hc' (by omega)⟩)
      rw [if_neg (by simp), wp_bind]
      refine wp_leftHeavyB h3 hnd (by omega) _ _ (fun s4 c4 h4 k4 => ⟨fun hc'' => absurd hc hc'', fun y' dy' a' b' _ he' => ?_⟩)
      have e : a.depth = a'.depth ∧ b.depth = b'.depth := by cases he'; exact ⟨rfl, rfl⟩
      rw [if_pos (by simp; omega)]
      obtain ⟨x, dx, b1, b2, rfl⟩ := BT.depth_pos_of_ne (t := b) (by omega)
      have hB : BT.bal (.node i d (.node y dy a (.node x dx b1 b2)) r) = .node x dx (.node y dy a b1) (.node i d b2 r) := by
        simp only [BT.bal]; rw [if_pos hc, if_neg c]; rfl
      rw [hB]
      refine wp_mono (wp_rotLR h4 hnd (step (step hp2 k3) k4) hf) ?_
      intro q s' hP
      exact back k2 c2 (back k3 c3 (back k4 c4 hP))
  rw [if_neg (by simp), wp_bind]
  have hp2 := step p1 k2
  refine wp_rightHeavyB h2 hnd (by omega) _ _ (fun s3 c3 h3 k3 => ⟨fun hc' => ?_, fun y dy a b hc' he => ?_⟩)
  swap
  · subst he
    have hp3 := step hp2 k3
    by_cases c : a.depth ≤ b.depth
    · rw [if_pos (by simp; omega)]
      have hB : BT.bal (.node i d l (.node y dy a b)) = .node y dy (.node i d l a) b := by
        simp only [BT.bal]; rw [if_neg hc, if_pos hc', if_pos c]; rfl
      rw [hB]
      refine wp_mono (wp_rotL h3.to0 hnd hp3 hf) ?_
      rintro q s4 ⟨rfl, c4, h4, f4⟩
      exact back k2 c2 (back k3 c3 ⟨rfl, c4, h4, f4⟩)
    · rw [if_neg (by simp; omega), wp_bind]
      refine wp_leftHeavyB h3 hnd (by omega) _ _ (fun s4 c4 h4 k4 => ⟨fun hc'' => ?_, fun y dy a b hc'' he => absurd hc'' hc⟩)
      rw [if_neg (by simp), wp_bind]
      refine wp_rightHeavyB h4 hnd (by omega) _ _ (fun s5 c5 h5 k5 => ⟨fun hc'' => absurd hc' hc'', fun y' dy' a' b' _ he' => ?_⟩)
      have e : a.depth = a'.depth ∧ b.depth = b'.depth := by cases he'; exact ⟨rfl, rfl⟩
      rw [if_pos (by simp; omega)]
      obtain ⟨x, dx, b1, b2, rfl⟩ := BT.depth_pos_of_ne (t := a) (by omega)
      have hB : BT.bal (.node i d l (.node y dy (.node x dx b1 b2) b)) = .node x dx (.node i d l b1) (.node y dy b2 b) := by
        simp only [BT.bal]; rw [if_neg hc, if_pos hc', if_neg c]; rfl
      rw [hB]
      refine wp_mono (wp_rotRL h5 hnd (step (step hp3 k4) k5) hf) ?_
      intro q s' hP
      exact back k2 c2 (back k3 c3 (back k4 c4 (back k5 c5 hP)))
  rw [if_neg (by simp), wp_bind]
  refine wp_leftHeavyB h3 hnd (by omega) _ _ (fun s4 c4 h4 k4 => ⟨fun hc'' => ?_, fun y dy a b hc'' he => absurd hc'' hc⟩)
  rw [if_neg (by simp), wp_bind]
  refine wp_rightHeavyB h4 hnd (by omega) _ _ (fun s5 c5 h5 k5 => ⟨fun hc'' => ?_, fun y' dy' a' b' hc'' he' => absurd hc'' hc'⟩)
  rw [if_neg (by simp), wp_pure]
  have hB : BT.bal (.node i d l r) = .node i d l r := by simp only [BT.bal]; rw [if_neg hc, if_neg hc']
  rw [hB]
  exact back k2 c2 (back k3 c3 (back k4 c4 (back k5 c5 (same h5))))

theorem wp_minimumB : ∀ {t : BT D} {s : NS D} {p : Option Nat} {fuel c : Nat}, Holds s.n p t → t.root = some c → t.depth ≤ fuel →
    Wp E (minimum fuel c) s (fun _ s' => s' = s)
  | .nil, s, p, fuel, c, h, hc, hf => by simp [BT.root] at hc
  | .node i d l r, s, p, fuel, c, h, hc, hf => by
    obtain ⟨h1, h2, h3, h4, h5, h6, h7⟩ := h
    simp only [BT.root, Option.some.injEq] at hc
    subst hc
    have hD : (BT.node i d l r).depth = 1 + max l.depth r.depth := rfl
    obtain ⟨f, rfl⟩ : ∃ f, fuel = f + 1 := ⟨fuel - 1, by omega⟩
    simp only [minimum, wp_bind, wp_rd, h2]
    cases hl : l.root with
    | none => simp [wp_pure]
    | some c => exact wp_minimumB h6 hl (by omega)

section Delete

variable [LinearOrder K]

theorem ids_del {key : D → K} {x : K} : ∀ {t t' : BT D}, BT.del key x t = some t' → t'.ids.Sublist t.ids
  | .nil, t', h => by simp only [BT.del, Option.some.injEq] at h; subst h; exact List.Sublist.refl _
  | .node i d l r, t', h => by
    simp only [BT.del] at h
    split_ifs at h with h1 h2
    · obtain ⟨l', hl, rfl⟩ := Option.map_eq_some_iff.mp h
      simp only [BT.ids_bal, BT.ids]
      exact (ids_del hl).append_right _
    · obtain ⟨r', hr, rfl⟩ := Option.map_eq_some_iff.mp h
      simp only [BT.ids_bal, BT.ids]
      exact ((ids_del hr).cons_cons i).append_left _
    · cases l with
      | nil =>
        simp only [Option.some.injEq] at h; subst h
        simp [BT.ids]
      | node j e a b =>
        cases r with
        | nil =>
          simp only [Option.some.injEq] at h; subst h
          show (BT.node j e a b).ids.Sublist ((BT.node j e a b).ids ++ i :: [])
          exact List.sublist_append_left _ _
        | node => simp at h

theorem wp_deleteFix {s : NS D} {p : Option Nat} {side : Bool} {i fuel : Nat} {d : D} {l r : BT D}
    (h : Holds0 s.n p (.node i d l r)) (hnd : (BT.node i d l r).ids.Nodup) (hp : Pos s.n p side (.node i d l r))
    (hf : (BT.node i d l r).ids.length ≤ fuel) :
    Wp E (deleteFix fuel i) s (fun o s' => o = (BT.bal (.node i d l r)).root ∧ s'.cnt = s.cnt ∧ Holds s'.n p (BT.bal (.node i d l r)) ∧
      Fr (BT.node i d l r).ids p side s.n s'.n) := by
  have hpi : ∀ g, p = some g → g ∉ (BT.node i d l r).ids := fun g hg => (hp g hg).1
  have ll := l.depth_le
  have lr := r.depth_le
  have hlen : l.ids.length + (r.ids.length + 1) ≤ fuel := by simpa [BT.ids] using hf
  unfold deleteFix
  rw [wp_bind]
  refine wp_mono (wp_updH h.2.1 h.2.2.1 h.2.2.2.2.1 h.2.2.2.2.2 hnd (by omega) (by omega)) ?_
  rintro _ s1 ⟨c1, h1, k1⟩
  rw [h.1, h.2.2.2.1] at h1
  rw [wp_bind]
  refine wp_mono (wp_balB h1 hnd (hp.of_fr rfl hpi (fun g hg => k1.1 g (hpi g hg))) hf) ?_
  intro q s2 hP
  obtain ⟨e2, c2, h2, f2⟩ := hP.of_hc (t := .nil) k1 c1 (fun _ h => h) hpi
  rw [wp_pure]
  exact ⟨e2.symm, c2, h2, f2⟩

theorem wp_deleteT {key : D → K} {x : K} {hf : Nat} : ∀ {t : BT D} {s : NS D} {p : Option Nat} {side : Bool} {fuel : Nat},
    Holds s.n p t → t.ids.Nodup → Pos s.n p side t → t.depth < fuel → t.ids.length ≤ hf → (BT.del key x t = none → E .attr) →
    Wp E (deleteT key hf x fuel t.root) s (fun o s' => ∃ t', BT.del key x t = some t' ∧ o = t'.root ∧ s'.cnt = s.cnt ∧
      (∃ p', Holds s'.n p' t' ∧ (∀ i d l r, t = .node i d l r → (key d ≠ x → p' = p) ∧ (key d = x → p' = some i))) ∧ Fr t.ids p side s.n s'.n)
  | .nil, s, p, side, fuel, h, hnd, hp, hfu, hl, hE => by
    obtain ⟨f, rfl⟩ : ∃ f, fuel = f + 1 := ⟨fuel - 1, by simp [BT.depth] at hfu; omega⟩
    simp only [BT.root, deleteT, wp_pure]
    exact ⟨.nil, rfl, rfl, trivial, ⟨p, trivial, by simp⟩, .of_only (fun _ _ => rfl) (fun g hg => (hp g hg).1)⟩
  | .node i d l r, s, p, side, fuel, h, hnd, hp, hfu, hl, hE => by
    have hD : (BT.node i d l r).depth = 1 + max l.depth r.depth := rfl
    obtain ⟨f, rfl⟩ : ∃ f, fuel = f + 1 := ⟨fuel - 1, by omega⟩
    rw [hD] at hfu
    have h0 := h.to0
    have hpi : ∀ g, p = some g → g ∉ (BT.node i d l r).ids := fun g hg => (hp g hg).1
    have hpi' : ∀ g, p = some g → g ∉ l.ids ∧ g ≠ i ∧ g ∉ r.ids := by
      intro g hg
      have := hpi g hg
      simpa only [BT.ids, List.mem_append, List.mem_cons, not_or] using this
    have hnd' := hnd
    simp only [BT.ids] at hnd'
    have hlen : l.ids.length + (r.ids.length + 1) ≤ hf := by simpa [BT.ids] using hl
    simp only [BT.root, deleteT, wp_bind, wp_rd]
    rw [h0.1]
    by_cases c1 : x < key d
    · have hdel : BT.del key x (.node i d l r) = (BT.del key x l).map fun l' => BT.bal (.node i d l' r) := by
        simp only [BT.del]; rw [if_pos c1]
      rw [hdel] at hE ⊢
      rw [if_pos c1, wp_bind, h0.2.1]
      refine wp_mono (wp_deleteT h0.2.2.2.2.1 (by grind) (pos_left h0 hnd) (by omega) (by omega) (fun hn => hE (by rw [hn]; rfl))) ?_
      rintro _ s1 ⟨l', dl, rfl, e1, ⟨p', h1, -⟩, f1⟩
      have hsl := ids_del dl
      rw [wp_bind]
      refine wp_mono (wp_replL h0 hp hnd f1 (fun j hj => ⟨by rintro rfl; grind, by grind, fun hg => (hpi' j hg).1 hj⟩) h1
        (fun j hj => hsl.subset hj) (hsl.nodup (by grind))) ?_
      rintro _ s2 ⟨e2, h2, p2, f2⟩
      have hs2 : (BT.node i d l' r).ids.Sublist (BT.node i d l r).ids := by simp only [BT.ids]; exact hsl.append_right _
      refine wp_mono (wp_deleteFix h2 (hs2.nodup hnd) p2 (hs2.length_le.trans hl)) ?_
      rintro o s3 ⟨rfl, e3, h3, f3⟩
      refine ⟨_, by rw [dl]; rfl, rfl, by rw [e3, e2, e1], ⟨p, h3, ?_⟩, (f2.trans f3).mono (fun j hj => ?_)⟩
      · intro i' d' l'' r'' he
        cases he
        exact ⟨fun _ => rfl, fun h => absurd c1 (by rw [h]; exact lt_irrefl _)⟩
      · have := hs2.subset (a := j)
        simp only [BT.ids, List.mem_append, List.mem_cons, List.not_mem_nil, or_false] at hj this ⊢
        grind
    rw [if_neg c1]
    by_cases c2 : key d < x
    · have hdel : BT.del key x (.node i d l r) = (BT.del key x r).map fun r' => BT.bal (.node i d l r') := by
        simp only [BT.del]; rw [if_neg c1, if_pos c2]
      rw [hdel] at hE ⊢
      rw [if_pos c2, wp_bind, h0.2.2.1]
      refine wp_mono (wp_deleteT h0.2.2.2.2.2 (by grind) (pos_right h0 hnd) (by omega) (by omega) (fun hn => hE (by rw [hn]; rfl))) ?_
      rintro _ s1 ⟨r', dl, rfl, e1, ⟨p', h1, -⟩, f1⟩
      have hsl := ids_del dl
      rw [wp_bind]
      refine wp_mono (wp_replR h0 hp hnd f1 (fun j hj => ⟨by rintro rfl; grind, by grind, fun hg => (hpi' j hg).2.2 hj⟩) h1
        (fun j hj => hsl.subset hj) (hsl.nodup (by grind))) ?_
      rintro _ s2 ⟨e2, h2, p2, f2⟩
      have hs2 : (BT.node i d l r').ids.Sublist (BT.node i d l r).ids := by simp only [BT.ids]; exact (hsl.cons_cons i).append_left _
      refine wp_mono (wp_deleteFix h2 (hs2.nodup hnd) p2 (hs2.length_le.trans hl)) ?_
      rintro o s3 ⟨rfl, e3, h3, f3⟩
      refine ⟨_, by rw [dl]; rfl, rfl, by rw [e3, e2, e1], ⟨p, h3, ?_⟩, (f2.trans f3).mono (fun j hj => ?_)⟩
      · intro i' d' l'' r'' he
        cases he
        exact ⟨fun _ => rfl, fun h => absurd c2 (by rw [h]; exact lt_irrefl _)⟩
      · have := hs2.subset (a := j)
        simp only [BT.ids, List.mem_append, List.mem_cons, List.not_mem_nil, or_false] at hj this ⊢
        grind
    rw [if_neg c2]
    have hk : key d = x := le_antisymm (not_lt.mp c1) (not_lt.mp c2)
    have hfr : Fr (BT.node i d l r).ids p side s.n s.n := .of_only (fun _ _ => rfl) hpi
    have hroot : ∀ i' d' l' r', BT.node i d l r = .node i' d' l' r' → (key d' ≠ x → some i = p) ∧ (key d' = x → some i = some i') := by
      intro i' d' l' r' he
      cases he
      exact ⟨fun h => absurd hk h, fun _ => rfl⟩
    cases l with
    | nil =>
      simp only [h0.2.1, BT.root, wp_pure]
      refine ⟨r, ?_, h0.2.2.1, trivial, ⟨some i, h0.2.2.2.2.2, hroot⟩, hfr⟩
      simp only [BT.del]; rw [if_neg c1, if_neg c2]
    | node j e a b =>
      cases r with
      | nil =>
        simp only [h0.2.1, h0.2.2.1, BT.root, wp_pure]
        refine ⟨.node j e a b, ?_, rfl, trivial, ⟨some i, h0.2.2.2.2.1, hroot⟩, hfr⟩
        simp only [BT.del]; rw [if_neg c1, if_neg c2]
      | node j' e' a' b' =>
        simp only [h0.2.1, h0.2.2.1, BT.root, wp_bind]
        refine wp_mono (wp_minimumB h0.2.2.2.2.2 rfl (by have := (BT.node j' e' a' b').depth_le; omega)) ?_
        rintro m _ rfl
        simp only [wp_rd, wp_updN, wp_throw]
        apply hE
        simp only [BT.del]; rw [if_neg c1, if_neg c2]

/-- `Tree.find` in a sorted tree. -/
theorem wp_findKey {key : D → K} {x : K} : ∀ {t : BT D} {s : NS D} {p : Option Nat} {fuel : Nat},
    Holds s.n p t → (t.items.map key).Pairwise (· < ·) → t.depth < fuel →
    Wp E (findKey key x fuel t.root) s (fun o s' => s' = s ∧ (∀ j, o = some j → j ∈ t.ids ∧ key (s.n j).data = x) ∧ (o = none → x ∉ t.items.map key))
  | .nil, s, p, fuel, h, hs, hf => by
    obtain ⟨f, rfl⟩ : ∃ f, fuel = f + 1 := ⟨fuel - 1, by omega⟩
    simp [BT.root, findKey, wp_pure, BT.items]
  | .node i d l r, s, p, fuel, h, hs, hf => by
    have hD : (BT.node i d l r).depth = 1 + max l.depth r.depth := rfl
    obtain ⟨f, rfl⟩ : ∃ f, fuel = f + 1 := ⟨fuel - 1, by omega⟩
    obtain ⟨h1, h2, h3, h4, h5, h6, h7⟩ := h
    simp only [BT.items, List.map_append, List.map_cons, List.pairwise_append, List.pairwise_cons, List.mem_cons] at hs
    obtain ⟨s1, ⟨s2, s3⟩, s4⟩ := hs
    simp only [BT.root, findKey, wp_bind, wp_rd, h1]
    split_ifs with c1 c2
    · rw [wp_pure]
      exact ⟨rfl, fun j hj => by cases hj; exact ⟨by simp [BT.ids], by rw [h1, c1]⟩, by simp⟩
    · rw [h2]
      refine wp_mono (wp_findKey h6 s1 (by omega)) ?_
      rintro o _ ⟨rfl, g1, g2⟩
      refine ⟨rfl, fun j hj => ⟨by simp [BT.ids, (g1 j hj).1], (g1 j hj).2⟩, fun hn hm => ?_⟩
      simp only [BT.items, List.map_append, List.map_cons, List.mem_append, List.mem_cons] at hm
      rcases hm with hm | hm | hm
      · exact g2 hn hm
      · exact c1 hm
      · exact absurd (s2 x hm) (not_lt.mpr c2.le)
    · rw [h3]
      refine wp_mono (wp_findKey h7 s3 (by omega)) ?_
      rintro o _ ⟨rfl, g1, g2⟩
      refine ⟨rfl, fun j hj => ⟨by simp [BT.ids, (g1 j hj).1], (g1 j hj).2⟩, fun hn hm => ?_⟩
      simp only [BT.items, List.map_append, List.map_cons, List.mem_append, List.mem_cons] at hm
      rcases hm with hm | hm | hm
      · exact c2 (s4 x hm _ (Or.inl rfl))
      · exact c1 hm
      · exact g2 hn hm

end Delete

/-- `Tree.get_leaves` lists the childless nodes from left to right. -/
theorem wp_getLeaves : ∀ {t : BT D} {s : NS D} {p : Option Nat} {fuel i : Nat}, Holds s.n p t → t.root = some i → t.depth ≤ fuel →
    Wp E (getLeaves fuel i) s (fun ls s' => s' = s ∧ ls = t.leaves)
  | .nil, s, p, fuel, i, h, hi, hf => by simp [BT.root] at hi
  | .node i d l r, s, p, fuel, _, h, hi, hf => by
    simp only [BT.root, Option.some.injEq] at hi
    subst hi
    have hD : (BT.node i d l r).depth = 1 + max l.depth r.depth := rfl
    obtain ⟨f, rfl⟩ : ∃ f, fuel = f + 1 := ⟨fuel - 1, by omega⟩
    obtain ⟨h1, h2, h3, h4, h5, h6, h7⟩ := h
    simp only [getLeaves, wp_bind, wp_rd, h2, h3]
    cases l with
    | nil =>
      cases r with
      | nil => simp [BT.root, BT.leaves, wp_pure]
      | node j e a b =>
        simp only [BT.root, Option.isNone_none, Option.isNone_some, Bool.and_false, Bool.false_eq_true, if_false, wp_bind, wp_pure]
        refine wp_mono (wp_getLeaves h7 rfl (by omega)) ?_
        rintro o _ ⟨rfl, rfl⟩
        exact ⟨rfl, by simp [BT.leaves]⟩
    | node j e a b =>
      simp only [BT.root, Option.isNone_some, Bool.false_and, Bool.false_eq_true, if_false, wp_bind]
      refine wp_mono (wp_getLeaves h6 rfl (by omega)) ?_
      rintro o _ ⟨rfl, rfl⟩
      cases r with
      | nil => simp [BT.leaves, wp_pure]
      | node j' e' a' b' =>
        simp only
        refine wp_mono (wp_getLeaves h7 rfl (by omega)) ?_
        rintro o _ ⟨rfl, rfl⟩
        simp [BT.leaves, wp_pure]

end Foronoi
