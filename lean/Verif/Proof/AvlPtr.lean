import Verif.Proof.AvlFun
import Verif.Model.Avl
import Verif.Proof.TreeOps

/-!
# `Tree.insert` and `Tree.delete` on the pointer structure
-/

namespace Foronoi

open scoped List

variable {D K : Type} {E : Err → Prop}

theorem BT.root_mem {t : BT D} {j : Nat} (h : t.root = some j) : j ∈ t.ids := by
  cases t with
  | nil => simp [BT.root] at h
  | node i d l r => simp only [BT.root, Option.some.injEq] at h; subst h; simp [BT.ids]

theorem BT.depth_le (t : BT D) : t.depth ≤ t.ids.length := by
  induction t with
  | nil => simp [BT.depth]
  | node i d l r hl hr => simp [BT.depth, BT.ids]; omega

/-- Only cached heights of the given nodes changed. -/
def Hc (ids : List Nat) (n n' : Nat → NodeR D) : Prop := (∀ j, j ∉ ids → n' j = n j) ∧ ∀ j, StrEq (n' j) (n j)

theorem Hc.refl (ids : List Nat) (n : Nat → NodeR D) : Hc ids n n := ⟨fun _ _ => rfl, fun _ => .refl _⟩

theorem Hc.trans {a b : List Nat} {n n' n'' : Nat → NodeR D} (h : Hc a n n') (h' : Hc b n' n'') : Hc (a ++ b) n n'' := by
  refine ⟨fun j hj => ?_, fun j => (h'.2 j).trans (h.2 j)⟩
  rw [List.mem_append, not_or] at hj
  rw [h'.1 j hj.2, h.1 j hj.1]

theorem Hc.mono {a b : List Nat} {n n' : Nat → NodeR D} (h : Hc a n n') (hs : ∀ j ∈ a, j ∈ b) : Hc b n n' :=
  ⟨fun j hj => h.1 j (fun h' => hj (hs j h')), h.2⟩

theorem Holds.congr {n n' : Nat → NodeR D} : ∀ {t : BT D} {p : Option Nat}, Holds n p t → (∀ j ∈ t.ids, n' j = n j) → Holds n' p t
  | .nil, _, _, _ => trivial
  | .node i d l r, p, h, he => by
    obtain ⟨h1, h2, h3, h4, h5, h6, h7⟩ := h
    simp only [Holds]
    rw [he i (by simp [BT.ids])]
    exact ⟨h1, h2, h3, h4, h5, h6.congr (fun j hj => he j (by simp [BT.ids, hj])), h7.congr (fun j hj => he j (by simp [BT.ids, hj]))⟩

/-- Only the parent of the root changed. -/
theorem Holds.reparent {n n' : Nat → NodeR D} {t : BT D} {p q : Option Nat} (h : Holds n p t) (hnd : t.ids.Nodup)
    (he : ∀ j ∈ t.ids, t.root ≠ some j → n' j = n j) (hr : ∀ j, t.root = some j → n' j = { n j with parent := q }) : Holds n' q t := by
  cases t with
  | nil => trivial
  | node i d l r =>
    obtain ⟨h1, h2, h3, h4, h5, h6, h7⟩ := h
    simp only [BT.ids] at hnd
    simp only [Holds]
    rw [hr i rfl]
    refine ⟨h1, h2, h3, rfl, h5, h6.congr (fun j hj => he j (by simp [BT.ids, hj]) ?_), h7.congr (fun j hj => he j (by simp [BT.ids, hj]) ?_)⟩
    · simp only [BT.root, ne_eq, Option.some.injEq]; rintro rfl; grind
    · simp only [BT.root, ne_eq, Option.some.injEq]; rintro rfl; grind

theorem wp_heightB : ∀ {t : BT D} {p : Option Nat} {s : NS D} {fuel : Nat}, Holds s.n p t → t.ids.Nodup → t.depth ≤ fuel →
    Wp E (heightO fuel t.root) s (fun h s' => h = t.depth ∧ s'.cnt = s.cnt ∧ Holds s'.n p t ∧ Hc t.ids s.n s'.n)
  | .nil, p, s, fuel, h, hnd, hf => by
    simp only [BT.root, heightO, wp_pure]
    exact ⟨rfl, trivial, trivial, .refl _ _⟩
  | .node i d l r, p, s, fuel, h, hnd, hf => by
    have hh := h
    obtain ⟨h1, h2, h3, h4, h5, h6, h7⟩ := h
    have hd : (BT.node i d l r).depth = 1 + max l.depth r.depth := rfl
    obtain ⟨f, rfl⟩ : ∃ f, fuel = f + 1 := ⟨fuel - 1, by rw [hd] at hf; omega⟩
    rw [hd] at hf
    simp only [BT.ids] at hnd
    simp only [BT.root, heightO, height, wp_bind, wp_rd]
    cases hc : (s.n i).height with
    | some v =>
      rw [hc] at h5
      simp only [reduceCtorEq, Option.some.injEq, false_or] at h5
      simp only [wp_pure]
      exact ⟨h5, trivial, hh, .refl _ _⟩
    | none =>
      simp only [wp_bind]
      show Wp E (heightO f (s.n i).left) s _
      rw [h2]
      refine wp_mono (wp_heightB h6 (by grind) (by omega)) ?_
      rintro lh s1 ⟨rfl, c1, g1, k1⟩
      show Wp E (heightO f (s.n i).right) s1 _
      rw [h3]
      have g7 : Holds s1.n (some i) r := h7.congr (fun j hj => k1.1 j (by grind))
      refine wp_mono (wp_heightB g7 (by grind) (by omega)) ?_
      rintro rh s2 ⟨rfl, c2, g2, k2⟩
      simp only [wp_updN, wp_pure]
      have e2 : s2.n i = s.n i := by rw [k2.1 i (by grind), k1.1 i (by grind)]
      refine ⟨rfl, by rw [c2, c1], ⟨?_, ?_, ?_, ?_, ?_, ?_, ?_⟩, ?_, ?_⟩
      · simp [e2, h1]
      · simp [e2, h2]
      · simp [e2, h3]
      · simp [e2, h4]
      · simp
      · refine (g1.congr (fun j hj => k2.1 j (by grind))).congr (fun j hj => ?_)
        rw [Function.update_of_ne (by rintro rfl; grind)]
      · refine g2.congr (fun j hj => ?_)
        rw [Function.update_of_ne (by rintro rfl; grind)]
      · intro j hj
        simp only [BT.ids, List.mem_append, List.mem_cons, not_or] at hj
        show Function.update s2.n i _ j = _
        rw [Function.update_of_ne hj.2.1, k2.1 j hj.2.2, k1.1 j hj.1]
      · intro j
        show StrEq (Function.update s2.n i _ j) _
        by_cases hj : j = i
        · subst hj; rw [Function.update_self, e2]; exact ⟨rfl, rfl, rfl, rfl⟩
        · rw [Function.update_of_ne hj]; exact (k2.2 j).trans (k1.2 j)

/-- `update_height` on a node whose subtrees are fine. -/
theorem wp_updH {s : NS D} {i : Nat} {l r : BT D} {fuel : Nat} (h2 : (s.n i).left = l.root) (h3 : (s.n i).right = r.root)
    (h6 : Holds s.n (some i) l) (h7 : Holds s.n (some i) r) (hnd : (l.ids ++ i :: r.ids).Nodup) (hl : l.depth ≤ fuel) (hr : r.depth ≤ fuel) :
    Wp E (updateHeight fuel i) s (fun _ s' => s'.cnt = s.cnt ∧ Holds s'.n (s.n i).parent (.node i (s.n i).data l r) ∧
      Hc (l.ids ++ i :: r.ids) s.n s'.n) := by
  simp only [updateHeight, calcHeight, wp_bind, wp_rd, h2, h3]
  refine wp_mono (wp_heightB h6 (by grind) hl) ?_
  rintro lh s1 ⟨rfl, c1, g1, k1⟩
  have g7 : Holds s1.n (some i) r := h7.congr (fun j hj => k1.1 j (by grind))
  refine wp_mono (wp_heightB g7 (by grind) hr) ?_
  rintro rh s2 ⟨rfl, c2, g2, k2⟩
  simp only [wp_pure]
  rw [wp_updN]
  have e2 : s2.n i = s.n i := by rw [k2.1 i (by grind), k1.1 i (by grind)]
  refine ⟨by show s2.cnt = _; rw [c2, c1], ⟨?_, ?_, ?_, ?_, ?_, ?_, ?_⟩, ?_, ?_⟩
  · simp [e2]
  · simp [e2, h2]
  · simp [e2, h3]
  · simp [e2]
  · simp
  · refine (g1.congr (fun j hj => k2.1 j (by grind))).congr (fun j hj => ?_)
    show Function.update s2.n i _ j = _
    rw [Function.update_of_ne (by rintro rfl; grind)]
  · refine g2.congr (fun j hj => ?_)
    show Function.update s2.n i _ j = _
    rw [Function.update_of_ne (by rintro rfl; grind)]
  · intro j hj
    simp only [List.mem_append, List.mem_cons, not_or] at hj
    show Function.update s2.n i _ j = _
    rw [Function.update_of_ne hj.2.1, k2.1 j hj.2.2, k1.1 j hj.1]
  · intro j
    show StrEq (Function.update s2.n i _ j) _
    by_cases hj : j = i
    · subst hj; rw [Function.update_self, e2]; exact ⟨rfl, rfl, rfl, rfl⟩
    · rw [Function.update_of_ne hj]; exact (k2.2 j).trans (k1.2 j)

theorem wp_balanceB {s : NS D} {i : Nat} {d : D} {l r : BT D} {p : Option Nat} {fuel : Nat} (h : Holds s.n p (.node i d l r))
    (hnd : (l.ids ++ i :: r.ids).Nodup) (hl : l.depth ≤ fuel) (hr : r.depth ≤ fuel) :
    Wp E (balanceOf fuel i) s (fun b s' => b = (l.depth : Int) - r.depth ∧ s'.cnt = s.cnt ∧ Holds s'.n p (.node i d l r) ∧
      Hc (l.ids ++ i :: r.ids) s.n s'.n) := by
  obtain ⟨h1, h2, h3, h4, h5, h6, h7⟩ := h
  simp only [balanceOf, wp_bind, wp_rd, h2, h3]
  refine wp_mono (wp_heightB h6 (by grind) hl) ?_
  rintro lh s1 ⟨rfl, c1, g1, k1⟩
  have g7 : Holds s1.n (some i) r := h7.congr (fun j hj => k1.1 j (by grind))
  refine wp_mono (wp_heightB g7 (by grind) hr) ?_
  rintro rh s2 ⟨rfl, c2, g2, k2⟩
  simp only [wp_pure]
  have e2 : s2.n i = s.n i := by rw [k2.1 i (by grind), k1.1 i (by grind)]
  refine ⟨trivial, by rw [c2, c1], ⟨?_, ?_, ?_, ?_, ?_, ?_, g2⟩, ?_⟩
  · rw [e2, h1]
  · rw [e2, h2]
  · rw [e2, h3]
  · rw [e2, h4]
  · rw [e2]; exact h5
  · exact g1.congr (fun j hj => k2.1 j (by grind))
  · exact (k1.trans k2).mono (fun j hj => by simp only [List.mem_append, List.mem_cons] at hj ⊢; tauto)

/-- `p` is the node above the subtree `t`, which is its left child if `side`, otherwise its right child; `p` is not in the subtree. -/
def Pos (n : Nat → NodeR D) (p : Option Nat) (side : Bool) (t : BT D) : Prop :=
  ∀ g, p = some g → g ∉ t.ids ∧ (side = true → (n g).left = t.root) ∧ (side = false → t.root ≠ none → (n g).left ≠ t.root)

/-- Outside the given nodes only the pointer of the parent to the subtree may have changed. -/
def Fr (ids : List Nat) (p : Option Nat) (side : Bool) (n n' : Nat → NodeR D) : Prop :=
  (∀ j, j ∉ ids → p ≠ some j → n' j = n j) ∧
  ∀ g, p = some g → (n' g).data = (n g).data ∧ (n' g).parent = (n g).parent ∧ (n' g).height = (n g).height ∧
    (side = true → (n' g).right = (n g).right) ∧ (side = false → (n' g).left = (n g).left)

theorem Fr.of_only {ids : List Nat} {p : Option Nat} {side : Bool} {n n' : Nat → NodeR D} (h : ∀ j, j ∉ ids → n' j = n j)
    (hp : ∀ g, p = some g → g ∉ ids) : Fr ids p side n n' :=
  ⟨fun j hj _ => h j hj, fun g hg => by rw [h g (hp g hg)]; exact ⟨rfl, rfl, rfl, fun _ => rfl, fun _ => rfl⟩⟩

theorem Fr.trans {a b : List Nat} {p : Option Nat} {side : Bool} {n n' n'' : Nat → NodeR D} (h : Fr a p side n n') (h' : Fr b p side n' n'') :
    Fr (a ++ b) p side n n'' := by
  refine ⟨fun j hj hp => ?_, fun g hg => ?_⟩
  · rw [List.mem_append, not_or] at hj
    rw [h'.1 j hj.2 hp, h.1 j hj.1 hp]
  · obtain ⟨a1, a2, a3, a4, a5⟩ := h.2 g hg
    obtain ⟨b1, b2, b3, b4, b5⟩ := h'.2 g hg
    exact ⟨b1.trans a1, b2.trans a2, b3.trans a3, fun hs => (b4 hs).trans (a4 hs), fun hs => (b5 hs).trans (a5 hs)⟩

theorem Fr.mono {a b : List Nat} {p : Option Nat} {side : Bool} {n n' : Nat → NodeR D} (h : Fr a p side n n') (hs : ∀ j ∈ a, j ∈ b) :
    Fr b p side n n' := ⟨fun j hj hp => h.1 j (fun h' => hj (hs j h')) hp, h.2⟩

/-- As `Holds`, but the cached height of the root may be anything. -/
def Holds0 (n : Nat → NodeR D) : Option Nat → BT D → Prop
  | _, .nil => True
  | p, .node i d l r => (n i).data = d ∧ (n i).left = l.root ∧ (n i).right = r.root ∧ (n i).parent = p ∧ Holds n (some i) l ∧ Holds n (some i) r

theorem Holds.to0 {n : Nat → NodeR D} {p : Option Nat} {t : BT D} (h : Holds n p t) : Holds0 n p t := by
  cases t with
  | nil => trivial
  | node i d l r => obtain ⟨h1, h2, h3, h4, h5, h6, h7⟩ := h; exact ⟨h1, h2, h3, h4, h6, h7⟩

/-- The swing of a rotation. -/
theorem wp_swingB {s : NS D} {p : Option Nat} {side : Bool} {z y : Nat} {Q : Unit → NS D → Prop} (hz : (s.n z).parent = p) (hzy : z ≠ y)
    (hp : ∀ g, p = some g → g ≠ y ∧ g ≠ z ∧ (side = true → (s.n g).left = some z) ∧ (side = false → (s.n g).left ≠ some z))
    (hQ : ∀ n', n' y = { s.n y with parent := p } → Fr [y] p side s.n n' → Q () ⟨n', s.cnt⟩) : Wp E (swing z y p) s Q := by
  unfold swing
  cases p with
  | none =>
    simp only [optDo, wp_bind, wp_updN, wp_pure]
    apply hQ
    · simp
    · exact .of_only (fun j hj => by simp only [List.mem_singleton] at hj; simp [Function.update_of_ne hj]) (by simp)
  | some g =>
    obtain ⟨hgy, hgz, hL, hR⟩ := hp g rfl
    have e1 : (Function.update s.n y { s.n y with parent := some g } z).parent = some g := by rw [Function.update_of_ne hzy]; exact hz
    have e2 : (Function.update s.n y { s.n y with parent := some g } g).left = (s.n g).left := by rw [Function.update_of_ne hgy]
    simp only [optDo, wp_bind, wp_updN, isLeftChild, wp_rd, e1, e2, wp_pure]
    cases side with
    | true =>
      rw [hL rfl]
      simp only [beq_self_eq_true, if_true, wp_setLeft]
      apply hQ
      · simp [Function.update_of_ne (Ne.symm hgy)]
      · refine ⟨?_, ?_⟩
        · intro j hj hj'
          simp only [List.mem_singleton] at hj
          have : j ≠ g := by rintro rfl; exact hj' rfl
          simp [Function.update_of_ne hj, Function.update_of_ne this]
        · rintro _ ⟨⟩
          simp [Function.update_of_ne hgy]
    | false =>
      have : ((s.n g).left == some z) = false := by simpa using hR rfl
      rw [this]
      simp only [Bool.false_eq_true, if_false, wp_setRight]
      apply hQ
      · simp [Function.update_of_ne (Ne.symm hgy)]
      · refine ⟨?_, ?_⟩
        · intro j hj hj'
          simp only [List.mem_singleton] at hj
          have : j ≠ g := by rintro rfl; exact hj' rfl
          simp [Function.update_of_ne hj, Function.update_of_ne this]
        · rintro _ ⟨⟩
          simp [Function.update_of_ne hgy]

theorem wp_setLeftO (i : Nat) (c : Option Nat) (s : NS D) (Q : Unit → NS D → Prop)
    (h : ∀ n', (∀ j, c ≠ some j → j ≠ i → n' j = s.n j) → (∀ j, c = some j → j ≠ i → n' j = { s.n j with parent := some i }) →
      (c ≠ some i → n' i = { s.n i with left := c }) → Q () ⟨n', s.cnt⟩) : Wp E (setLeft i c) s Q := by
  cases c with
  | none =>
    simp only [setLeft, optDo, wp_bind, wp_pure, wp_updN]
    refine h _ (fun j _ hj => by rw [Function.update_of_ne hj]) (by simp) (fun _ => by rw [Function.update_self])
  | some c =>
    simp only [wp_setLeft]
    refine h _ (fun j hc hj => ?_) (fun j hc hj => ?_) (fun hc => ?_)
    · rw [Function.update_of_ne hj, Function.update_of_ne (by rintro rfl; exact hc rfl)]
    · cases hc; rw [Function.update_of_ne hj, Function.update_self]
    · rw [Function.update_self, Function.update_of_ne (by rintro rfl; exact hc rfl)]

theorem wp_setRightO (i : Nat) (c : Option Nat) (s : NS D) (Q : Unit → NS D → Prop)
    (h : ∀ n', (∀ j, c ≠ some j → j ≠ i → n' j = s.n j) → (∀ j, c = some j → j ≠ i → n' j = { s.n j with parent := some i }) →
      (c ≠ some i → n' i = { s.n i with right := c }) → Q () ⟨n', s.cnt⟩) : Wp E (setRight i c) s Q := by
  cases c with
  | none =>
    simp only [setRight, optDo, wp_bind, wp_pure, wp_updN]
    refine h _ (fun j _ hj => by rw [Function.update_of_ne hj]) (by simp) (fun _ => by rw [Function.update_self])
  | some c =>
    simp only [wp_setRight]
    refine h _ (fun j hc hj => ?_) (fun j hc hj => ?_) (fun hc => ?_)
    · rw [Function.update_of_ne hj, Function.update_of_ne (by rintro rfl; exact hc rfl)]
    · cases hc; rw [Function.update_of_ne hj, Function.update_self]
    · rw [Function.update_self, Function.update_of_ne (by rintro rfl; exact hc rfl)]

set_option maxHeartbeats 2000000 in
theorem wp_rotL {s : NS D} {p : Option Nat} {side : Bool} {z y : Nat} {dz dy : D} {a b e : BT D} {fuel : Nat}
    (h : Holds0 s.n p (.node z dz a (.node y dy b e))) (hnd : (BT.node z dz a (.node y dy b e)).ids.Nodup)
    (hp : Pos s.n p side (.node z dz a (.node y dy b e))) (hf : (BT.node z dz a (.node y dy b e)).ids.length ≤ fuel) :
    Wp E (rotateLeft fuel z) s (fun r s' => r = y ∧ s'.cnt = s.cnt ∧ Holds s'.n p (.node y dy (.node z dz a b) e) ∧
      Fr (BT.node z dz a (.node y dy b e)).ids p side s.n s'.n) := by
  obtain ⟨zd, zl, zr, zp, hA, yd, yl, yr, yp, yh, hB, hE⟩ := h
  simp only [BT.ids] at hnd hf hp
  simp only [Pos, BT.ids, BT.root, List.mem_append, List.mem_cons] at hp
  have hzy : z ≠ y := by grind
  have la := a.depth_le
  have lb := b.depth_le
  have le' := e.depth_le
  simp only [List.length_append, List.length_cons] at hf
  unfold rotateLeft
  simp only [BT.root] at zr
  simp only [wp_bind, wp_rd, wp_deref, zr, Option.some.injEq, exists_eq_left', reduceCtorEq, false_and, or_false, yl, zp]
  refine wp_swingB (side := side) zp hzy (fun g hg => ?_) ?_
  · obtain ⟨h1, h2, h3⟩ := hp g hg
    exact ⟨by grind, by grind, h2, fun hs => h3 hs (by simp)⟩
  intro n1 y1 f1
  have n1o : ∀ j, j ≠ y → (∀ g, p = some g → g ≠ j) → n1 j = s.n j := fun j hj hg => f1.1 j (by simpa using hj) (fun h => hg j h rfl)
  have hpn : ∀ j, j ∈ a.ids ++ z :: (b.ids ++ y :: e.ids) → ∀ g, p = some g → g ≠ j := by
    intro j hj g hg; rintro rfl; exact (hp g hg).1 (by simpa only [List.mem_append, List.mem_cons] using hj)
  rw [wp_setLeft]
  refine wp_setRightO _ _ _ _ ?_
  intro N N1 N2 N3
  have rb : ∀ j, b.root = some j → j ∈ b.ids := fun j hj => BT.root_mem hj
  have hbz : b.root ≠ some z := fun h => by have := rb z h; grind
  have hby : b.root ≠ some y := fun h => by have := rb y h; grind
  have Nz : N z = { s.n z with parent := some y, right := b.root } := by
    rw [N3 hbz]; simp [Function.update_of_ne hzy, n1o z hzy (hpn z (by simp))]
  have Ny : N y = { s.n y with parent := p, left := some z } := by
    rw [N1 y hby hzy.symm]; simp [Function.update_of_ne hzy.symm, y1]
  have Nb : ∀ j, b.root = some j → N j = { s.n j with parent := some z } := by
    intro j hj
    have hm := rb j hj
    have h1 : j ≠ z := by grind
    have h2 : j ≠ y := by grind
    rw [N2 j hj h1]; simp [Function.update_of_ne h1, Function.update_of_ne h2, n1o j h2 (hpn j (by simp [hm]))]
  have No : ∀ j, b.root ≠ some j → j ≠ z → j ≠ y → N j = n1 j := by
    intro j h1 h2 h3
    rw [N1 j h1 h2]; simp [Function.update_of_ne h2, Function.update_of_ne h3]
  have hA' : Holds N (some z) a := hA.congr (fun j hj => by
    rw [No j (fun h => by have := rb j h; grind) (by grind) (by grind), n1o j (by grind) (hpn j (by simp [hj]))])
  have hE' : Holds N (some y) e := hE.congr (fun j hj => by
    rw [No j (fun h => by have := rb j h; grind) (by grind) (by grind), n1o j (by grind) (hpn j (by simp [hj]))])
  have hB' : Holds N (some z) b := hB.reparent (by grind) (fun j hj hn => by
    rw [No j hn (by grind) (by grind), n1o j (by grind) (hpn j (by simp [hj]))]) Nb
  have FN : Fr (a.ids ++ z :: (b.ids ++ y :: e.ids)) p side n1 N := .of_only (fun j hj => by
    simp only [List.mem_append, List.mem_cons, not_or] at hj
    exact No j (fun h => hj.2.2.1 (rb j h)) hj.2.1 hj.2.2.2.1) (fun g hg => by
      have := (hp g hg).1
      simp only [List.mem_append, List.mem_cons]
      exact this)
  simp only
  refine wp_mono (wp_updH (s := ⟨N, s.cnt⟩) (l := a) (r := b) (by simp [Nz, zl]) (by simp [Nz]) hA' hB' (by grind) (by omega) (by omega)) ?_
  rintro _ s2 ⟨c2, g2, k2⟩
  simp only [Nz, zd] at g2
  have e2 : s2.n y = N y := k2.1 y (by grind)
  have gE : Holds s2.n (some y) e := hE'.congr (fun j hj => k2.1 j (by grind))
  refine wp_mono (wp_updH (s := s2) (l := .node z dz a b) (r := e) (by rw [e2, Ny]; rfl) (by rw [e2, Ny]; exact yr) g2 gE
    (by simp only [BT.ids]; grind) (by simp only [BT.depth]; omega) (by omega)) ?_
  rintro _ s3 ⟨c3, g3, k3⟩
  rw [e2, Ny] at g3
  simp only [yd] at g3
  simp only [wp_pure]
  refine ⟨trivial, by rw [c3, c2], g3, ?_⟩
  have hpl : ∀ (L : List Nat), (∀ j ∈ L, j ∈ a.ids ++ z :: (b.ids ++ y :: e.ids)) → ∀ g, p = some g → g ∉ L := by
    intro L hL g hg hm
    exact (hp g hg).1 (by simpa only [List.mem_append, List.mem_cons] using hL g hm)
  have F2 : Fr (a.ids ++ z :: b.ids) p side N s2.n := .of_only k2.1 (hpl _ (by intro j; simp only [List.mem_append, List.mem_cons]; tauto))
  have F3 : Fr ((BT.node z dz a b).ids ++ y :: e.ids) p side s2.n s3.n := .of_only k3.1 (hpl _ (by intro j; simp only [BT.ids, List.mem_append, List.mem_cons]; tauto))
  refine (((f1.trans FN).trans F2).trans F3).mono (fun j hj => ?_)
  simp only [BT.ids, List.mem_append, List.mem_cons, List.mem_singleton, List.not_mem_nil, or_false] at hj ⊢
  grind

set_option maxHeartbeats 2000000 in
theorem wp_rotR {s : NS D} {p : Option Nat} {side : Bool} {z y : Nat} {dz dy : D} {a b e : BT D} {fuel : Nat}
    (h : Holds0 s.n p (.node z dz (.node y dy e b) a)) (hnd : (BT.node z dz (.node y dy e b) a).ids.Nodup)
    (hp : Pos s.n p side (.node z dz (.node y dy e b) a)) (hf : (BT.node z dz (.node y dy e b) a).ids.length ≤ fuel) :
    Wp E (rotateRight fuel z) s (fun r s' => r = y ∧ s'.cnt = s.cnt ∧ Holds s'.n p (.node y dy e (.node z dz b a)) ∧
      Fr (BT.node z dz (.node y dy e b) a).ids p side s.n s'.n) := by
  obtain ⟨zd, zl, zr, zp, ⟨yd, yl, yr, yp, yh, hE, hB⟩, hA⟩ := h
  simp only [BT.ids] at hnd hf hp
  simp only [Pos, BT.ids, BT.root, List.mem_append, List.mem_cons] at hp
  have hzy : z ≠ y := by grind
  have la := a.depth_le
  have lb := b.depth_le
  have le' := e.depth_le
  simp only [List.length_append, List.length_cons] at hf
  unfold rotateRight
  simp only [BT.root] at zl
  simp only [wp_bind, wp_rd, wp_deref, zl, Option.some.injEq, exists_eq_left', reduceCtorEq, false_and, or_false, yr, zp]
  refine wp_swingB (side := side) zp hzy (fun g hg => ?_) ?_
  · obtain ⟨h1, h2, h3⟩ := hp g hg
    exact ⟨by grind, by grind, h2, fun hs => h3 hs (by simp)⟩
  intro n1 y1 f1
  have n1o : ∀ j, j ≠ y → (∀ g, p = some g → g ≠ j) → n1 j = s.n j := fun j hj hg => f1.1 j (by simpa using hj) (fun h => hg j h rfl)
  have hpn : ∀ j, j ∈ (e.ids ++ y :: b.ids) ++ z :: a.ids → ∀ g, p = some g → g ≠ j := by
    intro j hj g hg; rintro rfl; exact (hp g hg).1 (by simpa only [List.mem_append, List.mem_cons] using hj)
  rw [wp_setRight]
  refine wp_setLeftO _ _ _ _ ?_
  intro N N1 N2 N3
  have rb : ∀ j, b.root = some j → j ∈ b.ids := fun j hj => BT.root_mem hj
  have hbz : b.root ≠ some z := fun h => by have := rb z h; grind
  have hby : b.root ≠ some y := fun h => by have := rb y h; grind
  have Nz : N z = { s.n z with parent := some y, left := b.root } := by
    rw [N3 hbz]; simp [Function.update_of_ne hzy, n1o z hzy (hpn z (by simp))]
  have Ny : N y = { s.n y with parent := p, right := some z } := by
    rw [N1 y hby hzy.symm]; simp [Function.update_of_ne hzy.symm, y1]
  have Nb : ∀ j, b.root = some j → N j = { s.n j with parent := some z } := by
    intro j hj
    have hm := rb j hj
    have h1 : j ≠ z := by grind
    have h2 : j ≠ y := by grind
    rw [N2 j hj h1]; simp [Function.update_of_ne h1, Function.update_of_ne h2, n1o j h2 (hpn j (by simp [hm]))]
  have No : ∀ j, b.root ≠ some j → j ≠ z → j ≠ y → N j = n1 j := by
    intro j h1 h2 h3
    rw [N1 j h1 h2]; simp [Function.update_of_ne h2, Function.update_of_ne h3]
  have hA' : Holds N (some z) a := hA.congr (fun j hj => by
    rw [No j (fun h => by have := rb j h; grind) (by grind) (by grind), n1o j (by grind) (hpn j (by simp [hj]))])
  have hE' : Holds N (some y) e := hE.congr (fun j hj => by
    rw [No j (fun h => by have := rb j h; grind) (by grind) (by grind), n1o j (by grind) (hpn j (by simp [hj]))])
  have hB' : Holds N (some z) b := hB.reparent (by grind) (fun j hj hn => by
    rw [No j hn (by grind) (by grind), n1o j (by grind) (hpn j (by simp [hj]))]) Nb
  have FN : Fr ((e.ids ++ y :: b.ids) ++ z :: a.ids) p side n1 N := .of_only (fun j hj => by
    simp only [List.mem_append, List.mem_cons, not_or] at hj
    exact No j (fun h => hj.1.2.2 (rb j h)) hj.2.1 hj.1.2.1) (fun g hg => by
      have := (hp g hg).1
      simp only [List.mem_append, List.mem_cons]
      exact this)
  simp only
  refine wp_mono (wp_updH (s := ⟨N, s.cnt⟩) (l := b) (r := a) (by simp [Nz]) (by simp [Nz, zr]) hB' hA' (by grind) (by omega) (by omega)) ?_
  rintro _ s2 ⟨c2, g2, k2⟩
  simp only [Nz, zd] at g2
  have e2 : s2.n y = N y := k2.1 y (by grind)
  have gE : Holds s2.n (some y) e := hE'.congr (fun j hj => k2.1 j (by grind))
  refine wp_mono (wp_updH (s := s2) (l := e) (r := .node z dz b a) (by rw [e2, Ny]; exact yl) (by rw [e2, Ny]; rfl) gE g2
    (by simp only [BT.ids]; grind) (by omega) (by simp only [BT.depth]; omega)) ?_
  rintro _ s3 ⟨c3, g3, k3⟩
  rw [e2, Ny] at g3
  simp only [yd] at g3
  simp only [wp_pure]
  refine ⟨trivial, by rw [c3, c2], g3, ?_⟩
  have hpl : ∀ (L : List Nat), (∀ j ∈ L, j ∈ (e.ids ++ y :: b.ids) ++ z :: a.ids) → ∀ g, p = some g → g ∉ L := by
    intro L hL g hg hm
    exact (hp g hg).1 (by simpa only [List.mem_append, List.mem_cons] using hL g hm)
  have F2 : Fr (b.ids ++ z :: a.ids) p side N s2.n := .of_only k2.1 (hpl _ (by intro j; simp only [List.mem_append, List.mem_cons]; tauto))
  have F3 : Fr (e.ids ++ y :: (BT.node z dz b a).ids) p side s2.n s3.n := .of_only k3.1 (hpl _ (by intro j; simp only [BT.ids, List.mem_append, List.mem_cons]; tauto))
  refine (((f1.trans FN).trans F2).trans F3).mono (fun j hj => ?_)
  simp only [BT.ids, List.mem_append, List.mem_cons, List.mem_singleton, List.not_mem_nil, or_false] at hj ⊢
  grind

end Foronoi
