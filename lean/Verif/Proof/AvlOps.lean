import Verif.Proof.AvlPtr

/-!
# `Tree.insert`, `Tree.balance`, `Tree.delete`: the pointer code computes `BT.ins`, `BT.bal`, `BT.del`
-/

namespace Foronoi

open scoped List

variable {D K : Type} {E : Err → Prop}

/-- What the operations guarantee: they return the root of `t'`, the store holds `t'`, and nothing else was touched. -/
def Post (ids : List Nat) (p : Option Nat) (side : Bool) (s : NS D) (t' : BT D) (r : Nat) (s' : NS D) : Prop :=
  t'.root = some r ∧ s'.cnt = s.cnt ∧ Holds s'.n p t' ∧ Fr ids p side s.n s'.n

theorem Pos.of_fr {n n' : Nat → NodeR D} {p : Option Nat} {side : Bool} {t t' : BT D} (h : Pos n p side t) (hr : t'.root = t.root)
    (hi : ∀ g, p = some g → g ∉ t'.ids) (he : ∀ g, p = some g → n' g = n g) : Pos n' p side t' := by
  intro g hg
  obtain ⟨h1, h2, h3⟩ := h g hg
  rw [he g hg, hr]
  exact ⟨hi g hg, h2, h3⟩

theorem wp_replL {s0 s : NS D} {p p' : Option Nat} {side : Bool} {i : Nat} {d : D} {l l' r : BT D} {A : List Nat}
    (h : Holds0 s0.n p (.node i d l r)) (hp : Pos s0.n p side (.node i d l r)) (hnd : (BT.node i d l r).ids.Nodup)
    (hf : Fr A (some i) true s0.n s.n) (hA : ∀ j ∈ A, j ≠ i ∧ j ∉ r.ids ∧ p ≠ some j) (hl' : Holds s.n p' l') (hs : ∀ j ∈ l'.ids, j ∈ A)
    (hn' : l'.ids.Nodup) :
    Wp E (setLeft i l'.root) s (fun _ s' => s'.cnt = s.cnt ∧ Holds0 s'.n p (.node i d l' r) ∧ Pos s'.n p side (.node i d l' r) ∧
      Fr (A ++ [i]) p side s0.n s'.n) := by
  obtain ⟨h1, h2, h3, h4, h5, h6⟩ := h
  simp only [BT.ids] at hnd
  refine wp_setLeftO _ _ _ _ ?_
  intro N N1 N2 N3
  have hm : ∀ j, l'.root = some j → j ∈ A := fun j hj => hs j (BT.root_mem hj)
  have hi : l'.root ≠ some i := fun hj => (hA i (hm i hj)).1 rfl
  have Ni := N3 hi
  obtain ⟨f1, f2, f3, f4, -⟩ := hf.2 i rfl
  have hpi : ∀ g, p = some g → g ≠ i ∧ g ∉ r.ids ∧ g ∉ l.ids := by
    intro g hg
    have := (hp g hg).1
    simp only [BT.ids, List.mem_append, List.mem_cons, not_or] at this
    tauto
  have Ng : ∀ j, j ∉ A → j ≠ i → N j = s0.n j := by
    intro j hj hji
    rw [N1 j (fun h => hj (hm j h)) hji, hf.1 j hj (by simpa using hji.symm)]
  refine ⟨rfl, ⟨?_, ?_, ?_, ?_, ?_, ?_⟩, ?_, ?_⟩
  · simp [Ni, f1, h1]
  · simp [Ni]
  · simp [Ni, f4, h3]
  · simp [Ni, f2, h4]
  · refine hl'.reparent hn' (fun j hj hne => N1 j hne (hA j (hs j hj)).1) (fun j hj => N2 j hj (hA j (hm j hj)).1)
  · exact h6.congr (fun j hj => Ng j (fun h => (hA j h).2.1 hj) (by grind))
  · refine hp.of_fr rfl (fun g hg => ?_) (fun g hg => Ng g (fun h => (hA g h).2.2 hg) (hpi g hg).1)
    simp only [BT.ids, List.mem_append, List.mem_cons, not_or]
    exact ⟨fun h => (hA g (hs g h)).2.2 hg, (hpi g hg).1, (hpi g hg).2.1⟩
  · refine .of_only (fun j hj => ?_) (fun g hg => ?_)
    · simp only [List.mem_append, List.mem_singleton, not_or] at hj
      exact Ng j hj.1 hj.2
    · simp only [List.mem_append, List.mem_singleton, not_or]
      exact ⟨fun h => (hA g h).2.2 hg, (hpi g hg).1⟩

theorem wp_replR {s0 s : NS D} {p p' : Option Nat} {side : Bool} {i : Nat} {d : D} {l r r' : BT D} {A : List Nat}
    (h : Holds0 s0.n p (.node i d l r)) (hp : Pos s0.n p side (.node i d l r)) (hnd : (BT.node i d l r).ids.Nodup)
    (hf : Fr A (some i) false s0.n s.n) (hA : ∀ j ∈ A, j ≠ i ∧ j ∉ l.ids ∧ p ≠ some j) (hr' : Holds s.n p' r') (hs : ∀ j ∈ r'.ids, j ∈ A)
    (hn' : r'.ids.Nodup) :
    Wp E (setRight i r'.root) s (fun _ s' => s'.cnt = s.cnt ∧ Holds0 s'.n p (.node i d l r') ∧ Pos s'.n p side (.node i d l r') ∧
      Fr (A ++ [i]) p side s0.n s'.n) := by
  obtain ⟨h1, h2, h3, h4, h5, h6⟩ := h
  simp only [BT.ids] at hnd
  refine wp_setRightO _ _ _ _ ?_
  intro N N1 N2 N3
  have hm : ∀ j, r'.root = some j → j ∈ A := fun j hj => hs j (BT.root_mem hj)
  have hi : r'.root ≠ some i := fun hj => (hA i (hm i hj)).1 rfl
  have Ni := N3 hi
  obtain ⟨f1, f2, f3, -, f5⟩ := hf.2 i rfl
  have hpi : ∀ g, p = some g → g ≠ i ∧ g ∉ r.ids ∧ g ∉ l.ids := by
    intro g hg
    have := (hp g hg).1
    simp only [BT.ids, List.mem_append, List.mem_cons, not_or] at this
    tauto
  have Ng : ∀ j, j ∉ A → j ≠ i → N j = s0.n j := by
    intro j hj hji
    rw [N1 j (fun h => hj (hm j h)) hji, hf.1 j hj (by simpa using hji.symm)]
  refine ⟨rfl, ⟨?_, ?_, ?_, ?_, ?_, ?_⟩, ?_, ?_⟩
  · simp [Ni, f1, h1]
  · simp [Ni, f5, h2]
  · simp [Ni]
  · simp [Ni, f2, h4]
  · exact h5.congr (fun j hj => Ng j (fun h => (hA j h).2.1 hj) (by grind))
  · refine hr'.reparent hn' (fun j hj hne => N1 j hne (hA j (hs j hj)).1) (fun j hj => N2 j hj (hA j (hm j hj)).1)
  · refine hp.of_fr rfl (fun g hg => ?_) (fun g hg => Ng g (fun h => (hA g h).2.2 hg) (hpi g hg).1)
    simp only [BT.ids, List.mem_append, List.mem_cons, not_or]
    exact ⟨(hpi g hg).2.2, (hpi g hg).1, fun h => (hA g (hs g h)).2.2 hg⟩
  · refine .of_only (fun j hj => ?_) (fun g hg => ?_)
    · simp only [List.mem_append, List.mem_singleton, not_or] at hj
      exact Ng j hj.1 hj.2
    · simp only [List.mem_append, List.mem_singleton, not_or]
      exact ⟨fun h => (hA g h).2.2 hg, (hpi g hg).1⟩

/-- The left subtree of a node is at its position. -/
theorem pos_left {n : Nat → NodeR D} {p : Option Nat} {i : Nat} {d : D} {l r : BT D} (h : Holds0 n p (.node i d l r))
    (hnd : (BT.node i d l r).ids.Nodup) : Pos n (some i) true l := by
  rintro _ ⟨⟩
  simp only [BT.ids] at hnd
  exact ⟨by grind, fun _ => h.2.1, by simp⟩

theorem pos_right {n : Nat → NodeR D} {p : Option Nat} {i : Nat} {d : D} {l r : BT D} (h : Holds0 n p (.node i d l r))
    (hnd : (BT.node i d l r).ids.Nodup) : Pos n (some i) false r := by
  rintro _ ⟨⟩
  simp only [BT.ids] at hnd
  refine ⟨by grind, by simp, fun _ hr => ?_⟩
  rw [h.2.1]
  intro hlr
  cases hrr : r.root with
  | none => exact hr hrr
  | some c =>
    have h1 := BT.root_mem hrr
    have h2 := BT.root_mem (hlr.trans hrr)
    grind

theorem wp_rotLR {s : NS D} {p : Option Nat} {side : Bool} {i y x fuel : Nat} {d dy dx : D} {a b c r : BT D}
    (h : Holds s.n p (.node i d (.node y dy a (.node x dx b c)) r)) (hnd : (BT.node i d (.node y dy a (.node x dx b c)) r).ids.Nodup)
    (hp : Pos s.n p side (.node i d (.node y dy a (.node x dx b c)) r)) (hf : (BT.node i d (.node y dy a (.node x dx b c)) r).ids.length ≤ fuel) :
    Wp E (rotateLR fuel i) s (Post (BT.node i d (.node y dy a (.node x dx b c)) r).ids p side s (.node x dx (.node y dy a b) (.node i d c r))) := by
  have h0 := h.to0
  unfold rotateLR
  simp only [wp_bind, wp_rd, wp_deref, h0.2.1, BT.root, Option.some.injEq, exists_eq_left', reduceCtorEq, false_and, or_false]
  have hnl : (BT.node y dy a (.node x dx b c)).ids.Nodup := by simp only [BT.ids] at hnd ⊢; grind
  refine wp_mono (wp_rotL (h0.2.2.2.2.1).to0 hnl (pos_left h0 hnd) (by simp only [BT.ids, List.length_append, List.length_cons] at hf ⊢; omega)) ?_
  rintro x1 s1 ⟨ex, c1, g1, f1⟩
  rw [ex]
  clear ex
  have hpi : ∀ g, p = some g → g ∉ (BT.node i d (.node y dy a (.node x dx b c)) r).ids := fun g hg => (hp g hg).1
  have hids : (BT.node y dy a (.node x dx b c)).ids = (BT.node x dx (.node y dy a b) c).ids := by simp [BT.ids]
  refine wp_mono (wp_replL (l' := .node x dx (.node y dy a b) c) h0 hp hnd f1 (fun j hj => ⟨?_, ?_, fun hg => ?_⟩) g1
    (fun j hj => by rw [hids]; exact hj) (by rw [← hids]; exact hnl)) ?_
  · rintro rfl; simp only [BT.ids] at hnd hj; grind
  · simp only [BT.ids] at hnd hj; grind
  · exact hpi j hg (by simp only [BT.ids] at hj ⊢; grind)
  rintro _ s2 ⟨c2, g2, p2, f2⟩
  refine wp_mono (wp_rotR g2 ?_ p2 ?_) ?_
  · simp only [BT.ids, List.append_assoc, List.cons_append] at hnd ⊢; exact hnd
  · simp only [BT.ids, List.length_append, List.length_cons] at hf ⊢; omega
  rintro q s3 ⟨rfl, c3, g3, f3⟩
  refine ⟨rfl, by rw [c3, c2, c1], g3, (f2.trans f3).mono (fun j hj => ?_)⟩
  simp only [BT.ids, List.mem_append, List.mem_cons, List.not_mem_nil, or_false] at hj ⊢
  grind

theorem wp_rotRL {s : NS D} {p : Option Nat} {side : Bool} {i y x fuel : Nat} {d dy dx : D} {a b c l : BT D}
    (h : Holds s.n p (.node i d l (.node y dy (.node x dx b c) a))) (hnd : (BT.node i d l (.node y dy (.node x dx b c) a)).ids.Nodup)
    (hp : Pos s.n p side (.node i d l (.node y dy (.node x dx b c) a))) (hf : (BT.node i d l (.node y dy (.node x dx b c) a)).ids.length ≤ fuel) :
    Wp E (rotateRL fuel i) s (Post (BT.node i d l (.node y dy (.node x dx b c) a)).ids p side s (.node x dx (.node i d l b) (.node y dy c a))) := by
  have h0 := h.to0
  unfold rotateRL
  simp only [wp_bind, wp_rd, wp_deref, h0.2.2.1, BT.root, Option.some.injEq, exists_eq_left', reduceCtorEq, false_and, or_false]
  have hnl : (BT.node y dy (.node x dx b c) a).ids.Nodup := by simp only [BT.ids] at hnd ⊢; grind
  refine wp_mono (wp_rotR (h0.2.2.2.2.2).to0 hnl (pos_right h0 hnd) (by simp only [BT.ids, List.length_append, List.length_cons] at hf ⊢; omega)) ?_
  rintro x1 s1 ⟨ex, c1, g1, f1⟩
  rw [ex]
  clear ex
  have hpi : ∀ g, p = some g → g ∉ (BT.node i d l (.node y dy (.node x dx b c) a)).ids := fun g hg => (hp g hg).1
  have hids : (BT.node y dy (.node x dx b c) a).ids = (BT.node x dx b (.node y dy c a)).ids := by simp [BT.ids]
  refine wp_mono (wp_replR (r' := .node x dx b (.node y dy c a)) h0 hp hnd f1 (fun j hj => ⟨?_, ?_, fun hg => ?_⟩) g1
    (fun j hj => by rw [hids]; exact hj) (by rw [← hids]; exact hnl)) ?_
  · rintro rfl; simp only [BT.ids] at hnd hj; grind
  · simp only [BT.ids] at hnd hj; grind
  · exact hpi j hg (by simp only [BT.ids] at hj ⊢; grind)
  rintro _ s2 ⟨c2, g2, p2, f2⟩
  refine wp_mono (wp_rotL g2 ?_ p2 ?_) ?_
  · simp only [BT.ids, List.append_assoc, List.cons_append] at hnd ⊢; exact hnd
  · simp only [BT.ids, List.length_append, List.length_cons] at hf ⊢; omega
  rintro q s3 ⟨rfl, c3, g3, f3⟩
  refine ⟨rfl, by rw [c3, c2, c1], g3, (f2.trans f3).mono (fun j hj => ?_)⟩
  simp only [BT.ids, List.mem_append, List.mem_cons, List.not_mem_nil, or_false] at hj ⊢
  grind

theorem Post.of_hc {p : Option Nat} {side : Bool} {s s1 : NS D} {t t' : BT D} {A ids : List Nat} (hk : Hc A s.n s1.n) (hc : s1.cnt = s.cnt)
    (hA : ∀ j ∈ A, j ∈ ids) (hp : ∀ g, p = some g → g ∉ ids) {r : Nat} {s' : NS D} (h : Post ids p side s1 t' r s') : Post ids p side s t' r s' := by
  obtain ⟨h1, h2, h3, h4⟩ := h
  refine ⟨h1, h2.trans hc, h3, ((Fr.of_only hk.1 (fun g hg h => hp g hg (hA g h))).trans h4).mono (fun j hj => ?_)⟩
  rw [List.mem_append] at hj
  rcases hj with hj | hj
  · exact hA j hj
  · exact hj

section Insert

variable [LinearOrder K]

theorem wp_leftKey {s : NS D} {key : D → K} {p : Option Nat} {i : Nat} {d : D} {l r : BT D} (h : Holds s.n p (.node i d l r)) (nk : K)
    (f : K → Bool) (Q : Bool → NS D → Prop)
    (hQ : Q (decide (r.depth + 1 < l.depth) && f (BT.rootKey key nk l)) s) : Wp E (leftKey key i ((l.depth : Int) - r.depth) f) s Q := by
  unfold leftKey
  by_cases c : r.depth + 1 < l.depth
  · rw [if_pos (by omega)]
    obtain ⟨y, dy, a, b, rfl⟩ := BT.depth_pos_of_ne (t := l) (by omega)
    obtain ⟨h1, h2, h3, h4, h5, ⟨h6, -⟩, h7⟩ := h
    simp only [wp_bind, wp_rd, wp_deref, h2, BT.root, Option.some.injEq, exists_eq_left', reduceCtorEq, false_and, or_false, h6, wp_pure]
    simpa [c, BT.rootKey] using hQ
  · rw [if_neg (by omega)]
    simpa [c, wp_pure] using hQ

theorem wp_rightKey {s : NS D} {key : D → K} {p : Option Nat} {i : Nat} {d : D} {l r : BT D} (h : Holds s.n p (.node i d l r)) (nk : K)
    (f : K → Bool) (Q : Bool → NS D → Prop)
    (hQ : Q (decide (l.depth + 1 < r.depth) && f (BT.rootKey key nk r)) s) : Wp E (rightKey key i ((l.depth : Int) - r.depth) f) s Q := by
  unfold rightKey
  by_cases c : l.depth + 1 < r.depth
  · rw [if_pos (by omega)]
    obtain ⟨y, dy, a, b, rfl⟩ := BT.depth_pos_of_ne (t := r) (by omega)
    obtain ⟨h1, h2, h3, h4, h5, h7, ⟨h6, -⟩⟩ := h
    simp only [wp_bind, wp_rd, wp_deref, h3, BT.root, Option.some.injEq, exists_eq_left', reduceCtorEq, false_and, or_false, h6, wp_pure]
    simpa [c, BT.rootKey] using hQ
  · rw [if_neg (by omega)]
    simpa [c, wp_pure] using hQ

theorem wp_insertCases {s : NS D} {key : D → K} {nk : K} {p : Option Nat} {side : Bool} {i fuel : Nat} {d : D} {l r : BT D}
    (h : Holds s.n p (.node i d l r)) (hnd : (BT.node i d l r).ids.Nodup) (hp : Pos s.n p side (.node i d l r))
    (hf : (BT.node i d l r).ids.length ≤ fuel)
    (g1 : r.depth + 1 < l.depth → BT.rootKey key nk l < nk → ∃ y dy a x dx b c, l = .node y dy a (.node x dx b c))
    (g2 : l.depth + 1 < r.depth → nk < BT.rootKey key nk r → ∃ y dy a x dx b c, r = .node y dy (.node x dx b c) a) :
    Wp E (insertCases key fuel i nk) s (Post (BT.node i d l r).ids p side s (BT.fixIns key nk (.node i d l r))) := by
  have hpi : ∀ g, p = some g → g ∉ (BT.node i d l r).ids := fun g hg => (hp g hg).1
  have ll := l.depth_le
  have lr := r.depth_le
  have hlen : l.ids.length + (r.ids.length + 1) ≤ fuel := by simpa [BT.ids] using hf
  unfold insertCases
  rw [wp_bind]
  refine wp_mono (wp_balanceB h hnd (by omega) (by omega)) ?_
  rintro _ s1 ⟨rfl, c1, h1, k1⟩
  have hp1 : Pos s1.n p side (.node i d l r) := hp.of_fr rfl hpi (fun g hg => k1.1 g (by simpa only [BT.ids] using hpi g hg))
  suffices hS : ∀ t', t' = BT.fixIns key nk (.node i d l r) → Wp E _ s1 (Post (BT.node i d l r).ids p side s1 t') from
    wp_mono (hS _ rfl) (fun r' s' hP => hP.of_hc (t := .nil) k1 c1 (fun j hj => by simpa only [BT.ids] using hj) hpi)
  intro t' ht'
  rw [wp_bind]
  refine wp_leftKey h1 nk _ _ ?_
  by_cases a1 : r.depth + 1 < l.depth ∧ nk < BT.rootKey key nk l
  · rw [if_pos (by simpa using a1)]
    obtain ⟨y, dy, a, b, rfl⟩ := BT.depth_pos_of_ne (t := l) (by omega)
    refine wp_mono (wp_rotR h1.to0 hnd hp1 hf) ?_
    rintro q s2 ⟨rfl, c2, h2, f2⟩
    have : t' = .node q dy a (.node i d b r) := by
      rw [ht']; simp only [BT.fixIns]; rw [if_pos a1]; rfl
    subst this
    exact ⟨rfl, c2, h2, f2⟩
  rw [if_neg (by simpa using a1), wp_bind]
  refine wp_rightKey h1 nk _ _ ?_
  by_cases a2 : l.depth + 1 < r.depth ∧ BT.rootKey key nk r < nk
  · rw [if_pos (by simpa using a2)]
    obtain ⟨y, dy, a, b, rfl⟩ := BT.depth_pos_of_ne (t := r) (by omega)
    refine wp_mono (wp_rotL h1.to0 hnd hp1 hf) ?_
    rintro q s2 ⟨rfl, c2, h2, f2⟩
    have : t' = .node q dy (.node i d l a) b := by
      rw [ht']; simp only [BT.fixIns]; rw [if_neg a1, if_pos a2]; rfl
    subst this
    exact ⟨rfl, c2, h2, f2⟩
  rw [if_neg (by simpa using a2), wp_bind]
  refine wp_leftKey h1 nk _ _ ?_
  by_cases a3 : r.depth + 1 < l.depth ∧ BT.rootKey key nk l < nk
  · rw [if_pos (by simpa using a3)]
    obtain ⟨y, dy, a, x, dx, b, c, rfl⟩ := g1 a3.1 a3.2
    have : t' = .node x dx (.node y dy a b) (.node i d c r) := by
      rw [ht']; simp only [BT.fixIns]; rw [if_neg a1, if_neg a2, if_pos a3]; rfl
    subst this
    exact wp_rotLR h1 hnd hp1 hf
  rw [if_neg (by simpa using a3), wp_bind]
  refine wp_rightKey h1 nk _ _ ?_
  by_cases a4 : l.depth + 1 < r.depth ∧ nk < BT.rootKey key nk r
  · rw [if_pos (by simpa using a4)]
    obtain ⟨y, dy, a, x, dx, b, c, rfl⟩ := g2 a4.1 a4.2
    have : t' = .node x dx (.node i d l b) (.node y dy c a) := by
      rw [ht']; simp only [BT.fixIns]; rw [if_neg a1, if_neg a2, if_neg a3, if_pos a4]; rfl
    subst this
    exact wp_rotRL h1 hnd hp1 hf
  rw [if_neg (by simpa using a4), wp_pure]
  have : t' = .node i d l r := by
    rw [ht']; simp only [BT.fixIns]; rw [if_neg a1, if_neg a2, if_neg a3, if_neg a4]
  subst this
  exact ⟨rfl, rfl, h1, .of_only (fun _ _ => rfl) hpi⟩

theorem good_left {key : D → K} {nk : K} {l l' r : BT D} (hb : l.depth ≤ r.depth + 1)
    (hd : l'.depth = l.depth ∨ (l'.depth = l.depth + 1 ∧ BT.Grew key nk l')) (h1 : r.depth + 1 < l'.depth) (h2 : BT.rootKey key nk l' < nk) :
    ∃ y dy a x dx b c, l' = .node y dy a (.node x dx b c) := by
  rcases hd with hd | ⟨hd, hg⟩
  · omega
  cases l' with
  | nil => simp [BT.depth] at h1
  | node y dy a b =>
    rcases hg with ⟨rfl, rfl⟩ | ⟨h3, -⟩ | ⟨h3, h4⟩
    · simp [BT.depth] at h1
    · exact absurd h2 (not_lt.mpr h3.le)
    · obtain ⟨x, dx, b', c, rfl⟩ := BT.depth_pos_of_ne (t := b) (by omega)
      exact ⟨_, _, _, _, _, _, _, rfl⟩

theorem good_right {key : D → K} {nk : K} {l r r' : BT D} (hb : r.depth ≤ l.depth + 1)
    (hd : r'.depth = r.depth ∨ (r'.depth = r.depth + 1 ∧ BT.Grew key nk r')) (h1 : l.depth + 1 < r'.depth) (h2 : nk < BT.rootKey key nk r') :
    ∃ y dy a x dx b c, r' = .node y dy (.node x dx b c) a := by
  rcases hd with hd | ⟨hd, hg⟩
  · omega
  cases r' with
  | nil => simp [BT.depth] at h1
  | node y dy a b =>
    rcases hg with ⟨rfl, rfl⟩ | ⟨h3, h4⟩ | ⟨h3, -⟩
    · simp [BT.depth] at h1
    · obtain ⟨x, dx, b', c, rfl⟩ := BT.depth_pos_of_ne (t := a) (by omega)
      exact ⟨_, _, _, _, _, _, _, rfl⟩
    · exact absurd h2 (not_lt.mpr h3.le)

/-- The double rotations of `fixIns` find the nodes they need. -/
def GoodFix (key : D → K) (nk : K) (l r : BT D) : Prop :=
  (r.depth + 1 < l.depth → BT.rootKey key nk l < nk → ∃ y dy a x dx b c, l = .node y dy a (.node x dx b c)) ∧
  (l.depth + 1 < r.depth → nk < BT.rootKey key nk r → ∃ y dy a x dx b c, r = .node y dy (.node x dx b c) a)

/-- So do those of `ins`. -/
def GoodIns (key : D → K) (k : Nat) (e : D) : BT D → Prop
  | .nil => True
  | .node _ d l r => if key e < key d then GoodIns key k e l ∧ GoodFix key (key e) (BT.ins key k e l) r
      else GoodIns key k e r ∧ GoodFix key (key e) l (BT.ins key k e r)

theorem goodIns_of_balanced {key : D → K} {k : Nat} {e : D} : ∀ {t : BT D}, t.Balanced → key e ∉ t.items.map key → GoodIns key k e t
  | .nil, _, _ => trivial
  | .node i d l r, ⟨b1, b2, b3, b4⟩, hk => by
    simp only [BT.items, List.map_append, List.map_cons, List.mem_append, List.mem_cons, not_or] at hk
    simp only [GoodIns]
    split_ifs with h
    · obtain ⟨-, idep⟩ := BT.ins_balanced (key := key) k (e := e) b3 hk.1
      exact ⟨goodIns_of_balanced b3 hk.1, good_left b1 idep, fun hc => by rcases idep with h | ⟨h, -⟩ <;> omega⟩
    · obtain ⟨-, idep⟩ := BT.ins_balanced (key := key) k (e := e) b4 hk.2.2
      exact ⟨goodIns_of_balanced b4 hk.2.2, fun hc => by rcases idep with h | ⟨h, -⟩ <;> omega, good_right b2 idep⟩

set_option maxHeartbeats 2000000 in
theorem wp_insertT {key : D → K} {k : Nat} {e : D} {hf : Nat} : ∀ {t : BT D} {s : NS D} {p : Option Nat} {side : Bool} {fuel : Nat},
    Holds s.n p t → t.ids.Nodup → Pos s.n p side t → GoodIns key k e t →
    (s.n k).data = e → (s.n k).left = none → (s.n k).right = none → ((s.n k).height = none ∨ (s.n k).height = some 1) → k ∉ t.ids → p ≠ some k →
    t.depth < fuel → t.ids.length < hf →
    Wp E (insertT key hf k fuel t.root) s (fun r s' => (BT.ins key k e t).root = some r ∧ s'.cnt = s.cnt ∧
      (∃ p', Holds s'.n p' (BT.ins key k e t) ∧ (t.root ≠ none → p' = p)) ∧ Fr (k :: t.ids) p side s.n s'.n)
  | .nil, s, p, side, fuel, h, hnd, hp, hg, k1, k2, k3, k4, k5, k6, hfu, hl => by
    obtain ⟨f, rfl⟩ : ∃ f, fuel = f + 1 := ⟨fuel - 1, by simp [BT.depth] at hfu; omega⟩
    simp only [BT.root, insertT, wp_pure]
    refine ⟨rfl, trivial, ⟨(s.n k).parent, ⟨k1, k2, k3, rfl, ?_, trivial, trivial⟩, by simp⟩, .of_only (fun _ _ => rfl) (fun g hg' => ?_)⟩
    · simpa [BT.depth] using k4
    · simp only [BT.ids, List.mem_singleton]
      rintro rfl; exact k6 hg'
  | .node i d l r, s, p, side, fuel, h, hnd, hp, hg, k1, k2, k3, k4, k5, k6, hfu, hl => by
    have hD : (BT.node i d l r).depth = 1 + max l.depth r.depth := rfl
    obtain ⟨f, rfl⟩ : ∃ f, fuel = f + 1 := ⟨fuel - 1, by omega⟩
    rw [hD] at hfu
    have h0 := h.to0
    have hpi : ∀ g, p = some g → g ∉ (BT.node i d l r).ids := fun g hg => (hp g hg).1
    have hpi' : ∀ g, p = some g → g ∉ l.ids ∧ g ≠ i ∧ g ∉ r.ids := by
      intro g hg
      have := hpi g hg
      simpa only [BT.ids, List.mem_append, List.mem_cons, not_or] using this
    have hnd' := hnd
    simp only [BT.ids, List.mem_append, List.mem_cons, not_or] at hnd' k5
    simp only [GoodIns] at hg
    have hlen : l.ids.length + (r.ids.length + 1) < hf := by simpa [BT.ids] using hl
    have ll := l.depth_le
    have lr := r.depth_le
    simp only [BT.root, insertT, wp_bind, wp_rd]
    rw [h0.1, k1]
    by_cases hlt : key e < key d
    · rw [if_pos hlt, wp_bind, h0.2.1]
      rw [if_pos hlt] at hg
      refine wp_mono (wp_insertT h0.2.2.2.2.1 (by grind) (pos_left h0 hnd) hg.1 k1 k2 k3 k4 k5.1 (by simpa using Ne.symm k5.2.1) (by omega) (by omega)) ?_
      rintro c s1 ⟨e1, c1, ⟨p', h1, -⟩, f1⟩
      have hperm := BT.ids_ins key k e l
      have hsub : ∀ j ∈ (BT.ins key k e l).ids, j ∈ k :: l.ids := fun j hj => hperm.mem_iff.mp hj
      have hnn : (BT.ins key k e l).ids.Nodup := hperm.nodup_iff.mpr (List.nodup_cons.mpr ⟨k5.1, by grind⟩)
      rw [← e1, wp_bind]
      refine wp_mono (wp_replL h0 hp hnd f1 (fun j hj => ?_) h1 hsub hnn) ?_
      · rw [List.mem_cons] at hj
        rcases hj with rfl | hj
        · exact ⟨k5.2.1, k5.2.2, k6⟩
        · exact ⟨by rintro rfl; grind, by grind, fun hg => (hpi' j hg).1 hj⟩
      rintro _ s2 ⟨c2, h2, p2, f2⟩
      have hnd2 : (BT.node i d (BT.ins key k e l) r).ids.Nodup := by
        have : (BT.node i d (BT.ins key k e l) r).ids ~ k :: (BT.node i d l r).ids := by
          simp only [BT.ids]; exact hperm.append_right _
        exact this.nodup_iff.mpr (List.nodup_cons.mpr ⟨by simp only [BT.ids, List.mem_append, List.mem_cons, not_or]; exact k5, hnd⟩)
      have hlen2 : (BT.ins key k e l).ids.length = l.ids.length + 1 := by rw [hperm.length_eq]; rfl
      have ld := (BT.ins key k e l).depth_le
      rw [wp_bind]
      refine wp_mono (wp_updH h2.2.1 h2.2.2.1 h2.2.2.2.2.1 h2.2.2.2.2.2 (by simpa only [BT.ids] using hnd2) (by omega) (by omega)) ?_
      rintro _ s3 ⟨c3, h3, k3'⟩
      rw [h2.1, h2.2.2.2.1] at h3
      have hpi2 : ∀ g, p = some g → g ∉ (BT.node i d (BT.ins key k e l) r).ids := fun g hg => (p2 g hg).1
      have p3 : Pos s3.n p side (.node i d (BT.ins key k e l) r) := p2.of_fr rfl hpi2 (fun g hg => k3'.1 g (by simpa only [BT.ids] using hpi2 g hg))
      refine wp_mono (wp_insertCases (nk := key e) h3 hnd2 p3 (by simp only [BT.ids, List.length_append, List.length_cons]; omega)
        hg.2.1 hg.2.2) ?_
      rintro q s4 ⟨e4, c4, h4, f4⟩
      have hins : BT.ins key k e (.node i d l r) = BT.fixIns key (key e) (.node i d (BT.ins key k e l) r) := by
        simp only [BT.ins]; rw [if_pos hlt]
      rw [hins]
      refine ⟨e4, by rw [c4, c3, c2, c1], ⟨p, h4, fun _ => rfl⟩, ?_⟩
      have F3 : Fr ((BT.ins key k e l).ids ++ i :: r.ids) p side s2.n s3.n := .of_only k3'.1 (fun g hg => by simpa only [BT.ids] using hpi2 g hg)
      refine ((f2.trans F3).trans f4).mono (fun j hj => ?_)
      simp only [BT.ids, List.mem_append, List.mem_cons, List.not_mem_nil, or_false] at hj ⊢
      have := hsub j
      simp only [List.mem_cons] at this
      grind
    · rw [if_neg hlt, wp_bind, h0.2.2.1]
      rw [if_neg hlt] at hg
      refine wp_mono (wp_insertT h0.2.2.2.2.2 (by grind) (pos_right h0 hnd) hg.1 k1 k2 k3 k4 k5.2.2 (by simpa using Ne.symm k5.2.1) (by omega) (by omega)) ?_
      rintro c s1 ⟨e1, c1, ⟨p', h1, -⟩, f1⟩
      have hperm := BT.ids_ins key k e r
      have hsub : ∀ j ∈ (BT.ins key k e r).ids, j ∈ k :: r.ids := fun j hj => hperm.mem_iff.mp hj
      have hnn : (BT.ins key k e r).ids.Nodup := hperm.nodup_iff.mpr (List.nodup_cons.mpr ⟨k5.2.2, by grind⟩)
      rw [← e1, wp_bind]
      refine wp_mono (wp_replR h0 hp hnd f1 (fun j hj => ?_) h1 hsub hnn) ?_
      · rw [List.mem_cons] at hj
        rcases hj with rfl | hj
        · exact ⟨k5.2.1, k5.1, k6⟩
        · exact ⟨by rintro rfl; grind, by grind, fun hg => (hpi' j hg).2.2 hj⟩
      rintro _ s2 ⟨c2, h2, p2, f2⟩
      have hnd2 : (BT.node i d l (BT.ins key k e r)).ids.Nodup := by
        have : (BT.node i d l (BT.ins key k e r)).ids ~ k :: (BT.node i d l r).ids := by
          simp only [BT.ids]
          refine ((List.Perm.cons i hperm).append_left l.ids).trans ?_
          refine ((List.Perm.swap k i r.ids).append_left l.ids).trans ?_
          exact List.perm_middle
        exact this.nodup_iff.mpr (List.nodup_cons.mpr ⟨by simp only [BT.ids, List.mem_append, List.mem_cons, not_or]; exact k5, hnd⟩)
      have hlen2 : (BT.ins key k e r).ids.length = r.ids.length + 1 := by rw [hperm.length_eq]; rfl
      have ld := (BT.ins key k e r).depth_le
      rw [wp_bind]
      refine wp_mono (wp_updH h2.2.1 h2.2.2.1 h2.2.2.2.2.1 h2.2.2.2.2.2 (by simpa only [BT.ids] using hnd2) (by omega) (by omega)) ?_
      rintro _ s3 ⟨c3, h3, k3'⟩
      rw [h2.1, h2.2.2.2.1] at h3
      have hpi2 : ∀ g, p = some g → g ∉ (BT.node i d l (BT.ins key k e r)).ids := fun g hg => (p2 g hg).1
      have p3 : Pos s3.n p side (.node i d l (BT.ins key k e r)) := p2.of_fr rfl hpi2 (fun g hg => k3'.1 g (by simpa only [BT.ids] using hpi2 g hg))
      refine wp_mono (wp_insertCases (nk := key e) h3 hnd2 p3 (by simp only [BT.ids, List.length_append, List.length_cons]; omega)
        hg.2.1 hg.2.2) ?_
      rintro q s4 ⟨e4, c4, h4, f4⟩
      have hins : BT.ins key k e (.node i d l r) = BT.fixIns key (key e) (.node i d l (BT.ins key k e r)) := by
        simp only [BT.ins]; rw [if_neg hlt]
      rw [hins]
      refine ⟨e4, by rw [c4, c3, c2, c1], ⟨p, h4, fun _ => rfl⟩, ?_⟩
      have F3 : Fr (l.ids ++ i :: (BT.ins key k e r).ids) p side s2.n s3.n := .of_only k3'.1 (fun g hg => by simpa only [BT.ids] using hpi2 g hg)
      refine ((f2.trans F3).trans f4).mono (fun j hj => ?_)
      simp only [BT.ids, List.mem_append, List.mem_cons, List.not_mem_nil, or_false] at hj ⊢
      have := hsub j
      simp only [List.mem_cons] at this
      grind

end Insert

end Foronoi
