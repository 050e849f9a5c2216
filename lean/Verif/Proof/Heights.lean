import Verif.Proof.AvlDel
import Verif.Spec.Heights

/-!
# Cached heights: `update_heights` and `replace_leaf`
-/

namespace Foronoi

variable {D : Type} {E : Err → Prop}

theorem HoldsBut.holds {n : Nat → NodeR D} {x : Nat} : ∀ {t : BT D} {p : Option Nat}, HoldsBut n x p t → x ∉ t.ids → Holds n p t
  | .nil, _, _, _ => trivial
  | .node i d l r, p, ⟨h1, h2, h3, h4, h5, h6, h7⟩, hx =>
    ⟨h1, h2, h3, h4, h5 hx, h6.holds (fun h => hx (by simp [BT.ids, h])), h7.holds (fun h => hx (by simp [BT.ids, h]))⟩

theorem Holds.but {n : Nat → NodeR D} (x : Nat) : ∀ {t : BT D} {p : Option Nat}, Holds n p t → HoldsBut n x p t
  | .nil, _, _ => trivial
  | .node i d l r, p, ⟨h1, h2, h3, h4, h5, h6, h7⟩ => ⟨h1, h2, h3, h4, fun _ => h5, h6.but x, h7.but x⟩

theorem HoldsBut.congr {n n' : Nat → NodeR D} {x : Nat} : ∀ {t : BT D} {p : Option Nat}, HoldsBut n x p t → (∀ j ∈ t.ids, n' j = n j) →
    HoldsBut n' x p t
  | .nil, _, _, _ => trivial
  | .node i d l r, p, h, he => by
    obtain ⟨h1, h2, h3, h4, h5, h6, h7⟩ := h
    simp only [HoldsBut]
    rw [he i (by simp [BT.ids])]
    exact ⟨h1, h2, h3, h4, h5, h6.congr (fun j hj => he j (by simp [BT.ids, hj])), h7.congr (fun j hj => he j (by simp [BT.ids, hj]))⟩

theorem wp_optUp {s : NS D} {p : Option Nat} {i hf fuel : Nat} {Q : Unit → NS D → Prop} {l r : BT D} {d : D}
    (h1 : (s.n i).data = d) (h2 : (s.n i).left = l.root) (h3 : (s.n i).right = r.root) (h4 : (s.n i).parent = p)
    (h6 : Holds s.n (some i) l) (h7 : Holds s.n (some i) r) (hnd : (BT.node i d l r).ids.Nodup) (hhf : (BT.node i d l r).depth ≤ hf)
    (hQ : ∀ s', s'.cnt = s.cnt → Holds s'.n p (.node i d l r) → Hc (BT.node i d l r).ids s.n s'.n →
      Wp E (optDo p (fun q => updateHeights hf fuel q)) s' Q) :
    Wp E (updateHeights hf (fuel + 1) i) s Q := by
  simp only [updateHeights, wp_bind, wp_rd]
  simp only [BT.depth] at hhf
  refine wp_mono (wp_updH h2 h3 h6 h7 hnd (by omega) (by omega)) ?_
  rintro _ s1 ⟨c1, g1, k1⟩
  rw [h1, h4] at g1
  rw [g1.2.2.2.1]
  exact hQ s1 c1 g1 k1

theorem wp_up {hf : Nat} {Q : Unit → NS D → Prop} {x : Nat} : ∀ {t : BT D} {s : NS D} {p : Option Nat} {fuel : Nat}, HoldsBut s.n x p t →
    t.ids.Nodup → x ∈ t.ids → t.depth ≤ hf → t.depth ≤ fuel →
    (∀ s' f, s'.cnt = s.cnt → Holds s'.n p t → Hc t.ids s.n s'.n → fuel ≤ f + t.depth →
      Wp E (optDo p (fun q => updateHeights hf f q)) s' Q) →
    Wp E (updateHeights hf fuel x) s Q
  | .nil, s, p, fuel, h, hnd, hx, hhf, hfu, hQ => by simp [BT.ids] at hx
  | .node i d l r, s, p, fuel, h, hnd, hx, hhf, hfu, hQ => by
    have hd : (BT.node i d l r).depth = 1 + max l.depth r.depth := rfl
    have hid : (BT.node i d l r).ids = l.ids ++ i :: r.ids := rfl
    obtain ⟨h1, h2, h3, h4, h5, h6, h7⟩ := h
    have hnd' := hnd
    rw [hid] at hnd' hx
    rcases List.mem_append.mp hx with hl | hr
    · refine wp_up h6 (by grind) hl (by omega) (by omega) (fun s1 f c1 g1 k1 hf1 => ?_)
      obtain ⟨f, rfl⟩ : ∃ g, f = g + 1 := ⟨f - 1, by omega⟩
      have e1 : s1.n i = s.n i := k1.1 i (by grind)
      refine wp_optUp (d := d) (l := l) (r := r) (p := p) (by rw [e1, h1]) (by rw [e1, h2]) (by rw [e1, h3]) (by rw [e1, h4]) g1
        ((h7.holds (by grind)).congr (fun j hj => k1.1 j (by grind))) hnd hhf (fun s2 c2 g2 k2 => ?_)
      refine hQ s2 f (c2.trans c1) g2 ((k1.trans k2).mono (fun j hj => ?_)) (by omega)
      rw [hid] at hj ⊢; simp only [List.mem_append] at hj ⊢; tauto
    rcases List.mem_cons.mp hr with rfl | hr
    · obtain ⟨f, rfl⟩ : ∃ g, fuel = g + 1 := ⟨fuel - 1, by omega⟩
      refine wp_optUp (d := d) (l := l) (r := r) (p := p) h1 h2 h3 h4 (h6.holds (by grind)) (h7.holds (by grind)) hnd hhf (fun s2 c2 g2 k2 => ?_)
      exact hQ s2 f c2 g2 k2 (by omega)
    · refine wp_up h7 (by grind) hr (by omega) (by omega) (fun s1 f c1 g1 k1 hf1 => ?_)
      obtain ⟨f, rfl⟩ : ∃ g, f = g + 1 := ⟨f - 1, by omega⟩
      have e1 : s1.n i = s.n i := k1.1 i (by grind)
      refine wp_optUp (d := d) (l := l) (r := r) (p := p) (by rw [e1, h1]) (by rw [e1, h2]) (by rw [e1, h3]) (by rw [e1, h4])
        ((h6.holds (by grind)).congr (fun j hj => k1.1 j (by grind))) g1 hnd hhf (fun s2 c2 g2 k2 => ?_)
      refine hQ s2 f (c2.trans c1) g2 ((k1.trans k2).mono (fun j hj => ?_)) (by omega)
      rw [hid] at hj ⊢; simp only [List.mem_append, List.mem_cons] at hj ⊢; tauto

/-- `update_heights` from `x` on a tree in which only heights from `x` upwards are wrong. -/
theorem wp_upAll {s : NS D} {t : BT D} {x fuel : Nat} (h : HoldsBut s.n x none t) (hnd : t.ids.Nodup) (hx : x ∈ t.ids) (hf : t.ids.length ≤ fuel) :
    Wp E (updateHeights fuel fuel x) s (fun _ s' => s'.cnt = s.cnt ∧ Holds s'.n none t ∧ Hc t.ids s.n s'.n) := by
  have := t.depth_le
  refine wp_up h hnd hx (by omega) (by omega) (fun s' f c g k _ => ?_)
  simp only [optDo, wp_pure]
  exact ⟨c, g, k⟩

/-! ### replace_leaf -/

theorem subst_of_not_mem {i : Nat} {q : BT D} : ∀ {t : BT D}, i ∉ t.ids → BT.subst i q t = t
  | .nil, _ => rfl
  | .node j d l r, h => by
    simp only [BT.ids, List.mem_append, List.mem_cons, not_or] at h
    rw [BT.subst, if_neg (Ne.symm h.2.1), subst_of_not_mem h.1, subst_of_not_mem h.2.2]

theorem subst_root {i : Nat} {q : BT D} {t : BT D} (h : t.root ≠ some i) : (BT.subst i q t).root = t.root := by
  cases t with
  | nil => rfl
  | node j d l r =>
    rw [BT.subst, if_neg (by rintro rfl; exact h rfl)]; rfl

theorem subst_root' {i : Nat} {q : BT D} {t : BT D} (h : t.root = some i) : BT.subst i q t = q := by
  cases t with
  | nil => simp [BT.root] at h
  | node j d l r =>
    simp only [BT.root, Option.some.injEq] at h
    rw [BT.subst, if_pos h]

theorem mem_subst {i : Nat} {q : BT D} : ∀ {t : BT D}, i ∈ t.ids → ∀ x ∈ q.ids, x ∈ (BT.subst i q t).ids
  | .nil, h, _, _ => by simp [BT.ids] at h
  | .node j d l r, h, x, hx => by
    rw [BT.subst]
    split_ifs with hj
    · exact hx
    · simp only [BT.ids, List.mem_append, List.mem_cons] at h ⊢
      rcases h with h | h | h
      · exact Or.inl (mem_subst h x hx)
      · exact absurd h.symm hj
      · exact Or.inr (Or.inr (mem_subst h x hx))

/-- Where a node that is not the root hangs. -/
theorem parent_of {n : Nat → NodeR D} {i : Nat} : ∀ {t : BT D} {p : Option Nat}, Holds n p t → t.ids.Nodup → i ∈ t.ids → t.root ≠ some i →
    ∃ g ∈ t.ids, (n i).parent = some g ∧ g ≠ i ∧ ((n g).left = some i ∧ (n g).right ≠ some i ∨ (n g).left ≠ some i ∧ (n g).right = some i)
  | .nil, _, _, _, h, _ => by simp [BT.ids] at h
  | .node j d l r, p, h, hnd, hi, hr => by
    obtain ⟨h1, h2, h3, h4, h5, h6, h7⟩ := h
    simp only [BT.ids] at hnd hi ⊢
    simp only [BT.root, ne_eq, Option.some.injEq] at hr
    have hlr : ∀ {u : BT D} {k : Nat}, k ∉ u.ids → u.root ≠ some k := fun hk he => hk (BT.root_mem he)
    rcases List.mem_append.mp hi with hl | hi
    · by_cases hl' : l.root = some i
      · refine ⟨j, by simp, ?_, hr, Or.inl ⟨h2.trans hl', ?_⟩⟩
        · cases l with
          | nil => simp [BT.root] at hl'
          | node i' d' a b => simp only [BT.root, Option.some.injEq] at hl'; subst hl'; exact h6.2.2.2.1
        · rw [h3]; exact hlr (by grind)
      · obtain ⟨g, hg, h⟩ := parent_of h6 (by grind) hl hl'
        exact ⟨g, by simp [hg], h⟩
    rcases List.mem_cons.mp hi with rfl | hi
    · exact absurd rfl hr
    · by_cases hl' : r.root = some i
      · refine ⟨j, by simp, ?_, hr, Or.inr ⟨?_, h3.trans hl'⟩⟩
        · cases r with
          | nil => simp [BT.root] at hl'
          | node i' d' a b => simp only [BT.root, Option.some.injEq] at hl'; subst hl'; exact h7.2.2.2.1
        · rw [h2]; exact hlr (by grind)
      · obtain ⟨g, hg, h⟩ := parent_of h7 (by grind) hi hl'
        exact ⟨g, by simp [hg], h⟩

theorem mem_subst_parent {n : Nat → NodeR D} {i g : Nat} {q : BT D} (hg : (n i).parent = some g) : ∀ {t : BT D} {p : Option Nat}, Holds n p t → t.ids.Nodup →
    i ∈ t.ids → t.root ≠ some i → g ∈ (BT.subst i q t).ids
  | .nil, _, _, _, h, _ => by simp [BT.ids] at h
  | .node j d l r, p, h, hnd, hi, hr => by
    obtain ⟨h1, h2, h3, h4, h5, h6, h7⟩ := h
    have hr' : i ≠ j := by simpa [BT.root, eq_comm] using hr
    rw [BT.subst, if_neg (Ne.symm hr')]
    simp only [BT.ids] at hnd hi ⊢
    have key : ∀ {u : BT D}, Holds n (some j) u → u.root = some i → g = j := by
      intro u hu hu'
      cases u with
      | nil => simp [BT.root] at hu'
      | node i' d' a b =>
        simp only [BT.root, Option.some.injEq] at hu'; subst hu'
        have := hu.2.2.2.1
        rw [hg] at this; exact Option.some.inj this
    rcases List.mem_append.mp hi with hl | hi
    · by_cases hm : l.root = some i
      · simp [key h6 hm]
      · simp [mem_subst_parent (q := q) hg h6 (by grind) hl hm]
    rcases List.mem_cons.mp hi with rfl | hi
    · exact absurd rfl hr'
    · by_cases hm : r.root = some i
      · simp [key h7 hm]
      · simp [mem_subst_parent (q := q) hg h7 (by grind) hi hm]

theorem parent_not_mem {n : Nat → NodeR D} {i g : Nat} {q : BT D} (hg : (n i).parent = some g) : ∀ {t : BT D} {p : Option Nat}, Holds n p t → t.ids.Nodup →
    i ∈ t.ids → t.root ≠ some i → (BT.subst i q t).ids.Nodup → g ∉ q.ids
  | .nil, _, _, _, h, _, _ => by simp [BT.ids] at h
  | .node j d l r, p, h, hnd, hi, hr, hnd' => by
    obtain ⟨h1, h2, h3, h4, h5, h6, h7⟩ := h
    have hr' : i ≠ j := by simpa [BT.root, eq_comm] using hr
    rw [BT.subst, if_neg (Ne.symm hr')] at hnd'
    simp only [BT.ids] at hnd hi hnd'
    have key : ∀ {u : BT D}, Holds n (some j) u → u.root = some i → g = j := by
      intro u hu hu'
      cases u with
      | nil => simp [BT.root] at hu'
      | node i' d' a b =>
        simp only [BT.root, Option.some.injEq] at hu'; subst hu'
        have := hu.2.2.2.1
        rw [hg] at this; exact Option.some.inj this
    rcases List.mem_append.mp hi with hl | hi
    · by_cases hm : l.root = some i
      · rw [subst_root' hm] at hnd'; rw [key h6 hm]; grind
      · exact parent_not_mem hg h6 (by grind) hl hm (by grind)
    rcases List.mem_cons.mp hi with rfl | hi
    · exact absurd rfl hr'
    · by_cases hm : r.root = some i
      · rw [subst_root' hm] at hnd'; rw [key h7 hm]; grind
      · exact parent_not_mem hg h7 (by grind) hi hm (by grind)

/-- The store after hooking `q` in at the place of `i`. -/
theorem subst_holds {n n' : Nat → NodeR D} {i g x : Nat} {q : BT D} (hg : (n i).parent = some g) (hq : Holds n' (some g) q)
    (hx : x ∈ q.ids ∨ x = g) (hgi : g ≠ i)
    (hng : n' g = { n g with left := if (n g).left = some i then q.root else (n g).left, right := if (n g).right = some i then q.root else (n g).right }) :
    ∀ {t : BT D} {p : Option Nat}, Holds n p t → t.ids.Nodup → i ∈ t.ids → t.root ≠ some i → (BT.subst i q t).ids.Nodup → g ∉ q.ids →
      (∀ j ∈ (BT.subst i q t).ids, j ∉ q.ids → j ≠ g → n' j = n j) → HoldsBut n' x p (BT.subst i q t)
  | .nil, _, _, _, h, _, _, _, _ => by simp [BT.ids] at h
  | .node j d l r, p, h, hnd, hi, hr, hnd', hgq, hs => by
    obtain ⟨h1, h2, h3, h4, h5, h6, h7⟩ := h
    have hr' : i ≠ j := by simpa [BT.root, eq_comm] using hr
    rw [BT.subst, if_neg (Ne.symm hr')] at hnd' hs ⊢
    simp only [BT.ids] at hnd hi hnd' hs
    have key : ∀ {u : BT D}, Holds n (some j) u → u.root = some i → g = j := by
      intro u hu hu'
      cases u with
      | nil => simp [BT.root] at hu'
      | node i' d' a b =>
        simp only [BT.root, Option.some.injEq] at hu'; subst hu'
        have := hu.2.2.2.1
        rw [hg] at this; exact Option.some.inj this
    rcases List.mem_append.mp hi with hl | hi
    · skip
      have hio : i ∉ r.ids := by grind
      rw [subst_of_not_mem hio] at hnd' hs ⊢
      have hor : r.root ≠ some i := fun he => hio (BT.root_mem he)
      by_cases hm : l.root = some i
      · have hgj := key h6 hm
        subst hgj
        rw [subst_root' hm] at hnd' hs ⊢
        have ho : HoldsBut n' x (some g) r := ((h7).congr (fun k hk => hs k (by simp [hk]) (by grind) (by grind))).but x
        refine ⟨by rw [hng]; exact h1, ?_, ?_, by rw [hng]; exact h4, fun hx' => ?_, ?_⟩
        · rw [hng]; simp [h2, hm]
        · rw [hng]; simp [h3, hor]
        · simp only [BT.ids, List.mem_append, List.mem_cons, not_or] at hx'
          rcases hx with hx | hx
          · tauto
          · exact absurd hx hx'.2.1
        · exact ⟨(hq.but x), ho⟩
      · have hgm : g ∈ l.ids := by
          obtain ⟨g', hg', e, -⟩ := parent_of h6 (by grind) hl hm
          rw [hg] at e; cases e; exact hg'
        have hgs := mem_subst_parent (q := q) hg h6 (by grind) hl hm
        have hqs := mem_subst (q := q) hl
        have hjg : j ≠ g := by rintro rfl; grind
        have ej : n' j = n j := hs j (by simp) (fun hj => by have := hqs j hj; grind) hjg
        have ho : HoldsBut n' x (some j) r := ((h7).congr (fun k hk => hs k (by simp [hk]) (fun hk' => by have := hqs k hk'; grind) (by grind))).but x
        have hm' := subst_holds hg hq hx hgi hng h6 (by grind) hl hm (by grind) hgq (fun k hk => hs k (by simp [hk]))
        refine ⟨by rw [ej]; exact h1, ?_, ?_, by rw [ej]; exact h4, fun hx' => ?_, ?_⟩
        · rw [ej, h2]; exact (subst_root hm).symm
        · rw [ej, h3]
        · exfalso
          simp only [BT.ids, List.mem_append, List.mem_cons, not_or] at hx'
          rcases hx with hx | rfl
          · have := hqs x hx; tauto
          · tauto
        · exact ⟨hm', ho⟩
    rcases List.mem_cons.mp hi with rfl | hi
    · exact absurd rfl hr'
    · skip
      have hio : i ∉ l.ids := by grind
      rw [subst_of_not_mem hio] at hnd' hs ⊢
      have hor : l.root ≠ some i := fun he => hio (BT.root_mem he)
      by_cases hm : r.root = some i
      · have hgj := key h7 hm
        subst hgj
        rw [subst_root' hm] at hnd' hs ⊢
        have ho : HoldsBut n' x (some g) l := ((h6).congr (fun k hk => hs k (by simp [hk]) (by grind) (by grind))).but x
        refine ⟨by rw [hng]; exact h1, ?_, ?_, by rw [hng]; exact h4, fun hx' => ?_, ?_⟩
        · rw [hng]; simp [h2, hor]
        · rw [hng]; simp [h3, hm]
        · simp only [BT.ids, List.mem_append, List.mem_cons, not_or] at hx'
          rcases hx with hx | hx
          · tauto
          · exact absurd hx hx'.2.1
        · exact ⟨ho, (hq.but x)⟩
      · have hgm : g ∈ r.ids := by
          obtain ⟨g', hg', e, -⟩ := parent_of h7 (by grind) hi hm
          rw [hg] at e; cases e; exact hg'
        have hgs := mem_subst_parent (q := q) hg h7 (by grind) hi hm
        have hqs := mem_subst (q := q) hi
        have hjg : j ≠ g := by rintro rfl; grind
        have ej : n' j = n j := hs j (by simp) (fun hj => by have := hqs j hj; grind) hjg
        have ho : HoldsBut n' x (some j) l := ((h6).congr (fun k hk => hs k (by simp [hk]) (fun hk' => by have := hqs k hk'; grind) (by grind))).but x
        have hm' := subst_holds hg hq hx hgi hng h7 (by grind) hi hm (by grind) hgq (fun k hk => hs k (by simp [hk]))
        refine ⟨by rw [ej]; exact h1, ?_, ?_, by rw [ej]; exact h4, fun hx' => ?_, ?_⟩
        · rw [ej, h2]
        · rw [ej, h3]; exact (subst_root hm).symm
        · exfalso
          simp only [BT.ids, List.mem_append, List.mem_cons, not_or] at hx'
          rcases hx with hx | rfl
          · have := hqs x hx; tauto
          · tauto
        · exact ⟨ho, hm'⟩

theorem wp_replaceB {s : NS D} {t q : BT D} {pq : Option Nat} {i fuel : Nat} (h : Holds s.n none t) (hnd : t.ids.Nodup) (hi : i ∈ t.ids)
    (hq : Holds s.n pq q) (hiq : i ∉ q.ids) (hnd' : (BT.subst i q t).ids.Nodup) (hf : (BT.subst i q t).ids.length ≤ fuel) :
    Wp E (replaceLeaf fuel i q.root t.root) s (fun r s' => r = (BT.subst i q t).root ∧ s'.cnt = s.cnt ∧ Holds s'.n none (BT.subst i q t)) := by
  have hqi : q.root ≠ some i := fun he => hiq (BT.root_mem he)
  have hqn : q.ids.Nodup := by
    have : ∀ {u : BT D}, i ∈ u.ids → (BT.subst i q u).ids.Nodup → q.ids.Nodup := by
      intro u
      induction u with
      | nil => intro h; simp [BT.ids] at h
      | node j d l r hl hr =>
        intro h1 h2
        rw [BT.subst] at h2
        split_ifs at h2 with hj
        · exact h2
        · simp only [BT.ids, List.mem_append, List.mem_cons] at h1 h2
          rcases h1 with h1 | h1 | h1
          · exact hl h1 (by grind)
          · exact absurd h1.symm hj
          · exact hr h1 (by grind)
    exact this hi hnd'
  unfold replaceLeaf
  simp only [wp_bind, wp_rd]
  -- the root of the replacement gets the parent of `i`
  have step : ∀ (Q : Unit → NS D → Prop), (∀ n', (∀ j, q.root ≠ some j → n' j = s.n j) → (∀ j, q.root = some j → n' j = { s.n j with parent := (s.n i).parent }) →
      Q () ⟨n', s.cnt⟩) → Wp E (optDo q.root (fun q => updN q (fun x => { x with parent := (s.n i).parent }))) s Q := by
    intro Q hQ
    cases hr : q.root with
    | none => simp only [optDo, wp_pure]; exact hQ s.n (fun _ _ => rfl) (fun j hj => by rw [hr] at hj; simp at hj)
    | some c =>
      simp only [optDo, wp_updN]
      refine hQ _ (fun j hj => ?_) (fun j hj => ?_)
      · rw [Function.update_of_ne (by rintro rfl; exact hj hr)]
      · rw [hr] at hj; cases hj; rw [Function.update_self]
  refine step _ (fun n1 a1 a2 => ?_)
  have ei : n1 i = s.n i := a1 i hqi
  by_cases hroot : t.root = some i
  · rw [subst_root' hroot] at hnd' hf ⊢
    have hp : (s.n i).parent = none := by
      cases t with
      | nil => simp [BT.root] at hroot
      | node j d l r => simp only [BT.root, Option.some.injEq] at hroot; subst hroot; exact h.2.2.2.1
    simp only [hook, wp_bind, isLeftChild, isRightChild, wp_rd, ei, hp, wp_pure, Bool.false_eq_true, if_false]
    rw [hp] at a2
    have hq1 : Holds n1 none q := hq.reparent hqn (fun j hj hne => a1 j hne) a2
    cases q with
    | nil =>
      simp only [BT.root, refreshHeights, wp_bind, wp_rd, ei, hp, optDo, wp_pure]
      exact ⟨trivial, trivial, trivial⟩
    | node c e a b =>
      simp only [BT.root, refreshHeights]
      refine wp_mono (wp_upAll (s := ⟨n1, s.cnt⟩) (t := .node c e a b) (hq1.but c) hqn (by simp [BT.ids]) hf) ?_
      rintro _ s2 ⟨c2, g2, -⟩
      exact ⟨trivial, c2, g2⟩
  · obtain ⟨g, hgt, hg, hgi, hside⟩ := parent_of h hnd hi hroot
    have hgs := mem_subst_parent (q := q) hg h hnd hi hroot
    have hgq := parent_not_mem hg h hnd hi hroot hnd'
    have hqg : q.root ≠ some g := fun he => hgq (BT.root_mem he)
    have eg : n1 g = s.n g := a1 g hqg
    rw [hg] at a2
    -- after the pointer of `g` is set
    have fin : ∀ n2 : Nat → NodeR D, (∀ j, j ≠ g → n2 j = n1 j) →
        n2 g = { s.n g with left := if (s.n g).left = some i then q.root else (s.n g).left, right := if (s.n g).right = some i then q.root else (s.n g).right } →
        Wp E (refreshHeights fuel i q.root) ⟨n2, s.cnt⟩ (fun _ s' => t.root = (BT.subst i q t).root ∧ s'.cnt = s.cnt ∧ Holds s'.n none (BT.subst i q t)) := by
      intro n2 b1 b2
      have hq2 : Holds n2 (some g) q := hq.reparent hqn (fun j hj hne => by rw [b1 j (by rintro rfl; exact hgq hj), a1 j hne])
        (fun j hj => by rw [b1 j (by rintro rfl; exact hqg hj), a2 j hj])
      have hrest : ∀ j ∈ (BT.subst i q t).ids, j ∉ q.ids → j ≠ g → n2 j = s.n j := fun j _ hjq hjg => by
        rw [b1 j hjg, a1 j (fun he => hjq (BT.root_mem he))]
      have hr := subst_root (q := q) hroot
      cases hqr : q.root with
      | none =>
        have hb := subst_holds (x := g) hg hq2 (Or.inr rfl) hgi b2 h hnd hi hroot hnd' hgq hrest
        simp only [refreshHeights, wp_bind, wp_rd]
        rw [b1 i (Ne.symm hgi), ei, hg]
        simp only [optDo]
        refine wp_mono (wp_upAll (s := ⟨n2, s.cnt⟩) hb hnd' hgs hf) ?_
        rintro _ s2 ⟨c2, g2, -⟩
        exact ⟨hr.symm, c2, g2⟩
      | some c =>
        have hc := BT.root_mem hqr
        have hb := subst_holds (x := c) hg hq2 (Or.inl hc) hgi b2 h hnd hi hroot hnd' hgq hrest
        simp only [refreshHeights]
        refine wp_mono (wp_upAll (s := ⟨n2, s.cnt⟩) hb hnd' (mem_subst hi c hc) hf) ?_
        rintro _ s2 ⟨c2, g2, -⟩
        exact ⟨hr.symm, c2, g2⟩
    simp only [hook, wp_bind, isLeftChild, isRightChild, wp_rd, ei, hg, wp_pure, eg, wp_ite, beq_iff_eq]
    rcases hside with ⟨sl, sr⟩ | ⟨sl, sr⟩
    · refine ⟨fun _ => ?_, fun hc => absurd sl hc⟩
      rw [wp_deref]
      refine Or.inl ⟨g, rfl, ?_⟩
      refine wp_setLeftO g q.root ⟨n1, s.cnt⟩ _ (fun n2 b1 b2 b3 => ?_)
      refine fin n2 (fun j hj => ?_) ?_
      · by_cases hjq : q.root = some j
        · rw [b2 j hjq hj]; simp [a2 j hjq]
        · exact b1 j hjq hj
      · rw [b3 hqg]; simp [eg, sl, sr]
    · refine ⟨fun hc => absurd hc sl, fun _ => ⟨fun _ => ?_, fun hc => absurd sr hc⟩⟩
      rw [wp_deref]
      refine Or.inl ⟨g, rfl, ?_⟩
      refine wp_setRightO g q.root ⟨n1, s.cnt⟩ _ (fun n2 b1 b2 b3 => ?_)
      refine fin n2 (fun j hj => ?_) ?_
      · by_cases hjq : q.root = some j
        · rw [b2 j hjq hj]; simp [a2 j hjq]
        · exact b1 j hjq hj
      · rw [b3 hqg]; simp [eg, sl, sr]

end Foronoi
