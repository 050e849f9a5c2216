import Verif.Spec.Avl
import Mathlib.Data.List.Perm.Basic
import Mathlib.Data.List.Sort
import Mathlib.Order.Basic

/-!
# AVL insertion and deletion on mathematical trees
-/

namespace Foronoi

open scoped List

variable {D K : Type} [LinearOrder K]

namespace BT

def rotL : BT D → BT D
  | node z dz a (node y dy b e) => node y dy (node z dz a b) e
  | t => t

def rotR : BT D → BT D
  | node z dz (node y dy e b) a => node y dy e (node z dz b a)
  | t => t

/-- The key of the root, or `k` for the empty tree. -/
def rootKey (key : D → K) (k : K) : BT D → K
  | nil => k
  | node _ d _ _ => key d

/-- What `insertCases` does. -/
def fixIns (key : D → K) (nk : K) : BT D → BT D
  | nil => nil
  | node i d l r =>
    if r.depth + 1 < l.depth ∧ nk < rootKey key nk l then rotR (node i d l r)
    else if l.depth + 1 < r.depth ∧ rootKey key nk r < nk then rotL (node i d l r)
    else if r.depth + 1 < l.depth ∧ rootKey key nk l < nk then rotR (node i d (rotL l) r)
    else if l.depth + 1 < r.depth ∧ nk < rootKey key nk r then rotL (node i d l (rotR r))
    else node i d l r

/-- What `insertT` does. -/
def ins (key : D → K) (k : Nat) (e : D) : BT D → BT D
  | nil => node k e nil nil
  | node i d l r => if key e < key d then fixIns key (key e) (node i d (ins key k e l) r) else fixIns key (key e) (node i d l (ins key k e r))

@[simp] theorem items_rotL (t : BT D) : t.rotL.items = t.items := by
  unfold rotL; split <;> simp [items]

@[simp] theorem items_rotR (t : BT D) : t.rotR.items = t.items := by
  unfold rotR; split <;> simp [items]

@[simp] theorem ids_rotL (t : BT D) : t.rotL.ids = t.ids := by
  unfold rotL; split <;> simp [ids]

@[simp] theorem ids_rotR (t : BT D) : t.rotR.ids = t.ids := by
  unfold rotR; split <;> simp [ids]

@[simp] theorem items_fixIns (key : D → K) (nk : K) (t : BT D) : (fixIns key nk t).items = t.items := by
  cases t with
  | nil => rfl
  | node i d l r => simp only [fixIns]; split_ifs <;> simp [items]

@[simp] theorem ids_fixIns (key : D → K) (nk : K) (t : BT D) : (fixIns key nk t).ids = t.ids := by
  cases t with
  | nil => rfl
  | node i d l r => simp only [fixIns]; split_ifs <;> simp [ids]

theorem items_ins (key : D → K) (k : Nat) (e : D) (t : BT D) : (ins key k e t).items ~ e :: t.items := by
  induction t with
  | nil => simp [ins, items]
  | node i d l r hl hr =>
    unfold ins
    split
    · rw [items_fixIns, items, items]
      exact hl.append_right _
    · rw [items_fixIns, items, items]
      refine ((hr.cons d).append_left _).trans ?_
      have := (List.perm_middle (l₁ := l.items ++ [d]) (a := e) (l₂ := r.items))
      simpa using this

theorem ids_ins (key : D → K) (k : Nat) (e : D) (t : BT D) : (ins key k e t).ids ~ k :: t.ids := by
  induction t with
  | nil => simp [ins, ids]
  | node i d l r hl hr =>
    unfold ins
    split
    · rw [ids_fixIns, ids, ids]
      exact hl.append_right _
    · rw [ids_fixIns, ids, ids]
      refine ((hr.cons i).append_left _).trans ?_
      have := (List.perm_middle (l₁ := l.ids ++ [i]) (a := k) (l₂ := r.ids))
      simpa using this

theorem sorted_ins {key : D → K} (k : Nat) {e : D} : ∀ {t : BT D}, (t.items.map key).Pairwise (· < ·) → key e ∉ t.items.map key →
    ((ins key k e t).items.map key).Pairwise (· < ·)
  | nil, _, _ => by simp [ins, items]
  | node i d l r, hs, hn => by
    simp only [items, List.map_append, List.map_cons, List.pairwise_append, List.pairwise_cons, List.mem_append, List.mem_cons, not_or] at hs hn
    obtain ⟨h1, ⟨h2, h3⟩, h4⟩ := hs
    obtain ⟨n1, n2, n3⟩ := hn
    unfold ins
    split
    · rename_i hlt
      rw [items_fixIns]
      simp only [items, List.map_append, List.map_cons, List.pairwise_append, List.pairwise_cons, List.mem_cons]
      refine ⟨sorted_ins k h1 n1, ⟨h2, h3⟩, ?_⟩
      intro a ha b hb
      have ha' : a ∈ (e :: l.items).map key := ((items_ins key k e l).map key).mem_iff.mp ha
      rw [List.map_cons, List.mem_cons] at ha'
      rcases ha' with rfl | ha'
      · rcases hb with rfl | hb
        · exact hlt
        · exact hlt.trans (h2 b hb)
      · exact h4 a ha' b hb
    · rename_i hlt
      have hlt : key d < key e := lt_of_le_of_ne (not_lt.mp hlt) (fun h => n2 h.symm)
      rw [items_fixIns]
      simp only [items, List.map_append, List.map_cons, List.pairwise_append, List.pairwise_cons, List.mem_cons]
      refine ⟨h1, ⟨?_, sorted_ins k h3 n3⟩, ?_⟩
      · intro b hb
        have hb' : b ∈ (e :: r.items).map key := ((items_ins key k e r).map key).mem_iff.mp hb
        rw [List.map_cons, List.mem_cons] at hb'
        rcases hb' with rfl | hb'
        · exact hlt
        · exact h2 b hb'
      · rintro a ha b (rfl | hb)
        · exact h4 a ha _ (Or.inl rfl)
        · have hb' : b ∈ (e :: r.items).map key := ((items_ins key k e r).map key).mem_iff.mp hb
          rw [List.map_cons, List.mem_cons] at hb'
          rcases hb' with rfl | hb'
          · exact (h4 a ha _ (Or.inl rfl)).trans hlt
          · exact h4 a ha _ (Or.inr hb')

theorem depth_pos_of_ne {t : BT D} (h : 0 < t.depth) : ∃ i d l r, t = node i d l r := by
  cases t with
  | nil => simp [depth] at h
  | node i d l r => exact ⟨i, d, l, r, rfl⟩

/-- What is known about a tree after an insertion of key `nk` that made it deeper. -/
def Grew (key : D → K) (nk : K) : BT D → Prop
  | nil => False
  | node _ d l r => (l = nil ∧ r = nil) ∨ (nk < key d ∧ l.depth = r.depth + 1) ∨ (key d < nk ∧ r.depth = l.depth + 1)

/-- The four cases restore the balance; afterwards the tree is as deep as before, or it was not rotated. -/
theorem fixIns_left {key : D → K} {nk : K} {i : Nat} {d : D} {l l' r : BT D} (hb : l.depth ≤ r.depth + 1 ∧ r.depth ≤ l.depth + 1)
    (hl' : l'.Balanced) (hr : r.Balanced) (hd : l'.depth = l.depth ∨ (l'.depth = l.depth + 1 ∧ Grew key nk l')) (hlt : nk < key d) :
    (fixIns key nk (node i d l' r)).Balanced ∧
      ((fixIns key nk (node i d l' r)).depth = (node i d l r).depth ∨
        ((fixIns key nk (node i d l' r)).depth = (node i d l r).depth + 1 ∧ Grew key nk (fixIns key nk (node i d l' r)))) := by
  by_cases hc : r.depth + 1 < l'.depth
  · obtain ⟨j, dj, a, b, rfl⟩ := depth_pos_of_ne (t := l') (by omega)
    obtain ⟨b1, b2, b3, b4⟩ := hl'
    have hg : Grew key nk (node j dj a b) := by rcases hd with h | h; omega; exact h.2
    have hd' : (node j dj a b).depth = l.depth + 1 := by omega
    rcases hg with ⟨rfl, rfl⟩ | ⟨g1, g2⟩ | ⟨g1, g2⟩
    · simp [depth] at hc
    · simp only [depth] at hc hd'
      simp only [fixIns, rootKey, g1, and_true, depth]
      rw [if_pos (by omega)]
      refine ⟨⟨by simp only [depth]; omega, by simp only [depth]; omega, b3, by omega, by omega, b4, hr⟩, Or.inl ?_⟩
      simp only [rotR, depth]; omega
    · obtain ⟨m, dm, u, v, rfl⟩ := depth_pos_of_ne (t := b) (by omega)
      obtain ⟨c1, c2, c3, c4⟩ := b4
      simp only [depth] at hc hd' g2 b1 b2
      simp only [fixIns, rootKey, g1, not_lt.mpr g1.le, and_true, and_false, if_false, depth]
      rw [if_neg (by omega), if_pos (by omega)]
      refine ⟨⟨by simp only [depth]; omega, by simp only [depth]; omega, ⟨by omega, by omega, b3, c3⟩, ⟨by omega, by omega, c4, hr⟩⟩, Or.inl ?_⟩
      simp only [rotL, rotR, depth]; omega
  · have e : fixIns key nk (node i d l' r) = node i d l' r := by
      simp only [fixIns]
      rw [if_neg (by tauto), if_neg (by omega), if_neg (by tauto), if_neg (by omega)]
    rw [e]
    refine ⟨⟨by omega, by omega, hl', hr⟩, ?_⟩
    simp only [depth, Grew]
    rcases hd with h | ⟨h, hg⟩
    · left; omega
    · by_cases h2 : l.depth = r.depth
      · right; exact ⟨by omega, Or.inr (Or.inl ⟨hlt, by omega⟩)⟩
      · left; omega

theorem fixIns_right {key : D → K} {nk : K} {i : Nat} {d : D} {l r r' : BT D} (hb : l.depth ≤ r.depth + 1 ∧ r.depth ≤ l.depth + 1)
    (hl : l.Balanced) (hr' : r'.Balanced) (hd : r'.depth = r.depth ∨ (r'.depth = r.depth + 1 ∧ Grew key nk r')) (hlt : key d < nk) :
    (fixIns key nk (node i d l r')).Balanced ∧
      ((fixIns key nk (node i d l r')).depth = (node i d l r).depth ∨
        ((fixIns key nk (node i d l r')).depth = (node i d l r).depth + 1 ∧ Grew key nk (fixIns key nk (node i d l r')))) := by
  by_cases hc : l.depth + 1 < r'.depth
  · obtain ⟨j, dj, a, b, rfl⟩ := depth_pos_of_ne (t := r') (by omega)
    obtain ⟨b1, b2, b3, b4⟩ := hr'
    have hg : Grew key nk (node j dj a b) := by rcases hd with h | h; omega; exact h.2
    have hd' : (node j dj a b).depth = r.depth + 1 := by omega
    rcases hg with ⟨rfl, rfl⟩ | ⟨g1, g2⟩ | ⟨g1, g2⟩
    · simp [depth] at hc
    · obtain ⟨m, dm, u, v, rfl⟩ := depth_pos_of_ne (t := a) (by omega)
      obtain ⟨c1, c2, c3, c4⟩ := b3
      simp only [depth] at hc hd' g2 b1 b2
      simp only [fixIns, rootKey, g1, not_lt.mpr g1.le, and_true, and_false, if_false, depth]
      rw [if_neg (by omega), if_neg (by omega), if_pos (by omega)]
      refine ⟨⟨by simp only [depth]; omega, by simp only [depth]; omega, ⟨by omega, by omega, hl, c3⟩, ⟨by omega, by omega, c4, b4⟩⟩, Or.inl ?_⟩
      simp only [rotL, rotR, depth]; omega
    · simp only [depth] at hc hd'
      simp only [fixIns, rootKey, g1, and_true, depth]
      rw [if_neg (by omega), if_pos (by omega)]
      refine ⟨⟨by simp only [depth]; omega, by simp only [depth]; omega, ⟨by omega, by omega, hl, b3⟩, b4⟩, Or.inl ?_⟩
      simp only [rotL, depth]; omega
  · have e : fixIns key nk (node i d l r') = node i d l r' := by
      simp only [fixIns]
      rw [if_neg (by omega), if_neg (by tauto), if_neg (by omega), if_neg (by tauto)]
    rw [e]
    refine ⟨⟨by omega, by omega, hl, hr'⟩, ?_⟩
    simp only [depth, Grew]
    rcases hd with h | ⟨h, hg⟩
    · left; omega
    · by_cases h2 : l.depth = r.depth
      · right; exact ⟨by omega, Or.inr (Or.inr ⟨hlt, by omega⟩)⟩
      · left; omega

theorem ins_balanced {key : D → K} (k : Nat) {e : D} : ∀ {t : BT D}, t.Balanced → key e ∉ t.items.map key →
    (ins key k e t).Balanced ∧ ((ins key k e t).depth = t.depth ∨ ((ins key k e t).depth = t.depth + 1 ∧ Grew key (key e) (ins key k e t)))
  | nil, _, _ => by simp [ins, Balanced, depth, Grew]
  | node i d l r, hb, hn => by
    obtain ⟨b1, b2, b3, b4⟩ := hb
    simp only [items, List.map_append, List.map_cons, List.mem_append, List.mem_cons, not_or] at hn
    obtain ⟨n1, n2, n3⟩ := hn
    unfold ins
    split
    · rename_i hlt
      obtain ⟨h1, h2⟩ := ins_balanced k b3 n1
      exact fixIns_left ⟨b1, b2⟩ h1 b4 h2 hlt
    · rename_i hlt
      have hlt : key d < key e := lt_of_le_of_ne (not_lt.mp hlt) (fun h => n2 h.symm)
      obtain ⟨h1, h2⟩ := ins_balanced k b4 n3
      exact fixIns_right ⟨b1, b2⟩ b3 h1 h2 hlt

/-! ### Deletion -/

/-- What `Tree.balance` does. -/
def bal : BT D → BT D
  | nil => nil
  | node i d l r =>
    if r.depth + 1 < l.depth then
      (match l with
        | nil => node i d l r
        | node _ _ a b => if b.depth ≤ a.depth then rotR (node i d l r) else rotR (node i d (rotL l) r))
    else if l.depth + 1 < r.depth then
      (match r with
        | nil => node i d l r
        | node _ _ a b => if a.depth ≤ b.depth then rotL (node i d l r) else rotL (node i d l (rotR r)))
    else node i d l r

@[simp] theorem items_bal (t : BT D) : t.bal.items = t.items := by
  cases t with
  | nil => rfl
  | node i d l r =>
    simp only [bal]
    split_ifs
    · cases l with
      | nil => rfl
      | node => simp only; split_ifs <;> simp [items]
    · cases r with
      | nil => rfl
      | node => simp only; split_ifs <;> simp [items]
    · rfl

@[simp] theorem ids_bal (t : BT D) : t.bal.ids = t.ids := by
  cases t with
  | nil => rfl
  | node i d l r =>
    simp only [bal]
    split_ifs
    · cases l with
      | nil => rfl
      | node => simp only; split_ifs <;> simp [ids]
    · cases r with
      | nil => rfl
      | node => simp only; split_ifs <;> simp [ids]
    · rfl

/-- What `deleteT` does; `none` is the AttributeError. -/
def del (key : D → K) (x : K) : BT D → Option (BT D)
  | nil => some nil
  | node i d l r =>
    if x < key d then (del key x l).map fun l' => bal (node i d l' r)
    else if key d < x then (del key x r).map fun r' => bal (node i d l r')
    else match l, r with
      | nil, r => some r
      | node j e a b, nil => some (node j e a b)
      | node .., node .. => none

theorem bal_balanced {i : Nat} {d : D} {l r : BT D} (hl : l.Balanced) (hr : r.Balanced) (h1 : l.depth ≤ r.depth + 2) (h2 : r.depth ≤ l.depth + 2) :
    (bal (node i d l r)).Balanced ∧ max l.depth r.depth ≤ (bal (node i d l r)).depth ∧ (bal (node i d l r)).depth ≤ 1 + max l.depth r.depth := by
  simp only [bal]
  split_ifs with c1 c2
  · obtain ⟨j, dj, a, b, rfl⟩ := depth_pos_of_ne (t := l) (by omega)
    obtain ⟨b1, b2, b3, b4⟩ := hl
    simp only [depth] at c1 h1 h2
    simp only
    split_ifs with c3
    · refine ⟨⟨by simp only [depth]; omega, by simp only [depth]; omega, b3, by omega, by omega, b4, hr⟩, ?_, ?_⟩ <;> simp only [rotR, depth] <;> omega
    · obtain ⟨m, dm, u, v, rfl⟩ := depth_pos_of_ne (t := b) (by omega)
      obtain ⟨d1, d2, d3, d4⟩ := b4
      simp only [depth] at c1 h1 h2 c3 b1 b2
      refine ⟨⟨by simp only [depth]; omega, by simp only [depth]; omega, ⟨by omega, by omega, b3, d3⟩, ⟨by omega, by omega, d4, hr⟩⟩, ?_, ?_⟩ <;>
        simp only [rotR, rotL, depth] <;> omega
  · obtain ⟨j, dj, a, b, rfl⟩ := depth_pos_of_ne (t := r) (by omega)
    obtain ⟨b1, b2, b3, b4⟩ := hr
    simp only [depth] at c2 h1 h2
    simp only
    split_ifs with c3
    · refine ⟨⟨by simp only [depth]; omega, by simp only [depth]; omega, ⟨by omega, by omega, hl, b3⟩, b4⟩, ?_, ?_⟩ <;> simp only [rotL, depth] <;> omega
    · obtain ⟨m, dm, u, v, rfl⟩ := depth_pos_of_ne (t := a) (by omega)
      obtain ⟨d1, d2, d3, d4⟩ := b3
      simp only [depth] at c2 h1 h2 c3 b1 b2
      refine ⟨⟨by simp only [depth]; omega, by simp only [depth]; omega, ⟨by omega, by omega, hl, d3⟩, ⟨by omega, by omega, d4, b4⟩⟩, ?_, ?_⟩ <;>
        simp only [rotR, rotL, depth] <;> omega
  · exact ⟨⟨by omega, by omega, hl, hr⟩, by simp only [depth]; omega, by simp only [depth]; omega⟩

theorem del_balanced {key : D → K} {x : K} : ∀ {t t' : BT D}, t.Balanced → del key x t = some t' →
    t'.Balanced ∧ t'.depth ≤ t.depth ∧ t.depth ≤ t'.depth + 1
  | nil, t', _, h => by
    simp only [del, Option.some.injEq] at h; subst h; simp [Balanced, depth]
  | node i d l r, t', hb, h => by
    obtain ⟨b1, b2, b3, b4⟩ := hb
    unfold del at h
    split_ifs at h with c1 c2
    · obtain ⟨l', hl', rfl⟩ := Option.map_eq_some_iff.mp h
      obtain ⟨g1, g2, g3⟩ := del_balanced b3 hl'
      obtain ⟨k1, k2, k3⟩ := bal_balanced (i := i) (d := d) g1 b4 (by omega) (by omega)
      refine ⟨k1, ?_, ?_⟩
      · simp only [depth]; omega
      · simp only [depth]
        have : l'.depth = l.depth ∨ r.depth + 1 < l'.depth ∨ True := by tauto
        by_cases hh : r.depth ≤ l'.depth + 1
        · have e : bal (node i d l' r) = node i d l' r := by simp only [bal]; rw [if_neg (by omega), if_neg (by omega)]
          rw [e, depth]; omega
        · omega
    · obtain ⟨r', hr', rfl⟩ := Option.map_eq_some_iff.mp h
      obtain ⟨g1, g2, g3⟩ := del_balanced b4 hr'
      obtain ⟨k1, k2, k3⟩ := bal_balanced (i := i) (d := d) b3 g1 (by omega) (by omega)
      refine ⟨k1, ?_, ?_⟩
      · simp only [depth]; omega
      · simp only [depth]
        by_cases hh : l.depth ≤ r'.depth + 1
        · have e : bal (node i d l r') = node i d l r' := by simp only [bal]; rw [if_neg (by omega), if_neg (by omega)]
          rw [e, depth]; omega
        · omega
    · cases l with
      | nil =>
        simp only [Option.some.injEq] at h; subst h
        simp only [depth] at *
        exact ⟨b4, by omega, by omega⟩
      | node j e a b =>
        cases r with
        | nil =>
          simp only [Option.some.injEq] at h; subst h
          refine ⟨b3, ?_, ?_⟩ <;> simp only [depth] at * <;> omega
        | node => cases h

theorem filter_all {l : List D} {p : D → Bool} (h : ∀ a ∈ l, p a = true) : l.filter p = l := List.filter_eq_self.mpr h

theorem del_items {key : D → K} {x : K} : ∀ {t t' : BT D}, (t.items.map key).Pairwise (· < ·) → del key x t = some t' →
    t'.items = t.items.filter (fun d => decide (key d ≠ x))
  | nil, t', _, h => by simp only [del, Option.some.injEq] at h; subst h; simp [items]
  | node i d l r, t', hs, h => by
    simp only [items, List.map_append, List.map_cons, List.pairwise_append, List.pairwise_cons, List.mem_cons] at hs
    obtain ⟨h1, ⟨h2, h3⟩, h4⟩ := hs
    have hr : ∀ a ∈ r.items, key d < key a := fun a ha => h2 _ (List.mem_map_of_mem ha)
    have hl : ∀ a ∈ l.items, key a < key d := fun a ha => h4 _ (List.mem_map_of_mem ha) _ (Or.inl rfl)
    simp only [items, List.filter_append, List.filter_cons]
    unfold del at h
    split_ifs at h with c1 c2
    · obtain ⟨l', hl', rfl⟩ := Option.map_eq_some_iff.mp h
      rw [items_bal, items, del_items h1 hl', filter_all (l := r.items) (fun a ha => by simpa using (c1.trans (hr a ha)).ne')]
      simp [c1.ne']
    · obtain ⟨r', hr', rfl⟩ := Option.map_eq_some_iff.mp h
      rw [items_bal, items, del_items h3 hr', filter_all (l := l.items) (fun a ha => by simpa using ((hl a ha).trans c2).ne)]
      simp [c2.ne]
    · have hx : key d = x := le_antisymm (not_lt.mp c1) (not_lt.mp c2)
      rw [filter_all (l := l.items) (fun a ha => by simpa using hx ▸ (hl a ha).ne),
        filter_all (l := r.items) (fun a ha => by simpa using hx ▸ (hr a ha).ne')]
      cases l with
      | nil => simp only [Option.some.injEq] at h; subst h; simp [items, hx]
      | node j e a b =>
        cases r with
        | nil => simp only [Option.some.injEq] at h; subst h; simp [items, hx]
        | node => cases h

/-- Deletion fails exactly if the node with the key has two children. -/
theorem del_none {key : D → K} {x : K} : ∀ {t : BT D}, (t.items.map key).Pairwise (· < ·) →
    (del key x t = none ↔ ∃ d, key d = x ∧ TwoChildren d t)
  | nil, _ => by simp [del, TwoChildren]
  | node i d l r, hs => by
    simp only [items, List.map_append, List.map_cons, List.pairwise_append, List.pairwise_cons, List.mem_cons] at hs
    obtain ⟨h1, ⟨h2, h3⟩, h4⟩ := hs
    have hr : ∀ a ∈ r.items, key d < key a := fun a ha => h2 _ (List.mem_map_of_mem ha)
    have hl : ∀ a ∈ l.items, key a < key d := fun a ha => h4 _ (List.mem_map_of_mem ha) _ (Or.inl rfl)
    have hmem : ∀ (t : BT D) (a : D), TwoChildren a t → a ∈ t.items := by
      intro t a
      induction t with
      | nil => simp [TwoChildren]
      | node j e u v hu hv =>
        simp only [TwoChildren, items, List.mem_append, List.mem_cons]
        rintro (h | h | h)
        · exact Or.inr (Or.inl h.1.symm)
        · exact Or.inl (hu h)
        · exact Or.inr (Or.inr (hv h))
    unfold del
    split_ifs with c1 c2
    · rw [Option.map_eq_none_iff, del_none h1]
      constructor
      · rintro ⟨a, ha, ht⟩; exact ⟨a, ha, Or.inr (Or.inl ht)⟩
      · rintro ⟨a, rfl, ht | ht | ht⟩
        · exact absurd c1 (by rw [ht.1]; exact lt_irrefl _)
        · exact ⟨a, rfl, ht⟩
        · exact absurd (c1.trans (hr a (hmem _ _ ht))) (lt_irrefl _)
    · rw [Option.map_eq_none_iff, del_none h3]
      constructor
      · rintro ⟨a, ha, ht⟩; exact ⟨a, ha, Or.inr (Or.inr ht)⟩
      · rintro ⟨a, rfl, ht | ht | ht⟩
        · exact absurd c2 (by rw [ht.1]; exact lt_irrefl _)
        · exact absurd (c2.trans (hl a (hmem _ _ ht))) (lt_irrefl _)
        · exact ⟨a, rfl, ht⟩
    · have hx : key d = x := le_antisymm (not_lt.mp c1) (not_lt.mp c2)
      have hno : ∀ a, key a = x → TwoChildren a (node i d l r) → a = d ∧ l.root ≠ none ∧ r.root ≠ none := by
        rintro a ha (ht | ht | ht)
        · exact ⟨ht.1.symm, ht.2⟩
        · exact absurd (hl a (hmem _ _ ht)) (by rw [ha, hx]; exact lt_irrefl _)
        · exact absurd (hr a (hmem _ _ ht)) (by rw [ha, hx]; exact lt_irrefl _)
      cases l with
      | nil =>
        simp only [reduceCtorEq, false_iff, not_exists, not_and]
        intro a ha ht
        exact (hno a ha ht).2.1 rfl
      | node j e a b =>
        cases r with
        | nil =>
          simp only [reduceCtorEq, false_iff, not_exists, not_and]
          intro a ha ht
          exact (hno a ha ht).2.2 rfl
        | node =>
          simp only [true_iff]
          exact ⟨d, hx, Or.inl ⟨rfl, by simp [root], by simp [root]⟩⟩

end BT

end Foronoi
