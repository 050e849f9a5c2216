import Verif.Model.Heapq
import Mathlib.Data.List.Perm.Basic

/-!
# `heapq` is a priority queue
-/

namespace Foronoi

open scoped List

variable {E : Type}

/-- Strict weak order, as a Boolean test. -/
structure WeakOrder (lt : E → E → Bool) : Prop where
  asymm : ∀ a b, lt a b = true → lt b a = false
  negtrans : ∀ a b c, lt a b = false → lt b c = false → lt a c = false

/-- Not smaller, if both are present. -/
def NLt (lt : E → E → Bool) (a b : Option E) : Prop := ∀ x y, a = some x → b = some y → lt x y = false

/-- The heap property. -/
def IsHeap (lt : E → E → Bool) (h : List E) : Prop := ∀ i, 0 < i → NLt lt h[i]? h[(i - 1) / 2]?

variable {lt : E → E → Bool}

theorem split2 (h : List E) {i j : Nat} (hij : i < j) (hj : j < h.length) :
    ∃ A u B v C, h = A ++ u :: (B ++ v :: C) ∧ A.length = i ∧ i + 1 + B.length = j := by
  refine ⟨h.take i, h[i], (h.drop (i + 1)).take (j - i - 1), h[j], h.drop (j + 1), ?_, ?_, ?_⟩
  · have h1 : h = h.take i ++ h.drop i := (List.take_append_drop i h).symm
    have h2 : h.drop i = h[i] :: h.drop (i + 1) := List.drop_eq_getElem_cons (by omega)
    have h3 : h.drop (i + 1) = (h.drop (i + 1)).take (j - i - 1) ++ (h.drop (i + 1)).drop (j - i - 1) := (List.take_append_drop _ _).symm
    have h4 : (h.drop (i + 1)).drop (j - i - 1) = h[j] :: h.drop (j + 1) := by
      rw [List.drop_drop, show i + 1 + (j - i - 1) = j by omega]
      exact List.drop_eq_getElem_cons (by omega)
    rw [← h4, ← h3, ← h2, ← h1]
  · simp; omega
  · simp; omega

theorem set_swap_perm {h : List E} {i j : Nat} (hij : i ≠ j) (hi : i < h.length) {v x : E} (hv : h[j]? = some v) :
    ((h.set i v).set j x) ~ h.set i x := by
  have hj : j < h.length := (List.getElem?_eq_some_iff.mp hv).1
  rcases Nat.lt_or_gt_of_ne hij with hlt | hlt
  · obtain ⟨A, u, B, w, C, rfl, hA, hB⟩ := split2 h hlt hj
    subst hA
    have hB' : j = A.length + (1 + B.length) := by omega
    subst hB'
    have hw : w = v := by
      rw [List.getElem?_append_right (by omega)] at hv
      rw [show A.length + (1 + B.length) - A.length = B.length + 1 by omega, List.getElem?_cons_succ] at hv
      simpa using hv
    subst hw
    rw [List.set_append_right _ _ (Nat.le_refl _), List.set_append_right _ _ (by omega), List.set_append_right _ _ (Nat.le_refl _)]
    rw [Nat.sub_self, show A.length + (1 + B.length) - A.length = B.length + 1 by omega]
    simp only [List.set_cons_zero, List.set_cons_succ]
    rw [List.set_append_right _ _ (Nat.le_refl _), Nat.sub_self, List.set_cons_zero]
    refine List.Perm.append_left A ?_
    refine (List.perm_middle.cons _).trans (?_ : _ ~ x :: (B ++ w :: C))
    exact (List.Perm.swap _ _ _).trans (List.perm_middle.symm.cons _)
  · obtain ⟨A, u, B, w, C, rfl, hA, hB⟩ := split2 h hlt hi
    subst hA
    have hB' : i = A.length + (1 + B.length) := by omega
    subst hB'
    have hw : u = v := by
      rw [List.getElem?_append_right (Nat.le_refl _)] at hv
      simpa using hv
    subst hw
    rw [List.set_append_right _ _ (by omega), List.set_append_right _ _ (Nat.le_refl _), List.set_append_right _ _ (by omega)]
    rw [Nat.sub_self, show A.length + (1 + B.length) - A.length = B.length + 1 by omega]
    simp only [List.set_cons_zero, List.set_cons_succ]
    rw [List.set_append_right _ _ (Nat.le_refl _), Nat.sub_self, List.set_cons_zero, List.set_append_right _ _ (Nat.le_refl _), Nat.sub_self,
      List.set_cons_zero]
    refine List.Perm.append_left A ?_
    refine (List.perm_middle.cons _).trans ?_
    exact (List.Perm.swap _ _ _).trans (List.perm_middle.symm.cons _)

theorem siftdown_length (x : E) : ∀ (fuel pos : Nat) (h : List E), (siftdown lt x fuel pos h).length = h.length := by
  intro fuel
  induction fuel with
  | zero => intro pos h; simp [siftdown]
  | succ fuel ih =>
    intro pos h
    unfold siftdown
    split
    · split
      · split
        · rw [ih]; simp
        · simp
      · simp
    · simp

theorem siftdown_perm (x : E) : ∀ (fuel pos : Nat) (h : List E), pos < h.length → siftdown lt x fuel pos h ~ h.set pos x := by
  intro fuel
  induction fuel with
  | zero => intro pos h _; exact List.Perm.refl _
  | succ fuel ih =>
    intro pos h hp
    unfold siftdown
    split
    · rename_i hpos
      split
      · rename_i parent hpar
        split
        · refine (ih _ _ (by simp; omega)).trans ?_
          exact set_swap_perm (by omega) hp hpar
        · exact List.Perm.refl _
      · exact List.Perm.refl _
    · exact List.Perm.refl _

/-- `A` is a heap except that the entry at `pos` may be smaller than its parent; its children are not smaller than its parent. -/
structure HoleUp (lt : E → E → Bool) (pos : Nat) (A : List E) : Prop where
  heap : ∀ i, 0 < i → i ≠ pos → NLt lt A[i]? A[(i - 1) / 2]?
  grand : ∀ i, 0 < i → (i - 1) / 2 = pos → 0 < pos → NLt lt A[i]? A[(pos - 1) / 2]?

theorem NLt.of_not {a b : E} (h : lt a b = false) : NLt lt (some a) (some b) := by
  intro x y hx hy; cases hx; cases hy; exact h

theorem siftdown_heap (ho : WeakOrder lt) (x : E) : ∀ (fuel pos : Nat) (h : List E), pos < h.length → pos < fuel →
    HoleUp lt pos (h.set pos x) → IsHeap lt (siftdown lt x fuel pos h) := by
  intro fuel
  induction fuel with
  | zero => intro pos h _ hf; omega
  | succ fuel ih =>
    intro pos h hp hf hH
    unfold siftdown
    split
    · rename_i hpos
      have hpp : (pos - 1) / 2 < h.length := by omega
      split
      · rename_i parent hpar
        have hApos : (h.set pos x)[pos]? = some x := by simp [hp]
        have hApar : (h.set pos x)[(pos - 1) / 2]? = some parent := by
          rw [List.getElem?_set_ne (by omega)]; exact hpar
        split
        · rename_i hlt
          refine ih _ _ (by simp; omega) (by omega) ?_
          -- contents after the swap
          have hval : ∀ i, ((h.set pos parent).set ((pos - 1) / 2) x)[i]? =
              if i = (pos - 1) / 2 then some x else if i = pos then some parent else (h.set pos x)[i]? := by
            intro i
            by_cases h1 : i = (pos - 1) / 2
            · rw [if_pos h1, h1]; simp [hpp]
            · rw [if_neg h1, List.getElem?_set_ne (Ne.symm h1)]
              by_cases h2 : i = pos
              · rw [if_pos h2, h2]; simp [hp]
              · rw [if_neg h2, List.getElem?_set_ne (Ne.symm h2), List.getElem?_set_ne (Ne.symm h2)]
          constructor
          · intro i hi hne
            rw [hval, hval, if_neg hne]
            by_cases h2 : i = pos
            · rw [if_pos h2, h2, if_pos rfl]
              exact NLt.of_not (ho.asymm _ _ hlt)
            · rw [if_neg h2]
              by_cases h3 : (i - 1) / 2 = (pos - 1) / 2
              · rw [if_pos h3]
                have := hH.heap i hi h2
                rw [h3, hApar] at this
                intro a b ha hb
                cases hb
                exact ho.negtrans _ _ _ (this a parent ha rfl) (ho.asymm _ _ hlt)
              · rw [if_neg h3]
                by_cases h4 : (i - 1) / 2 = pos
                · rw [if_pos h4]
                  have := hH.grand i hi h4 hpos
                  rwa [hApar] at this
                · rw [if_neg h4]
                  exact hH.heap i hi h2
          · intro i hi hpi hpp0
            rw [hval, hval, if_neg (show i ≠ (pos - 1) / 2 by omega), if_neg (show (((pos - 1) / 2) - 1) / 2 ≠ (pos - 1) / 2 by omega),
              if_neg (show (((pos - 1) / 2) - 1) / 2 ≠ pos by omega)]
            have hpg := hH.heap ((pos - 1) / 2) hpp0 (by omega)
            rw [hApar] at hpg
            by_cases h2 : i = pos
            · rw [if_pos h2]; exact hpg
            · rw [if_neg h2]
              have h5 := hH.heap i hi h2
              rw [hpi, hApar] at h5
              intro a b ha hb
              exact ho.negtrans _ _ _ (h5 a parent ha rfl) (hpg parent b rfl hb)
        · rename_i hlt
          intro i hi
          by_cases h2 : i = pos
          · subst h2
            rw [hApos, hApar]
            exact NLt.of_not (by simpa using hlt)
          · exact hH.heap i hi h2
      · rename_i hnone
        have := List.getElem?_eq_none_iff.mp hnone
        omega
    · rename_i hpos
      intro i hi
      exact hH.heap i hi (by omega)

theorem heappush_heap (ho : WeakOrder lt) (x : E) {h : List E} (hh : IsHeap lt h) : IsHeap lt (heappush lt x h) := by
  unfold heappush
  refine siftdown_heap ho x _ _ _ (by simp) (by omega) ?_
  have hset : (h ++ [x]).set h.length x = h ++ [x] := by
    rw [List.set_append_right _ _ (Nat.le_refl _)]; simp
  rw [hset]
  constructor
  · intro i hi hne
    by_cases hlt : i < h.length
    · rw [List.getElem?_append_left hlt, List.getElem?_append_left (by omega)]
      exact hh i hi
    · intro a b ha
      have := (List.getElem?_eq_some_iff.mp ha).1
      simp at this; omega
  · intro i hi hpi _
    intro a b ha
    have := (List.getElem?_eq_some_iff.mp ha).1
    simp at this; omega

theorem heappush_perm (x : E) (h : List E) : heappush lt x h ~ x :: h := by
  unfold heappush
  refine (siftdown_perm x _ _ _ (by simp)).trans ?_
  rw [List.set_append_right _ _ (Nat.le_refl _)]
  simp

/-- `h` is a heap with a hole at `pos`: the entry there is ignored. -/
structure HoleDown (lt : E → E → Bool) (pos : Nat) (h : List E) : Prop where
  heap : ∀ i, 0 < i → i ≠ pos → (i - 1) / 2 ≠ pos → NLt lt h[i]? h[(i - 1) / 2]?
  grand : ∀ i, 0 < i → (i - 1) / 2 = pos → 0 < pos → NLt lt h[i]? h[(pos - 1) / 2]?

theorem HoleDown.move {pos c : Nat} {h : List E} (hH : HoleDown lt pos h) (hc : (c - 1) / 2 = pos) (hc0 : 0 < c) {v : E}
    (hv : h[c]? = some v) (hsib : ∀ i, 0 < i → (i - 1) / 2 = pos → i ≠ c → NLt lt h[i]? (some v)) : HoleDown lt c (h.set pos v) := by
  have hlt := (List.getElem?_eq_some_iff.mp hv).1
  have hpos : pos < h.length := by omega
  constructor
  · intro i hi hic hpi
    by_cases h1 : i = pos
    · rw [h1, List.getElem?_set_self hpos, List.getElem?_set_ne (by omega)]
      have := hH.grand c hc0 hc (by omega)
      rwa [hv] at this
    · rw [List.getElem?_set_ne (Ne.symm h1)]
      by_cases h2 : (i - 1) / 2 = pos
      · rw [h2, List.getElem?_set_self hpos]
        exact hsib i hi h2 hic
      · rw [List.getElem?_set_ne (Ne.symm h2)]
        exact hH.heap i hi h1 h2
  · intro i hi hic _
    rw [hc, List.getElem?_set_self hpos, List.getElem?_set_ne (by omega)]
    have := hH.heap i hi (by omega) (by omega)
    rwa [hic, hv] at this

theorem siftupLoop_spec (ho : WeakOrder lt) : ∀ (fuel pos : Nat) (h : List E), pos < h.length → h.length < fuel + pos → HoleDown lt pos h →
    ∃ pos' h', siftupLoop lt fuel pos h = (pos', h') ∧ pos' < h'.length ∧ h'.length = h.length ∧ HoleDown lt pos' h' ∧
      h'[2 * pos' + 1]? = none ∧ ∀ x, h'.set pos' x ~ h.set pos x := by
  intro fuel
  induction fuel with
  | zero => intro pos h hp hf; omega
  | succ fuel ih =>
    intro pos h hp hf hH
    unfold siftupLoop
    have hmove : ∀ c v, (c - 1) / 2 = pos → 0 < c → c ≠ pos → h[c]? = some v →
        (∀ i, 0 < i → (i - 1) / 2 = pos → i ≠ c → NLt lt h[i]? (some v)) →
        ∃ pos' h', siftupLoop lt fuel c (h.set pos v) = (pos', h') ∧ pos' < h'.length ∧ h'.length = h.length ∧ HoleDown lt pos' h' ∧
          h'[2 * pos' + 1]? = none ∧ ∀ x, h'.set pos' x ~ h.set pos x := by
      intro c v h1 h2 h3 h4 h5
      have hclt := (List.getElem?_eq_some_iff.mp h4).1
      obtain ⟨pos', h', g1, g2, g3, g4, g5, g6⟩ := ih c (h.set pos v) (by simpa using hclt) (by simp; omega) (hH.move h1 h2 h4 h5)
      refine ⟨pos', h', g1, g2, by simpa using g3, g4, g5, fun x => (g6 x).trans ?_⟩
      exact set_swap_perm (Ne.symm h3) hp h4
    split
    · rename_i l r hl hr
      split
      · rename_i hlr
        refine hmove (2 * pos + 2) r (by omega) (by omega) (by omega) hr ?_
        intro i hi h1 h2
        have : i = 2 * pos + 1 := by omega
        rw [this, hl]
        exact NLt.of_not (by simpa using hlr)
      · rename_i hlr
        refine hmove (2 * pos + 1) l (by omega) (by omega) (by omega) hl ?_
        intro i hi h1 h2
        have : i = 2 * pos + 2 := by omega
        rw [this, hr]
        exact NLt.of_not (ho.asymm _ _ (by simpa using hlr))
    · rename_i l hl hr
      refine hmove (2 * pos + 1) l (by omega) (by omega) (by omega) hl ?_
      intro i hi h1 h2
      have : i = 2 * pos + 2 := by omega
      rw [this, hr]
      intro x y hx; cases hx
    · rename_i hnone
      exact ⟨pos, h, rfl, hp, rfl, hH, hnone, fun x => List.Perm.refl _⟩

theorem heap_min (ho : WeakOrder lt) {h : List E} (hh : IsHeap lt h) {r : E} (hr : h[0]? = some r) :
    ∀ (i : Nat) x, h[i]? = some x → lt x r = false := by
  intro i
  induction i using Nat.strongRecOn with
  | _ i ih =>
    intro x hx
    by_cases h0 : i = 0
    · subst h0
      rw [hr] at hx; cases hx
      cases hc : lt r r with
      | false => rfl
      | true => rw [ho.asymm _ _ hc] at hc; cases hc
    · have hlt := (List.getElem?_eq_some_iff.mp hx).1
      have hp : h[(i - 1) / 2]? = some (h[(i - 1) / 2]'(by omega)) := List.getElem?_eq_getElem _
      exact ho.negtrans _ _ _ (hh i (by omega) x _ hx hp) (ih _ (by omega) _ hp)

theorem heappop_cases (ho : WeakOrder lt) {h : List E} (hh : IsHeap lt h) :
    (h = [] ∧ heappop lt h = none) ∨ ∃ r h', heappop lt h = some (r, h') ∧ IsHeap lt h' ∧ h ~ r :: h' ∧ h[0]? = some r := by
  rcases List.eq_nil_or_concat h with rfl | ⟨L, last, rfl⟩
  · left; exact ⟨rfl, rfl⟩
  · right
    rw [List.concat_eq_append] at hh ⊢
    cases L with
    | nil =>
      refine ⟨last, [], by simp [heappop], ?_, List.Perm.refl _, rfl⟩
      intro i _ x y hx; simp at hx
    | cons r t =>
      have hH : HoleDown lt 0 (last :: t) := by
        constructor
        · intro i hi h0 hp0 x y hx hy
          have hi' : i < t.length + 1 := by simpa using (List.getElem?_eq_some_iff.mp hx).1
          have e1 : ((r :: t) ++ [last])[i]? = some x := by
            rw [List.getElem?_append_left (by simpa using hi')]
            obtain ⟨j, rfl⟩ : ∃ j, i = j + 1 := ⟨i - 1, by omega⟩
            simpa using hx
          have e2 : ((r :: t) ++ [last])[(i - 1) / 2]? = some y := by
            rw [List.getElem?_append_left (by simp; omega)]
            obtain ⟨j, hj⟩ : ∃ j, (i - 1) / 2 = j + 1 := ⟨(i - 1) / 2 - 1, by omega⟩
            rw [hj] at hy ⊢
            simpa using hy
          exact hh i hi x y e1 e2
        · intro i _ _ h0; omega
      obtain ⟨pos', h', g1, g2, g3, g4, g5, g6⟩ := siftupLoop_spec ho (t.length + 2) 0 (last :: t) (by simp) (by simp) hH
      refine ⟨r, siftdown lt last (h'.length + 1) pos' h', ?_, ?_, ?_, by simp⟩
      · have hl : (r :: t ++ [last]).getLast? = some last := List.getLast?_append_of_ne_nil _ (by simp) |>.trans rfl
        have hd : (r :: t ++ [last]).dropLast = r :: t := List.dropLast_concat
        unfold heappop
        rw [hl, hd]
        simp only [g1]
      · refine siftdown_heap ho last _ _ _ g2 (by omega) ⟨?_, ?_⟩
        · intro i hi hne
          rw [List.getElem?_set_ne (Ne.symm hne)]
          have hpar : (i - 1) / 2 ≠ pos' ∨ h'[i]? = none := by
            by_cases hh : (i - 1) / 2 = pos'
            · right
              have := List.getElem?_eq_none_iff.mp g5
              exact List.getElem?_eq_none_iff.mpr (by omega)
            · left; exact hh
          rcases hpar with hpar | hpar
          · rw [List.getElem?_set_ne (Ne.symm hpar)]
            exact g4.heap i hi hne hpar
          · rw [hpar]; intro x y hx; cases hx
        · intro i hi hpi hp0
          have := List.getElem?_eq_none_iff.mp g5
          have hn : (h'.set pos' last)[i]? = none := List.getElem?_eq_none_iff.mpr (by simp; omega)
          rw [hn]; intro x y hx; cases hx
      · refine (?_ : r :: t ++ [last] ~ r :: (last :: t)).trans ((?_ : last :: t ~ _).cons r)
        · exact (List.perm_append_singleton last t).cons r
        · refine ((siftdown_perm last _ _ _ g2).trans ?_).symm
          have := g6 last
          simpa using this

/-- CPython's `heapq` is a priority queue for every strict weak order. -/
theorem heapq_spec (ho : WeakOrder lt) : PQ.Spec (⟨heappush lt, heappop lt⟩ : PQ E) lt (IsHeap lt) where
  ok_nil := by intro i _ x y hx; simp at hx
  push_ok := fun e l h => heappush_heap ho e h
  push_perm := fun e l _ => heappush_perm e l
  pop_none := by
    intro l hl
    rcases heappop_cases ho hl with ⟨h1, h2⟩ | ⟨r, h', h1, _, h3, _⟩
    · simp [h1, h2] at *
      exact h2
    · simp only [h1, reduceCtorEq, false_iff]
      rintro rfl
      have := h3.length_eq
      simp at this
  pop_ok := by
    intro l e r hl hp
    rcases heappop_cases ho hl with ⟨h1, h2⟩ | ⟨r', h', h1, h2, h3, _⟩
    · simp only [h2] at hp; cases hp
    · simp only [h1, Option.some.injEq, Prod.mk.injEq] at hp
      rw [← hp.2]; exact h2
  pop_perm := by
    intro l e r hl hp
    rcases heappop_cases ho hl with ⟨h1, h2⟩ | ⟨r', h', h1, h2, h3, _⟩
    · simp only [h2] at hp; cases hp
    · simp only [h1, Option.some.injEq, Prod.mk.injEq] at hp
      rw [← hp.1, ← hp.2]; exact h3
  pop_min := by
    intro l e r hl hp x hx
    rcases heappop_cases ho hl with ⟨h1, h2⟩ | ⟨r', h', h1, h2, h3, h4⟩
    · simp only [h2] at hp; cases hp
    · simp only [h1, Option.some.injEq, Prod.mk.injEq] at hp
      obtain ⟨rfl, rfl⟩ := hp
      have hm : x ∈ l := h3.mem_iff.mpr (by simp [hx])
      obtain ⟨i, hi⟩ := List.getElem?_of_mem hm
      exact heap_min ho hl h4 i x hi

variable {K : Type} [LinearOrder K]

theorem evLt_iff (a b : QE K) : evLt a b = true ↔ b.yd < a.yd ∨ (a.yd = b.yd ∧ (a.xd < b.xd ∨ (a.xd = b.xd ∧ a.circ = true ∧ b.circ = false))) := by
  unfold evLt
  grind

theorem evLt_weak : WeakOrder (evLt (K := K)) where
  asymm := by
    intro a b h
    rw [Bool.eq_false_iff]
    intro h'
    rw [evLt_iff] at h h'
    rcases h with h | ⟨h1, h | ⟨h, h2, h3⟩⟩ <;> rcases h' with h' | ⟨h1', h' | ⟨h', h2', h3'⟩⟩ <;> grind
  negtrans := by
    intro a b c hab hbc
    rw [Bool.eq_false_iff, Ne, evLt_iff] at *
    grind

end Foronoi
