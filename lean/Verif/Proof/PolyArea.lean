import Verif.Proof.Volume
import Verif.Proof.Convex
import Verif.Proof.Clipped
import Verif.Proof.Exit
import Verif.Props.Area

/-!
# The shoelace formula gives the area of the region
-/

namespace Foronoi

open MeasureTheory

theorem pathSum_range (P : Nat → Pt) (k : Nat) : pathSum ((List.range (k + 1)).map P) = ∑ i ∈ Finset.range k, cross2 (P i) (P (i + 1)) := by
  induction k with
  | zero => simp [pathSum]
  | succ k ih =>
    rw [Finset.sum_range_succ, ← ih]
    have e1 : (List.range (k + 1 + 1)).map P = (List.range k).map P ++ P k :: [P (k + 1)] := by
      rw [List.range_succ, List.range_succ]; simp
    have e2 : (List.range (k + 1)).map P = (List.range k).map P ++ [P k] := by
      rw [List.range_succ]; simp
    rw [e1, e2, pathSum_append]
    simp [pathSum]

theorem signed2_range {P : Nat → Pt} {k : Nat} (hk : 0 < k) (hc : P k = P 0) (c : Pt) :
    signed2 ((List.range k).map P) = -∑ i ∈ Finset.range k, rightOf c (P i) (P (i + 1)) := by
  have e1 : signed2 ((List.range k).map P) = pathSum ((List.range (k + 1)).map P) := by
    rw [List.range_succ, List.map_append]
    obtain ⟨m, rfl⟩ : ∃ m, k = m + 1 := ⟨k - 1, by omega⟩
    simp only [List.map_cons, List.map_nil, hc]
    rw [List.range_succ_eq_map]
    rfl
  have e2 : ∀ m, ∑ i ∈ Finset.range m, rightOf c (P i) (P (i + 1)) =
      -(∑ i ∈ Finset.range m, cross2 (P i) (P (i + 1))) + cross2 (P 0) c - cross2 (P m) c := by
    intro m
    induction m with
    | zero => simp
    | succ m ih =>
      rw [Finset.sum_range_succ, Finset.sum_range_succ, ih]
      unfold cross2 rightOf; ring
  rw [e1, pathSum_range, e2, hc]; ring

/-- The shoelace formula on the corners of a region. -/
theorem Star.area {S : Set Pt} {c : Pt} {P : Nat → Pt} {k : Nat} (h : Star S c P k) :
    volume S = ENNReal.ofReal (areaOf ((List.range k).map P)) ∧ 0 < areaOf ((List.range k).map P) := by
  have hk : 0 < k := by obtain ⟨i, hi, _⟩ := h.moves; omega
  have hs := h.sum_pos
  rw [← Finset.sum_div] at hs
  have : areaOf ((List.range k).map P) = ∑ i ∈ Finset.range k, rightOf c (P i) (P (i + 1)) / 2 := by
    rw [areaOf_eq, signed2_range hk h.close c, abs_neg, ← Finset.sum_div, abs_of_pos (by linarith)]
  rw [this]
  exact ⟨h.volume_eq, h.sum_pos⟩

variable {l : List Pt}

/-- A convex polygon around a point inside. -/
theorem convex_star (h : ClockwiseConvex l) {c : Pt} (hc : StrictlyInside l c) : Star {z | InClosed l z} c (corner l) l.length where
  close := corner_wrap l
  turn i hi := Or.inr (by rw [← rightOf_cyc]; exact hc i hi)
  moves := by
    have h3 := h.1
    refine ⟨0, by omega, fun hh => ?_⟩
    have := hc 0 (by omega)
    rw [hh] at this
    have e : rightOf (corner l (0 + 1)) (corner l (0 + 1)) c = 0 := by unfold rightOf; ring
    rw [e] at this
    exact lt_irrefl _ this
  region z := Iff.rfl
  corners i hi := fun j hj => h.side hj hi
  once i hi j hj w hb w1 w2 hb' w1' w2' := by
    by_contra hij
    have hw0 : rightOf (corner l i) (corner l (i + 1)) w = 0 := by
      obtain ⟨u, _, _, rfl⟩ := hb
      unfold rightOf; ring
    obtain ⟨u, u0, u1, hu⟩ := hb'
    have u0' : 0 < u := lt_of_le_of_ne u0 fun h => w1' (by rw [hu, ← h]; refine Prod.ext ?_ ?_ <;> simp)
    have u1' : u < 1 := lt_of_le_of_ne u1 fun h => w2' (by rw [hu, h]; refine Prod.ext ?_ ?_ <;> simp)
    have h3 := h.1
    have hlt : (j + 1) % l.length < l.length := Nat.mod_lt _ (by omega)
    have a1 := h.side hi hj
    have a2 := h.side hi hlt
    rw [corner_mod] at a2
    have e : rightOf (corner l i) (corner l (i + 1)) w = (1 - u) * rightOf (corner l i) (corner l (i + 1)) (corner l j) +
        u * rightOf (corner l i) (corner l (i + 1)) (corner l (j + 1)) := by
      rw [hu]; unfold rightOf; ring
    have k1 := mul_nonneg (sub_pos.mpr u1').le a1
    have k2 := mul_nonneg u0 a2
    by_cases hj1 : j = (i + 1) % l.length
    · have : 0 < rightOf (corner l i) (corner l (i + 1)) (corner l ((j + 1) % l.length)) := by
        refine h.side_lt hi hlt ?_ ?_
        · intro hh
          rcases Nat.lt_or_ge (i + 1) l.length with h4 | h4
          · rw [Nat.mod_eq_of_lt h4] at hj1
            rcases Nat.lt_or_ge (j + 1) l.length with h5 | h5
            · rw [Nat.mod_eq_of_lt h5] at hh; omega
            · have : j + 1 = l.length := by omega
              rw [this, Nat.mod_self] at hh; omega
          · have : i + 1 = l.length := by omega
            rw [this, Nat.mod_self] at hj1
            rw [hj1, Nat.mod_eq_of_lt (by omega)] at hh; omega
        · rw [← hj1]
          intro hh
          rcases Nat.lt_or_ge (j + 1) l.length with h5 | h5
          · rw [Nat.mod_eq_of_lt h5] at hh; omega
          · have : j + 1 = l.length := by omega
            rw [this, Nat.mod_self] at hh; omega
      rw [corner_mod] at this
      have := mul_pos u0' this
      linarith
    · have := mul_pos (sub_pos.mpr u1') (h.side_lt hi hj (Ne.symm hij) hj1)
      linarith

theorem corner_range (l : List Pt) : (List.range l.length).map (corner l) = l := by
  refine List.ext_getElem (by simp) ?_
  intro i h1 h2
  simp [corner, Nat.mod_eq_of_lt h2, List.getD_eq_getElem?_getD, List.getElem?_eq_getElem h2]

/-- The shoelace formula gives the area of a convex polygon with a point inside. -/
theorem convex_area (h : ClockwiseConvex l) {c : Pt} (hc : StrictlyInside l c) :
    volume {z | InClosed l z} = ENNReal.ofReal (areaOf l) ∧ 0 < areaOf l := by
  have := (convex_star h hc).area
  rwa [corner_range] at this

end Foronoi
