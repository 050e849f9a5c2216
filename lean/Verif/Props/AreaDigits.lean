import Verif.Model.AreaDigits
import Verif.Props.AnySites
import Verif.Props.BorderVertex
import Verif.Props.Floats
import Verif.Props.CleanTotal
import Verif.Proof.Shortest

/-!
# C129: rounded areas
-/

namespace Foronoi

section any
variable {K : Type} [LinearOrder K] [Arith K]

theorem areaDigits_eq (rint : K → K) (fuel p : Nat) (d : Option Int) (s : Dcel K) :
    areaDigits rint fuel p d s = (area fuel p s).map fun r => ((match d with | some d => npRound rint r.1 d | none => r.1), r.2) := by
  unfold areaDigits area
  show (getXY fuel p s).bind _ = ((getXY fuel p s).bind _).map _
  cases getXY fuel p s with
  | error e => rfl
  | ok r => cases d <;> rfl

/-- C129: without `digits`, `area` returns the value as it is. -/
theorem C129_none (rint : K → K) (fuel p : Nat) (s : Dcel K) : areaDigits rint fuel p none s = area fuel p s := by
  rw [areaDigits_eq]
  cases area fuel p s <;> rfl

/-- C129: rounding raises no new errors and hides none. -/
theorem C129_raises (rint : K → K) (fuel p : Nat) (d : Option Int) (s : Dcel K) (e : Err) :
    areaDigits rint fuel p d s = .error e ↔ area fuel p s = .error e := by
  rw [areaDigits_eq]
  cases area fuel p s <;> simp [Except.map]

end any

/-- `y` is `x` rounded to `d` decimals: a multiple of `10 ^ (-d)`, none is nearer, and if another one is equally near it is an even multiple. -/
def RoundedTo (d : ℤ) (x y : ℝ) : Prop :=
  ∃ m : ℤ, y = m * (10 : ℝ) ^ (-d) ∧ (∀ k : ℤ, |y - x| ≤ |k * (10 : ℝ) ^ (-d) - x|) ∧ ∀ k : ℤ, k ≠ m → |k * (10 : ℝ) ^ (-d) - x| = |y - x| → Even m

/-- The rounded value is at most half a unit away. -/
theorem RoundedTo.err {d : ℤ} {x y : ℝ} (h : RoundedTo d x y) : |y - x| ≤ (10 : ℝ) ^ (-d) / 2 := by
  obtain ⟨m, _, h2, _⟩ := h
  have hu : (0 : ℝ) < 10 ^ (-d) := by positivity
  refine (h2 (round (x / 10 ^ (-d)))).trans ?_
  have := abs_sub_round (x / (10 : ℝ) ^ (-d))
  have e : (round (x / (10 : ℝ) ^ (-d)) : ℝ) * 10 ^ (-d) - x = - ((x / 10 ^ (-d) - round (x / (10 : ℝ) ^ (-d))) * 10 ^ (-d)) := by
    field_simp; ring
  rw [e, abs_neg, abs_mul, abs_of_pos hu]
  nlinarith

/-- There is only one such value. -/
theorem RoundedTo.unique {d : ℤ} {x y z : ℝ} (h : RoundedTo d x y) (h' : RoundedTo d x z) : y = z := by
  obtain ⟨m, rfl, h2, h3⟩ := h
  obtain ⟨k, rfl, k2, k3⟩ := h'
  by_contra hne
  have hmk : k ≠ m := fun h => hne (by rw [h])
  have heq : |k * (10 : ℝ) ^ (-d) - x| = |m * (10 : ℝ) ^ (-d) - x| := le_antisymm (k2 m) (h2 k)
  have e1 := h3 k hmk heq
  have e2 := k3 m hmk.symm heq.symm
  have hu : (0 : ℝ) < 10 ^ (-d) := by positivity
  rcases abs_eq_abs.mp heq with h | h
  · exact hne (by linarith)
  · -- the middle of `m` and `k` is a multiple and nearer
    obtain ⟨a, rfl⟩ := e1
    obtain ⟨b, rfl⟩ := e2
    have := h2 (a + b)
    push_cast at this h
    have hx : ((a : ℝ) + b) * 10 ^ (-d) - x = 0 := by linarith
    rw [hx, abs_zero] at this
    have h0 := abs_nonpos_iff.mp this
    push_cast at hne
    apply hne
    linarith

/-- What numpy documents about `rint`. -/
def IsRint (rint : ℝ → ℝ) : Prop := ∀ x, RoundedTo 0 x (rint x)

/-- There is such a function. -/
theorem exists_rint : ∃ rint, IsRint rint := by
  suffices h : ∀ x : ℝ, ∃ y, RoundedTo 0 x y from ⟨fun x => (h x).choose, fun x => (h x).choose_spec⟩
  intro x
  have h1 := Int.floor_le x
  have h2 := Int.lt_floor_add_one x
  set f := ⌊x⌋
  have low : ∀ k : ℤ, k < f → x - f + 1 ≤ |(k : ℝ) - x| := fun k hk => by
    have : (k : ℝ) + 1 ≤ f := by exact_mod_cast hk
    rw [abs_of_neg (by linarith)]; linarith
  have high : ∀ k : ℤ, f + 1 < k → f + 2 - x ≤ |(k : ℝ) - x| := fun k hk => by
    have : (f : ℝ) + 1 + 1 ≤ k := by exact_mod_cast hk
    rw [abs_of_pos (by linarith)]; linarith
  have e1 : |(f : ℝ) - x| = x - f := by rw [abs_of_nonpos (by linarith)]; ring
  have e2 : |((f + 1 : ℤ) : ℝ) - x| = f + 1 - x := by push_cast; rw [abs_of_pos (by linarith)]
  have cases4 : ∀ k : ℤ, k < f ∨ k = f ∨ k = f + 1 ∨ f + 1 < k := fun k => by omega
  rcases lt_trichotomy (x - f) (1 / 2) with h | h | h
  · refine ⟨f, f, by simp, fun k => ?_, fun k hk hh => ?_⟩ <;> simp only [neg_zero, zpow_zero, mul_one] at *
    · rw [e1]
      rcases cases4 k with c | rfl | rfl | c
      · linarith [low k c]
      · rw [e1]
      · rw [e2]; linarith
      · linarith [high k c]
    · rw [e1] at hh
      rcases cases4 k with c | rfl | rfl | c
      · linarith [low k c]
      · exact absurd rfl hk
      · rw [e2] at hh; linarith
      · linarith [high k c]
  · rcases Int.even_or_odd f with ev | od
    · refine ⟨f, f, by simp, fun k => ?_, fun k hk hh => ev⟩
      simp only [neg_zero, zpow_zero, mul_one] at *
      rw [e1]
      rcases cases4 k with c | rfl | rfl | c
      · linarith [low k c]
      · rw [e1]
      · rw [e2]; linarith
      · linarith [high k c]
    · refine ⟨(f + 1 : ℤ), f + 1, by simp, fun k => ?_, fun k hk hh => od.add_one⟩
      simp only [neg_zero, zpow_zero, mul_one] at *
      rw [e2]
      rcases cases4 k with c | rfl | rfl | c
      · linarith [low k c]
      · rw [e1]; linarith
      · rw [e2]
      · linarith [high k c]
  · refine ⟨(f + 1 : ℤ), f + 1, by simp, fun k => ?_, fun k hk hh => ?_⟩ <;> simp only [neg_zero, zpow_zero, mul_one] at *
    · rw [e2]
      rcases cases4 k with c | rfl | rfl | c
      · linarith [low k c]
      · rw [e1]; linarith
      · rw [e2]
      · linarith [high k c]
    · rw [e2] at hh
      rcases cases4 k with c | rfl | rfl | c
      · linarith [low k c]
      · rw [e1] at hh; linarith
      · exact absurd rfl hk
      · linarith [high k c]

theorem npRound_real {rint : ℝ → ℝ} (hr : IsRint rint) (x : ℝ) (d : ℤ) : RoundedTo d x (npRound rint x d) := by
  have key : npRound rint x d = rint (x * 10 ^ d) * (10 : ℝ) ^ (-d) := by
    unfold npRound
    show (if 0 ≤ d then rint (x * (((10 ^ d.natAbs : ℤ)) : ℝ)) / (((10 ^ d.natAbs : ℤ)) : ℝ) else rint (x / (((10 ^ d.natAbs : ℤ)) : ℝ)) * (((10 ^ d.natAbs : ℤ)) : ℝ)) = _
    push_cast
    split_ifs with h
    · obtain ⟨n, rfl⟩ := Int.eq_ofNat_of_zero_le h
      simp only [Int.natAbs_natCast, zpow_neg, zpow_natCast]
      rfl
    · obtain ⟨n, hn⟩ := Int.eq_ofNat_of_zero_le (show 0 ≤ -d by omega)
      obtain rfl : d = -n := by omega
      simp only [Int.natAbs_neg, Int.natAbs_natCast, zpow_neg, zpow_natCast, neg_neg]
      rfl
  obtain ⟨m, h1, h2, h3⟩ := hr (x * 10 ^ d)
  have hu : (0 : ℝ) < 10 ^ (-d) := by positivity
  have hinv : (10 : ℝ) ^ d * 10 ^ (-d) = 1 := by rw [← zpow_add₀ (by norm_num)]; simp
  simp only [neg_zero, zpow_zero, mul_one] at h1 h2 h3
  have sc : ∀ k : ℝ, |k * (10 : ℝ) ^ (-d) - x| = |k - x * 10 ^ d| * 10 ^ (-d) := by
    intro k
    have : k * (10 : ℝ) ^ (-d) - x = (k - x * 10 ^ d) * 10 ^ (-d) := by
      linear_combination x * hinv
    rw [this, abs_mul, abs_of_pos hu]
  refine ⟨m, by rw [key, h1], fun k => ?_, fun k hk hh => ?_⟩
  · rw [key, sc, sc]
    exact mul_le_mul_of_nonneg_right (h2 k) hu.le
  · rw [key, sc, sc] at hh
    exact h3 k hk (mul_right_cancel₀ hu.ne' hh)

section real
variable {pts : Nat → ℝ × ℝ} {q : PQ (QE ℝ)} {ok : List (QE ℝ) → Prop} {n : Nat} {rz : Bool} {poly : Poly ℝ} {s' : St ℝ} {fuel : Nat}

/-- **C129**: in exact arithmetic `area(digits)` is the area of the points of the polygon nearest to the site, rounded to this number of decimals. -/
theorem C129_exact {rint : ℝ → ℝ} (hr : IsRint rint) (hF : FitsCorners pts n poly) (hd : Distinct pts n) (hq : q.Spec evLt ok)
    (h : createDiagram pts q n fuel poly rz (initSt poly) = .ok ((), s')) {p : Nat} (hp : p < n) (hb : FarCell pts n p ∨ ¬ NothingOrAll pts n poly p)
    {fuel' : Nat} (hfuel : s'.d.heCnt ≤ fuel') (d : ℤ) :
    ∃ y, areaDigits rint fuel' p (some d) s'.d = .ok (y, s'.d) ∧
      RoundedTo d (MeasureTheory.volume {z | InClosed poly.points z ∧ Nearest pts n p z}).toReal y := by
  obtain ⟨a, h1, h2, _, h4⟩ := C119_area hF hd hq h hp hb hfuel
  refine ⟨npRound rint a d, ?_, ?_⟩
  · rw [areaDigits_eq, h1]
    rfl
  · rw [h4, ENNReal.toReal_ofReal h2]
    exact npRound_real hr a d

theorem Shown.hasArea {p : Nat} (hS : Shown pts n poly p) : FarCell pts n p ∨ ¬ NothingOrAll pts n poly p := by
  rcases hS.notAll with ⟨z, h1, h2⟩ | h1
  · refine Or.inr fun hh => ?_
    rcases hh with hh | hh
    · obtain ⟨c, h3, h4⟩ := hS.part
      refine hh c ⟨h3.closed, hS.lt, fun o ho => ?_⟩
      by_cases hne : o = p
      · rw [hne]
      · exact (h4 o ho hne).le
    · exact h2 (hh z h1)
  · exact Or.inl h1

/-- The hypotheses can be met: four sites, areas rounded to tens. -/
example : ∃ rint poly s' y, IsRint rint ∧ boundingBox (-3 : ℝ) 4 98 106 = .ok poly ∧ createDiagram square4 heapq 4 30 poly true (initSt poly) = .ok ((), s') ∧
    areaDigits rint s'.d.heCnt 0 (some (-1)) s'.d = .ok (y, s'.d) ∧
    RoundedTo (-1) (MeasureTheory.volume {z | InClosed poly.points z ∧ Nearest square4 4 0 z}).toReal y := by
  obtain ⟨rint, hr⟩ := exists_rint
  have hp := box_points (show (-3 : ℝ) < 4 by norm_num) (show (98 : ℝ) < 106 by norm_num)
  have hB := square4_border hp
  obtain ⟨_, s', _, h, _⟩ := C74_cleanup_succeeds (fuel := 30) hB.toFitsCorners square4_distinct C45_event_queue (by norm_num) (by norm_num)
  have hS := hB.shown (p := 0) (by norm_num)
  have hb := hS.hasArea
  obtain ⟨y, h1, h2⟩ := C129_exact hr hB.toFitsCorners square4_distinct C45_event_queue h (by norm_num) hb le_rfl (-1)
  exact ⟨rint, _, s', y, hr, hp, h, h1, h2⟩

end real

section float
variable {p : Nat}

/-- `rint` of a float. -/
def decRint (x : Dec p) : Dec p := show ℚ from (roundEven x.val : ℚ)

theorem npRound_val (x : Dec p) {d : Nat} (hd : d ≤ 22) :
    (npRound decRint x d).val = rnd 2 53 ((roundEven (rnd 2 53 (x.val * 10 ^ d)) : ℚ) / 10 ^ d) := by
  have ht : rnd 2 53 ((10 : ℚ) ^ d) = 10 ^ d := by
    apply rnd_exact (n := 5 ^ d) (e := d) (by norm_num) (by norm_num)
    · push_cast
      rw [zpow_natCast, ← mul_pow]
      norm_num
    · rw [abs_of_pos (by positivity)]
      calc (5 : ℤ) ^ d ≤ 5 ^ 22 := pow_le_pow_right₀ (by norm_num) hd
        _ ≤ _ := by norm_num
  have e : (Arith.toF (Arith.ofInt (10 ^ (d : ℤ).natAbs) : Dec p) : Dec p) = (show ℚ from (10 : ℚ) ^ d) := by
    show rnd 2 53 (((10 ^ (d : ℤ).natAbs : ℤ)) : ℚ) = _
    push_cast
    exact ht
  unfold npRound
  rw [e, if_pos (by omega)]
  rfl

/-- C129: with floats and up to 22 decimals the result is off by half a unit and rounding errors of the two operations. -/
theorem C129_float (x : Dec p) {d : Nat} (hd : d ≤ 22) :
    |(npRound decRint x d).val - x.val| ≤ (1 + 1 / 2 ^ 53) / (2 * 10 ^ d) + (2 + 1 / 2 ^ 53) / 2 ^ 53 * |x.val| := by
  rw [npRound_val x hd]
  set P : ℚ := 10 ^ d with hP
  have hP0 : 0 < P := by positivity
  set w := rnd 2 53 (x.val * P) with hw
  set m : ℚ := (roundEven w : ℚ) with hm
  have b1 := rnd_rel (b := 2) (p := 53) (x := x.val * P) (by norm_num) (by norm_num)
  have b2 := roundEven_err w
  have b3 := rnd_rel (b := 2) (p := 53) (x := m / P) (by norm_num) (by norm_num)
  rw [← hw, abs_mul, abs_of_pos hP0] at b1
  rw [← hm] at b2
  have c1 : |m - x.val * P| ≤ 1 / 2 + |x.val| * P / 2 ^ 53 := by
    have e : m - x.val * P = (m - w) + (w - x.val * P) := by ring
    rw [e]
    refine (abs_add_le _ _).trans (add_le_add b2 ?_)
    rw [le_div_iff₀ (by positivity)]
    refine le_trans (le_of_eq ?_) b1
    norm_num
  have c2 : |m / P - x.val| ≤ 1 / (2 * P) + |x.val| / 2 ^ 53 := by
    have e : m / P - x.val = (m - x.val * P) / P := by field_simp
    rw [e, abs_div, abs_of_pos hP0, div_le_iff₀ hP0]
    refine c1.trans (le_of_eq ?_)
    field_simp
  have c3 : |m / P| ≤ |x.val| + (1 / (2 * P) + |x.val| / 2 ^ 53) := by
    have e : m / P = x.val + (m / P - x.val) := by ring
    rw [e]
    exact (abs_add_le _ _).trans (add_le_add le_rfl c2)
  have c4 : |rnd 2 53 (m / P) - m / P| ≤ |m / P| / 2 ^ 53 := by
    rw [le_div_iff₀ (by positivity)]
    refine le_trans (le_of_eq ?_) b3
    norm_num
  have e : rnd 2 53 (m / P) - x.val = (rnd 2 53 (m / P) - m / P) + (m / P - x.val) := by ring
  rw [e]
  refine (abs_add_le _ _).trans ?_
  have c5 : |m / P| / 2 ^ 53 ≤ (|x.val| + (1 / (2 * P) + |x.val| / 2 ^ 53)) / 2 ^ 53 := div_le_div_of_nonneg_right c3 (by positivity)
  refine (add_le_add (c4.trans c5) c2).trans (le_of_eq ?_)
  field_simp
  ring

/-- C129: if the exact value is not too near to the middle of two decimals, the result is the float next to the nearest decimal. -/
theorem C129_float_nearest (x : Dec p) {d : Nat} (hd : d ≤ 22) (hx : ∀ k : ℤ, |x.val| * 10 ^ d / 2 ^ 53 < |x.val * 10 ^ d - (k + 1 / 2)|) :
    ∃ m : ℤ, (∀ k : ℤ, k ≠ m → |m / 10 ^ d - x.val| < |k / 10 ^ d - x.val|) ∧ RoundsTo 2 53 ((m : ℝ) / 10 ^ d) (npRound decRint x d).val := by
  rw [npRound_val x hd]
  set P : ℚ := 10 ^ d with hP
  have hP0 : 0 < P := by positivity
  set w := rnd 2 53 (x.val * P) with hw
  have b1 := rnd_rel (b := 2) (p := 53) (x := x.val * P) (by norm_num) (by norm_num)
  rw [← hw, abs_mul, abs_of_pos hP0] at b1
  have b4 : |w - x.val * P| ≤ |x.val| * P / 2 ^ 53 := by
    rw [le_div_iff₀ (by positivity)]
    refine le_trans (le_of_eq ?_) b1
    norm_num
  have b2 := roundEven_err w
  have hlt : |(roundEven w : ℚ) - x.val * P| < 1 / 2 := by
    by_contra hge
    rw [not_lt] at hge
    have h1 := hx (roundEven w)
    have h2 := hx (roundEven w - 1)
    rw [abs_le] at b2 b4
    push_cast at h2
    have h0 : 0 ≤ |x.val| * P / 2 ^ 53 := by positivity
    rcases le_abs.mp hge with h | h
    · rcases lt_abs.mp h2 with h2 | h2 <;> linarith
    · rcases lt_abs.mp h1 with h1 | h1 <;> linarith
  refine ⟨roundEven w, fun k hk => ?_, ?_⟩
  · have e : ∀ y : ℚ, |y / P - x.val| = |y - x.val * P| / P := by
      intro y
      have : y / P - x.val = (y - x.val * P) / P := by field_simp
      rw [this, abs_div, abs_of_pos hP0]
    rw [e, e]
    refine div_lt_div_of_pos_right (hlt.trans_le ?_) hP0
    have h1 : (1 : ℚ) ≤ |(k : ℚ) - roundEven w| := by exact_mod_cast Int.one_le_abs (sub_ne_zero.mpr hk)
    have e : (k : ℚ) - roundEven w = (k - x.val * P) - (roundEven w - x.val * P) := by ring
    rw [e] at h1
    have := abs_sub (k - x.val * P) (roundEven w - x.val * P)
    linarith
  · have := rnd_roundsTo (b := 2) (p := 53) (by decide) (by norm_num) (by norm_num) ((roundEven w : ℚ) / P)
    rw [hP] at this ⊢
    push_cast at this
    exact this

/-- The hypotheses can be met: 1.625 with one decimal. -/
example : ∃ x : D28, x.val = 13 / 8 ∧ ∀ k : ℤ, |x.val| * 10 ^ 1 / 2 ^ 53 < |x.val * 10 ^ 1 - (k + 1 / 2)| := by
  refine ⟨show ℚ from 13 / 8, rfl, fun k => ?_⟩
  show |(13 / 8 : ℚ)| * 10 ^ 1 / 2 ^ 53 < |(13 / 8 : ℚ) * 10 ^ 1 - (k + 1 / 2)|
  have : (1 / 4 : ℚ) ≤ |(13 / 8 : ℚ) * 10 ^ 1 - (k + 1 / 2)| := by
    rcases le_or_gt k 15 with h | h
    · have h : (k : ℚ) ≤ 15 := by exact_mod_cast h
      exact le_abs.mpr (Or.inl (by linarith))
    · have h : (16 : ℚ) ≤ k := by exact_mod_cast h
      exact le_abs.mpr (Or.inr (by linarith))
  refine lt_of_lt_of_le ?_ this
  rw [abs_of_pos (by norm_num)]
  norm_num

end float

set_option maxRecDepth 100000

/-- The box `BoundingBox(0, 2.675, 0, 1)`. -/
def narrowBox : Poly D28 :=
  ⟨([(0, 1), (2675 / 1000, 1), (2675 / 1000, 0), (0, 0)] : List (ℚ × ℚ)), (0 : ℚ), (0 : ℚ), (1 : ℚ), (2675 / 1000 : ℚ), (((26750 / 20000 : ℚ), (1 / 2 : ℚ)) : ℚ × ℚ)⟩

theorem narrowBox_made : ((boundingBox (0 : ℚ) (2675 / 1000 : ℚ) (0 : ℚ) (1 : ℚ) : Except Err (Poly D28)).toOption.map polyData = some (polyData narrowBox)) := by
  decide +kernel

def digitsOf (r : Except Err (D28 × Dcel D28)) : Option ℚ := match r with
  | .error _ => none
  | .ok (a, _) => some (show ℚ from a)

/-- C129: with floats the result need not be the nearest decimal.  The cell of the only site in `BoundingBox(0, 2.675, 0, 1)` has the area 2.675 as a float, which is
less than 2.675.  So 2.67 is nearer than 2.68, also as a float, but `area(2)` is 2.68: the product with 100 is rounded to 267.5. -/
theorem C129_not_nearest : ∃ s, createDiagram (decPts [(1, 1 / 2)]) heapq 1 60 narrowBox true (initSt narrowBox) = .ok ((), s) ∧
    ∃ a : ℚ, digitsOf (area s.d.heCnt 0 s.d) = some a ∧ digitsOf (areaDigits decRint s.d.heCnt 0 (some 2) s.d) = some (rnd 2 53 (268 / 100)) ∧
      |267 / 100 - a| < |268 / 100 - a| ∧ |rnd 2 53 (267 / 100) - a| < |rnd 2 53 (268 / 100) - a| := by
  obtain ⟨s, h1, h2, h3⟩ : ∃ s, createDiagram (decPts [(1, 1 / 2)]) heapq 1 60 narrowBox true (initSt narrowBox) = .ok ((), s) ∧
      (digitsOf (area s.d.heCnt 0 s.d) = some (3011782250804019 / 1125899906842624) ∧
        digitsOf (areaDigits decRint s.d.heCnt 0 (some 2) s.d) = some (rnd 2 53 (268 / 100))) := by
    apply createRunD
    decide +kernel
  exact ⟨s, h1, _, h2, h3, by decide +kernel, by decide +kernel⟩

end Foronoi
