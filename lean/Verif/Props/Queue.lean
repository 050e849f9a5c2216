import Verif.Proof.Heapq
import Verif.Model.Rat

/-!
# C03 (order of events) and C45 (the priority queue)
-/

namespace Foronoi

open scoped List

variable {K : Type} [LinearOrder K]

/-- Specification of the order of events: `a` is handled before `b` if it is higher, or equally high and further left, or at the
same place and a circle event while `b` is a site event. -/
def HandledBefore (a b : QE K) : Prop :=
  a.yd > b.yd ∨ (a.yd = b.yd ∧ a.xd < b.xd) ∨ (a.yd = b.yd ∧ a.xd = b.xd ∧ a.circ = true ∧ b.circ = false)

/-- C03: `Event.__lt__` is the specified order … -/
theorem C03_order (a b : QE K) : evLt a b = true ↔ HandledBefore a b := by
  rw [evLt_iff]; unfold HandledBefore; grind

/-- C03: … and a strict weak order: irreflexive, transitive, and being incomparable is an equivalence; two events are incomparable
exactly if they are at the same place and of the same kind. -/
theorem C03_weak_order :
    (∀ a : QE K, evLt a a = false) ∧
    (∀ a b c : QE K, evLt a b = true → evLt b c = true → evLt a c = true) ∧
    (∀ a b : QE K, (evLt a b = false ∧ evLt b a = false) ↔ a.yd = b.yd ∧ a.xd = b.xd ∧ a.circ = b.circ) := by
  refine ⟨fun a => ?_, fun a b c h1 h2 => ?_, fun a b => ?_⟩
  · rw [Bool.eq_false_iff, Ne, C03_order]; unfold HandledBefore; grind
  · rw [C03_order] at *; unfold HandledBefore at *; grind
  · rw [Bool.eq_false_iff, Bool.eq_false_iff, Ne, Ne, C03_order, C03_order]; unfold HandledBefore
    constructor
    · rintro ⟨h1, h2⟩
      push Not at h1 h2
      have hy : a.yd = b.yd := le_antisymm h1.1 h2.1
      have hx : a.xd = b.xd := le_antisymm (h2.2.1 hy.symm) (h1.2.1 hy)
      refine ⟨hy, hx, ?_⟩
      have h3 := h1.2.2 hy hx
      have h4 := h2.2.2 hy.symm hx.symm
      cases ha : a.circ <;> cases hb : b.circ <;> simp_all
    · rintro ⟨h1, h2, h3⟩
      grind

/-- A circle event at a site's place comes first; a site above another event comes first. -/
example : evLt (⟨1, 2, true, 0⟩ : QE ℚ) ⟨1, 2, false, 1⟩ = true ∧ evLt (⟨3, 5, false, 0⟩ : QE ℚ) ⟨1, 2, true, 1⟩ = true ∧
    evLt (⟨1, 2, false, 0⟩ : QE ℚ) ⟨1, 2, false, 1⟩ = false := by decide +kernel

/-- Operations on the queue. -/
inductive QOp (E : Type) where
  | put (e : E)
  | get

/-- Run a sequence of operations on CPython's `heapq`; the results of `get` in order, and the list left.  (A `get` on an empty queue
would block; it is skipped.) -/
def heapRun {E : Type} (lt : E → E → Bool) : List (QOp E) → List E → List E × List E
  | [], h => ([], h)
  | .put e :: ops, h => heapRun lt ops (heappush lt e h)
  | .get :: ops, h =>
    match heappop lt h with
    | none => heapRun lt ops h
    | some (x, h') => (x :: (heapRun lt ops h').1, (heapRun lt ops h').2)

/-- The elements put. -/
def putsOf {E : Type} : List (QOp E) → List E
  | [] => []
  | .put e :: ops => e :: putsOf ops
  | .get :: ops => putsOf ops

theorem heapRun_spec {E : Type} {lt : E → E → Bool} (ho : WeakOrder lt) : ∀ (ops : List (QOp E)) (h : List E), IsHeap lt h →
    IsHeap lt (heapRun lt ops h).2 ∧ (heapRun lt ops h).1 ++ (heapRun lt ops h).2 ~ putsOf ops ++ h := by
  intro ops
  induction ops with
  | nil => intro h hh; exact ⟨hh, by simp [heapRun, putsOf]⟩
  | cons op ops ih =>
    intro h hh
    cases op with
    | put e =>
      obtain ⟨h1, h2⟩ := ih _ (heappush_heap ho e hh)
      refine ⟨h1, h2.trans ?_⟩
      refine ((heappush_perm e h).append_left _).trans ?_
      exact List.perm_middle
    | get =>
      unfold heapRun putsOf
      rcases heappop_cases ho hh with ⟨h1, h2⟩ | ⟨r, h', h1, h2, h3, _⟩
      · rw [h2]; exact ih _ hh
      · rw [h1]
        obtain ⟨g1, g2⟩ := ih _ h2
        refine ⟨g1, ?_⟩
        refine (g2.cons r).trans ?_
        refine List.perm_middle.symm.trans ?_
        exact h3.symm.append_left _

/-- C45: for every sequence of `put` and `get`: what was taken together with what is left is what was put (each element exactly
once), and at any moment a `get` on a nonempty queue returns an element such that no element in the queue comes before it. -/
theorem C45_queue {E : Type} {lt : E → E → Bool} (ho : WeakOrder lt) (ops : List (QOp E)) :
    (heapRun lt ops []).1 ++ (heapRun lt ops []).2 ~ putsOf ops ∧
    ((heapRun lt ops []).2 ≠ [] → ∃ x h', heappop lt (heapRun lt ops []).2 = some (x, h') ∧
      (heapRun lt ops []).2 ~ x :: h' ∧ ∀ y ∈ (heapRun lt ops []).2, lt y x = false) := by
  have h0 : IsHeap lt ([] : List E) := by intro i _ x y hx; simp at hx
  obtain ⟨h1, h2⟩ := heapRun_spec ho ops [] h0
  refine ⟨by simpa using h2, fun hne => ?_⟩
  rcases heappop_cases ho h1 with ⟨h3, _⟩ | ⟨r, h', h3, h4, h5, h6⟩
  · exact absurd h3 hne
  · refine ⟨r, h', h3, h5, fun y hy => ?_⟩
    obtain ⟨i, hi⟩ := List.getElem?_of_mem hy
    exact heap_min ho h1 h6 i y hi

/-- C45 for the event queue: the modelled queue meets the specification used by the theorems about the sweep. -/
theorem C45_event_queue : PQ.Spec (heapq (K := K)) evLt (IsHeap evLt) := heapq_spec evLt_weak

example : (heapRun (fun a b => decide (a < b)) [.put 5, .put 3, .put 8, .put 3, .get, .put 1, .get, .get] []).1 = [3, 1, 3] := by decide

end Foronoi
