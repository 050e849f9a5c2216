import Verif.Spec.Sweep
import Verif.Proof.Wp
import Mathlib.Data.List.Chain
import Mathlib.Data.List.Perm.Subperm
import Mathlib.Data.List.Range

/-!
# `Point.borders` on a coherent half-edge structure
-/

namespace Foronoi

variable {K : Type} {E : Err → Prop}

@[simp] theorem wp_rdE' (e : Nat) (s : Dcel K) (Q : HE → Dcel K → Prop) : Wp E (rdE e) s Q ↔ Q (s.he e) s := Iff.rfl
@[simp] theorem wp_rdFE' (p : Nat) (s : Dcel K) (Q : Option Nat → Dcel K → Prop) : Wp E (rdFE p) s Q ↔ Q (s.fe p) s := Iff.rfl

theorem wp_bordersLoop {d : Dcel K} (hn : ∀ e < d.heCnt, ∀ f, (d.he e).next = some f → f < d.heCnt ∧ (d.he f).prev = some e)
    {first : Nat} : ∀ (fuel : Nat) (pre : List Nat) (e : Nat), (pre ++ [e]).Nodup → (∀ x ∈ pre ++ [e], x < d.heCnt) →
      (pre ++ [e]).head? = some first → (pre ++ [e]).IsChain (fun x y => (d.he x).next = some y) →
      d.heCnt < fuel + (pre ++ [e]).length →
      Wp E (bordersLoop first fuel e (pre ++ [e])) d (fun l d' => d' = d ∧ l.Nodup ∧ (∀ x ∈ l, x < d.heCnt) ∧ l.head? = some first ∧
        l.IsChain (fun x y => (d.he x).next = some y) ∧ ∃ z, l.getLast? = some z ∧ ((d.he z).next = none ∨ (d.he z).next = some first)) := by
  intro fuel
  induction fuel with
  | zero =>
    intro pre e hnd hlt _ _ hf
    exfalso
    have hsub : pre ++ [e] ⊆ List.range d.heCnt := fun x hx => List.mem_range.mpr (hlt x hx)
    have := (hnd.subperm hsub).length_le
    rw [List.length_range] at this
    omega
  | succ fuel ih =>
    intro pre e hnd hlt hh hc hf
    unfold bordersLoop
    simp only [wp_bind, wp_rdE']
    rw [wp_ite]
    refine ⟨fun h1 => ?_, fun h1 => ?_⟩
    · simp only [wp_pure]
      exact ⟨trivial, hnd, hlt, hh, hc, e, by simp, Or.inr h1⟩
    · cases h2 : (d.he e).next with
      | none =>
        simp only [wp_pure]
        exact ⟨trivial, hnd, hlt, hh, hc, e, by simp, Or.inl h2⟩
      | some nx =>
        simp only
        obtain ⟨h3, h4⟩ := hn e (hlt e (by simp)) nx h2
        refine ih (pre ++ [e]) nx ?_ ?_ ?_ ?_ ?_
        · rw [List.nodup_append]
          refine ⟨hnd, by simp, ?_⟩
          intro x hx y hy hxy
          simp only [List.mem_singleton] at hy
          subst hy hxy
          -- `x` is already in the list: not the first, so its predecessor is both in the list and the last
          obtain ⟨A, B, hAB⟩ := List.append_of_mem hx
          rcases List.eq_nil_or_concat A with rfl | ⟨A', y, rfl⟩
          · rw [hAB] at hh; simp at hh
            exact h1 (hh ▸ h2)
          · simp only [List.concat_eq_append, List.append_assoc, List.cons_append, List.nil_append] at hAB
            rw [hAB] at hc
            have h5 : (d.he y).next = some x := by
              have := (List.isChain_append.mp hc).2.1
              rw [List.isChain_cons_cons] at this
              exact this.1
            have hy : y ∈ pre ++ [e] := by rw [hAB]; simp
            obtain ⟨_, h6⟩ := hn y (hlt y hy) x h5
            rw [h4] at h6
            have hye : e = y := by simpa using h6
            subst hye
            -- `y = e` is the last element, but `x` follows it
            have hl : (A' ++ e :: x :: B).getLast? = some e := by rw [← hAB]; simp
            rw [hAB] at hnd
            have h7 : (x :: B).getLast? = some e := by
              rw [List.getLast?_append_of_ne_nil _ (by simp), List.getLast?_cons_cons] at hl
              exact hl
            have h8 : e ∈ x :: B := List.mem_of_getLast? h7
            have := (List.nodup_append.mp hnd).2.1
            rw [List.nodup_cons] at this
            exact this.1 h8
        · intro x hx
          rcases List.mem_append.mp hx with hx | hx
          · exact hlt x hx
          · simp at hx; subst hx; exact h3
        · rw [List.head?_append, hh]; rfl
        · rw [List.isChain_append]
          refine ⟨hc, by simp, ?_⟩
          intro x hx y hy
          simp at hx hy; subst hx hy; exact h2
        · simp only [List.length_append, List.length_cons, List.length_nil] at hf ⊢; omega

/-- Along `next` links the incident site does not change. -/
theorem chain_incident {d : Dcel K} {p : Nat} (hc : ∀ e < d.heCnt, ∀ f, (d.he e).next = some f → (d.he f).incident = (d.he e).incident) :
    ∀ {l : List Nat}, (∀ x ∈ l, x < d.heCnt) → l.IsChain (fun x y => (d.he x).next = some y) →
      (∀ x ∈ l.head?, (d.he x).incident = some p) → ∀ x ∈ l, (d.he x).incident = some p := by
  intro l
  induction l with
  | nil => intro _ _ _ x hx; cases hx
  | cons a l ih =>
    intro hlt hch hh x hx
    have ha : (d.he a).incident = some p := hh a (by simp)
    rcases List.mem_cons.mp hx with rfl | hx
    · exact ha
    · refine ih (fun y hy => hlt y (by simp [hy])) hch.tail ?_ x hx
      intro y hy
      cases l with
      | nil => simp at hy
      | cons b l =>
        simp at hy; subst hy
        rw [List.isChain_cons_cons] at hch
        rw [hc a (hlt a (by simp)) _ hch.1, ha]

end Foronoi
