import Verif.Model.Base

/-!
# Weakest preconditions

`Wp E m s Q`: running `m` from `s` either ends normally with `Q`, or raises an exception allowed by `E`.
-/

namespace Foronoi

/-- Running `m` from `s` ends in `Q` or raises an error in `E`. -/
def Wp {σ α : Type} (E : Err → Prop) (m : EM σ α) (s : σ) (Q : α → σ → Prop) : Prop :=
  match m s with
  | .ok (a, s') => Q a s'
  | .error e => E e

variable {σ τ α β : Type} {E : Err → Prop}

theorem wp_mono {m : EM σ α} {s : σ} {Q R : α → σ → Prop}
    (h : Wp E m s Q) (hQR : ∀ a s', Q a s' → R a s') : Wp E m s R := by
  unfold Wp at *
  split <;> simp_all

theorem wp_and {m : EM σ α} {s : σ} {Q R : α → σ → Prop}
    (h : Wp E m s Q) (h' : Wp E m s R) : Wp E m s (fun a s' => Q a s' ∧ R a s') := by
  unfold Wp at *
  split <;> simp_all

theorem wp_monoE {E' : Err → Prop} {m : EM σ α} {s : σ} {Q : α → σ → Prop}
    (h : Wp E m s Q) (hE : ∀ e, E e → E' e) : Wp E' m s Q := by
  unfold Wp at *
  split <;> simp_all

@[simp] theorem wp_pure (a : α) (s : σ) (Q : α → σ → Prop) : Wp E (pure a : EM σ α) s Q ↔ Q a s := Iff.rfl

@[simp] theorem wp_bind (m : EM σ α) (f : α → EM σ β) (s : σ) (Q : β → σ → Prop) :
    Wp E (m >>= f) s Q ↔ Wp E m s (fun a s' => Wp E (f a) s' Q) := by
  unfold Wp
  simp only [bind, StateT.bind, Except.bind]
  cases m s with
  | error e => rfl
  | ok p => rfl

@[simp] theorem wp_map (m : EM σ α) (f : α → β) (s : σ) (Q : β → σ → Prop) :
    Wp E (f <$> m) s Q ↔ Wp E m s (fun a s' => Q (f a) s') := by
  unfold Wp
  simp only [Functor.map, StateT.map, bind, Except.bind]
  cases m s with
  | error e => rfl
  | ok p => rfl

@[simp] theorem wp_throw (e : Err) (s : σ) (Q : α → σ → Prop) : Wp E (throw e : EM σ α) s Q ↔ E e := Iff.rfl

@[simp] theorem wp_get (s : σ) (Q : σ → σ → Prop) : Wp E (get : EM σ σ) s Q ↔ Q s s := Iff.rfl

@[simp] theorem wp_set (t s : σ) (Q : PUnit → σ → Prop) : Wp E (set t : EM σ PUnit) s Q ↔ Q ⟨⟩ t := Iff.rfl

@[simp] theorem wp_modify (f : σ → σ) (s : σ) (Q : PUnit → σ → Prop) :
    Wp E (modify f : EM σ PUnit) s Q ↔ Q ⟨⟩ (f s) := Iff.rfl

@[simp] theorem wp_deref (o : Option α) (s : σ) (Q : α → σ → Prop) :
    Wp E (deref o) s Q ↔ (∃ a, o = some a ∧ Q a s) ∨ (o = none ∧ E .attr) := by
  cases o <;> simp [deref]

@[simp] theorem wp_liftA (o : Option α) (s : σ) (Q : α → σ → Prop) :
    Wp E (liftA o) s Q ↔ (∀ a, o = some a → Q a s) ∧ (o = none → E .arith) := by
  cases o <;> simp [liftA]

@[simp] theorem wp_zoom (g : σ → τ) (p : τ → σ → σ) (m : EM τ α) (s : σ) (Q : α → σ → Prop) :
    Wp E (zoom g p m) s Q ↔ Wp E m (g s) (fun a t => Q a (p t s)) := by
  unfold Wp zoom
  cases m (g s) with
  | error e => rfl
  | ok q => rfl

@[simp] theorem wp_optDo (o : Option α) (f : α → EM σ Unit) (s : σ) (Q : Unit → σ → Prop) :
    Wp E (optDo o f) s Q ↔ (∀ a, o = some a → Wp E (f a) s Q) ∧ (o = none → Q () s) := by
  cases o <;> simp [optDo]

@[simp] theorem wp_whenDo (b : Bool) (m : EM σ Unit) (s : σ) (Q : Unit → σ → Prop) :
    Wp E (whenDo b m) s Q ↔ (b = true → Wp E m s Q) ∧ (b = false → Q () s) := by
  cases b <;> simp [whenDo]

theorem wp_ite (c : Prop) [Decidable c] (m n : EM σ α) (s : σ) (Q : α → σ → Prop) :
    Wp E (if c then m else n) s Q ↔ (c → Wp E m s Q) ∧ (¬ c → Wp E n s Q) := by
  split <;> simp_all

/-- A run that ends normally satisfies the postcondition. -/
theorem Wp.ok {m : EM σ α} {s : σ} {Q : α → σ → Prop} (h : Wp E m s Q) {a : α} {s' : σ}
    (hr : m s = .ok (a, s')) : Q a s' := by
  unfold Wp at h; rw [hr] at h; exact h

/-- An error raised is one of `E`. -/
theorem Wp.err {m : EM σ α} {s : σ} {Q : α → σ → Prop} (h : Wp E m s Q) {e : Err}
    (hr : m s = .error e) : E e := by
  unfold Wp at h; rw [hr] at h; exact h

end Foronoi
