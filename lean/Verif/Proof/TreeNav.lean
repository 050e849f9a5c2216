import Verif.Proof.TreeOps
import Mathlib.Order.Basic

/-!
# Navigation and search in pointer trees: minimum, successor, replace_leaf, find_leaf_node, find_value
-/

namespace Foronoi

variable {D : Type} {E : Err → Prop}

theorem Repr.left_leaf {n : Nat → NodeR D} {p : Option Nat} {i : Nat} {d : D} (h : Repr n p (.leaf i d)) :
    (n i).left = none := h.2.1

theorem wp_minimum {s : NS D} {p : Option Nat} {t : T D} (hr : Repr s.n p t) {fuel : Nat} (hf : t.depth ≤ fuel) :
    Wp E (minimum fuel t.id) s (fun r s' => r = t.first.id ∧ s' = s) := by
  induction t generalizing p fuel with
  | leaf i d =>
    obtain ⟨f, rfl⟩ : ∃ f, fuel = f + 1 := ⟨fuel - 1, by simp [T.depth] at hf; omega⟩
    simp [minimum, T.id, hr.2.1, T.first]
  | node i d l r ihl _ =>
    obtain ⟨f, rfl⟩ : ∃ f, fuel = f + 1 := ⟨fuel - 1, by simp [T.depth] at hf; omega⟩
    simp only [T.depth] at hf
    simp only [minimum, T.id, wp_bind, wp_rd, hr.2.1]
    exact ihl hr.2.2.2.2.1 (by omega)

theorem wp_maximum {s : NS D} {p : Option Nat} {t : T D} (hr : Repr s.n p t) {fuel : Nat} (hf : t.depth ≤ fuel) :
    Wp E (maximum fuel t.id) s (fun r s' => r = t.last.id ∧ s' = s) := by
  induction t generalizing p fuel with
  | leaf i d =>
    obtain ⟨f, rfl⟩ : ∃ f, fuel = f + 1 := ⟨fuel - 1, by simp [T.depth] at hf; omega⟩
    simp [maximum, T.id, hr.2.2.1, T.last]
  | node i d l r _ ihr =>
    obtain ⟨f, rfl⟩ : ∃ f, fuel = f + 1 := ⟨fuel - 1, by simp [T.depth] at hf; omega⟩
    simp only [T.depth] at hf
    simp only [maximum, T.id, wp_bind, wp_rd, hr.2.2.1]
    exact ihr hr.2.2.2.2.2 (by omega)

/-- The leaf after / before the hole of a context. -/
def nextLeaf : Ctx D → Option (Item D)
  | [] => none
  | .L _ _ r :: _ => some r.first
  | .R _ _ _ :: c => nextLeaf c

def prevLeaf : Ctx D → Option (Item D)
  | [] => none
  | .R _ _ l :: _ => some l.last
  | .L _ _ _ :: c => prevLeaf c

/-- Leave all `R` (resp. `L`) frames at the hole. -/
def upR : Ctx D → T D → Ctx D × T D
  | .R i d l :: c, t => upR c (.node i d l t)
  | c, t => (c, t)

def upL : Ctx D → T D → Ctx D × T D
  | .L i d r :: c, t => upL c (.node i d t r)
  | c, t => (c, t)

theorem plug_upR (c : Ctx D) (t : T D) : plug (upR c t).1 (upR c t).2 = plug c t := by
  fun_induction upR c t with
  | case1 t i d l c ih => simpa [plug] using ih
  | case2 => rfl

theorem plug_upL (c : Ctx D) (t : T D) : plug (upL c t).1 (upL c t).2 = plug c t := by
  fun_induction upL c t with
  | case1 t i d l c ih => simpa [plug] using ih
  | case2 => rfl

theorem upR_next (c : Ctx D) (t : T D) : nextLeaf (upR c t).1 = nextLeaf c := by
  fun_induction upR c t with
  | case1 t i d l c ih => simpa [nextLeaf] using ih
  | case2 => rfl

theorem upL_prev (c : Ctx D) (t : T D) : prevLeaf (upL c t).1 = prevLeaf c := by
  fun_induction upL c t with
  | case1 t i d l c ih => simpa [prevLeaf] using ih
  | case2 => rfl

theorem upR_not_R (c : Ctx D) (t : T D) {i : Nat} {d : D} {l : T D} {c' : Ctx D} :
    (upR c t).1 ≠ .R i d l :: c' := by
  fun_induction upR c t with
  | case1 t i d l c ih => exact ih
  | case2 c t h => exact fun h' => h _ _ _ _ h'

theorem upL_not_L (c : Ctx D) (t : T D) {i : Nat} {d : D} {r : T D} {c' : Ctx D} :
    (upL c t).1 ≠ .L i d r :: c' := by
  fun_induction upL c t with
  | case1 t i d l c ih => exact ih
  | case2 c t h => exact fun h' => h _ _ _ _ h'

theorem wp_isRightChild {s : NS D} {c : Ctx D} {t : T D} (hr : Repr s.n none (plug c t))
    (hnd : (plug c t).ids.Nodup) :
    Wp E (isRightChild t.id) s (fun b s' => s' = s ∧ b = (match c with | .R _ _ _ :: _ => true | _ => false)) := by
  obtain ⟨h1, h2⟩ := (repr_plug _ _ _).mp hr
  have hp := h1.parent_eq
  cases c with
  | nil => simp [isRightChild, hp, ctxPar]
  | cons f c =>
    cases f with
    | L i d r =>
      simp only [ReprC] at h2
      have hne : r.id ≠ t.id := by
        intro h
        have h1 := t.id_mem_ids
        have h2 := r.id_mem_ids
        simp only [ids_plug, idsL, idsR] at hnd
        grind
      simp [isRightChild, hp, ctxPar, h2.2.2.1, hne]
    | R i d l =>
      simp only [ReprC] at h2
      simp [isRightChild, hp, ctxPar, h2.2.2.1]

theorem wp_isLeftChild {s : NS D} {c : Ctx D} {t : T D} (hr : Repr s.n none (plug c t))
    (hnd : (plug c t).ids.Nodup) :
    Wp E (isLeftChild t.id) s (fun b s' => s' = s ∧ b = (match c with | .L _ _ _ :: _ => true | _ => false)) := by
  obtain ⟨h1, h2⟩ := (repr_plug _ _ _).mp hr
  have hp := h1.parent_eq
  cases c with
  | nil => simp [isLeftChild, hp, ctxPar]
  | cons f c =>
    cases f with
    | R i d r =>
      simp only [ReprC] at h2
      have hne : r.id ≠ t.id := by
        intro h
        have h1 := t.id_mem_ids
        have h2 := r.id_mem_ids
        simp only [ids_plug, idsL, idsR] at hnd
        grind
      simp [isLeftChild, hp, ctxPar, h2.2.1, hne]
    | L i d l =>
      simp only [ReprC] at h2
      simp [isLeftChild, hp, ctxPar, h2.2.1]

theorem wp_walkUpRight {s : NS D} {c : Ctx D} {t : T D} (hr : Repr s.n none (plug c t))
    (hnd : (plug c t).ids.Nodup) {fuel : Nat} (hf : c.length < fuel) :
    Wp E (walkUpRight fuel t.id) s (fun r s' => s' = s ∧ r = (upR c t).2.id) := by
  induction c generalizing t fuel with
  | nil =>
    obtain ⟨f, rfl⟩ : ∃ f, fuel = f + 1 := ⟨fuel - 1, by omega⟩
    simp only [walkUpRight, wp_bind]
    refine wp_mono (wp_isRightChild hr hnd) ?_
    rintro b s' ⟨rfl, rfl⟩
    simp [upR]
  | cons fr c ih =>
    obtain ⟨f, rfl⟩ : ∃ f, fuel = f + 1 := ⟨fuel - 1, by omega⟩
    simp only [walkUpRight, wp_bind]
    refine wp_mono (wp_isRightChild hr hnd) ?_
    rintro b s' ⟨rfl, rfl⟩
    cases fr with
    | L i d r => simp [upR]
    | R i d l =>
      have hp := ((repr_plug _ _ _).mp hr).1.parent_eq
      simp only [if_true, wp_bind, wp_rd, hp, ctxPar, wp_deref, Option.some.injEq, exists_eq_left', reduceCtorEq,
        false_and, or_false, upR]
      exact ih (t := .node i d l t) hr hnd (by simp at hf; omega)

theorem wp_walkUpLeft {s : NS D} {c : Ctx D} {t : T D} (hr : Repr s.n none (plug c t))
    (hnd : (plug c t).ids.Nodup) {fuel : Nat} (hf : c.length < fuel) :
    Wp E (walkUpLeft fuel t.id) s (fun r s' => s' = s ∧ r = (upL c t).2.id) := by
  induction c generalizing t fuel with
  | nil =>
    obtain ⟨f, rfl⟩ : ∃ f, fuel = f + 1 := ⟨fuel - 1, by omega⟩
    simp only [walkUpLeft, wp_bind]
    refine wp_mono (wp_isLeftChild hr hnd) ?_
    rintro b s' ⟨rfl, rfl⟩
    simp [upL]
  | cons fr c ih =>
    obtain ⟨f, rfl⟩ : ∃ f, fuel = f + 1 := ⟨fuel - 1, by omega⟩
    simp only [walkUpLeft, wp_bind]
    refine wp_mono (wp_isLeftChild hr hnd) ?_
    rintro b s' ⟨rfl, rfl⟩
    cases fr with
    | R i d r => simp [upL]
    | L i d l =>
      have hp := ((repr_plug _ _ _).mp hr).1.parent_eq
      simp only [if_true, wp_bind, wp_rd, hp, ctxPar, wp_deref, Option.some.injEq, exists_eq_left', reduceCtorEq,
        false_and, or_false, upL]
      exact ih (t := .node i d t l) hr hnd (by simp at hf; omega)

theorem wp_successor_ctx {s : NS D} {c : Ctx D} {i : Nat} {d : D} (hr : Repr s.n none (plug c (.leaf i d)))
    (hnd : (plug c (.leaf i d)).ids.Nodup) {fuel : Nat} (hf : (plug c (.leaf i d)).ids.length ≤ fuel) :
    Wp E (successor fuel i) s (fun r s' => s' = s ∧ r = (nextLeaf c).map (·.id)) := by
  have hl := ((repr_plug _ _ _).mp hr).1.2.2.1
  have hlen := (plug c (.leaf i d)).depth_le_length
  have hdep := depth_plug c (.leaf i d)
  simp only [T.depth] at hdep
  simp only [successor, wp_bind, wp_rd, hl]
  refine wp_mono (wp_walkUpRight (t := .leaf i d) hr hnd (by omega)) ?_
  rintro r s' ⟨rfl, rfl⟩
  have h1 := plug_upR c (.leaf i d)
  have h2 := upR_next c (.leaf i d)
  have h3 := fun i' d' l' c' => upR_not_R c (.leaf i d) (i := i') (d := d') (l := l') (c' := c')
  generalize upR c (.leaf i d) = q at *
  obtain ⟨c', t'⟩ := q
  simp only at h1 h2 h3 ⊢
  rw [← h1] at hr
  obtain ⟨g1, g2⟩ := (repr_plug _ _ _).mp hr
  rw [g1.parent_eq]
  cases c' with
  | nil => simp [ctxPar, ← h2, nextLeaf]
  | cons f c' =>
    cases f with
    | R i' d' l' => exact absurd rfl (h3 _ _ _ _)
    | L i' d' r' =>
      simp only [ReprC] at g2
      have hd2 := depth_plug c' (.node i' d' t' r')
      have : (plug (.L i' d' r' :: c') t').depth = (plug c (.leaf i d)).depth := by rw [h1]
      simp only [plug, T.depth] at this hd2
      simp only [ctxPar, wp_bind, wp_rd, g2.2.2.1]
      refine wp_mono (wp_minimum g2.2.2.2.2.1 (by omega)) ?_
      rintro r s' ⟨rfl, rfl⟩
      simp [← h2, nextLeaf]

theorem wp_predecessor_ctx {s : NS D} {c : Ctx D} {i : Nat} {d : D} (hr : Repr s.n none (plug c (.leaf i d)))
    (hnd : (plug c (.leaf i d)).ids.Nodup) {fuel : Nat} (hf : (plug c (.leaf i d)).ids.length ≤ fuel) :
    Wp E (predecessor fuel i) s (fun r s' => s' = s ∧ r = (prevLeaf c).map (·.id)) := by
  have hl := ((repr_plug _ _ _).mp hr).1.2.1
  have hlen := (plug c (.leaf i d)).depth_le_length
  have hdep := depth_plug c (.leaf i d)
  simp only [T.depth] at hdep
  simp only [predecessor, wp_bind, wp_rd, hl]
  refine wp_mono (wp_walkUpLeft (t := .leaf i d) hr hnd (by omega)) ?_
  rintro r s' ⟨rfl, rfl⟩
  have h1 := plug_upL c (.leaf i d)
  have h2 := upL_prev c (.leaf i d)
  have h3 := fun i' d' l' c' => upL_not_L c (.leaf i d) (i := i') (d := d') (r := l') (c' := c')
  generalize upL c (.leaf i d) = q at *
  obtain ⟨c', t'⟩ := q
  simp only at h1 h2 h3 ⊢
  rw [← h1] at hr
  obtain ⟨g1, g2⟩ := (repr_plug _ _ _).mp hr
  rw [g1.parent_eq]
  cases c' with
  | nil => simp [ctxPar, ← h2, prevLeaf]
  | cons f c' =>
    cases f with
    | L i' d' l' => exact absurd rfl (h3 _ _ _ _)
    | R i' d' r' =>
      simp only [ReprC] at g2
      have hd2 := depth_plug c' (.node i' d' r' t')
      have : (plug (.R i' d' r' :: c') t').depth = (plug c (.leaf i d)).depth := by rw [h1]
      simp only [plug, T.depth] at this hd2
      simp only [ctxPar, wp_bind, wp_rd, g2.2.1]
      refine wp_mono (wp_maximum g2.2.2.2.2.1 (by omega)) ?_
      rintro r s' ⟨rfl, rfl⟩
      simp [← h2, prevLeaf]

/-! ### Lists and zippers -/

/-- Root entry of a tree. -/
def T.item : T D → Item D
  | .leaf i d => ⟨i, true, d⟩
  | .node i d _ _ => ⟨i, false, d⟩

theorem exists_zipper {t : T D} {x : Item D} (h : x ∈ t.io) : ∃ c t', plug c t' = t ∧ t'.item = x := by
  suffices H : ∀ (t : T D) (c : Ctx D), x ∈ t.io → ∃ c' t', plug c' t' = plug c t ∧ t'.item = x by
    simpa [plug] using H t [] h
  intro t
  induction t with
  | leaf i d =>
    intro c h
    simp only [T.io, List.mem_singleton] at h
    exact ⟨c, .leaf i d, rfl, by simp [T.item, h]⟩
  | node i d l r ihl ihr =>
    intro c h
    simp only [T.io, List.mem_append, List.mem_cons] at h
    rcases h with h | h | h
    · exact ihl (.L i d r :: c) h
    · exact ⟨c, .node i d l r, rfl, by simp [T.item, h]⟩
    · exact ihr (.R i d l :: c) h

/-- In a list without duplicate ids the split at an id is unique. -/
theorem split_unique {α β : Type} (f : α → β) {p q p' q' : List α} {x y : α}
    (h : p ++ x :: q = p' ++ y :: q') (hxy : f x = f y) (hnd : ((p ++ x :: q).map f).Nodup) :
    p = p' ∧ x = y ∧ q = q' := by
  induction p generalizing p' with
  | nil =>
    cases p' with
    | nil => simpa using h
    | cons a p' =>
      exfalso
      simp only [List.nil_append, List.cons_append, List.cons.injEq] at h
      simp only [List.nil_append, List.map_cons, List.nodup_cons] at hnd
      apply hnd.1
      rw [hxy, h.2]
      simp
  | cons b p ih =>
    cases p' with
    | nil =>
      exfalso
      simp only [List.nil_append, List.cons_append, List.cons.injEq] at h
      simp only [List.cons_append, List.map_cons, List.nodup_cons] at hnd
      apply hnd.1
      rw [h.1, ← hxy]
      simp
    | cons a p' =>
      simp only [List.cons_append, List.cons.injEq, List.map_cons, List.nodup_cons] at h hnd
      obtain ⟨h1, h2, h3⟩ := ih h.2 hnd.2
      exact ⟨by rw [h.1, h1], h2, h3⟩

/-- The zipper at a leaf of the in-order sequence. -/
theorem leaf_zipper {t : T D} (hnd : t.ids.Nodup) {pre post : List (Item D)} {i : Nat} {d : D}
    (h : t.io = pre ++ ⟨i, true, d⟩ :: post) :
    ∃ c, plug c (.leaf i d) = t ∧ ioL c = pre ∧ ioR c = post := by
  obtain ⟨c, t', h1, h2⟩ := exists_zipper (t := t) (x := ⟨i, true, d⟩) (by rw [h]; simp)
  cases t' with
  | node => simp [T.item] at h2
  | leaf i' d' =>
    simp only [T.item, Item.mk.injEq, true_and] at h2
    obtain ⟨rfl, rfl⟩ := h2
    have h3 := io_plug c (.leaf i' d')
    rw [h1, h] at h3
    simp only [T.io, List.append_assoc, List.singleton_append] at h3
    have := split_unique (·.id) h3 rfl (by rw [← h, ← T.ids_eq]; exact hnd)
    exact ⟨c, h1, this.1.symm, this.2.2.symm⟩

theorem node_zipper {t : T D} (hnd : t.ids.Nodup) {pre post : List (Item D)} {i : Nat} {d : D}
    (h : t.io = pre ++ ⟨i, false, d⟩ :: post) :
    ∃ c l r, plug c (.node i d l r) = t ∧ ioL c ++ l.io = pre ∧ r.io ++ ioR c = post := by
  obtain ⟨c, t', h1, h2⟩ := exists_zipper (t := t) (x := ⟨i, false, d⟩) (by rw [h]; simp)
  cases t' with
  | leaf => simp [T.item] at h2
  | node i' d' l r =>
    simp only [T.item, Item.mk.injEq, true_and] at h2
    obtain ⟨rfl, rfl⟩ := h2
    have h3 := io_plug c (.node i' d' l r)
    rw [h1, h] at h3
    have h3' : pre ++ ⟨i', false, d'⟩ :: post = (ioL c ++ l.io) ++ ⟨i', false, d'⟩ :: (r.io ++ ioR c) := by
      simpa [T.io] using h3
    have := split_unique (·.id) h3' rfl (by rw [← h, ← T.ids_eq]; exact hnd)
    exact ⟨c, l, r, h1, this.1.symm, this.2.2.symm⟩

/-- The second entry of a list: in an in-order sequence read from a leaf, the next leaf. -/
def second {α : Type} : List α → Option α
  | _ :: y :: _ => some y
  | _ => none

theorem nextLeaf_eq (c : Ctx D) : nextLeaf c = second (ioR c) := by
  induction c with
  | nil => rfl
  | cons f c ih =>
    cases f with
    | L i d r =>
      obtain ⟨l, h⟩ := r.io_head
      simp [nextLeaf, ioR, h, second]
    | R i d l => simpa [nextLeaf, ioR] using ih

theorem prevLeaf_eq (c : Ctx D) : prevLeaf c = second (ioL c).reverse := by
  induction c with
  | nil => rfl
  | cons f c ih =>
    cases f with
    | R i d r =>
      obtain ⟨l, h⟩ := r.io_last
      simp [prevLeaf, ioL, h, second]
    | L i d l => simpa [prevLeaf, ioL] using ih

/-- `successor` of a leaf is two places further in the in-order sequence. -/
theorem wp_successor {s : NS D} {t : T D} (hr : Repr s.n none t) (hnd : t.ids.Nodup)
    {pre post : List (Item D)} {i : Nat} {d : D} (h : t.io = pre ++ ⟨i, true, d⟩ :: post)
    {fuel : Nat} (hf : t.ids.length ≤ fuel) :
    Wp E (successor fuel i) s (fun r s' => s' = s ∧ r = (second post).map (·.id)) := by
  obtain ⟨c, rfl, h1, h2⟩ := leaf_zipper hnd h
  refine wp_mono (wp_successor_ctx hr hnd hf) ?_
  rintro r s' ⟨rfl, rfl⟩
  rw [nextLeaf_eq, h2]
  exact ⟨rfl, rfl⟩

theorem wp_predecessor {s : NS D} {t : T D} (hr : Repr s.n none t) (hnd : t.ids.Nodup)
    {pre post : List (Item D)} {i : Nat} {d : D} (h : t.io = pre ++ ⟨i, true, d⟩ :: post)
    {fuel : Nat} (hf : t.ids.length ≤ fuel) :
    Wp E (predecessor fuel i) s (fun r s' => s' = s ∧ r = (second pre.reverse).map (·.id)) := by
  obtain ⟨c, rfl, h1, h2⟩ := leaf_zipper hnd h
  refine wp_mono (wp_predecessor_ctx hr hnd hf) ?_
  rintro r s' ⟨rfl, rfl⟩
  rw [prevLeaf_eq, h1]
  exact ⟨rfl, rfl⟩

/-! ### replace_leaf -/

theorem id_plug_cons (f : Frame D) (c : Ctx D) (t t' : T D) : (plug (f :: c) t).id = (plug (f :: c) t').id := by
  induction c generalizing f t t' with
  | nil => cases f <;> rfl
  | cons g c ih =>
    cases f with
    | L i d r => exact ih g (.node i d t r) (.node i d t' r)
    | R i d l => exact ih g (.node i d l t) (.node i d l t')

theorem wp_hook {s : NS D} {c : Ctx D} {z y : Nat}
    (hc : ReprC s.n c z) (hz : (s.n z).parent = ctxPar c)
    (hzc : z ∉ idsL c ∧ z ∉ idsR c) (hyc : y ∉ idsL c ∧ y ∉ idsR c) (hzy : z ≠ y)
    {root : Option Nat} {Q : Option Nat → NS D → Prop}
    (hQ : ∀ n', (∀ i, i ≠ y → ctxPar c ≠ some i → n' i = s.n i) → n' y = { s.n y with parent := ctxPar c } →
      Swung s.n n' c y → Q (if c = [] then some y else root) { s with n := n' }) :
    Wp E (do updN y (fun x => { x with parent := ctxPar c }); hook z (some y) root) s Q := by
  unfold hook
  cases c with
  | nil =>
    have hlc : (Function.update s.n y { s.n y with parent := ctxPar ([] : Ctx D) } z).parent = none := by
      rw [Function.update_of_ne hzy]; exact hz
    simp only [wp_bind, wp_updN, isLeftChild, isRightChild, wp_rd, hlc, wp_pure, Bool.false_eq_true, if_false]
    refine hQ _ ?_ ?_ ?_
    · intro i hi _; simp [Function.update_of_ne hi]
    · simp [ctxPar]
    · trivial
  | cons f c =>
    have hcn : ¬ (f :: c = []) := by simp
    rw [if_neg hcn] at hQ
    cases f with
    | L g d r =>
      simp only [idsL, idsR, List.cons_append, List.mem_cons, List.mem_append, not_or] at hzc hyc
      obtain ⟨hzl, hzg, hzr, hzr'⟩ := hzc
      obtain ⟨hyl, hyg, hyr, hyr'⟩ := hyc
      simp only [ReprC] at hc
      simp only [ctxPar] at hz
      have hlc : (Function.update s.n y { s.n y with parent := some g } z).parent = some g := by
        rw [Function.update_of_ne hzy]; exact hz
      have hgl : (Function.update s.n y { s.n y with parent := some g } g).left = some z := by
        rw [Function.update_of_ne (Ne.symm hyg)]; exact hc.2.1
      simp only [ctxPar, wp_bind, wp_updN, isLeftChild, wp_rd, hlc, hgl, wp_pure, beq_self_eq_true, if_true,
        wp_setLeft, wp_deref, Option.some.injEq, exists_eq_left', reduceCtorEq, false_and, or_false]
      refine hQ _ ?_ ?_ ?_
      · intro i hi hi'
        have : i ≠ g := by rintro rfl; exact hi' rfl
        simp [Function.update_of_ne hi, Function.update_of_ne this]
      · simp [Function.update_of_ne hyg, ctxPar]
      · simp [Swung, Function.update_of_ne (Ne.symm hyg)]
    | R g d l =>
      simp only [idsL, idsR, List.mem_cons, List.mem_append, not_or, List.not_mem_nil, not_false_eq_true,
        and_true] at hzc hyc
      obtain ⟨⟨⟨hzl, hzl'⟩, hzg⟩, hzr⟩ := hzc
      obtain ⟨⟨⟨hyl, hyl'⟩, hyg⟩, hyr⟩ := hyc
      simp only [ReprC] at hc
      simp only [ctxPar] at hz
      have hlc : (Function.update s.n y { s.n y with parent := some g } z).parent = some g := by
        rw [Function.update_of_ne hzy]; exact hz
      have hgl : (Function.update s.n y { s.n y with parent := some g } g).left = some l.id := by
        rw [Function.update_of_ne (Ne.symm hyg)]; exact hc.2.1
      have hgr : (Function.update s.n y { s.n y with parent := some g } g).right = some z := by
        rw [Function.update_of_ne (Ne.symm hyg)]; exact hc.2.2.1
      have hne : (some l.id == some z) = false := by
        simp only [beq_eq_false_iff_ne, ne_eq, Option.some.injEq]
        rintro rfl; exact hzl' l.id_mem_ids
      simp only [ctxPar, wp_bind, wp_updN, isLeftChild, isRightChild, wp_rd, hlc, hgl, hgr, wp_pure, hne,
        Bool.false_eq_true, if_false, beq_self_eq_true, if_true,
        wp_setRight, wp_deref, Option.some.injEq, exists_eq_left', reduceCtorEq, false_and, or_false]
      refine hQ _ ?_ ?_ ?_
      · intro i hi hi'
        have : i ≠ g := by rintro rfl; exact hi' rfl
        simp [Function.update_of_ne hi, Function.update_of_ne this]
      · simp [Function.update_of_ne hyg, ctxPar]
      · simp [Swung, Function.update_of_ne (Ne.symm hyg)]

/-- Replacing the subtree `t` by the tree `t2` (fresh, or the remaining child of `t`). -/
theorem wp_replaceLeaf {s : NS D} {c : Ctx D} {t t2 : T D} {q : Option Nat}
    (hr : Repr s.n none (plug c t)) (hr2 : Repr s.n q t2)
    (hnd : (plug c t).ids.Nodup) (hnd2 : (plug c t2).ids.Nodup) (hid : t.id ∉ t2.ids) (hi : HInv s)
    {fuel : Nat} (hf : (plug c t2).ids.length ≤ fuel) :
    Wp E (replaceLeaf fuel t.id (some t2.id) (some (plug c t).id)) s (fun r s' =>
      r = some (plug c t2).id ∧ DataSame s s' ∧ HInv s' ∧ Repr s'.n none (plug c t2)) := by
  obtain ⟨h1, hC⟩ := (repr_plug _ _ _).mp hr
  have hp := h1.parent_eq
  simp only [ids_plug] at hnd hnd2
  have hzc : t.id ∉ idsL c ∧ t.id ∉ idsR c := by have := t.id_mem_ids; grind
  have hyc : t2.id ∉ idsL c ∧ t2.id ∉ idsR c := by have := t2.id_mem_ids; grind
  have hzy : t.id ≠ t2.id := by have := t2.id_mem_ids; grind
  have hndC : (idsL c ++ idsR c).Nodup := by grind
  have hnd2' : t2.ids.Nodup := by grind
  have h2c : ∀ i ∈ t2.ids, i ∉ idsL c ∧ i ∉ idsR c := by grind
  have hpc : ∀ i, i ∉ idsL c ∧ i ∉ idsR c → ctxPar c ≠ some i := by
    intro i h h'; rcases ctxPar_mem h' with h'' | h'' <;> tauto
  unfold replaceLeaf
  simp only [wp_bind, wp_rd, hp, optDo]
  rw [← wp_bind]
  refine wp_hook hC hp hzc hyc hzy ?_
  intro n' hn1 hn2 hsw
  have hT : Repr n' (ctxPar c) t2 := hr2.reparent hnd2' (fun i h hne => by
    rw [hn1 i hne (hpc i (h2c i h))]; exact .refl _) (by rw [hn2]; simp)
  have hC' : ReprC n' c t2.id := hC.swung hndC (fun i h hp => hn1 i (by rintro rfl; tauto) hp) hsw
  have hfull : Repr n' none (plug c t2) := (repr_plug _ _ _).mpr ⟨hT, hC'⟩
  have hd : ∀ i, (n' i).data = (s.n i).data := by
    intro i
    by_cases h2 : i = t2.id
    · rw [h2, hn2]
    by_cases h4 : ctxPar c = some i
    · cases c with
      | nil => simp [ctxPar] at h4
      | cons f c => cases f <;> simp only [ctxPar, Option.some.injEq, Swung] at h4 hsw <;> subst h4 <;> rw [hsw]
    · rw [hn1 i h2 h4]
  have hiN : HInv ⟨n', s.cnt⟩ := by
    intro i
    by_cases h2 : i = t2.id
    · subst h2
      have := hi t2.id
      simp only [HOk, hn2] at this ⊢
      exact this
    by_cases h4 : ctxPar c = some i
    · cases c with
      | nil => simp [ctxPar] at h4
      | cons f c =>
        have := hi i
        cases f with
        | L g d r =>
          simp only [ctxPar, Option.some.injEq] at h4; subst h4
          simp only [Swung] at hsw
          simp only [ReprC] at hC
          simpa [HOk, hsw, hC.2.1, hC.2.2.1] using this
        | R g d l =>
          simp only [ctxPar, Option.some.injEq] at h4; subst h4
          simp only [Swung] at hsw
          simp only [ReprC] at hC
          simpa [HOk, hsw, hC.2.1, hC.2.2.1] using this
    · simp only [hn1 i h2 h4]; exact hi i
  have hlen := (plug c t2).depth_le_length
  have hdep := depth_plug c t2
  have hdp := t2.depth_pos
  simp only [refreshHeights, wp_pure]
  refine wp_mono (wp_updateHeights (s := ⟨n', s.cnt⟩) hfull hiN (by omega) (by omega)) ?_
  rintro _ s1 ⟨hs1, hi1⟩
  refine ⟨?_, DataSame.trans (t := ⟨n', s.cnt⟩) ⟨rfl, hd⟩ hs1.data, hi1, Repr.same (s := ⟨n', s.cnt⟩) hfull hs1⟩
  cases c with
  | nil => simp [plug]
  | cons f c => simp [id_plug_cons f c t t2]

/-! ### find_leaf_node -/

variable {K : Type} [LinearOrder K]

/-- The leaf reached by binary search with key `x` (left at equality, then rightmost leaf). -/
def T.lookup (key : D → Option K) (x : K) : T D → Option (Item D)
  | .leaf i d => some ⟨i, true, d⟩
  | .node _ d l r => do
    let k ← key d
    if x = k then some l.last else if x < k then l.lookup key x else r.lookup key x

theorem wp_isLeaf {s : NS D} {p : Option Nat} {t : T D} (hr : Repr s.n p t) (Q : Bool → NS D → Prop) :
    Wp E (isLeaf t.id) s Q ↔ Q t.isLeaf s := by
  cases t with
  | leaf => simp [isLeaf, T.id, hr.2.1, hr.2.2.1, T.isLeaf]
  | node => simp [isLeaf, T.id, hr.2.1, hr.2.2.1, T.isLeaf]

theorem wp_findLeaf {s : NS D} {p : Option Nat} {t : T D} (hr : Repr s.n p t)
    {key : D → Option K} {x : K} {fuel : Nat} (hf : t.depth ≤ fuel)
    (hE : (∀ a ∈ t.io, a.lf = false → (key a.d).isSome) ∨ E .arith) :
    Wp E (findLeaf key x fuel (some t.id)) s (fun r s' => s' = s ∧ ∃ y, t.lookup key x = some y ∧ r = some y.id) := by
  induction t generalizing p fuel with
  | leaf i d =>
    obtain ⟨f, rfl⟩ : ∃ f, fuel = f + 1 := ⟨fuel - 1, by simp [T.depth] at hf; omega⟩
    simp only [findLeaf, wp_bind, wp_isLeaf hr]
    simp [T.isLeaf, T.lookup, T.id]
  | node i d l r ihl ihr =>
    obtain ⟨f, rfl⟩ : ∃ f, fuel = f + 1 := ⟨fuel - 1, by simp [T.depth] at hf; omega⟩
    simp only [T.depth] at hf
    simp only [findLeaf, wp_bind, wp_isLeaf hr]
    simp only [T.isLeaf, Bool.false_eq_true, if_false, wp_bind, wp_rd, T.id, wp_liftA]
    obtain ⟨h1, h2, h3, h4, h5, h6⟩ := hr
    refine ⟨?_, ?_⟩
    · rw [h1, h2, h3]
      intro k hk
      simp only [T.lookup, hk, Option.bind_eq_bind, Option.bind_some]
      split
      · simp only [wp_bind, wp_pure]
        refine wp_mono (wp_maximum h5 (by omega)) ?_
        rintro r s' ⟨rfl, rfl⟩
        simp
      · split
        · exact ihl h5 (by omega) (hE.imp (fun h a ha => h a (by simp [T.io, ha])) (fun h => h))
        · exact ihr h6 (by omega) (hE.imp (fun h a ha => h a (by simp [T.io, ha])) (fun h => h))
    · rw [h1]
      intro hk
      rcases hE with h | h
      · have := h ⟨i, false, d⟩ (by simp [T.io]) rfl
        simp [hk] at this
      · exact h

theorem lookup_mem {key : D → Option K} {x : K} {t : T D} {y : Item D} (h : t.lookup key x = some y) :
    y ∈ t.io ∧ y.lf = true := by
  have hl : ∀ t : T D, t.last ∈ t.io ∧ t.last.lf = true := by
    intro t
    refine ⟨?_, ?_⟩
    · obtain ⟨l, h⟩ := t.io_last; rw [h]; simp
    · induction t with
      | leaf => rfl
      | node _ _ _ _ _ ih => exact ih
  induction t with
  | leaf i d => simp only [T.lookup, Option.some.injEq] at h; subst h; simp [T.io]
  | node i d l r ihl ihr =>
    simp only [T.lookup, Option.bind_eq_bind, Option.bind_eq_some_iff] at h
    obtain ⟨k, _, h⟩ := h
    split at h
    · simp only [Option.some.injEq] at h; subst h
      simp [T.io, hl l]
    · split at h
      · have := ihl h; simp [T.io, this]
      · have := ihr h; simp [T.io, this]

/-- All keys below `x`: the search ends at the rightmost leaf. -/
theorem lookup_last {key : D → Option K} {x : K} {t : T D} {y : Item D} (h : t.lookup key x = some y)
    (hk : ∀ a ∈ t.io, a.lf = false → ∀ k, key a.d = some k → k < x) : y = t.last := by
  induction t with
  | leaf i d => simp only [T.lookup, Option.some.injEq] at h; rw [← h]; rfl
  | node i d l r _ ihr =>
    simp only [T.lookup, Option.bind_eq_bind, Option.bind_eq_some_iff] at h
    obtain ⟨k, hk', h⟩ := h
    have := hk ⟨i, false, d⟩ (by simp [T.io]) rfl k hk'
    rw [if_neg (ne_of_gt this), if_neg (not_lt_of_gt this)] at h
    exact ihr h (fun a ha => hk a (by simp [T.io, ha]))

/-- With sorted keys the search splits the sequence at `x`. -/
theorem lookup_split {key : D → Option K} {x : K} {t : T D} {y : Item D} (h : t.lookup key x = some y)
    (hs : t.io.Pairwise (fun a b => a.lf = false → b.lf = false → ∀ k k', key a.d = some k → key b.d = some k' → k ≤ k')) :
    ∃ pre post, t.io = pre ++ y :: post ∧
      (∀ a ∈ pre, a.lf = false → ∀ k, key a.d = some k → k ≤ x) ∧
      (∀ a ∈ post, a.lf = false → ∀ k, key a.d = some k → x ≤ k) := by
  induction t with
  | leaf i d =>
    simp only [T.lookup, Option.some.injEq] at h; subst h
    exact ⟨[], [], by simp [T.io]⟩
  | node i d l r ihl ihr =>
    simp only [T.lookup, Option.bind_eq_bind, Option.bind_eq_some_iff] at h
    obtain ⟨k, hk, h⟩ := h
    simp only [T.io] at hs
    rw [List.pairwise_append, List.pairwise_cons] at hs
    obtain ⟨hsl, ⟨hsr', hsr⟩, hx⟩ := hs
    have hle : ∀ a ∈ l.io, a.lf = false → ∀ k', key a.d = some k' → k' ≤ k := fun a ha hlf k' hk' =>
      hx a ha ⟨i, false, d⟩ (by simp) hlf rfl k' k hk' hk
    have hge : ∀ a ∈ r.io, a.lf = false → ∀ k', key a.d = some k' → k ≤ k' := fun a ha hlf k' hk' =>
      hsr' a ha rfl hlf k k' hk hk'
    split at h
    · rename_i hxk
      simp only [Option.some.injEq] at h; subst h
      obtain ⟨l', hl'⟩ := l.io_last
      refine ⟨l', ⟨i, false, d⟩ :: r.io, by simp [T.io, hl'], ?_, ?_⟩
      · intro a ha hlf k' hk'; rw [hxk]; exact hle a (by simp [hl', ha]) hlf k' hk'
      · intro a ha hlf k' hk'
        rw [hxk]
        rcases List.mem_cons.mp ha with rfl | ha
        · rw [hk] at hk'; simp only [Option.some.injEq] at hk'; exact hk'.le
        · exact hge a ha hlf k' hk'
    · split at h
      · rename_i hlt
        obtain ⟨pre, post, h1, h2, h3⟩ := ihl h hsl
        refine ⟨pre, post ++ ⟨i, false, d⟩ :: r.io, by simp [T.io, h1], h2, ?_⟩
        intro a ha hlf k' hk'
        rcases List.mem_append.mp ha with ha | ha
        · exact h3 a ha hlf k' hk'
        rcases List.mem_cons.mp ha with rfl | ha
        · rw [hk] at hk'; simp only [Option.some.injEq] at hk'; rw [← hk']; exact hlt.le
        · exact hlt.le.trans (hge a ha hlf k' hk')
      · rename_i hne hnlt
        have hlt : k < x := lt_of_le_of_ne (not_lt.mp hnlt) (Ne.symm hne)
        obtain ⟨pre, post, h1, h2, h3⟩ := ihr h hsr
        refine ⟨l.io ++ ⟨i, false, d⟩ :: pre, post, by simp [T.io, h1], ?_, h3⟩
        intro a ha hlf k' hk'
        rcases List.mem_append.mp ha with ha | ha
        · exact (hle a ha hlf k' hk').trans hlt.le
        rcases List.mem_cons.mp ha with rfl | ha
        · rw [hk] at hk'; simp only [Option.some.injEq] at hk'; rw [← hk']; exact hlt.le
        · exact h2 a ha hlf k' hk'

/-! ### find_value -/

theorem wp_findValue {s : NS D} {p : Option Nat} {t : T D} (hr : Repr s.n p t)
    {key : D → Option K} {cmp : D → Bool} {qk : K} {fuel : Nat} (hf : t.depth < fuel)
    (hE : (∀ a ∈ t.io, (key a.d).isSome) ∨ E .arith)
    (hcmp : ∀ a ∈ t.io, cmp a.d = true → key a.d = none ∨ key a.d = some qk) :
    Wp E (findValue key cmp qk fuel (some t.id)) s (fun r s' => s' = s ∧
      ((∃ a ∈ t.io, cmp a.d = true ∧ r = some a.id) ∨ ((∀ a ∈ t.io, cmp a.d = false) ∧ r = none))) := by
  induction t generalizing p fuel with
  | leaf i d =>
    obtain ⟨f, rfl⟩ : ∃ f, fuel = f + 1 := ⟨fuel - 1, by omega⟩
    obtain ⟨f, rfl⟩ : ∃ f', f = f' + 1 := ⟨f - 1, by simp [T.depth] at hf; omega⟩
    obtain ⟨h1, h2, h3, h4⟩ := hr
    simp only [findValue, wp_bind, wp_rd, T.id, wp_liftA]
    rw [h1, h2, h3]
    simp only [findValue, pure_bind]
    have hc := hcmp ⟨i, true, d⟩ (by simp [T.io])
    simp only at hc
    refine ⟨?_, ?_⟩
    · intro k hk
      simp only [T.io, List.mem_singleton, exists_eq_left, forall_eq]
      simp only [hk, reduceCtorEq, Option.some.injEq, false_or] at hc
      split
      · cases hcd : cmp d <;> simp
      · have : cmp d = false := by
          cases hcd : cmp d
          · rfl
          · exact absurd (hc hcd).symm (by assumption)
        split <;> simp [this]
    · intro hk
      rcases hE with h | h
      · have := h ⟨i, true, d⟩ (by simp [T.io])
        simp [hk] at this
      · exact h
  | node i d l r ihl ihr =>
    obtain ⟨f, rfl⟩ : ∃ f, fuel = f + 1 := ⟨fuel - 1, by omega⟩
    simp only [T.depth] at hf
    obtain ⟨h1, h2, h3, h4, h5, h6⟩ := hr
    simp only [findValue, wp_bind, wp_rd, T.id, wp_liftA]
    rw [h1, h2, h3]
    have hl := ihl (fuel := f) h5 (by omega) (hE.imp (fun h a ha => h a (by simp [T.io, ha])) (fun h => h))
      (fun a ha => hcmp a (by simp [T.io, ha]))
    have hrr := ihr (fuel := f) h6 (by omega) (hE.imp (fun h a ha => h a (by simp [T.io, ha])) (fun h => h))
      (fun a ha => hcmp a (by simp [T.io, ha]))
    have hmem : ∀ a : Item D, a ∈ (T.node i d l r).io ↔ a ∈ l.io ∨ a = ⟨i, false, d⟩ ∨ a ∈ r.io := by
      intro a; simp [T.io]
    have hc := hcmp ⟨i, false, d⟩ (by simp [T.io])
    simp only at hc
    simp only [hmem]
    refine ⟨?_, ?_⟩
    · intro k hk
      simp only [hk, reduceCtorEq, Option.some.injEq, false_or] at hc
      by_cases hqk : qk = k
      · rw [if_pos hqk]
        by_cases hcd : cmp d = true
        · rw [if_pos hcd]
          exact ⟨rfl, Or.inl ⟨⟨i, false, d⟩, Or.inr (Or.inl rfl), hcd, rfl⟩⟩
        · rw [if_neg hcd]
          rw [wp_bind]
          refine wp_mono hl ?_
          rintro o s' ⟨rfl, ho⟩
          rcases ho with ⟨a, ha, hca, rfl⟩ | ⟨hno, rfl⟩
          · exact ⟨rfl, Or.inl ⟨a, Or.inl ha, hca, rfl⟩⟩
          · refine wp_mono hrr ?_
            rintro o s' ⟨rfl, ho⟩
            refine ⟨rfl, ?_⟩
            rcases ho with ⟨a, ha, hca, rfl⟩ | ⟨hno', rfl⟩
            · exact Or.inl ⟨a, Or.inr (Or.inr ha), hca, rfl⟩
            · refine Or.inr ⟨?_, rfl⟩
              rintro a (ha | rfl | ha)
              · exact hno a ha
              · simpa using hcd
              · exact hno' a ha
      · rw [if_neg hqk]
        have hcd : cmp d = false := by
          cases hcd : cmp d
          · rfl
          · exact absurd (hc hcd).symm hqk
        split
        · rw [wp_bind]
          refine wp_mono hl ?_
          rintro o s' ⟨rfl, ho⟩
          rcases ho with ⟨a, ha, hca, rfl⟩ | ⟨hno, rfl⟩
          · exact ⟨rfl, Or.inl ⟨a, Or.inl ha, hca, rfl⟩⟩
          · refine wp_mono hrr ?_
            rintro o s' ⟨rfl, ho⟩
            refine ⟨rfl, ?_⟩
            rcases ho with ⟨a, ha, hca, rfl⟩ | ⟨hno', rfl⟩
            · exact Or.inl ⟨a, Or.inr (Or.inr ha), hca, rfl⟩
            · refine Or.inr ⟨?_, rfl⟩
              rintro a (ha | rfl | ha)
              · exact hno a ha
              · simpa using hcd
              · exact hno' a ha
        · rw [wp_bind]
          refine wp_mono hrr ?_
          rintro o s' ⟨rfl, ho⟩
          rcases ho with ⟨a, ha, hca, rfl⟩ | ⟨hno, rfl⟩
          · exact ⟨rfl, Or.inl ⟨a, Or.inr (Or.inr ha), hca, rfl⟩⟩
          · refine wp_mono hl ?_
            rintro o s' ⟨rfl, ho⟩
            refine ⟨rfl, ?_⟩
            rcases ho with ⟨a, ha, hca, rfl⟩ | ⟨hno', rfl⟩
            · exact Or.inl ⟨a, Or.inl ha, hca, rfl⟩
            · refine Or.inr ⟨?_, rfl⟩
              rintro a (ha | rfl | ha)
              · exact hno' a ha
              · simpa using hcd
              · exact hno a ha
    · intro hk
      rcases hE with h | h
      · have := h ⟨i, false, d⟩ (by simp [T.io])
        simp [hk] at this
      · exact h

end Foronoi
