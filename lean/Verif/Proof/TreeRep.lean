import Verif.Model.Tree
import Verif.Proof.Wp
import Mathlib.Data.List.Basic
import Mathlib.Data.List.Nodup
import Mathlib.Tactic.Tauto

/-!
# Pointer trees represent mathematical trees

`T D` is the ghost tree; `Repr n p t` says that the store `n` contains `t` with the parent of its
root being `p`.  `io` is the in-order sequence of (reference, data).
-/

namespace Foronoi

variable {D : Type} {E : Err → Prop}

/-- Ghost tree: leaves and inner nodes with reference and data. -/
inductive T (D : Type) where
  | leaf (i : Nat) (d : D)
  | node (i : Nat) (d : D) (l r : T D)

/-- An entry of the in-order sequence: reference, whether it is a leaf, data. -/
structure Item (D : Type) where
  id : Nat
  lf : Bool
  d : D

namespace T

def id : T D → Nat
  | leaf i _ => i
  | node i _ _ _ => i

/-- In-order sequence. -/
def io : T D → List (Item D)
  | leaf i d => [⟨i, true, d⟩]
  | node i d l r => io l ++ ⟨i, false, d⟩ :: io r

/-- In-order sequence of references. -/
def ids : T D → List Nat
  | leaf i _ => [i]
  | node i _ l r => ids l ++ i :: ids r

def depth : T D → Nat
  | leaf _ _ => 1
  | node _ _ l r => 1 + max (depth l) (depth r)

def isLeaf : T D → Bool
  | leaf _ _ => true
  | node .. => false

theorem ids_eq (t : T D) : t.ids = t.io.map (·.id) := by
  induction t with
  | leaf => rfl
  | node i d l r hl hr => simp [ids, io, hl, hr]

@[simp] theorem id_mem_ids (t : T D) : t.id ∈ t.ids := by
  cases t <;> simp [id, ids]

theorem depth_le_length (t : T D) : t.depth ≤ t.ids.length := by
  induction t with
  | leaf => simp [depth, ids]
  | node i d l r hl hr => simp [depth, ids]; omega

theorem depth_pos (t : T D) : 0 < t.depth := by
  cases t <;> simp [depth]; omega

/-- Leftmost / rightmost leaf. -/
def first : T D → Item D
  | leaf i d => ⟨i, true, d⟩
  | node _ _ l _ => first l

def last : T D → Item D
  | leaf i d => ⟨i, true, d⟩
  | node _ _ _ r => last r

theorem io_head (t : T D) : ∃ l, t.io = t.first :: l := by
  induction t with
  | leaf i d => exact ⟨[], rfl⟩
  | node i d l r hl _ =>
    obtain ⟨l', h⟩ := hl
    exact ⟨l' ++ ⟨i, false, d⟩ :: r.io, by simp [io, h, first]⟩

theorem io_last (t : T D) : ∃ l, t.io = l ++ [t.last] := by
  induction t with
  | leaf i d => exact ⟨[], rfl⟩
  | node i d l r _ hr =>
    obtain ⟨l', h⟩ := hr
    exact ⟨l.io ++ ⟨i, false, d⟩ :: l', by simp [io, h, last]⟩

end T

/-- Equal up to the cached height. -/
def StrEq (a b : NodeR D) : Prop :=
  a.data = b.data ∧ a.left = b.left ∧ a.right = b.right ∧ a.parent = b.parent

theorem StrEq.refl (a : NodeR D) : StrEq a a := ⟨rfl, rfl, rfl, rfl⟩

theorem StrEq.trans {a b c : NodeR D} (h : StrEq a b) (h' : StrEq b c) : StrEq a c :=
  ⟨h.1.trans h'.1, h.2.1.trans h'.2.1, h.2.2.1.trans h'.2.2.1, h.2.2.2.trans h'.2.2.2⟩

theorem StrEq.symm {a b : NodeR D} (h : StrEq a b) : StrEq b a :=
  ⟨h.1.symm, h.2.1.symm, h.2.2.1.symm, h.2.2.2.symm⟩

/-- The store `n` contains the tree `t`, whose root has parent `p`. -/
def Repr (n : Nat → NodeR D) : Option Nat → T D → Prop
  | p, .leaf i d => (n i).data = d ∧ (n i).left = none ∧ (n i).right = none ∧ (n i).parent = p
  | p, .node i d l r => (n i).data = d ∧ (n i).left = some l.id ∧ (n i).right = some r.id ∧ (n i).parent = p ∧
      Repr n (some i) l ∧ Repr n (some i) r

/-- A frame of a context: the hole is the left (`L`) or right (`R`) child of node `i`. -/
inductive Frame (D : Type) where
  | L (i : Nat) (d : D) (r : T D)
  | R (i : Nat) (d : D) (l : T D)

abbrev Ctx (D : Type) := List (Frame D)

def plug : Ctx D → T D → T D
  | [], t => t
  | .L i d r :: c, t => plug c (.node i d t r)
  | .R i d l :: c, t => plug c (.node i d l t)

def ctxPar : Ctx D → Option Nat
  | [] => none
  | .L i _ _ :: _ => some i
  | .R i _ _ :: _ => some i

/-- The store contains the context `c` around a hole with root reference `h`. -/
def ReprC (n : Nat → NodeR D) : Ctx D → Nat → Prop
  | [], _ => True
  | .L i d r :: c, h => (n i).data = d ∧ (n i).left = some h ∧ (n i).right = some r.id ∧ (n i).parent = ctxPar c ∧
      Repr n (some i) r ∧ ReprC n c i
  | .R i d l :: c, h => (n i).data = d ∧ (n i).left = some l.id ∧ (n i).right = some h ∧ (n i).parent = ctxPar c ∧
      Repr n (some i) l ∧ ReprC n c i

def ioL : Ctx D → List (Item D)
  | [] => []
  | .L _ _ _ :: c => ioL c
  | .R i d l :: c => ioL c ++ l.io ++ [⟨i, false, d⟩]

def ioR : Ctx D → List (Item D)
  | [] => []
  | .L i d r :: c => ⟨i, false, d⟩ :: r.io ++ ioR c
  | .R _ _ _ :: c => ioR c

def idsL : Ctx D → List Nat
  | [] => []
  | .L _ _ _ :: c => idsL c
  | .R i _ l :: c => idsL c ++ l.ids ++ [i]

def idsR : Ctx D → List Nat
  | [] => []
  | .L i _ r :: c => i :: r.ids ++ idsR c
  | .R _ _ _ :: c => idsR c

theorem io_plug (c : Ctx D) (t : T D) : (plug c t).io = ioL c ++ t.io ++ ioR c := by
  induction c generalizing t with
  | nil => simp [plug, ioL, ioR]
  | cons f c ih => cases f <;> simp [plug, ih, ioL, ioR, T.io]

theorem ids_plug (c : Ctx D) (t : T D) : (plug c t).ids = idsL c ++ t.ids ++ idsR c := by
  induction c generalizing t with
  | nil => simp [plug, idsL, idsR]
  | cons f c ih => cases f <;> simp [plug, ih, idsL, idsR, T.ids]

theorem depth_plug (c : Ctx D) (t : T D) : t.depth + c.length ≤ (plug c t).depth := by
  induction c generalizing t with
  | nil => simp [plug]
  | cons f c ih =>
    cases f with
    | L i d r =>
      have := ih (.node i d t r)
      simp only [plug, T.depth, List.length_cons] at *; omega
    | R i d l =>
      have := ih (.node i d l t)
      simp only [plug, T.depth, List.length_cons] at *; omega

theorem repr_plug (n : Nat → NodeR D) (c : Ctx D) (t : T D) :
    Repr n none (plug c t) ↔ Repr n (ctxPar c) t ∧ ReprC n c t.id := by
  induction c generalizing t with
  | nil => simp [plug, ctxPar, ReprC]
  | cons f c ih =>
    cases f with
    | L i d r => simp only [plug, ih, Repr, ctxPar, ReprC, T.id]; tauto
    | R i d l => simp only [plug, ih, Repr, ctxPar, ReprC, T.id]; tauto

theorem Repr.congr {n n' : Nat → NodeR D} {p : Option Nat} {t : T D} (h : Repr n p t)
    (hn : ∀ i ∈ t.ids, StrEq (n' i) (n i)) : Repr n' p t := by
  induction t generalizing p with
  | leaf i d =>
    obtain ⟨h1, h2, h3, h4⟩ := hn i (by simp [T.ids])
    simp only [Repr] at *
    rw [h1, h2, h3, h4]; exact h
  | node i d l r hl hr =>
    obtain ⟨h1, h2, h3, h4⟩ := hn i (by simp [T.ids])
    simp only [Repr] at *
    rw [h1, h2, h3, h4]
    refine ⟨h.1, h.2.1, h.2.2.1, h.2.2.2.1, hl h.2.2.2.2.1 ?_, hr h.2.2.2.2.2 ?_⟩
    · intro j hj; exact hn j (by simp [T.ids, hj])
    · intro j hj; exact hn j (by simp [T.ids, hj])

theorem ReprC.congr {n n' : Nat → NodeR D} {c : Ctx D} {h : Nat} (hc : ReprC n c h)
    (hn : ∀ i, i ∈ idsL c ∨ i ∈ idsR c → StrEq (n' i) (n i)) : ReprC n' c h := by
  induction c generalizing h with
  | nil => trivial
  | cons f c ih =>
    cases f with
    | L i d r =>
      obtain ⟨h1, h2, h3, h4⟩ := hn i (by simp [idsR])
      simp only [ReprC] at *
      rw [h1, h2, h3, h4]
      refine ⟨hc.1, hc.2.1, hc.2.2.1, hc.2.2.2.1, hc.2.2.2.2.1.congr ?_, ih hc.2.2.2.2.2 ?_⟩
      · intro j hj; exact hn j (by simp [idsR, hj])
      · intro j hj; exact hn j (by simp only [idsL, idsR, List.mem_append, List.mem_cons]; tauto)
    | R i d l =>
      obtain ⟨h1, h2, h3, h4⟩ := hn i (by simp [idsL])
      simp only [ReprC] at *
      rw [h1, h2, h3, h4]
      refine ⟨hc.1, hc.2.1, hc.2.2.1, hc.2.2.2.1, hc.2.2.2.2.1.congr ?_, ih hc.2.2.2.2.2 ?_⟩
      · intro j hj; exact hn j (by simp [idsL, hj])
      · intro j hj; exact hn j (by simp only [idsL, idsR, List.mem_append, List.mem_cons]; tauto)

/-- Changing only the parent of the root of a subtree. -/
theorem Repr.reparent {n n' : Nat → NodeR D} {p q : Option Nat} {t : T D} (h : Repr n p t)
    (hnd : t.ids.Nodup)
    (hn : ∀ i ∈ t.ids, i ≠ t.id → StrEq (n' i) (n i))
    (hr : (n' t.id).data = (n t.id).data ∧ (n' t.id).left = (n t.id).left ∧ (n' t.id).right = (n t.id).right ∧
      (n' t.id).parent = q) : Repr n' q t := by
  cases t with
  | leaf i d =>
    simp only [Repr, T.id] at *
    rw [hr.1, hr.2.1, hr.2.2.1, hr.2.2.2]
    exact ⟨h.1, h.2.1, h.2.2.1, rfl⟩
  | node i d l r =>
    simp only [Repr, T.id, T.ids] at *
    rw [hr.1, hr.2.1, hr.2.2.1, hr.2.2.2]
    have h1 : i ∉ l.ids := by
      intro hi; rw [List.nodup_append] at hnd
      exact hnd.2.2 i hi i (by simp) rfl
    have h2 : i ∉ r.ids := by
      intro hi; rw [List.nodup_append] at hnd
      exact (List.nodup_cons.mp hnd.2.1).1 hi
    refine ⟨h.1, h.2.1, h.2.2.1, rfl, h.2.2.2.2.1.congr ?_, h.2.2.2.2.2.congr ?_⟩
    · intro j hj; exact hn j (by simp [hj]) (by rintro rfl; exact h1 hj)
    · intro j hj; exact hn j (by simp [hj]) (by rintro rfl; exact h2 hj)

/-- Changing only the hole pointer of a context. -/
theorem ReprC.rehole {n n' : Nat → NodeR D} {c : Ctx D} {h h' : Nat} (hc : ReprC n c h)
    (hnd : (idsL c ++ idsR c).Nodup)
    (hn : ∀ i, i ∈ idsL c ∨ i ∈ idsR c → ctxPar c ≠ some i → StrEq (n' i) (n i))
    (hp : match c with
      | [] => True
      | .L i _ _ :: _ => (n' i).data = (n i).data ∧ (n' i).left = some h' ∧ (n' i).right = (n i).right ∧
          (n' i).parent = (n i).parent
      | .R i _ _ :: _ => (n' i).data = (n i).data ∧ (n' i).right = some h' ∧ (n' i).left = (n i).left ∧
          (n' i).parent = (n i).parent) : ReprC n' c h' := by
  cases c with
  | nil => trivial
  | cons f c =>
    cases f with
    | L i d r =>
      simp only [ReprC, idsL, idsR, ctxPar, List.mem_append, List.mem_cons, List.append_assoc, List.cons_append, List.nil_append] at hc hnd hn ⊢
      have h1 : i ∉ r.ids ∧ i ∉ idsL c ∧ i ∉ idsR c := by
        simp only [List.cons_append, List.nodup_append, List.nodup_cons, List.mem_append, List.mem_cons] at hnd
        refine ⟨fun hi => ?_, fun hi => ?_, fun hi => ?_⟩
        · exact hnd.2.1.1 (Or.inl hi)
        · exact hnd.2.2 i hi i (Or.inl rfl) rfl
        · exact hnd.2.1.1 (Or.inr hi)
      rw [hp.1, hp.2.1, hp.2.2.1, hp.2.2.2]
      refine ⟨hc.1, rfl, hc.2.2.1, hc.2.2.2.1, hc.2.2.2.2.1.congr ?_, hc.2.2.2.2.2.congr ?_⟩
      · intro j hj; exact hn j (by tauto) (by rintro ⟨⟩; exact h1.1 hj)
      · intro j hj; exact hn j (by tauto) (by rintro ⟨⟩; tauto)
    | R i d l =>
      simp only [ReprC, idsL, idsR, ctxPar, List.mem_append, List.mem_cons, List.append_assoc, List.cons_append, List.nil_append] at hc hnd hn ⊢
      have h1 : i ∉ l.ids ∧ i ∉ idsL c ∧ i ∉ idsR c := by
        simp only [List.append_assoc, List.cons_append, List.nil_append, List.nodup_append, List.nodup_cons,
          List.mem_append, List.mem_cons] at hnd
        refine ⟨fun hi => ?_, fun hi => ?_, fun hi => ?_⟩
        · exact hnd.2.1.2.2 i hi i (Or.inl rfl) rfl
        · exact hnd.2.2 i hi i (Or.inr (Or.inl rfl)) rfl
        · exact hnd.2.1.2.1.1 hi
      rw [hp.1, hp.2.1, hp.2.2.1, hp.2.2.2]
      refine ⟨hc.1, hc.2.1, rfl, hc.2.2.2.1, hc.2.2.2.2.1.congr ?_, hc.2.2.2.2.2.congr ?_⟩
      · intro j hj; exact hn j (by tauto) (by rintro ⟨⟩; exact h1.1 hj)
      · intro j hj; exact hn j (by tauto) (by rintro ⟨⟩; tauto)

/-! ### Heights -/

/-- Cached heights are `1` on childless nodes and at least `2` on the others.  (They can be stale, but
never below this.) -/
def HOk (r : NodeR D) : Prop :=
  ∀ h, r.height = some h → ((r.left = none ∧ r.right = none → h = 1) ∧ (r.left ≠ none ∨ r.right ≠ none → 2 ≤ h))

def HInv (s : NS D) : Prop := ∀ i, HOk (s.n i)

/-- `s'` differs from `s` only in cached heights of nodes. -/
def SameS (s s' : NS D) : Prop := s'.cnt = s.cnt ∧ ∀ i, StrEq (s'.n i) (s.n i)

theorem SameS.refl (s : NS D) : SameS s s := ⟨rfl, fun _ => .refl _⟩

theorem SameS.trans {s t u : NS D} (h : SameS s t) (h' : SameS t u) : SameS s u :=
  ⟨h'.1.trans h.1, fun i => (h'.2 i).trans (h.2 i)⟩

theorem Repr.same {s s' : NS D} {p : Option Nat} {t : T D} (h : Repr s.n p t) (hs : SameS s s') :
    Repr s'.n p t := h.congr fun i _ => hs.2 i

theorem ReprC.same {s s' : NS D} {c : Ctx D} {k : Nat} (h : ReprC s.n c k) (hs : SameS s s') :
    ReprC s'.n c k := h.congr fun i _ => hs.2 i

/-- Height value allowed for a node with record `r`. -/
def HVal (r : NodeR D) (h : Nat) : Prop :=
  (r.left = none ∧ r.right = none → h = 1) ∧ (r.left ≠ none ∨ r.right ≠ none → 2 ≤ h)

theorem HVal.pos {r : NodeR D} {h : Nat} (hv : HVal r h) : 1 ≤ h := by
  by_cases hl : r.left = none ∧ r.right = none
  · rw [hv.1 hl]; exact Nat.le_refl 1
  · have := hv.2 (by tauto); omega

@[simp] theorem wp_rd (i : Nat) (s : NS D) (Q : NodeR D → NS D → Prop) :
    Wp E (rd i) s Q ↔ Q (s.n i) s := Iff.rfl

@[simp] theorem wp_updN (i : Nat) (f : NodeR D → NodeR D) (s : NS D) (Q : Unit → NS D → Prop) :
    Wp E (updN i f) s Q ↔ Q () { s with n := Function.update s.n i (f (s.n i)) } := Iff.rfl

@[simp] theorem wp_newNode (d : D) (s : NS D) (Q : Nat → NS D → Prop) :
    Wp E (newNode d) s Q ↔
      Q s.cnt { n := Function.update s.n s.cnt ⟨d, none, none, none, none⟩, cnt := s.cnt + 1 } := Iff.rfl

/-- Storing an allowed height. -/
theorem sameS_setHeight (s : NS D) (i h : Nat) (hi : HInv s) (hv : HVal (s.n i) h) :
    SameS s { s with n := Function.update s.n i { s.n i with height := some h } } ∧
    HInv { s with n := Function.update s.n i { s.n i with height := some h } } := by
  refine ⟨⟨rfl, fun j => ?_⟩, fun j => ?_⟩
  · by_cases hj : j = i
    · subst hj; simp [StrEq]
    · simp [Function.update_of_ne hj, StrEq]
  · by_cases hj : j = i
    · subst hj
      simp only [Function.update_self, HOk]
      rintro _ ⟨⟩; exact hv
    · simp only [Function.update_of_ne hj]; exact hi j

theorem HVal.congr {a b : NodeR D} {h : Nat} (hv : HVal a h) (hs : StrEq b a) : HVal b h := by
  unfold HVal at *; rw [hs.2.1, hs.2.2.1]; exact hv

theorem wp_height {s : NS D} {p : Option Nat} {t : T D} (hr : Repr s.n p t) (hi : HInv s)
    {fuel : Nat} (hf : t.depth ≤ fuel) :
    Wp E (height fuel t.id) s (fun h s' => HVal (s.n t.id) h ∧ SameS s s' ∧ HInv s') := by
  induction t generalizing s p fuel with
  | leaf i d =>
    obtain ⟨f, rfl⟩ : ∃ f, fuel = f + 1 := ⟨fuel - 1, by simp [T.depth] at hf; omega⟩
    obtain ⟨_, hl, hrr, _⟩ := hr
    simp only [T.id, height, wp_bind, wp_rd]
    cases hh : (s.n i).height with
    | some h => exact ⟨hi i h hh, .refl _, hi⟩
    | none =>
      simp only [wp_bind, hl, hrr, wp_pure]
      simp only [wp_updN]
      have hv : HVal (s.n i) (1 + max 0 0) := ⟨fun _ => rfl, by simp [hl, hrr]⟩
      exact ⟨hv, sameS_setHeight s i _ hi hv⟩
  | node i d l r ihl ihr =>
    obtain ⟨f, rfl⟩ : ∃ f, fuel = f + 1 := ⟨fuel - 1, by simp [T.depth] at hf; omega⟩
    obtain ⟨_, hl, hrr, _, hR, hR'⟩ := hr
    simp only [T.id, height, wp_bind, wp_rd]
    cases hh : (s.n i).height with
    | some h => exact ⟨hi i h hh, .refl _, hi⟩
    | none =>
      simp only [wp_bind, hl, hrr, wp_pure]
      simp only [wp_updN]
      simp only [T.depth] at hf
      refine wp_mono (ihl hR hi (by omega)) ?_
      rintro lh s1 ⟨hv1, hs1, hi1⟩
      refine wp_mono (ihr (hR'.same hs1) hi1 (by omega)) ?_
      rintro rh s2 ⟨hv2, hs2, hi2⟩
      have hs := hs1.trans hs2
      have hv : HVal (s.n i) (1 + max lh rh) :=
        ⟨by simp [hl], fun _ => by have := hv1.pos; omega⟩
      obtain ⟨h1, h2⟩ := sameS_setHeight s2 i (1 + max lh rh) hi2 (hv.congr (hs.2 i))
      exact ⟨hv, hs.trans h1, h2⟩

/-- `calcHeight` on a node all of whose children are roots of represented trees. -/
theorem wp_calcHeight_node {s : NS D} {i : Nat} {p q : Option Nat} {l r : T D}
    (hl : (s.n i).left = some l.id) (hrr : (s.n i).right = some r.id)
    (hR : Repr s.n p l) (hR' : Repr s.n q r) (hi : HInv s)
    {fuel : Nat} (hfl : l.depth ≤ fuel) (hfr : r.depth ≤ fuel) :
    Wp E (calcHeight fuel i) s (fun h s' => HVal (s.n i) h ∧ SameS s s' ∧ HInv s') := by
  simp only [calcHeight, wp_bind, wp_rd, hl, hrr, heightO, wp_pure]
  refine wp_mono (wp_height hR hi hfl) ?_
  rintro lh s1 ⟨hv1, hs1, hi1⟩
  refine wp_mono (wp_height (hR'.same hs1) hi1 hfr) ?_
  rintro rh s2 ⟨hv2, hs2, hi2⟩
  exact ⟨⟨by simp [hl], fun _ => by have := hv1.pos; omega⟩, hs1.trans hs2, hi2⟩

theorem wp_updateHeight_node {s : NS D} {i : Nat} {p q : Option Nat} {l r : T D}
    (hl : (s.n i).left = some l.id) (hrr : (s.n i).right = some r.id)
    (hR : Repr s.n p l) (hR' : Repr s.n q r) (hi : HInv s)
    {fuel : Nat} (hfl : l.depth ≤ fuel) (hfr : r.depth ≤ fuel) :
    Wp E (updateHeight fuel i) s (fun _ s' => SameS s s' ∧ HInv s') := by
  simp only [updateHeight, wp_bind]
  refine wp_mono (wp_calcHeight_node hl hrr hR hR' hi hfl hfr) ?_
  rintro h s1 ⟨hv, hs, hi1⟩
  obtain ⟨h1, h2⟩ := sameS_setHeight s1 i h hi1 (hv.congr (hs.2 i))
  exact ⟨hs.trans h1, h2⟩

/-- `updateHeight` at the root of a represented tree. -/
theorem wp_updateHeight {s : NS D} {p : Option Nat} {t : T D} (hr : Repr s.n p t) (hi : HInv s)
    {fuel : Nat} (hf : t.depth ≤ fuel) :
    Wp E (updateHeight fuel t.id) s (fun _ s' => SameS s s' ∧ HInv s') := by
  cases t with
  | leaf i d =>
    obtain ⟨_, hl, hrr, _⟩ := hr
    simp only [T.id, updateHeight, calcHeight, wp_bind, wp_rd, hl, hrr, heightO, wp_pure]
    simp only [wp_updN]
    exact sameS_setHeight s i (1 + max 0 0) hi ⟨fun _ => rfl, by simp [hl, hrr]⟩
  | node i d l r =>
    obtain ⟨_, hl, hrr, _, hR, hR'⟩ := hr
    simp only [T.depth] at hf
    exact wp_updateHeight_node hl hrr hR hR' hi (by omega) (by omega)

theorem wp_updateHeights {s : NS D} {c : Ctx D} {t : T D} (hr : Repr s.n none (plug c t)) (hi : HInv s)
    {hf fuel : Nat} (hhf : (plug c t).depth ≤ hf) (hfu : c.length < fuel) :
    Wp E (updateHeights hf fuel t.id) s (fun _ s' => SameS s s' ∧ HInv s') := by
  induction c generalizing s t fuel with
  | nil =>
    obtain ⟨f, rfl⟩ : ∃ f, fuel = f + 1 := ⟨fuel - 1, by simp at hfu; omega⟩
    simp only [plug] at *
    simp only [updateHeights, wp_bind, wp_rd]
    refine wp_mono (wp_updateHeight hr hi hhf) ?_
    rintro _ s1 ⟨hs, hi1⟩
    have : (s1.n t.id).parent = none := by
      rw [(hs.2 _).2.2.2]; cases t <;> simp only [Repr, T.id] at hr ⊢ <;> tauto
    rw [this]
    exact ⟨hs, hi1⟩
  | cons f c ih =>
    obtain ⟨f', rfl⟩ : ∃ f, fuel = f + 1 := ⟨fuel - 1, by simp at hfu; omega⟩
    have hd := depth_plug (f :: c) t
    have hr' := (repr_plug _ _ _).mp hr
    simp only [updateHeights, wp_bind, wp_rd]
    refine wp_mono (wp_updateHeight hr'.1 hi (by omega)) ?_
    rintro _ s1 ⟨hs, hi1⟩
    have : (s1.n t.id).parent = ctxPar (f :: c) := by
      rw [(hs.2 _).2.2.2]
      have := hr'.1
      cases t <;> simp only [Repr, T.id] at this ⊢ <;> tauto
    rw [this]
    have key : ∀ t' : T D, plug c t' = plug (f :: c) t → ctxPar (f :: c) = some t'.id →
        Wp E (optDo (ctxPar (f :: c)) (fun p => updateHeights hf f' p)) s1 (fun _ s' => SameS s s' ∧ HInv s') := by
      intro t' ht' hid
      rw [hid]
      simp only [optDo]
      refine wp_mono (ih (t := t') (by rw [ht']; exact hr.same hs) hi1 (by rw [ht']; exact hhf)
        (by simp at hfu; omega)) ?_
      rintro _ s2 ⟨hs2, hi2⟩
      exact ⟨hs.trans hs2, hi2⟩
    cases f with
    | L i d r => exact key (.node i d t r) rfl rfl
    | R i d l => exact key (.node i d l t) rfl rfl

theorem wp_heightO_balance {s : NS D} {p : Option Nat} {t : T D} (hr : Repr s.n p t) (hi : HInv s)
    {fuel : Nat} (hf : t.depth ≤ fuel) :
    Wp E (balanceOf fuel t.id) s (fun b s' => SameS s s' ∧ HInv s' ∧
      (match t with
        | .leaf _ _ => b = 0
        | .node _ _ l r => (b > 0 → l.isLeaf = false) ∧ (b < 0 → r.isLeaf = false) )) := by
  cases t with
  | leaf i d =>
    obtain ⟨_, hl, hrr, _⟩ := hr
    simp [T.id, balanceOf, hl, hrr, heightO, hi, SameS.refl]
  | node i d l r =>
    obtain ⟨_, hl, hrr, _, hR, hR'⟩ := hr
    simp only [T.depth] at hf
    simp only [T.id, balanceOf, wp_bind, wp_rd, hl, hrr, heightO, wp_pure]
    refine wp_mono (wp_height hR hi (by omega)) ?_
    rintro lh s1 ⟨hv1, hs1, hi1⟩
    refine wp_mono (wp_height (hR'.same hs1) hi1 (by omega)) ?_
    rintro rh s2 ⟨hv2, hs2, hi2⟩
    have hv2' := hv2.congr (hs1.2 _).symm
    refine ⟨hs1.trans hs2, hi2, ?_, ?_⟩
    · intro hb
      cases l with
      | leaf j e =>
        simp only [Repr] at hR
        have := hv1.1 ⟨hR.2.1, hR.2.2.1⟩
        have := hv2.pos
        omega
      | node => rfl
    · intro hb
      cases r with
      | leaf j e =>
        simp only [Repr] at hR'
        have := hv2'.1 ⟨hR'.2.1, hR'.2.2.1⟩
        have := hv1.pos
        omega
      | node => rfl

end Foronoi
