import Verif.Model.Algorithm
import Verif.Proof.TreeNav
import Mathlib.Data.List.Chain
import Mathlib.Data.List.Infix

/-!
# The beach line as a list

`L : List (Item Dat)` is the in-order sequence of the status tree: arc, breakpoint, arc, …
`og a` is the origin (site) of arc `a`, `pr b` the pair of sites of breakpoint `b`.
-/

open scoped List

namespace Foronoi

/-- Neighbouring entries of the beach line: the breakpoint carries the site of the arc next to it. -/
def BRel (og : Nat → Nat) (pr : Nat → Nat × Nat) : Item Dat → Item Dat → Prop
  | ⟨_, true, .arc a⟩, ⟨_, false, .bp b⟩ => (pr b).1 = og a
  | ⟨_, false, .bp b⟩, ⟨_, true, .arc a⟩ => (pr b).2 = og a
  | _, _ => False

/-- The site of an entry, if it is an arc. -/
def iOrg (og : Nat → Nat) : Item Dat → Option Nat
  | ⟨_, _, .arc a⟩ => some (og a)
  | ⟨_, _, .bp _⟩ => none

/-- The sites of the arcs, left to right. -/
def origs (og : Nat → Nat) (L : List (Item Dat)) : List Nat := L.filterMap (iOrg og)

@[simp] theorem origs_nil (og : Nat → Nat) : origs og [] = [] := rfl

@[simp] theorem origs_append (og : Nat → Nat) (A B : List (Item Dat)) : origs og (A ++ B) = origs og A ++ origs og B := by
  simp [origs]

@[simp] theorem origs_arc (og : Nat → Nat) (i : Nat) (f : Bool) (a : Nat) (A : List (Item Dat)) :
    origs og (⟨i, f, .arc a⟩ :: A) = og a :: origs og A := by simp [origs, iOrg]

@[simp] theorem origs_bp (og : Nat → Nat) (i : Nat) (f : Bool) (b : Nat) (A : List (Item Dat)) :
    origs og (⟨i, f, .bp b⟩ :: A) = origs og A := by
  unfold origs; exact List.filterMap_cons_none rfl

/-- No two sites alternate twice: `a … b … a … b` does not occur. -/
def NoABAB (l : List Nat) : Prop := ∀ a b, a ≠ b → ¬ [a, b, a, b] <+ l

theorem NoABAB.sub {l l' : List Nat} (h : NoABAB l) (hs : l' <+ l) : NoABAB l' :=
  fun a b hab h' => h a b hab (h'.trans hs)

theorem sublist_dedup {α : Type} {p : List α} (hp : p.IsChain (· ≠ ·)) {l1 l2 : List α} {x : α}
    (h : p <+ l1 ++ x :: x :: l2) : p <+ l1 ++ x :: l2 := by
  induction l1 generalizing p with
  | nil =>
    simp only [List.nil_append] at h ⊢
    cases h with
    | cons _ h => exact h
    | cons_cons _ h =>
      rename_i p'
      refine List.Sublist.cons_cons _ ?_
      cases p' with
      | nil => simp
      | cons y p'' =>
        have hxy : x ≠ y := by simp at hp; exact hp.1
        cases h with
        | cons _ h => exact h
        | cons_cons _ h => exact absurd rfl hxy
  | cons a l1 ih =>
    simp only [List.cons_append] at h ⊢
    cases h with
    | cons _ h => exact List.Sublist.cons _ (ih hp h)
    | cons_cons _ h =>
      refine List.Sublist.cons_cons _ (ih ?_ h)
      exact hp.tail

/-- A fresh site may split an arc. -/
theorem NoABAB.insert {A B : List Nat} {p i : Nat} (h : NoABAB (A ++ p :: B)) (hi : i ∉ A ++ p :: B) :
    NoABAB (A ++ p :: i :: p :: B) := by
  intro a b hab hs
  have hcount : (A ++ p :: i :: p :: B).count i = 1 := by
    have h1 : A.count i = 0 := List.count_eq_zero.mpr (by grind)
    have h2 : B.count i = 0 := List.count_eq_zero.mpr (by grind)
    have h3 : p ≠ i := by grind
    simp [List.count_append, List.count_cons, h1, h2, h3]
  have hai : a ≠ i := by
    rintro rfl
    have := hs.count_le a
    simp [hcount, Ne.symm hab] at this
  have hbi : b ≠ i := by
    rintro rfl
    have := hs.count_le b
    simp [hcount, hab] at this
  have h1 := hs.filter (fun x => decide (x ≠ i))
  have hA : A.filter (fun x => decide (x ≠ i)) = A := List.filter_eq_self.mpr (by grind)
  have hB : B.filter (fun x => decide (x ≠ i)) = B := List.filter_eq_self.mpr (by grind)
  have hp : p ≠ i := by grind
  simp only [List.filter_append, List.filter_cons, hA, hB] at h1
  simp only [ne_eq, hai, hbi, not_false_eq_true, decide_true, if_true, List.filter_nil, hp, not_true_eq_false,
    decide_false, Bool.false_eq_true, if_false] at h1
  exact h a b hab (sublist_dedup (by simp [hab, Ne.symm hab]) h1)

theorem NoABAB.append {A : List Nat} {p i : Nat} (h : NoABAB (A ++ [p])) (hi : i ∉ A ++ [p]) :
    NoABAB (A ++ [p, i]) :=
  (h.insert (B := []) hi).sub (by simp)

/-- In such a list an ordered pair is adjacent at most once. -/
theorem NoABAB.pair_unique {l : List Nat} (h : NoABAB l) {p q : Nat} (hpq : p ≠ q) {A B A' B' : List Nat}
    (h1 : l = A ++ p :: q :: B) (h2 : l = A' ++ p :: q :: B') : A = A' := by
  have key : ∀ (A A' B B' : List Nat), NoABAB (A ++ p :: q :: B) → A ++ p :: q :: B = A' ++ p :: q :: B' →
      A.length ≤ A'.length → A = A' := by
    intro A
    induction A with
    | nil =>
      intro A' B B' hn he _
      cases A' with
      | nil => rfl
      | cons a A' =>
        exfalso
        cases A' with
        | nil => simp at he; exact hpq he.2.1.symm
        | cons a2 A' =>
          simp only [List.nil_append, List.cons_append, List.cons.injEq] at he
          refine hn p q hpq ?_
          rw [List.nil_append, he.2.2]
          refine List.Sublist.cons_cons _ (List.Sublist.cons_cons _ ?_)
          exact (List.Sublist.refl [p, q]).trans ((by simp : [p, q] <+ p :: q :: B').trans (List.sublist_append_right _ _))
    | cons a A ih =>
      intro A' B B' hn he hl
      cases A' with
      | nil => simp at hl
      | cons a' A' =>
        simp only [List.cons_append, List.cons.injEq] at he
        simp only [List.length_cons, Nat.add_le_add_iff_right] at hl
        rw [he.1, ih A' B B' (hn.sub (by simp)) he.2 hl]
  rcases Nat.le_total A.length A'.length with hl | hl
  · exact key A A' B B' (h1 ▸ h) (h1.symm.trans h2) hl
  · exact (key A' A B' B (h2 ▸ h) (h2.symm.trans h1) hl).symm

/-- A well formed beach line. -/
structure BOk (og : Nat → Nat) (pr : Nat → Nat × Nat) (aCnt bCnt : Nat) (L : List (Item Dat)) : Prop where
  chain : L.IsChain (BRel og pr)
  kind : ∀ x ∈ L, (∃ a, x.lf = true ∧ x.d = .arc a ∧ a < aCnt) ∨
    (∃ b, x.lf = false ∧ x.d = .bp b ∧ b < bCnt ∧ (pr b).1 ≠ (pr b).2)
  nd : (L.map (·.d)).Nodup
  ab : NoABAB (origs og L)
  hd : ∀ x ∈ L.head?, x.lf = true
  lst : ∀ x ∈ L.getLast?, x.lf = true

variable {og og' : Nat → Nat} {pr pr' : Nat → Nat × Nat} {aCnt bCnt aCnt' bCnt' : Nat} {L pre post : List (Item Dat)}

theorem BRel.congr {x y : Item Dat} (h : BRel og pr x y) (ha : ∀ a, x.d = .arc a ∨ y.d = .arc a → og' a = og a)
    (hb : ∀ b, x.d = .bp b ∨ y.d = .bp b → pr' b = pr b) : BRel og' pr' x y := by
  obtain ⟨i, f, d⟩ := x
  obtain ⟨j, g, e⟩ := y
  cases f <;> cases g <;> cases d <;> cases e <;> simp_all [BRel]

theorem chain_congr (h : L.IsChain (BRel og pr)) (ha : ∀ x ∈ L, ∀ a, x.d = .arc a → og' a = og a)
    (hb : ∀ x ∈ L, ∀ b, x.d = .bp b → pr' b = pr b) : L.IsChain (BRel og' pr') := by
  induction L with
  | nil => simp
  | cons x L ih =>
    cases L with
    | nil => simp
    | cons y L =>
      simp only [List.isChain_cons_cons] at h ⊢
      refine ⟨h.1.congr ?_ ?_, ih h.2 ?_ ?_⟩
      · rintro a (hx | hy)
        · exact ha x (by simp) a hx
        · exact ha y (by simp) a hy
      · rintro b (hx | hy)
        · exact hb x (by simp) b hx
        · exact hb y (by simp) b hy
      · intro z hz; exact ha z (List.mem_cons_of_mem _ hz)
      · intro z hz; exact hb z (List.mem_cons_of_mem _ hz)

theorem origs_congr (ha : ∀ x ∈ L, ∀ a, x.d = .arc a → og' a = og a) : origs og' L = origs og L := by
  unfold origs
  refine List.filterMap_congr ?_
  rintro ⟨i, f, d⟩ hx
  cases d with
  | arc a => simp [iOrg, ha _ hx a rfl]
  | bp b => rfl

/-- What follows an arc. -/
theorem BOk.post_cases {n a : Nat} (h : BOk og pr aCnt bCnt (pre ++ ⟨n, true, .arc a⟩ :: post)) :
    post = [] ∨ ∃ m b n' a' post', post = ⟨m, false, .bp b⟩ :: ⟨n', true, .arc a'⟩ :: post' ∧ pr b = (og a, og a') := by
  cases post with
  | nil => exact Or.inl rfl
  | cons x post =>
    right
    have hc := (List.isChain_append.mp h.chain).2.1
    simp only [List.isChain_cons_cons] at hc
    obtain ⟨m, f, d⟩ := x
    have hx : f = false ∧ ∃ b, d = .bp b ∧ (pr b).1 = og a := by
      have := hc.1
      cases f <;> cases d <;> simp_all [BRel]
    obtain ⟨rfl, b, rfl, hb1⟩ := hx
    cases post with
    | nil =>
      have := h.lst ⟨m, false, .bp b⟩ (by simp)
      simp at this
    | cons y post =>
      simp only [List.isChain_cons_cons] at hc
      obtain ⟨n', g, e⟩ := y
      have hy : g = true ∧ ∃ a', e = .arc a' ∧ (pr b).2 = og a' := by
        have := hc.2.1
        cases g <;> cases e <;> simp_all [BRel]
      obtain ⟨rfl, a', rfl, hb2⟩ := hy
      exact ⟨m, b, n', a', post, rfl, Prod.ext hb1 hb2⟩

/-- What precedes an arc. -/
theorem BOk.pre_cases {n a : Nat} (h : BOk og pr aCnt bCnt (pre ++ ⟨n, true, .arc a⟩ :: post)) :
    pre = [] ∨ ∃ pre' n' a' m b, pre = pre' ++ [⟨n', true, .arc a'⟩, ⟨m, false, .bp b⟩] ∧ pr b = (og a', og a) := by
  rcases List.eq_nil_or_concat pre with rfl | ⟨pre1, x, rfl⟩
  · exact Or.inl rfl
  right
  have hc := h.chain
  simp only [List.concat_eq_append, List.append_assoc, List.cons_append, List.nil_append] at hc
  have hc1 := (List.isChain_append.mp hc).2.1
  simp only [List.isChain_cons_cons] at hc1
  obtain ⟨m, f, d⟩ := x
  have hx : f = false ∧ ∃ b, d = .bp b ∧ (pr b).2 = og a := by
    have := hc1.1
    cases f <;> cases d <;> simp_all [BRel]
  obtain ⟨rfl, b, rfl, hb2⟩ := hx
  rcases List.eq_nil_or_concat pre1 with rfl | ⟨pre2, y, rfl⟩
  · have := h.hd ⟨m, false, .bp b⟩ (by simp)
    simp at this
  · simp only [List.concat_eq_append, List.append_assoc, List.cons_append, List.nil_append] at hc
    have hc2 := (List.isChain_append.mp hc).2.1
    simp only [List.isChain_cons_cons] at hc2
    obtain ⟨n', g, e⟩ := y
    have hy : g = true ∧ ∃ a', e = .arc a' ∧ (pr b).1 = og a' := by
      have := hc2.1
      cases g <;> cases e <;> simp_all [BRel]
    obtain ⟨rfl, a', rfl, hb1⟩ := hy
    exact ⟨pre2, n', a', m, b, by simp, Prod.ext hb1 hb2⟩

/-- The arcs on both sides of a breakpoint. -/
theorem BOk.bp_cases {m b : Nat} (h : BOk og pr aCnt bCnt (pre ++ ⟨m, false, .bp b⟩ :: post)) :
    ∃ pre' n a n' a' post', pre = pre' ++ [⟨n, true, .arc a⟩] ∧ post = ⟨n', true, .arc a'⟩ :: post' ∧
      pr b = (og a, og a') := by
  have hc := h.chain
  rcases List.eq_nil_or_concat pre with rfl | ⟨pre1, x, rfl⟩
  · have := h.hd ⟨m, false, .bp b⟩ (by simp)
    simp at this
  cases post with
  | nil =>
    have := h.lst ⟨m, false, .bp b⟩ (by simp)
    simp at this
  | cons y post =>
    simp only [List.concat_eq_append, List.append_assoc, List.cons_append, List.nil_append] at hc
    have hc1 := (List.isChain_append.mp hc).2.1
    simp only [List.isChain_cons_cons] at hc1
    obtain ⟨n, f, d⟩ := x
    obtain ⟨n', g, e⟩ := y
    have hx : f = true ∧ ∃ a, d = .arc a ∧ (pr b).1 = og a := by
      have := hc1.1
      cases f <;> cases d <;> simp_all [BRel]
    have hy : g = true ∧ ∃ a', e = .arc a' ∧ (pr b).2 = og a' := by
      have := hc1.2.1
      cases g <;> cases e <;> simp_all [BRel]
    obtain ⟨rfl, a, rfl, h1⟩ := hx
    obtain ⟨rfl, a', rfl, h2⟩ := hy
    exact ⟨pre1, n, a, n', a', post, by simp, rfl, Prod.ext h1 h2⟩

/-- A pair of sites is stored at most once in the tree. -/
theorem BOk.pair_unique {m b m' b' : Nat} {pre' post' : List (Item Dat)} (h : BOk og pr aCnt bCnt L)
    (h1 : L = pre ++ ⟨m, false, .bp b⟩ :: post) (h2 : L = pre' ++ ⟨m', false, .bp b'⟩ :: post')
    (hp : pr b = pr b') : m = m' ∧ b = b' := by
  obtain ⟨q1, n1, a1, n2, a2, r1, rfl, rfl, e1⟩ := (h1 ▸ h).bp_cases
  obtain ⟨q1', n1', a1', n2', a2', r1', rfl, rfl, e1'⟩ := (h2 ▸ h).bp_cases
  have hne : og a1 ≠ og a2 := by
    have := h.kind ⟨m, false, .bp b⟩ (by rw [h1]; simp)
    rcases this with ⟨a, h, _⟩ | ⟨b', _, h, _, hne⟩
    · simp at h
    · simp only [Dat.bp.injEq] at h; subst h; rw [e1] at hne; exact hne
  rw [e1, e1', Prod.mk.injEq] at hp
  have ho1 : origs og L = origs og q1 ++ og a1 :: og a2 :: origs og r1 := by rw [h1]; simp
  have ho2 : origs og L = origs og q1' ++ og a1 :: og a2 :: origs og r1' := by rw [h2, hp.1, hp.2]; simp
  have hq := h.ab.pair_unique hne ho1 ho2
  -- q1 and q1' are prefixes of L followed by an arc, with the same number of arcs
  have hL : q1 ++ ⟨n1, true, .arc a1⟩ :: (⟨m, false, .bp b⟩ :: ⟨n2, true, .arc a2⟩ :: r1)
      = q1' ++ ⟨n1', true, .arc a1'⟩ :: (⟨m', false, .bp b'⟩ :: ⟨n2', true, .arc a2'⟩ :: r1') := by
    rw [h1] at h2; simpa using h2
  have key : ∀ (q q' r r' : List (Item Dat)) (n n' a a' : Nat), (origs og q).length = (origs og q').length →
      q ++ ⟨n, true, .arc a⟩ :: r = q' ++ ⟨n', true, .arc a'⟩ :: r' → r = r' := by
    intro q
    induction q with
    | nil =>
      intro q' r r' n n' a a' hl he
      cases q' with
      | nil => simp at he; exact he.2
      | cons x q' =>
        simp only [List.nil_append, List.cons_append, List.cons.injEq] at he
        rw [← he.1] at hl
        simp at hl
    | cons x q ih =>
      intro q' r r' n n' a a' hl he
      cases q' with
      | nil =>
        simp only [List.nil_append, List.cons_append, List.cons.injEq] at he
        rw [he.1] at hl
        simp at hl
      | cons x' q' =>
        simp only [List.cons_append, List.cons.injEq] at he
        refine ih q' r r' n n' a a' ?_ he.2
        rw [he.1] at hl
        obtain ⟨i, f, d⟩ := x'
        cases d <;> simpa using hl
  have := key _ _ _ _ _ _ _ _ (by rw [hq]) hL
  simp only [List.cons.injEq, Item.mk.injEq, Dat.bp.injEq, true_and] at this
  exact this.1

/-! ### Steps of the beach line -/

/-- Replacing one arc by three. -/
theorem BOk.split {n a n1 n2 n3 m1 m2 a1 a2 a3 b1 b2 pj pi : Nat}
    (h : BOk og pr aCnt bCnt (pre ++ ⟨n, true, .arc a⟩ :: post))
    (hog : ∀ x, x < aCnt → og' x = og x) (hpr : ∀ x, x < bCnt → pr' x = pr x)
    (hac : aCnt ≤ aCnt') (hbc : bCnt ≤ bCnt')
    (ha1 : aCnt ≤ a1 ∧ a1 < aCnt') (ha2 : aCnt ≤ a2 ∧ a2 < aCnt') (ha3 : aCnt ≤ a3 ∧ a3 < aCnt')
    (hnd : [a1, a2, a3].Nodup) (hb1 : bCnt ≤ b1 ∧ b1 < bCnt') (hb2 : bCnt ≤ b2 ∧ b2 < bCnt') (hbn : b1 ≠ b2)
    (hpj : og a = pj) (e1 : og' a1 = pj) (e2 : og' a2 = pi) (e3 : og' a3 = pj)
    (f1 : pr' b1 = (pj, pi)) (f2 : pr' b2 = (pi, pj))
    (hpi : pi ∉ origs og (pre ++ ⟨n, true, .arc a⟩ :: post)) :
    BOk og' pr' aCnt' bCnt' (pre ++ ([⟨n1, true, .arc a1⟩, ⟨m1, false, .bp b1⟩, ⟨n2, true, .arc a2⟩,
      ⟨m2, false, .bp b2⟩, ⟨n3, true, .arc a3⟩] ++ post)) := by
  have hA : ∀ x ∈ pre ++ ⟨n, true, .arc a⟩ :: post, ∀ a, x.d = .arc a → a < aCnt := by
    intro x hx a' hxa
    rcases h.kind x hx with ⟨a, _, h1, h2⟩ | ⟨b, _, h1, _⟩
    · rw [hxa] at h1; cases h1; exact h2
    · rw [hxa] at h1; cases h1
  have hB : ∀ x ∈ pre ++ ⟨n, true, .arc a⟩ :: post, ∀ b, x.d = .bp b → b < bCnt := by
    intro x hx b' hxb
    rcases h.kind x hx with ⟨a, _, h1, _⟩ | ⟨b, _, h1, h2, _⟩
    · rw [hxb] at h1; cases h1
    · rw [hxb] at h1; cases h1; exact h2
  have hc' : (pre ++ ⟨n, true, .arc a⟩ :: post).IsChain (BRel og' pr') :=
    chain_congr h.chain (fun x hx a hxa => hog a (hA x hx a hxa)) (fun x hx b hxb => hpr b (hB x hx b hxb))
  have haa : og' a = pj := by rw [hog a (hA ⟨n, true, .arc a⟩ (by simp) a rfl)]; exact hpj
  have hne : pi ≠ pj := by
    intro he; apply hpi; rw [he]; simp [hpj]
  refine ⟨?_, ?_, ?_, ?_, ?_, ?_⟩
  · have hpost := (List.isChain_append.mp hc').2.1
    have hpre := List.isChain_append.mp hc'
    rw [List.isChain_append]
    refine ⟨hpre.1, ?_, ?_⟩
    · simp only [List.cons_append, List.nil_append, List.isChain_cons_cons, BRel, f1, f2, e1, e2, e3, true_and]
      cases post with
      | nil => simp
      | cons y post =>
        simp only [List.isChain_cons_cons] at hpost ⊢
        refine ⟨?_, hpost.2⟩
        have := hpost.1
        obtain ⟨j, g, e⟩ := y
        cases g <;> cases e <;> simp_all [BRel]
    · intro x hx y hy
      simp only [List.cons_append, List.head?_cons, Option.mem_def, Option.some.injEq] at hy
      have := hpre.2.2 x hx ⟨n, true, .arc a⟩ (by simp)
      subst hy
      obtain ⟨j, g, e⟩ := x
      cases g <;> cases e <;> simp_all [BRel]
  · intro x hx
    simp only [List.mem_append, List.cons_append, List.nil_append, List.mem_cons] at hx
    have old : ∀ x ∈ pre ++ ⟨n, true, .arc a⟩ :: post, (∃ a, x.lf = true ∧ x.d = .arc a ∧ a < aCnt') ∨
        (∃ b, x.lf = false ∧ x.d = .bp b ∧ b < bCnt' ∧ (pr' b).1 ≠ (pr' b).2) := by
      intro x hx
      rcases h.kind x hx with ⟨a, h0, h1, h2⟩ | ⟨b, h0, h1, h2, h3⟩
      · exact Or.inl ⟨a, h0, h1, by omega⟩
      · exact Or.inr ⟨b, h0, h1, by omega, by rw [hpr b h2]; exact h3⟩
    rcases hx with hx | rfl | rfl | rfl | rfl | rfl | hx
    · exact old x (by simp [hx])
    · exact Or.inl ⟨a1, rfl, rfl, ha1.2⟩
    · exact Or.inr ⟨b1, rfl, rfl, hb1.2, by rw [f1]; exact hne.symm⟩
    · exact Or.inl ⟨a2, rfl, rfl, ha2.2⟩
    · exact Or.inr ⟨b2, rfl, rfl, hb2.2, by rw [f2]; exact hne⟩
    · exact Or.inl ⟨a3, rfl, rfl, ha3.2⟩
    · exact old x (by simp [hx])
  · have hold := h.nd
    simp only [List.map_append, List.map_cons, List.map_nil] at hold ⊢
    have hfreshA : ∀ x, aCnt ≤ x → Dat.arc x ∉ pre.map (·.d) ∧ Dat.arc x ∉ post.map (·.d) := by
      intro x hx
      constructor
      · intro hm
        obtain ⟨y, hy, hyd⟩ := List.mem_map.mp hm
        have := hA y (by simp [hy]) x hyd; omega
      · intro hm
        obtain ⟨y, hy, hyd⟩ := List.mem_map.mp hm
        have := hA y (by simp [hy]) x hyd; omega
    have hfreshB : ∀ x, bCnt ≤ x → Dat.bp x ∉ pre.map (·.d) ∧ Dat.bp x ∉ post.map (·.d) := by
      intro x hx
      constructor
      · intro hm
        obtain ⟨y, hy, hyd⟩ := List.mem_map.mp hm
        have := hB y (by simp [hy]) x hyd; omega
      · intro hm
        obtain ⟨y, hy, hyd⟩ := List.mem_map.mp hm
        have := hB y (by simp [hy]) x hyd; omega
    have g1 := hfreshA a1 ha1.1
    have g2 := hfreshA a2 ha2.1
    have g3 := hfreshA a3 ha3.1
    have g4 := hfreshB b1 hb1.1
    have g5 := hfreshB b2 hb2.1
    simp only [List.nodup_cons, List.mem_cons, List.not_mem_nil, or_false, not_or, not_false_eq_true, List.nodup_nil,
      and_true] at hnd
    simp only [List.nodup_append, List.nodup_cons, List.mem_cons, List.mem_append, List.cons_append, List.nil_append,
      not_or, Dat.arc.injEq, Dat.bp.injEq, reduceCtorEq, not_false_eq_true, true_and] at hold ⊢
    grind
  · have : origs og' (pre ++ ([⟨n1, true, .arc a1⟩, ⟨m1, false, .bp b1⟩, ⟨n2, true, .arc a2⟩,
      ⟨m2, false, .bp b2⟩, ⟨n3, true, .arc a3⟩] ++ post)) = origs og pre ++ pj :: pi :: pj :: origs og post := by
      have q1 : origs og' pre = origs og pre := origs_congr (fun x hx a hxa => hog a (hA x (by simp [hx]) a hxa))
      have q2 : origs og' post = origs og post := origs_congr (fun x hx a hxa => hog a (hA x (by simp [hx]) a hxa))
      simp [q1, q2, e1, e2, e3]
    rw [this]
    have h1 := h.ab
    simp only [origs_append, origs_arc, hpj] at h1 hpi
    exact h1.insert hpi
  · intro x hx
    cases pre with
    | nil =>
      simp only [List.nil_append, List.cons_append, List.head?_cons, Option.mem_def, Option.some.injEq] at hx
      rw [← hx]
    | cons y pre => exact h.hd x (by simpa using hx)
  · intro x hx
    rcases List.eq_nil_or_concat post with rfl | ⟨post', y, rfl⟩
    · simp at hx
      rw [← hx]
    · exact h.lst x (by simpa [List.getLast?_append, List.getLast?_cons] using hx)

/-- Appending an arc at the right end. -/
theorem BOk.snoc {n a n1 n2 m1 a1 a2 b1 pj pi : Nat}
    (h : BOk og pr aCnt bCnt (pre ++ [⟨n, true, .arc a⟩]))
    (hog : ∀ x, x < aCnt → og' x = og x) (hpr : ∀ x, x < bCnt → pr' x = pr x)
    (hac : aCnt ≤ aCnt') (hbc : bCnt ≤ bCnt')
    (ha1 : aCnt ≤ a1 ∧ a1 < aCnt') (ha2 : aCnt ≤ a2 ∧ a2 < aCnt')
    (hnd : a1 ≠ a2) (hb1 : bCnt ≤ b1 ∧ b1 < bCnt')
    (hpj : og a = pj) (e1 : og' a1 = pj) (e2 : og' a2 = pi)
    (f1 : pr' b1 = (pj, pi))
    (hpi : pi ∉ origs og (pre ++ [⟨n, true, .arc a⟩])) :
    BOk og' pr' aCnt' bCnt' (pre ++ [⟨n1, true, .arc a1⟩, ⟨m1, false, .bp b1⟩, ⟨n2, true, .arc a2⟩]) := by
  -- a part of the split with one more arc and breakpoint
  have h2 := h.split (n1 := n1) (n2 := n2) (n3 := 0) (m1 := m1) (m2 := 0) (a1 := a1) (a2 := a2) (a3 := aCnt')
    (b1 := b1) (b2 := bCnt') (pj := pj) (pi := pi)
    (og' := fun x => if x = aCnt' then pj else og' x) (pr' := fun x => if x = bCnt' then (pi, pj) else pr' x)
    (aCnt' := aCnt' + 1) (bCnt' := bCnt' + 1)
    (by intro x hx; simp [hog x hx]; omega) (by intro x hx; simp [hpr x hx]; omega) (by omega) (by omega) (by omega)
    (by omega) (by omega) (by simp [hnd]; omega) (by omega) (by omega) (by omega) hpj
    (by simp [e1]) (by simp [e2]; omega) (by simp) (by simp [f1]; omega) (by simp) hpi
  have hsplit : pre ++ ([⟨n1, true, .arc a1⟩, ⟨m1, false, .bp b1⟩, ⟨n2, true, .arc a2⟩,
      ⟨0, false, .bp bCnt'⟩, ⟨0, true, .arc aCnt'⟩] ++ []) =
      (pre ++ [⟨n1, true, .arc a1⟩, ⟨m1, false, .bp b1⟩, ⟨n2, true, .arc a2⟩]) ++
        [⟨0, false, .bp bCnt'⟩, (⟨0, true, .arc aCnt'⟩ : Item Dat)] := by simp
  rw [hsplit] at h2
  have hA : ∀ x ∈ pre ++ [⟨n1, true, .arc a1⟩, ⟨m1, false, .bp b1⟩, ⟨n2, true, .arc a2⟩], ∀ a, x.d = .arc a → a < aCnt' := by
    intro x hx a' hxa
    have hne : a' ≠ aCnt' := by
      rintro rfl
      have := h2.nd
      rw [List.map_append, List.nodup_append] at this
      exact this.2.2 (.arc a') (List.mem_map.mpr ⟨x, hx, hxa⟩) (.arc a') (by simp) rfl
    rcases h2.kind x (by simp at hx ⊢; tauto) with ⟨a, _, h1, h2⟩ | ⟨b, _, h1, _⟩
    · rw [hxa] at h1; cases h1; omega
    · rw [hxa] at h1; cases h1
  have hB : ∀ x ∈ pre ++ [⟨n1, true, .arc a1⟩, ⟨m1, false, .bp b1⟩, ⟨n2, true, .arc a2⟩], ∀ b, x.d = .bp b → b < bCnt' := by
    intro x hx a' hxa
    have hne : a' ≠ bCnt' := by
      rintro rfl
      have := h2.nd
      rw [List.map_append, List.nodup_append] at this
      exact this.2.2 (.bp a') (List.mem_map.mpr ⟨x, hx, hxa⟩) (.bp a') (by simp) rfl
    rcases h2.kind x (by simp at hx ⊢; tauto) with ⟨a, _, h1, _⟩ | ⟨b, _, h1, h2, _⟩
    · rw [hxa] at h1; cases h1
    · rw [hxa] at h1; cases h1; omega
  refine ⟨?_, ?_, ?_, ?_, ?_, ?_⟩
  · refine chain_congr (List.isChain_append.mp h2.chain).1 (fun x hx a hxa => ?_) (fun x hx b hxb => ?_)
    · have := hA x hx a hxa
      rw [if_neg (by omega)]
    · have := hB x hx b hxb
      rw [if_neg (by omega)]
  · intro x hx
    rcases h2.kind x (by simp at hx ⊢; tauto) with ⟨a, h0, h1, h2⟩ | ⟨b, h0, h1, h2, h3⟩
    · exact Or.inl ⟨a, h0, h1, hA x hx a h1⟩
    · have := hB x hx b h1
      rw [if_neg (by omega)] at h3
      exact Or.inr ⟨b, h0, h1, this, h3⟩
  · have := h2.nd
    rw [List.map_append, List.nodup_append] at this
    exact this.1
  · have h3 := h2.ab
    rw [origs_append] at h3
    have h4 := h3.sub (List.sublist_append_left _ _)
    rw [origs_congr (og := og') (fun x hx a hxa => ?_)] at h4
    · exact h4
    · have := hA x hx a hxa
      rw [if_neg (by omega)]
  · intro x hx
    refine h2.hd x ?_
    cases pre with
    | nil => simpa using hx
    | cons y pre => simpa using hx
  · intro x hx
    simp at hx
    rw [← hx]

/-- Removing an arc; the remaining breakpoint gets the pair of the neighbours. -/
theorem BOk.remove {n1 a1 m1 b1 n2 a2 m2 b2 n3 a3 m b : Nat}
    (h : BOk og pr aCnt bCnt (pre ++ ([⟨n1, true, .arc a1⟩, ⟨m1, false, .bp b1⟩, ⟨n2, true, .arc a2⟩,
      ⟨m2, false, .bp b2⟩, ⟨n3, true, .arc a3⟩] ++ post)))
    (hb : (m = m1 ∧ b = b1) ∨ (m = m2 ∧ b = b2))
    (hpr : ∀ x, x ≠ b → pr' x = pr x) (hp : pr' b = (og a1, og a3)) (hne : og a1 ≠ og a3) :
    BOk og pr' aCnt bCnt (pre ++ ([⟨n1, true, .arc a1⟩, ⟨m, false, .bp b⟩, ⟨n3, true, .arc a3⟩] ++ post)) := by
  have hbnd := h.nd
  simp only [List.map_append, List.map_cons, List.map_nil, List.nodup_append, List.nodup_cons, List.mem_cons,
    List.mem_append, List.cons_append, List.nil_append] at hbnd
  have hnpre : ∀ x ∈ pre, x.d ≠ .bp b := by
    intro x hx he
    refine hbnd.2.2 x.d (List.mem_map.mpr ⟨x, hx, rfl⟩) (.bp b) ?_ he
    rcases hb with ⟨_, rfl⟩ | ⟨_, rfl⟩ <;> simp
  have hnpost : ∀ x ∈ post, x.d ≠ .bp b := by
    intro x hx he
    have hm : Dat.bp b ∈ post.map (·.d) := List.mem_map.mpr ⟨x, hx, he⟩
    rcases hb with ⟨_, rfl⟩ | ⟨_, rfl⟩
    · exact hbnd.2.1.2.1 (by simp [hm])
    · exact hbnd.2.1.2.2.2.1 (by simp [hm])
  refine ⟨?_, ?_, ?_, ?_, ?_, ?_⟩
  · have hc := List.isChain_append.mp h.chain
    have hc1 := hc.1
    have hc2 := hc.2.1
    simp only [List.cons_append, List.nil_append, List.isChain_cons_cons] at hc2
    rw [List.isChain_append]
    refine ⟨chain_congr hc1 (fun _ _ _ _ => rfl) (fun x hx b' hxb => hpr b' ?_), ?_, ?_⟩
    · rintro rfl; exact hnpre x hx hxb
    · simp only [List.cons_append, List.nil_append, List.isChain_cons_cons, BRel, hp, true_and]
      refine chain_congr hc2.2.2.2.2 (fun _ _ _ _ => rfl) (fun x hx b' hxb => hpr b' ?_)
      rintro rfl
      rcases List.mem_cons.mp hx with rfl | hx
      · cases hxb
      · exact hnpost x hx hxb
    · intro x hx y hy
      simp only [List.cons_append, List.head?_cons, Option.mem_def, Option.some.injEq] at hy
      have := hc.2.2 x hx ⟨n1, true, .arc a1⟩ (by simp)
      subst hy
      refine this.congr (fun _ _ => rfl) (fun b' hb' => hpr b' ?_)
      rintro rfl
      rcases hb' with hb' | hb'
      · exact hnpre x (List.mem_of_getLast? hx) hb'
      · cases hb'
  · intro x hx
    simp only [List.mem_append, List.cons_append, List.nil_append, List.mem_cons] at hx
    have old : ∀ x ∈ pre ++ ([⟨n1, true, .arc a1⟩, ⟨m1, false, .bp b1⟩, ⟨n2, true, .arc a2⟩,
      ⟨m2, false, .bp b2⟩, ⟨n3, true, .arc a3⟩] ++ post), x.d ≠ .bp b → (∃ a, x.lf = true ∧ x.d = .arc a ∧ a < aCnt) ∨
        (∃ b, x.lf = false ∧ x.d = .bp b ∧ b < bCnt ∧ (pr' b).1 ≠ (pr' b).2) := by
      intro x hx hxb
      rcases h.kind x hx with ⟨a, h0, h1, h2⟩ | ⟨b', h0, h1, h2, h3⟩
      · exact Or.inl ⟨a, h0, h1, h2⟩
      · exact Or.inr ⟨b', h0, h1, h2, by rw [hpr b' (by rintro rfl; exact hxb h1)]; exact h3⟩
    rcases hx with hx | rfl | rfl | rfl | hx
    · exact old x (by simp [hx]) (hnpre x hx)
    · exact old _ (by simp) (by simp)
    · refine Or.inr ⟨b, rfl, rfl, ?_, by rw [hp]; exact hne⟩
      rcases hb with ⟨_, rfl⟩ | ⟨_, rfl⟩
      · rcases h.kind ⟨m1, false, .bp b⟩ (by simp) with ⟨a, h0, h1, h2⟩ | ⟨b', h0, h1, h2, h3⟩
        · cases h1
        · cases h1; exact h2
      · rcases h.kind ⟨m2, false, .bp b⟩ (by simp) with ⟨a, h0, h1, h2⟩ | ⟨b', h0, h1, h2, h3⟩
        · cases h1
        · cases h1; exact h2
    · exact old _ (by simp) (by simp)
    · exact old x (by simp [hx]) (hnpost x hx)
  · refine List.Nodup.sublist ?_ h.nd
    simp only [List.map_append, List.map_cons, List.map_nil]
    refine List.Sublist.append_left (List.Sublist.append_right ?_ _) _
    rcases hb with ⟨_, rfl⟩ | ⟨_, rfl⟩
    · exact .cons_cons _ (.cons_cons _ (.cons _ (.cons _ (.cons_cons _ .slnil))))
    · exact .cons_cons _ (.cons _ (.cons _ (.cons_cons _ (.cons_cons _ .slnil))))
  · refine h.ab.sub ?_
    simp only [origs_append, origs_arc, origs_bp, origs_nil]
    refine List.Sublist.append_left (List.Sublist.append_right ?_ _) _
    exact .cons_cons _ (.cons _ (.refl _))
  · intro x hx
    refine h.hd x ?_
    cases pre with
    | nil => simpa using hx
    | cons y pre => simpa using hx
  · intro x hx
    refine h.lst x ?_
    rcases List.eq_nil_or_concat post with rfl | ⟨post', y, rfl⟩
    · simpa using hx
    · simpa [List.getLast?_append, List.getLast?_cons] using hx

end Foronoi
