import Verif.Spec.Tree
import Verif.Proof.TreeNav
import Verif.Model.Rat
import Mathlib.Data.List.Chain

/-!
# Properties of the tree (C13–C16)
-/

namespace Foronoi

variable {D : Type}

/-- The in-order sequence without the data. -/
def Item.mark (x : Item D) : Nat × Bool := (x.id, x.lf)

theorem fullTree_of_repr {n : Nat → NodeR D} {t : T D} : ∀ {p}, Repr n p t → FullTree n p t.id (t.io.map Item.mark) := by
  induction t with
  | leaf i d => intro p h; exact .leaf h.2.2.2 h.2.1 h.2.2.1
  | node i d l r ihl ihr =>
    intro p h
    obtain ⟨h1, h2, h3, h4, h5, h6⟩ := h
    have := FullTree.node h4 h2 h3 (ihl h5) (ihr h6)
    simpa [T.io, Item.mark, T.id] using this

theorem repr_of_fullTree {n : Nat → NodeR D} {p i xs} (h : FullTree n p i xs) :
    ∃ t : T D, t.id = i ∧ Repr n p t ∧ t.io.map Item.mark = xs ∧ ∀ x ∈ t.io, x.d = (n x.id).data := by
  induction h with
  | @leaf p i h1 h2 h3 => exact ⟨.leaf i (n i).data, rfl, ⟨rfl, h2, h3, h1⟩, rfl, by simp [T.io]⟩
  | @node p i l r xs ys h1 h2 h3 _ _ ihl ihr =>
    obtain ⟨tl, rfl, a1, rfl, d1⟩ := ihl
    obtain ⟨tr, rfl, b1, rfl, d2⟩ := ihr
    refine ⟨.node i (n i).data tl tr, rfl, ⟨rfl, h2, h3, h1, a1, b1⟩, by simp [T.io, Item.mark], ?_⟩
    intro x hx
    simp only [T.io, List.mem_append, List.mem_cons] at hx
    rcases hx with hx | rfl | hx
    · exact d1 x hx
    · rfl
    · exact d2 x hx

theorem TreeAt.repr {s : NS D} {root xs} (h : TreeAt s root xs) :
    ∃ t : T D, t.id = root ∧ Repr s.n none t ∧ t.io.map Item.mark = xs ∧ t.ids.Nodup ∧ t.ids.length = xs.length ∧
      ∀ x ∈ t.io, x.d = (s.n x.id).data := by
  obtain ⟨t, h1, h2, rfl, h4⟩ := repr_of_fullTree h.1
  have hm : t.ids = (t.io.map Item.mark).map (·.1) := by rw [T.ids_eq, List.map_map]; rfl
  exact ⟨t, h1, h2, rfl, by rw [hm]; exact h.2, by rw [hm]; simp, h4⟩

theorem run_of_wp {σ α : Type} {m : EM σ α} {s : σ} {Q : α → σ → Prop} (h : Wp (fun _ => False) m s Q) :
    ∃ a s', m s = .ok (a, s') ∧ Q a s' := by
  unfold Wp at h
  cases hm : m s with
  | error e => rw [hm] at h; exact absurd h (by simp)
  | ok v => rw [hm] at h; exact ⟨v.1, v.2, rfl, h⟩

/-- C13: rebalancing upwards from any node keeps the in-order sequence, the parent pointers and the data, raises nothing and returns
the root of the whole tree, whatever the cached heights are. -/
theorem C13_propagate {s : NS D} {root i : Nat} {xs : List (Nat × Bool)} (h : TreeAt s root xs) (hh : HeightsOk s)
    (hi : i ∈ xs.map (·.1)) {fuel : Nat} (hf : xs.length < fuel) :
    ∃ r s', balanceAndPropagate fuel fuel i s = .ok (r, s') ∧ TreeAt s' r xs ∧ HeightsOk s' ∧
      s'.cnt = s.cnt ∧ ∀ j, (s'.n j).data = (s.n j).data := by
  obtain ⟨t, rfl, hr, rfl, hnd, hlen, _⟩ := h.repr
  rw [List.map_map] at hi
  obtain ⟨x, hx, rfl⟩ := List.mem_map.mp hi
  obtain ⟨c, t', rfl, ht'⟩ := exists_zipper hx
  have hid : t'.id = x.id := by rw [← ht']; cases t' <;> rfl
  have hdep := depth_plug c t'
  have hdl := (plug c t').depth_le_length
  have hpos := t'.depth_pos
  obtain ⟨r, s', h1, h2⟩ := run_of_wp (wp_balanceAndPropagate (E := fun _ => False) hr hnd hh (hf := fuel) (fuel := fuel) (by omega) (by omega))
  obtain ⟨t2, g1, g2, g3, g4, g5⟩ := h2
  rw [hid] at h1
  refine ⟨r, s', h1, ⟨?_, ?_⟩, g4, g3.1, g3.2⟩
  · have := fullTree_of_repr (p := none) (t := t2) (by exact g5)
    rw [g2, ← g1] at this; exact this
  · exact h.2

/-- C13: `balance` at any node `i`: same sequence, links and data; returns the node now at the place of `i`. -/
theorem C13_balance {s : NS D} {root i : Nat} {xs : List (Nat × Bool)} (h : TreeAt s root xs) (hh : HeightsOk s)
    (hi : i ∈ xs.map (·.1)) {fuel : Nat} (hf : xs.length ≤ fuel) :
    ∃ r s', balance fuel i s = .ok (r, s') ∧ TreeAt s' (if i = root then r else root) xs ∧ HeightsOk s' ∧
      s'.cnt = s.cnt ∧ (∀ j, (s'.n j).data = (s.n j).data) ∧ (s'.n r).parent = (s.n i).parent := by
  obtain ⟨t, rfl, hr, rfl, hnd, hlen, _⟩ := h.repr
  rw [List.map_map] at hi
  obtain ⟨x, hx, rfl⟩ := List.mem_map.mp hi
  obtain ⟨c, t', rfl, ht'⟩ := exists_zipper hx
  have hid : t'.id = x.id := by rw [← ht']; cases t' <;> rfl
  obtain ⟨r, s', h1, h2⟩ := run_of_wp (wp_balance (E := fun _ => False) (c := c) hr hnd hh (fuel := fuel) (by omega))
  obtain ⟨t2, rfl, g2, g3, g4, g5⟩ := h2
  rw [hid] at h1
  have hpar : (s'.n t2.id).parent = (s.n x.id).parent := by
    rw [Repr.parent_eq ((repr_plug _ _ _).mp g5).1, ← hid, Repr.parent_eq ((repr_plug _ _ _).mp hr).1]
  refine ⟨t2.id, s', h1, ⟨?_, h.2⟩, g4, g3.1, g3.2, hpar⟩
  have hft := fullTree_of_repr g5
  have hio : (plug c t2).io = (plug c t').io := by simp only [io_plug, g2]
  rw [hio] at hft
  show FullTree s'.n none (if x.id = (plug c t').id then t2.id else (plug c t').id) _
  cases c with
  | nil =>
    have : x.id = (plug [] t').id := hid.symm
    rw [if_pos this]; exact hft
  | cons f c =>
    have hne : x.id ≠ (plug (f :: c) t').id := by
      intro he
      -- the root has no parent, `x` has one
      have p1 : (s.n x.id).parent = ctxPar (f :: c) := by rw [← hid]; exact Repr.parent_eq ((repr_plug _ _ _).mp hr).1
      have p2 : (s.n (plug (f :: c) t').id).parent = none := Repr.parent_eq hr
      rw [he, p2] at p1
      cases f <;> simp [ctxPar] at p1
    rw [if_neg hne, id_plug_cons f c t' t2]
    exact hft

/-- C13: `rotate_left` at a node whose right child is an inner node. -/
theorem C13_rotate_left {s : NS D} {root z y : Nat} {xs : List (Nat × Bool)} (h : TreeAt s root xs) (hh : HeightsOk s)
    (hz : z ∈ xs.map (·.1)) (hy : (s.n z).right = some y) (hyi : (s.n y).right ≠ none) {fuel : Nat} (hf : xs.length ≤ fuel) :
    ∃ s', rotateLeft fuel z s = .ok (y, s') ∧ TreeAt s' (if z = root then y else root) xs ∧ HeightsOk s' ∧
      (s'.n y).left = some z ∧ ∀ j, (s'.n j).data = (s.n j).data := by
  obtain ⟨t, rfl, hr, rfl, hnd, hlen, _⟩ := h.repr
  rw [List.map_map] at hz
  obtain ⟨x, hx, rfl⟩ := List.mem_map.mp hz
  obtain ⟨c, t', rfl, ht'⟩ := exists_zipper hx
  subst ht'
  have hrt := ((repr_plug _ _ _).mp hr).1
  cases t' with
  | leaf i d => exact absurd (hy.symm.trans hrt.2.2.1) (by simp)
  | node i d l r =>
    have hyr : some r.id = some y := hrt.2.2.1.symm.trans hy
    cases hyr
    cases r with
    | leaf j e => exact absurd hrt.2.2.2.2.2.2.2.1 hyi
    | node j e b f =>
      obtain ⟨r', s', h1, rfl, g3, g4, g5⟩ := run_of_wp (wp_rotateLeft (E := fun _ => False) hr hnd hh (fuel := fuel) (by omega))
      have hft := fullTree_of_repr g5
      have hio : (plug c (.node r' e (.node i d l b) f)).io = (plug c (.node i d l (.node r' e b f))).io := by simp [io_plug, T.io]
      rw [hio] at hft
      refine ⟨s', h1, ⟨?_, h.2⟩, g4, ?_, g3.2⟩
      · show FullTree s'.n none (if i = _ then r' else _) _
        cases c with
        | nil => rw [if_pos (show i = (plug [] _).id from rfl)]; exact hft
        | cons fr c =>
          have hne : i ≠ (plug (fr :: c) (.node i d l (.node r' e b f))).id := by
            intro he
            have p1 : (s.n i).parent = ctxPar (fr :: c) := hrt.2.2.2.1
            have p2 : (s.n (plug (fr :: c) (.node i d l (.node r' e b f))).id).parent = none := Repr.parent_eq hr
            rw [← he, p1] at p2
            cases fr <;> simp [ctxPar] at p2
          rw [if_neg hne, id_plug_cons fr c _ (.node r' e (.node i d l b) f)]
          exact hft
      · exact (((repr_plug _ _ _).mp g5).1).2.1

/-- C13: `rotate_right` at a node whose left child is an inner node. -/
theorem C13_rotate_right {s : NS D} {root z y : Nat} {xs : List (Nat × Bool)} (h : TreeAt s root xs) (hh : HeightsOk s)
    (hz : z ∈ xs.map (·.1)) (hy : (s.n z).left = some y) (hyi : (s.n y).left ≠ none) {fuel : Nat} (hf : xs.length ≤ fuel) :
    ∃ s', rotateRight fuel z s = .ok (y, s') ∧ TreeAt s' (if z = root then y else root) xs ∧ HeightsOk s' ∧
      (s'.n y).right = some z ∧ ∀ j, (s'.n j).data = (s.n j).data := by
  obtain ⟨t, rfl, hr, rfl, hnd, hlen, _⟩ := h.repr
  rw [List.map_map] at hz
  obtain ⟨x, hx, rfl⟩ := List.mem_map.mp hz
  obtain ⟨c, t', rfl, ht'⟩ := exists_zipper hx
  subst ht'
  have hrt := ((repr_plug _ _ _).mp hr).1
  cases t' with
  | leaf i d => exact absurd (hy.symm.trans hrt.2.1) (by simp)
  | node i d l r =>
    have hyr : some l.id = some y := hrt.2.1.symm.trans hy
    cases hyr
    cases l with
    | leaf j e => exact absurd hrt.2.2.2.2.1.2.1 hyi
    | node j e b f =>
      obtain ⟨r', s', h1, rfl, g3, g4, g5⟩ := run_of_wp (wp_rotateRight (E := fun _ => False) hr hnd hh (fuel := fuel) (by omega))
      have hft := fullTree_of_repr g5
      have hio : (plug c (.node r' e b (.node i d f r))).io = (plug c (.node i d (.node r' e b f) r)).io := by simp [io_plug, T.io]
      rw [hio] at hft
      refine ⟨s', h1, ⟨?_, h.2⟩, g4, ?_, g3.2⟩
      · show FullTree s'.n none (if i = _ then r' else _) _
        cases c with
        | nil => rw [if_pos (show i = (plug [] _).id from rfl)]; exact hft
        | cons fr c =>
          have hne : i ≠ (plug (fr :: c) (.node i d (.node r' e b f) r)).id := by
            intro he
            have p1 : (s.n i).parent = ctxPar (fr :: c) := hrt.2.2.2.1
            have p2 : (s.n (plug (fr :: c) (.node i d (.node r' e b f) r)).id).parent = none := Repr.parent_eq hr
            rw [← he, p1] at p2
            cases fr <;> simp [ctxPar] at p2
          rw [if_neg hne, id_plug_cons fr c _ (.node r' e b (.node i d f r))]
          exact hft
      · exact (((repr_plug _ _ _).mp g5).1).2.2.1

/-! ### Neighbours -/

theorem io_alternates (t : T D) : t.io.IsChain (fun a b => a.lf ≠ b.lf) ∧ t.first.lf = true ∧ t.last.lf = true := by
  induction t with
  | leaf i d => exact ⟨by simp [T.io], rfl, rfl⟩
  | node i d l r ihl ihr =>
    refine ⟨?_, ihl.2.1, ihr.2.2⟩
    obtain ⟨a, ha⟩ := l.io_last
    obtain ⟨b, hb⟩ := r.io_head
    simp only [T.io]
    rw [List.isChain_append]
    refine ⟨ihl.1, ?_, ?_⟩
    · rw [hb, List.isChain_cons_cons, ← hb]
      exact ⟨by simp [ihr.2.1], ihr.1⟩
    · intro x hx y hy
      rw [ha] at hx
      simp at hx hy
      rw [← hx, ← hy, ihl.2.2]; simp

theorem second_leaf {post : List (Item D)} {x : Item D} (hc : (x :: post).IsChain (fun a b => a.lf ≠ b.lf)) (hx : x.lf = true)
    (hl : ∀ y, post.getLast? = some y → y.lf = true) :
    (second post).map (·.id) = (leavesOf (post.map Item.mark)).head? := by
  cases post with
  | nil => rfl
  | cons a post =>
    have ha : a.lf = false := by
      have := (List.isChain_cons_cons.mp hc).1
      rw [hx] at this; cases h : a.lf <;> simp_all
    cases post with
    | nil => exact absurd (hl a rfl) (by simp [ha])
    | cons b post =>
      have hb : b.lf = true := by
        have := (List.isChain_cons_cons.mp (List.isChain_cons_cons.mp hc).2).1
        rw [ha] at this; cases h : b.lf <;> simp_all
      simp [second, leavesOf, Item.mark, ha, hb]

theorem isChain_drop_pre {α : Type} {R : α → α → Prop} {pre post : List α} (h : (pre ++ post).IsChain R) : post.IsChain R :=
  (List.isChain_append.mp h).2.1

/-- Splitting the in-order sequence at a leaf. -/
theorem leaf_split {t : T D} (hnd : t.ids.Nodup) {A B : List Nat} {i : Nat}
    (h : leavesOf (t.io.map Item.mark) = A ++ i :: B) :
    ∃ pre post d, t.io = pre ++ ⟨i, true, d⟩ :: post ∧ leavesOf (pre.map Item.mark) = A ∧ leavesOf (post.map Item.mark) = B := by
  have key : ∀ l : List (Item D), ∀ A, leavesOf (l.map Item.mark) = A ++ i :: B →
      ∃ pre post d, l = pre ++ ⟨i, true, d⟩ :: post ∧ leavesOf (pre.map Item.mark) = A ∧ leavesOf (post.map Item.mark) = B := by
    intro l
    induction l with
    | nil => intro A h; simp [leavesOf] at h
    | cons x l ih =>
      intro A h
      obtain ⟨j, lf, d⟩ := x
      cases lf with
      | false =>
        have h' : leavesOf (l.map Item.mark) = A ++ i :: B := by simpa [leavesOf, Item.mark] using h
        obtain ⟨pre, post, d', rfl, h2, h3⟩ := ih A h'
        exact ⟨⟨j, false, d⟩ :: pre, post, d', rfl, by simpa [leavesOf, Item.mark] using h2, h3⟩
      | true =>
        have h' : j :: leavesOf (l.map Item.mark) = A ++ i :: B := by simpa [leavesOf, Item.mark] using h
        cases A with
        | nil =>
          simp only [List.nil_append, List.cons.injEq] at h'
          obtain ⟨rfl, h2⟩ := h'
          exact ⟨[], l, d, rfl, rfl, h2⟩
        | cons a A =>
          simp only [List.cons_append, List.cons.injEq] at h'
          obtain ⟨pre, post, d', rfl, h2, h3⟩ := ih A h'.2
          refine ⟨⟨j, true, d⟩ :: pre, post, d', rfl, ?_, h3⟩
          have : leavesOf ((⟨j, true, d⟩ :: pre).map Item.mark) = j :: leavesOf (pre.map Item.mark) := by simp [leavesOf, Item.mark]
          rw [this, h2, h'.1]
  exact key _ _ h

/-- C14: `successor` and `predecessor` of a leaf are the next and the previous leaf. -/
theorem C14_neighbours {s : NS D} {root i : Nat} {xs : List (Nat × Bool)} {A B : List Nat} (h : TreeAt s root xs)
    (hi : leavesOf xs = A ++ i :: B) {fuel : Nat} (hf : xs.length ≤ fuel) :
    successor fuel i s = .ok (B.head?, s) ∧ predecessor fuel i s = .ok (A.getLast?, s) := by
  obtain ⟨t, rfl, hr, rfl, hnd, hlen, _⟩ := h.repr
  obtain ⟨pre, post, d, hio, rfl, rfl⟩ := leaf_split hnd hi
  have halt := io_alternates t
  constructor
  · obtain ⟨r, s', h1, rfl, rfl⟩ := run_of_wp (wp_successor (E := fun _ => False) hr hnd hio (fuel := fuel) (by omega))
    rw [h1]
    refine congrArg (fun o => Except.ok (o, s')) ?_
    refine second_leaf (x := ⟨i, true, d⟩) ?_ rfl ?_
    · rw [hio] at halt; exact isChain_drop_pre halt.1
    · intro y hy
      obtain ⟨l, hl⟩ := t.io_last
      have h4 : y = t.last := by
        have h2 : t.io.getLast? = some y := by
          cases post with
          | nil => simp at hy
          | cons a post =>
            rw [hio, List.getLast?_append_of_ne_nil _ (by simp), List.getLast?_cons_cons]; exact hy
        have h3 : t.io.getLast? = some t.last := by rw [hl]; simp
        rw [h2] at h3; exact Option.some.inj h3
      rw [h4]; exact halt.2.2
  · obtain ⟨r, s', h1, rfl, rfl⟩ := run_of_wp (wp_predecessor (E := fun _ => False) hr hnd hio (fuel := fuel) (by omega))
    rw [h1]
    refine congrArg (fun o => Except.ok (o, s')) ?_
    have hrev : (leavesOf (pre.map Item.mark)).getLast? = (leavesOf (pre.reverse.map Item.mark)).head? := by
      simp [leavesOf, List.map_reverse, List.filter_reverse]
    rw [hrev]
    refine second_leaf (x := ⟨i, true, d⟩) ?_ rfl ?_
    · have h2 : (t.io.reverse).IsChain (fun a b : Item D => a.lf ≠ b.lf) := by
        rw [List.isChain_reverse]
        exact halt.1.imp (fun a b h => Ne.symm h)
      rw [hio, List.reverse_append, List.reverse_cons, List.append_assoc] at h2
      exact isChain_drop_pre h2
    · intro y hy
      rw [List.getLast?_reverse] at hy
      obtain ⟨l, hl⟩ := t.io_head
      have h4 : y = t.first := by
        have h2 : t.io.head? = some y := by
          cases pre with
          | nil => simp at hy
          | cons a pre => rw [hio]; simpa using hy
        have h3 : t.io.head? = some t.first := by rw [hl]; simp
        rw [h2] at h3; exact Option.some.inj h3
      rw [h4]; exact halt.2.1

variable {K : Type} [LinearOrder K]

/-- C15: `find_value` finds a node that compares equal to the query, whatever the keys of the other nodes are: nothing is assumed
about their order.  (`key` is the key function, `cmp` the comparison with the query, `qk` the key of the query; nodes comparing
equal to the query have its key because the key is computed from the compared data.) -/
theorem C15_find {s : NS D} {root : Nat} {xs : List (Nat × Bool)} (h : TreeAt s root xs) {key : D → Option K} {cmp : D → Bool} {qk : K}
    (hkey : ∀ x ∈ xs, (key (s.n x.1).data).isSome) (hcmp : ∀ x ∈ xs, cmp (s.n x.1).data = true → key (s.n x.1).data = some qk)
    {fuel : Nat} (hf : xs.length < fuel) :
    ∃ r, findValue key cmp qk fuel (some root) s = .ok (r, s) ∧
      ((∃ x ∈ xs, cmp (s.n x.1).data = true) → ∃ x ∈ xs, cmp (s.n x.1).data = true ∧ r = some x.1) ∧
      ((∀ x ∈ xs, cmp (s.n x.1).data = false) → r = none) := by
  obtain ⟨t, rfl, hr, rfl, hnd, hlen, hdat⟩ := h.repr
  have hd : ∀ a ∈ t.io, a.mark ∈ t.io.map Item.mark ∧ (s.n a.mark.1).data = a.d := fun a ha =>
    ⟨List.mem_map_of_mem ha, (hdat a ha).symm⟩
  have hdl := t.depth_le_length
  obtain ⟨r, s', h1, rfl, h2⟩ := run_of_wp (wp_findValue (E := fun _ => False) hr (key := key) (cmp := cmp) (qk := qk) (fuel := fuel)
    (by omega) (Or.inl (fun a ha => (hd a ha).2 ▸ hkey _ (hd a ha).1))
    (fun a ha hc => Or.inr ((hd a ha).2 ▸ hcmp _ (hd a ha).1 (by rw [(hd a ha).2]; exact hc))))
  refine ⟨r, h1, ?_, ?_⟩
  · rintro ⟨x, hx, hcx⟩
    obtain ⟨a, ha, rfl⟩ := List.mem_map.mp hx
    rw [(hd a ha).2] at hcx
    rcases h2 with ⟨b, hb, hcb, rfl⟩ | ⟨hall, _⟩
    · exact ⟨b.mark, (hd b hb).1, by rw [(hd b hb).2]; exact hcb, rfl⟩
    · rw [hall a ha] at hcx; cases hcx
  · intro hall
    rcases h2 with ⟨b, hb, hcb, rfl⟩ | ⟨_, rfl⟩
    · have := hall _ (hd b hb).1
      rw [(hd b hb).2, hcb] at this; cases this
    · rfl

/-- C16: with breakpoints sorted from left to right, `find_leaf_node` returns the leaf that has the keys up to `x` on its left and
the keys from `x` on its right. -/
theorem C16_find_leaf {s : NS D} {root : Nat} {xs : List (Nat × Bool)} (h : TreeAt s root xs) {key : D → Option K} {x : K}
    (hkey : ∀ a ∈ xs, a.2 = false → (key (s.n a.1).data).isSome)
    (hs : xs.Pairwise (fun a b => a.2 = false → b.2 = false → ∀ k k', key (s.n a.1).data = some k → key (s.n b.1).data = some k' → k ≤ k'))
    {fuel : Nat} (hf : xs.length ≤ fuel) :
    ∃ i pre post, findLeaf key x fuel (some root) s = .ok (some i, s) ∧ xs = pre ++ (i, true) :: post ∧
      (∀ a ∈ pre, a.2 = false → ∀ k, key (s.n a.1).data = some k → k ≤ x) ∧
      (∀ a ∈ post, a.2 = false → ∀ k, key (s.n a.1).data = some k → x ≤ k) := by
  obtain ⟨t, rfl, hr, rfl, hnd, hlen, hdat⟩ := h.repr
  have hdl := t.depth_le_length
  have hd : ∀ a ∈ t.io, (s.n a.mark.1).data = a.d := fun a ha => (hdat a ha).symm
  obtain ⟨r, s', h1, rfl, y, hy, rfl⟩ := run_of_wp (wp_findLeaf (E := fun _ => False) hr (key := key) (x := x) (fuel := fuel)
    (by omega) (Or.inl (fun a ha hlf => by
      have := hkey a.mark (List.mem_map_of_mem ha) hlf
      rwa [hd a ha] at this)))
  have hs' : t.io.Pairwise (fun a b => a.lf = false → b.lf = false → ∀ k k', key a.d = some k → key b.d = some k' → k ≤ k') := by
    rw [List.pairwise_map] at hs
    refine hs.imp_of_mem ?_
    intro a b ha hb hab h2 h3 k k' h4 h5
    exact hab h2 h3 k k' (by rw [hd a ha]; exact h4) (by rw [hd b hb]; exact h5)
  obtain ⟨pre, post, g1, g2, g3⟩ := lookup_split hy hs'
  obtain ⟨_, hlf⟩ := lookup_mem hy
  refine ⟨y.id, pre.map Item.mark, post.map Item.mark, h1, ?_, ?_, ?_⟩
  · rw [g1]; simp [Item.mark, hlf]
  · intro a ha hlf k hk
    obtain ⟨b, hb, rfl⟩ := List.mem_map.mp ha
    exact g2 b hb hlf k (by rw [← hd b (by rw [g1]; simp [hb])]; exact hk)
  · intro a ha hlf k hk
    obtain ⟨b, hb, rfl⟩ := List.mem_map.mp ha
    exact g3 b hb hlf k (by rw [← hd b (by rw [g1]; simp [hb])]; exact hk)

/-! ### A concrete tree meeting the hypotheses

Inner nodes 0 (key 4), 2 (key 7), 4 (key 9), a path to the right; leaves 1, 3, 5, 6.  The cached heights are stale. -/

def exStore : NS ℚ where
  n := fun i => match i with
    | 0 => ⟨4, some 1, some 2, none, some 9⟩
    | 1 => ⟨1, none, none, some 0, some 1⟩
    | 2 => ⟨7, some 3, some 4, some 0, some 3⟩
    | 3 => ⟨5, none, none, some 2, none⟩
    | 4 => ⟨9, some 5, some 6, some 2, some 2⟩
    | 5 => ⟨8, none, none, some 4, none⟩
    | 6 => ⟨10, none, none, some 4, none⟩
    | _ => ⟨0, none, none, none, none⟩
  cnt := 7

def exSeq : List (Nat × Bool) := [(1, true), (0, false), (3, true), (2, false), (5, true), (4, false), (6, true)]

theorem exStore_tree : TreeAt exStore 0 exSeq ∧ HeightsOk exStore := by
  refine ⟨⟨?_, by decide⟩, ?_⟩
  · exact .node (xs := [(1, true)]) rfl rfl rfl (.leaf rfl rfl rfl)
      (.node (xs := [(3, true)]) rfl rfl rfl (.leaf rfl rfl rfl)
        (.node (xs := [(5, true)]) rfl rfl rfl (.leaf rfl rfl rfl) (.leaf rfl rfl rfl)))
  · intro i h hh
    rcases i with _ | _ | _ | _ | _ | _ | _ | i <;> simp [exStore] at hh ⊢ <;> omega

example : ∃ r s', balanceAndPropagate 8 8 4 exStore = .ok (r, s') ∧ TreeAt s' r exSeq := by
  obtain ⟨r, s', h1, h2, _⟩ := C13_propagate exStore_tree.1 exStore_tree.2 (i := 4) (by decide) (fuel := 8) (by decide)
  exact ⟨r, s', h1, h2⟩

/-- In this run a rotation happens: the new root is node 2. -/
example : (balanceAndPropagate 8 8 4 exStore).toOption.map (·.1) = some 2 := by decide +kernel

example : successor 7 3 exStore = .ok (some 5, exStore) ∧ predecessor 7 3 exStore = .ok (some 1, exStore) :=
  C14_neighbours (A := [1]) (B := [5, 6]) exStore_tree.1 (by decide) (by decide)

example : ∃ i pre post, findLeaf (fun k => some k) (8 : ℚ) 7 (some 0) exStore = .ok (some i, exStore) ∧ exSeq = pre ++ (i, true) :: post ∧
    (∀ a ∈ pre, a.2 = false → ∀ k, some (exStore.n a.1).data = some k → k ≤ (8 : ℚ)) ∧
    (∀ a ∈ post, a.2 = false → ∀ k, some (exStore.n a.1).data = some k → (8 : ℚ) ≤ k) :=
  C16_find_leaf exStore_tree.1 (key := fun k : ℚ => some k) (x := 8) (by simp) (by
    simp [exSeq, exStore]; norm_num) (by decide)

/-- The key 4 is found although the search key misleads: key function constantly 0. -/
example : ∃ r, findValue (fun _ => some (0 : ℚ)) (fun d => decide (d = (9 : ℚ))) 0 8 (some 0) exStore = .ok (r, exStore) ∧ r = some 4 := by
  obtain ⟨r, h1, h2, _⟩ := C15_find exStore_tree.1 (key := fun _ => some (0 : ℚ)) (cmp := fun d => decide (d = (9 : ℚ))) (qk := 0) (by simp) (by simp)
    (fuel := 8) (by decide)
  refine ⟨r, h1, ?_⟩
  obtain ⟨x, hx, hc, rfl⟩ := h2 ⟨(4, false), by decide, by decide +kernel⟩
  simp only [exSeq, List.mem_cons, List.not_mem_nil, or_false] at hx
  rcases hx with rfl | rfl | rfl | rfl | rfl | rfl | rfl <;> first | rfl | (exfalso; revert hc; decide +kernel)

end Foronoi
