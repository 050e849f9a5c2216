import Verif.Proof.Heights
import Verif.Props.Avl
import Verif.Props.BorderVertex
import Verif.Spec.Sweep

/-!
# C125: cached heights and balance of the status tree
-/

namespace Foronoi

variable {D : Type}

/-- A subtree has only one height. -/
theorem Tall.unique {n : Nat → NodeR D} {o : Option Nat} {a b : Nat} (h : Tall n o a) (h' : Tall n o b) : a = b := by
  induction h generalizing b with
  | none => cases h'; rfl
  | some _ _ ih1 ih2 =>
    cases h' with
    | some g1 g2 => rw [ih1 g1, ih2 g2]

/-- In a tree with right heights, as in `Holds`, `Tall` is the depth. -/
theorem tall_of_holds {n : Nat → NodeR D} : ∀ {t : BT D} {p : Option Nat}, Holds n p t → Tall n t.root t.depth
  | .nil, _, _ => .none
  | .node i d l r, p, ⟨_, h2, h3, _, _, h6, h7⟩ => by
    have a := tall_of_holds h6
    have b := tall_of_holds h7
    rw [← h2] at a; rw [← h3] at b
    exact .some a b

/-- C125: after `replace_leaf` on a tree whose cached heights are right (or missing) all cached heights are right again, also if the replacement is a part of
the subtree that is taken out, or `None`. -/
theorem C125_replace_leaf {s : NS D} {t q : BT D} {pq : Option Nat} {i fuel : Nat} (h : Holds s.n none t) (hnd : t.ids.Nodup) (hi : i ∈ t.ids)
    (hq : Holds s.n pq q) (hiq : i ∉ q.ids) (hnd' : (BT.subst i q t).ids.Nodup) (hf : (BT.subst i q t).ids.length ≤ fuel) :
    ∃ s', replaceLeaf fuel i q.root t.root s = .ok ((BT.subst i q t).root, s') ∧ Holds s'.n none (BT.subst i q t) := by
  obtain ⟨r, s', h1, rfl, -, h2⟩ := Wp.run (wp_replaceB (E := fun _ => False) h hnd hi hq hiq hnd' hf)
  exact ⟨s', h1, h2⟩

/-- C125: `update_heights` repairs all heights if only those from the node upwards are wrong, and changes nothing else. -/
theorem C125_update_heights {s : NS D} {t : BT D} {x fuel : Nat} (h : HoldsBut s.n x none t) (hnd : t.ids.Nodup) (hx : x ∈ t.ids) (hf : t.ids.length ≤ fuel) :
    ∃ s', updateHeights fuel fuel x s = .ok ((), s') ∧ Holds s'.n none t ∧ (∀ j, j ∉ t.ids → s'.n j = s.n j) ∧ ∀ j, StrEq (s'.n j) (s.n j) := by
  obtain ⟨r, s', h1, -, h2, h3⟩ := Wp.run (wp_upAll (E := fun _ => False) h hnd hx hf)
  exact ⟨s', h1, h2, h3.1, h3.2⟩

/-- C125: `balance` at the root of a tree with right heights whose two subtrees are balanced and differ by at most 2 in height yields a balanced tree with right
heights. -/
theorem C125_balance {s : NS D} {i fuel : Nat} {d : D} {l r : BT D} (h : Holds s.n none (.node i d l r)) (hnd : (BT.node i d l r).ids.Nodup)
    (hl : l.Balanced) (hr : r.Balanced) (h1 : l.depth ≤ r.depth + 2) (h2 : r.depth ≤ l.depth + 2) (hf : (BT.node i d l r).ids.length ≤ fuel) :
    ∃ j s' t', balance fuel i s = .ok (j, s') ∧ t'.root = some j ∧ Holds s'.n none t' ∧ t'.ids = (BT.node i d l r).ids ∧ t'.Balanced := by
  obtain ⟨j, s', g1, g2, -, g3, -⟩ := Wp.run (wp_balB (E := fun _ => False) (side := true) h hnd (by intro g hg; simp at hg) hf)
  exact ⟨j, s', _, g1, g2, g3, BT.ids_bal _, (BT.bal_balanced hl hr h1 h2).1⟩

/-! ### the status tree -/

/-- Height of the subtree, computed. -/
def tallF (n : Nat → NodeR D) : Nat → Option Nat → Option Nat
  | _, none => some 0
  | 0, some _ => none
  | f + 1, some i =>
    match tallF n f (n i).left, tallF n f (n i).right with
    | some a, some b => some (1 + max a b)
    | _, _ => none

theorem tall_of_tallF {n : Nat → NodeR D} : ∀ {f : Nat} {o : Option Nat} {h : Nat}, tallF n f o = some h → Tall n o h
  | f, none, h, e => by
    have : h = 0 := by cases f <;> simp [tallF] at e <;> omega
    subst this; exact .none
  | 0, some i, h, e => by simp [tallF] at e
  | f + 1, some i, h, e => by
    rw [tallF] at e
    split at e
    · rename_i a b ha hb
      cases e
      exact .some (tall_of_tallF ha) (tall_of_tallF hb)
    · cases e

/-- Follow children, `true` is left. -/
def descend (n : Nat → NodeR D) : List Bool → Nat → Option Nat
  | [], i => some i
  | b :: l, i =>
    match (if b then (n i).left else (n i).right) with
    | some j => descend n l j
    | none => none

theorem inTree_of_descend {n : Nat → NodeR D} {root : Nat} : ∀ {l : List Bool} {i j : Nat}, InTree n root i → descend n l i = some j → InTree n root j
  | [], i, j, hi, h => by cases h; exact hi
  | b :: l, i, j, hi, h => by
    rw [descend] at h
    split at h
    · rename_i k hk
      refine inTree_of_descend ?_ h
      cases b
      · exact .right hi hk
      · exact .left hi hk
    · cases h

/-- Handle `k` events. -/
def eventsF {K : Type} [LinearOrder K] [Arith K] [FrcOf K] (pts : Nat → K × K) (q : PQ (QE K)) (n : Nat) : Nat → St K → Except Err (Unit × St K)
  | 0, s => .ok ((), s)
  | k + 1, s =>
    match q.pop s.queue with
    | none => .error .fuel
    | some (e, rest) => thenF n (handleEvent pts q e { s with queue := rest }) fun _ s => eventsF pts q n k s

theorem reach_eventsF {K : Type} [LinearOrder K] [Arith K] [FrcOf K] {pts : Nat → K × K} {q : PQ (QE K)} {n : Nat} {poly : Poly K} :
    ∀ {k : Nat} {s s' : St K}, Reach pts q n poly s → eventsF pts q n k s = .ok ((), s') → Reach pts q n poly s'
  | 0, s, s', h, e => by cases e; exact h
  | k + 1, s, s', h, e => by
    rw [eventsF] at e
    split at e
    · cases e
    · rename_i v rest hv
      cases he : handleEvent pts q v { s with queue := rest } with
      | error x => rw [he] at e; cases e
      | ok w =>
        rw [he] at e
        simp only [thenF] at e
        rw [(fSt n).eq] at e
        exact reach_eventsF (.step h hv he) e

def exTall : List (ℚ × ℚ) := [(31, 38), (59, 24), (75, 23), (33, 55), (46, 96), (81, 42)]

/-- The box `BoundingBox(0, 100, 0, 100)`. -/
def hundredBox : Poly D28 :=
  ⟨([(0, 100), (100, 100), (100, 0), (0, 0)] : List (ℚ × ℚ)), (0 : ℚ), (0 : ℚ), (100 : ℚ), (100 : ℚ), (((50 : ℚ), (50 : ℚ)) : ℚ × ℚ)⟩

example : (boundingBox (0 : ℚ) (100 : ℚ) (0 : ℚ) (100 : ℚ) : Except Err (Poly D28)).toOption.map (fun p => (p.points, [p.minY, p.minX, p.maxY, p.maxX, p.center.1, p.center.2])) =
    some (hundredBox.points, [hundredBox.minY, hundredBox.minX, hundredBox.maxY, hundredBox.maxX, hundredBox.center.1, hundredBox.center.2]) := by decide +kernel

def tallCheck (l : List Bool) (c : Option (Option Nat)) (a b : Nat) (s : St D28) : Bool :=
  match s.root with
  | none => false
  | some r =>
    match descend s.ns.n l r with
    | none => false
    | some i => (match c with | none => true | some h => decide ((s.ns.n i).height = h)) && decide (tallF s.ns.n 20 (s.ns.n i).left = some a) &&
        decide (tallF s.ns.n 20 (s.ns.n i).right = some b)

theorem tallCheck_spec {l : List Bool} {c : Option (Option Nat)} {a b : Nat} {s : St D28} (h : tallCheck l c a b s = true) :
    ∃ r i, s.root = some r ∧ descend s.ns.n l r = some i ∧ (∀ h, c = some h → (s.ns.n i).height = h) ∧ Tall s.ns.n (s.ns.n i).left a ∧
      Tall s.ns.n (s.ns.n i).right b := by
  unfold tallCheck at h
  split at h
  · cases h
  · rename_i r hr
    split at h
    · cases h
    · rename_i i hi
      simp only [Bool.and_eq_true, decide_eq_true_eq] at h
      refine ⟨r, i, hr, hi, ?_, tall_of_tallF h.1.2, tall_of_tallF h.2⟩
      rintro x rfl
      simpa using h.1.1

set_option maxRecDepth 100000 in
/-- C125: six sites of different heights.  When six events are handled the cached height of the root of the status tree is 6, but its height is 5. -/
theorem C125_stale : (exTall.map (·.2)).Nodup ∧ ∃ s r, Reach (decPts exTall) heapq 6 hundredBox s ∧ s.root = some r ∧ (s.ns.n r).height = some 6 ∧
    Tall s.ns.n (some r) 5 := by
  refine ⟨by decide +kernel, ?_⟩
  have key : chk (thenF 6 (initQueue (decPts exTall) heapq 6 (initSt hundredBox)) fun _ s => eventsF (decPts exTall) heapq 6 6 s)
      (fun _ s => tallCheck [] (some (some 6)) 3 4 s) = true := by decide +kernel
  obtain ⟨u, s, h1, h2⟩ := chk_ok key
  cases h0 : initQueue (decPts exTall) heapq 6 (initSt hundredBox) with
  | error e => rw [h0] at h1; cases h1
  | ok v =>
    rw [h0] at h1
    simp only [thenF] at h1
    rw [(fSt 6).eq] at h1
    obtain ⟨r, i, hr, hi, hc, ha, hb⟩ := tallCheck_spec h2
    cases hi
    exact ⟨s, r, reach_eventsF (.start h0) h1, hr, hc _ rfl, .some ha hb⟩

set_option maxRecDepth 100000 in
/-- C125: with the same sites, when the sweep has ended, one node of the status tree has a left subtree of height 3 and a right subtree of height 1. -/
theorem C125_unbalanced : ∃ s r i, sweepAll (decPts exTall) heapq 6 40 (initSt hundredBox) = .ok ((), s) ∧ s.root = some r ∧ InTree s.ns.n r i ∧
    Tall s.ns.n (s.ns.n i).left 3 ∧ Tall s.ns.n (s.ns.n i).right 1 := by
  have key : chk (sweepAllF (decPts exTall) heapq 6 40 (initSt hundredBox)) (fun _ s => tallCheck [true] none 3 1 s) = true := by decide +kernel
  obtain ⟨u, s, h1, h2⟩ := chk_ok key
  rw [sweepAllF_eq] at h1
  obtain ⟨r, i, hr, hi, -, ha, hb⟩ := tallCheck_spec h2
  exact ⟨s, r, i, h1, hr, inTree_of_descend .root hi, ha, hb⟩

/-! ### a case for the other theorems -/

/-- A node `0` with two leaves, all heights missing, and a leaf `3`. -/
def exThree : NS Unit := ⟨fun i => match i with
  | 0 => ⟨(), some 1, some 2, none, none⟩
  | 1 => ⟨(), none, none, some 0, none⟩
  | 2 => ⟨(), none, none, some 0, none⟩
  | _ => ⟨(), none, none, none, none⟩, 4⟩

def exThreeT : BT Unit := .node 0 () (.node 1 () .nil .nil) (.node 2 () .nil .nil)

example : ∃ s', replaceLeaf 5 2 (some 3) (some 0) exThree = .ok (some 0, s') ∧ Holds s'.n none (.node 0 () (.node 1 () .nil .nil) (.node 3 () .nil .nil)) :=
  C125_replace_leaf (t := exThreeT) (q := .node 3 () .nil .nil) (pq := none) (by simp [exThreeT, Holds, exThree, BT.root]) (by decide) (by decide)
    (by simp [Holds, exThree, BT.root]) (by decide) (by decide) (by decide)

/-- Without the right leaf. -/
example : ∃ s', replaceLeaf 5 2 none (some 0) exThree = .ok (some 0, s') ∧ Holds s'.n none (.node 0 () (.node 1 () .nil .nil) .nil) :=
  C125_replace_leaf (t := exThreeT) (q := .nil) (pq := none) (by simp [exThreeT, Holds, exThree, BT.root]) (by decide) (by decide)
    trivial (by decide) (by decide) (by decide)

/-- A path of three nodes to the left becomes balanced. -/
def exPath : NS Unit := ⟨fun i => match i with
  | 0 => ⟨(), some 1, none, none, some 3⟩
  | 1 => ⟨(), some 2, none, some 0, some 2⟩
  | _ => ⟨(), none, none, some 1, some 1⟩, 3⟩

example : ∃ j s' t', balance 5 0 exPath = .ok (j, s') ∧ t'.root = some j ∧ Holds s'.n none t' ∧ t'.ids = [2, 1, 0] ∧ t'.Balanced :=
  C125_balance (d := ()) (l := .node 1 () (.node 2 () .nil .nil) .nil) (r := .nil) (by simp [Holds, exPath, BT.root, BT.depth]) (by decide)
    (by simp [BT.Balanced, BT.depth]) trivial (by decide) (by decide) (by decide)

/-- A wrong height at the root. -/
example : ∃ s', updateHeights 5 5 2 ⟨fun i => if i = 0 then { exThree.n 0 with height := some 7 } else exThree.n i, 4⟩ = .ok ((), s') ∧ Holds s'.n none exThreeT :=
  let ⟨s', h, h', _⟩ := C125_update_heights (x := 2) (fuel := 5) (t := exThreeT)
    (s := ⟨fun i => if i = 0 then { exThree.n 0 with height := some 7 } else exThree.n i, 4⟩) (by simp [HoldsBut, exThreeT, exThree, BT.root, BT.ids]) (by decide) (by decide) (by decide)
  ⟨s', h, h'⟩

end Foronoi
