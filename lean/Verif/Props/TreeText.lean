import Verif.Props.Sweep
import Verif.Model.Visualizer
import Verif.Spec.Picture
import Verif.Proof.Force
import Verif.Props.SweepExamples

/-!
# The text and the graph of the status tree (C84, C85)
-/

namespace Foronoi

open scoped List

variable {K : Type} [LinearOrder K] [Arith K] [ArithLaws K] {pts : Nat → K × K} {q : PQ (QE K)} {ok : List (QE K) → Prop} {n : Nat} {poly : Poly K} {s : St K} [MidLt pts n]

theorem weave_append {α : Type} (f : Nat → α) {xs ys : List Nat} {x y : Nat} (hx : xs.getLast? = some x) (hy : ys.head? = some y) :
    weave f (xs ++ ys) = weave f xs ++ [f x, f y] :: weave f ys := by
  induction xs with
  | nil => cases hx
  | cons a l ih =>
    cases l with
    | nil =>
      cases ys with
      | nil => cases hy
      | cons b m =>
        cases hx; cases hy
        rfl
    | cons b m =>
      rw [List.getLast?_cons_cons] at hx
      have := ih hx
      rw [List.cons_append, List.cons_append, weave, weave, ← List.cons_append, this]
      rfl

variable {ns : Nat → NodeR Dat} {arcs : Nat → ArcR} {bps : Nat → BpR}

/-- The label of a node. -/
def labelOf {α : Type} (f : Nat → α) (arcs : Nat → ArcR) (bps : Nat → BpR) : Dat → List α
  | .arc a => [f (arcs a).origin]
  | .bp b => [f (bps b).pair.1, f (bps b).pair.2]

theorem show_beach {α : Type} (f : Nat → α) {r : Nat} {p : Option Nat} {i : Nat} {nodes sites : List Nat} (h : BeachTree ns arcs bps p i nodes sites) :
    ∀ {fuel d : Nat}, nodes.length ≤ fuel → AtDepth ns r i d → ∃ l, showTree ns fuel d i = some l ∧
      List.Forall₂ (fun j x => AtDepth ns r j x.1 ∧ x.2 = (ns j).data) nodes l.reverse ∧
      l.reverse.map (fun x => labelOf f arcs bps x.2) = weave f sites := by
  induction h with
  | @leaf p i a h1 h2 h3 h4 =>
    intro fuel d hf hd
    obtain ⟨fuel, rfl⟩ : ∃ k, fuel = k + 1 := ⟨fuel - 1, by simp at hf; omega⟩
    refine ⟨[(d, .arc a)], by simp [showTree, h2, h3, h4], ?_, rfl⟩
    simpa using ⟨hd, h4.symm⟩
  | @node p i b l r nl nr xs ys x y h1 h2 h3 h4 hl hr hx hy hp ihl ihr =>
    intro fuel d hf hd
    simp only [List.length_append, List.length_cons] at hf
    obtain ⟨fuel, rfl⟩ : ∃ k, fuel = k + 1 := ⟨fuel - 1, by omega⟩
    have pl : (ns l).parent = some i := by cases hl <;> assumption
    have pr : (ns r).parent = some i := by cases hr <;> assumption
    obtain ⟨ll, a1, a2, a3⟩ := ihl (fuel := fuel) (d := d + 1) (by omega) (.child pl hd)
    obtain ⟨lr, b1, b2, b3⟩ := ihr (fuel := fuel) (d := d + 1) (by omega) (.child pr hd)
    refine ⟨lr ++ (d, .bp b) :: ll, by simp [showTree, h2, h3, h4, a1, b1], ?_, ?_⟩
    · simp only [List.reverse_append, List.reverse_cons, List.append_assoc, List.singleton_append]
      exact List.rel_append a2 (.cons ⟨hd, h4.symm⟩ b2)
    · simp only [List.reverse_append, List.reverse_cons, List.append_assoc, List.singleton_append, List.map_append, List.map_cons, a3, b3]
      rw [weave_append f hx hy, labelOf, hp]

theorem graph_beach {p : Option Nat} {i : Nat} {nodes sites : List Nat} (h : BeachTree ns arcs bps p i nodes sites) :
    ∀ {fuel : Nat}, nodes.length ≤ fuel → ∃ g, graphTree ns fuel p i = some g ∧ (g.map (·.1)).Perm nodes ∧ ∀ x ∈ g, x.2 = (ns x.1).parent := by
  induction h with
  | @leaf p i a h1 h2 h3 h4 =>
    intro fuel hf
    obtain ⟨fuel, rfl⟩ : ∃ k, fuel = k + 1 := ⟨fuel - 1, by simp at hf; omega⟩
    exact ⟨[(i, p)], by simp [graphTree, h2, h3], by simp, by simp [h1]⟩
  | @node p i b l r nl nr xs ys x y h1 h2 h3 h4 hl hr hx hy hp ihl ihr =>
    intro fuel hf
    simp only [List.length_append, List.length_cons] at hf
    obtain ⟨fuel, rfl⟩ : ∃ k, fuel = k + 1 := ⟨fuel - 1, by omega⟩
    obtain ⟨gl, a1, a2, a3⟩ := ihl (fuel := fuel) (by omega)
    obtain ⟨gr, b1, b2, b3⟩ := ihr (fuel := fuel) (by omega)
    refine ⟨(i, p) :: gl ++ gr, by simp [graphTree, h2, h3, a1, b1], ?_, ?_⟩
    · simp only [List.cons_append, List.map_cons, List.map_append]
      exact ((a2.append b2).cons i).trans List.perm_middle.symm
    · intro z hz
      simp only [List.cons_append, List.mem_cons, List.mem_append] at hz
      rcases hz with rfl | hz | hz
      · exact h1.symm
      · exact a3 z hz
      · exact b3 z hz

theorem reach_tree (hq : q.Spec evLt ok) (h : Reach pts q n poly s) (hr : s.root ≠ none) :
    ∃ r nodes sites, s.root = some r ∧ nodes.Nodup ∧ nodes.length ≤ s.ns.cnt ∧ BeachTree s.ns.n s.arcs s.bps none r nodes sites ∧
      ∀ p ∈ sites, (s.names p).isSome := by
  obtain ⟨L, hI⟩ := reach_inv hq h
  rcases hI.tree with ⟨hh, ⟨hr', hL⟩ | ⟨t, hr, ht, hL⟩⟩
  · exact absurd hr' hr
  · refine ⟨t.id, t.ids, origs s.og L, hr, ht.nd, ht.len, ?_, fun p hp => hI.sinv.used p hp⟩
    rw [← hL]
    refine beachTree_of_repr (A := []) (B := []) ht.repr (hL ▸ hI.beach.kindsOk) ?_
    simp only [List.nil_append, List.append_nil]
    exact hL ▸ hI.beach.pairsOk

/-- C84: the text of the status tree, read from the last line to the first, shows the beach line from left to right: one line per node, indented
by its depth; each arc is shown by the name of its site, each breakpoint by the names of the two neighbouring arcs' sites. -/
theorem C84_tree_text (hq : q.Spec evLt ok) (h : Reach pts q n poly s) (hr : s.root ≠ none) :
    ∃ r nodes sites lines, s.root = some r ∧ nodes.Nodup ∧ BeachTree s.ns.n s.arcs s.bps none r nodes sites ∧ visualizeTree s = .ok lines ∧
      List.Forall₂ (fun j x => AtDepth s.ns.n r j x.1) nodes lines.reverse ∧
      lines.reverse.map (·.2) = weave s.names sites ∧ ∀ p ∈ sites, (s.names p).isSome := by
  obtain ⟨r, nodes, sites, h1, h2, h3, h4, h5⟩ := reach_tree hq h hr
  obtain ⟨l, a1, a2, a3⟩ := show_beach s.names h4 (fuel := s.ns.cnt + 1) (by omega) (.root : AtDepth s.ns.n r r 0)
  have hlab : ∀ x, nodeLabel s x = labelOf s.names s.arcs s.bps x := fun x => by cases x <;> rfl
  refine ⟨r, nodes, sites, l.map fun x => (x.1, nodeLabel s x.2), h1, h2, h4, ?_, ?_, ?_, h5⟩
  · simp only [visualizeTree, h1, exD, bind, Except.bind, a1]
  · rw [← List.map_reverse, List.forall₂_map_right_iff]
    exact a2.imp fun _ _ hx => hx.1
  · rw [← List.map_reverse, List.map_map, ← a3]
    exact List.map_congr_left fun x _ => hlab x.2

/-- C85: the graph of the status tree has one node per node of the tree, in some order, and an edge from the parent to each node but the root. -/
theorem C85_tree_graph (hq : q.Spec evLt ok) (h : Reach pts q n poly s) (hr : s.root ≠ none) :
    ∃ r nodes sites g, s.root = some r ∧ nodes.Nodup ∧ BeachTree s.ns.n s.arcs s.bps none r nodes sites ∧
      graphTree s.ns.n (s.ns.cnt + 1) none r = some g ∧ (g.map (·.1)).Perm nodes ∧ ∀ x ∈ g, x.2 = (s.ns.n x.1).parent := by
  obtain ⟨r, nodes, sites, h1, h2, h3, h4, h5⟩ := reach_tree hq h hr
  obtain ⟨g, a1, a2, a3⟩ := graph_beach h4 (fuel := s.ns.cnt + 1) (by omega)
  exact ⟨r, nodes, sites, g, h1, h2, h4, a1, a2, a3⟩

/-- C84 and C85 apply: the last state for five sites has a tree. -/
example : ∃ s lines, Reach ex5 heapq 5 exBox s ∧ visualizeTree s = .ok lines ∧ lines ≠ [] := by
  have h : chk (sweepAllF ex5 heapq 5 40 (initSt exBox)) (fun _ s => decide (s.root ≠ none)) = true := by decide +kernel
  obtain ⟨a, s, h1, h2⟩ := chk_ok h
  rw [sweepAllF_eq] at h1
  obtain ⟨s0, hr, hp, rfl⟩ := sweepAll_reach h1
  obtain ⟨r, nodes, sites, lines, b1, b2, b3, b4, b5, _⟩ := C84_tree_text C45_event_queue hr (of_decide_eq_true h2)
  refine ⟨s0, lines, hr, b4, fun hl => ?_⟩
  subst hl
  cases b5
  generalize hN : ([] : List Nat) = N at b3
  cases b3 <;> simp at hN

end Foronoi
