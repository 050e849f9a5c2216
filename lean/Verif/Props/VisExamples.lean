import Verif.Props.VisBeach
import Verif.Props.Complete
import Verif.Props.SweepExamples

/-!
# Pictures of the beach line: concrete cases, labels that are wrong, and events that are never drawn

C78: `_plot_arc_labels` takes the index of a line in the list of lines (without the arcs on the sweep line) as index in the list of arcs.
C79: `plot_all` passes the option for triangles as the event to draw.
-/

namespace Foronoi

open scoped List

/-- The last state of the sweep over a right triangle: all three sites have been met, and they are above the sweep line. -/
theorem tri3_last (poly : Poly ℝ) : ∃ s l, Reach tri3 heapq 3 poly s ∧ s.sweep = some l ∧ (∀ p < 3, (s.names p).isSome) ∧
    ∀ p ∈ Met tri3 s, l < p.2 := by
  obtain ⟨s, _, _, hr, hend⟩ := C23_no_errors (poly := poly) tri3_distinct C45_event_queue (fuel := 22) (by norm_num)
  obtain ⟨v, hv, hz⟩ := (C60_vertices tri3_distinct C45_event_queue hr hend (1, 1)).mp
    ⟨0, 1, 2, by norm_num, by norm_num, by norm_num, tri3_nearest (by norm_num), tri3_nearest (by norm_num), tri3_nearest (by norm_num)⟩
  obtain ⟨hH, ⟨L, l, hI, hG, hK, hE, _⟩, _⟩ := known_end tri3_distinct.injOn C45_event_queue hr hend (by norm_num)
  have hnm : ∀ p < 3, (s.names p).isSome := by
    intro p hp
    have : tri3 p ∈ Handled tri3 s := by rw [hH]; exact ⟨p, hp, rfl⟩
    obtain ⟨p', hp', he⟩ := this
    obtain ⟨k, hk⟩ := Option.isSome_iff_exists.mp hp'
    have := tri3_distinct p' (hI.sinv.nmLt p' k hk).2 p hp he
    rwa [← this]
  refine ⟨s, l, hr, hG.sw, hnm, ?_⟩
  obtain ⟨_, _, p, x, r, e1, e2, e3, ho⟩ := hI.dinv.vts v hv
  obtain ⟨m, h1, h2, h4, _⟩ := hG.vtx e1 ho.lt.1 v x (1, 1) ho.org.1 ho.inc.1 hz
  have hm : m < 0 := by
    have : dsq (tri3 x) (1, 1) = 2 := by
      unfold dsq tri3
      split_ifs <;> norm_num
    rw [this] at h4
    simp only at h2 h4
    nlinarith
  rintro _ ⟨p, hp, rfl⟩
  have : 0 ≤ (tri3 p).2 := by
    unfold tri3
    split_ifs <;> norm_num
  linarith

/-- C76 and C77 apply: the beach line is drawn, and it is labelled. -/
example (poly : Poly ℝ) (cv : Canvas ℝ) (med : List ℝ → ℝ) : ∃ s l c texts, Reach tri3 heapq 3 poly s ∧ s.sweep = some l ∧
    plotArcs tri3 cv s med [0, 1, 2] s.arcSet false true = .ok (.curve c .beachLine :: texts) ∧ c.map Prod.fst = [0, 1, 2] ∧
    (∀ z ∈ c, OnBeachLine (Met tri3 s) l z) ∧ texts ≠ [] := by
  obtain ⟨s, l, hr, hl, hnm, hup⟩ := tri3_last poly
  obtain ⟨single, beach, h1, h2, h3, _⟩ := C76_beach_line tri3_distinct C45_event_queue hr hl (List.Perm.refl _) cv med [0, 1, 2] false
  obtain ⟨rest, texts, h4, h5, _, h6, _⟩ := C77_labels tri3_distinct C45_event_queue hr hl (List.Perm.refl _) cv med [0, 1, 2] false
    (fun p hp => (hup p hp).ne') ⟨0, hnm 0 (by norm_num)⟩
  rw [h1, Except.ok.injEq] at h4
  rcases h2 with ⟨h2, _⟩ | ⟨_, c, h7, h8, h9⟩
  · have := h2 _ ⟨0, hnm 0 (by norm_num), rfl⟩
    exact absurd this (hup _ ⟨0, hnm 0 (by norm_num), rfl⟩).ne'
  · rw [h3 rfl, h7] at h4
    refine ⟨s, l, c, texts, hr, hl, ?_, h8, h9, ?_⟩
    · rw [h5, ← h4]; rfl
    · obtain ⟨p, x, y, _, _, h10⟩ := h6 0 (by simp)
      exact List.ne_nil_of_mem h10

/-! ### Labels while a site is on the sweep line -/

/-- Two sites, one above the other. -/
def exCol : Nat → ℚ × ℚ := ptsOf [(0, 4), (0, 0)]

def exCanvas : Canvas ℚ := ⟨-11, 11, -11, 11⟩

set_option maxRecDepth 100000

/-- C78: the second site is on the sweep line, the only parabola is that of the first site (named 0), but the label names the second (named
1), without a height.  All lists of samples would do; `med` is their middle. -/
theorem C78_wrong_label : ∃ s arcs, Reach exCol heapq 2 exBox s ∧ s.sweep = some 0 ∧ arcs ~ s.arcSet ∧
    (List.range 2).map s.names = [some 0, some 1] ∧
    plotArcs exCol exCanvas s (fun l => l.getD (l.length / 2) 0) [-2, 0, 2] arcs false true =
      .ok [.curve [(-2, 5 / 2), (0, 2), (2, 5 / 2)] .beachLine, .text 0 none (.arc (some 1))] := by
  have h : chk (sweepAllF exCol heapq 2 40 (initSt exBox)) (fun _ s => decide (s.sweep = some 0 ∧
      (List.range 2).map s.names = [some 0, some 1] ∧ s.arcSet.length = 2 ∧ 0 ∈ s.arcSet ∧ 1 ∈ s.arcSet ∧
      (s.arcs 0).origin = 0 ∧ (s.arcs 1).origin = 1)) = true := by decide +kernel
  obtain ⟨a, s, h1, h2⟩ := chk_ok h
  rw [sweepAllF_eq] at h1
  obtain ⟨s0, hr, hp, rfl⟩ := sweepAll_reach h1
  obtain ⟨k1, k2, k3, k4, k5, k6, k7⟩ := of_decide_eq_true h2
  simp only at k1 k2 k3 k4 k5 k6 k7
  have hperm : [1, 0] ~ s0.arcSet := by
    refine List.Subperm.perm_of_length_le (List.Nodup.subperm (by decide) ?_) (by simp [k3])
    intro x hx
    rcases List.mem_cons.mp hx with rfl | hx
    · exact k5
    · rw [List.mem_singleton] at hx; subst hx; exact k4
  have hn : s0.names 1 = some 1 := by
    have := congrArg (·[1]?) k2
    simpa using this
  refine ⟨s0, [1, 0], hr, k1, hperm, k2, ?_⟩
  have e1 : arcLine exCol s0 [-2, 0, 2] 0 1 = none := by
    unfold arcLine
    rw [k7, if_pos (by decide +kernel)]
  have e0 : arcLine exCol s0 [-2, 0, 2] 0 0 = some [5 / 2, 2, 5 / 2] := by
    unfold arcLine
    rw [k6, if_neg (by decide +kernel)]
    decide +kernel
  have e2 : [1, 0].filterMap (arcLine exCol s0 [-2, 0, 2] 0) = [[5 / 2, 2, 5 / 2]] := by
    simp [e0, e1]
  have e3 : beachOf [-2, 0, 2] [[5 / 2, 2, (5 / 2 : ℚ)]] = [(-2, 5 / 2), (0, 2), (2, 5 / 2)] := by decide +kernel
  have e4 : plotArcLabels exCol exCanvas s0 (fun l => l.getD (l.length / 2) 0) [-2, 0, 2] [[5 / 2, 2, 5 / 2]] 0 [1, 0] =
      .ok [.text 0 none (.arc (some 1))] := by
    have f1 : lowestAt [[5 / 2, 2, (5 / 2 : ℚ)]] 3 = [some 0, some 0, some 0] := by decide +kernel
    have f2 : (List.range 3).filterMap (fun i => if ([some 0, some 0, some 0] : List (Option Nat))[i]? = some (some 0) ∧
        (∃ y ∈ bottomAt [[5 / 2, 2, (5 / 2 : ℚ)]] i, y < Arith.toF exCanvas.maxY) then ([-2, 0, 2] : List ℚ)[i]? else none) = [-2, 0, 2] := by
      decide +kernel
    have f3 : arcPlot (exCol 1) 0 (Arith.toF 0) = none := by decide +kernel
    unfold plotArcLabels
    simp only [List.length_cons, List.length_nil, Nat.zero_add, Nat.reduceAdd, f1]
    show drawEach _ [0] = _
    simp only [drawEach, f2]
    simp [k7, f3, hn]
    rfl
  unfold plotArcs
  simp only [k1, Option.getD_some, e2, e3, e4]
  rfl

/-! ### Events and triangles -/

variable {K : Type} [LinearOrder K] [Arith K]

theorem drawEach_mem {α : Type} {f : α → Except Err (List (Draw K))} {P : Draw K → Prop} : ∀ (L : List α) {ds},
    (∀ a ds, f a = .ok ds → ∀ d ∈ ds, P d) → drawEach f L = .ok ds → ∀ d ∈ ds, P d := by
  intro L
  induction L with
  | nil => intro ds _ h d hd; cases h; simp at hd
  | cons a L ih =>
    intro ds hf h d hd
    unfold drawEach at h
    cases h1 : f a with
    | error _ => rw [h1] at h; cases h
    | ok x =>
      cases h2 : drawEach f L with
      | error _ => rw [h1, h2] at h; cases h
      | ok y =>
        rw [h1, h2] at h
        cases h
        rcases List.mem_append.mp hd with hd | hd
        · exact hf a x h1 d hd
        · exact ih hf h2 d hd

/-- Neither a circle nor a triangle. -/
def Plain : Draw K → Prop
  | .circle _ _ _ => False
  | .polygon _ .triangle => False
  | _ => True

theorem bindE {α β : Type} {x : Except Err α} {f : α → Except Err β} {b : β} (h : (x >>= f) = .ok b) : ∃ a, x = .ok a ∧ f a = .ok b := by
  cases x with
  | error _ => cases h
  | ok a => exact ⟨a, rfl, h⟩

theorem plain_append {a b : List (Draw K)} (ha : ∀ d ∈ a, Plain d) (hb : ∀ d ∈ b, Plain d) : ∀ d ∈ a ++ b, Plain d := by
  intro d hd
  rcases List.mem_append.mp hd with hd | hd
  · exact ha d hd
  · exact hb d hd

section

variable {pts : Nat → K × K} {cv : Canvas K} {s : St K} {ds : List (Draw K)}

theorem plain_edge {w : Option K} {b : Bool} {e : Nat} (h : plotEdge pts cv s w b e = .ok ds) : ∀ d ∈ ds, Plain d := by
  unfold plotEdge at h
  obtain ⟨o, _, h⟩ := bindE h
  split at h
  · split at h
    · obtain ⟨x, _, h⟩ := bindE h
      obtain ⟨y, _, h⟩ := bindE h
      obtain ⟨t, _, h⟩ := bindE h
      cases h
      simp [Plain]
    · cases h
      simp [Plain]
  · cases h
    simp

theorem plain_edges {b : Bool} (h : plotEdges pts cv s b = .ok ds) : ∀ d ∈ ds, Plain d := by
  refine drawEach_mem s.edges (fun e ds h => ?_) h
  obtain ⟨x, h1, h⟩ := bindE h
  obtain ⟨t, _, h⟩ := bindE h
  obtain ⟨y, h2, h⟩ := bindE h
  cases h
  exact plain_append (plain_edge h1) (plain_edge h2)

theorem plain_pointer {w : Option K} {e : Nat} (h : plotPointer pts cv s w e = .ok ds) : ∀ d ∈ ds, Plain d := by
  unfold plotPointer at h
  obtain ⟨o, _, h⟩ := bindE h
  split at h
  · obtain ⟨x, _, h⟩ := bindE h
    obtain ⟨y, _, h⟩ := bindE h
    cases h
    simp [Plain]
  · cases h
    simp

theorem plain_borderToSite (h : plotBorderToSite pts cv s = .ok ds) : ∀ d ∈ ds, Plain d := by
  refine drawEach_mem s.edges (fun e ds h => ?_) h
  obtain ⟨x, h1, h⟩ := bindE h
  obtain ⟨t, _, h⟩ := bindE h
  obtain ⟨y, h2, h⟩ := bindE h
  cases h
  exact plain_append (plain_pointer h1) (plain_pointer h2)

theorem plain_outgoing {scale : K} (h : plotOutgoingEdges pts cv s scale = .ok ds) : ∀ d ∈ ds, Plain d := by
  refine drawEach_mem s.verts (fun v ds h => drawEach_mem (s.d.vs v).conn (fun e ds h => ?_) h) h
  unfold plotOutgoing at h
  obtain ⟨o, _, h⟩ := bindE h
  split at h
  · obtain ⟨x, _, h⟩ := bindE h
    split at h
    · cases h
      simp
    · obtain ⟨x, _, h⟩ := bindE h
      obtain ⟨y, _, h⟩ := bindE h
      cases h
      simp [Plain]
  · cases h
    simp

theorem plain_points (l : List Nat) (b : Bool) (c : Color) : ∀ d ∈ plotPoints pts s l b c, Plain d := by
  intro d hd
  unfold plotPoints at hd
  split at hd
  · simp only [List.mem_cons, List.mem_map] at hd
    rcases hd with rfl | ⟨_, _, rfl⟩ <;> simp [Plain]
  · simp only [List.mem_singleton] at hd
    subst hd
    simp [Plain]

theorem plain_arcs {med : List K → K} {xs : List K} {arcs : List Nat} {b1 b2 : Bool} (h : plotArcs pts cv s med xs arcs b1 b2 = .ok ds) :
    ∀ d ∈ ds, Plain d := by
  have h1 : ∀ d ∈ (if b1 then arcs.flatMap (plotArc pts s xs (s.sweep.getD cv.maxY)) else []), Plain d := by
    intro d hd
    split at hd
    · obtain ⟨a, _, hd⟩ := List.mem_flatMap.mp hd
      unfold plotArc at hd
      split at hd <;> simp only [List.mem_singleton] at hd <;> subst hd <;> simp [Plain]
    · simp at hd
  unfold plotArcs at h
  simp only at h
  split at h
  · obtain ⟨t, h2, h⟩ := bindE h
    cases h
    refine plain_append h1 fun d hd => ?_
    rcases List.mem_cons.mp hd with rfl | hd
    · simp [Plain]
    · split at h2
      · refine drawEach_mem _ (fun k ds h => ?_) h2 d hd
        split at h
        · split at h
          · cases h
          · cases h
            simp [Plain]
        · cases h
          simp
      · cases h2
        simp at hd
  · cases h
    exact h1

end

/-- C79: `plot_all` never draws a triangle; and when triangles are asked for it does not draw the circle of the event either. -/
theorem C79_no_triangles {pts : Nat → K × K} {n : Nat} {poly : Poly K} {cv : Canvas K} {s : St K} {med : List K → K} {xs : List K}
    {arcs : List Nat} {o : PlotOpts K} {ds : List (Draw K)} (h : plotAll pts n poly cv s med xs arcs o = .ok ds) :
    (∀ d ∈ ds, ∀ l, d ≠ .polygon l .triangle) ∧
    (o.triangles = true → ∀ d ∈ ds, ∀ c r k, d ≠ .circle c r k) ∧
    (o.events = true → o.triangles = false → ∀ c, s.event = some (.circle c) →
      .circle (s.evs c).center (s.evs c).radius (if (s.evs c).valid then .validCircle else .invalidCircle) ∈ ds) := by
  unfold plotAll at h
  simp only at h
  obtain ⟨d3, h3, h⟩ := bindE h
  obtain ⟨d4, h4, h⟩ := bindE h
  obtain ⟨d5, h5, h⟩ := bindE h
  obtain ⟨d7, h7, h⟩ := bindE h
  obtain ⟨d9, h9, h⟩ := bindE h
  cases h
  have p1 : ∀ d ∈ (if o.sweepLine then plotSweepLine cv s else []), Plain d := by
    split <;> simp [plotSweepLine, Plain]
  have p2 : ∀ d ∈ (if o.polygon then plotPolygon poly else []), Plain d := by
    split <;> simp [plotPolygon, Plain]
  have p3 : ∀ d ∈ d3, Plain d := by
    split at h3
    · exact plain_edges h3
    · cases h3; simp
  have p4 : ∀ d ∈ d4, Plain d := by
    split at h4
    · exact plain_borderToSite h4
    · cases h4; simp
  have p5 : ∀ d ∈ d5, Plain d := by
    split at h5
    · obtain ⟨l, _, h⟩ := bindE h5
      cases h
      simp [Plain]
    · cases h5; simp
  have p6 : ∀ d ∈ (if o.sites then plotPoints pts s (List.range n) o.siteLabels .cellPoints else []), Plain d := by
    split
    · exact plain_points (K := K) (pts := pts) (s := s) _ _ _
    · simp
  have p7 : ∀ d ∈ d7, Plain d := by
    split at h7
    · exact plain_outgoing h7
    · cases h7; simp
  have p9 : ∀ d ∈ d9, Plain d := by
    split at h9
    · exact plain_arcs h9
    · cases h9; simp
  have p8 : ∀ d ∈ (if o.events then plotEvent pts s (.bool o.triangles) false else []), Plain d ∨
      o.triangles = false ∧ ∃ c r k, d = .circle c r k := by
    intro d hd
    split at hd
    · cases ht : o.triangles with
      | true => rw [ht] at hd; simp [plotEvent] at hd
      | false =>
        rw [ht] at hd
        unfold plotEvent at hd
        simp only at hd
        split at hd
        · unfold plotCircle at hd
          simp only [Bool.false_eq_true, if_false, List.nil_append] at hd
          rcases List.mem_cons.mp hd with rfl | hd
          · exact Or.inr ⟨rfl, _, _, _, rfl⟩
          · exact Or.inl (plain_points (pts := pts) (s := s) _ _ _ d hd)
        · simp at hd
    · simp at hd
  have key : ∀ d ∈ (if o.sweepLine then plotSweepLine cv s else []) ++ (if o.polygon then plotPolygon poly else []) ++ d3 ++ d4 ++ d5 ++
      (if o.sites then plotPoints pts s (List.range n) o.siteLabels .cellPoints else []) ++ d7 ++
      (if o.events then plotEvent pts s (.bool o.triangles) false else []) ++ d9, Plain d ∨ o.triangles = false ∧ ∃ c r k, d = .circle c r k := by
    intro d hd
    rcases List.mem_append.mp hd with hd | hd
    · rcases List.mem_append.mp hd with hd | hd
      · exact Or.inl (plain_append (plain_append (plain_append (plain_append (plain_append (plain_append p1 p2) p3) p4) p5) p6) p7 d hd)
      · exact p8 d hd
    · exact Or.inl (p9 d hd)
  refine ⟨fun d hd l he => ?_, fun ht d hd c r k he => ?_, fun he ht c hc => ?_⟩
  · subst he
    rcases key _ hd with h | ⟨_, c, r, k, h⟩
    · exact h
    · cases h
  · subst he
    rcases key _ hd with h | ⟨h, _⟩
    · exact h
    · rw [ht] at h; cases h
  · refine List.mem_append_left _ (List.mem_append_right _ ?_)
    rw [if_pos he, ht]
    unfold plotEvent
    simp only [hc]
    exact List.mem_cons_self

/-- A state after a circle event, in which `plot_all(events=True, triangles=True)` draws neither circle nor triangle. -/
example : ∃ s c ds, Reach ex5 heapq 5 exBox s ∧ s.event = some (.circle c) ∧
    plotAll ex5 5 exBox exCanvas s (fun l => l.getD 0 0) [] [] { scale := 1, edges := false, events := true, triangles := true } = .ok ds ∧
    ∀ d ∈ ds, Plain d := by
  have h : chk (sweepAllF ex5 heapq 5 40 (initSt exBox)) (fun _ s => decide ((match s.event with | some (.circle _) => true | _ => false) = true ∧
      ∀ v ∈ s.verts, (s.d.vs v).pos.isSome)) = true := by decide +kernel
  obtain ⟨a, s, h1, h2⟩ := chk_ok h
  rw [sweepAllF_eq] at h1
  obtain ⟨s0, hr, hp, rfl⟩ := sweepAll_reach h1
  obtain ⟨k1, k2⟩ := of_decide_eq_true h2
  simp only at k1 k2
  cases hev : s0.event with
  | none => rw [hev] at k1; cases k1
  | some ev =>
    cases ev with
    | site p => rw [hev] at k1; cases k1
    | circle c =>
      have hm : ∀ L : List Nat, (∀ v ∈ L, (s0.d.vs v).pos.isSome) → ∃ l, L.mapM (fun v => exD (s0.d.vs v).pos) = .ok l := by
        intro L
        induction L with
        | nil => exact fun _ => ⟨[], rfl⟩
        | cons v L ih =>
          intro hL
          obtain ⟨l, hl⟩ := ih fun w hw => hL w (List.mem_cons_of_mem _ hw)
          obtain ⟨z, hz⟩ := Option.isSome_iff_exists.mp (hL v List.mem_cons_self)
          refine ⟨z :: l, ?_⟩
          rw [List.mapM_cons, hz, hl]
          rfl
      obtain ⟨l, hl⟩ := hm s0.verts k2
      have : ∃ ds, plotAll ex5 5 exBox exCanvas s0 (fun l => l.getD 0 0) [] []
          { scale := 1, edges := false, events := true, triangles := true } = .ok ds := by
        unfold plotAll plotVertices
        simp only [hl]
        exact ⟨_, rfl⟩
      obtain ⟨ds, hds⟩ := this
      obtain ⟨h1, h2, _⟩ := C79_no_triangles hds
      refine ⟨s0, c, ds, hr, hev, hds, fun d hd => ?_⟩
      have g1 := h1 d hd
      have g2 := h2 rfl d hd
      cases d with
      | circle a b c => exact absurd rfl (g2 a b c)
      | polygon l c => cases c <;> first | exact absurd rfl (g1 l) | trivial
      | _ => trivial

end Foronoi
