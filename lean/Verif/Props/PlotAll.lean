import Verif.Props.VisExamples
import Verif.Props.VisArrows
import Verif.Props.FinalVertices

/-!
# C120: `plot_all`
-/

namespace Foronoi

section

variable {K : Type} [LinearOrder K] [Arith K] {pts : Nat → K × K} {n : Nat} {poly : Poly K} {cv : Canvas K} {s : St K} {ds : List (Draw K)}

theorem mem_both {P : Draw K → Prop} {a b : List (Draw K)} (ha : ∀ d ∈ a, P d) (hb : ∀ d ∈ b, P d) : ∀ d ∈ a ++ b, P d := by
  intro d hd
  rcases List.mem_append.mp hd with hd | hd
  · exact ha d hd
  · exact hb d hd

theorem part_edge {w : Option K} {b : Bool} {e : Nat} (h : plotEdge pts cv s w b e = .ok ds) :
    ∀ d ∈ ds, d.part = .edges ∧ ∀ x y p r, d = .text x y (.edge p r) → b = true := by
  unfold plotEdge at h
  obtain ⟨o, _, h⟩ := bindE h
  split at h
  · split at h
    · next hb =>
      obtain ⟨x, _, h⟩ := bindE h
      obtain ⟨y, _, h⟩ := bindE h
      obtain ⟨t, _, h⟩ := bindE h
      cases h
      simp [Draw.part, hb]
    · cases h
      simp [Draw.part]
  · cases h
    simp

theorem part_edges {b : Bool} (h : plotEdges pts cv s b = .ok ds) : ∀ d ∈ ds, d.part = .edges ∧ ∀ x y p r, d = .text x y (.edge p r) → b = true := by
  refine drawEach_mem s.edges (fun e ds h => ?_) h
  obtain ⟨x, h1, h⟩ := bindE h
  obtain ⟨t, _, h⟩ := bindE h
  obtain ⟨y, h2, h⟩ := bindE h
  cases h
  exact mem_both (part_edge h1) fun d hd => ⟨(part_edge h2 d hd).1, fun x y p r he => absurd ((part_edge h2 d hd).2 x y p r he) (by simp)⟩

theorem part_pointer {w : Option K} {e : Nat} (h : plotPointer pts cv s w e = .ok ds) : ∀ d ∈ ds, d.part = .borderToSite := by
  unfold plotPointer at h
  obtain ⟨o, _, h⟩ := bindE h
  split at h
  · obtain ⟨x, _, h⟩ := bindE h
    obtain ⟨y, _, h⟩ := bindE h
    cases h
    simp only [List.mem_singleton, forall_eq]
    split <;> rfl
  · cases h
    simp

theorem part_borderToSite (h : plotBorderToSite pts cv s = .ok ds) : ∀ d ∈ ds, d.part = .borderToSite := by
  refine drawEach_mem s.edges (fun e ds h => ?_) h
  obtain ⟨x, h1, h⟩ := bindE h
  obtain ⟨t, _, h⟩ := bindE h
  obtain ⟨y, h2, h⟩ := bindE h
  cases h
  exact mem_both (part_pointer h1) (part_pointer h2)

theorem part_outgoing {scale : K} (h : plotOutgoingEdges pts cv s scale = .ok ds) : ∀ d ∈ ds, d.part = .outgoing := by
  refine drawEach_mem s.verts (fun v ds h => drawEach_mem (s.d.vs v).conn (fun e ds h => ?_) h) h
  unfold plotOutgoing at h
  obtain ⟨o, _, h⟩ := bindE h
  split at h
  · obtain ⟨x, _, h⟩ := bindE h
    split at h
    · cases h
      simp
    · obtain ⟨x, _, h⟩ := bindE h
      obtain ⟨y, _, h⟩ := bindE h
      cases h
      simp [Draw.part]
  · cases h
    simp

theorem part_event {arg : EvArg} {b : Bool} : ∀ d ∈ plotEvent pts s arg b, d.part = .event := by
  intro d hd
  unfold plotEvent at hd
  simp only at hd
  split at hd
  · unfold plotCircle plotPoints at hd
    simp only [Bool.false_eq_true, if_false, List.mem_cons, List.mem_append, List.not_mem_nil, or_false] at hd
    rcases hd with rfl | hd | rfl
    · rfl
    · split at hd
      · simp only [List.mem_singleton] at hd
        subst hd
        rfl
      · simp at hd
    · rfl
  · simp at hd

theorem part_arcs {med : List K → K} {xs : List K} {arcs : List Nat} {b1 b2 : Bool} (h : plotArcs pts cv s med xs arcs b1 b2 = .ok ds) :
    ∀ d ∈ ds, d.part = .beach ∧ ∀ x y p, d = .text x y (.arc p) → b2 = true := by
  have h1 : ∀ d ∈ (if b1 then arcs.flatMap (plotArc pts s xs (s.sweep.getD cv.maxY)) else []), d.part = .beach ∧ ∀ x y p, d = .text x y (.arc p) → b2 = true := by
    intro d hd
    split at hd
    · obtain ⟨a, _, hd⟩ := List.mem_flatMap.mp hd
      unfold plotArc at hd
      split at hd <;> simp only [List.mem_singleton] at hd <;> subst hd <;> simp [Draw.part]
    · simp at hd
  unfold plotArcs at h
  simp only at h
  split at h
  · obtain ⟨t, h2, h⟩ := bindE h
    cases h
    refine mem_both h1 fun d hd => ?_
    rcases List.mem_cons.mp hd with rfl | hd
    · simp [Draw.part]
    · split at h2
      · next hb =>
        refine drawEach_mem (P := fun d => d.part = .beach ∧ ∀ x y p, d = .text x y (.arc p) → b2 = true) _ (fun k ds h => ?_) h2 d hd
        split at h
        · split at h
          · cases h
          · cases h
            simp [Draw.part, hb]
        · cases h
          simp
      · cases h2
        simp at hd
  · cases h
    exact h1

/-- `x` is the result of `m` if the option is set, nothing otherwise. -/
def Opt (b : Bool) (m : Except Err (List (Draw K))) (x : List (Draw K)) : Prop := (b = true ∧ m = .ok x) ∨ (b = false ∧ x = [])

theorem opt_of {b : Bool} {m : Except Err (List (Draw K))} {x : List (Draw K)} (h : (if b then m else .ok []) = .ok x) : Opt b m x := by
  cases b with
  | true => exact Or.inl ⟨rfl, h⟩
  | false =>
    rw [if_neg (by simp), Except.ok.injEq] at h
    exact Or.inr ⟨rfl, h.symm⟩

theorem Opt.part {b : Bool} {m : Except Err (List (Draw K))} {x : List (Draw K)} {P : Draw K → Prop} (h : Opt b m x) (hm : ∀ y, m = .ok y → ∀ d ∈ y, P d) :
    ∀ d ∈ x, b = true ∧ P d := by
  intro d hd
  rcases h with ⟨h1, h2⟩ | ⟨_, rfl⟩
  · exact ⟨h1, hm _ h2 d hd⟩
  · simp at hd

/-- The picture, part by part. -/
theorem plotAll_parts {med : List K → K} {xs : List K} {arcs : List Nat} {o : PlotOpts K} (h : plotAll pts n poly cv s med xs arcs o = .ok ds) :
    ∃ d3 d4 d5 d7 d9, Opt o.edges (plotEdges pts cv s o.edgeLabels) d3 ∧ Opt o.borderToSite (plotBorderToSite pts cv s) d4 ∧
      Opt o.vertices (plotVertices s) d5 ∧ Opt o.outgoingEdges (plotOutgoingEdges pts cv s o.scale) d7 ∧
      Opt o.beachLine (plotArcs pts cv s med xs arcs o.arcs o.arcLabels) d9 ∧
      ∀ d, d ∈ ds ↔ (o.wants d.part = true ∧ match d.part with
        | .sweepLine => d ∈ plotSweepLine cv s
        | .polygon => d ∈ plotPolygon poly
        | .edges => d ∈ d3
        | .borderToSite => d ∈ d4
        | .vertices => d ∈ d5
        | .sites => d ∈ plotPoints pts s (List.range n) o.siteLabels .cellPoints
        | .outgoing => d ∈ d7
        | .event => d ∈ plotEvent pts s (.bool o.triangles) false
        | .beach => d ∈ d9) := by
  unfold plotAll at h
  simp only at h
  obtain ⟨d3, h3, h⟩ := bindE h
  obtain ⟨d4, h4, h⟩ := bindE h
  obtain ⟨d5, h5, h⟩ := bindE h
  obtain ⟨d7, h7, h⟩ := bindE h
  obtain ⟨d9, h9, h⟩ := bindE h
  cases h
  have o3 := opt_of h3
  have o4 := opt_of h4
  have o5 := opt_of h5
  have o7 := opt_of h7
  have o9 := opt_of h9
  refine ⟨d3, d4, d5, d7, d9, o3, o4, o5, o7, o9, fun d => ?_⟩
  have p1 : d ∈ plotSweepLine cv s → d.part = .sweepLine := by
    simp only [plotSweepLine, List.mem_singleton]
    rintro rfl; rfl
  have p2 : d ∈ plotPolygon poly → d.part = .polygon := by
    simp only [plotPolygon, List.mem_singleton]
    rintro rfl; rfl
  have p3 := o3.part (P := fun d => d.part = .edges) (fun y hy d hd => (part_edges hy d hd).1) d
  have p4 := o4.part (P := fun d => d.part = .borderToSite) (fun y hy d hd => part_borderToSite hy d hd) d
  have p5 := o5.part (P := fun d => d.part = .vertices) (fun y hy d hd => by
    obtain ⟨l, _, h⟩ := bindE hy
    cases h
    simp only [List.mem_singleton] at hd
    subst hd; rfl) d
  have p6 : d ∈ plotPoints pts s (List.range n) o.siteLabels .cellPoints → d.part = .sites := by
    unfold plotPoints
    intro hd
    rcases List.mem_cons.mp hd with rfl | hd
    · rfl
    · split at hd
      · obtain ⟨p, _, rfl⟩ := List.mem_map.mp hd
        rfl
      · simp at hd
  have p7 := o7.part (P := fun d => d.part = .outgoing) (fun y hy d hd => part_outgoing hy d hd) d
  have p8 := part_event (pts := pts) (s := s) (arg := .bool o.triangles) (b := false) d
  have p9 := o9.part (P := fun d => d.part = .beach) (fun y hy d hd => (part_arcs hy d hd).1) d
  have hif : ∀ (b : Bool) (x : List (Draw K)), d ∈ (if b then x else []) ↔ b = true ∧ d ∈ x := by
    intro b x
    cases b <;> simp
  simp only [List.mem_append, hif]
  constructor
  · rintro ((((((((⟨h, hd⟩ | ⟨h, hd⟩) | hd) | hd) | hd) | ⟨h, hd⟩) | hd) | ⟨h, hd⟩) | hd)
    · rw [p1 hd]; exact ⟨h, hd⟩
    · rw [p2 hd]; exact ⟨h, hd⟩
    · rw [(p3 hd).2]; exact ⟨(p3 hd).1, hd⟩
    · rw [(p4 hd).2]; exact ⟨(p4 hd).1, hd⟩
    · rw [(p5 hd).2]; exact ⟨(p5 hd).1, hd⟩
    · rw [p6 hd]; exact ⟨h, hd⟩
    · rw [(p7 hd).2]; exact ⟨(p7 hd).1, hd⟩
    · rw [p8 hd]; exact ⟨h, hd⟩
    · rw [(p9 hd).2]; exact ⟨(p9 hd).1, hd⟩
  · rintro ⟨hw, hd⟩
    cases hp : d.part <;> rw [hp] at hw hd <;> simp only [PlotOpts.wants] at hw hd <;>
      simp only [hw, hd, true_and, and_self, true_or, or_true]

/-- **C120**: `plot_all` draws only what its options ask for. -/
theorem C120_only_wanted {med : List K → K} {xs : List K} {arcs : List Nat} {o : PlotOpts K} (h : plotAll pts n poly cv s med xs arcs o = .ok ds) :
    (∀ d ∈ ds, o.wants d.part = true) ∧ (∀ x y p r, .text x y (.edge p r) ∈ ds → o.edgeLabels = true) ∧ (∀ x y p, .text x y (.site p) ∈ ds → o.siteLabels = true) ∧
      ∀ x y p, .text x y (.arc p) ∈ ds → o.arcLabels = true := by
  obtain ⟨d3, d4, d5, d7, d9, o3, o4, o5, o7, o9, hm⟩ := plotAll_parts h
  refine ⟨fun d hd => ((hm d).mp hd).1, fun x y p r hd => ?_, fun x y p hd => ?_, fun x y p hd => ?_⟩
  · obtain ⟨_, hd⟩ := (hm _).mp hd
    exact (o3.part (fun y hy d hd => part_edges hy d hd) _ hd).2.2 _ _ _ _ rfl
  · obtain ⟨_, hd⟩ := (hm _).mp hd
    simp only [Draw.part, plotPoints] at hd
    by_contra hb
    rw [if_neg hb] at hd
    simp at hd
  · obtain ⟨_, hd⟩ := (hm _).mp hd
    exact (o9.part (fun y hy d hd => part_arcs hy d hd) _ hd).2.2 _ _ _ rfl

/-- C120: the sweep line is drawn at its height across the canvas, the polygon with its corners, and each site as a dot and, if labels are asked for, with
its name. -/
theorem C120_plain_parts {med : List K → K} {xs : List K} {arcs : List Nat} {o : PlotOpts K} (h : plotAll pts n poly cv s med xs arcs o = .ok ds) :
    (∀ l, s.sweep = some l → ∀ a b, .line a b .sweepLine ∈ ds ↔ o.sweepLine = true ∧ a = (cv.minX, .fin l) ∧ b = (cv.maxX, .fin l)) ∧
    (∀ l, .polygon l .boundingBox ∈ ds ↔ o.polygon = true ∧ l = poly.points) ∧
    (∀ l, .dots l .cellPoints ∈ ds ↔ o.sites = true ∧ l = (List.range n).map pts) ∧
    ∀ x y m, .text x y (.site m) ∈ ds ↔ o.sites = true ∧ o.siteLabels = true ∧ ∃ p < n, (x, y) = ((pts p).1, some (.fin (pts p).2)) ∧ m = s.names p := by
  obtain ⟨d3, d4, d5, d7, d9, o3, o4, o5, o7, o9, hm⟩ := plotAll_parts h
  refine ⟨fun l hl a b => ?_, fun l => ?_, fun l => ?_, fun x y m => ?_⟩
  · rw [hm]
    simp [Draw.part, PlotOpts.wants, plotSweepLine, hl]
  · rw [hm]
    simp [Draw.part, PlotOpts.wants, plotPolygon]
  · rw [hm]
    simp only [Draw.part, PlotOpts.wants, plotPoints]
    refine and_congr_right fun _ => ?_
    cases o.siteLabels <;> simp
  · rw [hm]
    simp only [Draw.part, PlotOpts.wants, plotPoints]
    refine and_congr_right fun _ => ?_
    cases o.siteLabels
    · simp
    · simp only [if_true, List.mem_cons, reduceCtorEq, false_or, List.mem_map, List.mem_range, Draw.text.injEq, Label.site.injEq, true_and, Prod.mk.injEq]
      constructor
      · rintro ⟨p, hp, rfl, rfl, rfl⟩
        exact ⟨p, hp, ⟨rfl, rfl⟩, rfl⟩
      · rintro ⟨p, hp, ⟨rfl, rfl⟩, rfl⟩
        exact ⟨p, hp, rfl, rfl, rfl⟩

end

variable {pts : Nat → ℝ × ℝ} {q : PQ (QE ℝ)} {ok : List (QE ℝ) → Prop} {n : Nat} {rz : Bool} {poly : Poly ℝ} {s' : St ℝ} {fuel : Nat}

theorem arcs_ok {cv : Canvas ℝ} {s : St ℝ} {med : List ℝ → ℝ} {xs : List ℝ} {arcs : List Nat} {b : Bool} : ∃ ds, plotArcs pts cv s med xs arcs b false = .ok ds := by
  unfold plotArcs
  simp only
  split
  · exact ⟨_, rfl⟩
  · exact ⟨_, rfl⟩

theorem vertices_ok (hp : ∀ v ∈ s'.verts, ∃ z, (s'.d.vs v).pos = some z) :
    ∃ zs, plotVertices s' = .ok [.dots zs .vertices] ∧ ∀ z, z ∈ zs ↔ ∃ v ∈ s'.verts, (s'.d.vs v).pos = some z := by
  have hm : ∀ L : List Nat, (∀ v ∈ L, ∃ z, (s'.d.vs v).pos = some z) → ∃ zs,
      L.mapM (fun v => exD (s'.d.vs v).pos) = .ok zs ∧ ∀ z, z ∈ zs ↔ ∃ v ∈ L, (s'.d.vs v).pos = some z := by
    intro L
    induction L with
    | nil => exact fun _ => ⟨[], rfl, by simp⟩
    | cons v L ih =>
      intro hL
      obtain ⟨zs, hzs, hmem⟩ := ih fun w hw => hL w (List.mem_cons_of_mem _ hw)
      obtain ⟨z, hz⟩ := hL v List.mem_cons_self
      refine ⟨z :: zs, ?_, fun z' => ?_⟩
      · rw [List.mapM_cons, hz, hzs]
        rfl
      · rw [List.mem_cons, hmem]
        simp only [List.mem_cons, exists_eq_or_imp, hz, Option.some.injEq]
        exact or_congr_left eq_comm
  obtain ⟨zs, hzs, hmem⟩ := hm s'.verts hp
  refine ⟨zs, ?_, hmem⟩
  unfold plotVertices
  rw [hzs]
  rfl

/-- C120: for the finished diagram `plot_all` succeeds, unless labels of arcs are asked for.  It draws the edges, their labels, the vertices, the pointers to the sites and
the arrows exactly if they are asked for, and draws those of the Voronoi diagram in the polygon. -/
theorem C120_finished (hF : FitsCorners pts n poly) (hd : Distinct pts n) (hq : q.Spec evLt ok) (hn : 0 < n)
    (h : createDiagram pts q n fuel poly rz (initSt poly) = .ok ((), s')) (cv : Canvas ℝ) (med : List ℝ → ℝ) (xs : List ℝ) (arcs : List Nat) (o : PlotOpts ℝ)
    (ho : o.beachLine = true → o.arcLabels = false) (hs : 0 ≤ o.scale) :
    ∃ ds, plotAll pts n poly cv s' med xs arcs o = .ok ds ∧
      (∀ z, (∃ a b, .line (a.1, .fin a.2) (b.1, .fin b.2) .edge ∈ ds ∧ Between a b z) ↔ o.edges = true ∧ InClosed poly.points z ∧
        ((∃ p r, p ≠ r ∧ Nearest pts n p z ∧ Nearest pts n r z) ∨ OnBoundary poly.points z)) ∧
      (∀ x y p r, .text x y (.edge p r) ∈ ds ↔ o.edges = true ∧ o.edgeLabels = true ∧ ∃ e ∈ s'.edges, ∃ t a b, (s'.d.he e).twin = some t ∧
        (s'.d.he e).incident = p ∧ (s'.d.he t).incident = r ∧ OriginAt s'.d e a ∧ TargetAt s'.d e b ∧ x = (a.1 + b.1) / 2 ∧ y = some (.fin ((a.2 + b.2) / 2))) ∧
      (∃ zs, (∀ l, .dots l .vertices ∈ ds ↔ o.vertices = true ∧ l = zs) ∧ ∀ z, z ∈ zs ↔ DiagramVertex pts n poly z) ∧
      (∀ a b c, c ≠ .edge → c ≠ .sweepLine → (.line a b c ∈ ds ↔ o.borderToSite = true ∧ ∃ e p x y, HalfEdgeOf s'.d s'.edges e ∧ (s'.d.he e).incident = some p ∧
        OriginAt s'.d e x ∧ TargetAt s'.d e y ∧ a = ((x.1 + y.1) / 2, .fin ((x.2 + y.2) / 2)) ∧ b = ((pts p).1, .fin (pts p).2) ∧
        c = if s'.d.fe p = some e then .firstEdge else .pointer)) ∧
      ∀ a b c, .arrow a b c ∈ ds ↔ o.outgoingEdges = true ∧ c = .edgeDirection ∧ ∃ e v w, HalfEdgeOf s'.d s'.edges e ∧ StartsAt s'.d e v ∧ v ∈ s'.verts ∧
        OriginAt s'.d e a ∧ TargetAt s'.d e w ∧ a ≠ w ∧ Towards a w o.scale b := by
  obtain ⟨e3, x1, x2⟩ := C86_final_picture hF hd hq hn h cv o.edgeLabels
  obtain ⟨e4, y1, y2, _⟩ := C87_border_to_site hF hd hq hn h cv
  obtain ⟨v1, v2, _⟩ := C88_final_vertices hF hd hq hn h
  obtain ⟨zs, z1, z2⟩ := vertices_ok (s' := s') fun v hv => (v1 v hv).imp fun z hz => hz.1
  obtain ⟨e7, w1, w2, _⟩ := C110_arrows hF hd hq hn h cv hs
  obtain ⟨e9, a1⟩ : ∃ x, (if o.beachLine then plotArcs pts cv s' med xs arcs o.arcs o.arcLabels else .ok []) = .ok x := by
    cases hb : o.beachLine with
    | false => exact ⟨[], rfl⟩
    | true =>
      rw [ho hb]
      exact arcs_ok
  obtain ⟨ds, hds⟩ : ∃ ds, plotAll pts n poly cv s' med xs arcs o = .ok ds := by
    have hif : ∀ (b : Bool) (m : Except Err (List (Draw ℝ))) x, m = .ok x → ∃ y, (if b then m else .ok []) = .ok y := by
      intro b m x hx
      cases b
      · exact ⟨_, rfl⟩
      · exact ⟨x, hx⟩
    obtain ⟨_, k3⟩ := hif o.edges _ _ x1
    obtain ⟨_, k4⟩ := hif o.borderToSite _ _ y1
    obtain ⟨_, k5⟩ := hif o.vertices _ _ z1
    obtain ⟨_, k7⟩ := hif o.outgoingEdges _ _ w1
    unfold plotAll
    simp only [k3, k4, k5, k7, a1]
    exact ⟨_, rfl⟩
  obtain ⟨d3, d4, d5, d7, d9, o3, o4, o5, o7, _, hm⟩ := plotAll_parts hds
  have get : ∀ {b : Bool} {m : Except Err (List (Draw ℝ))} {x y : List (Draw ℝ)}, Opt b m x → m = .ok y → ∀ d, b = true ∧ d ∈ x ↔ b = true ∧ d ∈ y := by
    intro b m x y h1 h2 d
    rcases h1 with ⟨rfl, h1⟩ | ⟨rfl, rfl⟩
    · rw [h1, Except.ok.injEq] at h2
      rw [h2]
    · simp
  refine ⟨ds, hds, fun z => ?_, fun x y p r => ?_, ⟨zs, fun l => ?_, fun z => ?_⟩, fun a b c c1 c2 => ?_, fun a b c => ?_⟩
  · have hc : ∀ a b : Pt, .line (a.1, .fin a.2) (b.1, .fin b.2) .edge ∈ ds ↔ o.edges = true ∧ .line (a.1, .fin a.2) (b.1, .fin b.2) .edge ∈ e3 := fun a b => by
      rw [hm]
      exact get o3 x1 _
    rw [← x2]
    constructor
    · rintro ⟨a, b, h1, h2⟩
      obtain ⟨h3, h4⟩ := (hc a b).mp h1
      exact ⟨h3, a, b, _, h4, h2⟩
    · rintro ⟨h3, a, b, c, h4, h2⟩
      have : c = .edge := by
        have := (part_edges x1 _ h4).1
        cases c <;> first | rfl | cases this
      subst this
      exact ⟨a, b, (hc a b).mpr ⟨h3, h4⟩, h2⟩
  · rw [hm]
    refine (get o3 x1 _).trans (and_congr_right fun _ => ?_)
    obtain ⟨s, s1, s2, vs, V, cell, F⟩ := create_finish hF hd hq hn h
    obtain ⟨e3', hds', hmem⟩ := drawEach_ex (f := fun e => do
      let x ← plotEdge pts cv s' s'.sweep o.edgeLabels e
      let t ← exD (s'.d.he e).twin
      let y ← plotEdge pts cv s' s'.sweep false t
      pure (x ++ y)) s'.edges (fun e he => by
        obtain ⟨t, p, a, b, hl⟩ := F.listed he
        exact ⟨_, plotBoth_opos hl.tw hl.ttw hl.org hl.torg o.edgeLabels⟩)
    have : e3' = e3 := by
      have := hds'.symm.trans x1
      rwa [Except.ok.injEq] at this
    subst this
    rw [hmem]
    constructor
    · rintro ⟨e, he, u, hu, hin⟩
      obtain ⟨t, p', a, b, hl⟩ := F.listed he
      rw [plotBoth_opos hl.tw hl.ttw hl.org hl.torg, Except.ok.injEq] at hu
      subst hu
      cases hb : o.edgeLabels with
      | false => rw [hb] at hin; simp at hin
      | true =>
        rw [hb] at hin
        simp only [if_true, List.cons_append, List.mem_cons, List.nil_append, List.mem_singleton, reduceCtorEq, false_or, or_false, List.not_mem_nil, Draw.text.injEq,
          Label.edge.injEq] at hin
        obtain ⟨k1, k2, k3, k4⟩ := hin
        exact ⟨rfl, e, he, t, a, b, hl.tw, k3.symm, k4.symm, originAt_iff.mpr hl.org, (targetAt_iff hl.tw).mpr hl.torg, by rw [k1, add_comm], by rw [k2, add_comm]⟩
    · rintro ⟨hb, e, he, t, a, b, ht, rfl, rfl, ha, hbb, rfl, rfl⟩
      obtain ⟨t', p', a', b', hl⟩ := F.listed he
      rw [hl.tw, Option.some.injEq] at ht
      subst ht
      rw [originAt_iff, hl.org, Option.some.injEq] at ha
      rw [targetAt_iff hl.tw, hl.torg, Option.some.injEq] at hbb
      subst ha hbb
      refine ⟨e, he, _, plotBoth_opos hl.tw hl.ttw hl.org hl.torg o.edgeLabels, ?_⟩
      rw [hb]
      simp [add_comm]
  · rw [hm]
    refine (get o5 z1 _).trans ?_
    simp
  · rw [z2]
    constructor
    · rintro ⟨v, hv, hz⟩
      obtain ⟨z', h1, h2⟩ := v1 v hv
      rw [hz, Option.some.injEq] at h1
      rwa [h1]
    · exact v2 z
  · have hp : (Draw.line a b c : Draw ℝ).part = .borderToSite := by
      cases c <;> first | rfl | exact absurd rfl c1 | exact absurd rfl c2
    rw [hm, hp]
    refine (get o4 y1 _).trans (and_congr_right fun _ => ?_)
    rw [y2]
    simp only [Draw.line.injEq]
  · rw [hm]
    refine (get o7 w1 _).trans (and_congr_right fun _ => ?_)
    rw [w2]
    simp only [Draw.arrow.injEq]
    constructor
    · rintro ⟨e, v, a', b', c', h1, h2, h3, h4, h5, h6, h7, rfl, rfl, rfl⟩
      exact ⟨rfl, e, v, b', h1, h2, h3, h4, h5, h6, h7⟩
    · rintro ⟨rfl, e, v, w, h1, h2, h3, h4, h5, h6, h7⟩
      exact ⟨e, v, a, w, b, h1, h2, h3, h4, h5, h6, h7, rfl, rfl, rfl⟩

end Foronoi
