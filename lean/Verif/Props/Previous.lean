import Verif.Props.Connected
import Verif.Props.VisFinal

/-!
# C116: the previous edge

The documentation (docs/pages/quickstart.rst:71-72, examples/quickstart.py:47-48) gives `edge.twin.next` as a way to get the previous edge, the same as `edge.prev`.
-/

namespace Foronoi

variable {pts : Nat → ℝ × ℝ} {q : PQ (QE ℝ)} {ok : List (QE ℝ) → Prop} {n fuel : Nat} {poly : Poly ℝ} {rz : Bool} {s' : St ℝ}

theorem Around.before {d : Dcel ℝ} {edges l : List Nat} {p f : Nat} (hl : Around d edges p l) (hf : f ∈ l) :
    ∃ g ∈ l, (d.he g).next = some f ∧ (d.he f).prev = some g ∧ ∃ a, TargetAt d g a ∧ OriginAt d f a := by
  obtain ⟨i, hi, rfl⟩ := List.mem_iff_getElem.mp hf
  have hpos : 0 < l.length := by omega
  have hj : (i + (l.length - 1)) % l.length < l.length := Nat.mod_lt _ hpos
  have hij : ((i + (l.length - 1)) % l.length + 1) % l.length = i := by
    rw [Nat.mod_add_mod, show i + (l.length - 1) + 1 = i + l.length by omega, Nat.add_mod_right, Nat.mod_eq_of_lt hi]
  have e1 : l[(i + (l.length - 1)) % l.length]? = some l[(i + (l.length - 1)) % l.length] := List.getElem?_eq_getElem hj
  have e2 : l[((i + (l.length - 1)) % l.length + 1) % l.length]? = some l[i] := by rw [hij]; exact List.getElem?_eq_getElem hi
  exact ⟨_, List.getElem_mem hj, (hl.linked _ _ _ e1 e2).1, (hl.linked _ _ _ e1 e2).2, hl.joined _ _ _ e1 e2⟩

theorem Around.after {d : Dcel ℝ} {edges l : List Nat} {p f : Nat} (hl : Around d edges p l) (hf : f ∈ l) :
    ∃ g ∈ l, (d.he f).next = some g ∧ (d.he g).prev = some f ∧ ∃ a, TargetAt d f a ∧ OriginAt d g a := by
  obtain ⟨i, hi, rfl⟩ := List.mem_iff_getElem.mp hf
  have hj : (i + 1) % l.length < l.length := Nat.mod_lt _ (by omega)
  have e1 : l[i]? = some l[i] := List.getElem?_eq_getElem hi
  have e2 : l[(i + 1) % l.length]? = some l[(i + 1) % l.length] := List.getElem?_eq_getElem hj
  exact ⟨_, List.getElem_mem hj, (hl.linked _ _ _ e1 e2).1, (hl.linked _ _ _ e1 e2).2, hl.joined _ _ _ e1 e2⟩

/-- A half-edge of the result with cells on both sides: the twin is one as well, and the cells differ. -/
theorem two_cells (hF : FitsCorners pts n poly) (hd : Distinct pts n) (hq : q.Spec evLt ok) (hn : 0 < n)
    (h : createDiagram pts q n fuel poly rz (initSt poly) = .ok ((), s')) {f t p r : Nat} (hf : HalfEdgeOf s'.d s'.edges f)
    (ht : (s'.d.he f).twin = some t) (hp : (s'.d.he f).incident = some p) (hr : (s'.d.he t).incident = some r) :
    HalfEdgeOf s'.d s'.edges t ∧ (s'.d.he t).twin = some f ∧ p ≠ r ∧ p < n ∧ r < n := by
  obtain ⟨s, s1, s2, vs, V, cell, F, hv1⟩ := create_finish_verts hF hd hq hn h
  obtain ⟨L, hI⟩ := reach_inv F.B.spec F.B.reach
  have hsub : ∀ e ∈ s'.edges, e ∈ s2.edges := (cleaned F.cu).2.2.2.1
  have hinc := (cleaned F.cu).2.1
  have htt : HalfEdgeOf s'.d s'.edges t ∧ (s'.d.he t).twin = some f := by
    rcases hf with h1 | ⟨e, h1, h2⟩
    · refine ⟨Or.inr ⟨f, h1, ht⟩, ?_⟩
      rw [F.twin] at ht ⊢
      exact F.twin_twin (hsub f h1) ht
    · have h3 : (s'.d.he f).twin = some e := by
        rw [F.twin] at h2 ⊢
        exact F.twin_twin (hsub e h1) h2
      rw [ht, Option.some.injEq] at h3
      exact ⟨Or.inl (h3 ▸ h1), h3 ▸ h2⟩
  have hE : EdgesOf s2.d s2.edges f := by
    rcases hf with h1 | ⟨e, h1, h2⟩
    · exact Or.inl (hsub f h1)
    · exact Or.inr ⟨e, hsub e h1, by rw [← F.twin]; exact h2⟩
  have hlt : p < n ∧ r < n := by
    rcases hf with h1 | ⟨e, h1, h2⟩
    · obtain ⟨t', p', a, b, hl⟩ := F.listed h1
      have e1 := hl.tw
      have e2 := hl.inc
      rw [ht, Option.some.injEq] at e1
      rw [hp, Option.some.injEq] at e2
      subst e1; subst e2
      exact ⟨hl.lt, hl.tlt r hr⟩
    · obtain ⟨t', p', a, b, hl⟩ := F.listed h1
      have e1 := hl.tw
      have e2 := hl.ttw
      rw [h2, Option.some.injEq] at e1
      subst e1
      rw [ht, Option.some.injEq] at e2
      subst e2
      have e3 := hl.inc
      rw [hr, Option.some.injEq] at e3
      subst e3
      exact ⟨hl.tlt p hp, hl.lt⟩
  refine ⟨htt.1, htt.2, ?_, hlt⟩
  rcases F.old_or_new.mp hE with h3 | ⟨j, hj, rfl | rfl⟩
  · have hlt := F.B.kept_lt h3
    rw [F.twin, F.B.twin2 hlt] at ht
    obtain ⟨t', h4, h5, _⟩ := hI.dinv.tw f hlt
    rw [ht, Option.some.injEq] at h4
    subst h4
    rw [hinc, F.B.inc2 hlt] at hp
    rw [hinc, F.B.inc2 h5] at hr
    have hne := hI.dinv.incne f hlt t ht
    rw [hp, hr] at hne
    exact fun hh => hne (by rw [hh])
  · obtain ⟨b1, b2, _⟩ := F.B.border hj
    rw [F.twin, b1, Option.some.injEq] at ht
    subst ht
    rw [hinc, b2] at hr
    cases hr
  · obtain ⟨b1, b2, _⟩ := F.B.border hj
    rw [hinc, b2] at hp
    cases hp

/-- C116: `prev` of a half-edge of a cell is the half-edge of this cell that ends where it starts, and the one whose `next` it is. -/
theorem C116_previous (hF : FitsCorners pts n poly) (hd : Distinct pts n) (hq : q.Spec evLt ok)
    (h : createDiagram pts q n fuel poly rz (initSt poly) = .ok ((), s')) {f p : Nat} (hf : HalfEdgeOf s'.d s'.edges f) (hp : (s'.d.he f).incident = some p) (hpn : p < n) :
    ∃ g a, (s'.d.he f).prev = some g ∧ (s'.d.he g).next = some f ∧ HalfEdgeOf s'.d s'.edges g ∧ (s'.d.he g).incident = some p ∧
      OriginAt s'.d f a ∧ TargetAt s'.d g a := by
  obtain ⟨s, s1, s2, vs, V, cell, F⟩ := create_finish hF hd hq (by omega) h
  obtain ⟨l, hl⟩ := F.around hf hp
  obtain ⟨g, hg, h1, h2, a, h3, h4⟩ := hl.before ((hl.all f).mpr ⟨hf, hp⟩)
  exact ⟨g, a, h2, h1, ((hl.all g).mp hg).1, ((hl.all g).mp hg).2, h4, h3⟩

/-- C116: `edge.twin.next` of a half-edge between two cells is a half-edge of the other cell that starts where the half-edge starts.  It is never `edge.prev`. -/
theorem C116_twin_next (hF : FitsCorners pts n poly) (hd : Distinct pts n) (hq : q.Spec evLt ok) (hn : 0 < n)
    (h : createDiagram pts q n fuel poly rz (initSt poly) = .ok ((), s')) {f t p r : Nat} (hf : HalfEdgeOf s'.d s'.edges f)
    (ht : (s'.d.he f).twin = some t) (hp : (s'.d.he f).incident = some p) (hr : (s'.d.he t).incident = some r) :
    ∃ g a, (s'.d.he t).next = some g ∧ (s'.d.he g).incident = some r ∧ OriginAt s'.d f a ∧ OriginAt s'.d g a ∧ (s'.d.he f).prev ≠ some g := by
  obtain ⟨k1, k2, hne, hpn, hrn⟩ := two_cells hF hd hq hn h hf ht hp hr
  obtain ⟨s, s1, s2, vs, V, cell, F⟩ := create_finish hF hd hq hn h
  obtain ⟨l, hl⟩ := F.around k1 hr
  obtain ⟨g, hg, h1, _, a, ⟨t', h3, h4⟩, h5⟩ := hl.after ((hl.all t).mpr ⟨k1, hr⟩)
  rw [k2, Option.some.injEq] at h3
  subst h3
  refine ⟨g, a, h1, ((hl.all g).mp hg).2, h4, h5, fun h6 => ?_⟩
  obtain ⟨g', _, c1, _, _, c2, _⟩ := C116_previous hF hd hq h hf hp hpn
  rw [h6, Option.some.injEq] at c1
  subst c1
  rw [((hl.all g).mp hg).2, Option.some.injEq] at c2
  exact hne c2.symm

/-- Four sites on a circle: a half-edge between two cells, with and without the clean-up. -/
example (rz : Bool) : ∃ poly s', boundingBox (-3 : ℝ) 4 98 106 = .ok poly ∧ createDiagram square4 heapq 4 30 poly rz (initSt poly) = .ok ((), s') ∧
    ∃ f t g k, HalfEdgeOf s'.d s'.edges f ∧ (s'.d.he f).twin = some t ∧ (s'.d.he f).prev = some g ∧ (s'.d.he t).next = some k ∧ g ≠ k := by
  have hp := box_points (show (-3 : ℝ) < 4 by norm_num) (show (98 : ℝ) < 106 by norm_num)
  have hF := square4_border hp
  obtain ⟨s0, s1, h0, h1, _⟩ := C74_cleanup_succeeds (fuel := 30) hF.toFitsCorners square4_distinct C45_event_queue (by norm_num) (by norm_num)
  obtain ⟨s', h⟩ : ∃ s', createDiagram square4 heapq 4 30 _ rz (initSt _) = .ok ((), s') := by
    cases rz
    · exact ⟨_, h0⟩
    · exact ⟨_, h1⟩
  refine ⟨_, s', hp, h, ?_⟩
  have hn0 : Nearest square4 4 0 (1 / 2, 201 / 2) := ⟨by norm_num, fun r hr => by
    rcases (by omega : r = 0 ∨ r = 1 ∨ r = 2 ∨ r = 3) with rfl | rfl | rfl | rfl <;> norm_num [square4, sqDist]⟩
  have hn1 : Nearest square4 4 1 (1 / 2, 201 / 2) := ⟨by norm_num, fun r hr => by
    rcases (by omega : r = 0 ∨ r = 1 ∨ r = 2 ∨ r = 3) with rfl | rfl | rfl | rfl <;> norm_num [square4, sqDist]⟩
  have hnn : ∀ r, Nearest square4 4 r (1 / 2, 201 / 2) → r = 0 ∨ r = 1 := by
    intro r hr
    have h1 := hr.1
    have h2 := hr.2 0 (by norm_num)
    rcases (by omega : r = 0 ∨ r = 1 ∨ r = 2 ∨ r = 3) with rfl | rfl | rfl | rfl
    · exact Or.inl rfl
    · exact Or.inr rfl
    · exfalso; norm_num [square4, sqDist] at h2
    · exfalso; norm_num [square4, sqDist] at h2
  obtain ⟨e, he, hs, _⟩ := C65_edges_complete hF.toFitsPolygon square4_distinct C45_event_queue h (p := 0) (r := 1) (by norm_num)
    ((box_inside (by norm_num) (by norm_num) _).mpr (by norm_num)) hn0 hn1 (by
      rintro ⟨a, b, c, h1, h2, h3, h4, h5, h6⟩
      have := hnn a h4; have := hnn b h5; have := hnn c h6
      omega)
  have key : ∀ p r, p < 4 → Separates s'.d e p r → ∃ f t g k, HalfEdgeOf s'.d s'.edges f ∧ (s'.d.he f).twin = some t ∧ (s'.d.he f).prev = some g ∧
      (s'.d.he t).next = some k ∧ g ≠ k := by
    rintro p r hp4 ⟨h1, t, h2, h3⟩
    obtain ⟨g, _, k1, _⟩ := C116_previous hF.toFitsCorners square4_distinct C45_event_queue h (Or.inl he) h1 hp4
    obtain ⟨k, _, k2, _, _, _, k3⟩ := C116_twin_next hF.toFitsCorners square4_distinct C45_event_queue (by norm_num) h (Or.inl he) h2 h1 h3
    exact ⟨e, t, g, k, Or.inl he, h2, k1, k2, fun hh => k3 (hh ▸ k1)⟩
  rcases hs with hs | hs
  · exact key 0 1 (by norm_num) hs
  · exact key 1 0 (by norm_num) hs

end Foronoi
