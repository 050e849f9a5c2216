import Verif.Proof.Border
import Mathlib.Data.List.Sort

/-!
# `finish_polygon`
-/

namespace Foronoi

open scoped List

variable {K : Type} [LinearOrder K] [Arith K] {E : Err → Prop} {pts : Nat → K × K} {poly : Poly K}

theorem map_filterMap_snd {α β : Type} (f : β → Option α) (l : List β) :
    (l.filterMap fun v => (f v).map fun p => (p, v)).map (·.2) = l.filter fun v => (f v).isSome := by
  induction l with
  | nil => rfl
  | cons a l ih =>
    cases h : f a with
    | none => rw [List.filterMap_cons_none (by simp [h]), List.filter_cons_of_neg (by simp [h]), ih]
    | some x => rw [List.filterMap_cons_some (by rw [h]; rfl), List.filter_cons_of_pos (by simp [h]), List.map_cons, ih]

/-- The boundary vertices with a position, in angular order. -/
theorem orderedVertices_spec (poly : Poly K) (vs : Nat → VR K) (l : List Nat) :
    orderedVertices poly vs l ~ l.filter (fun v => (vs v).pos.isSome) ∧
    (orderedVertices poly vs l).Pairwise (fun a b => ∀ p q, (vs a).pos = some p → (vs b).pos = some q →
      orderKey poly.center p ≤ orderKey poly.center q) := by
  unfold orderedVertices
  simp only
  obtain ⟨ok, hok⟩ : ∃ ok, ok = l.filterMap fun v => (vs v).pos.map fun p => (orderKey poly.center p, v) := ⟨_, rfl⟩
  rw [← hok]
  have hmem : ∀ x ∈ ok, ∀ p, (vs x.2).pos = some p → x.1 = orderKey poly.center p := by
    intro x hx p hp
    rw [hok, List.mem_filterMap] at hx
    obtain ⟨v, _, h2⟩ := hx
    rw [Option.map_eq_some_iff] at h2
    obtain ⟨q, h3, h4⟩ := h2
    subst h4
    simp only at hp ⊢
    rw [h3] at hp; cases hp; rfl
  constructor
  · have h1 : (ok.insertionSort (fun p q => p.1 ≤ q.1)).map (·.2) ~ ok.map (·.2) := (List.perm_insertionSort _ _).map _
    refine h1.trans ?_
    have h2 : ok = l.filterMap fun v => (((vs v).pos.map fun p => orderKey poly.center p)).map fun k => (k, v) := by
      rw [hok]; congr 1; funext v; simp [Function.comp_def]
    rw [h2, map_filterMap_snd]
    simp
  · have hs : (ok.insertionSort (fun p q => p.1 ≤ q.1)).Pairwise (fun p q => p.1 ≤ q.1) := by
      haveI : Std.Total (fun p q : K × Nat => p.1 ≤ q.1) := ⟨fun a b => le_total a.1 b.1⟩
      haveI : IsTrans (K × Nat) (fun p q => p.1 ≤ q.1) := ⟨fun a b c h1 h2 => le_trans h1 h2⟩
      exact List.pairwise_insertionSort _ _
    rw [List.pairwise_map]
    refine hs.imp_of_mem ?_
    intro a b ha hb hab p q hp hq
    have ha' : a ∈ ok := (List.perm_insertionSort _ _).mem_iff.mp ha
    have hb' : b ∈ ok := (List.perm_insertionSort _ _).mem_iff.mp hb
    rw [← hmem a ha' p hp, ← hmem b hb' q hq]
    exact hab

/-- `argmin` returns the index of a smallest element. -/
theorem argmin_go_spec (all : List K) : ∀ (l : List K) (i : Nat) (m : K) (best : Nat), all.drop i = l → all[best]? = some m →
    (∀ (j : Nat) x, j < i → all[j]? = some x → m ≤ x) →
    ∃ y, all[argmin.go l i m best]? = some y ∧ ∀ (j : Nat) x, all[j]? = some x → y ≤ x := by
  intro l
  induction l with
  | nil =>
    intro i m best hd hb hm
    refine ⟨m, hb, ?_⟩
    intro j x hx
    refine hm j x ?_ hx
    rw [List.drop_eq_nil_iff] at hd
    have := (List.getElem?_eq_some_iff.mp hx).1
    omega
  | cons b l ih =>
    intro i m best hd hb hm
    have hi : all[i]? = some b := by
      have : (all.drop i)[0]? = some b := by rw [hd]; rfl
      rw [List.getElem?_drop] at this
      simpa using this
    have hd' : all.drop (i + 1) = l := by
      rw [← List.drop_drop, hd]; rfl
    unfold argmin.go
    split
    · rename_i hlt
      refine ih (i + 1) b i hd' hi ?_
      intro j x hj hx
      by_cases hji : j = i
      · subst hji; rw [hi] at hx; cases hx; exact le_rfl
      · exact hlt.le.trans (hm j x (by omega) hx)
    · rename_i hlt
      refine ih (i + 1) m best hd' hb ?_
      intro j x hj hx
      by_cases hji : j = i
      · subst hji; rw [hi] at hx; cases hx; exact not_lt.mp hlt
      · exact hm j x (by omega) hx

theorem argmin_spec {l : List K} (h : l ≠ []) : ∃ i y, argmin l = some i ∧ l[i]? = some y ∧ ∀ x ∈ l, y ≤ x := by
  cases l with
  | nil => exact absurd rfl h
  | cons a l =>
    obtain ⟨y, h1, h2⟩ := argmin_go_spec (a :: l) l 1 a 0 rfl rfl (by
      intro j x hj hx
      have : j = 0 := by omega
      subst this
      cases hx; exact le_rfl)
    refine ⟨_, y, rfl, h1, ?_⟩
    intro x hx
    obtain ⟨j, hj⟩ := List.mem_iff_getElem?.mp hx
    exact h2 j x hj

theorem mapM_some {α β : Type} {f : α → Option β} : ∀ {l : List α} {r : List β}, l.mapM f = some r →
    r.length = l.length ∧ ∀ (i : Nat) a b, l[i]? = some a → r[i]? = some b → f a = some b := by
  intro l
  induction l with
  | nil =>
    intro r h
    simp at h
    subst h
    simp
  | cons a l ih =>
    intro r h
    rw [List.mapM_cons] at h
    simp only [bind, Option.bind_eq_some_iff, pure, Option.some.injEq] at h
    obtain ⟨b, h1, bs, h2, h3⟩ := h
    subst h3
    obtain ⟨h4, h5⟩ := ih h2
    refine ⟨by simp [h4], ?_⟩
    intro i x y hx hy
    cases i with
    | zero => simp at hx hy; subst hx; subst hy; exact h1
    | succ i => exact h5 i x y (by simpa using hx) (by simpa using hy)

theorem mapM_isSome {α β : Type} {f : α → Option β} : ∀ {l : List α}, (∀ x ∈ l, (f x).isSome) → (l.mapM f).isSome := by
  intro l
  induction l with
  | nil => intro _; rfl
  | cons x l ih =>
    intro h
    obtain ⟨y, hy⟩ := Option.isSome_iff_exists.mp (h x (by simp))
    obtain ⟨ys, hys⟩ := Option.isSome_iff_exists.mp (ih fun z hz => h z (by simp [hz]))
    rw [List.mapM_cons, hy, hys]
    rfl

/-- The cell at the first border vertex: a site with the smallest computed distance. -/
def IsClosest (pts : Nat → K × K) (n : Nat) (pos : K × K) (i : Nat) : Prop :=
  i < n ∧ ∀ j < n, ∃ a b, distance pos (pts i) = some a ∧ distance pos (pts j) = some b ∧ a ≤ b

theorem wp_closestPoint {n : Nat} (hn : 0 < n) {pos : K × K} {s : St K} (hE : E .arith ∨ ∀ a b : K × K, (distance a b).isSome) :
    Wp E (closestPoint pts n pos) s (fun i s' => s' = s ∧ IsClosest pts n pos i) := by
  simp only [closestPoint, wp_bind, wp_liftA]
  refine ⟨?_, or_of_none (hE.imp_right fun h => mapM_isSome fun i _ => h _ _)⟩
  intro ds hds
  obtain ⟨h1, h2⟩ := mapM_some hds
  rw [List.length_range] at h1
  obtain ⟨i, y, h3, h4, h5⟩ := argmin_spec (l := ds) (by intro hh; rw [hh] at h1; simp at h1; omega)
  rw [h3]
  simp only [wp_pure, true_and]
  have hi : i < n := by rw [← h1]; exact (List.getElem?_eq_some_iff.mp h4).1
  refine ⟨hi, ?_⟩
  intro j hj
  obtain ⟨z, hz⟩ : ∃ z, ds[j]? = some z := ⟨ds[j]'(by omega), List.getElem?_eq_getElem (by omega)⟩
  exact ⟨y, z, h2 i i y (by simp [hi]) h4, h2 j j z (by simp [hj]) hz, h5 z (List.mem_iff_getElem?.mpr ⟨j, hz⟩)⟩

/-- The vertices of the sweep that lie inside. -/
def keepInside (poly : Poly K) (vs : Nat → VR K) (l : List Nat) : List Nat :=
  l.filter fun v => match (vs v).pos with
    | some p => inside poly.points p == some true
    | none => false

theorem wp_insideVerts (hE : E .arith ∨ ∀ z, (inside poly.points z).isSome) (s : St K) : ∀ l : List Nat, (∀ v ∈ l, (s.d.vs v).pos.isSome) →
    Wp E (insideVerts poly l) s (fun r s' => s' = s ∧ r = keepInside poly s.d.vs l) := by
  intro l
  induction l with
  | nil => intro _; simp [insideVerts, keepInside]
  | cons v l ih =>
    intro h
    obtain ⟨p, hp⟩ := Option.isSome_iff_exists.mp (h v (List.mem_cons_self ..))
    simp only [insideVerts, wp_bind, wp_zD, wp_rdV, wp_deref, wp_liftA, wp_pure]
    left
    refine ⟨p, hp, ?_, or_of_none (hE.imp_right fun h => h _)⟩
    intro b hb
    refine wp_mono (ih fun w hw => h w (List.mem_cons_of_mem _ hw)) ?_
    rintro r s' ⟨rfl, rfl⟩
    refine ⟨rfl, ?_⟩
    unfold keepInside
    rw [List.filter_cons]
    simp only [hp, hb]
    cases b <;> simp

/-- Conditions under which `finish_polygon` runs. -/
structure PolyPre (s : St K) : Prop where
  nd : s.polyVerts.Nodup
  tw : ∀ e < s.d.heCnt, ∃ t < s.d.heCnt, t ≠ e ∧ (s.d.he e).twin = some t ∧ (s.d.he t).twin = some e
  head : ∀ v ∈ s.polyVerts, (s.d.vs v).pos.isSome → ∀ c, hd s.d v = some c → c < s.d.heCnt ∧ (s.d.he c).origin = .vtx v
  some : ∃ v ∈ s.polyVerts, (s.d.vs v).pos.isSome
  verts : ∀ v ∈ s.verts, (s.d.vs v).pos.isSome

/-- Vertices with equal keys stay in the order in which they are listed. -/
theorem ordered_stable {K : Type} [LinearOrder K] [Arith K] (poly : Poly K) (vs : Nat → VR K) {L : List Nat} {a b : Nat} {p r : K × K} (h : [a, b] <+ L)
    (ha : (vs a).pos = some p) (hb : (vs b).pos = some r) (hk : orderKey poly.center p ≤ orderKey poly.center r) : [a, b] <+ orderedVertices poly vs L := by
  unfold orderedVertices
  simp only
  have h1 : [(orderKey poly.center p, a), (orderKey poly.center r, b)] <+ L.filterMap fun v => (vs v).pos.map fun p => (orderKey poly.center p, v) := by
    have := h.filterMap fun v => (vs v).pos.map fun p => (orderKey poly.center p, v)
    simpa [ha, hb] using this
  have h2 := List.pair_sublist_insertionSort (r := fun p q : K × Nat => p.1 ≤ q.1) hk h1
  simpa using h2.map (·.2)

/-- The result of `finish_polygon`. -/
structure FP (pts : Nat → K × K) (n : Nat) (poly : Poly K) (s s' : St K) (vs : List Nat) (V : Nat → Nat) (cell : Nat) : Prop where
  perm : vs ~ s.polyVerts.filter (fun v => (s.d.vs v).pos.isSome)
  ne : vs ≠ []
  V_eq : ∀ i < vs.length, vs[i]? = some (V i)
  V_end : V vs.length = V 0
  pre : BPre s.d V vs.length
  sorted : vs.Pairwise (fun a b => ∀ p q, (s.d.vs a).pos = some p → (s.d.vs b).pos = some q →
      orderKey poly.center p ≤ orderKey poly.center q)
  close : ∀ p, (s.d.vs (V 0)).pos = some p → IsClosest pts n p cell
  binv : BInv s.d V vs.length (some cell) vs.length s'.d
  eq : s' = { s with d := s'.d, edges := s.edges ++ (List.range vs.length).map (fun j => s.d.heCnt + 2 * j + 1), verts := vs ++ keepInside poly s.d.vs s.verts }
  ord : vs = orderedVertices poly s.d.vs s.polyVerts

theorem wp_finishPolygon {n : Nat} (hn : 0 < n) (hE : E .arith ∨ GeoTot poly) {s : St K} (h : PolyPre s) :
    Wp E (finishPolygon pts n poly) s (fun _ s' => ∃ vs V cell, FP pts n poly s s' vs V cell) := by
  simp only [finishPolygon, wp_bind, wp_get]
  obtain ⟨hperm, hsort⟩ := orderedVertices_spec poly s.d.vs s.polyVerts
  obtain ⟨vs, hvs⟩ : ∃ vs, vs = orderedVertices poly s.d.vs s.polyVerts := ⟨_, rfl⟩
  rw [← hvs] at hperm hsort ⊢
  have hmem : ∀ v ∈ vs, v ∈ s.polyVerts ∧ (s.d.vs v).pos.isSome := by
    intro v hv
    have := hperm.mem_iff.mp hv
    rw [List.mem_filter] at this
    exact this
  have hnd : vs.Nodup := hperm.nodup_iff.mpr (h.nd.filter _)
  have hne : vs ≠ [] := by
    intro hh
    obtain ⟨v, h1, h2⟩ := h.some
    have : v ∈ vs := hperm.mem_iff.mpr (List.mem_filter.mpr ⟨h1, h2⟩)
    rw [hh] at this; cases this
  obtain ⟨V, hV⟩ : ∃ V : Nat → Nat, V = fun i => (vs ++ vs.take 1).getD i 0 := ⟨_, rfl⟩
  obtain ⟨m, hm⟩ : ∃ m, m = vs.length := ⟨_, rfl⟩
  have hmpos : 0 < m := by rw [hm]; exact List.length_pos_iff.mpr hne
  have hVlt : ∀ i < m, vs[i]? = some (V i) := by
    intro i hi
    rw [hm] at hi
    rw [hV]
    simp only [List.getD_eq_getElem?_getD]
    rw [List.getElem?_append_left hi, List.getElem?_eq_getElem hi]
    rfl
  have hVm : V m = V 0 := by
    rw [hV, hm]
    cases vs with
    | nil => exact absurd rfl hne
    | cons a l => simp
  have hVmem : ∀ i < m, V i ∈ vs := fun i hi => List.mem_iff_getElem?.mpr ⟨i, hVlt i hi⟩
  have hinj : ∀ i < m, ∀ j < m, V i = V j → i = j := by
    intro i hi j hj hij
    have h1 := hVlt i hi
    have h2 := hVlt j hj
    rw [hij, ← h2] at h1
    exact (List.getElem?_inj (by omega) hnd).mp h1
  have hpre : BPre s.d V m := by
    refine ⟨hmpos, hVm, hinj, ?_, ?_, ?_⟩
    · intro j hj c hc
      obtain ⟨a1, a2⟩ := hmem _ (hVmem j hj)
      obtain ⟨b1, b2⟩ := h.head _ a1 a2 c hc
      obtain ⟨t, t1, _, t2, _⟩ := h.tw c b1
      exact ⟨b1, t, t1, t2⟩
    · intro i hi j hj c hc hc'
      obtain ⟨a1, a2⟩ := hmem _ (hVmem i hi)
      obtain ⟨a3, a4⟩ := hmem _ (hVmem j hj)
      have b1 := (h.head _ a1 a2 c hc).2
      have b2 := (h.head _ a3 a4 c hc').2
      rw [b1, Org.vtx.injEq] at b2
      exact hinj i hi j hj b2
    · intro i hi j hj c c' t hc hc' ht ht'
      obtain ⟨a1, a2⟩ := hmem _ (hVmem i hi)
      obtain ⟨a3, a4⟩ := hmem _ (hVmem j hj)
      have b1 := h.head _ a1 a2 c hc
      have b2 := h.head _ a3 a4 c' hc'
      obtain ⟨t1, _, _, e1, e2⟩ := h.tw c b1.1
      obtain ⟨t2, _, _, e3, e4⟩ := h.tw c' b2.1
      rw [ht] at e1; cases e1
      rw [ht'] at e3; cases e3
      rw [e2] at e4; cases e4
      have b3 := b1.2
      rw [b2.2, Org.vtx.injEq] at b3
      exact hinj i hi j hj b3.symm
  have hv0 : ∃ l, vs = V 0 :: l := by
    have := hVlt 0 hmpos
    cases hh : vs with
    | nil => exact absurd hh hne
    | cons a l => rw [hh] at this; simp at this; exact ⟨l, by rw [this]⟩
  obtain ⟨l, hl⟩ := hv0
  have hlist : vs ++ [V 0] = (List.range' 0 (m + 1)).map V := by
    refine List.ext_getElem? ?_
    intro i
    rw [List.getElem?_map]
    by_cases hi : i < m
    · rw [List.getElem?_append_left (by omega), hVlt i hi, List.getElem?_range' (by omega)]
      simp
    · by_cases hi2 : i = m
      · subst hi2
        rw [hm, List.getElem?_append_right le_rfl, List.getElem?_range' (by omega)]
        simp [← hm, hVm]
      · rw [List.getElem?_eq_none (by simp; omega), List.getElem?_eq_none (by simp; omega)]; rfl
  split
  · exact absurd rfl hne
  rename_i v0 l'
  have hv00 : v0 = V 0 := (List.cons.inj hl).1
  clear hl
  obtain ⟨vs, hvv⟩ : ∃ vs, vs = v0 :: l' := ⟨_, rfl⟩
  rw [← hvv] at hsort hperm hvs hmem hnd hne hm hVlt hVmem hlist hV ⊢
  clear hvv
  subst hv00
  obtain ⟨p0, hp0⟩ := Option.isSome_iff_exists.mp (hmem _ (hVmem 0 hmpos)).2
  simp only [wp_bind, wp_zD, wp_rdV, wp_deref]
  left
  refine ⟨p0, hp0, ?_⟩
  refine wp_mono (wp_closestPoint hn (hE.imp_right GeoTot.dist)) ?_
  rintro cell _ ⟨rfl, hcl⟩
  rw [hlist]
  refine wp_mono (wp_borderLoop hpre s.edges m 0 s (some cell) (by omega) (fun _ => rfl) BInv.init (by simp)) ?_
  rintro _ s2 ⟨hb, he⟩
  rw [wp_get]
  have hpos2 : ∀ v, (s2.d.vs v).pos = (s.d.vs v).pos := hb.pos
  have hv2 : s2.verts = s.verts := by rw [he]
  refine wp_mono (wp_insideVerts (hE.imp_right GeoTot.ins) s2 s2.verts ?_) ?_
  · intro v hv; rw [hpos2]; rw [hv2] at hv; exact h.verts v hv
  · rintro ex s3 ⟨h3, rfl⟩
    subst h3
    rw [wp_modify]
    refine ⟨vs, V, cell, hperm, hne, by rw [← hm]; exact hVlt, by rw [← hm]; exact hVm, by rw [← hm]; exact hpre, hsort, ?_,
      by rw [← hm]; exact hb, ?_, hvs⟩
    · intro p hp; rw [hp0] at hp; cases hp; exact hcl
    · have : keepInside poly s3.d.vs s3.verts = keepInside poly s.d.vs s.verts := by
        unfold keepInside
        rw [hv2]
        congr 1
        funext v
        rw [hpos2]
      rw [this, he, hm]

end Foronoi
