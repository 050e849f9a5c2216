import Verif.Proof.ClipLoop

/-!
# `clean_up_zero_length_edges`
-/

namespace Foronoi

open scoped List

variable {K : Type} [LinearOrder K] [Arith K] {E : Err → Prop} {pts : Nat → K × K} {poly : Poly K}

/-- The half-edges registered at `v` start there. -/
def OCoh (d : Dcel K) (v : Nat) : Prop := (d.vs v).conn.Nodup ∧ ∀ c ∈ (d.vs v).conn, (d.he c).origin = .vtx v

/-- The half-edge `f` is registered at its origin. -/
def Reg (d : Dcel K) (f : Nat) : Prop := ∀ v, (d.he f).origin = .vtx v → f ∈ (d.vs v).conn

/-- `f` starts at a vertex with a position and consistent register. -/
def Alive (d : Dcel K) (f : Nat) : Prop := ∃ v p, (d.he f).origin = .vtx v ∧ (d.vs v).pos = some p ∧ f ∈ (d.vs v).conn ∧ OCoh d v

/-- Only origins and registers changed. -/
structure Same (d d' : Dcel K) : Prop where
  heCnt : d'.heCnt = d.heCnt
  vCnt : d'.vCnt = d.vCnt
  twin : ∀ f, (d'.he f).twin = (d.he f).twin
  inc : ∀ f, (d'.he f).incident = (d.he f).incident
  pos : ∀ v, (d'.vs v).pos = (d.vs v).pos

theorem Same.refl (d : Dcel K) : Same d d := ⟨rfl, rfl, fun _ => rfl, fun _ => rfl, fun _ => rfl⟩

theorem Same.trans {d d' d'' : Dcel K} (h : Same d d') (h' : Same d' d'') : Same d d'' :=
  ⟨h'.heCnt.trans h.heCnt, h'.vCnt.trans h.vCnt, fun f => (h'.twin f).trans (h.twin f), fun f => (h'.inc f).trans (h.inc f),
    fun f => (h'.pos f).trans (h.pos f)⟩

/-- Half-edges moved from `v1` to `v2`. -/
structure Moved (v1 v2 : Nat) (d d' : Dcel K) : Prop where
  same : Same d d'
  org : ∀ f, (d'.he f).origin = (d.he f).origin ∨ ((d'.he f).origin = .vtx v2 ∧ f ∈ (d.vs v1).conn)
  coh : OCoh d v1 → ∀ w, OCoh d w → OCoh d' w
  reg : ∀ f, Reg d f → Reg d' f
  nx : ∀ f, (d'.he f).next = (d.he f).next
  pv : ∀ f, (d'.he f).prev = (d.he f).prev
  fe : d'.fe = d.fe
  cm : ∀ w f, f ∈ (d'.vs w).conn → f ∈ (d.vs w).conn ∨ (w = v2 ∧ f ∈ (d.vs v1).conn)
  cn : ∀ w, w ≠ v1 → w ≠ v2 → (d'.vs w).conn = (d.vs w).conn

/-- Moving one half-edge. -/
def moveD (d : Dcel K) (v1 v2 c : Nat) : Dcel K :=
  let vs1 := Function.update d.vs v1 { d.vs v1 with conn := (d.vs v1).conn.erase c }
  { d with
    he := Function.update d.he c { d.he c with origin := .vtx v2 }
    vs := Function.update vs1 v2 { vs1 v2 with conn := (vs1 v2).conn ++ [c] } }

theorem moveD_conn (d : Dcel K) (v1 v2 c v : Nat) : ((moveD d v1 v2 c).vs v).conn =
    (if v = v1 then (d.vs v).conn.erase c else (d.vs v).conn) ++ (if v = v2 then [c] else []) := by
  unfold moveD
  by_cases h2 : v = v2
  · subst h2
    by_cases h1 : v = v1
    · subst h1; simp
    · simp [Function.update_of_ne h1, h1]
  · by_cases h1 : v = v1
    · subst h1; simp [Function.update_of_ne h2, h2]
    · simp [Function.update_of_ne h2, Function.update_of_ne h1, h1, h2]

theorem moveD_pos (d : Dcel K) (v1 v2 c v : Nat) : ((moveD d v1 v2 c).vs v).pos = (d.vs v).pos := by
  unfold moveD
  by_cases h2 : v = v2
  · subst h2
    by_cases h1 : v = v1
    · subst h1; simp
    · simp [Function.update_of_ne h1]
  · by_cases h1 : v = v1
    · subst h1; simp [Function.update_of_ne h2]
    · simp [Function.update_of_ne h2, Function.update_of_ne h1]

theorem moveD_org (d : Dcel K) (v1 v2 c f : Nat) : ((moveD d v1 v2 c).he f).origin = if f = c then .vtx v2 else (d.he f).origin := by
  unfold moveD
  by_cases h : f = c
  · subst h; simp
  · simp [Function.update_of_ne h, h]

theorem moveD_moved {d : Dcel K} {v1 v2 c : Nat} (hc : c ∈ (d.vs v1).conn) : Moved v1 v2 d (moveD d v1 v2 c) := by
  refine ⟨⟨rfl, rfl, ?_, ?_, moveD_pos d v1 v2 c⟩, ?_, ?_, ?_, ?_, ?_, rfl, ?_, ?_⟩
  · intro f
    by_cases h : f = c
    · subst h; simp [moveD]
    · simp [moveD, Function.update_of_ne h]
  · intro f
    by_cases h : f = c
    · subst h; simp [moveD]
    · simp [moveD, Function.update_of_ne h]
  · intro f
    rw [moveD_org]
    by_cases h : f = c
    · subst h; right; exact ⟨if_pos rfl, hc⟩
    · left; rw [if_neg h]
  · intro h1 w hw
    constructor
    · rw [moveD_conn]
      refine List.nodup_append.mpr ⟨?_, by split <;> simp, ?_⟩
      · split
        · exact hw.1.erase c
        · exact hw.1
      · rintro a ha b hb rfl
        split at hb
        · rename_i hwv
          rw [List.mem_singleton] at hb
          subst hb
          split at ha
          · exact (List.Nodup.mem_erase_iff hw.1).mp ha |>.1 rfl
          · rename_i hwv1
            have h2 := hw.2 a ha
            rw [h1.2 a hc, Org.vtx.injEq] at h2
            exact hwv1 h2.symm
        · cases hb
    intro x hx
    rw [moveD_conn, List.mem_append] at hx
    rw [moveD_org]
    rcases hx with hx | hx
    · have hx' : x ∈ (d.vs w).conn := by
        split at hx
        · exact List.mem_of_mem_erase hx
        · exact hx
      have hxw := hw.2 x hx'
      by_cases h : x = c
      · subst h
        have := h1.2 x hc
        rw [hxw, Org.vtx.injEq] at this
        subst this
        rw [if_pos rfl] at hx
        exact absurd rfl ((List.Nodup.mem_erase_iff hw.1).mp hx).1
      · rw [if_neg h]; exact hxw
    · split at hx
      · rename_i hwv
        rw [List.mem_singleton] at hx
        rw [if_pos hx, hwv]
      · cases hx
  · intro f hf w hw
    rw [moveD_org] at hw
    rw [moveD_conn, List.mem_append]
    by_cases h : f = c
    · rw [if_pos h, Org.vtx.injEq] at hw
      right; rw [if_pos hw.symm, h]; simp
    · rw [if_neg h] at hw
      left
      have := hf w hw
      split
      · exact (List.mem_erase_of_ne h).mpr this
      · exact this
  · intro f
    by_cases h : f = c
    · subst h; simp [moveD]
    · simp [moveD, Function.update_of_ne h]
  · intro f
    by_cases h : f = c
    · subst h; simp [moveD]
    · simp [moveD, Function.update_of_ne h]
  · intro w f hf
    rw [moveD_conn, List.mem_append] at hf
    rcases hf with hf | hf
    · left
      split at hf
      · exact List.mem_of_mem_erase hf
      · exact hf
    · split at hf
      · rename_i hw
        rw [List.mem_singleton] at hf
        rw [hf]
        exact Or.inr ⟨hw, hc⟩
      · cases hf
  · intro w h1 h2
    rw [moveD_conn, if_neg h1, if_neg h2, List.append_nil]

theorem Moved.refl (v1 v2 : Nat) (d : Dcel K) : Moved v1 v2 d d :=
  ⟨Same.refl d, fun _ => Or.inl rfl, fun _ _ h => h, fun _ h => h, fun _ => rfl, fun _ => rfl, rfl, fun _ _ h => Or.inl h, fun _ _ _ => rfl⟩

theorem moveD_conn_sub {d : Dcel K} {v1 v2 c f : Nat} (hc : c ∈ (d.vs v1).conn) (hf : f ∈ ((moveD d v1 v2 c).vs v1).conn) : f ∈ (d.vs v1).conn := by
  rw [moveD_conn, if_pos rfl, List.mem_append] at hf
  rcases hf with hf | hf
  · exact List.mem_of_mem_erase hf
  · split at hf
    · rw [List.mem_singleton] at hf; rw [hf]; exact hc
    · cases hf

theorem Moved.head {v1 v2 c : Nat} {d d' : Dcel K} (hc : c ∈ (d.vs v1).conn) (h : Moved v1 v2 (moveD d v1 v2 c) d') : Moved v1 v2 d d' := by
  have h0 := moveD_moved (v2 := v2) hc
  refine ⟨h0.same.trans h.same, ?_, fun h1 w hw => h.coh (h0.coh h1 v1 h1) w (h0.coh h1 w hw), fun f hf => h.reg f (h0.reg f hf),
    fun f => (h.nx f).trans (h0.nx f), fun f => (h.pv f).trans (h0.pv f), h.fe.trans h0.fe, ?_, fun w h1 h2 => (h.cn w h1 h2).trans (h0.cn w h1 h2)⟩
  · intro f
    rcases h.org f with h2 | ⟨h2, h3⟩
    · rw [h2]; exact h0.org f
    · exact Or.inr ⟨h2, moveD_conn_sub hc h3⟩
  · intro w f hf
    rcases h.cm w f hf with h2 | ⟨h2, h3⟩
    · exact h0.cm w f h2
    · exact Or.inr ⟨h2, moveD_conn_sub hc h3⟩

/-- What becomes of single entries of the register while they are moved: the one at the position of the loop is moved, the one after it and those before stay. -/
structure Entries (v1 v2 i : Nat) (d d' : Dcel K) : Prop where
  moved : ∀ c, (d.vs v1).conn[i]? = some c → (d'.he c).origin = .vtx v2
  stay : v1 ≠ v2 → (d.vs v1).conn.Nodup → ∀ k b, k < i ∨ k = i + 1 → (d.vs v1).conn[k]? = some b → (d'.he b).origin = (d.he b).origin

theorem wp_moveConn (v1 v2 : Nat) : ∀ (fuel i : Nat) (d : Dcel K), 0 < fuel → (d.vs v1).conn.length < fuel + i →
    Wp E (moveConn v1 v2 fuel i) d (fun _ d' => Moved v1 v2 d d' ∧ Entries v1 v2 i d d') := by
  intro fuel
  induction fuel with
  | zero =>
    intro i d h0 hf
    omega
  | succ fuel ih =>
    intro i d _ hf
    simp only [moveConn, wp_bind, wp_rdV]
    cases hc : (d.vs v1).conn[i]? with
    | none => exact ⟨Moved.refl _ _ _, fun c h => by rw [hc] at h; (cases h), fun _ _ _ _ _ _ => rfl⟩
    | some c =>
      have hcm : c ∈ (d.vs v1).conn := List.mem_iff_getElem?.mpr ⟨i, hc⟩
      have hil := (List.getElem?_eq_some_iff.mp hc).1
      simp only [removeConn, wp_bind, wp_updE, wp_rdV, if_pos hcm, wp_updV, wp_appendConn]
      refine wp_mono (ih (i + 1) (moveD d v1 v2 c) (by omega) ?_) ?_
      · rw [moveD_conn, if_pos rfl, List.length_append, List.length_erase_of_mem hcm]
        split <;> simp <;> omega
      · rintro _ d' ⟨h, hE⟩
        refine ⟨Moved.head hcm h, ?_, ?_⟩
        · intro c' hc'
          rw [hc, Option.some.injEq] at hc'
          subst hc'
          rcases h.org c with h1 | ⟨h1, _⟩
          · rw [h1, moveD_org, if_pos rfl]
          · exact h1
        · intro hv hnd k b hk hb
          have hbc : b ≠ c := by
            rintro rfl
            have := (List.getElem?_inj hil hnd).mp (hc.trans hb.symm)
            omega
          have hidx : (d.vs v1).conn.erase c = (d.vs v1).conn.eraseIdx i := by
            refine List.erase_eq_eraseIdx_of_idxOf ?_
            rw [← (List.getElem?_eq_some_iff.mp hc).2]
            exact hnd.idxOf_getElem i hil
          have hcn : ((moveD d v1 v2 c).vs v1).conn = (d.vs v1).conn.eraseIdx i := by
            rw [moveD_conn, if_pos rfl, if_neg hv, List.append_nil, hidx]
          have hnd' : ((moveD d v1 v2 c).vs v1).conn.Nodup := by
            rw [hcn, ← hidx]; exact hnd.erase c
          have horg : ((moveD d v1 v2 c).he b).origin = (d.he b).origin := by rw [moveD_org, if_neg hbc]
          rw [← horg]
          rcases hk with hk | hk
          · refine hE.stay hv hnd' k b (Or.inl (by omega)) ?_
            rw [hcn, List.getElem?_eraseIdx_of_lt (by omega)]; exact hb
          · refine hE.stay hv hnd' i b (Or.inl (by omega)) ?_
            rw [hcn, List.getElem?_eraseIdx_of_ge (by omega), ← hk]; exact hb

theorem Moved.opos {v1 v2 : Nat} {d d' : Dcel K} (h : Moved v1 v2 d d') (h1 : OCoh d v1) (hp : (d.vs v1).pos = (d.vs v2).pos) (f : Nat) :
    opos d' f = opos d f := by
  rcases h.org f with h2 | ⟨h2, h3⟩
  · unfold Foronoi.opos
    rw [h2]
    cases (d.he f).origin with
    | bp b => rfl
    | vtx v => exact h.same.pos v
  · rw [opos_vtx h2, opos_vtx (h1.2 f h3), h.same.pos, hp]

theorem Moved.alive {v1 v2 : Nat} {d d' : Dcel K} (h : Moved v1 v2 d d') (h1 : OCoh d v1) (h2 : OCoh d v2)
    (hp : (d.vs v1).pos = (d.vs v2).pos) {f : Nat} (hf : Alive d f) : Alive d' f := by
  obtain ⟨v, p, e1, e2, e3, e4⟩ := hf
  have hreg := h.reg f (fun w hw => by rw [e1, Org.vtx.injEq] at hw; subst hw; exact e3)
  rcases h.org f with h3 | ⟨h3, h4⟩
  · rw [e1] at h3
    exact ⟨v, p, h3, by rw [h.same.pos]; exact e2, hreg v h3, h.coh h1 v e4⟩
  · refine ⟨v2, p, h3, ?_, hreg v2 h3, h.coh h1 v2 h2⟩
    have := h1.2 f h4
    rw [e1, Org.vtx.injEq] at this
    subst this
    rw [h.same.pos, ← hp]; exact e2

theorem same_del (d : Dcel K) (e : Nat) : Same d (delD d e) :=
  ⟨rfl, rfl, delD_twin d e, delD_inc d e, delD_pos d e⟩

theorem opos_del (d : Dcel K) (e f : Nat) : opos (delD d e) f = opos d f := by
  unfold opos
  rw [delD_org]
  cases (d.he f).origin with
  | bp b => rfl
  | vtx v => exact delD_pos d e v

theorem OCoh.del {d : Dcel K} {v : Nat} (h : OCoh d v) (e : Nat) : OCoh (delD d e) v := by
  constructor
  · rw [delD_conn]; split
    · exact h.1.erase e
    · exact h.1
  · intro c hc
    rw [delD_org]
    rw [delD_conn] at hc
    split at hc
    · exact h.2 c (List.mem_of_mem_erase hc)
    · exact h.2 c hc

theorem del_conn_sub {d : Dcel K} {e v f : Nat} (h : f ∈ ((delD d e).vs v).conn) : f ∈ (d.vs v).conn := by
  rw [delD_conn] at h
  split at h
  · exact List.mem_of_mem_erase h
  · exact h

/-- A deleted half-edge is not registered. -/
theorem OCoh.del_not_mem {d : Dcel K} {v e : Nat} (h : OCoh d v) : e ∉ ((delD d e).vs v).conn := by
  intro hh
  rw [delD_conn] at hh
  split at hh
  · exact ((List.Nodup.mem_erase_iff h.1).mp hh).1 rfl
  · rename_i hne
    exact hne (h.2 e hh)

theorem Alive.del {d : Dcel K} {f : Nat} (h : Alive d f) {e : Nat} (hne : f ≠ e) : Alive (delD d e) f := by
  obtain ⟨v, p, e1, e2, e3, e4⟩ := h
  refine ⟨v, p, by rw [delD_org]; exact e1, by rw [delD_pos]; exact e2, ?_, e4.del e⟩
  rw [delD_conn]
  split
  · exact (List.mem_erase_of_ne hne).mpr e3
  · exact e3

/-- The edge starts and ends in the same place. -/
def Flat (d : Dcel K) (e : Nat) : Prop := ∀ t, (d.he e).twin = some t → Foronoi.opos d e = Foronoi.opos d t

/-- The edges of length zero among `es` start at different vertices. -/
def FlatDist (d : Dcel K) (es : List Nat) : Prop :=
  ∀ e ∈ es, ∀ f ∈ es, Flat d e → Flat d f → (d.he e).origin = (d.he f).origin → e = f

/-- No edge of length zero among `es` ends at `v`. -/
def NoFlatEnd (d : Dcel K) (es : List Nat) (v : Nat) : Prop := ∀ g ∈ es, Flat d g → ∀ t, (d.he g).twin = some t → (d.he t).origin ≠ .vtx v

/-- The result of the clean-up of the edges `es`. -/
structure CU (es : List Nat) (s : St K) (r : List Nat) (s' : St K) : Prop where
  eq : s' = { s with d := s'.d, verts := s'.verts }
  same : Same s.d s'.d
  opos : ∀ f, opos s'.d f = opos s.d f
  sub : r <+ es
  verts : s'.verts <+ s.verts
  alive : ∀ e ∈ r, Alive s'.d e ∧ ∀ t, (s.d.he e).twin = some t → Alive s'.d t
  other : ∀ f, Alive s.d f → ¬ EdgesOf s.d es f → Alive s'.d f
  id : r = es → s' = s
  kept : ∀ e ∈ es, e ∈ r ↔ ∀ t, (s.d.he e).twin = some t → Foronoi.opos s.d e ≠ Foronoi.opos s.d t
  links : ∀ d0 X P, Lnk d0 X s.d → ClosedCells d0 P → (∀ f, (s.d.he f).incident = (d0.he f).incident) →
    (∀ f, EdgesOf s.d es f → ¬ EdgesOf s.d r f → ¬ X f) →
    Lnk d0 (fun f => X f ∨ EdgesOf s.d es f ∧ ¬ EdgesOf s.d r f) s'.d
  left : FlatDist s.d es → s.verts.Nodup → ∀ v, v ∈ s'.verts ↔ v ∈ s.verts ∧ ∀ e ∈ es, Flat s.d e → (s.d.he e).origin ≠ .vtx v
  reg : ∀ W : Nat → Prop, (∀ w, W w → OCoh s.d w) → (∀ f, EdgesOf s.d es f → ∀ v, (s.d.he f).origin = .vtx v → W v) →
    (∀ w, W w → OCoh s'.d w) ∧ (∀ f, (∀ v, (s.d.he f).origin = .vtx v → W v) → ∀ v, (s'.d.he f).origin = .vtx v → W v) ∧
    ∀ f, (EdgesOf s.d es f ∧ ¬ EdgesOf s.d r f) ∨ (∀ w, W w → f ∉ (s.d.vs w).conn) → ∀ w, W w → f ∉ (s'.d.vs w).conn
  stay : FlatDist s.d es → ∀ f v, (s.d.he f).origin = .vtx v → (∀ e ∈ es, Flat s.d e → (s.d.he e).origin ≠ .vtx v) → (s'.d.he f).origin = .vtx v
  lost : FlatDist s.d es → ∀ e ∈ es, Flat s.d e → ∀ v a b, (s.d.he e).origin = .vtx v → (s.d.vs v).conn = [a, b, e] → NoFlatEnd s.d es v →
    (s'.d.he b).origin = .vtx v
  clear : FlatDist s.d es → ∀ e ∈ es, Flat s.d e → ∀ v a, (s.d.he e).origin = .vtx v → (s.d.vs v).conn = [a, e] → NoFlatEnd s.d es v →
    ∀ f, Alive s.d f → (EdgesOf s.d es f → EdgesOf s.d r f) → (s'.d.he f).origin ≠ .vtx v

theorem getOrigin_alive {s : St K} {e v : Nat} {p : K × K} (h : (s.d.he e).origin = .vtx v) (hp : (s.d.vs v).pos = some p)
    {β : Type} {k : Option (K × Ext K) → AM K β} {Q : β → St K → Prop} (hk : Wp E (k (some (p.1, .fin p.2))) s Q) :
    Wp E (do let o ← getOriginSt pts e none none; k o) s Q := by
  obtain ⟨o, ho, _, h1⟩ := getOrigin_none (pts := pts) s.bps s.d e
  have := h1 v h
  rw [hp] at this
  simp only [Option.map_some] at this
  subst this
  simp only [getOriginSt, wp_bind, wp_get, wp_liftA, ho]
  refine ⟨?_, by simp⟩
  intro o' ho'
  cases ho'
  exact hk

theorem wp_removeVertex {v : Nat} {s : St K} {Q : Unit → St K → Prop} (hE : E .value ∨ v ∈ s.verts)
    (h : v ∈ s.verts → Q () { s with verts := s.verts.erase v }) : Wp E (removeVertex v) s Q := by
  unfold removeVertex
  rw [wp_bind, wp_get, wp_ite]
  refine ⟨fun h1 => ?_, fun h1 => hE.resolve_right h1⟩
  exact h h1

/-- The clean-up of the edges `es` does not raise: the edges of length zero start at different vertices of the diagram, and the links
between edges stay inside the cells. -/
structure Safe (es : List Nat) (s : St K) : Prop where
  dist : FlatDist s.d es
  mem : ∀ e ∈ es, Flat s.d e → ∀ v, (s.d.he e).origin = .vtx v → v ∈ s.verts
  lnk : ∃ d0 X P, Lnk d0 X s.d ∧ ClosedCells d0 P ∧ (∀ f, (s.d.he f).incident = (d0.he f).incident) ∧
    ∀ f, EdgesOf s.d es f → Flat s.d f → ¬ X f ∧ P f

/-- The next edge is at the same cell. -/
theorem Lnk.next_inc {d0 d : Dcel K} {P X : Nat → Prop} (h : Lnk d0 X d) (hP : ClosedCells d0 P)
    (hi : ∀ f, (d.he f).incident = (d0.he f).incident) {e : Nat} (he : P e) {f : Nat} (hf : (d.he e).next = some f) :
    (d.he f).incident = (d.he e).incident := by
  rw [hi, hi]
  exact ((h.via e f hf).closed hP he).2

/-- `clean_up_zero_length_edges`: the remaining edges are exactly those with two different end positions. -/
theorem wp_cleanUpLoop : ∀ (es : List Nat) (s : St K), (E .value ∧ E .assertion) ∨ Safe es s → es.Nodup →
    (∀ e ∈ es, ∃ t, (s.d.he e).twin = some t ∧ (s.d.he t).twin = some e ∧ t ≠ e ∧ t ∉ es ∧ Alive s.d e ∧ Alive s.d t) →
    Wp E (cleanUpLoop pts es) s (fun r s' => CU es s r s') := by
  intro es
  induction es with
  | nil =>
    intro s _ _ _
    simp only [cleanUpLoop, wp_pure]
    refine ⟨rfl, Same.refl _, fun _ => rfl, List.Sublist.refl _, List.Sublist.refl _, by simp, fun _ h _ => h, fun _ => rfl, by simp, ?_, ?_, ?_, fun _ _ _ h _ => h, by simp, by simp⟩
    · intro d0 X P hl _ _ _
      simpa [EdgesOf] using hl
    · intro _ _ v
      simp
    · intro W hW _
      refine ⟨hW, fun f hf => hf, ?_⟩
      rintro f (⟨hf, _⟩ | hf)
      · simp [EdgesOf] at hf
      · exact hf
  | cons e es ih =>
    intro s hsafe hnd hes
    obtain ⟨hene, hnd'⟩ := List.nodup_cons.mp hnd
    obtain ⟨t, ht, htt, htne, htes0, ⟨v1, p, a1, a2, a3, a4⟩, ⟨v2, q, b1, b2, b3, b4⟩⟩ := hes e (List.mem_cons_self ..)
    have htes : t ∉ es := fun h => htes0 (List.mem_cons_of_mem _ h)
    have hrest : ∀ f ∈ es, ∃ u, (s.d.he f).twin = some u ∧ (s.d.he u).twin = some f ∧ u ≠ f ∧ u ∉ es ∧ f ≠ e ∧ f ≠ t ∧ u ≠ e ∧ u ≠ t ∧
        Alive s.d f ∧ Alive s.d u := by
      intro f hf
      obtain ⟨u, c1, c2, c3, c4, c5, c6⟩ := hes f (List.mem_cons_of_mem _ hf)
      refine ⟨u, c1, c2, c3, fun h => c4 (List.mem_cons_of_mem _ h), ?_, ?_, ?_, ?_, c5, c6⟩
      · rintro rfl; exact hene hf
      · rintro rfl; exact htes hf
      · rintro rfl; exact c4 (List.mem_cons_self ..)
      · rintro rfl; rw [htt] at c2; cases c2; exact hene hf
    have hxe : ¬ EdgesOf s.d es e := by
      rintro (h | ⟨a, ha, h⟩)
      · exact hene h
      · obtain ⟨u, c1, _, _, _, _, _, c7, _⟩ := hrest a ha
        rw [c1] at h; cases h; exact c7 rfl
    have hxt : ¬ EdgesOf s.d es t := by
      rintro (h | ⟨a, ha, h⟩)
      · exact htes h
      · obtain ⟨u, c1, _, _, _, _, _, _, c8, _⟩ := hrest a ha
        rw [c1] at h; cases h; exact c8 rfl
    have hEO : ∀ f, EdgesOf s.d (e :: es) f ↔ f = e ∨ f = t ∨ EdgesOf s.d es f := by
      intro f
      unfold EdgesOf
      constructor
      · rintro (h | ⟨a, ha, h⟩)
        · rcases List.mem_cons.mp h with h | h
          · exact Or.inl h
          · exact Or.inr (Or.inr (Or.inl h))
        · rcases List.mem_cons.mp ha with ha | ha
          · subst ha; rw [ht] at h; cases h; exact Or.inr (Or.inl rfl)
          · exact Or.inr (Or.inr (Or.inr ⟨a, ha, h⟩))
      · rintro (rfl | rfl | h | ⟨a, ha, h⟩)
        · exact Or.inl (List.mem_cons_self ..)
        · exact Or.inr ⟨e, List.mem_cons_self .., ht⟩
        · exact Or.inl (List.mem_cons_of_mem _ h)
        · exact Or.inr ⟨a, List.mem_cons_of_mem _ ha, h⟩
    have hope : Foronoi.opos s.d e = some p := by rw [opos_vtx a1, a2]
    have hopt : Foronoi.opos s.d t = some q := by rw [opos_vtx b1, b2]
    simp only [cleanUpLoop]
    refine getOrigin_alive a1 a2 ?_
    rw [wp_bind, wp_get, wp_bind, wp_deref]
    left
    refine ⟨t, ht, ?_⟩
    refine getOrigin_alive b1 b2 ?_
    rw [wp_bind, wp_deref]
    left
    refine ⟨_, rfl, ?_⟩
    rw [wp_bind, wp_deref]
    left
    refine ⟨_, rfl, ?_⟩
    rw [wp_ite]
    constructor
    · rintro ⟨h1, h2⟩
      simp only [Ext.fin.injEq] at h1 h2
      have hpq : p = q := Prod.ext h1 h2
      subst hpq
      rw [wp_bind, wp_get, a1, b1]
      simp only [vtxOf]
      rw [wp_bind, wp_pure, wp_bind, wp_pure, wp_bind, wp_zD]
      refine wp_mono (wp_moveConn v1 v2 _ 0 s.d (by omega) (by omega)) ?_
      rintro _ d1 ⟨hm, hen⟩
      rw [wp_bind]
      have hflat : Flat s.d e := fun t' ht' => by rw [ht] at ht'; cases ht'; rw [hope, hopt]
      have hflatt : Flat s.d t := fun t' ht' => by rw [htt] at ht'; cases ht'; rw [hope, hopt]
      refine wp_removeVertex (hsafe.imp And.left fun h => h.mem e (List.mem_cons_self ..) hflat v1 a1) ?_
      intro hv1
      have hpp : (s.d.vs v1).pos = (s.d.vs v2).pos := by rw [a2, b2]
      have hal : ∀ f, Alive s.d f → Alive d1 f := fun f hf => hm.alive a4 b4 hpp hf
      have hae := hal e ⟨v1, p, a1, a2, a3, a4⟩
      have hat := hal t ⟨v2, p, b1, b2, b3, b4⟩
      -- the links after each of the two deletions
      have hlnk : (E .value ∧ E .assertion) ∨ ∃ d0 X P, ClosedCells d0 P ∧ Lnk d0 X d1 ∧ Lnk d0 (fun f => X f ∨ f = e) (delD d1 e) ∧
          Lnk d0 (fun f => X f ∨ f = e ∨ f = t) (delD (delD d1 e) t) ∧ (∀ f, (d1.he f).incident = (d0.he f).incident) ∧
          (∀ f, ((delD d1 e).he f).incident = (d0.he f).incident) ∧ ∀ f, EdgesOf s.d (e :: es) f → Flat s.d f → ¬ X f ∧ P f := by
        refine hsafe.imp_right fun h => ?_
        obtain ⟨d0, X, P, hl, hP, hi, hX⟩ := h.lnk
        have hl1 : Lnk d0 X d1 := hl.congr hm.nx hm.pv hm.fe
        have hi1 : ∀ f, (d1.he f).incident = (d0.he f).incident := fun f => (hm.same.inc f).trans (hi f)
        have hl2 := hl1.del (e := e) (Y := fun f => X f ∨ f = e) (fun q hq => (hl1.fe_inc hP hi1 hq).2) (hX e ((hEO e).mpr (Or.inl rfl)) hflat).1 fun f => Iff.rfl
        have hi2 : ∀ f, ((delD d1 e).he f).incident = (d0.he f).incident := fun f => (delD_inc d1 e f).trans (hi1 f)
        have hl3 := hl2.del (e := t) (Y := fun f => X f ∨ f = e ∨ f = t) (fun q hq => (hl2.fe_inc hP hi2 hq).2)
          (by rintro (h | h); exacts [(hX t ((hEO t).mpr (Or.inr (Or.inl rfl))) hflatt).1 h, htne h]) fun f => or_assoc.symm
        exact ⟨d0, X, P, hP, hl1, hl2, hl3, hi1, hi2, hX⟩
      rw [wp_bind, wp_zD]
      refine wp_deleteHE ?_ (fun hE f hf => ?_) ?_
      rotate_left
      · obtain ⟨d0, X, P, hP, hl1, _, _, hi1, _, hX⟩ := hlnk.resolve_left fun h => hE h.2
        exact hl1.next_inc hP hi1 (hX e ((hEO e).mpr (Or.inl rfl)) hflat).2 hf
      rotate_left
      · intro v hv
        obtain ⟨w, _, g1, _, g2, _⟩ := hae
        have hv' : (d1.he e).origin = .vtx v := hv
        rw [g1, Org.vtx.injEq] at hv'; subst hv'; exact g2
      rw [wp_bind, wp_zD]
      refine wp_deleteHE ?_ (fun hE f hf => ?_) ?_
      rotate_left
      · obtain ⟨d0, X, P, hP, _, hl2, _, _, hi2, hX⟩ := hlnk.resolve_left fun h => hE h.2
        exact hl2.next_inc hP hi2 (hX t ((hEO t).mpr (Or.inr (Or.inl rfl))) hflatt).2 hf
      rotate_left
      · intro v hv
        obtain ⟨w, _, g1, _, g2, _⟩ := hat.del htne
        have hv' : ((delD d1 e).he t).origin = .vtx v := hv
        rw [g1, Org.vtx.injEq] at hv'; subst hv'; exact g2
      obtain ⟨d3, hd3⟩ : ∃ d3, d3 = delD (delD d1 e) t := ⟨_, rfl⟩
      have hsame : Same s.d d3 := by rw [hd3]; exact hm.same.trans ((same_del d1 e).trans (same_del _ t))
      have hop : ∀ f, Foronoi.opos d3 f = Foronoi.opos s.d f := by
        intro f; rw [hd3, opos_del, opos_del, hm.opos a4 hpp]
      have hal3 : ∀ f, Alive s.d f → f ≠ e → f ≠ t → Alive d3 f := by
        intro f hf h1 h2; rw [hd3]; exact ((hal f hf).del h1).del h2
      have hgoal : Wp E (cleanUpLoop pts es) { s with d := d3, verts := s.verts.erase v1 } (fun r s' => CU (e :: es) s r s') := by
        have hflat3 : ∀ f, Flat d3 f ↔ Flat s.d f := by
          intro f
          unfold Flat
          simp only [hsame.twin, hop]
        have horg3 : ∀ f ∈ es, FlatDist s.d (e :: es) → Flat s.d f → (d3.he f).origin = (s.d.he f).origin := by
          intro f hf hS hfl
          rw [hd3, delD_org, delD_org]
          rcases hm.org f with h | ⟨_, h⟩
          · exact h
          · exact absurd (hS e (List.mem_cons_self ..) f (List.mem_cons_of_mem _ hf) hflat hfl (by rw [a1, a4.2 f h]))
              (by rintro rfl; exact hene hf)
        have hsafe3 : (E .value ∧ E .assertion) ∨ Safe es { s with d := d3, verts := s.verts.erase v1 } := by
          rcases hsafe with h | hS
          · exact Or.inl h
          rcases hlnk with h | ⟨d0, X, P, hP, _, _, hl3, _, hi2, hX⟩
          · exact Or.inl h
          right
          refine ⟨?_, ?_, ?_⟩
          · intro f hf g hg h1 h2 h3
            replace h1 := (hflat3 f).mp h1
            replace h2 := (hflat3 g).mp h2
            have h3 : (d3.he f).origin = (d3.he g).origin := h3
            rw [horg3 f hf hS.dist h1, horg3 g hg hS.dist h2] at h3
            exact hS.dist f (List.mem_cons_of_mem _ hf) g (List.mem_cons_of_mem _ hg) h1 h2 h3
          · intro f hf h1 v hv
            replace h1 := (hflat3 f).mp h1
            have hv' : (d3.he f).origin = .vtx v := hv
            rw [horg3 f hf hS.dist h1] at hv'
            refine (List.mem_erase_of_ne ?_).mpr (hS.mem f (List.mem_cons_of_mem _ hf) h1 v hv')
            rintro rfl
            exact absurd (hS.dist e (List.mem_cons_self ..) f (List.mem_cons_of_mem _ hf) hflat h1 (by rw [a1, hv']))
              (by rintro rfl; exact hene hf)
          · refine ⟨d0, _, P, by rw [hd3]; exact hl3, hP, ?_, ?_⟩
            · intro f
              show (d3.he f).incident = _
              rw [hd3, delD_inc]; exact hi2 f
            · intro f hf hfl
              replace hf : EdgesOf s.d es f := (edgesOf_congr hsame.twin es f).mp hf
              obtain ⟨k1, k2⟩ := hX f ((hEO f).mpr (Or.inr (Or.inr hf))) ((hflat3 f).mp hfl)
              refine ⟨?_, k2⟩
              rintro (h | h | h)
              · exact k1 h
              · subst h; exact hxe hf
              · subst h; exact hxt hf
        have hd13 : ∀ f, (d3.he f).origin = (d1.he f).origin := by
          intro f; rw [hd3, delD_org, delD_org]
        have hne1 : FlatDist s.d (e :: es) → ∀ g ∈ es, Flat s.d g → (s.d.he g).origin ≠ .vtx v1 := by
          intro hS g hg hfl hh
          exact absurd (hS e (List.mem_cons_self ..) g (List.mem_cons_of_mem _ hg) hflat hfl (by rw [a1, hh])) (by rintro rfl; exact hene hg)
        have hS3 : FlatDist s.d (e :: es) → FlatDist d3 es := by
          intro hS f hf g hg h1 h2 h3
          replace h1 := (hflat3 f).mp h1
          replace h2 := (hflat3 g).mp h2
          rw [horg3 f hf hS h1, horg3 g hg hS h2] at h3
          exact hS f (List.mem_cons_of_mem _ hf) g (List.mem_cons_of_mem _ hg) h1 h2 h3
        have hcn3 : ∀ v, v ≠ v1 → v ≠ v2 → (d3.vs v).conn = (s.d.vs v).conn := by
          intro v h1 h2
          have k1 : (d1.he e).origin ≠ .vtx v := by
            rcases hm.org e with h | ⟨h, _⟩ <;> rw [h]
            · rw [a1, ne_eq, Org.vtx.injEq]; exact fun h => h1 h.symm
            · rw [ne_eq, Org.vtx.injEq]; exact fun h => h2 h.symm
          have k2 : (d1.he t).origin ≠ .vtx v := by
            rcases hm.org t with h | ⟨h, _⟩ <;> rw [h]
            · rw [b1, ne_eq, Org.vtx.injEq]; exact fun h => h2 h.symm
            · rw [ne_eq, Org.vtx.injEq]; exact fun h => h2 h.symm
          rw [hd3, delD_conn, delD_org, if_neg k2, delD_conn, if_neg k1, hm.cn v h1 h2]
        have hend : ∀ v, NoFlatEnd s.d (e :: es) v → v ≠ v2 ∧ NoFlatEnd d3 es v := by
          intro v h
          have h2 : v ≠ v2 := by
            rintro rfl
            exact h e (List.mem_cons_self ..) hflat t ht b1
          refine ⟨h2, fun g hg hfl u hu => ?_⟩
          rw [hsame.twin] at hu
          have := h g (List.mem_cons_of_mem _ hg) ((hflat3 g).mp hfl) u hu
          rw [hd13]
          rcases hm.org u with h3 | ⟨h3, _⟩ <;> rw [h3]
          · exact this
          · rw [ne_eq, Org.vtx.injEq]; exact fun h => h2 h.symm
        refine wp_mono (ih { s with d := d3, verts := s.verts.erase v1 } hsafe3 hnd' ?_) ?_
        · intro f hf
          obtain ⟨u, c1, c2, c3, c4, c5, c6, c7, c8, c9, c10⟩ := hrest f hf
          exact ⟨u, by rw [hsame.twin]; exact c1, by rw [hsame.twin]; exact c2, c3, c4, hal3 f c9 c5 c6, hal3 u c10 c7 c8⟩
        · intro r s' hc
          have htw : ∀ f, (d3.he f).twin = (s.d.he f).twin := hsame.twin
          refine ⟨by rw [hc.eq], hsame.trans hc.same, fun f => (hc.opos f).trans (hop f), hc.sub.cons e,
            hc.verts.trans List.erase_sublist, ?_, ?_, ?_, ?_, ?_, ?_, ?_, ?_, ?_, ?_⟩
          · intro f hf
            refine ⟨(hc.alive f hf).1, fun u hu => (hc.alive f hf).2 u ?_⟩
            show (d3.he f).twin = some u
            rw [htw]; exact hu
          · intro f hf hx
            rw [hEO] at hx
            push Not at hx
            refine hc.other f (hal3 f hf hx.1 hx.2.1) ?_
            intro hh
            exact hx.2.2 ((edgesOf_congr htw es f).mp hh)
          · intro hr
            have := hc.sub.length_le
            rw [hr, List.length_cons] at this
            omega
          · intro f hf
            rcases List.mem_cons.mp hf with hf | hf
            · subst hf
              constructor
              · intro h3; exact absurd (hc.sub.subset h3) hene
              · intro h3; exact absurd (by rw [hope, hopt]) (h3 t ht)
            · refine (hc.kept f hf).trans ?_
              show (∀ u, (d3.he f).twin = some u → Foronoi.opos d3 f ≠ Foronoi.opos d3 u) ↔ _
              simp only [htw, hop]
          · intro d0 X P hl hP hi hX
            have hre : ¬ EdgesOf s.d r e := fun h => hxe (h.sub hc.sub.subset)
            have hrt : ¬ EdgesOf s.d r t := fun h => hxt (h.sub hc.sub.subset)
            have hl1 : Lnk d0 X d1 := hl.congr hm.nx hm.pv hm.fe
            have hi1 : ∀ f, (d1.he f).incident = (d0.he f).incident := fun f => (hm.same.inc f).trans (hi f)
            have hl2 := hl1.del (e := e) (Y := fun f => X f ∨ f = e) (fun q hq => (hl1.fe_inc hP hi1 hq).2) (hX e ((hEO e).mpr (Or.inl rfl)) hre) fun f => Iff.rfl
            have hi2 : ∀ f, ((delD d1 e).he f).incident = (d0.he f).incident := fun f => (delD_inc d1 e f).trans (hi1 f)
            have hl3 := hl2.del (e := t) (Y := fun f => X f ∨ f = e ∨ f = t) (fun q hq => (hl2.fe_inc hP hi2 hq).2)
              (by rintro (h | h); exacts [hX t ((hEO t).mpr (Or.inr (Or.inl rfl))) hrt h, htne h]) fun f => or_assoc.symm
            rw [← hd3] at hl3
            refine cast (congrArg (fun Y => Lnk d0 Y s'.d) (funext fun f => propext ?_))
              (hc.links d0 _ P hl3 hP (fun f => (hsame.inc f).trans (hi f)) ?_)
            · show ((X f ∨ f = e ∨ f = t) ∨ EdgesOf d3 es f ∧ ¬ EdgesOf d3 r f) ↔ X f ∨ EdgesOf s.d (e :: es) f ∧ ¬ EdgesOf s.d r f
              rw [edgesOf_congr htw es f, edgesOf_congr htw r f, hEO]
              by_cases h1 : f = e
              · subst h1; grind
              · by_cases h2 : f = t
                · subst h2; grind
                · grind
            · intro f hf hr
              replace hf := (edgesOf_congr htw es f).mp hf
              replace hr := fun h => hr ((edgesOf_congr htw r f).mpr h)
              rintro (h | h | h)
              · exact hX f ((hEO f).mpr (Or.inr (Or.inr hf))) hr h
              · subst h; exact hxe hf
              · subst h; exact hxt hf
          · intro hS hvn v
            have hS3 : FlatDist d3 es := by
              intro f hf g hg h1 h2 h3
              replace h1 := (hflat3 f).mp h1
              replace h2 := (hflat3 g).mp h2
              rw [horg3 f hf hS h1, horg3 g hg hS h2] at h3
              exact hS f (List.mem_cons_of_mem _ hf) g (List.mem_cons_of_mem _ hg) h1 h2 h3
            rw [hc.left hS3 (hvn.erase v1)]
            show v ∈ s.verts.erase v1 ∧ (∀ f ∈ es, Flat d3 f → (d3.he f).origin ≠ .vtx v) ↔ _
            rw [hvn.mem_erase_iff]
            constructor
            · rintro ⟨⟨h1, h2⟩, h3⟩
              refine ⟨h2, fun f hf hfl => ?_⟩
              rcases List.mem_cons.mp hf with rfl | hf
              · rw [a1, ne_eq, Org.vtx.injEq]; exact h1.symm
              · rw [← horg3 f hf hS hfl]; exact h3 f hf ((hflat3 f).mpr hfl)
            · rintro ⟨h2, h3⟩
              refine ⟨⟨?_, h2⟩, fun f hf hfl => ?_⟩
              · rintro rfl; exact h3 e (List.mem_cons_self ..) hflat a1
              · rw [horg3 f hf hS ((hflat3 f).mp hfl)]
                exact h3 f (List.mem_cons_of_mem _ hf) ((hflat3 f).mp hfl)
          · intro W hW hO
            have w1 : W v1 := hO e ((hEO e).mpr (Or.inl rfl)) v1 a1
            have w2 : W v2 := hO t ((hEO t).mpr (Or.inr (Or.inl rfl))) v2 b1
            have hW1 : ∀ w, W w → OCoh d1 w := fun w hw => hm.coh a4 w (hW w hw)
            have hW3 : ∀ w, W w → OCoh d3 w := fun w hw => by rw [hd3]; exact ((hW1 w hw).del e).del t
            have hst : ∀ f, (∀ v, (s.d.he f).origin = .vtx v → W v) → ∀ v, (d3.he f).origin = .vtx v → W v := by
              intro f hf v hv
              rw [hd3, delD_org, delD_org] at hv
              rcases hm.org f with h | ⟨h, _⟩
              · rw [h] at hv
                exact hf v hv
              · rw [h, Org.vtx.injEq] at hv
                rw [← hv]; exact w2
            obtain ⟨r1, r0, r2⟩ := hc.reg W hW3 fun f hf => hst f (hO f ((hEO f).mpr (Or.inr (Or.inr ((edgesOf_congr hsame.twin es f).mp hf)))))
            refine ⟨r1, fun f hf => r0 f (hst f hf), fun f hf => r2 f ?_⟩
            rcases hf with ⟨h1, h2⟩ | h
            · rcases (hEO f).mp h1 with rfl | rfl | h
              · right
                intro w hw hh
                replace hh : f ∈ (d3.vs w).conn := hh
                rw [hd3] at hh
                exact (hW1 w hw).del_not_mem (del_conn_sub hh)
              · right
                intro w hw hh
                replace hh : f ∈ (d3.vs w).conn := hh
                rw [hd3] at hh
                exact ((hW1 w hw).del e).del_not_mem hh
              · left
                exact ⟨(edgesOf_congr htw es f).mpr h, fun hh => h2 ((edgesOf_congr htw r f).mp hh)⟩
            · right
              intro w hw hh
              replace hh : f ∈ (d3.vs w).conn := hh
              rw [hd3] at hh
              rcases hm.cm w f (del_conn_sub (del_conn_sub hh)) with h3 | ⟨_, h3⟩
              · exact h w hw h3
              · exact h v1 w1 h3
          · intro hS f v hf hv
            refine hc.stay (hS3 hS) f v ?_ ?_
            · show (d3.he f).origin = _
              rw [hd13]
              rcases hm.org f with h | ⟨_, h⟩
              · rw [h, hf]
              · have := a4.2 f h
                rw [hf] at this
                exact absurd a1 (this ▸ hv e (List.mem_cons_self ..) hflat)
            · intro g hg hfl
              replace hfl := (hflat3 g).mp hfl
              show (d3.he g).origin ≠ _
              rw [horg3 g hg hS hfl]
              exact hv g (List.mem_cons_of_mem _ hg) hfl
          · intro hS e' he' hfl v a b hv hcn hne
            obtain ⟨hv2, hne3⟩ := hend v hne
            rcases List.mem_cons.mp he' with rfl | he'
            · rw [a1, Org.vtx.injEq] at hv
              subst hv
              refine hc.stay (hS3 hS) b v1 ?_ ?_
              · show (d3.he b).origin = _
                rw [hd13, hen.stay hv2 a4.1 1 b (Or.inr rfl) (by rw [hcn]; rfl)]
                exact a4.2 b (by rw [hcn]; simp)
              · intro g hg hgl
                replace hgl := (hflat3 g).mp hgl
                show (d3.he g).origin ≠ _
                rw [horg3 g hg hS hgl]
                exact hne1 hS g hg hgl
            · have hv1' : v ≠ v1 := by
                rintro rfl
                exact hne1 hS e' he' hfl hv
              refine hc.lost (hS3 hS) e' he' ((hflat3 e').mpr hfl) v a b ?_ ?_ hne3
              · show (d3.he e').origin = _
                rw [horg3 e' he' hS hfl, hv]
              · show (d3.vs v).conn = _
                rw [hcn3 v hv1' hv2, hcn]
          · intro hS e' he' hfl v a hv hcn hne f hfa hf
            obtain ⟨hv2, hne3⟩ := hend v hne
            have hfe : f ≠ e ∧ f ≠ t := by
              constructor
              · rintro rfl; exact hxe ((hf (Or.inl (List.mem_cons_self ..))).sub hc.sub.subset)
              · rintro rfl; exact hxt ((hf (Or.inr ⟨e, List.mem_cons_self .., ht⟩)).sub hc.sub.subset)
            rcases List.mem_cons.mp he' with rfl | he'
            · rw [a1, Org.vtx.injEq] at hv
              subst hv
              have hWg : ∀ g, Alive s.d g → g ≠ e' → g ≠ t → ∀ v, (d3.he g).origin = .vtx v → v ≠ v1 ∧ OCoh d3 v := by
                intro g hga hge hgt v hv
                refine ⟨?_, ?_⟩
                · rintro rfl
                  rw [hd13] at hv
                  rcases hm.org g with h | ⟨h, _⟩
                  · obtain ⟨w, _, g1, _, g2, _⟩ := hga
                    rw [← h, hv, Org.vtx.injEq] at g1
                    rw [← g1, hcn] at g2
                    simp only [List.mem_cons, List.not_mem_nil, or_false] at g2
                    rcases g2 with rfl | g2
                    · have := hen.moved g (by rw [hcn]; rfl)
                      rw [hv, Org.vtx.injEq] at this
                      exact hv2 this
                    · exact hge g2
                  · rw [h, Org.vtx.injEq] at hv
                    exact hv2 hv.symm
                · obtain ⟨w, _, g1, _, _, g2⟩ := hal3 g hga hge hgt
                  rw [hv, Org.vtx.injEq] at g1
                  rw [g1]; exact g2
              obtain ⟨_, r0, _⟩ := hc.reg (fun w => w ≠ v1 ∧ OCoh d3 w) (fun w hw => hw.2) (by
                intro g hg v hv
                replace hg := (edgesOf_congr htw es g).mp hg
                have hga : Alive s.d g ∧ g ≠ e' ∧ g ≠ t := by
                  rcases hg with hg | ⟨x, hx, hg⟩
                  · obtain ⟨u, _, _, _, _, c5, c6, _, _, c9, _⟩ := hrest g hg
                    exact ⟨c9, c5, c6⟩
                  · obtain ⟨u, c1, _, _, _, _, _, c7, c8, _, c10⟩ := hrest x hx
                    rw [c1, Option.some.injEq] at hg
                    subst hg
                    exact ⟨c10, c7, c8⟩
                exact hWg g hga.1 hga.2.1 hga.2.2 v hv)
              intro hh
              exact (r0 f (fun v hv => hWg f hfa hfe.1 hfe.2 v hv) v1 hh).1 rfl
            · have hv1' : v ≠ v1 := by
                rintro rfl
                exact hne1 hS e' he' hfl hv
              exact hc.clear (hS3 hS) e' he' ((hflat3 e').mpr hfl) v a ((horg3 e' he' hS hfl).trans hv) ((hcn3 v hv1' hv2).trans hcn) hne3 f (hal3 f hfa hfe.1 hfe.2)
                fun h => (edgesOf_congr htw r f).mpr (hf (((edgesOf_congr htw es f).mp h).sub (List.subset_cons_self ..)))
      rw [hd3] at hgoal
      exact hgoal
    · intro hne
      rw [wp_bind]
      have hne' : p ≠ q := by rintro rfl; exact hne ⟨rfl, rfl⟩
      have hnf : ¬ Flat s.d e := by
        intro hfl
        have := hfl t ht
        rw [hope, hopt, Option.some.injEq] at this
        exact hne' this
      have hsafe' : (E .value ∧ E .assertion) ∨ Safe es s := by
        refine hsafe.imp_right fun h => ⟨?_, ?_, ?_⟩
        · exact fun f hf g hg => h.dist f (List.mem_cons_of_mem _ hf) g (List.mem_cons_of_mem _ hg)
        · exact fun f hf => h.mem f (List.mem_cons_of_mem _ hf)
        · obtain ⟨d0, X, P, h1, h2, h3, h4⟩ := h.lnk
          exact ⟨d0, X, P, h1, h2, h3, fun f hf => h4 f ((hEO f).mpr (Or.inr (Or.inr hf)))⟩
      refine wp_mono (ih s hsafe' hnd' ?_) ?_
      · intro f hf
        obtain ⟨u, c1, c2, c3, c4, c5, c6, c7, c8, c9, c10⟩ := hrest f hf
        exact ⟨u, c1, c2, c3, c4, c9, c10⟩
      · intro r s' hc
        rw [wp_pure]
        refine ⟨hc.eq, hc.same, hc.opos, hc.sub.cons_cons e, hc.verts, ?_, ?_, fun hr => hc.id (List.cons.inj hr).2, ?_, ?_, ?_, ?_, ?_, ?_, ?_⟩
        · intro f hf
          rcases List.mem_cons.mp hf with hf | hf
          · subst hf
            refine ⟨hc.other f ⟨v1, p, a1, a2, a3, a4⟩ hxe, ?_⟩
            intro u hu
            rw [ht] at hu; cases hu
            exact hc.other t ⟨v2, q, b1, b2, b3, b4⟩ hxt
          · exact hc.alive f hf
        · intro f hf hx
          rw [hEO] at hx
          push Not at hx
          exact hc.other f hf hx.2.2
        · intro f hf
          rcases List.mem_cons.mp hf with hf | hf'
          · subst hf
            constructor
            · intro _ u hu
              rw [ht] at hu; cases hu
              rw [hope, hopt]
              intro hh; exact hne' (Option.some.inj hh)
            · intro _; exact List.mem_cons_self ..
          · rw [← hc.kept f hf', List.mem_cons]
            constructor
            · rintro (rfl | h)
              · exact absurd hf' hene
              · exact h
            · exact Or.inr
        · intro d0 X P hl hP hi hX
          have hEr : ∀ f, EdgesOf s.d (e :: r) f ↔ f = e ∨ f = t ∨ EdgesOf s.d r f := by
            intro f
            unfold EdgesOf
            constructor
            · rintro (h | ⟨a, ha, h⟩)
              · rcases List.mem_cons.mp h with h | h
                · exact Or.inl h
                · exact Or.inr (Or.inr (Or.inl h))
              · rcases List.mem_cons.mp ha with ha | ha
                · subst ha; rw [ht] at h; cases h; exact Or.inr (Or.inl rfl)
                · exact Or.inr (Or.inr (Or.inr ⟨a, ha, h⟩))
            · rintro (rfl | rfl | h | ⟨a, ha, h⟩)
              · exact Or.inl (List.mem_cons_self ..)
              · exact Or.inr ⟨e, List.mem_cons_self .., ht⟩
              · exact Or.inl (List.mem_cons_of_mem _ h)
              · exact Or.inr ⟨a, List.mem_cons_of_mem _ ha, h⟩
          refine cast (congrArg (fun Y => Lnk d0 Y s'.d) (funext fun f => propext ?_))
            (hc.links d0 X P hl hP hi fun f hf hr => hX f ((hEO f).mpr (Or.inr (Or.inr hf))) ?_)
          rotate_left
          · rw [hEr]
            rintro (h | h | h)
            · subst h; exact hxe hf
            · subst h; exact hxt hf
            · exact hr h
          rw [hEO, hEr]
          by_cases h1 : f = e
          · subst h1; grind
          · by_cases h2 : f = t
            · subst h2; grind
            · grind
        · intro hS hvn v
          rw [hc.left (fun f hf g hg => hS f (List.mem_cons_of_mem _ hf) g (List.mem_cons_of_mem _ hg)) hvn]
          refine and_congr_right fun _ => ?_
          constructor
          · intro h3 f hf hfl
            rcases List.mem_cons.mp hf with rfl | hf
            · have := hfl t ht
              rw [hope, hopt, Option.some.injEq] at this
              exact absurd this hne'
            · exact h3 f hf hfl
          · exact fun h3 f hf => h3 f (List.mem_cons_of_mem _ hf)
        · intro W hW hO
          obtain ⟨r1, r0, r2⟩ := hc.reg W hW fun f hf => hO f ((hEO f).mpr (Or.inr (Or.inr hf)))
          refine ⟨r1, r0, fun f hf => r2 f (hf.imp_left fun ⟨h1, h2⟩ => ?_)⟩
          have h3 : ¬ EdgesOf s.d r f := fun h => h2 (h.sub fun _ => List.mem_cons_of_mem _)
          rcases (hEO f).mp h1 with rfl | rfl | h
          · exact absurd (Or.inl (List.mem_cons_self ..)) h2
          · exact absurd (Or.inr ⟨e, List.mem_cons_self .., ht⟩) h2
          · exact ⟨h, h3⟩
        · intro hS f v hf hv
          exact hc.stay (fun f hf g hg => hS f (List.mem_cons_of_mem _ hf) g (List.mem_cons_of_mem _ hg)) f v hf fun g hg => hv g (List.mem_cons_of_mem _ hg)
        · intro hS e' he' hfl v a b hv hcn hne
          rcases List.mem_cons.mp he' with rfl | he'
          · exact absurd hfl hnf
          · exact hc.lost (fun f hf g hg => hS f (List.mem_cons_of_mem _ hf) g (List.mem_cons_of_mem _ hg)) e' he' hfl v a b hv hcn
              fun g hg => hne g (List.mem_cons_of_mem _ hg)
        · intro hS e' he' hfl v a hv hcn hne f hfa hf
          rcases List.mem_cons.mp he' with rfl | he'
          · exact absurd hfl hnf
          · refine hc.clear (fun f hf g hg => hS f (List.mem_cons_of_mem _ hf) g (List.mem_cons_of_mem _ hg)) e' he' hfl v a hv hcn
              (fun g hg => hne g (List.mem_cons_of_mem _ hg)) f hfa ?_
            · intro h
              have h1 := hf (h.sub (List.subset_cons_self ..))
              rcases h1 with h1 | ⟨x, hx, h1⟩
              · rcases List.mem_cons.mp h1 with rfl | h1
                · exact absurd h hxe
                · exact Or.inl h1
              · rcases List.mem_cons.mp hx with rfl | hx
                · rw [ht, Option.some.injEq] at h1
                  subst h1
                  exact absurd h hxt
                · exact Or.inr ⟨x, hx, h1⟩

end Foronoi
