import Verif.Proof.Inv

/-!
# Clipping keeps the half-edge records coherent
-/

namespace Foronoi

open scoped List

variable {K : Type} {E : Err → Prop}

/-- What a change of the half-edges in `X` leaves alone. -/
structure Keeps (X : Nat → Prop) (d d' : Dcel K) : Prop where
  heCnt : d'.heCnt = d.heCnt
  vCnt : d.vCnt ≤ d'.vCnt
  twin : ∀ f, (d'.he f).twin = (d.he f).twin
  inc : ∀ f, (d'.he f).incident = (d.he f).incident
  org : ∀ f, ¬ X f → (d'.he f).origin = (d.he f).origin
  pos : ∀ v < d.vCnt, (d'.vs v).pos = (d.vs v).pos
  sub : ∀ v < d.vCnt, (d'.vs v).conn.Sublist (d.vs v).conn
  connK : ∀ v < d.vCnt, ∀ c, ¬ X c → c ∈ (d.vs v).conn → c ∈ (d'.vs v).conn
  conn1 : ∀ v < d.vCnt, ∀ c, ¬ X c → (d.vs v).conn = [c] → (d'.vs v).conn = [c]

theorem Keeps.conn {X : Nat → Prop} {d d' : Dcel K} (h : Keeps X d d') (v : Nat) (hv : v < d.vCnt) (c : Nat) (hc : c ∈ (d'.vs v).conn) : c ∈ (d.vs v).conn :=
  (h.sub v hv).subset hc

theorem Keeps.refl (X : Nat → Prop) (d : Dcel K) : Keeps X d d :=
  ⟨rfl, le_rfl, fun _ => rfl, fun _ => rfl, fun _ _ => rfl, fun _ _ => rfl, fun _ _ => List.Sublist.refl _, fun _ _ _ _ h => h, fun _ _ _ _ h => h⟩

theorem Keeps.trans {X : Nat → Prop} {d d' d'' : Dcel K} (h : Keeps X d d') (h' : Keeps X d' d'') : Keeps X d d'' where
  heCnt := h'.heCnt.trans h.heCnt
  vCnt := h.vCnt.trans h'.vCnt
  twin f := (h'.twin f).trans (h.twin f)
  inc f := (h'.inc f).trans (h.inc f)
  org f hf := (h'.org f hf).trans (h.org f hf)
  pos v hv := (h'.pos v (hv.trans_le h.vCnt)).trans (h.pos v hv)
  sub v hv := (h'.sub v (hv.trans_le h.vCnt)).trans (h.sub v hv)
  connK v hv c hx hc := h'.connK v (hv.trans_le h.vCnt) c hx (h.connK v hv c hx hc)
  conn1 v hv c hx hc := h'.conn1 v (hv.trans_le h.vCnt) c hx (h.conn1 v hv c hx hc)

theorem Keeps.mono {X Y : Nat → Prop} {d d' : Dcel K} (h : Keeps X d d') (hXY : ∀ f, X f → Y f) : Keeps Y d d' :=
  { h with
    org := fun f hf => h.org f (fun hx => hf (hXY f hx))
    connK := fun v hv c hx hc => h.connK v hv c (fun hh => hx (hXY c hh)) hc
    conn1 := fun v hv c hx hc => h.conn1 v hv c (fun hh => hx (hXY c hh)) hc }

/-- Links stay inside the store and on the same cell; origins are known vertices; twins. -/
structure DOk (d : Dcel K) : Prop where
  tw : ∀ e < d.heCnt, ∃ t < d.heCnt, t ≠ e ∧ (d.he e).twin = some t ∧ (d.he t).twin = some e
  nx : ∀ e < d.heCnt, ∀ f, (d.he e).next = some f → f < d.heCnt ∧ (d.he f).incident = (d.he e).incident
  pv : ∀ e < d.heCnt, ∀ f, (d.he e).prev = some f → f < d.heCnt ∧ (d.he f).incident = (d.he e).incident
  org : ∀ e < d.heCnt, ∀ v, (d.he e).origin = .vtx v → v < d.vCnt
  fe : ∀ p e, d.fe p = some e → e < d.heCnt ∧ (d.he e).incident = some p
  cnd : ∀ v < d.vCnt, (d.vs v).conn.Nodup
  clt : ∀ v < d.vCnt, ∀ c ∈ (d.vs v).conn, c < d.heCnt

/-- A new vertex becomes the origin of `e`. -/
def cutD (d : Dcel K) (e : Nat) (pos : Option (K × K)) : Dcel K :=
  { d with
    he := Function.update d.he e { d.he e with origin := .vtx d.vCnt }
    vs := Function.update d.vs d.vCnt ⟨pos, [e]⟩
    vCnt := d.vCnt + 1 }

theorem keeps_cut (d : Dcel K) (e : Nat) (pos : Option (K × K)) : Keeps (· = e) d (cutD d e pos) where
  heCnt := rfl
  vCnt := Nat.le_succ _
  twin f := by by_cases h : f = e <;> simp [cutD, Function.update_apply, h]
  inc f := by by_cases h : f = e <;> simp [cutD, Function.update_apply, h]
  org f hf := by simp [cutD, Function.update_apply, hf]
  pos v hv := by simp [cutD, Function.update_apply, hv.ne]
  sub v hv := by simp [cutD, Function.update_apply, hv.ne]
  connK v hv c _ hc := by simpa [cutD, Function.update_apply, hv.ne] using hc
  conn1 v hv c _ hc := by simpa [cutD, Function.update_apply, hv.ne] using hc

theorem DOk.cut {d : Dcel K} (h : DOk d) {e : Nat} (he : e < d.heCnt) (pos : Option (K × K)) : DOk (cutD d e pos) where
  tw f hf := by
    obtain ⟨t, h1, h2, h3, h4⟩ := h.tw f hf
    exact ⟨t, h1, h2, by rw [(keeps_cut d e pos).twin]; exact h3, by rw [(keeps_cut d e pos).twin]; exact h4⟩
  nx f hf g hg := by
    rw [(keeps_cut d e pos).inc, (keeps_cut d e pos).inc]
    refine h.nx f hf g ?_
    by_cases hh : f = e <;> simpa [cutD, Function.update_apply, hh] using hg
  pv f hf g hg := by
    rw [(keeps_cut d e pos).inc, (keeps_cut d e pos).inc]
    refine h.pv f hf g ?_
    by_cases hh : f = e <;> simpa [cutD, Function.update_apply, hh] using hg
  org f hf v hv := by
    by_cases hh : f = e
    · simp only [cutD, Function.update_apply, hh, if_true] at hv
      simp only [cutD]
      cases hv; omega
    · simp only [cutD, Function.update_apply, hh, if_false] at hv
      have := h.org f hf v hv
      simp only [cutD]; omega
  fe p f hf := by
    rw [(keeps_cut d e pos).inc]; exact h.fe p f hf
  cnd v hv := by
    by_cases hh : v = d.vCnt
    · subst hh; simp [cutD]
    · simp only [cutD, Function.update_of_ne hh] at hv ⊢
      exact h.cnd v (by omega)
  clt v hv c hc := by
    by_cases hh : v = d.vCnt
    · subst hh
      simp only [cutD, Function.update_self, List.mem_singleton] at hc
      rw [hc]; exact he
    · simp only [cutD, Function.update_of_ne hh] at hv hc
      exact h.clt v (by omega) c hc

/-- The records after `setNext p nx`. -/
def linkH (h : Nat → HE) (p : Nat) (nx : Option Nat) : Nat → HE :=
  let h1 := match nx with
    | some f => Function.update h f { h f with prev := some p }
    | none => h
  Function.update h1 p { h1 p with next := nx }

theorem wp_setNext_link {p : Nat} {nx : Option Nat} {d : Dcel K} {Q : Unit → Dcel K → Prop} :
    Wp E (setNext p nx) d Q ↔ Q () { d with he := linkH d.he p nx } := by
  cases nx <;> rfl

section linkH
variable (h : Nat → HE) (p : Nat) (nx : Option Nat) (f : Nat)

theorem linkH_twin : (linkH h p nx f).twin = (h f).twin := by
  unfold linkH
  cases nx with
  | none => by_cases h1 : f = p <;> simp [Function.update_apply, h1]
  | some g => by_cases h1 : f = p <;> by_cases h2 : f = g <;> simp [Function.update_apply, h1, h2] <;> split <;> simp_all

theorem linkH_inc : (linkH h p nx f).incident = (h f).incident := by
  unfold linkH
  cases nx with
  | none => by_cases h1 : f = p <;> simp [Function.update_apply, h1]
  | some g => by_cases h1 : f = p <;> by_cases h2 : f = g <;> simp [Function.update_apply, h1, h2] <;> split <;> simp_all

theorem linkH_org : (linkH h p nx f).origin = (h f).origin := by
  unfold linkH
  cases nx with
  | none => by_cases h1 : f = p <;> simp [Function.update_apply, h1]
  | some g => by_cases h1 : f = p <;> by_cases h2 : f = g <;> simp [Function.update_apply, h1, h2] <;> split <;> simp_all

theorem linkH_next : (linkH h p nx f).next = if f = p then nx else (h f).next := by
  unfold linkH
  by_cases h1 : f = p
  · subst h1; simp
  · rw [if_neg h1]
    cases nx with
    | none => simp [Function.update_of_ne h1]
    | some g =>
      simp only [Function.update_of_ne h1]
      by_cases h2 : f = g
      · subst h2; simp
      · simp [Function.update_of_ne h2]

theorem linkH_prev : (linkH h p nx f).prev = if nx = some f then some p else (h f).prev := by
  unfold linkH
  cases nx with
  | none => by_cases h1 : f = p <;> simp [Function.update_apply, h1]
  | some g =>
    by_cases h2 : g = f
    · subst h2
      by_cases h1 : g = p
      · subst h1; simp
      · simp [Function.update_of_ne h1]
    · have h2' : ¬ f = g := fun hh => h2 hh.symm
      have h3 : ¬ some g = some f := fun hh => h2 (Option.some.inj hh)
      rw [if_neg h3]
      by_cases h1 : f = p
      · subst h1; simp [Function.update_of_ne h2']
      · simp [Function.update_of_ne h1, Function.update_of_ne h2']
end linkH

/-- The records after `HalfEdge.delete`. -/
def delD (d : Dcel K) (e : Nat) : Dcel K :=
  { d with
    vs := match (d.he e).origin with
      | .vtx v => Function.update d.vs v { d.vs v with conn := (d.vs v).conn.erase e }
      | .bp _ => d.vs
    he := match (d.he e).prev with
      | some p => linkH d.he p (d.he e).next
      | none => d.he
    fe := match (d.he e).incident with
      | some q => if d.fe q = some e then Function.update d.fe q (d.he e).next else d.fe
      | none => d.fe }

/-- `delete` succeeds if the edge is registered at its origin and its next edge is at the same cell. -/
theorem wp_deleteHE {d : Dcel K} {e : Nat} {Q : Unit → Dcel K → Prop} (ho : ∀ v, (d.he e).origin = .vtx v → e ∈ (d.vs v).conn)
    (hn : ¬ E .assertion → ∀ f, (d.he e).next = some f → (d.he f).incident = (d.he e).incident) (h : Q () (delD d e)) :
    Wp E (deleteHE e) d Q := by
  have h1 : Wp E (detachOrigin e) d (fun _ d' => d' = { d with vs := (delD d e).vs }) := by
    simp only [detachOrigin, wp_bind, wp_rdE]
    cases hv : (d.he e).origin with
    | bp b => simp [delD, hv]
    | vtx v =>
      simp only [removeConn, wp_bind, wp_rdV, if_pos (ho v hv), wp_updV]
      simp [delD, hv]
  unfold deleteHE
  rw [wp_bind]
  refine wp_mono h1 ?_
  rintro _ d1 rfl
  rw [wp_bind]
  have h2 : Wp E (unlinkPrev e) { d with vs := (delD d e).vs } (fun _ d' => d' = { d with vs := (delD d e).vs, he := (delD d e).he }) := by
    simp only [unlinkPrev, wp_bind, wp_rdE, wp_optDo, wp_setNext_link]
    constructor
    · intro p hp; simp [delD, hp]
    · intro hp; simp [delD, hp]
  refine wp_mono h2 ?_
  rintro _ d1 rfl
  have ei : ∀ f, ((delD d e).he f).incident = (d.he f).incident := by
    intro f
    unfold delD
    cases (d.he e).prev with
    | none => rfl
    | some p => exact linkH_inc ..
  have en : ((delD d e).he e).next = (d.he e).next := by
    unfold delD
    cases (d.he e).prev with
    | none => rfl
    | some p => simp only; rw [linkH_next]; split <;> rfl
  simp only [moveFirstEdge, wp_bind, wp_rdE, wp_optDo, wp_rdFE, wp_ite, ei, en, assertIncident, wp_setFE, wp_pure, wp_throw]
  constructor
  · intro q hq
    constructor
    · intro hf
      refine ⟨?_, ?_⟩
      · intro f hf'
        refine ⟨fun _ => ?_, fun hh => ?_⟩
        · convert h using 1
          simp [delD, hq, hf]
        · by_contra hc
          exact hh (by rw [hn hc f hf', hq])
      · intro _
        convert h using 1
        simp [delD, hq, hf]
    · intro hf
      convert h using 1
      simp [delD, hq, hf]
  · intro hq
    convert h using 1
    simp [delD, hq]

theorem delD_twin (d : Dcel K) (e f : Nat) : ((delD d e).he f).twin = (d.he f).twin := by
  unfold delD
  cases (d.he e).prev with
  | none => rfl
  | some p => exact linkH_twin ..

theorem delD_inc (d : Dcel K) (e f : Nat) : ((delD d e).he f).incident = (d.he f).incident := by
  unfold delD
  cases (d.he e).prev with
  | none => rfl
  | some p => exact linkH_inc ..

theorem delD_org (d : Dcel K) (e f : Nat) : ((delD d e).he f).origin = (d.he f).origin := by
  unfold delD
  cases (d.he e).prev with
  | none => rfl
  | some p => exact linkH_org ..

theorem delD_pos (d : Dcel K) (e v : Nat) : ((delD d e).vs v).pos = (d.vs v).pos := by
  unfold delD
  cases (d.he e).origin with
  | bp b => rfl
  | vtx w => by_cases h : v = w <;> simp [Function.update_apply, h]

theorem delD_conn (d : Dcel K) (e v : Nat) : ((delD d e).vs v).conn = if (d.he e).origin = .vtx v then (d.vs v).conn.erase e else (d.vs v).conn := by
  unfold delD
  cases (d.he e).origin with
  | bp b => simp
  | vtx w =>
    by_cases h : v = w
    · subst h; simp
    · simp [Function.update_apply, h]
      intro hh; exact absurd hh.symm h

theorem keeps_del (d : Dcel K) (e : Nat) : Keeps (· = e) d (delD d e) where
  heCnt := rfl
  vCnt := le_rfl
  twin := delD_twin d e
  inc := delD_inc d e
  org f _ := delD_org d e f
  pos v _ := delD_pos d e v
  sub v _ := by
    rw [delD_conn]
    split
    · exact List.erase_sublist
    · exact List.Sublist.refl _
  connK v _ c hx hc := by
    rw [delD_conn]
    split
    · exact (List.mem_erase_of_ne hx).mpr hc
    · exact hc
  conn1 v _ c hx hc := by
    rw [delD_conn, hc]
    split
    · exact List.erase_of_not_mem (by simpa using fun hh => hx hh.symm)
    · rfl

theorem DOk.del {d : Dcel K} (h : DOk d) {e : Nat} (he : e < d.heCnt) : DOk (delD d e) where
  tw f hf := by
    obtain ⟨t, h1, h2, h3, h4⟩ := h.tw f hf
    exact ⟨t, h1, h2, by rw [delD_twin]; exact h3, by rw [delD_twin]; exact h4⟩
  nx f hf g hg := by
    rw [delD_inc, delD_inc]
    have hg' : (match (d.he e).prev with | some p => linkH d.he p (d.he e).next | none => d.he) f = (delD d e).he f := rfl
    rw [← hg'] at hg
    cases hp : (d.he e).prev with
    | none => rw [hp] at hg; exact h.nx f hf g hg
    | some p =>
      rw [hp] at hg
      simp only [linkH_next] at hg
      split at hg
      · rename_i hfp
        obtain ⟨h1, h2⟩ := h.nx e he g hg
        obtain ⟨h3, h4⟩ := h.pv e he p hp
        exact ⟨h1, by rw [h2, hfp, h4]⟩
      · exact h.nx f hf g hg
  pv f hf g hg := by
    rw [delD_inc, delD_inc]
    have hg' : (match (d.he e).prev with | some p => linkH d.he p (d.he e).next | none => d.he) f = (delD d e).he f := rfl
    rw [← hg'] at hg
    cases hp : (d.he e).prev with
    | none => rw [hp] at hg; exact h.pv f hf g hg
    | some p =>
      rw [hp] at hg
      simp only [linkH_prev] at hg
      split at hg
      · rename_i hn
        obtain ⟨h1, h2⟩ := h.nx e he f hn
        obtain ⟨h3, h4⟩ := h.pv e he p hp
        simp only [Option.some.injEq] at hg
        subst hg
        exact ⟨h3, by rw [h2, h4]⟩
      · exact h.pv f hf g hg
  org f hf v hv := by
    rw [delD_org] at hv; exact h.org f hf v hv
  fe p f hf := by
    rw [delD_inc]
    have hf' : (delD d e).fe p = (match (d.he e).incident with
      | some q => if d.fe q = some e then Function.update d.fe q (d.he e).next else d.fe
      | none => d.fe) p := rfl
    rw [hf'] at hf
    cases hi : (d.he e).incident with
    | none => rw [hi] at hf; exact h.fe p f hf
    | some q =>
      rw [hi] at hf
      simp only at hf
      split at hf
      · rename_i hfe
        by_cases hpq : p = q
        · subst hpq
          simp only [Function.update_self] at hf
          obtain ⟨h1, h2⟩ := h.nx e he f hf
          exact ⟨h1, by rw [h2, hi]⟩
        · rw [Function.update_of_ne hpq] at hf; exact h.fe p f hf
      · exact h.fe p f hf
  clt v hv c hc := h.clt v hv c ((keeps_del d e).conn v hv c hc)
  cnd v hv := by
    rw [delD_conn]
    split
    · exact (h.cnd v hv).erase e
    · exact h.cnd v hv

end Foronoi
