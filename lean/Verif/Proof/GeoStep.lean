import Verif.Proof.GeoBase

/-!
# Every event keeps the geometric invariant
-/

namespace Foronoi

open scoped List

variable {pts : Nat → Pt} {q : PQ (QE ℝ)} {ok : List (QE ℝ) → Prop} {n pc : Nat}

theorem BOk.split_unique {og : Nat → Nat} {pr : Nat → Nat × Nat} {aC bC : Nat} {L A B C D : List (Item Dat)} {x : Item Dat}
    (h : BOk og pr aC bC L) (h1 : L = A ++ x :: B) (h2 : L = C ++ x :: D) : A = C ∧ B = D := by
  have hnd : L.Nodup := List.Nodup.of_map _ h.nd
  rw [h1] at hnd
  have h5 := List.append_cons_inj_of_notMem (x₁ := A) (x₂ := C) (z₁ := B) (z₂ := D) (a₁ := x) (a₂ := x) (by
      intro hm
      rw [List.nodup_append] at hnd
      exact hnd.2.2 _ hm _ (by simp) rfl) (by
      intro hm
      rw [List.nodup_append, List.nodup_cons] at hnd
      exact hnd.2.1.1 hm)
  have := h5.mp (h1.symm.trans h2)
  exact ⟨this.1, this.2.2⟩

/-- Three neighbours on the beach line as points. -/
theorem apts_triple {s : St ℝ} {P R : List (Item Dat)} {m x : Nat} {t : Nat × Nat × Nat} (h : tripleAt s.og P x R = some t) :
    ∃ B C, apts pts s (P ++ ⟨m, true, .arc x⟩ :: R) = B ++ pts t.1 :: pts t.2.1 :: pts t.2.2 :: C := by
  unfold tripleAt at h
  split at h
  · rename_i i k h1 h2
    simp only [Option.some.injEq] at h
    subst h
    obtain ⟨B, hB⟩ := List.getLast?_eq_some_iff.mp h1
    obtain ⟨C, hC⟩ := List.head?_eq_some_iff.mp h2
    refine ⟨B.map pts, C.map pts, ?_⟩
    unfold apts
    rw [origs_append, origs_arc, hB, hC]
    simp
  · cases h

theorem addOpt_mem {s : St ℝ} {x : Nat} {o : Option (CevR ℝ)} (hq : q.Spec evLt ok) (hok : ok s.queue) {f : QE ℝ}
    (h : f ∈ (addOpt q x s o).queue) : f ∈ s.queue ∨ ∃ ev, o = some ev ∧ f = cevQE ev s.evCnt := by
  cases o with
  | none => exact Or.inl h
  | some ev =>
    have hperm := hq.push_perm (cevQE ev s.evCnt) s.queue hok
    rcases List.mem_cons.mp (hperm.mem_iff.mp h) with h | h
    · exact Or.inr ⟨ev, rfl, h⟩
    · exact Or.inl h

theorem checkAdd_mem {s : St ℝ} {al ar : Nat} {le re : Option (CevR ℝ)} (hq : q.Spec evLt ok) (hok : ok s.queue) {f : QE ℝ}
    (h : f ∈ (checkAdd q al ar le re s).queue) :
    f ∈ s.queue ∨ (∃ ev r, le = some ev ∧ f = cevQE ev r) ∨ (∃ ev r, re = some ev ∧ f = cevQE ev r) := by
  have hok' : ok (addOpt q al s le).queue := by
    cases le with
    | none => exact hok
    | some ev => exact hq.push_ok _ _ hok
  unfold checkAdd at h
  rcases addOpt_mem hq hok' h with h | ⟨ev, h1, h2⟩
  · rcases addOpt_mem hq hok h with h | ⟨ev, h1, h2⟩
    · exact Or.inl h
    · exact Or.inr (Or.inl ⟨ev, _, h1, h2⟩)
  · exact Or.inr (Or.inr ⟨ev, _, dropRight_some h1, h2⟩)

/-- Splitting a list of three parts at an element. -/
theorem split3 {α : Type} {pre Y post P R : List α} {z : α} (h : pre ++ (Y ++ post) = P ++ z :: R) :
    (∃ M, pre = P ++ z :: M ∧ R = M ++ (Y ++ post)) ∨ z ∈ Y ∨ (∃ M, P = pre ++ Y ++ M ∧ post = M ++ z :: R) := by
  rw [List.append_eq_append_iff] at h
  rcases h with ⟨M, h5, h6⟩ | ⟨M, h5, h6⟩
  · rw [List.append_eq_append_iff] at h6
    rcases h6 with ⟨N, h7, h8⟩ | ⟨N, h7, h8⟩
    · exact Or.inr (Or.inr ⟨N, by rw [h5, h7, List.append_assoc], h8⟩)
    · cases N with
      | nil =>
        simp only [List.nil_append] at h8
        simp only [List.append_nil] at h7
        exact Or.inr (Or.inr ⟨[], by rw [h5, h7]; simp, by simp [h8]⟩)
      | cons y N =>
        simp only [List.cons_append, List.cons.injEq] at h8
        exact Or.inr (Or.inl (by rw [h7, ← h8.1]; simp))
  · cases M with
    | nil =>
      simp only [List.nil_append] at h6
      cases Y with
      | nil =>
        refine Or.inr (Or.inr ⟨[], ?_, ?_⟩)
        · rw [h5]; simp
        · simpa using h6.symm
      | cons y Y =>
        simp only [List.cons_append, List.cons.injEq] at h6
        exact Or.inr (Or.inl (by rw [← h6.1]; simp))
    | cons y M =>
      simp only [List.cons_append, List.cons.injEq] at h6
      exact Or.inl ⟨M, by rw [h5, ← h6.1], h6.2⟩

theorem tripleAt_pre {og og' : Nat → Nat} {P M Y Y' post : List (Item Dat)} {x : Nat}
    (h : ∀ z ∈ P ++ M, ∀ a, z.d = .arc a → og' a = og a) (hx : og' x = og x)
    (hY : (origs og' Y').head? = (origs og Y).head?) (hne : (origs og Y).head? ≠ none) :
    tripleAt og' P x (M ++ (Y' ++ post)) = tripleAt og P x (M ++ (Y ++ post)) := by
  refine tripleAt_congr ?_ ?_ hx
  · rw [origs_congr fun z hz a ha => h z (by simp [hz]) a ha]
  · simp only [origs_append]
    rw [origs_congr fun z hz a ha => h z (by simp [hz]) a ha]
    refine head?_app _ _ _ ?_
    rw [List.head?_append, List.head?_append, hY]
    cases hh : (origs og Y).head? with
    | none => exact absurd hh hne
    | some y => rfl

theorem tripleAt_post {og og' : Nat → Nat} {pre M Y Y' R : List (Item Dat)} {x : Nat}
    (h : ∀ z ∈ M ++ R, ∀ a, z.d = .arc a → og' a = og a) (hx : og' x = og x)
    (hY : (origs og' Y').getLast? = (origs og Y).getLast?) (hne : (origs og Y).getLast? ≠ none) :
    tripleAt og' (pre ++ Y' ++ M) x R = tripleAt og (pre ++ Y ++ M) x R := by
  refine tripleAt_congr ?_ ?_ hx
  · simp only [origs_append]
    rw [origs_congr (L := M) fun z hz a ha => h z (by simp [hz]) a ha]
    refine getLast?_app _ _ _ ?_
    rw [List.getLast?_append, List.getLast?_append, hY]
    cases hh : (origs og Y).getLast? with
    | none => exact absurd hh hne
    | some y => rfl
  · rw [origs_congr fun z hz a ha => h z (by simp [hz]) a ha]

/-! ### dropping the right event is harmless -/

theorem same_center {q z z' : Pt} {m : ℝ} (hq : m < q.2) (h1 : dsq q z = (z.2 - m) ^ 2) (h2 : dsq q z' = (z'.2 - m) ^ 2)
    (hx : z.1 = z'.1) : z = z' := by
  refine Prod.ext hx ?_
  rw [eq_par hq h1, eq_par hq h2, hx]

theorem drop_circle {S : Set Pt} {l : ℝ} {B C : List Pt} {x a c y : Pt} (h : Env S l (B ++ x :: a :: c :: y :: C))
    (hd1 : det x a c < 0) (hd2 : det a c y < 0) (hb : cbot x a c = cbot a c y) (hx : ccx x a c = ccx a c y)
    (hdue : Due S a c y) : False := by
  obtain ⟨g1, g2, _⟩ := h.cw rfl hd1
  have ha := h.cw_mid rfl hd1
  obtain ⟨k1, k2, _, _⟩ := circ_spec hd1.ne
  obtain ⟨j1, _, _, _⟩ := circ_spec hd2.ne
  have hal : cbot x a c < a.2 := by linarith
  have hz : ((ccx x a c, ccy x a c) : Pt) = (ccx a c y, ccy a c y) :=
    same_center (m := cbot x a c) hal k2 (by rw [hb]; exact j1) hx
  have hxS : x ∈ S := h.mem (by simp)
  obtain ⟨u1, u2⟩ := hdue.2.2 x hxS (by
    rw [← hz, ← hb]; unfold pw; simp only; rw [k1]; ring)
  rw [← hb, ← hx] at u1
  rw [← hb] at u2
  have hxl := h.low x hxS
  rcases eq_or_lt_of_le (g1.trans hxl) with he | hlt
  · have := u2 he.symm
    linarith
  · have := g2.ori_pos (h.pair rfl).1 hlt hal
    simp only at this
    linarith

theorem drop_site {S : Set Pt} {l : ℝ} {B C : List Pt} {a r p c : Pt} (h : Env S l (B ++ a :: r :: p :: r :: c :: C)) (hp : p.2 = l)
    (hd1 : det a r p < 0) (hd2 : det p r c < 0) (hb : cbot a r p = cbot p r c) (hx : ccx a r p = ccx p r c)
    (hdue : Due S p r c) : False := by
  obtain ⟨g1, g2, g3⟩ := h.cw rfl hd1
  have hr := h.cw_mid rfl hd1
  have hne : cbot a r p ≠ l := by
    intro he
    have := (h.circle_x rfl hd1 he).2.1
    linarith
  have hlt : cbot a r p < l := lt_of_le_of_ne g1 hne
  obtain ⟨k1, k2, _, _⟩ := circ_spec hd1.ne
  obtain ⟨_, j2, _, _⟩ := circ_spec hd2.ne
  have hz : ((ccx a r p, ccy a r p) : Pt) = (ccx p r c, ccy p r c) :=
    same_center (m := cbot a r p) (q := r) (by linarith) k2 (by rw [hb]; exact j2) hx
  have haS : a ∈ S := h.mem (by simp)
  have hal := h.low a haS
  obtain ⟨u1, _⟩ := hdue.2.2 a haS (by
    rw [← hz, ← hb]; unfold pw; simp only; rw [k1]; ring)
  rw [← hb, ← hx] at u1
  have hrp : r ≠ p := (h.pair (B := B ++ [a]) (a := r) (b := p) (C := r :: c :: C) (by simp)).1
  have := (meet (h.pair rfl).1 hrp g2 g3 (by linarith) (by linarith) (by linarith) (Or.inl (by linarith))).2.2 (by linarith) (by linarith)
  simp only at this
  linarith

/-- A site below the lowest point of a circle is outside of it. -/
theorem pw_below {p z : Pt} {m : ℝ} (h1 : p.2 ≤ m) (h2 : m ≤ z.2) : 0 ≤ pw p m z := by
  unfold pw dsq
  nlinarith [sq_nonneg (p.1 - z.1)]

/-! ### the first site -/

theorem GInv.first {s s1 : St ℝ} {L L' : List (Item Dat)} (hI : Inv pts ok n pc s L) (hq : q.Spec evLt ok)
    {e : QE ℝ} {rest : List (QE ℝ)} (hp : q.pop s.queue = some (e, rest)) (hc : e.circ = false)
    (hs : SiteFirst e.ref (siteStart e rest s) L s1 L') : GInv pts (stepEnd (.site e.ref) s1) L' e.yd := by
  obtain ⟨h1, h2, h3, h4⟩ := pop_site hI hq hp hc
  have hmin := hq.pop_min _ _ _ hI.qinv.ok hp
  have hL := hs.nil
  have hnone : ∀ p, s.names p = none := by
    intro p
    cases hh : s.names p with
    | none => rfl
    | some k =>
      have := (hI.sinv.nmLt p k hh).1
      rw [hI.sinv.empty.mp hL] at this
      omega
  have hH : Handled pts (stepEnd (.site e.ref) s1) = {pts e.ref} := by
    ext x
    have : (stepEnd (.site e.ref) s1).names = Function.update s.names e.ref (some s.nextName) := by
      show s1.names = _
      rw [hs.eq]; rfl
    simp only [Handled, this, Set.mem_setOf_eq, Set.mem_singleton_iff]
    constructor
    · rintro ⟨p, hp, rfl⟩
      by_cases hpe : p = e.ref
      · rw [hpe]
      · rw [Function.update_of_ne hpe, hnone] at hp; simp at hp
    · rintro rfl
      exact ⟨e.ref, by simp, rfl⟩
  have hA : apts pts (stepEnd (.site e.ref) s1) L' = [pts e.ref] := by
    show (origs s1.og L').map pts = _
    rw [hs.origs_eq]; rfl
  have hy : e.yd = (pts e.ref).2 := by rw [h1]; rfl
  refine ⟨?_, ?_, ?_, ?_, ?_⟩
  · show s1.sweep = _
    rw [hs.eq]; rfl
  · intro f hf
    have hf' : f ∈ rest := by
      have : s1.queue = rest := by rw [hs.eq]; rfl
      rw [← this]; exact hf
    exact (evLt_false (hmin f hf')).1
  · left
    rw [hH, hA, hy]
    exact TopRow.one _
  · intro P m a R t hL' ht hd
    obtain ⟨B, C, h⟩ := apts_triple (pts := pts) (m := m) ht
    rw [← hL', hA] at h
    have := congrArg List.length h
    simp at this
    omega
  · intro f hf v p z ho hi hz
    have hd : (stepEnd (.site e.ref) s1).d = s.d := by
      show s1.d = _
      rw [hs.eq]; rfl
    rw [hd] at hf hi
    obtain ⟨p', h5, h6⟩ := hI.dinv.inc f hf
    rw [hnone] at h6
    simp at h6

/-! ### a further site -/

theorem handled_site {s s' : St ℝ} {p k : Nat} (h : s'.names = Function.update s.names p (some k)) (hp : s.names p = none) :
    Handled pts s' = Insert.insert (pts p) (Handled pts s) := by
  ext x
  simp only [Handled, h, Set.mem_setOf_eq, Set.mem_insert_iff]
  constructor
  · rintro ⟨p', hp', rfl⟩
    by_cases hpe : p' = p
    · exact Or.inl (by rw [hpe])
    · rw [Function.update_of_ne hpe] at hp'
      exact Or.inr ⟨p', hp', rfl⟩
  · rintro (rfl | ⟨p', hp', rfl⟩)
    · exact ⟨p, by simp, rfl⟩
    · have : p' ≠ p := by rintro rfl; rw [hp] at hp'; simp at hp'
      exact ⟨p', by rw [Function.update_of_ne this]; exact hp', rfl⟩

/-- The vertices stay right when a site is added. -/
theorem GInv.vtx_site {s s' : St ℝ} {L : List (Item Dat)} {l : ℝ} (hG : GInv pts s L l) {e : QE ℝ} (hle : e.yd ≤ l) {pj pi b b' : Nat}
    (hpi : (pts pi).2 = e.yd) (hd : s'.d = siteD s.d b b' pj pi) (hH : Handled pts s' = Insert.insert (pts pi) (Handled pts s)) :
    ∀ f < s'.d.heCnt, ∀ v p z, (s'.d.he f).origin = .vtx v → (s'.d.he f).incident = some p → (s'.d.vs v).pos = some z →
      ∃ m, e.yd ≤ m ∧ m ≤ z.2 ∧ dsq (pts p) z = (z.2 - m) ^ 2 ∧ ∀ c ∈ Handled pts s', 0 ≤ pw c m z := by
  intro f hf v p z ho hi hz
  rw [hd] at hf ho hi hz
  have hlt : f < s.d.heCnt := by
    by_contra hcon
    have hff : f = s.d.heCnt ∨ f = s.d.heCnt + 1 := by simp only [siteD] at hf; omega
    rcases hff with rfl | rfl <;> simp [siteD, Function.update_apply] at ho
  have heq : (siteD s.d b b' pj pi).he f = s.d.he f := by
    simp only [siteD, Function.update_apply]
    rw [if_neg (by omega), if_neg (by omega)]
  rw [heq] at ho hi
  obtain ⟨m, h1, h2, h3, h4⟩ := hG.vtx f hlt v p z ho hi hz
  refine ⟨m, hle.trans h1, h2, h3, ?_⟩
  rw [hH]
  rintro c (rfl | hc)
  · exact pw_below (by linarith) h2
  · exact h4 c hc

theorem BOk.arc_lt {og : Nat → Nat} {pr : Nat → Nat × Nat} {aC bC : Nat} {L : List (Item Dat)} (h : BOk og pr aC bC L)
    {x : Item Dat} (hx : x ∈ L) {a : Nat} (ha : x.d = .arc a) : a < aC := by
  rcases h.kind x hx with ⟨b', _, h1, h2⟩ | ⟨b', _, h1, _⟩
  · rw [ha] at h1; cases h1; exact h2
  · rw [ha] at h1; cases h1

/-- Two entries of the beach line with the same arc are the same. -/
theorem BOk.arc_ne {og : Nat → Nat} {pr : Nat → Nat × Nat} {aC bC : Nat} {A B : List (Item Dat)} {m a : Nat}
    (h : BOk og pr aC bC (A ++ ⟨m, true, .arc a⟩ :: B)) {x : Item Dat} (hx : x ∈ A ++ B) : x.d ≠ .arc a := by
  intro hd
  have hnd := h.nd
  simp only [List.map_append, List.map_cons, List.nodup_append, List.nodup_cons, List.mem_cons, List.mem_map] at hnd
  rcases List.mem_append.mp hx with hx | hx
  · exact hnd.2.2 _ ⟨x, hx, rfl⟩ _ (Or.inl rfl) hd
  · exact hnd.2.1.1 ⟨x, hx, hd⟩

theorem apts_append (s : St ℝ) (A B : List (Item Dat)) : apts pts s (A ++ B) = apts pts s A ++ apts pts s B := by simp [apts]

theorem apts_arc (s : St ℝ) (i a : Nat) (f : Bool) (A : List (Item Dat)) : apts pts s (⟨i, f, .arc a⟩ :: A) = pts (s.og a) :: apts pts s A := by
  simp [apts]

theorem GInv.site {s s1 : St ℝ} {L L' pre post : List (Item Dat)} {l : ℝ} {m a : Nat} {inter : Bool} (hinj : Set.InjOn pts {p | p < n})
    (hI : Inv pts ok n pc s L) (hG : GInv pts s L l) (hq : q.Spec evLt ok)
    {e : QE ℝ} {rest : List (QE ℝ)} (hp : q.pop s.queue = some (e, rest)) (hc : e.circ = false) (hpost : inter = false → post = [])
    (hs : SiteNext pts q e.ref (siteStart e rest s) L s1 L' pre post m a inter)
    (hI' : Inv pts ok n pc (stepEnd (.site e.ref) s1) L') : GInv pts (stepEnd (.site e.ref) s1) L' e.yd := by
  obtain ⟨h1, h2, h3, h4⟩ := pop_site hI hq hp hc
  have hmin := hq.pop_min _ _ _ hI.qinv.ok hp
  have hperm := hq.pop_perm _ _ _ hI.qinv.ok hp
  obtain ⟨hle, hor⟩ := hG.next hI hq hp
  have hy : e.yd = (pts e.ref).2 := by rw [h1]; rfl
  have hx : e.xd = (pts e.ref).1 := by rw [h1]; rfl
  obtain ⟨log', _, heq⟩ := hs.eq
  have hL := hs.split
  have hb : BOk s.og s.pr s.arcCnt s.bpCnt L := hI.beach
  -- sites on the sweep line are left of the new one
  have hlast : ∀ c ∈ Handled pts s, c.2 = e.yd → c.1 < (pts e.ref).1 := by
    rintro c ⟨p, hpn, rfl⟩ hcy
    obtain ⟨_, g2, _⟩ := evLt_false (h4 p hpn)
    have g3 := g2 (by rw [← hcy]; rfl)
    have g4 : (pts p).1 ≤ (pts e.ref).1 := by rw [← hx]; exact g3
    refine lt_of_le_of_ne g4 fun hh => ?_
    have hpe : pts p = pts e.ref := Prod.ext hh (by rw [hcy, hy])
    obtain ⟨k, hk⟩ := Option.isSome_iff_exists.mp hpn
    have := hinj (hI.sinv.nmLt p k hk).2 h2 hpe
    rw [this, h3] at hpn; simp at hpn
  have hnames : (stepEnd (.site e.ref) s1).names = Function.update s.names e.ref (some s.nextName) := by
    show s1.names = _
    rw [heq]; cases inter
    · rfl
    · exact checkAdd_names ..
  have hH := handled_site (pts := pts) hnames h3
  have hsw : (stepEnd (.site e.ref) s1).sweep = some e.yd := by
    show s1.sweep = _
    rw [heq]; cases inter
    · rfl
    · exact checkAdd_sweep ..
  have hd : (stepEnd (.site e.ref) s1).d = siteD s.d s.bpCnt (s.bpCnt + 1) (s.arcs a).origin e.ref := by
    show s1.d = _
    rw [heq]; cases inter
    · rfl
    · exact checkAdd_d ..
  have hvtx := hG.vtx_site hle hy.symm hd hH
  have horigs : origs s1.og L' = origs s.og pre ++ ((if inter then [(s.arcs a).origin, e.ref, (s.arcs a).origin] else [(s.arcs a).origin, e.ref]) ++
      origs s.og post) := hs.origs_eq hb
  have hAL : apts pts s L = apts pts s pre ++ pts (s.og a) :: apts pts s post := by rw [hL, apts_append, apts_arc]
  have hrest : ∀ f ∈ rest, f.yd ≤ e.yd := fun f hf => (evLt_false (hmin f hf)).1
  -- the topmost row
  rcases hor with hE | ⟨hel, hT⟩
  swap
  · have haS : pts (s.og a) ∈ Handled pts s := (hT.mem _).mp (by rw [hAL]; simp)
    have hint : inter = false := by
      rw [hs.int]
      have g1 := hT.row _ haS
      have g2 := hlast _ haS (by rw [g1, hel])
      unfold doesIntersect
      have g3 : (pts e.ref).2 = (pts (s.og a)).2 := by rw [g1, ← hel, hy]
      show (!(decide ((pts e.ref).2 = (pts (s.og a)).2) && decide ((pts (s.og a)).1 < (pts e.ref).1))) = false
      rw [decide_eq_true g3, decide_eq_true g2]; rfl
    have hpn := hpost hint
    subst hint; subst hpn
    have hA' : apts pts (stepEnd (.site e.ref) s1) L' = apts pts s L ++ [pts e.ref] := by
      show (origs s1.og L').map pts = _
      rw [horigs, hAL]
      simp [apts, St.og]
    have hT' : TopRow (Handled pts (stepEnd (.site e.ref) s1)) e.yd (apts pts (stepEnd (.site e.ref) s1) L') := by
      rw [hH, hA', hel]
      exact hT.snoc (by rw [← hy, hel]) fun c hc => hlast c hc (by rw [hT.row c hc, hel])
    refine ⟨hsw, ?_, Or.inl hT', ?_, hvtx⟩
    · intro f hf
      have : s1.queue = rest := by rw [heq]; rfl
      exact hrest f (by rw [← this]; exact hf)
    · intro P m' x R t hL' ht hdue
      obtain ⟨B, C, h⟩ := apts_triple (pts := pts) (m := m') ht
      rw [← hL'] at h
      exact absurd hdue.1 (hT'.no_cw (by rw [h]; simp) (by rw [h]; simp) (by rw [h]; simp))
  -- the place found by the search
  obtain ⟨t, hio, l', hl', hlook⟩ := hs.found
  have hll : l' = e.yd := by
    have : (siteStart e rest s).sweep = some e.yd := rfl
    rw [this] at hl'; simpa using hl'.symm
  subst hll
  obtain ⟨pre', post', g1, g2, g3⟩ := lookup_left hlook
  rw [hio] at g1
  obtain ⟨rfl, rfl⟩ := hb.split_unique hL g1
  have hmemS : ∀ i ∈ origs s.og L, pts i ∈ Handled pts s := fun i hi => hE.mem (List.mem_map.mpr ⟨i, hi, rfl⟩)
  have hlow : ∀ i ∈ origs s.og L, e.yd ≤ (pts i).2 := fun i hi => hE.low _ (hmemS i hi)
  have hkey : ∀ b i j, s.pr b = (i, j) → i ∈ origs s.og L → j ∈ origs s.og L →
      keyOf pts (siteStart e rest s).bps (siteStart e rest s).arcs e.yd (.bp b) = some (bpX (pts i) (pts j) e.yd) := by
    intro b i j hb hi hj
    simp only [keyOf]
    have e1 : ((siteStart e rest s).bps b).pair = (i, j) := hb
    rw [e1]
    exact getIntersection_isSome (hlow i hi) (hlow j hj) none
  -- the right neighbour
  have hright : ∀ b ∈ (apts pts s post).head?, (pts e.ref).1 ≤ bpX (pts (s.og a)) b e.yd := by
    intro b' hb'
    rcases (hL ▸ hb).post_cases with hpn | ⟨mb, b, n', a', post2, hpn, hpair⟩
    · rw [hpn] at hb'; simp [apts] at hb'
    · obtain ⟨k, hk, hle'⟩ := g2 _ _ hpn
      rw [hkey b _ _ hpair (by rw [hL]; simp) (by rw [hL, hpn]; simp)] at hk
      have : b' = pts (s.og a') := by
        rw [hpn] at hb'
        simpa [apts] using hb'.symm
      rw [this]
      simp only [Option.some.injEq] at hk
      rw [hk]; exact hle'
  have hsame : apts pts s L = apts pts s pre ++ pts (s.og a) :: apts pts s post := hAL
  have hAok := hE.arcs _ _ _ hsame
  -- the left neighbour
  have hleft : ∀ c ∈ (apts pts s pre).getLast?, bpX c (pts (s.og a)) e.yd < (pts e.ref).1 := by
    intro c hc'
    rcases (hL ▸ hb).pre_cases with hpn | ⟨pre2, n', a', mb, b, hpn, hpair⟩
    · rw [hpn] at hc'; simp [apts] at hc'
    have hcc : c = pts (s.og a') := by
      rw [hpn] at hc'
      simpa [apts] using hc'.symm
    rcases g3 with g3 | ⟨bi, rest', hpo, hkx⟩
    · obtain ⟨k, hk, hlt⟩ := g3 ⟨mb, false, .bp b⟩ (by rw [hpn]; simp)
      rw [hkey b _ _ hpair (by rw [hL, hpn]; simp) (by rw [hL]; simp)] at hk
      rw [hcc]
      simp only [Option.some.injEq] at hk
      rw [hk]; exact hlt
    · rcases (hL ▸ hb).post_cases with hpn' | ⟨mb', b', n'', a'', post2, hpn', hpair'⟩
      · rw [hpn'] at hpo; cases hpo
      rw [hpn'] at hpo
      simp only [List.cons.injEq] at hpo
      rw [← hpo.1, hkey b' _ _ hpair' (by rw [hL]; simp) (by rw [hL, hpn']; simp)] at hkx
      simp only [Option.some.injEq] at hkx
      have hsr := hAok.srt c hc' (pts (s.og a'')) (by rw [hpn']; simp [apts])
      rw [hkx] at hsr
      refine lt_of_le_of_ne hsr fun hh => ?_
      have haS : pts (s.og a) ∈ Handled pts s := hmemS _ (by rw [hL]; simp)
      rcases eq_or_lt_of_le (hE.low _ haS) with hdeg | hnd
      · obtain ⟨⟨c', hc'', _, ec⟩, _⟩ := hE.head_deg hsame hdeg.symm
        have : c' = c := by rw [hc''] at hc'; simpa using hc'
        subst this
        have := hlast _ haS hdeg.symm
        linarith
      · obtain ⟨D, hD⟩ := List.getLast?_eq_some_iff.mp hc'
        have := hG.no_zero hI hq hp hc hE (B := D) (a := c) (b := pts (s.og a)) (c := pts (s.og a'')) (C := apts pts s post2)
          (by rw [hsame, hD, hpn']; simp [apts]) hnd (by rw [hkx]; exact hh)
        rw [hh, hx] at this
        exact lt_irrefl _ this
  obtain ⟨haq, hE'⟩ := (hsame ▸ hE).site hy.symm ⟨fun c hc => (hleft c hc).le, hright⟩ hleft hlast
  have hint : inter = true := by
    rw [hs.int]
    have : ¬ (pts e.ref).2 = (pts (s.og a)).2 := by rw [← hy]; exact ne_of_lt haq
    show (!(decide ((pts e.ref).2 = (pts (s.og a)).2) && decide ((pts (s.og a)).1 < (pts e.ref).1))) = true
    rw [decide_eq_false this]; rfl
  subst hint
  have hA' : apts pts (stepEnd (.site e.ref) s1) L' = apts pts s pre ++ pts (s.og a) :: pts e.ref :: pts (s.og a) :: apts pts s post := by
    show (origs s1.og L').map pts = _
    rw [horigs]
    simp [apts, St.og]
  rw [← hA', ← hH] at hE'
  simp only [if_true] at heq
  -- the queue
  have hQ0 : QInv pts ok (siteStart e rest s) L := (hI.qinv.pop hq hp).congr rfl rfl rfl rfl rfl
  have hb0 : BOk (siteStart e rest s).og (siteStart e rest s).pr (siteStart e rest s).arcCnt (siteStart e rest s).bpCnt L := hb
  obtain ⟨s0, hs0⟩ : ∃ s0, s0 = siteStart e rest s := ⟨_, rfl⟩
  have f1 : s0.arcs = s.arcs := by rw [hs0]; rfl
  have f2 : s0.arcCnt = s.arcCnt := by rw [hs0]; rfl
  have f3 : s0.queue = rest := by rw [hs0]; rfl
  have f4 : s0.evs = s.evs := by rw [hs0]; rfl
  have f5 : s0.og = s.og := by rw [hs0]; rfl
  have hlist := hs.list
  rw [← hs0] at hQ0 hb0 heq hlist
  have hQm := siteMid_qinv (pi := e.ref) (inter := true) (hL ▸ hb0) (hL ▸ hQ0) (by simp)
  have hno : ∀ x, s0.arcCnt ≤ x → NoEv (siteMid s0 e.ref a true) x := by
    intro x hx e _ _ _ hc
    rw [siteMid_fresh hQ0.fresh hx] at hc
    cases hc
  have hev := HasEv.checkAdd hQm hq (A := pre) (B := (siteItems s0 true).drop 1 ++ post)
    (n := s0.ns.cnt + 1) (m := 0) (al := s0.arcCnt + 1) (ar := s0.arcCnt + 2) (C := []) (D := []) (by simp [siteItems]) (by simp [siteMid]) (by omega)
    (hno _ (by omega)) (o := siteRe pts s0 (siteMid s0 e.ref a true) pre post)
  obtain ⟨k1, k2, k3⟩ := hev
  have hqueue : s1.queue = (checkAdd q (s0.arcCnt + 1) (s0.arcCnt + 2) (siteLe pts s0 (siteMid s0 e.ref a true) pre post)
        (siteRe pts s0 (siteMid s0 e.ref a true) pre post) (siteMid s0 e.ref a true)).queue := by rw [heq]
  have hevs : s1.evs = (checkAdd q (s0.arcCnt + 1) (s0.arcCnt + 2) (siteLe pts s0 (siteMid s0 e.ref a true) pre post)
        (siteRe pts s0 (siteMid s0 e.ref a true) pre post) (siteMid s0 e.ref a true)).evs := by rw [heq]
  have harcs : s1.arcs = (checkAdd q (s0.arcCnt + 1) (s0.arcCnt + 2) (siteLe pts s0 (siteMid s0 e.ref a true) pre post)
        (siteRe pts s0 (siteMid s0 e.ref a true) pre post) (siteMid s0 e.ref a true)).arcs := by rw [heq]
  have hog1 : s1.og = (siteMid s0 e.ref a true).og := by rw [heq]; exact checkAdd_og ..
  have toEv : ∀ x, HasEv (checkAdd q (s0.arcCnt + 1) (s0.arcCnt + 2) (siteLe pts s0 (siteMid s0 e.ref a true) pre post)
        (siteRe pts s0 (siteMid s0 e.ref a true) pre post) (siteMid s0 e.ref a true)) x → HasEv (stepEnd (.site e.ref) s1) x := by
    rintro x ⟨f, hf, hfc, hfv, hfa⟩
    refine ⟨f, ?_, hfc, ?_, ?_⟩
    · show f ∈ s1.queue; rw [hqueue]; exact hf
    · show (s1.evs f.ref).valid = true; rw [hevs]; exact hfv
    · show (s1.arcs x).cev = _; rw [harcs]; exact hfa
  have hsplitL : ∀ (P R : List (Item Dat)) (m' x : Nat), L' = P ++ ⟨m', true, .arc x⟩ :: R → ∀ t, tripleAt s1.og P x R = some t →
      ∃ B C, apts pts (stepEnd (.site e.ref) s1) L' = B ++ pts t.1 :: pts t.2.1 :: pts t.2.2 :: C := by
    intro P R m' x hL' t ht
    obtain ⟨B, C, h⟩ := apts_triple (pts := pts) (s := stepEnd (.site e.ref) s1) (m := m') ht
    exact ⟨B, C, by rw [← h, hL']⟩
  have spl1 : L' = pre ++ ⟨s0.ns.cnt + 1, true, .arc (s0.arcCnt + 1)⟩ :: ((siteItems s0 true).drop 1 ++ post) := by
    rw [hlist]; simp [siteItems]
  have spl2 : L' = (pre ++ (siteItems s0 true).take 4) ++ ⟨s0.ns.cnt + 4, true, .arc (s0.arcCnt + 2)⟩ :: post := by
    rw [hlist]; simp [siteItems]
  have spl3 : L' = (pre ++ (siteItems s0 true).take 2) ++ ⟨s0.ns.cnt + 3, true, .arc s0.arcCnt⟩ :: ((siteItems s0 true).drop 3 ++ post) := by
    rw [hlist]; simp [siteItems]
  refine ⟨hsw, ?_, Or.inr hE', ?_, hvtx⟩
  · intro f hf
    have hf' : f ∈ s1.queue := hf
    rw [hqueue] at hf'
    rcases checkAdd_mem hq hQm.ok hf' with h | ⟨ev, r, h5, h6⟩ | ⟨ev, r, h5, h6⟩
    · refine hrest f ?_
      have : (siteMid s0 e.ref a true).queue = rest := f3
      rw [← this]; exact h
    · obtain ⟨t, h7, h8⟩ := Option.bind_eq_some_iff.mp h5
      obtain ⟨h9, h10, _, _⟩ := mkEv_spec h8 r
      rw [← hog1] at h7
      obtain ⟨B, C, h11⟩ := hsplitL _ _ _ _ spl1 t h7
      rw [h6, h10]
      exact (hE'.cw h11 h9).1
    · obtain ⟨t, h7, h8⟩ := Option.bind_eq_some_iff.mp h5
      obtain ⟨h9, h10, _, _⟩ := mkEv_spec h8 r
      rw [← hog1] at h7
      obtain ⟨B, C, h11⟩ := hsplitL _ _ _ _ spl2 t h7
      rw [h6, h10]
      exact (hE'.cw h11 h9).1
  · intro P m' x R t hL' ht hdue
    have ht' : tripleAt s1.og P x R = some t := ht
    have hsub : Handled pts s ⊆ Handled pts (stepEnd (.site e.ref) s1) := by rw [hH]; exact Set.subset_insert _ _
    -- arcs that stay
    have hold : x < s.arcCnt → x ≠ a → HasEv s x → HasEv (stepEnd (.site e.ref) s1) x := by
      rintro hxlt hxa ⟨f, hf, hfc, hfv, hfa⟩
      refine toEv x (k1 x (by omega) (by omega) ⟨f, ?_, hfc, ?_, ?_⟩)
      · show f ∈ s0.queue
        rw [f3]
        rcases List.mem_cons.mp (hperm.mem_iff.mp hf) with rfl | hf
        · rw [hc] at hfc; cases hfc
        · exact hf
      · show (killEv s0.evs (s0.arcs a).cev f.ref).valid = true
        rw [f1, f4]
        have hne : (s.arcs a).cev ≠ some f.ref := fun hh => hxa (hI.qinv.cevInj x a f.ref hfa hh)
        cases ho : (s.arcs a).cev with
        | none => exact hfv
        | some c =>
          simp only [killEv]
          rw [Function.update_of_ne (by rintro rfl; exact hne ho)]
          exact hfv
      · rw [siteMid_arcs (by omega), f1]; exact hfa
    have hogOld : ∀ z ∈ L, ∀ b, z.d = .arc b → s1.og b = s.og b := by
      intro z hz b hzb
      rw [hog1]
      simp only [St.og]
      rw [siteMid_arcs (by rw [f2]; exact hb.arc_lt hz hzb), f1]
    have hlist' : pre ++ (siteItems s0 true ++ post) = P ++ ⟨m', true, .arc x⟩ :: R := by rw [← hlist, hL']
    have hYh : (origs s1.og (siteItems s0 true)).head? = (origs s.og [⟨m, true, .arc a⟩]).head? := by
      rw [hog1]; simp [siteItems, siteMid, St.og, Function.update_apply, f1]
    have hYl : (origs s1.og (siteItems s0 true)).getLast? = (origs s.og [⟨m, true, .arc a⟩]).getLast? := by
      rw [hog1]; simp [siteItems, siteMid, St.og, Function.update_apply, f1]
    rcases split3 hlist' with ⟨M, hM1, hM2⟩ | hin | ⟨M, hM1, hM2⟩
    · have hmem : (⟨m', true, .arc x⟩ : Item Dat) ∈ pre := by rw [hM1]; simp
      have hxa : x ≠ a := by
        rintro rfl
        exact (hL ▸ hb).arc_ne (x := ⟨m', true, .arc x⟩) (List.mem_append_left _ hmem) rfl
      have hxlt : x < s.arcCnt := hb.arc_lt (x := ⟨m', true, .arc x⟩) (by rw [hL]; simp [hmem]) rfl
      refine hold hxlt hxa ?_
      have htr : tripleAt s.og P x (M ++ ([⟨m, true, .arc a⟩] ++ post)) = some t := by
        rw [← ht', hM2]
        refine (tripleAt_pre ?_ ?_ hYh (by simp)).symm
        · intro z hz b hzb
          refine hogOld z ?_ b hzb
          rw [hL, hM1]; simp at hz ⊢; tauto
        · exact hogOld ⟨m', true, .arc x⟩ (by rw [hL]; simp [hmem]) x rfl
      exact hG.nc P m' x _ t (by rw [hL, hM1]; simp) htr (hdue.mono hsub)
    · simp only [siteItems, if_true, List.mem_cons, Item.mk.injEq, Dat.arc.injEq, true_and, List.not_mem_nil, or_false,
        reduceCtorEq, and_false, false_or, Bool.true_eq_false, false_and] at hin
      rcases hin with ⟨rfl, rfl⟩ | ⟨rfl, rfl⟩ | ⟨rfl, rfl⟩
      · -- the left part of the split arc
        obtain ⟨rfl, rfl⟩ := hI'.beach.split_unique hL' spl1
        obtain ⟨ev, hev⟩ := mkEv_isSome (pts := pts) (m := s0.ns.cnt + 1) hdue.1
        refine toEv _ (k2 ev ?_)
        rw [← hog1, ht']
        exact hev
      · -- the new arc
        obtain ⟨rfl, rfl⟩ := hI'.beach.split_unique hL' spl3
        exfalso
        have : t = (s.og a, e.ref, s.og a) := by
          rw [hog1] at ht'
          simpa [tripleAt, siteItems, siteMid, St.og, Function.update_apply, f1] using ht'.symm
        have hdd := hdue.1
        rw [this] at hdd
        unfold det at hdd
        simp only at hdd
        ring_nf at hdd
        exact lt_irrefl _ hdd
      · -- the right part of the split arc
        obtain ⟨rfl, hR⟩ := hI'.beach.split_unique hL' spl2
        have hR' := hR.symm
        subst hR'
        obtain ⟨ev, hev⟩ := mkEv_isSome (pts := pts) (m := s0.ns.cnt + 4) hdue.1
        have hre : siteRe pts s0 (siteMid s0 e.ref a true) pre post = some ev := by
          unfold siteRe
          rw [← hog1, ht']; exact hev
        refine toEv _ (k3 ev (mkEv_valid hev).1 ?_)
        cases hle' : (tripleAt (siteMid s0 e.ref a true).og pre (s0.arcCnt + 1) ((siteItems s0 true).drop 1 ++ post)).bind
            (mkEv pts (s0.ns.cnt + 1)) with
        | none => rw [hre]; rfl
        | some lev =>
          rw [hre]
          simp only [dropRight]
          by_cases hdiff : eventsDiffer lev ev = true
          · rw [if_pos hdiff]
          exfalso
          obtain ⟨tl, h7, h8⟩ := Option.bind_eq_some_iff.mp hle'
          obtain ⟨l1, l2, l3, _⟩ := mkEv_spec h8 0
          obtain ⟨r1, r2, r3, _⟩ := mkEv_spec hev 0
          have heq2 : (cevQE lev 0).yd = (cevQE ev 0).yd ∧ (cevQE lev 0).xd = (cevQE ev 0).xd := by
            simpa [eventsDiffer, evEq] using hdiff
          -- the triples
          have htr : ∃ k, (origs s.og post).head? = some k ∧ t = (e.ref, s.og a, k) := by
            rw [hog1] at ht'
            unfold tripleAt at ht'
            have hcg : origs (siteMid s0 e.ref a true).og post = origs s.og post := origs_congr fun z hz b hzb => by
              rw [← hog1]; exact hogOld z (by rw [hL]; simp [hz]) b hzb
            rw [hcg] at ht'
            have e1 : (origs (siteMid s0 e.ref a true).og (pre ++ (siteItems s0 true).take 4)).getLast? = some e.ref := by
              simp [siteItems, siteMid, St.og, Function.update_apply]
            rw [e1] at ht'
            cases hh : (origs s.og post).head? with
            | none => rw [hh] at ht'; cases ht'
            | some k =>
              rw [hh] at ht'
              refine ⟨k, rfl, ?_⟩
              simpa [siteMid, St.og, Function.update_apply, f1] using ht'.symm
          have htl : ∃ i, (origs s.og pre).getLast? = some i ∧ tl = (i, s.og a, e.ref) := by
            unfold tripleAt at h7
            have hcg : origs (siteMid s0 e.ref a true).og pre = origs s.og pre := origs_congr fun z hz b hzb => by
              rw [← hog1]; exact hogOld z (by rw [hL]; simp [hz]) b hzb
            rw [hcg] at h7
            have e1 : (origs (siteMid s0 e.ref a true).og ((siteItems s0 true).drop 1 ++ post)).head? = some e.ref := by
              simp [siteItems, siteMid, St.og, Function.update_apply]
            rw [e1] at h7
            cases hh : (origs s.og pre).getLast? with
            | none => rw [hh] at h7; cases h7
            | some k =>
              rw [hh] at h7
              refine ⟨k, rfl, ?_⟩
              simpa [siteMid, St.og, Function.update_apply, f1] using h7.symm
          obtain ⟨k, hk, rfl⟩ := htr
          obtain ⟨i, hi, rfl⟩ := htl
          obtain ⟨B, hB⟩ := List.getLast?_eq_some_iff.mp hi
          obtain ⟨C, hC⟩ := List.head?_eq_some_iff.mp hk
          have hfull : apts pts (stepEnd (.site e.ref) s1) L' =
              B.map pts ++ pts i :: pts (s.og a) :: pts e.ref :: pts (s.og a) :: pts k :: C.map pts := by
            rw [hA']; unfold apts; rw [hB, hC]; simp
          rw [hfull] at hE'
          simp only at l1 l2 l3 r1 r2 r3 hdue
          exact drop_site hE' hy.symm l1 r1 (by rw [← l2, ← r2]; exact heq2.1) (by rw [← l3, ← r3]; exact heq2.2) hdue
    · have hmem : (⟨m', true, .arc x⟩ : Item Dat) ∈ post := by rw [hM2]; simp
      have hxa : x ≠ a := by
        rintro rfl
        exact (hL ▸ hb).arc_ne (x := ⟨m', true, .arc x⟩) (List.mem_append_right _ hmem) rfl
      have hxlt : x < s.arcCnt := hb.arc_lt (x := ⟨m', true, .arc x⟩) (by rw [hL]; simp [hmem]) rfl
      refine hold hxlt hxa ?_
      have htr : tripleAt s.og (pre ++ [⟨m, true, .arc a⟩] ++ M) x R = some t := by
        rw [← ht', hM1]
        refine (tripleAt_post ?_ ?_ hYl (by simp)).symm
        · intro z hz b hzb
          refine hogOld z ?_ b hzb
          rw [hL, hM2]; simp at hz ⊢; tauto
        · exact hogOld ⟨m', true, .arc x⟩ (by rw [hL]; simp [hmem]) x rfl
      exact hG.nc _ m' x R t (by rw [hL, hM2]; simp) htr (hdue.mono hsub)

end Foronoi
