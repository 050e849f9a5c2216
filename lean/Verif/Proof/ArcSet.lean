import Verif.Proof.Bridge

/-!
# The set `v.arcs`

Every site event adds the arc of the new site, and a circle event removes the arc that disappears.  Copies of arcs made when an arc is
split are not in the set, but the arc that was split stays in it.  So every site with an arc on the beach line has an arc in the set.
-/

namespace Foronoi

open scoped List

variable {K : Type} [LinearOrder K] [Arith K]

/-- The arc is on the beach line. -/
def ArcIn (L : List (Item Dat)) (a : Nat) : Prop := ∃ x ∈ L, x.d = .arc a

structure ASet (s : St K) (L : List (Item Dat)) : Prop where
  lt : ∀ a ∈ s.arcSet, a < s.arcCnt
  nd : s.arcSet.Nodup
  nm : ∀ a ∈ s.arcSet, (s.names (s.og a)).isSome
  inj : ∀ a ∈ s.arcSet, ∀ b ∈ s.arcSet, s.og a = s.og b → a = b
  has : ∀ a, ArcIn L a → ∃ b ∈ s.arcSet, s.og b = s.og a
  one : ∀ b ∈ s.arcSet, ArcIn L b → ∀ a, ArcIn L a → s.og a = s.og b → a = b

variable {pts : Nat → K × K} {q : PQ (QE K)} {ok : List (QE K) → Prop} {n pc : Nat} {poly : Poly K}
variable {s s' s1 : St K} {L L' : List (Item Dat)} {e : QE K} {rest : List (QE K)}

theorem ArcIn.orig {og : Nat → Nat} {a : Nat} (h : ArcIn L a) : og a ∈ origs og L := by
  obtain ⟨x, hx, hd⟩ := h
  obtain ⟨A, B, rfl⟩ := List.append_of_mem hx
  obtain ⟨i, f, d⟩ := x
  simp only at hd
  subst hd
  simp

theorem ArcIn.lt {og : Nat → Nat} {pr : Nat → Nat × Nat} {aC bC : Nat} (hb : BOk og pr aC bC L) {a : Nat} (h : ArcIn L a) : a < aC := by
  obtain ⟨x, hx, hd⟩ := h
  rcases hb.kind x hx with ⟨a', _, h1, h2⟩ | ⟨b, _, h1, _⟩
  · rw [h1] at hd; cases hd; exact h2
  · rw [h1] at hd; cases hd

/-- A site event: the new arc `s.arcCnt` is in the set, copies of the arc `a` are on the beach line. -/
theorem ASet.site (h : ASet s L) (hlt : ∀ a, ArcIn L a → a < s.arcCnt) {p : Nat} (hnew : s.names p = none)
    (hset : s'.arcSet = s.arcCnt :: s.arcSet) (hcnt : s.arcCnt < s'.arcCnt) (hog : ∀ b < s.arcCnt, s'.og b = s.og b)
    (hogn : s'.og s.arcCnt = p) (hnm : ∀ r, (s'.names r).isSome ↔ r = p ∨ (s.names r).isSome)
    (hin : ∀ b, ArcIn L' b → b = s.arcCnt ∨ (b < s.arcCnt ∧ ArcIn L b) ∨
      (s.arcCnt < b ∧ ∃ a, ArcIn L a ∧ ¬ ArcIn L' a ∧ s'.og b = s.og a)) : ASet s' L' := by
  have hpn : ∀ b ∈ s.arcSet, s.og b ≠ p := by
    intro b hb hh
    have := h.nm b hb
    rw [hh, hnew] at this
    simp at this
  have hpin : ∀ b, ArcIn L b → s.og b ≠ p := by
    intro b hb hh
    obtain ⟨c, hc, hcb⟩ := h.has b hb
    exact hpn c hc (hcb.trans hh)
  refine ⟨?_, ?_, ?_, ?_, ?_, ?_⟩
  · intro a ha
    rw [hset] at ha
    rcases List.mem_cons.mp ha with rfl | ha
    · exact hcnt
    · have := h.lt a ha; omega
  · rw [hset, List.nodup_cons]
    exact ⟨fun hh => by have := h.lt _ hh; omega, h.nd⟩
  · intro a ha
    rw [hset] at ha
    rcases List.mem_cons.mp ha with rfl | ha
    · rw [hogn, hnm]; exact Or.inl rfl
    · rw [hog a (h.lt a ha), hnm]; exact Or.inr (h.nm a ha)
  · intro a ha b hb hab
    rw [hset] at ha hb
    rcases List.mem_cons.mp ha with rfl | ha
    · rcases List.mem_cons.mp hb with rfl | hb
      · rfl
      · rw [hogn, hog b (h.lt b hb)] at hab
        exact absurd hab.symm (hpn b hb)
    · rcases List.mem_cons.mp hb with rfl | hb
      · rw [hogn, hog a (h.lt a ha)] at hab
        exact absurd hab (hpn a ha)
      · rw [hog a (h.lt a ha), hog b (h.lt b hb)] at hab
        exact h.inj a ha b hb hab
  · intro b hb
    rw [hset]
    rcases hin b hb with rfl | ⟨hbl, hb'⟩ | ⟨_, a, ha, _, hba⟩
    · exact ⟨_, by simp, rfl⟩
    · obtain ⟨c, hc, hcb⟩ := h.has b hb'
      exact ⟨c, by simp [hc], by rw [hog c (h.lt c hc), hog b hbl, hcb]⟩
    · obtain ⟨c, hc, hcb⟩ := h.has a ha
      exact ⟨c, by simp [hc], by rw [hog c (h.lt c hc), hba, hcb]⟩
  · intro b hb hbin a ha hab
    rw [hset] at hb
    rcases List.mem_cons.mp hb with rfl | hb
    · rcases hin a ha with rfl | ⟨hal, ha'⟩ | ⟨_, a', ha', _, hba⟩
      · rfl
      · rw [hog a hal, hogn] at hab
        exact absurd hab (hpin a ha')
      · rw [hba, hogn] at hab
        exact absurd hab (hpin a' ha')
    · have hbl := h.lt b hb
      have hbL : ArcIn L b := by
        rcases hin b hbin with rfl | ⟨_, hh⟩ | ⟨hh, _⟩
        · omega
        · exact hh
        · omega
      rw [hog b hbl] at hab
      rcases hin a ha with rfl | ⟨hal, ha'⟩ | ⟨_, a', ha', hout, hba⟩
      · rw [hogn] at hab
        exact absurd hab.symm (hpin b hbL)
      · rw [hog a hal] at hab
        exact h.one b hb hbL a ha' hab
      · rw [hba] at hab
        have := h.one b hb hbL a' ha' hab
        exact absurd (this ▸ hbin) hout

/-- A circle event: the arc `a` leaves the beach line and the set. -/
theorem ASet.circle (h : ASet s L) {a : Nat} (ha : ArcIn L a) (hset : s'.arcSet = s.arcSet.erase a) (hcnt : s'.arcCnt = s.arcCnt)
    (hog : s'.og = s.og) (hnm : s'.names = s.names) (hin : ∀ b, ArcIn L' b → ArcIn L b ∧ b ≠ a) : ASet s' L' := by
  have hsub : ∀ b ∈ s'.arcSet, b ∈ s.arcSet := by
    intro b hb
    rw [hset] at hb
    exact List.mem_of_mem_erase hb
  refine ⟨?_, ?_, ?_, ?_, ?_, ?_⟩
  · intro b hb; rw [hcnt]; exact h.lt b (hsub b hb)
  · rw [hset]; exact h.nd.erase a
  · intro b hb; rw [hog, hnm]; exact h.nm b (hsub b hb)
  · intro b hb c hc hbc; rw [hog] at hbc; exact h.inj b (hsub b hb) c (hsub c hc) hbc
  · intro b hb
    obtain ⟨hbL, hne⟩ := hin b hb
    obtain ⟨c, hc, hcb⟩ := h.has b hbL
    refine ⟨c, ?_, by rw [hog]; exact hcb⟩
    rw [hset]
    refine (List.mem_erase_of_ne ?_).mpr hc
    rintro rfl
    exact hne (h.one c hc ha b hbL hcb.symm)
  · intro b hb hbin c hc hcb
    rw [hog] at hcb
    exact h.one b (hsub b hb) (hin b hbin).1 c (hin c hc).1 hcb

theorem names_update {f : Nat → Option Nat} {p v r : Nat} :
    (Function.update f p (some v) r).isSome ↔ r = p ∨ (f r).isSome := by
  rw [Function.update_apply]
  split
  · next hr => exact ⟨fun _ => Or.inl hr, fun _ => rfl⟩
  · next hr => exact ⟨Or.inr, fun hh => hh.resolve_left hr⟩

theorem siteItems_kind {inter : Bool} {y : Item Dat} (hy : y ∈ siteItems s inter) :
    y.d = .bp s.bpCnt ∨ y.d = .bp (s.bpCnt + 1) ∨ y.d = .arc s.arcCnt ∨ y.d = .arc (s.arcCnt + 1) ∨ y.d = .arc (s.arcCnt + 2) := by
  cases inter
  · simp only [siteItems, Bool.false_eq_true, if_false, List.mem_cons, List.not_mem_nil, or_false] at hy
    rcases hy with rfl | rfl | rfl <;> simp
  · simp only [siteItems, if_true, List.mem_cons, List.not_mem_nil, or_false] at hy
    rcases hy with rfl | rfl | rfl | rfl | rfl <;> simp

variable [ArithLaws K] [MidLt pts n]

theorem ASet.step (hI : Inv pts ok n pc s L) (h : ASet s L) (hq : q.Spec evLt ok) (hp : q.pop s.queue = some (e, rest))
    (hst : EvStep pts q e rest s L s' L') : ASet s' L' := by
  have hlt : ∀ a, ArcIn L a → a < s.arcCnt := fun a ha => ha.lt hI.beach
  cases hst with
  | skip hc hv => exact ⟨h.lt, h.nd, h.nm, h.inj, h.has, h.one⟩
  | @first s1 _ hc hf =>
    have hnew := (pop_site hI hq hp hc).2
    have hfeq := hf.eq
    have e1 : s1.arcSet = s.arcCnt :: s.arcSet := by rw [hfeq]; rfl
    have e2 : s1.arcCnt = s.arcCnt + 1 := by rw [hfeq]; rfl
    have e3 : s1.og = Function.update s.og s.arcCnt e.ref := by
      funext b
      show (s1.arcs b).origin = _
      rw [hfeq]
      show (Function.update s.arcs s.arcCnt ⟨e.ref, none⟩ b).origin = _
      simp only [Function.update_apply, St.og]
      split <;> rfl
    have e4 : s1.names = Function.update s.names e.ref (some s.nextName) := by rw [hfeq]; rfl
    refine h.site (s' := stepEnd (.site e.ref) s1) hlt (p := e.ref) hnew.2.1 e1 (by show s.arcCnt < s1.arcCnt; omega) ?_ ?_ ?_ ?_
    · intro b hb
      show s1.og b = _
      rw [e3, Function.update_of_ne (by omega)]
    · show s1.og _ = _
      rw [e3, Function.update_self]
    · intro r
      show (s1.names r).isSome ↔ _
      rw [e4]
      exact names_update
    · rintro b ⟨x, hx, hd⟩
      rw [hf.list] at hx
      left
      simp only [List.mem_singleton] at hx
      subst hx
      simp only [Dat.arc.injEq] at hd
      exact hd.symm
  | @site s1 _ pre post m a inter hc hpost hn =>
    have hnew := (pop_site hI hq hp hc).2
    obtain ⟨log', hlog, hfeq⟩ := hn.eq
    have hnd := hI.beach.nd
    have haL : ArcIn L a := ⟨⟨m, true, .arc a⟩, by rw [hn.split]; simp, rfl⟩
    have halt := hlt a haL
    have hdis : ∀ x ∈ pre ++ post, x.d ≠ .arc a := by
      intro x hx hd
      rw [hn.split, List.map_append, List.map_cons, List.nodup_middle] at hnd
      rw [List.nodup_cons] at hnd
      refine hnd.1 ?_
      rw [← List.map_append]
      exact List.mem_map.mpr ⟨x, hx, hd⟩
    have hpp : ∀ b x, x ∈ pre ++ post → x.d = .arc b → b < s.arcCnt ∧ ArcIn L b := by
      intro b x hx hd
      have : ArcIn L b := ⟨x, by rw [hn.split]; simp only [List.mem_append, List.mem_cons] at hx ⊢; tauto, hd⟩
      exact ⟨hlt b this, this⟩
    have e1 : s1.arcSet = s.arcCnt :: s.arcSet := by
      cases inter
      · rw [hfeq]; rfl
      · rw [hfeq]; exact checkAdd_arcSet ..
    have e2 : s.arcCnt < s1.arcCnt := by
      cases inter
      · rw [hfeq]; show s.arcCnt < s.arcCnt + 2; omega
      · have : s1.arcCnt = s.arcCnt + 3 := by rw [hfeq]; exact checkAdd_arcCnt ..
        omega
    have e3 : s1.og = (siteMid (siteStart e rest s) e.ref a inter).og := by
      cases inter
      · rw [hfeq]; rfl
      · rw [hfeq]; exact checkAdd_og ..
    have e4 : s1.names = Function.update s.names e.ref (some s.nextName) := by
      cases inter
      · rw [hfeq]; rfl
      · rw [hfeq]; exact checkAdd_names ..
    refine h.site (s' := stepEnd (.site e.ref) s1) hlt (p := e.ref) hnew.2.1 e1 e2 ?_ ?_ ?_ ?_
    · intro b hb
      show s1.og b = _
      rw [e3]
      cases inter
      · simp only [siteMid, siteStart, St.og, Function.update_apply, Bool.false_eq_true, if_false]
        rw [if_neg (by omega), if_neg (by omega)]
      · simp only [siteMid, siteStart, St.og, Function.update_apply, if_true]
        rw [if_neg (by omega), if_neg (by omega), if_neg (by omega)]
    · show s1.og _ = _
      rw [e3]
      cases inter <;> simp [siteMid, siteStart, St.og, Function.update_apply]
    · intro r
      show (s1.names r).isSome ↔ _
      rw [e4]
      exact names_update
    · rintro b ⟨x, hx, hd⟩
      have hout : ¬ ArcIn L' a := by
        rintro ⟨y, hy, hyd⟩
        rw [hn.list] at hy
        simp only [List.mem_append] at hy
        rcases hy with hy | hy | hy
        · exact hdis y (by simp [hy]) hyd
        · have : y.d = .bp s.bpCnt ∨ y.d = .bp (s.bpCnt + 1) ∨ y.d = .arc s.arcCnt ∨ y.d = .arc (s.arcCnt + 1) ∨
              y.d = .arc (s.arcCnt + 2) := siteItems_kind hy
          rw [hyd] at this
          simp only [Dat.arc.injEq, reduceCtorEq, false_or] at this
          omega
        · exact hdis y (by simp [hy]) hyd
      rw [hn.list] at hx
      simp only [List.mem_append] at hx
      rcases hx with hx | hx | hx
      · exact Or.inr (Or.inl (hpp b x (by simp [hx]) hd))
      · show b = _ ∨ _ ∨ (_ ∧ ∃ a, _ ∧ _ ∧ s1.og b = s.og a)
        rw [e3]
        cases inter
        · simp only [siteItems, siteStart, Bool.false_eq_true, if_false, List.mem_cons, List.not_mem_nil, or_false] at hx
          rcases hx with rfl | rfl | rfl
          · simp only [Dat.arc.injEq] at hd
            refine Or.inr (Or.inr ⟨by omega, a, haL, hout, ?_⟩)
            rw [← hd]; simp [siteMid, siteStart, St.og]
          · simp at hd
          · simp only [Dat.arc.injEq] at hd
            exact Or.inl hd.symm
        · simp only [siteItems, siteStart, if_true, List.mem_cons, List.not_mem_nil, or_false] at hx
          rcases hx with rfl | rfl | rfl | rfl | rfl
          · simp only [Dat.arc.injEq] at hd
            refine Or.inr (Or.inr ⟨by omega, a, haL, hout, ?_⟩)
            rw [← hd]; simp [siteMid, siteStart, St.og, Function.update_apply]
          · simp at hd
          · simp only [Dat.arc.injEq] at hd
            exact Or.inl hd.symm
          · simp at hd
          · simp only [Dat.arc.injEq] at hd
            refine Or.inr (Or.inr ⟨by omega, a, haL, hout, ?_⟩)
            rw [← hd]; simp [siteMid, siteStart, St.og]
      · exact Or.inr (Or.inl (hpp b x (by simp [hx]) hd))
  | @circle s1 _ P m u le ri tl tr ue re hc hv hcev hmk hpre hn =>
    obtain ⟨log', hlog, hfeq⟩ := hn.eq
    have hnd := hI.beach.nd
    have hsplit := hn.split
    refine h.circle (s' := stepEnd (.circle e.ref) s1) (a := P.a)
      ⟨⟨P.n, true, .arc P.a⟩, by rw [hsplit]; simp [Place.list], rfl⟩ ?_ ?_ ?_ ?_ ?_
    · show s1.arcSet = _
      rw [hfeq]; exact checkAdd_arcSet ..
    · show s1.arcCnt = _
      rw [hfeq]; exact checkAdd_arcCnt ..
    · show s1.og = _
      rw [hfeq]; exact checkAdd_og ..
    · show s1.names = _
      rw [hfeq]; exact checkAdd_names ..
    · rintro b ⟨x, hx, hd⟩
      rw [hn.list] at hx
      have hx' : x.d = .bp u ∨ x ∈ P.pre ++ ⟨P.n1, true, .arc P.a1⟩ :: ⟨P.n3, true, .arc P.a3⟩ :: P.post := by
        simp only [Place.rest, List.mem_append, List.mem_cons, List.not_mem_nil, or_false] at hx ⊢
        rcases hx with hx | (rfl | rfl | rfl) | hx
        · exact Or.inr (Or.inl hx)
        · exact Or.inr (Or.inr (Or.inl rfl))
        · exact Or.inl rfl
        · exact Or.inr (Or.inr (Or.inr (Or.inl rfl)))
        · exact Or.inr (Or.inr (Or.inr (Or.inr hx)))
      rcases hx' with hx' | hx'
      · rw [hx'] at hd; cases hd
      · constructor
        · refine ⟨x, ?_, hd⟩
          rw [hsplit]
          simp only [Place.list, List.mem_append, List.mem_cons, List.not_mem_nil, or_false] at hx' ⊢
          tauto
        · rintro rfl
          have hperm : (L.map (·.d)) ~ .arc P.a :: (.bp P.b1 :: .bp P.b2 ::
              (P.pre ++ ⟨P.n1, true, .arc P.a1⟩ :: ⟨P.n3, true, .arc P.a3⟩ :: P.post).map (·.d)) := by
            rw [hsplit, Place.list]
            refine List.perm_iff_count.mpr fun y => ?_
            simp only [List.map_append, List.map_cons, List.map_nil, List.count_append, List.count_cons, List.count_nil]
            omega
          have h2 := (hperm.nodup_iff.mp hnd)
          rw [List.nodup_cons] at h2
          refine h2.1 ?_
          rw [← hd]
          simp only [List.mem_cons]
          exact Or.inr (Or.inr (List.mem_map.mpr ⟨x, hx', rfl⟩))

theorem reach_aset (hq : q.Spec evLt ok) (h : Reach pts q n poly s) : ∃ L, Inv pts ok n poly.points.length s L ∧ ASet s L :=
  reach_follow (J := ASet) hq ⟨by simp [startSt, initSt], by simp [startSt, initSt], by simp [startSt, initSt], by simp [startSt, initSt],
      by rintro a ⟨x, hx, _⟩; simp at hx, by simp [startSt, initSt]⟩
    (fun _ _ _ _ _ _ hI hJ hp hst _ => ASet.step hI hJ hq hp hst) h

end Foronoi
