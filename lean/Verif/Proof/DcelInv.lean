import Verif.Proof.EventsStep

/-!
# The invariant of the half-edge structure during the sweep
-/

namespace Foronoi

open scoped List

variable {K : Type} [LinearOrder K] [Arith K]
variable {pts : Nat → K × K} {q : PQ (QE K)}

/-- A vertex made by a circle event: three half-edges leave it, around the sites `p`, `x`, `r`, and it lies at the centre of
their circle. -/
structure VOk (pts : Nat → K × K) (d : Dcel K) (v p x r e1 e2 e3 : Nat) : Prop where
  conn : (d.vs v).conn = [e1, e2, e3] ∨ (d.vs v).conn = [e2, e1, e3]
  ne12 : e1 ≠ e2
  ne13 : e1 ≠ e3
  ne23 : e2 ≠ e3
  lt : e1 < d.heCnt ∧ e2 < d.heCnt ∧ e3 < d.heCnt
  org : (d.he e1).origin = .vtx v ∧ (d.he e2).origin = .vtx v ∧ (d.he e3).origin = .vtx v
  inc : (d.he e1).incident = some x ∧ (d.he e2).incident = some r ∧ (d.he e3).incident = some p
  tinc : (∃ t, (d.he e1).twin = some t ∧ (d.he t).incident = some p) ∧
    (∃ t, (d.he e2).twin = some t ∧ (d.he t).incident = some x) ∧ (∃ t, (d.he e3).twin = some t ∧ (d.he t).incident = some r)
  pos : ∃ n ev, mkEv pts n (p, x, r) = some ev ∧ (d.vs v).pos = some ev.center

/-- Half-edge records. -/
structure DInv (pts : Nat → K × K) (pc : Nat) (done : Nat → Prop) (d : Dcel K) (bps : Nat → BpR) (bpCnt : Nat)
    (verts edges : List Nat) (L : List (Item Dat)) : Prop where
  tw : ∀ e < d.heCnt, ∃ t, (d.he e).twin = some t ∧ t < d.heCnt ∧ t ≠ e ∧ (d.he t).twin = some e
  inc : ∀ e < d.heCnt, ∃ p, (d.he e).incident = some p ∧ done p
  incne : ∀ e < d.heCnt, ∀ t, (d.he e).twin = some t → (d.he t).incident ≠ (d.he e).incident
  obp : ∀ e < d.heCnt, ∀ b, (d.he e).origin = .bp b → b < bpCnt ∧ (bps b).edge = some e ∧
    (d.he e).incident = some (bps b).pair.2 ∧ ∀ t, (d.he e).twin = some t → (d.he t).incident = some (bps b).pair.1
  tbp : ∀ m b, (⟨m, false, .bp b⟩ : Item Dat) ∈ L → ∃ e < d.heCnt, (bps b).edge = some e ∧ (d.he e).origin = .bp b
  ovt : ∀ e < d.heCnt, ∀ v, (d.he e).origin = .vtx v → v ∈ verts ∧ e ∈ (d.vs v).conn
  vts : ∀ v ∈ verts, pc ≤ v ∧ v < d.vCnt ∧ ∃ p x r e1 e2 e3, VOk pts d v p x r e1 e2 e3
  vnd : verts.Nodup
  vcnt : verts.length + pc = d.vCnt
  nx : ∀ e < d.heCnt, ∀ f, (d.he e).next = some f → f < d.heCnt ∧ (d.he f).prev = some e ∧
    (d.he f).incident = (d.he e).incident ∧ ∀ t, (d.he e).twin = some t → (d.he f).origin = (d.he t).origin
  pv : ∀ e < d.heCnt, ∀ f, (d.he e).prev = some f → f < d.heCnt ∧ (d.he f).next = some e
  nxn : ∀ e < d.heCnt, ∀ t, (d.he e).twin = some t → ((d.he e).next = none ↔ ∃ b, (d.he t).origin = .bp b)
  pvn : ∀ e < d.heCnt, ((d.he e).prev = none ↔ ∃ b, (d.he e).origin = .bp b)
  end_ : edges.Nodup
  elt : ∀ e ∈ edges, e < d.heCnt
  etw : ∀ e < d.heCnt, ∀ t, (d.he e).twin = some t → (e ∈ edges ↔ t ∉ edges)
  ecnt : 2 * edges.length = d.heCnt
  fe : ∀ p e, d.fe p = some e → e < d.heCnt ∧ (d.he e).incident = some p
  feAll : ∀ e < d.heCnt, ∀ p, (d.he e).incident = some p → (d.fe p).isSome
  poly : ∀ v < pc, (d.vs v).conn = []

abbrev St.DInv (pts : Nat → K × K) (pc : Nat) (s : St K) (L : List (Item Dat)) : Prop :=
  Foronoi.DInv pts pc (fun p => (s.names p).isSome) s.d s.bps s.bpCnt s.verts s.edges L

variable {d : Dcel K} {bps : Nat → BpR} {bpCnt pc : Nat} {done : Nat → Prop} {verts edges : List Nat} {L : List (Item Dat)}

theorem DInv.mono {done' : Nat → Prop} (h : DInv pts pc done d bps bpCnt verts edges L) (hd : ∀ p, done p → done' p) :
    DInv pts pc done' d bps bpCnt verts edges L :=
  { h with inc := fun e he => by obtain ⟨p, h1, h2⟩ := h.inc e he; exact ⟨p, h1, hd p h2⟩ }

theorem initF_some {fe : Nat → Option Nat} {p e x f : Nat} (h : initF fe p e x = some f) : fe x = some f ∨ (x = p ∧ f = e) := by
  unfold initF at h
  split at h
  · exact Or.inl h
  · rw [Function.update_apply] at h
    split at h
    · rename_i hx; right; exact ⟨hx, by simpa using h.symm⟩
    · exact Or.inl h

theorem initF_isSome {fe : Nat → Option Nat} {p e x : Nat} (h : (fe x).isSome ∨ x = p) : (initF fe p e x).isSome := by
  unfold initF
  split
  · rename_i hp
    rcases h with h | rfl
    · exact h
    · exact hp
  · rw [Function.update_apply]
    split
    · simp
    · rename_i hx
      rcases h with h | h
      · exact h
      · exact absurd h hx

/-- The two half-edges of a site event. -/
theorem DInv.site (h : DInv pts pc done d bps bpCnt verts edges L) {pj pi : Nat} (hne : pj ≠ pi) (hpi : done pi) (hpj : done pj)
    {L' : List (Item Dat)}
    (hL' : ∀ m b, (⟨m, false, .bp b⟩ : Item Dat) ∈ L' → (⟨m, false, .bp b⟩ : Item Dat) ∈ L ∨ b = bpCnt ∨ b = bpCnt + 1)
    (hlt : ∀ m b, (⟨m, false, .bp b⟩ : Item Dat) ∈ L → b < bpCnt) :
    DInv pts pc done (siteD d bpCnt (bpCnt + 1) pj pi)
      (Function.update (Function.update bps bpCnt ⟨(pj, pi), some d.heCnt⟩) (bpCnt + 1) ⟨(pi, pj), some (d.heCnt + 1)⟩)
      (bpCnt + 2) verts (edges ++ [d.heCnt]) L' := by
  obtain ⟨c, hc⟩ : ∃ c, c = d.heCnt := ⟨_, rfl⟩
  obtain ⟨d', hd'⟩ : ∃ d', d' = siteD d bpCnt (bpCnt + 1) pj pi := ⟨_, rfl⟩
  rw [← hd', ← hc]
  have e0 : d'.he c = ⟨.bp bpCnt, some pi, some (c + 1), none, none⟩ := by
    rw [hd', siteD, ← hc]; simp [Function.update_apply]
  have e1 : d'.he (c + 1) = ⟨.bp (bpCnt + 1), some pj, some c, none, none⟩ := by
    rw [hd', siteD, ← hc]; simp
  have eo : ∀ e < c, d'.he e = d.he e := by
    intro e he
    rw [hd', siteD, ← hc]; simp only [Function.update_apply]
    rw [if_neg (by omega), if_neg (by omega)]
  have hcnt : d'.heCnt = c + 2 := by rw [hd', hc]; rfl
  have hvs : d'.vs = d.vs := by rw [hd']; rfl
  have hvc : d'.vCnt = d.vCnt := by rw [hd']; rfl
  have hfe : d'.fe = initF (initF d.fe pi c) pj (c + 1) := by rw [hd', hc]; rfl
  have hbo : ∀ b < bpCnt, (Function.update (Function.update bps bpCnt ⟨(pj, pi), some c⟩) (bpCnt + 1) ⟨(pi, pj), some (c + 1)⟩) b = bps b := by
    intro b hb
    rw [Function.update_of_ne (by omega), Function.update_of_ne (by omega)]
  have hb0 : (Function.update (Function.update bps bpCnt ⟨(pj, pi), some c⟩) (bpCnt + 1) ⟨(pi, pj), some (c + 1)⟩) bpCnt = ⟨(pj, pi), some c⟩ := by
    rw [Function.update_of_ne (by omega), Function.update_self]
  have hb1 : (Function.update (Function.update bps bpCnt ⟨(pj, pi), some c⟩) (bpCnt + 1) ⟨(pi, pj), some (c + 1)⟩) (bpCnt + 1) = ⟨(pi, pj), some (c + 1)⟩ := by
    rw [Function.update_self]
  generalize (Function.update (Function.update bps bpCnt ⟨(pj, pi), some c⟩) (bpCnt + 1) ⟨(pi, pj), some (c + 1)⟩) = bps' at hbo hb0 hb1 ⊢
  have cases3 : ∀ e < d'.heCnt, e < c ∨ e = c ∨ e = c + 1 := by intro e he; omega
  have htw : ∀ e < c, ∀ t, (d.he e).twin = some t → t < c := by
    intro e he t ht
    obtain ⟨t', h1, h2, _⟩ := h.tw e (by omega)
    rw [ht] at h1; cases h1; omega
  refine ⟨?_, ?_, ?_, ?_, ?_, ?_, ?_, h.vnd, ?_, ?_, ?_, ?_, ?_, ?_, ?_, ?_, ?_, ?_, ?_, ?_⟩
  · intro e he
    rcases cases3 e he with he | rfl | rfl
    · obtain ⟨t, h1, h2, h3, h4⟩ := h.tw e (by omega)
      exact ⟨t, by rw [eo e he]; exact h1, by omega, h3, by rw [eo t (by omega)]; exact h4⟩
    · exact ⟨e + 1, by rw [e0], by omega, by omega, by rw [e1]⟩
    · exact ⟨c, by rw [e1], by omega, by omega, by rw [e0]⟩
  · intro e he
    rcases cases3 e he with he | rfl | rfl
    · rw [eo e he]; exact h.inc e (by omega)
    · exact ⟨pi, by rw [e0], hpi⟩
    · exact ⟨pj, by rw [e1], hpj⟩
  · intro e he t ht
    rcases cases3 e he with he | rfl | rfl
    · rw [eo e he] at ht ⊢
      rw [eo t (htw e he t ht)]
      exact h.incne e (by omega) t ht
    · rw [e0] at ht ⊢; cases ht; rw [e1]; simpa using hne
    · rw [e1] at ht ⊢; cases ht; rw [e0]; simpa using hne.symm
  · intro e he b hb
    rcases cases3 e he with he | rfl | rfl
    · rw [eo e he] at hb ⊢
      obtain ⟨h1, h2, h3, h4⟩ := h.obp e (by omega) b hb
      refine ⟨by omega, by rw [hbo b h1]; exact h2, by rw [hbo b h1]; exact h3, ?_⟩
      intro t ht
      rw [hbo b h1, eo t (htw e he t ht)]
      exact h4 t ht
    · rw [e0] at hb ⊢; cases hb
      refine ⟨by omega, by rw [hb0], by rw [hb0], ?_⟩
      intro t ht; cases ht; rw [hb0, e1]
    · rw [e1] at hb ⊢; cases hb
      refine ⟨by omega, by rw [hb1], by rw [hb1], ?_⟩
      intro t ht; cases ht; rw [hb1, e0]
  · intro m b hm
    rcases hL' m b hm with hm | rfl | rfl
    · have := hlt m b hm
      obtain ⟨e, h1, h2, h3⟩ := h.tbp m b hm
      exact ⟨e, by omega, by rw [hbo b this]; exact h2, by rw [eo e (by omega)]; exact h3⟩
    · exact ⟨c, by omega, by rw [hb0], by rw [e0]⟩
    · exact ⟨c + 1, by omega, by rw [hb1], by rw [e1]⟩
  · intro e he v hv
    rw [hvs]
    rcases cases3 e he with he | rfl | rfl
    · rw [eo e he] at hv; exact h.ovt e (by omega) v hv
    · rw [e0] at hv; cases hv
    · rw [e1] at hv; cases hv
  · intro v hv
    obtain ⟨h1, h2, p, x, r, a1, a2, a3, g⟩ := h.vts v hv
    refine ⟨h1, by omega, p, x, r, a1, a2, a3, ?_⟩
    obtain ⟨l1, l2, l3⟩ := g.lt
    obtain ⟨⟨t1, u1, w1⟩, ⟨t2, u2, w2⟩, ⟨t3, u3, w3⟩⟩ := g.tinc
    refine ⟨by rw [hvs]; exact g.conn, g.ne12, g.ne13, g.ne23, by omega, ?_, ?_, ?_, by rw [hvs]; exact g.pos⟩
    · rw [eo a1 (by omega), eo a2 (by omega), eo a3 (by omega)]; exact g.org
    · rw [eo a1 (by omega), eo a2 (by omega), eo a3 (by omega)]; exact g.inc
    · rw [eo a1 (by omega), eo a2 (by omega), eo a3 (by omega)]
      exact ⟨⟨t1, u1, by rw [eo t1 (htw a1 (by omega) t1 u1)]; exact w1⟩, ⟨t2, u2, by rw [eo t2 (htw a2 (by omega) t2 u2)]; exact w2⟩,
        ⟨t3, u3, by rw [eo t3 (htw a3 (by omega) t3 u3)]; exact w3⟩⟩
  · rw [hvc]; exact h.vcnt
  · intro e he f hf
    rcases cases3 e he with he | rfl | rfl
    · rw [eo e he] at hf ⊢
      obtain ⟨h1, h2, h3, h4⟩ := h.nx e (by omega) f hf
      rw [eo f (by omega)]
      exact ⟨by omega, h2, h3, fun t ht => by rw [eo t (htw e he t ht)]; exact h4 t ht⟩
    · rw [e0] at hf; cases hf
    · rw [e1] at hf; cases hf
  · intro e he f hf
    rcases cases3 e he with he | rfl | rfl
    · rw [eo e he] at hf
      obtain ⟨h1, h2⟩ := h.pv e (by omega) f hf
      rw [eo f (by omega)]
      exact ⟨by omega, h2⟩
    · rw [e0] at hf; cases hf
    · rw [e1] at hf; cases hf
  · intro e he t ht
    rcases cases3 e he with he | rfl | rfl
    · rw [eo e he] at ht ⊢
      rw [eo t (htw e he t ht)]
      exact h.nxn e (by omega) t ht
    · rw [e0] at ht ⊢; cases ht; rw [e1]; simp
    · rw [e1] at ht ⊢; cases ht; rw [e0]; simp
  · intro e he
    rcases cases3 e he with he | rfl | rfl
    · rw [eo e he]; exact h.pvn e (by omega)
    · rw [e0]; simp
    · rw [e1]; simp
  · rw [List.nodup_append]
    refine ⟨h.end_, by simp, ?_⟩
    intro a ha b hb
    have := h.elt a ha
    simp only [List.mem_singleton] at hb
    omega
  · intro e he
    rcases List.mem_append.mp he with he | he
    · have := h.elt e he; omega
    · simp only [List.mem_singleton] at he; omega
  · have hcn : c ∉ edges := fun hh => by have := h.elt c hh; omega
    have hcn1 : c + 1 ∉ edges := fun hh => by have := h.elt _ hh; omega
    intro e he t ht
    simp only [List.mem_append, List.mem_singleton]
    rcases cases3 e he with he | rfl | rfl
    · rw [eo e he] at ht
      have h1 := htw e he t ht
      have h2 := h.etw e (by omega) t ht
      constructor
      · rintro (h3 | h3)
        · intro h4; rcases h4 with h4 | h4
          · exact h2.mp h3 h4
          · omega
        · omega
      · intro h3
        left; exact h2.mpr fun h4 => h3 (Or.inl h4)
    · rw [e0] at ht; cases ht; simp [hcn1]
    · rw [e1] at ht; cases ht; simp [hcn1]
  · have := h.ecnt
    simp only [List.length_append, List.length_singleton]
    omega
  · intro p e hp
    rw [hfe] at hp
    rcases initF_some hp with hp | ⟨rfl, rfl⟩
    · rcases initF_some hp with hp | ⟨rfl, rfl⟩
      · obtain ⟨h1, h2⟩ := h.fe p e hp
        exact ⟨by omega, by rw [eo e (by omega)]; exact h2⟩
      · exact ⟨by omega, by rw [e0]⟩
    · exact ⟨by omega, by rw [e1]⟩
  · intro e he p hp
    rw [hfe]
    refine initF_isSome ?_
    rcases cases3 e he with he | rfl | rfl
    · rw [eo e he] at hp
      exact Or.inl (initF_isSome (Or.inl (h.feAll e (by omega) p hp)))
    · rw [e0] at hp; cases hp
      exact Or.inl (initF_isSome (Or.inr rfl))
    · rw [e1] at hp; cases hp
      exact Or.inr rfl
  · rw [hvs]; exact h.poly

end Foronoi
