import Mathlib.Data.Finset.Card
import Mathlib.Data.Finset.Range
import Verif.Proof.Sweep

/-!
# Every step keeps the invariant and decreases the measure
-/

namespace Foronoi

open scoped List

variable {K : Type} [LinearOrder K] [Arith K] {E : Err → Prop}
variable {pts : Nat → K × K} {q : PQ (QE K)} {ok : List (QE K) → Prop} {n pc : Nat}

theorem SiteFirst.origs_eq {pi : Nat} {s s' : St K} {L L' : List (Item Dat)} (hs : SiteFirst pi s L s' L') :
    origs s'.og L' = [pi] := by
  rw [hs.list]
  have : s'.og s.arcCnt = pi := by rw [hs.eq]; simp [St.og]
  simp only [origs_arc, origs_nil, this]

theorem SiteNext.origs_eq {pi : Nat} {s s' : St K} {L L' pre post : List (Item Dat)} {m a : Nat} {inter : Bool}
    (hs : SiteNext pts q pi s L s' L' pre post m a inter) (hb : BOk s.og s.pr s.arcCnt s.bpCnt L) :
    origs s'.og L' = origs s.og pre ++ ((if inter then [(s.arcs a).origin, pi, (s.arcs a).origin] else [(s.arcs a).origin, pi]) ++
      origs s.og post) := by
  obtain ⟨log', _, heq⟩ := hs.eq
  have e1 : s'.og = (siteMid s pi a inter).og := by
    rw [heq]
    cases inter
    · rfl
    · exact checkAdd_og ..
  have hlt : ∀ x ∈ L, ∀ b, x.d = .arc b → b < s.arcCnt := by
    intro x hx b hbx
    rcases hb.kind x hx with ⟨b', _, h1, h2⟩ | ⟨b', _, h1, _⟩
    · rw [hbx] at h1; cases h1; exact h2
    · rw [hbx] at h1; cases h1
  rw [hs.list, e1]
  rw [hs.split] at hlt
  simp only [origs_append]
  have h1 : origs (siteMid s pi a inter).og pre = origs s.og pre := origs_congr fun x hx b hbx => by
    simp only [St.og]; rw [siteMid_arcs (hlt x (by simp [hx]) b hbx)]
  have h2 : origs (siteMid s pi a inter).og post = origs s.og post := origs_congr fun x hx b hbx => by
    simp only [St.og]; rw [siteMid_arcs (hlt x (by simp [hx]) b hbx)]
  rw [h1, h2]
  cases inter
  · simp [siteItems, siteMid, St.og, Function.update_apply]
  · simp [siteItems, siteMid, St.og, Function.update_apply]

theorem CircNext.origs_eq {c : Nat} {s s' : St K} {L L' : List (Item Dat)} {P : Place} {m u le ri tl tr ue re : Nat}
    (hs : CircNext pts q c s L s' L' P m u le ri tl tr ue re) :
    origs s'.og L' = origs s.og P.pre ++ ([(s.arcs P.a1).origin, (s.arcs P.a3).origin] ++ origs s.og P.post) := by
  obtain ⟨log', _, heq⟩ := hs.eq
  have e1 : s'.og = s.og := by rw [heq]; exact checkAdd_og ..
  rw [hs.list, e1]
  simp [Place.rest]

theorem QInv.pop {s : St K} {L : List (Item Dat)} (h : QInv pts ok s L) (hq : q.Spec evLt ok) {e : QE K} {rest : List (QE K)}
    (hp : q.pop s.queue = some (e, rest)) : QInv pts ok { s with queue := rest } L := by
  have hperm := hq.pop_perm _ _ _ h.ok hp
  have hm : ∀ x ∈ rest, x ∈ s.queue := fun x hx => hperm.mem_iff.mpr (by simp [hx])
  refine ⟨hq.pop_ok _ _ _ h.ok hp, ?_, fun x hx => h.lt x (hm x hx), fun x hx => h.qe x (hm x hx), fun x hx => h.ev x (hm x hx),
    h.cevLt, h.cevInj, h.fresh⟩
  have := (hperm.map (fun e => (e.circ, e.ref))).nodup_iff.mp h.nd
  rw [List.map_cons, List.nodup_cons] at this
  exact this.2

theorem QInv.pop_ne {s : St K} {L : List (Item Dat)} (h : QInv pts ok s L) (hq : q.Spec evLt ok) {e : QE K} {rest : List (QE K)}
    (hp : q.pop s.queue = some (e, rest)) : ∀ x ∈ rest, x.circ = e.circ → x.ref ≠ e.ref := by
  have hperm := hq.pop_perm _ _ _ h.ok hp
  have := (hperm.map (fun e => (e.circ, e.ref))).nodup_iff.mp h.nd
  rw [List.map_cons, List.nodup_cons] at this
  intro x hx hc hr
  exact this.1 (List.mem_map.mpr ⟨x, hx, by rw [hc, hr]⟩)

/-- The site events in the queue after an event. -/
theorem SInv.next {s s' : St K} {L L' : List (Item Dat)} (h : SInv pts n s L) {rest X : List (QE K)}
    (hr : ∀ x ∈ rest, x ∈ s.queue) (hrall : ∀ x ∈ s.queue, x.circ = false → x ∈ rest)
    (hqueue : s'.queue ~ X ++ rest) (hX : ∀ e ∈ X, e.circ = true) (hn : s'.names = s.names) (hk : s'.nextName = s.nextName)
    (hused : ∀ p ∈ origs s'.og L', p ∈ origs s.og L) (hemp : L' = [] ↔ L = []) : SInv pts n s' L' := by
  have hmem : ∀ e ∈ s'.queue, e.circ = false → e ∈ rest := by
    intro e he hc
    rcases List.mem_append.mp (hqueue.mem_iff.mp he) with h' | h'
    · rw [hX e h'] at hc; cases hc
    · exact h'
  refine ⟨?_, ?_, ?_, ?_, ?_, ?_, ?_, ?_, ?_⟩
  · intro e he hc; rw [hn]; exact h.qe e (hr _ (hmem e he hc)) hc
  · rw [hn, hk]; exact h.nmLt
  · rw [hn]; exact h.nmInj
  · rw [hn, hk]; exact h.nmSurj
  · rw [hn]; exact h.ord
  · intro p hp e he hc; rw [hn] at hp; exact h.pend p hp e (hr _ (hmem e he hc)) hc
  · intro p hp hnone
    rw [hn] at hnone
    obtain ⟨e, he, hc, hpe⟩ := h.all p hp hnone
    exact ⟨e, hqueue.mem_iff.mpr (List.mem_append_right _ (hrall e he hc)), hc, hpe⟩
  · intro p hp; rw [hn]; exact h.used p (hused p hp)
  · rw [hemp, hk]; exact h.empty

/-- The site invariant after the site event `e`. -/
theorem SInv.site {s s' : St K} {L L' : List (Item Dat)} (h : SInv pts n s L) {e : QE K} {rest X : List (QE K)}
    (hpop : s.queue ~ e :: rest) (hmin : ∀ x ∈ rest, evLt x e = false) (hc : e.circ = false)
    (hdis : ∀ x ∈ rest, x.circ = e.circ → x.ref ≠ e.ref)
    (hqueue : s'.queue ~ X ++ rest) (hX : ∀ e ∈ X, e.circ = true) (hn : s'.names = Function.update s.names e.ref (some s.nextName))
    (hk : s'.nextName = s.nextName + 1)
    (hused : ∀ p ∈ origs s'.og L', p = e.ref ∨ p ∈ origs s.og L) (hemp : L' ≠ []) : SInv pts n s' L' := by
  have hmem : ∀ e ∈ s'.queue, e.circ = false → e ∈ rest := by
    intro e he hc
    rcases List.mem_append.mp (hqueue.mem_iff.mp he) with h' | h'
    · rw [hX e h'] at hc; cases hc
    · exact h'
  have hr : ∀ x ∈ rest, x ∈ s.queue := fun x hx => hpop.mem_iff.mpr (by simp [hx])
  have heq : e ∈ s.queue := hpop.mem_iff.mpr (by simp)
  obtain ⟨he1, he2, he3⟩ := h.qe e heq hc
  have nm : ∀ p k, s'.names p = some k → (p = e.ref ∧ k = s.nextName) ∨ (p ≠ e.ref ∧ s.names p = some k) := by
    intro p k hpk
    rw [hn, Function.update_apply] at hpk
    split at hpk
    · rename_i hp; left; exact ⟨hp, by simpa using hpk.symm⟩
    · rename_i hp; right; exact ⟨hp, hpk⟩
  refine ⟨?_, ?_, ?_, ?_, ?_, ?_, ?_, ?_, ?_⟩
  · intro x hx hcx
    have hx' := hmem x hx hcx
    obtain ⟨g1, g2, g3⟩ := h.qe x (hr _ hx') hcx
    refine ⟨g1, g2, ?_⟩
    rw [hn, Function.update_of_ne (hdis x hx' (by rw [hc, hcx]))]
    exact g3
  · intro p k hpk
    rcases nm p k hpk with ⟨rfl, rfl⟩ | ⟨_, h'⟩
    · exact ⟨by omega, he2⟩
    · have := h.nmLt p k h'; exact ⟨by omega, this.2⟩
  · intro p p' k h1 h2
    rcases nm p k h1 with ⟨rfl, rfl⟩ | ⟨_, h1⟩ <;> rcases nm p' _ h2 with ⟨rfl, h2⟩ | ⟨_, h2⟩
    · rfl
    · have := (h.nmLt _ _ h2).1; omega
    · have := (h.nmLt _ _ h1).1; omega
    · exact h.nmInj p p' k h1 h2
  · intro k hk'
    by_cases hkk : k < s.nextName
    · obtain ⟨p, hp⟩ := h.nmSurj k hkk
      refine ⟨p, ?_⟩
      rw [hn, Function.update_of_ne]
      · exact hp
      · rintro rfl; rw [he3] at hp; cases hp
    · exact ⟨e.ref, by rw [hn, Function.update_self]; congr 1; omega⟩
  · intro p p' i j h1 h2 hij
    rcases nm p i h1 with ⟨rfl, rfl⟩ | ⟨_, h1⟩ <;> rcases nm p' j h2 with ⟨rfl, rfl⟩ | ⟨_, h2⟩
    · omega
    · have := (h.nmLt _ _ h2).1; omega
    · rw [← he1]; exact h.pend p (by rw [h1]; rfl) e heq hc
    · exact h.ord p p' i j h1 h2 hij
  · intro p hp x hx hcx
    have hx' := hmem x hx hcx
    obtain ⟨k, hk'⟩ := Option.isSome_iff_exists.mp hp
    rcases nm p k hk' with ⟨rfl, _⟩ | ⟨_, h'⟩
    · rw [← he1]; exact hmin x hx'
    · exact h.pend p (by rw [h']; rfl) x (hr _ hx') hcx
  · intro p hp hnone
    have hpe : p ≠ e.ref := by rintro rfl; rw [hn, Function.update_self] at hnone; cases hnone
    rw [hn, Function.update_of_ne hpe] at hnone
    obtain ⟨x, hx, hcx, hpx⟩ := h.all p hp hnone
    refine ⟨x, hqueue.mem_iff.mpr (List.mem_append_right _ ?_), hcx, hpx⟩
    rcases List.mem_cons.mp (hpop.mem_iff.mp hx) with rfl | hx
    · exact absurd hpx.symm hpe
    · exact hx
  · intro p hp
    rw [hn]
    by_cases hpe : p = e.ref
    · rw [hpe, Function.update_self]; rfl
    · rw [Function.update_of_ne hpe]
      rcases hused p hp with h' | h'
      · exact absurd h' hpe
      · exact h.used p h'
  · rw [hk]
    constructor
    · intro hh; exact absurd hh hemp
    · intro hh; omega

/-- While a site is unnamed, fewer than `n` are named. -/
theorem SInv.lt {s : St K} {L : List (Item Dat)} (h : SInv pts n s L) {p : Nat} (hp : p < n) (hnone : s.names p = none) :
    s.nextName < n := by
  classical
  choose f hf using h.nmSurj
  have hcard : (Finset.range s.nextName).card ≤ ((Finset.range n).erase p).card := by
    refine Finset.card_le_card_of_injOn (fun k => if hk : k < s.nextName then f k hk else 0) ?_ ?_
    · intro k hk
      have hk' : k < s.nextName := by simpa using hk
      simp only [dif_pos hk', Finset.coe_erase, Set.mem_diff, Finset.mem_coe, Finset.mem_range, Set.mem_singleton_iff]
      refine ⟨(h.nmLt _ _ (hf k hk')).2, ?_⟩
      intro hh
      have := hf k hk'
      rw [hh, hnone] at this; cases this
    · intro k hk k' hk2 heq
      have h1 : k < s.nextName := by simpa using hk
      have h2 : k' < s.nextName := by simpa using hk2
      simp only [dif_pos h1, dif_pos h2] at heq
      have := hf k h1
      rw [heq, hf k' h2] at this
      simpa using this.symm
  rw [Finset.card_range, Finset.card_erase_of_mem (by simpa using hp), Finset.card_range] at hcard
  omega

theorem SInv.le {s : St K} {L : List (Item Dat)} (h : SInv pts n s L) : s.nextName ≤ n := by
  by_cases hall : ∃ p < n, s.names p = none
  · obtain ⟨p, h1, h2⟩ := hall
    exact (h.lt h1 h2).le
  · classical
    choose f hf using h.nmSurj
    have hcard : (Finset.range s.nextName).card ≤ (Finset.range n).card := by
      refine Finset.card_le_card_of_injOn (fun k => if hk : k < s.nextName then f k hk else 0) ?_ ?_
      · intro k hk
        have hk' : k < s.nextName := by simpa using hk
        simp only [dif_pos hk', Finset.mem_coe, Finset.mem_range]
        exact (h.nmLt _ _ (hf k hk')).2
      · intro k hk k' hk2 heq
        have h1 : k < s.nextName := by simpa using hk
        have h2 : k' < s.nextName := by simpa using hk2
        simp only [dif_pos h1, dif_pos h2] at heq
        have := hf k h1
        rw [heq, hf k' h2] at this
        simpa using this.symm
    simpa using hcard

/-- If no site is unnamed then all `n` names are given. -/
theorem SInv.eq {s : St K} {L : List (Item Dat)} (h : SInv pts n s L) (hall : ∀ p < n, s.names p ≠ none) : s.nextName = n := by
  classical
  have h1 := h.le
  have hcard : (Finset.range n).card ≤ (Finset.range s.nextName).card := by
    refine Finset.card_le_card_of_injOn (fun p => (s.names p).getD 0) ?_ ?_
    · intro p hp
      have hp' : p < n := by simpa using hp
      obtain ⟨k, hk⟩ := Option.ne_none_iff_exists'.mp (hall p hp')
      simp only [hk, Option.getD_some, Finset.mem_coe, Finset.mem_range]
      exact (h.nmLt p k hk).1
    · intro p hp p' hp2 heq
      obtain ⟨k, hk⟩ := Option.ne_none_iff_exists'.mp (hall p (by simpa using hp))
      obtain ⟨k', hk'⟩ := Option.ne_none_iff_exists'.mp (hall p' (by simpa using hp2))
      simp only [hk, hk', Option.getD_some] at heq
      subst heq
      exact h.nmInj p p' k hk hk'
  rw [Finset.card_range, Finset.card_range] at hcard
  omega

theorem bp_mem_lt {s : St K} {L : List (Item Dat)} (hb : BOk s.og s.pr s.arcCnt s.bpCnt L) {m b : Nat}
    (h : (⟨m, false, .bp b⟩ : Item Dat) ∈ L) : b < s.bpCnt := by
  rcases hb.kind _ h with ⟨b', _, h1, h2⟩ | ⟨b', _, h1, h2, _⟩
  · cases h1
  · cases h1; exact h2

variable [ArithLaws K] [MidLt pts n]

/-- Every step keeps the invariant and decreases the measure. -/
theorem Inv.step {s s' : St K} {L L' : List (Item Dat)} (h : Inv pts ok n pc s L) (hq : q.Spec evLt ok) {e : QE K} {rest : List (QE K)}
    (hp : q.pop s.queue = some (e, rest)) (hst : EvStep pts q e rest s L s' L') :
    Inv pts ok n pc s' L' ∧ measure n s' L' < measure n s L := by
  have hperm := hq.pop_perm _ _ _ h.qinv.ok hp
  have hmin := hq.pop_min _ _ _ h.qinv.ok hp
  have hlen : s.queue.length = rest.length + 1 := by rw [hperm.length_eq]; rfl
  have hr : ∀ x ∈ rest, x ∈ s.queue := fun x hx => hperm.mem_iff.mpr (by simp [hx])
  have hpopQ := h.qinv.pop hq hp
  have hne := h.qinv.pop_ne hq hp
  cases hst with
  | skip hc hv =>
    refine ⟨⟨h.tree, h.beach, hpopQ, ?_, h.dinv, ⟨h.cinv.1, h.cinv.2, h.cinv.3⟩⟩, ?_⟩
    · refine h.sinv.next (rest := rest) (X := []) hr ?_ (by simp) (by simp) rfl rfl (fun _ h => h) Iff.rfl
      intro x hx hcx
      rcases List.mem_cons.mp (hperm.mem_iff.mp hx) with rfl | hx
      · rw [hc] at hcx; cases hcx
      · exact hx
    · simp only [measure]; omega
  | @first s1 _ hc hf =>
    obtain ⟨he, hlt, hnone, hpend⟩ := pop_site h hq hp hc
    have hLnil : L = [] := hf.nil
    have hk0 : s.nextName = 0 := h.sinv.empty.mp hLnil
    have hstart : QInv pts ok (siteStart e rest s) L := hpopQ.congr rfl rfl rfl rfl rfl
    have hfeq := hf.eq
    have hor := hf.origs_eq
    have e1 : s1.queue = rest := by rw [hfeq]; rfl
    have e2 : s1.names = Function.update s.names e.ref (some s.nextName) := by rw [hfeq]; rfl
    have e3 : s1.nextName = s.nextName + 1 := by rw [hfeq]; rfl
    have e4 : s1.d = s.d ∧ s1.bps = s.bps ∧ s1.bpCnt = s.bpCnt ∧ s1.verts = s.verts ∧ s1.edges = s.edges := by
      rw [hfeq]; exact ⟨rfl, rfl, rfl, rfl, rfl⟩
    have hlv : leaves L' = 1 := by rw [← origs_length s1.og, hor]; rfl
    refine ⟨⟨hf.tree, hf.bok, (hf.qinv hstart).congr rfl rfl rfl rfl rfl, ?_, ?_, ?_⟩, ?_⟩
    · refine h.sinv.site (rest := rest) (X := []) hperm hmin hc hne (by show s1.queue ~ _; rw [e1]; simp) (by simp) e2 e3 ?_ ?_
      · intro p hp
        have hp' : p ∈ origs s1.og L' := hp
        rw [hor] at hp'; left; simpa using hp'
      · rw [hf.list]; simp
    · have hd : DInv pts pc (fun p => ((s.names p).isSome)) s.d s.bps s.bpCnt s.verts s.edges L' :=
        { h.dinv with tbp := by intro m b hm; rw [hf.list] at hm; simp at hm }
      have hd2 := hd.mono (done' := fun p => (s1.names p).isSome) (by
        intro p hp; rw [e2]
        by_cases hpe : p = e.ref
        · rw [hpe, Function.update_self]; rfl
        · rw [Function.update_of_ne hpe]; exact hp)
      show DInv pts pc (fun p => ((s1.names p).isSome)) s1.d s1.bps s1.bpCnt s1.verts s1.edges L'
      rw [e4.1, e4.2.1, e4.2.2.1, e4.2.2.2.1, e4.2.2.2.2]
      exact hd2
    · have hci := h.cinv.edges
      have hv0 : s.edges = [] ∧ s.verts = [] := by
        rcases hci with hci | ⟨_, h1, h2⟩
        · have := h.dinv.vcnt
          rw [hk0] at hci
          have hA := h.cinv.arcs
          have hv : s.verts.length = 0 ∨ 0 < s.verts.length := by omega
          rcases hv with hv | hv
          · omega
          · -- a vertex has three edges around three sites, none is named
            exfalso
            obtain ⟨v, hv⟩ := List.exists_mem_of_length_pos hv
            obtain ⟨_, _, p, x, r, a1, a2, a3, hvo⟩ := h.dinv.vts v hv
            obtain ⟨p', _, hdone⟩ := h.dinv.inc a1 hvo.lt.1
            obtain ⟨k, hk⟩ := Option.isSome_iff_exists.mp hdone
            have := (h.sinv.nmLt _ _ hk).1
            omega
        · exact ⟨h1, h2⟩
      refine ⟨?_, ?_, ?_⟩
      · left
        show (origs s1.og L').length + s1.verts.length + 1 ≤ 2 * s1.nextName
        rw [hor, e4.2.2.2.1, hv0.2, e3, hk0]; simp
      · left
        show s1.edges.length + 1 = s1.nextName + s1.verts.length
        rw [e4.2.2.2.1, e4.2.2.2.2, hv0.1, hv0.2, e3, hk0]; simp
      · intro hh
        have : 2 ≤ s1.nextName := hh
        omega
    · have hlt' := h.sinv.lt hlt hnone
      show s1.queue.length + 2 * leaves L' + 6 * (n - s1.nextName) < _
      simp only [measure]
      rw [e1, e3, hlv, hlen]
      omega
  | @site s1 _ pre post m a inter hc hpost hn =>
    obtain ⟨he, hlt, hnone, hpend⟩ := pop_site h hq hp hc
    have hstart : QInv pts ok (siteStart e rest s) L := hpopQ.congr rfl rfl rfl rfl rfl
    have hpi : e.ref ∉ origs s.og L := by
      intro hh
      have := h.sinv.used _ hh
      rw [hnone] at this; cases this
    obtain ⟨hQ, hB⟩ := hn.post_nil_or h.beach hstart hq hpost hpi
    have hor : origs s1.og L' = origs s.og pre ++ ((if inter then [(s.arcs a).origin, e.ref, (s.arcs a).origin] else
      [(s.arcs a).origin, e.ref]) ++ origs s.og post) := hn.origs_eq h.beach
    obtain ⟨log', _, hfeq⟩ := hn.eq
    have hpj : (s.arcs a).origin ∈ origs s.og L := by rw [hn.split]; simp
    obtain ⟨X, hX1, hX2, hX3⟩ : ∃ X : List (QE K), s1.queue ~ X ++ rest ∧ X.length ≤ 2 ∧ ∀ e ∈ X, e.circ = true := by
      cases inter
      · refine ⟨[], ?_, by simp, by simp⟩
        rw [hfeq]; exact List.Perm.refl _
      · obtain ⟨X, h1, h2, h3⟩ := checkAdd_queue (s := siteMid (siteStart e rest s) e.ref a true) hq hpopQ.ok
          ((siteStart e rest s).arcCnt + 1) ((siteStart e rest s).arcCnt + 2)
          (siteLe pts (siteStart e rest s) (siteMid (siteStart e rest s) e.ref a true) pre post)
          (siteRe pts (siteStart e rest s) (siteMid (siteStart e rest s) e.ref a true) pre post)
        refine ⟨X, ?_, h2, h3⟩
        rw [hfeq]; exact h1
    have hmid : ∀ i : Bool, (siteMid (siteStart e rest s) e.ref a i).names = Function.update s.names e.ref (some s.nextName) ∧
        (siteMid (siteStart e rest s) e.ref a i).nextName = s.nextName + 1 := fun i => ⟨rfl, rfl⟩
    have hfields : s1.names = (siteMid (siteStart e rest s) e.ref a inter).names ∧
        s1.nextName = (siteMid (siteStart e rest s) e.ref a inter).nextName ∧
        s1.d = (siteMid (siteStart e rest s) e.ref a inter).d ∧ s1.bps = (siteMid (siteStart e rest s) e.ref a inter).bps ∧
        s1.bpCnt = (siteMid (siteStart e rest s) e.ref a inter).bpCnt ∧
        s1.verts = (siteMid (siteStart e rest s) e.ref a inter).verts ∧ s1.edges = (siteMid (siteStart e rest s) e.ref a inter).edges := by
      cases inter
      · rw [hfeq]; exact ⟨rfl, rfl, rfl, rfl, rfl, rfl, rfl⟩
      · rw [hfeq]
        exact ⟨checkAdd_names .., checkAdd_nextName .., checkAdd_d .., checkAdd_bps .., checkAdd_bpCnt .., checkAdd_verts ..,
          checkAdd_edges ..⟩
    obtain ⟨f1, f2, f3, f4, f5, f6, f7⟩ := hfields
    have hLne : L ≠ [] := by rw [hn.split]; simp
    have hk0 : s.nextName ≠ 0 := fun hh => hLne (h.sinv.empty.mpr hh)
    have hlvL : leaves L = (origs s.og pre).length + 1 + (origs s.og post).length := by
      rw [← origs_length s.og, hn.split]; simp; omega
    have hlvL' : leaves L' = (origs s.og pre).length + (if inter then 3 else 2) + (origs s.og post).length := by
      rw [← origs_length s1.og, hor]; cases inter <;> simp <;> omega
    refine ⟨⟨hn.tree, hB, hQ.congr rfl rfl rfl rfl rfl, ?_, ?_, ?_⟩, ?_⟩
    · refine h.sinv.site (rest := rest) (X := X) hperm hmin hc hne hX1 hX3 f1 f2 ?_ ?_
      · intro p hp
        have hp' : p ∈ origs s1.og L' := hp
        rw [hor] at hp'
        rw [hn.split]
        cases inter
        · simp at hp' ⊢; tauto
        · simp at hp' ⊢; tauto
      · intro hh
        have h0 : leaves L' = 0 := by rw [hh]; rfl
        rw [h0] at hlvL'
        split at hlvL' <;> omega
    · have hd := h.dinv.mono (done' := fun p => (s1.names p).isSome) (by
        intro p hp; rw [f1]
        show ((Function.update s.names e.ref (some s.nextName)) p).isSome
        by_cases hpe : p = e.ref
        · rw [hpe, Function.update_self]; rfl
        · rw [Function.update_of_ne hpe]; exact hp)
      have hd2 := hd.site (pj := (s.arcs a).origin) (pi := e.ref) (L' := L') ?_ ?_ ?_ ?_ ?_
      · show DInv pts pc (fun p => ((s1.names p).isSome)) s1.d s1.bps s1.bpCnt s1.verts s1.edges L'
        rw [f3, f4, f5, f6, f7]
        exact hd2
      · intro hh; exact hpi (hh ▸ hpj)
      · rw [f1]
        show ((Function.update s.names e.ref (some s.nextName)) e.ref).isSome
        rw [Function.update_self]; rfl
      · rw [f1]
        show ((Function.update s.names e.ref (some s.nextName)) (s.arcs a).origin).isSome
        rw [Function.update_of_ne (fun hh : (s.arcs a).origin = e.ref => hpi (hh ▸ hpj))]
        exact h.sinv.used _ hpj
      · intro m' b hm
        rw [hn.list] at hm
        rw [hn.split]
        simp only [List.mem_append] at hm
        rcases hm with hm | hm | hm
        · left; simp [hm]
        · right
          cases inter
          · simp [siteItems, siteStart] at hm; tauto
          · simp [siteItems, siteStart] at hm; tauto
        · left; simp [hm]
      · intro m' b hm; exact bp_mem_lt h.beach hm
    · have ha := h.cinv.arcs
      have hed := h.cinv.edges
      rw [origs_length] at ha
      have v1 : s1.verts = s.verts := by rw [f6]; rfl
      have v2 : s1.edges.length = s.edges.length + 1 := by rw [f7]; simp [siteMid, siteStart]
      have v3 : s1.nextName = s.nextName + 1 := by rw [f2]; rfl
      refine ⟨?_, ?_, ?_⟩
      · left
        show (origs s1.og L').length + s1.verts.length + 1 ≤ 2 * s1.nextName
        rw [origs_length, v1, v3, hlvL']
        split <;> omega
      · left
        show s1.edges.length + 1 = s1.nextName + s1.verts.length
        rw [v1, v2, v3]; omega
      · intro _
        show 2 ≤ (origs s1.og L').length
        rw [origs_length, hlvL']
        split <;> omega
    · have hlt' := h.sinv.lt hlt hnone
      show s1.queue.length + 2 * leaves L' + 6 * (n - s1.nextName) < _
      simp only [measure]
      have v3 : s1.nextName = s.nextName + 1 := by rw [f2]; rfl
      rw [hX1.length_eq, v3, hlvL', hlen, hlvL]
      simp only [List.length_append]
      split <;> omega
  | @circle s1 _ P m u le ri tl tr ue re hc hv hcev hmk hpre hn =>
    have hstart : QInv pts ok (circStart e rest s) L := hpopQ.congr rfl rfl rfl rfl rfl
    have hL := hn.split
    obtain ⟨hQ, hB⟩ := hn.keep h.beach hstart hq (fun x hx hcx => hne x hx (by rw [hc, hcx])) hcev hpre.ne
    have hor : origs s1.og L' = origs s.og P.pre ++ ([(s.arcs P.a1).origin, (s.arcs P.a3).origin] ++ origs s.og P.post) :=
      hn.origs_eq
    obtain ⟨log', _, hfeq⟩ := hn.eq
    obtain ⟨X, hX1, hX2, hX3⟩ : ∃ X : List (QE K), s1.queue ~ X ++ rest ∧ X.length ≤ 2 ∧ ∀ e ∈ X, e.circ = true := by
      obtain ⟨X, h1, h2, h3⟩ := checkAdd_queue
        (s := circMid (circStart e rest s) ((circStart e rest s).evs e.ref).center P.a1 P.a P.a3 u le ri tl tr ue re) hq hpopQ.ok P.a1 P.a3
        ((tripleAt (circStart e rest s).og P.pre P.a1 (⟨m, false, .bp u⟩ :: ⟨P.n3, true, .arc P.a3⟩ :: P.post)).bind (mkEv pts P.n1))
        ((tripleAt (circStart e rest s).og (P.pre ++ [⟨P.n1, true, .arc P.a1⟩, ⟨m, false, .bp u⟩]) P.a3 P.post).bind (mkEv pts P.n3))
      refine ⟨X, ?_, h2, h3⟩
      rw [hfeq]; exact h1
    have hfields : s1.names = s.names ∧ s1.nextName = s.nextName ∧
        s1.d = circD s.d (s.evs e.ref).center u (s.arcs P.a1).origin (s.arcs P.a3).origin le ri tl tr ue re ∧
        s1.bps = Function.update s.bps u ⟨((s.arcs P.a1).origin, (s.arcs P.a3).origin), some s.d.heCnt⟩ ∧
        s1.bpCnt = s.bpCnt ∧ s1.verts = s.d.vCnt :: s.verts ∧ s1.edges = s.edges ++ [s.d.heCnt + 1] := by
      rw [hfeq]
      exact ⟨checkAdd_names .., checkAdd_nextName .., checkAdd_d .., checkAdd_bps .., checkAdd_bpCnt .., checkAdd_verts ..,
          checkAdd_edges ..⟩
    obtain ⟨f1, f2, f3, f4, f5, f6, f7⟩ := hfields
    have hlvL : leaves L = (origs s.og P.pre).length + 3 + (origs s.og P.post).length := by
      rw [← origs_length s.og, hL]; simp [Place.list]; omega
    have hlvL' : leaves L' = (origs s.og P.pre).length + 2 + (origs s.og P.post).length := by
      rw [← origs_length s1.og, hor]; simp [circStart]; omega
    have hm1 : (⟨P.m1, false, .bp P.b1⟩ : Item Dat) ∈ L := by rw [hL]; simp [Place.list]
    have hm2 : (⟨P.m2, false, .bp P.b2⟩ : Item Dat) ∈ L := by rw [hL]; simp [Place.list]
    have hLne : L ≠ [] := by rw [hL]; simp [Place.list]
    have hk0 : s.nextName ≠ 0 := fun hh => hLne (h.sinv.empty.mpr hh)
    -- pairs of the two breakpoints
    obtain ⟨hp1, hp2⟩ : (s.bps P.b1).pair = ((s.arcs P.a1).origin, (s.arcs P.a).origin) ∧
        (s.bps P.b2).pair = ((s.arcs P.a).origin, (s.arcs P.a3).origin) := by
      have hb := h.beach
      rw [hL] at hb
      have hs : P.list = (P.pre ++ [⟨P.n1, true, .arc P.a1⟩, ⟨P.m1, false, .bp P.b1⟩]) ++ ⟨P.n, true, .arc P.a⟩ ::
          (⟨P.m2, false, .bp P.b2⟩ :: ⟨P.n3, true, .arc P.a3⟩ :: P.post) := by simp [Place.list]
      rw [hs] at hb
      rcases hb.pre_cases with hh | ⟨pre', n', a', m', b', hh, e1⟩
      · simp at hh
      rcases hb.post_cases with hh' | ⟨m'', b'', n'', a'', post', hh', e2⟩
      · simp at hh'
      have := List.append_inj' hh rfl
      simp only [List.cons.injEq, Item.mk.injEq, true_and, Dat.arc.injEq, Dat.bp.injEq, and_true] at this hh'
      rw [← this.2.2.2, ← this.2.1.2] at e1
      rw [← hh'.1.2, ← hh'.2.1.2] at e2
      exact ⟨e1, e2⟩
    have hnd := h.beach.nd
    refine ⟨⟨hn.tree, hB, hQ.congr rfl rfl rfl rfl rfl, ?_, ?_, ?_⟩, ?_⟩
    · refine h.sinv.next (rest := rest) (X := X) hr ?_ hX1 hX3 f1 f2 ?_ ?_
      · intro x hx hcx
        rcases List.mem_cons.mp (hperm.mem_iff.mp hx) with rfl | hx
        · rw [hc] at hcx; cases hcx
        · exact hx
      · intro p hp
        have hp' : p ∈ origs s1.og L' := hp
        rw [hor] at hp'
        rw [hL]
        simp [Place.list, circStart] at hp' ⊢; tauto
      · constructor
        · intro hh; rw [hn.list] at hh; simp [Place.rest] at hh
        · intro hh; exact absurd hh hLne
    · have hub : u < s.bpCnt := by
        rcases hn.upd with ⟨_, rfl, _⟩ | ⟨_, rfl, _⟩
        · exact bp_mem_lt h.beach hm1
        · exact bp_mem_lt h.beach hm2
      have hd2 := h.dinv.circ (u := u) (ue := ue) (re := re) (L' := L') hm1 hm2 hp1 hp2 hpre.ne hpre.el hpre.er hpre.twl hpre.twr (by
        rcases hn.upd with ⟨_, h1, h2, h3⟩ | ⟨_, h1, h2, h3⟩
        · exact Or.inl ⟨h1, h2, h3⟩
        · exact Or.inr ⟨h1, h2, h3⟩) hub hmk ?_
      · show DInv pts pc (fun p => ((s1.names p).isSome)) s1.d s1.bps s1.bpCnt s1.verts s1.edges L'
        rw [f1, f3, f4, f5, f6, f7]
        exact hd2
      · intro m' b hm
        rw [hn.list] at hm
        rw [hL] at hnd ⊢
        simp only [Place.rest, List.mem_append, List.mem_cons, Item.mk.injEq, reduceCtorEq, and_false, Dat.bp.injEq, true_and,
          List.not_mem_nil, or_false, false_or] at hm
        simp only [Place.list, List.map_append, List.map_cons, List.map_nil, List.nodup_append, List.nodup_cons, List.mem_cons,
          List.mem_append, List.cons_append, List.nil_append] at hnd
        obtain ⟨_, ⟨_, h6, _, h7, _⟩, h8⟩ := hnd
        rcases hm with hm | ⟨_, rfl⟩ | hm
        · right
          have hd : Dat.bp b ∈ P.pre.map (·.d) := List.mem_map.mpr ⟨_, hm, rfl⟩
          refine ⟨by simp [Place.list, hm], ?_, ?_⟩
          · rintro rfl; exact h8 _ hd _ (Or.inr (Or.inl rfl)) rfl
          · rintro rfl; exact h8 _ hd _ (Or.inr (Or.inr (Or.inr (Or.inl rfl)))) rfl
        · left; rfl
        · right
          have hd : Dat.bp b ∈ P.post.map (·.d) := List.mem_map.mpr ⟨_, hm, rfl⟩
          refine ⟨by simp [Place.list, hm], ?_, ?_⟩
          · rintro rfl; exact h6 (Or.inr (Or.inr (Or.inr hd)))
          · rintro rfl; exact h7 (Or.inr hd)
    · have ha := h.cinv.arcs
      have hed := h.cinv.edges
      rw [origs_length] at ha
      have v1 : s1.verts.length = s.verts.length + 1 := by rw [f6]; rfl
      have v2 : s1.edges.length = s.edges.length + 1 := by rw [f7]; simp
      refine ⟨?_, ?_, ?_⟩
      · left
        show (origs s1.og L').length + s1.verts.length + 1 ≤ 2 * s1.nextName
        rw [origs_length, v1, f2, hlvL']
        omega
      · left
        show s1.edges.length + 1 = s1.nextName + s1.verts.length
        rw [v1, v2, f2]; omega
      · intro _
        show 2 ≤ (origs s1.og L').length
        rw [origs_length, hlvL']
        omega
    · show s1.queue.length + 2 * leaves L' + 6 * (n - s1.nextName) < _
      simp only [measure]
      rw [hX1.length_eq, f2, hlvL', hlen, hlvL]
      simp only [List.length_append]
      omega

end Foronoi
