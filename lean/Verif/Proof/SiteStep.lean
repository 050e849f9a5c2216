import Verif.Proof.StepsD

/-!
# `handle_site_event` as a step on the beach line
-/

namespace Foronoi

variable {K : Type} [LinearOrder K] [Arith K] {E : Err → Prop}

theorem lookup_congr {D : Type} {key key' : D → Option K} {x : K} {t : T D}
    (h : ∀ a ∈ t.io, a.lf = false → key a.d = key' a.d) : t.lookup key x = t.lookup key' x := by
  induction t with
  | leaf => rfl
  | node i d l r ihl ihr =>
    simp only [T.lookup]
    rw [h ⟨i, false, d⟩ (by simp [T.io]) rfl, ihl (fun a ha => h a (by simp [T.io, ha])),
      ihr (fun a ha => h a (by simp [T.io, ha]))]

/-- Mark an event, if any, as a false alarm. -/
def killEv (evs : Nat → CevR K) (o : Option Nat) : Nat → CevR K :=
  match o with
  | some c => Function.update evs c { evs c with valid := false }
  | none => evs

/-- Everything a site event changes outside of the tree, before `_check_circles`: new site `pi`, arc `a` above. -/
def siteMid (s : St K) (pi a : Nat) (inter : Bool) : St K :=
  { s with
    evs := killEv s.evs (s.arcs a).cev
    arcs :=
      if inter then
        Function.update (Function.update (Function.update s.arcs s.arcCnt ⟨pi, none⟩) (s.arcCnt + 1)
          ⟨(s.arcs a).origin, none⟩) (s.arcCnt + 2) ⟨(s.arcs a).origin, none⟩
      else Function.update (Function.update s.arcs s.arcCnt ⟨pi, none⟩) (s.arcCnt + 1) ⟨(s.arcs a).origin, none⟩
    arcCnt := s.arcCnt + (if inter then 3 else 2)
    bps := Function.update (Function.update s.bps s.bpCnt ⟨((s.arcs a).origin, pi), some s.d.heCnt⟩) (s.bpCnt + 1)
      ⟨(pi, (s.arcs a).origin), some (s.d.heCnt + 1)⟩
    bpCnt := s.bpCnt + 2
    d := siteD s.d s.bpCnt (s.bpCnt + 1) (s.arcs a).origin pi
    edges := s.edges ++ [s.d.heCnt]
    arcSet := s.arcCnt :: s.arcSet }

/-- The new beach line entries. -/
def siteItems (s : St K) (inter : Bool) : List (Item Dat) :=
  if inter then
    [⟨s.ns.cnt + 1, true, .arc (s.arcCnt + 1)⟩, ⟨s.ns.cnt, false, .bp s.bpCnt⟩, ⟨s.ns.cnt + 3, true, .arc s.arcCnt⟩,
      ⟨s.ns.cnt + 2, false, .bp (s.bpCnt + 1)⟩, ⟨s.ns.cnt + 4, true, .arc (s.arcCnt + 2)⟩]
  else
    [⟨s.ns.cnt + 1, true, .arc (s.arcCnt + 1)⟩, ⟨s.ns.cnt, false, .bp s.bpCnt⟩, ⟨s.ns.cnt + 2, true, .arc s.arcCnt⟩]

/-- The events created by a site event that splits an arc. -/
def siteLe (pts : Nat → K × K) (s m : St K) (pre post : List (Item Dat)) : Option (CevR K) :=
  (tripleAt m.og pre (s.arcCnt + 1) ((siteItems s true).drop 1 ++ post)).bind (mkEv pts (s.ns.cnt + 1))

def siteRe (pts : Nat → K × K) (s m : St K) (pre post : List (Item Dat)) : Option (CevR K) :=
  (tripleAt m.og (pre ++ (siteItems s true).take 4) (s.arcCnt + 2) post).bind (mkEv pts (s.ns.cnt + 4))

/-- The effect of the first site event. -/
structure SiteFirst (pi : Nat) (s : St K) (L : List (Item Dat)) (s' : St K) (L' : List (Item Dat)) : Prop where
  nil : L = []
  eq : s' = { s with
    ns := s'.ns
    root := s'.root
    arcs := Function.update s.arcs s.arcCnt ⟨pi, none⟩
    arcCnt := s.arcCnt + 1
    arcSet := s.arcCnt :: s.arcSet }
  list : L' = [⟨s.ns.cnt, true, .arc s.arcCnt⟩]
  tree : TreeOk s'.ns s'.root L'

/-- The effect of a site event below an arc `a` at leaf `n`. -/
structure SiteNext (pts : Nat → K × K) (q : PQ (QE K)) (pi : Nat) (s : St K) (L : List (Item Dat)) (s' : St K)
    (L' : List (Item Dat)) (pre post : List (Item Dat)) (n a : Nat) (inter : Bool) : Prop where
  split : L = pre ++ ⟨n, true, .arc a⟩ :: post
  found : ∃ t : T Dat, t.io = L ∧ ∃ l, s.sweep = some l ∧
    t.lookup (keyOf pts s.bps s.arcs l) (pts pi).1 = some ⟨n, true, .arc a⟩
  int : inter = doesIntersect (pts pi) (pts (s.arcs a).origin)
  eq : ∃ log', DebugOnly s.log log' ∧ s' = { (if inter then
      checkAdd q (s.arcCnt + 1) (s.arcCnt + 2) (siteLe pts s (siteMid s pi a true) pre post)
        (siteRe pts s (siteMid s pi a true) pre post) (siteMid s pi a true)
      else siteMid s pi a false) with
    ns := s'.ns
    root := s'.root
    log := log' }
  list : L' = pre ++ (siteItems s inter ++ post)
  tree : TreeOk s'.ns s'.root L'
  shape : inter = false → ∃ c : Ctx Dat, s.root = some (plug c (.leaf n (.arc a))).id ∧ TOk s.ns (plug c (.leaf n (.arc a))) ∧
    ioR c = post ∧ ∃ i d l e r f, s'.root = some (plug c (.node i d (.leaf l e) (.leaf r f))).id ∧
      TOk s'.ns (plug c (.node i d (.leaf l e) (.leaf r f)))

/-- The beach line after splitting arc `a` is well formed. -/
theorem BOk.siteInter {s : St K} {pre post : List (Item Dat)} {n a pi : Nat}
    (h : BOk s.og s.pr s.arcCnt s.bpCnt (pre ++ ⟨n, true, .arc a⟩ :: post))
    (hpi : pi ∉ origs s.og (pre ++ ⟨n, true, .arc a⟩ :: post)) :
    BOk (siteMid s pi a true).og (siteMid s pi a true).pr (siteMid s pi a true).arcCnt (siteMid s pi a true).bpCnt
      (pre ++ (siteItems s true ++ post)) := by
  have hA : a < s.arcCnt := by
    rcases h.kind ⟨n, true, .arc a⟩ (by simp) with ⟨a', _, h1, h2⟩ | ⟨b, _, h1, _⟩
    · cases h1; exact h2
    · cases h1
  refine h.split (pj := (s.arcs a).origin) (pi := pi) (og' := (siteMid s pi a true).og) (pr' := (siteMid s pi a true).pr)
    (aCnt' := (siteMid s pi a true).arcCnt) (bCnt' := (siteMid s pi a true).bpCnt) ?_ ?_ ?_ ?_ ?_ ?_ ?_ ?_ ?_ ?_ ?_ rfl ?_ ?_ ?_ ?_ ?_ hpi
  · intro x hx
    simp only [siteMid, St.og, if_true, Function.update_apply]
    rw [if_neg (by omega), if_neg (by omega), if_neg (by omega)]
  · intro x hx
    simp only [siteMid, St.pr, Function.update_apply]
    rw [if_neg (by omega), if_neg (by omega)]
  all_goals simp [siteMid, St.og, St.pr, Function.update_apply]

/-- The beach line after appending the arc of the new site at the right end is well formed. -/
theorem BOk.siteNI {s : St K} {pre : List (Item Dat)} {n a pi : Nat}
    (h : BOk s.og s.pr s.arcCnt s.bpCnt (pre ++ ⟨n, true, .arc a⟩ :: []))
    (hpi : pi ∉ origs s.og (pre ++ ⟨n, true, .arc a⟩ :: [])) :
    BOk (siteMid s pi a false).og (siteMid s pi a false).pr (siteMid s pi a false).arcCnt (siteMid s pi a false).bpCnt
      (pre ++ (siteItems s false ++ [])) := by
  have hA : a < s.arcCnt := by
    rcases h.kind ⟨n, true, .arc a⟩ (by simp) with ⟨a', _, h1, h2⟩ | ⟨b, _, h1, _⟩
    · cases h1; exact h2
    · cases h1
  rw [List.append_nil]
  refine h.snoc (pj := (s.arcs a).origin) (pi := pi) (og' := (siteMid s pi a false).og) (pr' := (siteMid s pi a false).pr)
    (aCnt' := (siteMid s pi a false).arcCnt) (bCnt' := (siteMid s pi a false).bpCnt) ?_ ?_ ?_ ?_ ?_ ?_ ?_ ?_ rfl ?_ ?_ ?_ hpi
  · intro x hx
    simp only [siteMid, St.og, Bool.false_eq_true, if_false, Function.update_apply]
    rw [if_neg (by omega), if_neg (by omega)]
  · intro x hx
    simp only [siteMid, St.pr, Function.update_apply]
    rw [if_neg (by omega), if_neg (by omega)]
  all_goals simp [siteMid, St.og, St.pr, Function.update_apply]

theorem wp_handleSite {pts : Nat → K × K} {q : PQ (QE K)} {pi : Nat} {s : St K} {L : List (Item Dat)}
    (ht : TreeOk s.ns s.root L) (hb : BOk s.og s.pr s.arcCnt s.bpCnt L) (hpi : pi ∉ origs s.og L)
    (hsw : s.sweep.isSome)
    (hK : E .arith ∨ ∀ x ∈ L, x.lf = false → ∀ l, s.sweep = some l → (keyOf pts s.bps s.arcs l x.d).isSome)
    (hC : E .arith ∨ ∀ p q r, (createCircle (pts p) (pts q) (pts r)).isSome) :
    Wp E (handleSite pts q pi) s (fun _ s' => ∃ L', SiteFirst pi s L s' L' ∨
      ∃ pre post n a inter, SiteNext pts q pi s L s' L' pre post n a inter) := by
  obtain ⟨hi, ht⟩ := ht
  obtain ⟨l, hl⟩ := Option.isSome_iff_exists.mp hsw
  rcases ht with ⟨hroot, rfl⟩ | ⟨t, hroot, htok, rfl⟩
  · simp only [handleSite, wp_bind, wp_newArc, wp_modify, wp_get, hroot, wp_zT]
    refine wp_newNode' fun n' a1 r1 => ?_
    refine ⟨_, Or.inl ⟨rfl, rfl, rfl, ?_, ?_⟩⟩
    · intro j
      by_cases hj : j = s.ns.cnt
      · subst hj; simp [HOk, a1]
      · simp only [r1 j hj]; exact hi j
    · right
      refine ⟨.leaf s.ns.cnt (.arc s.arcCnt), rfl, ⟨?_, by simp [T.ids], by simp [T.ids], ?_⟩, rfl⟩
      · simp [Repr, a1]
      · intro j
        by_cases hj : j = s.ns.cnt
        · subst hj; simp [HOk, a1]
        · simp only [r1 j hj]; exact hi j
  · have hold : ∀ x ∈ t.io, ∀ a, x.d = .arc a → a < s.arcCnt := by
      intro x hx a hxa
      rcases hb.kind x hx with ⟨a', _, h1, h2⟩ | ⟨b, _, h1, _⟩
      · rw [hxa] at h1; cases h1; exact h2
      · rw [hxa] at h1; cases h1
    have hkey : ∀ x ∈ t.io, x.lf = false → keyOf pts s.bps (Function.update s.arcs s.arcCnt ⟨pi, none⟩) l x.d =
        keyOf pts s.bps s.arcs l x.d := by
      intro x hx hlf
      rcases hb.kind x hx with ⟨a, h0, _⟩ | ⟨b, _, h1, _⟩
      · rw [hlf] at h0; cases h0
      · rw [h1]; rfl
    have hdep := htok.depth
    simp only [handleSite, wp_bind, wp_newArc, wp_modify, wp_get, hroot, wp_zT, wp_deref]
    refine Or.inl ⟨l, hl, ?_⟩
    refine wp_mono (wp_findLeaf htok.repr (by omega) ?_) ?_
    · rcases hK with h | h
      · exact Or.inr h
      · left
        intro x hx hlf
        rw [hkey x hx hlf]
        exact h x hx hlf l hl
    rintro o ns1 ⟨rfl, y, hy, rfl⟩
    rw [lookup_congr hkey] at hy
    obtain ⟨hym, hyl⟩ := lookup_mem hy
    obtain ⟨n, f, dd⟩ := y
    simp only at hyl
    subst hyl
    obtain ⟨a, rfl⟩ : ∃ a, dd = .arc a := by
      rcases hb.kind _ hym with ⟨a, _, h1, _⟩ | ⟨b, h0, _⟩
      · exact ⟨a, h1⟩
      · cases h0
    have ha : a < s.arcCnt := hold _ hym a rfl
    obtain ⟨pre, post, hsplit⟩ := List.append_of_mem hym
    have hdata := htok.repr.data hym
    simp only at hdata
    simp only [Option.some.injEq, exists_eq_left', reduceCtorEq, false_and, or_false]
    rw [wp_arcOf (a := a) (by exact hdata)]
    have hau : Function.update s.arcs s.arcCnt ⟨pi, none⟩ a = s.arcs a := Function.update_of_ne (by omega) _ _
    simp only [hau]
    -- remove the event of the arc above
    have hkill : ∀ (Q : Unit → St K → Prop) (s1 : St K),
        Q () { s1 with evs := killEv s1.evs (s.arcs a).cev } → Wp E (optDo (s.arcs a).cev removeEv) s1 Q := by
      intro Q s1 h
      rw [wp_optDo]
      simp only [killEv] at h
      refine ⟨fun c hc => ?_, fun hc => ?_⟩
      · rw [hc] at h; exact h
      · rw [hc] at h; exact h
    refine hkill _ _ ?_
    simp only [wp_newBp]
    refine wp_mono (wp_mkSubtree _ _ _ _ _ _ (by exact htok.hinv)) ?_
    rintro r s2 ⟨ns2, rfl, rfl, hcnt2, hsame2, hi2, hrep2⟩
    -- hook the subtree
    obtain ⟨c, hc, hcL, hcR⟩ := leaf_zipper htok.nd hsplit
    obtain ⟨inter, hint⟩ : ∃ i, i = doesIntersect (pts pi) (pts (s.arcs a).origin) := ⟨_, rfl⟩
    simp only [← hint] at hcnt2 hsame2 hi2 hrep2 ⊢
    obtain ⟨t2, ht2⟩ : ∃ t2, t2 = newSub s.ns.cnt s.bpCnt (s.bpCnt + 1) (s.arcCnt + 1) s.arcCnt (s.arcCnt + 1 + 1) inter := ⟨_, rfl⟩
    have hrep2' : Repr ns2.n none t2 := by rw [ht2]; exact hrep2
    have hid2 : t2.id = s.ns.cnt := by rw [ht2, newSub]; split <;> rfl
    have hids2 : ∀ i ∈ t2.ids, s.ns.cnt ≤ i ∧ i < ns2.cnt := by
      intro i hi
      rw [ht2] at hi
      rw [hcnt2]
      unfold newSub at hi
      cases inter <;> simp [T.ids] at hi ⊢ <;> omega
    have hnd2 : t2.ids.Nodup := by
      rw [ht2]; unfold newSub
      cases inter <;> simp [T.ids]
    have hids1 : ∀ i ∈ t.ids, i < s.ns.cnt := htok.lt
    have hidsc : (plug c (.leaf n (.arc a))).ids = idsL c ++ [n] ++ idsR c := ids_plug _ _
    rw [hc] at hidsc
    have hndp : (plug c t2).ids.Nodup := by
      rw [ids_plug]
      have := htok.nd
      rw [hidsc] at this
      have hlt : ∀ i, i ∈ idsL c ∨ i ∈ idsR c → i < s.ns.cnt := by
        intro i hi
        refine hids1 i ?_
        rw [hidsc]; simp; tauto
      grind
    have hltp : ∀ i ∈ (plug c t2).ids, i < ns2.cnt := by
      intro i hi
      rw [ids_plug] at hi
      have hc2 : s.ns.cnt ≤ ns2.cnt := by rw [hcnt2]; simp
      simp only [List.mem_append] at hi
      rcases hi with (hi | hi) | hi
      · have := hids1 i (by rw [hidsc]; simp [hi]); omega
      · exact (hids2 i hi).2
      · have := hids1 i (by rw [hidsc]; simp [hi]); omega
    rw [← hid2]
    refine wp_mono (wp_replaceLeafSt (c := c) (t := .leaf n (.arc a)) (t2 := t2) (p := none) ?_ ?_ hrep2' ?_ hndp hltp ?_ hi2) ?_
    · rw [hc]
      exact htok.repr.congr fun i hi => by rw [hsame2 i (hids1 i hi)]; exact .refl _
    · rw [hc]
    · rw [hc]; exact htok.nd
    · intro h
      have h1 := (hids2 _ h).1
      have h2 := hids1 n (by rw [hidsc]; simp)
      simp only [T.id] at h1
      omega
    rintro _ s3 ⟨ns3, rfl, hd3, htok3⟩
    have hio3 : (plug c t2).io = pre ++ (siteItems s inter ++ post) := by
      rw [io_plug, hcL, hcR, ht2]
      unfold newSub siteItems
      cases inter <;> simp [T.io]
    refine wp_newSiteEdges (by simp) ?_
    simp only [Function.update_self]
    have hbps : ∀ x y : Option Nat, Function.update (Function.update (Function.update (Function.update s.bps s.bpCnt ⟨((s.arcs a).origin, pi), none⟩)
        (s.bpCnt + 1) ⟨(pi, (s.arcs a).origin), none⟩) s.bpCnt ⟨((s.arcs a).origin, pi), x⟩) (s.bpCnt + 1) ⟨(pi, (s.arcs a).origin), y⟩ =
        Function.update (Function.update s.bps s.bpCnt ⟨((s.arcs a).origin, pi), x⟩) (s.bpCnt + 1) ⟨(pi, (s.arcs a).origin), y⟩ := by
      intro x y
      funext j
      simp only [Function.update_apply]
      split_ifs <;> rfl
    have hb0 : Function.update (Function.update s.bps s.bpCnt ⟨((s.arcs a).origin, pi), none⟩)
        (s.bpCnt + 1) ⟨(pi, (s.arcs a).origin), none⟩ s.bpCnt = ⟨((s.arcs a).origin, pi), none⟩ := by
      rw [Function.update_of_ne (by simp)]; simp
    simp only [hb0, hbps]
    rw [wp_whenDo]
    refine ⟨fun hint' => ?_, fun hint' => ?_⟩
    · subst hint'
      have hb4 := (hsplit ▸ hb).siteInter (hsplit ▸ hpi)
      rw [← hio3] at hb4
      simp only [siteCheck, wp_bind, wp_treeFuel, wp_zT, wp_rd]
      -- the nodes of the subtree
      have hrt := ((repr_plug _ _ _).mp htok3.repr).1
      have ht2' : t2 = .node s.ns.cnt (.bp s.bpCnt) (.leaf (s.ns.cnt + 1) (.arc (s.arcCnt + 1)))
        (.node (s.ns.cnt + 2) (.bp (s.bpCnt + 1)) (.leaf (s.ns.cnt + 3) (.arc s.arcCnt))
          (.leaf (s.ns.cnt + 4) (.arc (s.arcCnt + 2)))) := by rw [ht2]; rfl
      rw [ht2'] at hrt
      obtain ⟨_, q2, q3, _, _, q6⟩ := hrt
      obtain ⟨_, p2, p3, _, _, _⟩ := q6
      simp only [T.id] at q2 q3 p2 p3
      simp only [hid2, q2, q3, wp_deref, Option.some.injEq, exists_eq_left', reduceCtorEq, false_and, or_false, wp_zT]
      have hlen3 := htok3.len
      have hs1 : (plug c t2).io = pre ++ ⟨s.ns.cnt + 1, true, .arc (s.arcCnt + 1)⟩ :: ((siteItems s true).drop 1 ++ post) := by
        rw [hio3]; simp [siteItems]
      have hs2 : (plug c t2).io = (pre ++ (siteItems s true).take 4) ++ ⟨s.ns.cnt + 4, true, .arc (s.arcCnt + 2)⟩ :: post := by
        rw [hio3]; simp [siteItems]
      refine wp_mono (wp_predecessor htok3.repr htok3.nd hs1 (by omega)) ?_
      rintro na ns4 ⟨rfl, rfl⟩
      simp only [wp_rd, p2, p3, Option.some.injEq, exists_eq_left', reduceCtorEq, false_and, or_false]
      refine wp_mono (wp_successor htok3.repr htok3.nd hs2 (by omega)) ?_
      rintro ne ns4 ⟨rfl, rfl⟩
      simp only [if_true]
      have hnc : some (s.ns.cnt + 3) = (second ((siteItems s true).drop 1 ++ post)).map (·.id) := by
        simp [siteItems, second]
      have hnc' : some (s.ns.cnt + 3) = (second (pre ++ (siteItems s true).take 4).reverse).map (·.id) := by
        simp [siteItems, second]
      have hchk := wp_checkCircles (E := E) (pts := pts) (q := q) (s := { siteMid s pi a true with ns := ns4, root := some (plug c t2).id })
        htok3.repr hb4 hs1 hs2 hC
      rw [← hnc, ← hnc'] at hchk
      refine wp_mono (m := checkCircles pts q _ _ _ _ _ _) (Q := fun _ s' => ∃ log', s' = { checkAdd q (s.arcCnt + 1) (s.arcCnt + 2)
          (siteLe pts s (siteMid s pi a true) pre post)
          (siteRe pts s (siteMid s pi a true) pre post) { siteMid s pi a true with ns := ns4, root := some (plug c t2).id } with log := log' } ∧ DebugOnly s.log log') hchk ?_
      rintro _ s5 ⟨log', rfl, hlog⟩
      have hca : ∀ le re, checkAdd q (s.arcCnt + 1) (s.arcCnt + 2) le re { siteMid s pi a true with ns := ns4, root := some (plug c t2).id }
          = { checkAdd q (s.arcCnt + 1) (s.arcCnt + 2) le re (siteMid s pi a true) with ns := ns4, root := some (plug c t2).id } := by
        intro le re
        unfold checkAdd
        cases le <;> cases dropRight (_) re <;> rfl
      rw [hca]
      rw [← hid2]
      refine wp_mono (wp_balanceSt (c := c) (t := t2) (by exact htok3)) ?_
      rintro _ s6 ⟨ns6, t6, rfl, hd6, htok6, hio6⟩
      refine ⟨pre ++ (siteItems s true ++ post), Or.inr ⟨pre, post, n, a, true, hsplit, ⟨t, rfl, l, hl, hy⟩, hint, ⟨log', hlog, ?_⟩, rfl,
        ⟨htok6.hinv, Or.inr ⟨t6, rfl, htok6, by rw [hio6, hio3]⟩⟩, by intro h; cases h⟩⟩
      simp only [if_true]
    · subst hint'
      refine ⟨pre ++ (siteItems s false ++ post), Or.inr ⟨pre, post, n, a, false, hsplit, ⟨t, rfl, l, hl, hy⟩, hint, ⟨s.log, .refl _, ?_⟩, rfl,
        ⟨htok3.hinv, Or.inr ⟨plug c t2, rfl, htok3, hio3⟩⟩, fun _ => ⟨c, by rw [hc]; exact hroot, by rw [hc]; exact htok, hcR, ?_⟩⟩⟩
      · simp [siteMid]
      · rw [ht2] at htok3 ⊢
        exact ⟨_, _, _, _, _, _, rfl, htok3⟩

end Foronoi
