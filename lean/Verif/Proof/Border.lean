import Verif.Proof.ClipLoop

/-!
# The loop of `finish_polygon`
-/

namespace Foronoi

open scoped List

variable {K : Type} [LinearOrder K] [Arith K] {E : Err → Prop}

/-- The cell on the inner side of the next border edge. -/
def nextCell (d : Dcel K) (o : Nat) (cell : Option Nat) : Option Nat :=
  match (d.vs o).conn.head? with
  | some c => ((d.he c).twin.bind fun t => (d.he t).incident)
  | none => cell

/-- The half-edge after which the next border edge comes: the twin of the first edge at `o`, or the new twin. -/
def nextPrev (d : Dcel K) (o : Nat) : Nat :=
  match (d.vs o).conn.head? with
  | some c => (d.he c).twin.getD 0
  | none => d.heCnt

/-- One iteration of the loop of `finish_polygon`. -/
structure BStep (d : Dcel K) (o e : Nat) (cell : Option Nat) (d' : Dcel K) : Prop where
  heCnt : d'.heCnt = d.heCnt + 2
  vCnt : d'.vCnt = d.vCnt
  pos : ∀ v, (d'.vs v).pos = (d.vs v).pos
  conn : ∀ v, (d'.vs v).conn = (d.vs v).conn ++ ((if v = o then [d.heCnt + 1] else []) ++ (if v = e then [d.heCnt] else []))
  twin : ∀ f < d.heCnt, (d'.he f).twin = (d.he f).twin
  org : ∀ f < d.heCnt, (d'.he f).origin = (d.he f).origin
  inc : ∀ f < d.heCnt, (d'.he f).incident = (d.he f).incident
  tw0 : (d'.he d.heCnt).twin = some (d.heCnt + 1) ∧ (d'.he d.heCnt).origin = .vtx e ∧ (d'.he d.heCnt).incident = none
  ed0 : (d'.he (d.heCnt + 1)).twin = some d.heCnt ∧ (d'.he (d.heCnt + 1)).origin = .vtx o ∧
    (d'.he (d.heCnt + 1)).incident = nextCell d o cell
  link : ∃ nE, (d'.vs e).conn.head? = some nE ∧
    (∀ f, (d'.he f).next = if nextPrev d o = f then some (d.heCnt + 1) else if f = d.heCnt + 1 then some nE
      else if f = d.heCnt then none else (d.he f).next) ∧
    (∀ f, (d'.he f).prev = if f = d.heCnt + 1 then some (nextPrev d o) else if nE = f then some (d.heCnt + 1)
      else if f = d.heCnt then none else (d.he f).prev)
  fe : d'.fe = match nextCell d o cell with
    | some p => initF d.fe p (d.heCnt + 1)
    | none => d.fe

theorem wp_cellAt {s : St K} {o : Nat} {cell : Option Nat} {Q : Option Nat → St K → Prop}
    (hc : ∀ c, (s.d.vs o).conn.head? = some c → ∃ t, (s.d.he c).twin = some t) (h : Q (nextCell s.d o cell) s) :
    Wp E (cellAt o cell) s Q := by
  simp only [cellAt, wp_bind, wp_zD, wp_rdV]
  unfold nextCell at h
  cases hl : (s.d.vs o).conn with
  | nil => rw [hl] at h; exact h
  | cons c l =>
    rw [hl] at h hc
    obtain ⟨t, ht⟩ := hc c rfl
    simp only [wp_bind, wp_zD, wp_rdE, wp_deref, wp_pure]
    left
    refine ⟨t, ht, ?_⟩
    simpa [ht] using h

/-- One iteration. -/
theorem wp_borderStep {s : St K} {o e : Nat} {rest : List Nat} {cell : Option Nat} {Q : Unit → St K → Prop}
    (hc : ∀ c, (s.d.vs o).conn.head? = some c → c < s.d.heCnt ∧ ∃ t < s.d.heCnt, (s.d.he c).twin = some t)
    (h : ∀ d', BStep s.d o e cell d' →
      Wp E (borderLoop (e :: rest) (nextCell s.d o cell)) { s with d := d', edges := s.edges ++ [s.d.heCnt + 1] } Q) :
    Wp E (borderLoop (o :: e :: rest) cell) s Q := by
  simp only [borderLoop]
  rw [wp_bind]
  refine wp_cellAt (fun c h => by obtain ⟨_, t, _, h⟩ := hc c h; exact ⟨t, h⟩) ?_
  obtain ⟨H, hH⟩ : ∃ H, H = s.d.heCnt := ⟨_, rfl⟩
  obtain ⟨cl, hcl⟩ : ∃ cl, cl = nextCell s.d o cell := ⟨_, rfl⟩
  rw [← hcl] at h ⊢
  rw [← hH] at h
  rw [wp_bind, wp_zD]
  refine wp_newHE_none ?_
  intro h1 a1 a2
  rw [wp_bind, wp_zD]
  refine wp_newHE_some (Nat.ne_of_lt (Nat.lt_succ_self _)) ?_
  intro h2 b1 b2 b3
  simp only [← hH] at a1 a2 b1 b2 b3 ⊢
  have g0 : h2 H = ⟨.vtx e, none, some (H + 1), none, none⟩ := by rw [b2, a1]
  have g2 : ∀ f, f ≠ H → f ≠ H + 1 → h2 f = s.d.he f := fun f f1 f2 => (b3 f f2 f1).trans (a2 f f1)
  rw [wp_bind, wp_zD, wp_appendConn, wp_bind, wp_zD, wp_appendConn, wp_bind]
  obtain ⟨vs2, hvs2⟩ : ∃ vs2, vs2 = Function.update (Function.update s.d.vs o { s.d.vs o with conn := (s.d.vs o).conn ++ [H + 1] }) e
      { Function.update s.d.vs o { s.d.vs o with conn := (s.d.vs o).conn ++ [H + 1] } e with
        conn := (Function.update s.d.vs o { s.d.vs o with conn := (s.d.vs o).conn ++ [H + 1] } e).conn ++ [H] } := ⟨_, rfl⟩
  simp only [← hvs2]
  have hpos : ∀ v, (vs2 v).pos = (s.d.vs v).pos := by
    intro v; rw [hvs2]
    by_cases h1 : v = e
    · subst h1; rw [Function.update_self]
      by_cases h2 : v = o
      · subst h2; simp
      · simp [Function.update_of_ne h2]
    · rw [Function.update_of_ne h1]
      by_cases h2 : v = o
      · subst h2; simp
      · simp [Function.update_of_ne h2]
  have hconn : ∀ v, (vs2 v).conn = (s.d.vs v).conn ++ ((if v = o then [H + 1] else []) ++ (if v = e then [H] else [])) := by
    intro v; rw [hvs2]
    by_cases h1 : v = e
    · subst h1; rw [Function.update_self]
      by_cases h2 : v = o
      · subst h2; simp
      · simp [Function.update_of_ne h2, h2]
    · rw [Function.update_of_ne h1]
      by_cases h2 : v = o
      · subst h2; simp [h1]
      · simp [Function.update_of_ne h2, h1, h2]
  clear hvs2
  obtain ⟨nE, hnE⟩ : ∃ nE, (vs2 e).conn.head? = some nE := by
    rw [hconn e, if_pos rfl]
    cases hh : (s.d.vs e).conn ++ ((if e = o then [H + 1] else []) ++ [H]) with
    | nil => simp at hh
    | cons a l => exact ⟨a, rfl⟩
  obtain ⟨hO, hhO, hOt⟩ : ∃ hO, (vs2 o).conn.head? = some hO ∧ (h2 hO).twin = some (nextPrev s.d o) := by
    rw [hconn o, if_pos rfl]
    unfold nextPrev
    cases hh : (s.d.vs o).conn with
    | nil => exact ⟨H + 1, rfl, by rw [b1, ← hH]; rfl⟩
    | cons c l =>
      obtain ⟨c1, t, c2, c3⟩ := hc c (by rw [hh]; rfl)
      refine ⟨c, rfl, ?_⟩
      rw [g2 c (by omega) (by omega), c3]
      simp [c3]
  obtain ⟨fe', hfe'⟩ : ∃ fe', fe' = match cl with | some p => initF s.d.fe p (H + 1) | none => s.d.fe := ⟨_, rfl⟩
  have hif : ∀ (s1 : St K) (R : Unit → St K → Prop), s1.d.fe = s.d.fe → R () { s1 with d := { s1.d with fe := fe' } } →
      Wp E (optDo cl (fun p => zD (initFE p (H + 1)))) s1 R := by
    intro s1 R e1 hR
    rw [wp_optDo]
    constructor
    · intro p hp
      rw [wp_zD, wp_initFE, e1]
      rw [hfe', hp] at hR
      exact hR
    · intro hp
      rw [hfe', hp] at hR
      simp only [← e1] at hR
      exact hR
  refine hif _ _ (by rfl) ?_
  simp only [linkEnd, linkOrigin, wp_bind, wp_zD, wp_rdV, hnE, wp_optDo, wp_setNext_link, wp_rdE, wp_deref, hhO, wp_modify]
  refine ⟨?_, by intro hh; cases hh⟩
  intro a ha
  cases ha
  refine ⟨?_, by intro hh; cases hh⟩
  intro a ha
  cases ha
  left
  refine ⟨nextPrev s.d o, by rw [linkH_twin]; exact hOt, ?_⟩
  refine h _ ?_
  refine ⟨by simp only [← hH], rfl, hpos, by simpa only [← hH] using hconn, ?_, ?_, ?_, ?_, ?_, ⟨nE, hnE, ?_, ?_⟩, ?_⟩
  · intro f hf; simp only [linkH_twin]; rw [g2 f (by omega) (by omega)]
  · intro f hf; simp only [linkH_org]; rw [g2 f (by omega) (by omega)]
  · intro f hf; simp only [linkH_inc]; rw [g2 f (by omega) (by omega)]
  · simp only [linkH_twin, linkH_org, linkH_inc, ← hH, g0]; exact ⟨trivial, trivial, trivial⟩
  · simp only [linkH_twin, linkH_org, linkH_inc, ← hH, b1, ← hcl]; exact ⟨trivial, trivial, trivial⟩
  · intro f
    simp only [linkH_next, ← hH]
    by_cases f1 : f = nextPrev s.d o
    · rw [if_pos f1, if_pos f1.symm]
    rw [if_neg f1, if_neg (Ne.symm f1)]
    split
    · rfl
    · split
      · rename_i hh; rw [hh, g0]
      · rename_i f2 f3; rw [g2 f f3 f2]
  · intro f
    simp only [linkH_prev, ← hH, Option.some.injEq]
    by_cases f1 : f = H + 1
    · rw [if_pos f1.symm, if_pos f1]
    rw [if_neg f1, if_neg (Ne.symm f1)]
    split
    · rfl
    · split
      · rename_i hh; rw [hh, g0]
      · rename_i f3; rw [g2 f f3 f1]
  · simp only [hfe', ← hH, ← hcl]

/-- First half-edge registered at a vertex. -/
abbrev hd (d : Dcel K) (v : Nat) : Option Nat := (d.vs v).conn.head?

/-- The cells met along the border `V 0, V 1, …`, starting with `cell`. -/
def cellSeq (d : Dcel K) (V : Nat → Nat) (cell : Option Nat) : Nat → Option Nat
  | 0 => nextCell d (V 0) cell
  | j + 1 => nextCell d (V (j + 1)) (cellSeq d V cell j)

/-- The border vertices `V 0, …, V (m-1), V m = V 0` and their first half-edges. -/
structure BPre (d : Dcel K) (V : Nat → Nat) (m : Nat) : Prop where
  pos : 0 < m
  close : V m = V 0
  inj : ∀ i < m, ∀ j < m, V i = V j → i = j
  lt : ∀ j < m, ∀ c, hd d (V j) = some c → c < d.heCnt ∧ ∃ t < d.heCnt, (d.he c).twin = some t
  hinj : ∀ i < m, ∀ j < m, ∀ c, hd d (V i) = some c → hd d (V j) = some c → i = j
  tinj : ∀ i < m, ∀ j < m, ∀ c c' t, hd d (V i) = some c → hd d (V j) = some c' → (d.he c).twin = some t → (d.he c').twin = some t → i = j

/-- The state after `i` iterations. -/
structure BInv (d0 : Dcel K) (V : Nat → Nat) (m : Nat) (cell : Option Nat) (i : Nat) (d : Dcel K) : Prop where
  heCnt : d.heCnt = d0.heCnt + 2 * i
  vCnt : d.vCnt = d0.vCnt
  pos : ∀ v, (d.vs v).pos = (d0.vs v).pos
  twin : ∀ f < d0.heCnt, (d.he f).twin = (d0.he f).twin
  org : ∀ f < d0.heCnt, (d.he f).origin = (d0.he f).origin
  inc : ∀ f < d0.heCnt, (d.he f).incident = (d0.he f).incident
  newT : ∀ j < i, (d.he (d0.heCnt + 2 * j)).twin = some (d0.heCnt + 2 * j + 1) ∧ (d.he (d0.heCnt + 2 * j)).origin = .vtx (V (j + 1)) ∧
    (d.he (d0.heCnt + 2 * j)).incident = none
  newE : ∀ j < i, (d.he (d0.heCnt + 2 * j + 1)).twin = some (d0.heCnt + 2 * j) ∧ (d.he (d0.heCnt + 2 * j + 1)).origin = .vtx (V j) ∧
    (d.he (d0.heCnt + 2 * j + 1)).incident = cellSeq d0 V cell j
  conn : ∀ v, ∃ l, (d.vs v).conn = (d0.vs v).conn ++ l ∧ l.Nodup ∧ ∀ c ∈ l, d0.heCnt ≤ c ∧ c < d.heCnt ∧ (d.he c).origin = .vtx v
  connE : ∀ j < i, d0.heCnt + 2 * j + 1 ∈ (d.vs (V j)).conn ∧ d0.heCnt + 2 * j ∈ (d.vs (V (j + 1))).conn
  head : ∀ j < m, hd d (V j) = (hd d0 (V j)).or (if j = 0 then (if 0 < i then some (d0.heCnt + 1) else none)
    else if j ≤ i then some (d0.heCnt + 2 * (j - 1)) else none)
  nextO : ∀ j < i, ∀ c t, hd d0 (V j) = some c → (d0.he c).twin = some t → (d.he t).next = some (d0.heCnt + 2 * j + 1)
  nextK : ∀ f < d0.heCnt, (∀ j < i, ∀ c, hd d0 (V j) = some c → (d0.he c).twin ≠ some f) → (d.he f).next = (d0.he f).next
  nextE : ∀ j < i, (d.he (d0.heCnt + 2 * j + 1)).next = some ((hd d0 (V (j + 1))).getD
    (if j + 1 < i then d0.heCnt + 2 * (j + 1) + 1 else if i = m then d0.heCnt + 1 else d0.heCnt + 2 * j))
  prevC : ∀ j < i, ∀ c, hd d0 (V (j + 1)) = some c → (d.he c).prev = some (d0.heCnt + 2 * j + 1)
  prevK : ∀ f < d0.heCnt, (∀ j < i, hd d0 (V (j + 1)) ≠ some f) → (d.he f).prev = (d0.he f).prev
  prevE : ∀ j < i, (d.he (d0.heCnt + 2 * j + 1)).prev = some (match hd d0 (V j) with
    | some c => (d0.he c).twin.getD 0
    | none => if j = 0 then (if i = m ∧ m ≠ 1 then d0.heCnt + 2 * (m - 1) + 1 else d0.heCnt) else d0.heCnt + 2 * (j - 1) + 1)
  feK : ∀ p, (d0.fe p).isSome → d.fe p = d0.fe p
  feN : ∀ p e, d.fe p = some e → d0.fe p = some e ∨ ∃ j < i, e = d0.heCnt + 2 * j + 1 ∧ cellSeq d0 V cell j = some p
  feA : ∀ j < i, ∀ p, cellSeq d0 V cell j = some p → (d.fe p).isSome
  fe0 : ∀ p, 0 < i → d0.fe p = none → cellSeq d0 V cell 0 = some p → d.fe p = some (d0.heCnt + 1)
  nextT : ∀ j < i, 0 < j → (d.he (d0.heCnt + 2 * j)).next = none
  prevT : ∀ j < i, (hd d0 (V (j + 1))).isSome → (d.he (d0.heCnt + 2 * j)).prev = none

theorem BInv.init {d : Dcel K} {V : Nat → Nat} {m : Nat} {cell : Option Nat} : BInv d V m cell 0 d where
  heCnt := rfl
  vCnt := rfl
  pos _ := rfl
  twin _ _ := rfl
  org _ _ := rfl
  inc _ _ := rfl
  newT j hj := by omega
  newE j hj := by omega
  conn v := ⟨[], by simp⟩
  connE j hj := by omega
  head j hj := by
    by_cases h : j = 0
    · simp [h]
    · rw [if_neg h, if_neg (by omega)]; simp
  nextO j hj := by omega
  nextK _ _ _ := rfl
  nextE j hj := by omega
  prevC j hj := by omega
  prevK _ _ _ := rfl
  prevE j hj := by omega
  feK _ _ := rfl
  feN _ _ h := Or.inl h
  feA j hj := by omega
  fe0 _ h := by omega
  nextT j hj := by omega
  prevT j hj := by omega

section step

variable {d0 d d' : Dcel K} {V : Nat → Nat} {m : Nat} {cell cell' : Option Nat} {i : Nat}

theorem BInv.hd_cases (h : BInv d0 V m cell i d) (hi : i < m) : (∃ c, hd d0 (V i) = some c ∧ hd d (V i) = some c) ∨
    (hd d0 (V i) = none ∧ i = 0 ∧ hd d (V i) = none) ∨ (hd d0 (V i) = none ∧ 0 < i ∧ hd d (V i) = some (d0.heCnt + 2 * (i - 1))) := by
  have h1 := h.head i hi
  cases h0 : hd d0 (V i) with
  | some c => left; exact ⟨c, rfl, by rw [h1, h0]; rfl⟩
  | none =>
    right
    rw [h0] at h1
    by_cases hi0 : i = 0
    · left; subst hi0; exact ⟨rfl, rfl, by rw [h1]; simp⟩
    · right; exact ⟨rfl, by omega, by rw [h1, if_neg hi0]; simp⟩

theorem BInv.nextPrev_eq (h : BInv d0 V m cell i d) (hp : BPre d0 V m) (hi : i < m) :
    (∃ c t, hd d0 (V i) = some c ∧ (d0.he c).twin = some t ∧ t < d0.heCnt ∧ nextPrev d (V i) = t) ∨
    (hd d0 (V i) = none ∧ i = 0 ∧ nextPrev d (V i) = d0.heCnt) ∨
    (hd d0 (V i) = none ∧ 0 < i ∧ nextPrev d (V i) = d0.heCnt + 2 * (i - 1) + 1) := by
  unfold nextPrev
  rcases h.hd_cases hi with ⟨c, h1, h2⟩ | ⟨h1, h2, h3⟩ | ⟨h1, h2, h3⟩
  · left
    obtain ⟨c1, t, c2, c3⟩ := hp.lt i hi c h1
    refine ⟨c, t, h1, c3, c2, ?_⟩
    have h2' : (d.vs (V i)).conn.head? = some c := h2
    rw [h2']
    simp only [h.twin c c1, c3, Option.getD_some]
  · right; left
    refine ⟨h1, h2, ?_⟩
    have h3' : (d.vs (V i)).conn.head? = none := h3
    rw [h3']
    simp only [h.heCnt, h2]; omega
  · right; right
    refine ⟨h1, h2, ?_⟩
    have h3' : (d.vs (V i)).conn.head? = some _ := h3
    rw [h3']
    simp only [(h.newT (i - 1) (by omega)).1, Option.getD_some]

theorem BInv.nextCell_eq (h : BInv d0 V m cell i d) (hp : BPre d0 V m) (hi : i < m) (hc : i = 0 → cell' = cell) :
    nextCell d (V i) cell' = cellSeq d0 V cell i := by
  rcases h.hd_cases hi with ⟨c, h1, h2⟩ | ⟨h1, h2, h3⟩ | ⟨h1, h2, h3⟩
  · obtain ⟨c1, t, c2, c3⟩ := hp.lt i hi c h1
    have : ∀ x, nextCell d (V i) cell' = nextCell d0 (V i) x := by
      intro x
      have h1' : (d0.vs (V i)).conn.head? = some c := h1
      have h2' : (d.vs (V i)).conn.head? = some c := h2
      unfold nextCell
      rw [h1', h2']
      simp only [h.twin c c1, c3, Option.bind_some, h.inc t c2]
    cases i with
    | zero => exact this _
    | succ k => exact this _
  · subst h2
    have h1' : (d0.vs (V 0)).conn.head? = none := h1
    have h3' : (d.vs (V 0)).conn.head? = none := h3
    show nextCell d (V 0) cell' = nextCell d0 (V 0) cell
    unfold nextCell
    rw [h1', h3', hc rfl]
  · obtain ⟨k, rfl⟩ : ∃ k, i = k + 1 := ⟨i - 1, by omega⟩
    have h1' : (d0.vs (V (k + 1))).conn.head? = none := h1
    have h3' : (d.vs (V (k + 1))).conn.head? = some _ := h3
    show nextCell d (V (k + 1)) cell' = nextCell d0 (V (k + 1)) (cellSeq d0 V cell k)
    unfold nextCell
    rw [h1', h3']
    simp only [Nat.add_sub_cancel, (h.newT k (by omega)).1, Option.bind_some, (h.newE k (by omega)).2.2]

theorem BInv.nE_eq (h : BInv d0 V m cell i d) (hp : BPre d0 V m) (hi : i < m) (hs : BStep d (V i) (V (i + 1)) cell' d') :
    hd d' (V (i + 1)) = some ((hd d0 (V (i + 1))).getD (if i + 1 = m then d0.heCnt + 1 else d0.heCnt + 2 * i)) := by
  have hc := hs.conn (V (i + 1))
  rw [if_pos rfl] at hc
  show (d'.vs (V (i + 1))).conn.head? = _
  rw [hc, List.head?_append]
  by_cases hm : i + 1 = m
  · rw [hm, hp.close]
    have h1 : (d.vs (V 0)).conn.head? = _ := h.head 0 hp.pos
    rw [h1, if_pos rfl, if_pos rfl]
    by_cases hi0 : i = 0
    · subst hi0
      rw [if_pos rfl, if_neg (by omega), h.heCnt]
      cases hd d0 (V 0) <;> simp
    · rw [if_pos (by omega)]
      cases hd d0 (V 0) <;> simp
  · have h1 : (d.vs (V (i + 1))).conn.head? = _ := h.head (i + 1) (by omega)
    rw [h1, if_neg (by omega), if_neg (by omega), if_neg hm, h.heCnt]
    have : ¬ V (i + 1) = V i := by
      intro hh
      have := hp.inj _ (by omega) _ hi hh
      omega
    rw [if_neg this]
    cases hd d0 (V (i + 1)) <;> simp

theorem BInv.step (h : BInv d0 V m cell i d) (hp : BPre d0 V m) (hi : i < m) (hc : i = 0 → cell' = cell)
    (hs : BStep d (V i) (V (i + 1)) cell' d') : BInv d0 V m cell (i + 1) d' := by
  obtain ⟨H, hH⟩ : ∃ H, H = d0.heCnt := ⟨_, rfl⟩
  have hcnt : d.heCnt = H + 2 * i := by rw [h.heCnt, hH]
  have hnc := h.nextCell_eq hp hi hc
  have hnp := h.nextPrev_eq hp hi
  have hnE := h.nE_eq hp hi hs
  obtain ⟨nE, l1, l2, l3⟩ := hs.link
  have l1' : hd d' (V (i + 1)) = some nE := l1
  rw [l1', Option.some.injEq] at hnE
  obtain ⟨np, hnpe⟩ : ∃ np, np = nextPrev d (V i) := ⟨_, rfl⟩
  rw [← hnpe] at hnp l2 l3
  rw [hcnt] at l2 l3
  rw [← hH] at hnp hnE
  have hnEC : ∀ c, hd d0 (V (i + 1)) = some c → c < H ∧ nE = c := by
    intro c hcc
    refine ⟨?_, by rw [hnE, hcc]; rfl⟩
    by_cases hm : i + 1 = m
    · rw [hm, hp.close] at hcc; rw [hH]; exact (hp.lt 0 hp.pos c hcc).1
    · rw [hH]; exact (hp.lt (i + 1) (by omega) c hcc).1
  have htw : ∀ f < d.heCnt, (d'.he f).twin = (d.he f).twin := hs.twin
  have htw0 := hs.tw0
  have hed0 := hs.ed0
  rw [hcnt] at htw0 hed0
  rw [hnc] at hed0
  refine ⟨?_, hs.vCnt.trans h.vCnt, fun v => (hs.pos v).trans (h.pos v), ?_, ?_, ?_, ?_, ?_, ?_, ?_, ?_, ?_, ?_, ?_, ?_, ?_, ?_, ?_, ?_, ?_, ?_, ?_, ?_⟩
  all_goals try rw [← hH]
  · rw [hs.heCnt, hcnt]; omega
  · intro f hf; rw [hs.twin f (by omega), h.twin f (by omega)]
  · intro f hf; rw [hs.org f (by omega), h.org f (by omega)]
  · intro f hf; rw [hs.inc f (by omega), h.inc f (by omega)]
  · -- newT
    intro j hj
    by_cases hji : j = i
    · subst hji; exact htw0
    · have := h.newT j (by omega)
      rw [← hH] at this
      rw [hs.twin _ (by omega), hs.org _ (by omega), hs.inc _ (by omega)]
      exact this
  · -- newE
    intro j hj
    by_cases hji : j = i
    · subst hji; exact hed0
    · have := h.newE j (by omega)
      rw [← hH] at this
      rw [hs.twin _ (by omega), hs.org _ (by omega), hs.inc _ (by omega)]
      exact this
  · -- conn
    intro v
    obtain ⟨l, c1, c0, c2⟩ := h.conn v
    refine ⟨l ++ ((if v = V i then [d.heCnt + 1] else []) ++ (if v = V (i + 1) then [d.heCnt] else [])), ?_, ?_, ?_⟩
    · rw [hs.conn v, c1, List.append_assoc]
    · refine List.nodup_append.mpr ⟨c0, ?_, ?_⟩
      · split <;> split <;> simp
      · rintro a ha b hb rfl
        have := (c2 a ha).2.1
        rcases List.mem_append.mp hb with hb | hb
        · split at hb
          · rw [List.mem_singleton] at hb; omega
          · cases hb
        · split at hb
          · rw [List.mem_singleton] at hb; omega
          · cases hb
    · intro c hcm
      rcases List.mem_append.mp hcm with hcm | hcm
      · obtain ⟨e1, e2, e3⟩ := c2 c hcm
        refine ⟨by omega, by rw [hs.heCnt]; omega, by rw [hs.org c e2]; exact e3⟩
      · rcases List.mem_append.mp hcm with hcm | hcm
        · split at hcm
          · rename_i hv
            rw [List.mem_singleton] at hcm
            subst hcm
            refine ⟨by omega, by rw [hs.heCnt]; omega, ?_⟩
            rw [hs.ed0.2.1, hv]
          · cases hcm
        · split at hcm
          · rename_i hv
            rw [List.mem_singleton] at hcm
            subst hcm
            refine ⟨by omega, by rw [hs.heCnt]; omega, ?_⟩
            rw [hs.tw0.2.1, hv]
          · cases hcm
  · -- connE
    intro j hj
    by_cases hji : j = i
    · subst hji
      rw [hs.conn, hs.conn, hcnt]
      constructor
      · simp
      · simp
    · have := h.connE j (by omega)
      rw [← hH] at this
      rw [hs.conn, hs.conn]
      exact ⟨List.mem_append_left _ this.1, List.mem_append_left _ this.2⟩
  · -- head
    intro j hj
    have h1 : (d.vs (V j)).conn.head? = _ := h.head j hj
    show (d'.vs (V j)).conn.head? = _
    rw [hs.conn, List.head?_append, h1, ← hH, hcnt]
    cases h0 : hd d0 (V j) with
    | some c => simp
    | none =>
      simp only [Option.none_or]
      by_cases hj0 : j = 0
      · subst hj0
        rw [if_pos rfl, if_pos rfl, if_pos (by omega : 0 < i + 1)]
        by_cases hi0 : i = 0
        · subst hi0; simp
        · rw [if_pos (by omega)]; simp
      · rw [if_neg hj0, if_neg hj0]
        by_cases hji : j ≤ i
        · rw [if_pos hji, if_pos (by omega : j ≤ i + 1)]; simp
        · rw [if_neg hji]
          have n1 : ¬ V j = V i := fun hh => by have := hp.inj _ hj _ hi hh; omega
          rw [if_neg n1]
          by_cases hj1 : j = i + 1
          · subst hj1; simp
          · rw [if_neg (by omega : ¬ j ≤ i + 1)]
            have n2 : ¬ V j = V (i + 1) := by
              intro hh
              by_cases hm : i + 1 = m
              · omega
              · have := hp.inj _ hj _ (by omega) hh
                omega
            rw [if_neg n2]; simp
  · -- nextO
    intro j hj c t hcj ht
    rw [l2]
    by_cases hji : j = i
    · subst hji
      rcases hnp with ⟨c', t', e1, e2, e3, e4⟩ | ⟨e1, _⟩ | ⟨e1, _⟩
      · rw [e1] at hcj; cases hcj
        rw [e2] at ht; cases ht
        rw [if_pos e4]
      · rw [e1] at hcj; cases hcj
      · rw [e1] at hcj; cases hcj
    · have htlt : t < H := by
        obtain ⟨_, t', e1, e2⟩ := hp.lt j (by omega) c hcj
        rw [e2] at ht; cases ht; omega
      have : ¬ np = t := by
        intro hh
        rcases hnp with ⟨c', t', e1, e2, e3, e4⟩ | ⟨e1, _, e4⟩ | ⟨e1, _, e4⟩
        · have := hp.tinj i hi j (by omega) c' c t e1 hcj (by rw [← hh, e4]; exact e2) ht
          omega
        · omega
        · omega
      rw [if_neg this, if_neg (by omega), if_neg (by omega)]
      have := h.nextO j (by omega) c t hcj ht
      rw [this, hH]
  · -- nextK
    intro f hf hno
    rw [l2]
    have : ¬ np = f := by
      intro hh
      rcases hnp with ⟨c', t', e1, e2, e3, e4⟩ | ⟨e1, _, e4⟩ | ⟨e1, _, e4⟩
      · exact hno i (by omega) c' e1 (by rw [e2, ← e4, hh])
      · omega
      · omega
    rw [if_neg this, if_neg (by omega), if_neg (by omega)]
    exact h.nextK f (by omega) (fun j hj => hno j (by omega))
  · -- nextE
    intro j hj
    rw [l2]
    by_cases hji : j = i
    · subst hji
      have : ¬ np = H + 2 * j + 1 := by
        rcases hnp with ⟨c', t', e1, e2, e3, e4⟩ | ⟨e1, _, e4⟩ | ⟨e1, _, e4⟩ <;> omega
      rw [if_neg this, if_pos rfl, if_neg (by omega), hnE]
    · have hprev := h.nextE j (by omega)
      rw [← hH] at hprev
      rcases hnp with ⟨c', t', e1, e2, e3, e4⟩ | ⟨e1, _, e4⟩ | ⟨e1, e5, e4⟩
      · rw [if_neg (by omega), if_neg (by omega), if_neg (by omega), hprev]
        by_cases hj1 : j + 1 = i
        · rw [hj1, e1]; rfl
        · rw [if_pos (by omega : j + 1 < i), if_pos (by omega : j + 1 < i + 1)]
      · omega
      · by_cases hj1 : j + 1 = i
        · subst hj1
          rw [if_pos (by rw [e4]; simp), e1]
          simp
        · rw [if_neg (by omega), if_neg (by omega), if_neg (by omega), hprev, if_pos (by omega : j + 1 < i), if_pos (by omega : j + 1 < i + 1)]
  · -- prevC
    intro j hj c hcj
    rw [l3]
    by_cases hji : j = i
    · subst hji
      obtain ⟨g1, g2⟩ := hnEC c hcj
      rw [if_neg (by omega), if_pos g2]
    · obtain ⟨g1, t, g2, g3⟩ := hp.lt (j + 1) (by omega) c hcj
      have : ¬ nE = c := by
        intro hh
        cases h0 : hd d0 (V (i + 1)) with
        | none =>
          rw [h0, Option.getD_none] at hnE
          split at hnE <;> omega
        | some c' =>
          obtain ⟨k1, k2⟩ := hnEC c' h0
          by_cases hm : i + 1 = m
          · rw [hm, hp.close] at h0
            have := hp.hinj 0 hp.pos (j + 1) (by omega) c (by rw [h0, ← k2, hh]) hcj
            omega
          · have := hp.hinj (i + 1) (by omega) (j + 1) (by omega) c (by rw [h0, ← k2, hh]) hcj
            omega
      rw [if_neg (by omega), if_neg this, if_neg (by omega)]
      have := h.prevC j (by omega) c hcj
      rw [this, hH]
  · -- prevK
    intro f hf hno
    rw [l3]
    have : ¬ nE = f := by
      intro hh
      cases h0 : hd d0 (V (i + 1)) with
      | none =>
        rw [h0, Option.getD_none] at hnE
        split at hnE <;> omega
      | some c' =>
        obtain ⟨k1, k2⟩ := hnEC c' h0
        exact hno i (by omega) (by rw [h0, ← k2, hh])
    rw [if_neg (by omega), if_neg this, if_neg (by omega)]
    exact h.prevK f (by omega) (fun j hj => hno j (by omega))
  · -- prevE
    intro j hj
    rw [l3]
    by_cases hji : j = i
    · subst hji
      rw [if_pos rfl]
      rcases hnp with ⟨c', t', e1, e2, e3, e4⟩ | ⟨e1, e5, e4⟩ | ⟨e1, e5, e4⟩
      · rw [e1]; simp only [e2, Option.getD_some, e4]
      · rw [e1]; simp only
        rw [if_pos e5, if_neg (by omega), e4]
      · rw [e1]; simp only
        rw [if_neg (by omega), e4]
    · have hprev := h.prevE j (by omega)
      rw [← hH] at hprev
      rw [if_neg (by omega)]
      by_cases hne : nE = H + 2 * j + 1
      · rw [if_pos hne]
        cases h0 : hd d0 (V (i + 1)) with
        | some c' =>
          obtain ⟨k1, k2⟩ := hnEC c' h0
          omega
        | none =>
          rw [h0, Option.getD_none] at hnE
          by_cases hm : i + 1 = m
          · rw [if_pos hm] at hnE
            have hj0 : j = 0 := by omega
            subst hj0
            rw [hm, hp.close] at h0
            rw [h0]
            simp only
            rw [if_pos trivial, if_pos (by omega)]
            congr 1; omega
          · rw [if_neg hm] at hnE; omega
      · rw [if_neg hne, if_neg (by omega), hprev]
        congr 1
        cases h0 : hd d0 (V j) with
        | some c => rfl
        | none =>
          simp only
          by_cases hj0 : j = 0
          · rw [if_pos hj0, if_pos hj0, if_neg (by omega), if_neg]
            rintro ⟨hm, _⟩
            rw [hm, hp.close, ← hj0, h0] at hnE
            rw [if_pos rfl, Option.getD_none] at hnE
            omega
          · rw [if_neg hj0, if_neg hj0]
  · -- feK
    intro p hpp
    rw [hs.fe, hnc]
    have h1 := h.feK p hpp
    cases cellSeq d0 V cell i with
    | none => exact h1
    | some x =>
      show initF d.fe x (d.heCnt + 1) p = _
      unfold initF
      split
      · exact h1
      · rename_i hx
        rw [Function.update_of_ne, h1]
        rintro rfl
        rw [h1] at hx; exact hx hpp
  · -- feN
    intro p e he
    rw [hs.fe, hnc] at he
    have h1 : d.fe p = some e → d0.fe p = some e ∨ ∃ j < i + 1, e = H + 2 * j + 1 ∧ cellSeq d0 V cell j = some p := by
      intro h2
      rcases h.feN p e h2 with h3 | ⟨j, h3, h4⟩
      · exact Or.inl h3
      · exact Or.inr ⟨j, by omega, by rw [hH]; exact h4⟩
    cases hci : cellSeq d0 V cell i with
    | none => rw [hci] at he; exact h1 he
    | some x =>
      rw [hci] at he
      rcases initF_some he with h2 | ⟨h2, h3⟩
      · exact h1 h2
      · exact Or.inr ⟨i, by omega, by rw [h3, hcnt], by rw [hci, h2]⟩
  · -- feA
    intro j hj p hpj
    rw [hs.fe, hnc]
    by_cases hji : j = i
    · subst hji
      rw [hpj]
      exact initF_isSome (Or.inr rfl)
    · have h1 := h.feA j (by omega) p hpj
      cases cellSeq d0 V cell i with
      | none => exact h1
      | some x => exact initF_isSome (Or.inl h1)
  · -- fe0
    intro p _ hp0 hcp
    rw [hs.fe, hnc]
    by_cases hi0 : i = 0
    · subst hi0
      rw [hcp]
      have hn : d.fe p = none := by
        cases hx : d.fe p with
        | none => rfl
        | some x =>
          rcases h.feN p x hx with h3 | ⟨j, h3, h4⟩
          · rw [hp0] at h3; cases h3
          · omega
      show initF d.fe p (d.heCnt + 1) p = _
      unfold initF
      rw [hn, hcnt]; simp
    · have h1 := h.fe0 p (by omega) hp0 hcp
      rw [← hH] at h1
      cases cellSeq d0 V cell i with
      | none => exact h1
      | some x =>
        show initF d.fe x (d.heCnt + 1) p = _
        unfold initF
        split
        · exact h1
        · rename_i hx
          rw [Function.update_of_ne, h1]
          rintro rfl
          rw [h1] at hx; simp at hx
  · -- nextT
    intro j hj j0
    rw [l2]
    have : ¬ np = H + 2 * j := by
      rcases hnp with ⟨c', t', e1, e2, e3, e4⟩ | ⟨e1, _, e4⟩ | ⟨e1, _, e4⟩ <;> omega
    rw [if_neg this, if_neg (by omega)]
    by_cases hji : j = i
    · rw [if_pos (by omega)]
    · rw [if_neg (by omega), hH, h.nextT j (by omega) j0]
  · -- prevT
    intro j hj hsome
    rw [l3, if_neg (by omega)]
    by_cases hji : j = i
    · subst hji
      obtain ⟨c, hcc⟩ := Option.isSome_iff_exists.mp hsome
      obtain ⟨k1, k2⟩ := hnEC c hcc
      rw [if_neg (by omega), if_pos rfl]
    · have : ¬ nE = H + 2 * j := by
        rw [hnE]
        cases h0 : hd d0 (V (i + 1)) with
        | some c' =>
          obtain ⟨k1, k2⟩ := hnEC c' h0
          simp only [Option.getD_some]
          omega
        | none =>
          simp only [Option.getD_none]
          split <;> omega
      rw [if_neg this, if_neg (by omega), hH, h.prevT j (by omega) hsome]

end step

/-- The whole loop. -/
theorem wp_borderLoop {d0 : Dcel K} {V : Nat → Nat} {m : Nat} {cell : Option Nat} (hp : BPre d0 V m) (eds : List Nat) :
    ∀ (k i : Nat) (s : St K) (cell' : Option Nat), i + k = m → (i = 0 → cell' = cell) → BInv d0 V m cell i s.d →
      s.edges = eds ++ (List.range i).map (fun j => d0.heCnt + 2 * j + 1) →
      Wp E (borderLoop ((List.range' i (k + 1)).map V) cell') s (fun _ s' => BInv d0 V m cell m s'.d ∧
        s' = { s with d := s'.d, edges := eds ++ (List.range m).map (fun j => d0.heCnt + 2 * j + 1) }) := by
  intro k
  induction k with
  | zero =>
    intro i s cell' hik _ hb he
    have him : i = m := by omega
    subst him
    simp only [List.range', List.map_cons, List.map_nil, borderLoop, wp_pure]
    exact ⟨hb, by rw [← he]⟩
  | succ k ih =>
    intro i s cell' hik hc hb he
    rw [List.range'_succ, List.map_cons, List.range'_succ, List.map_cons]
    have hi : i < m := by omega
    refine wp_borderStep ?_ ?_
    · intro c hcc
      have hcnt := hb.heCnt
      rcases hb.hd_cases hi with ⟨c', h1, h2⟩ | ⟨h1, h2, h3⟩ | ⟨h1, h2, h3⟩
      · have : (s.d.vs (V i)).conn.head? = some c' := h2
        rw [this] at hcc; cases hcc
        obtain ⟨a1, t, a2, a3⟩ := hp.lt i hi c h1
        exact ⟨by omega, t, by omega, by rw [hb.twin c a1]; exact a3⟩
      · have : (s.d.vs (V i)).conn.head? = none := h3
        rw [this] at hcc; cases hcc
      · have : (s.d.vs (V i)).conn.head? = some _ := h3
        rw [this] at hcc; cases hcc
        exact ⟨by omega, _, by omega, (hb.newT (i - 1) (by omega)).1⟩
    · intro d' hs
      have hb' := hb.step hp hi hc hs
      have hl : V (i + 1) :: (List.range' (i + 1 + 1) k).map V = (List.range' (i + 1) (k + 1)).map V := by
        rw [List.range'_succ, List.map_cons]
      rw [hl]
      refine wp_mono (ih (i + 1) _ _ (by omega) (by omega) hb' ?_) ?_
      · simp only [he, hb.heCnt, List.range_succ, List.map_append, List.map_cons, List.map_nil, List.append_assoc]
      · rintro _ s' ⟨h1, h2⟩
        exact ⟨h1, by rw [h2]⟩

end Foronoi
