import Verif.Model.Rat

/-!
# Evaluation of concrete runs by the kernel

The kernel evaluates by name.  `force` rebuilds a state from its evaluated parts (`St.force s k = k s`); the runners ending in `F`
do so between the steps of the loops and are equal to the model's loops.  Nothing here is part of the model.
-/

namespace Foronoi

/-- A forcing function: `f a k` evaluates `a` and calls `k`. -/
structure Frc (A : Type) where
  run : {α : Type} → A → (A → α) → α
  eq : ∀ {α : Type} (a : A) (k : A → α), run a k = k a

def fNat : Frc Nat where
  run n k := match n with
    | 0 => k 0
    | m + 1 => k (Nat.succ m)
  eq := by intro α a k; cases a <;> rfl

def fRat : Frc ℚ where
  run q k := match q with
    | ⟨.ofNat 0, 0, h1, h2⟩ => k ⟨.ofNat 0, 0, h1, h2⟩
    | ⟨.ofNat 0, d + 1, h1, h2⟩ => k ⟨.ofNat 0, Nat.succ d, h1, h2⟩
    | ⟨.ofNat (m + 1), 0, h1, h2⟩ => k ⟨.ofNat (Nat.succ m), 0, h1, h2⟩
    | ⟨.ofNat (m + 1), d + 1, h1, h2⟩ => k ⟨.ofNat (Nat.succ m), Nat.succ d, h1, h2⟩
    | ⟨.negSucc 0, 0, h1, h2⟩ => k ⟨.negSucc 0, 0, h1, h2⟩
    | ⟨.negSucc 0, d + 1, h1, h2⟩ => k ⟨.negSucc 0, Nat.succ d, h1, h2⟩
    | ⟨.negSucc (m + 1), 0, h1, h2⟩ => k ⟨.negSucc (Nat.succ m), 0, h1, h2⟩
    | ⟨.negSucc (m + 1), d + 1, h1, h2⟩ => k ⟨.negSucc (Nat.succ m), Nat.succ d, h1, h2⟩
  eq := by
    intro α a k
    obtain ⟨n, d, h1, h2⟩ := a
    rcases n with (_ | n) | (_ | n) <;> cases d <;> rfl

def fBool : Frc Bool where
  run b k := match b with | true => k true | false => k false
  eq := by intro α a k; cases a <;> rfl

def fOpt {A : Type} (f : Frc A) : Frc (Option A) where
  run o k := match o with | none => k none | some a => f.run a fun a => k (some a)
  eq := by intro α a k; cases a <;> simp [f.eq]

def fProd {A B : Type} (f : Frc A) (g : Frc B) : Frc (A × B) where
  run o k := match o with | (a, b) => f.run a fun a => g.run b fun b => k (a, b)
  eq := by intro α a k; simp [f.eq, g.eq]

def fListRun {A : Type} (f : Frc A) {α : Type} : List A → (List A → α) → α
  | [], k => k []
  | a :: l, k => f.run a fun a => fListRun f l fun l => k (a :: l)

def fList {A : Type} (f : Frc A) : Frc (List A) where
  run := fListRun f
  eq := by
    intro α a
    induction a with
    | nil => intro k; rfl
    | cons a l ih => intro k; simp [fListRun, f.eq, ih]

/-- A store: the first `cnt` entries are evaluated. -/
def fStore {A : Type} (f : Frc A) (cnt : Nat) : Frc (Nat → A) where
  run g k := (fList f).run ((List.range cnt).map g) fun l => k fun i => match l[i]? with | some x => x | none => g i
  eq := by
    intro α g k
    rw [(fList f).eq]
    congr 1
    funext i
    by_cases h : i < cnt
    · simp [h]
    · simp [h]

def fDat : Frc Dat where
  run d k := match d with | .arc a => fNat.run a fun a => k (.arc a) | .bp b => fNat.run b fun b => k (.bp b)
  eq := by intro α a k; cases a <;> simp [fNat.eq]

def fOrg : Frc Org where
  run d k := match d with | .vtx a => fNat.run a fun a => k (.vtx a) | .bp b => fNat.run b fun b => k (.bp b)
  eq := by intro α a k; cases a <;> simp [fNat.eq]

def fOptNat : Frc (Option Nat) := fOpt fNat

def fNodeR : Frc (NodeR Dat) where
  run r k := match r with
    | ⟨a, b, c, d, e⟩ => fDat.run a fun a => fOptNat.run b fun b => fOptNat.run c fun c => fOptNat.run d fun d =>
      fOptNat.run e fun e => k ⟨a, b, c, d, e⟩
  eq := by intro α a k; simp [fDat.eq, fOptNat.eq]

def fHE : Frc HE where
  run r k := match r with
    | ⟨a, b, c, d, e⟩ => fOrg.run a fun a => fOptNat.run b fun b => fOptNat.run c fun c => fOptNat.run d fun d =>
      fOptNat.run e fun e => k ⟨a, b, c, d, e⟩
  eq := by intro α a k; simp [fOrg.eq, fOptNat.eq]

/-- Numbers that can be forced. -/
class FrcOf (K : Type) where
  frc : Frc K

instance : FrcOf ℚ := ⟨fRat⟩

variable {K : Type} [LinearOrder K] [Arith K] [FrcOf K]

def frcK : Frc K := FrcOf.frc

def fPt : Frc (K × K) := fProd frcK frcK

def fVR : Frc (VR K) where
  run r k := match r with | ⟨a, b⟩ => (fOpt fPt).run a fun a => (fList fNat).run b fun b => k ⟨a, b⟩
  eq := by intro α a k; simp [Frc.eq]

def fBpR : Frc BpR where
  run r k := match r with | ⟨a, b⟩ => (fProd fNat fNat).run a fun a => fOptNat.run b fun b => k ⟨a, b⟩
  eq := by intro α a k; simp [Frc.eq]

def fArcR : Frc ArcR where
  run r k := match r with | ⟨a, b⟩ => fNat.run a fun a => fOptNat.run b fun b => k ⟨a, b⟩
  eq := by intro α a k; simp [Frc.eq]

def fCevR : Frc (CevR K) where
  run r k := match r with
    | ⟨a, b, c, d, e⟩ => fPt.run a fun a => frcK.run b fun b => fNat.run c fun c => fBool.run d fun d =>
      (fProd fNat (fProd fNat fNat)).run e fun e => k ⟨a, b, c, d, e⟩
  eq := by intro α a k; simp [Frc.eq]

def fQE : Frc (QE K) where
  run r k := match r with
    | ⟨a, b, c, d⟩ => frcK.run a fun a => frcK.run b fun b => fBool.run c fun c => fNat.run d fun d => k ⟨a, b, c, d⟩
  eq := by intro α a k; simp [Frc.eq]

def fMsg : Frc Msg where
  run m k := match m with
    | .stepFinished => k .stepFinished | .sweepFinished => k .sweepFinished
    | .voronoiFinished => k .voronoiFinished | .debug => k .debug
  eq := by intro α a k; cases a <;> rfl

def fDcel (n : Nat) : Frc (Dcel K) where
  run r k := match r with
    | ⟨he, hc, vs, vc, fe⟩ => fNat.run hc fun hc => fNat.run vc fun vc => (fStore fHE hc).run he fun he =>
      (fStore fVR vc).run vs fun vs => (fStore fOptNat n).run fe fun fe => k ⟨he, hc, vs, vc, fe⟩
  eq := by intro α a k; simp [Frc.eq]

def fNS : Frc (NS Dat) where
  run r k := match r with
    | ⟨n, c⟩ => fNat.run c fun c => (fStore fNodeR c).run n fun n => k ⟨n, c⟩
  eq := by intro α a k; simp [Frc.eq]

def fEvRef : Frc EvRef where
  run m k := match m with | .site p => fNat.run p fun p => k (.site p) | .circle p => fNat.run p fun p => k (.circle p)
  eq := by intro α a k; cases a <;> simp [Frc.eq]

def fSt (n : Nat) : Frc (St K) where
  run s k := match s with
    | ⟨ns, d, bps, bpCnt, arcs, arcCnt, evs, evCnt, names, nextName, root, sweep, arcSet, edges, verts, polyVerts, queue, event, log⟩ =>
      fNat.run bpCnt fun bpCnt => fNat.run arcCnt fun arcCnt => fNat.run evCnt fun evCnt => fNat.run nextName fun nextName =>
      fNS.run ns fun ns => (fDcel n).run d fun d => (fStore fBpR bpCnt).run bps fun bps => (fStore fArcR arcCnt).run arcs fun arcs =>
      (fStore fCevR evCnt).run evs fun evs => (fStore fOptNat n).run names fun names => fOptNat.run root fun root =>
      (fOpt frcK).run sweep fun sweep => (fList fNat).run arcSet fun arcSet => (fList fNat).run edges fun edges =>
      (fList fNat).run verts fun verts => (fList fNat).run polyVerts fun polyVerts => (fList fQE).run queue fun queue =>
      (fOpt fEvRef).run event fun event => (fList fMsg).run log fun log =>
      k ⟨ns, d, bps, bpCnt, arcs, arcCnt, evs, evCnt, names, nextName, root, sweep, arcSet, edges, verts, polyVerts, queue, event, log⟩
  eq := by intro α a k; simp [Frc.eq]

/-- Continue with the evaluated state. -/
def thenF {α β : Type} (n : Nat) (r : Except Err (α × St K)) (k : α → St K → Except Err (β × St K)) : Except Err (β × St K) :=
  match r with
  | .ok (a, s) => (fSt n).run s (k a)
  | .error e => .error e

theorem thenF_eq {α β : Type} (n : Nat) (m : AM K α) (s : St K) (k : α → AM K β) : thenF n (m s) k = (m >>= k) s := by
  unfold thenF
  simp only [bind, StateT.bind, Except.bind]
  cases m s with
  | error e => rfl
  | ok v => exact (fSt n).eq _ _

theorem get_bind {β : Type} (k : St K → AM K β) (s : St K) : (get >>= k) s = k s s := rfl

/-- The main loop, evaluated after each event. -/
def sweepLoopF (pts : Nat → K × K) (q : PQ (QE K)) (n : Nat) : Nat → St K → Except Err (Unit × St K)
  | 0, _ => .error .fuel
  | fuel + 1, s =>
    match q.pop s.queue with
    | none => .ok ((), s)
    | some (e, rest) => thenF n (handleEvent pts q e { s with queue := rest }) fun _ s => sweepLoopF pts q n fuel s

theorem sweepLoopF_eq (pts : Nat → K × K) (q : PQ (QE K)) (n : Nat) : ∀ fuel s, sweepLoopF pts q n fuel s = sweepLoop pts q fuel s := by
  intro fuel
  induction fuel with
  | zero => intro s; rfl
  | succ fuel ih =>
    intro s
    have hi : (fun (_ : Unit) s => sweepLoopF pts q n fuel s) = fun _ => sweepLoop pts q fuel := by
      funext _ s; exact ih s
    unfold sweepLoopF sweepLoop
    simp only [bind, StateT.bind, Except.bind, get, getThe, MonadStateOf.get, StateT.get, pure, Except.pure, set, StateT.set]
    cases q.pop s.queue with
    | none => rfl
    | some v =>
      obtain ⟨e, rest⟩ := v
      simp only
      rw [hi, thenF_eq n (handleEvent pts q e)]
      rfl

def sweepAllF (pts : Nat → K × K) (q : PQ (QE K)) (n fuel : Nat) (s : St K) : Except Err (Unit × St K) :=
  thenF n (initQueue pts q n s) fun _ s =>
    thenF n (sweepLoopF pts q n fuel s) fun _ s => (do notify .debug; notify .sweepFinished : AM K Unit) s

theorem sweepAllF_eq (pts : Nat → K × K) (q : PQ (QE K)) (n fuel : Nat) (s : St K) : sweepAllF pts q n fuel s = sweepAll pts q n fuel s := by
  unfold sweepAllF sweepAll
  rw [thenF_eq]
  refine congrFun (congrArg (fun k => initQueue pts q n >>= k) (?_ : _ = fun _ => _)) s
  funext _ s
  rw [sweepLoopF_eq, thenF_eq]

def finishEdgesF (pts : Nat → K × K) (poly : Poly K) (n : Nat) : List Nat → St K → Except Err (List Nat × St K)
  | [], s => .ok ([], s)
  | e :: rest, s =>
    thenF n (outside pts poly e s) fun b => fun s => thenF n (whenDo b (finishEdge pts poly e) s) fun _ s =>
    thenF n (deref (s.d.he e).twin s) fun t s => thenF n (outside pts poly t s) fun b s =>
    thenF n (whenDo b (finishEdge pts poly t) s) fun _ s =>
    thenF n (getOriginSt pts e none none s) fun o1 s => thenF n (getOriginSt pts t none none s) fun o2 s =>
    if o1.isSome && o2.isSome then
      thenF n (finishEdgesF pts poly n rest s) fun tl s => .ok (e :: tl, s)
    else
      thenF n (zD (deleteHE e) s) fun _ s => thenF n (zD (deleteHE t) s) fun _ s => thenF n (notify .debug s) fun _ s =>
      finishEdgesF pts poly n rest s

theorem finishEdgesF_eq (pts : Nat → K × K) (poly : Poly K) (n : Nat) : ∀ l s, finishEdgesF pts poly n l s = finishEdges pts poly l s := by
  intro l
  induction l with
  | nil => intro s; rfl
  | cons e rest ih =>
    intro s
    unfold finishEdgesF finishEdges
    rw [thenF_eq]
    refine congrFun (congrArg (fun k => outside pts poly e >>= k) (?_ : _ = fun _ => _)) s
    funext b s
    rw [thenF_eq]
    refine congrFun (congrArg (fun k => whenDo b (finishEdge pts poly e) >>= k) (?_ : _ = fun _ => _)) s
    funext _ s
    rw [thenF_eq]
    refine Eq.trans ?_ (get_bind _ s).symm
    refine congrFun (congrArg (fun k => deref (s.d.he e).twin >>= k) (?_ : _ = fun _ => _)) s
    funext t s
    rw [thenF_eq]
    refine congrFun (congrArg (fun k => outside pts poly t >>= k) (?_ : _ = fun _ => _)) s
    funext b s
    rw [thenF_eq]
    refine congrFun (congrArg (fun k => whenDo b (finishEdge pts poly t) >>= k) (?_ : _ = fun _ => _)) s
    funext _ s
    rw [thenF_eq]
    refine congrFun (congrArg (fun k => getOriginSt pts e none none >>= k) (?_ : _ = fun _ => _)) s
    funext o1 s
    rw [thenF_eq]
    refine congrFun (congrArg (fun k => getOriginSt pts t none none >>= k) (?_ : _ = fun _ => _)) s
    funext o2 s
    split
    · rw [ih, thenF_eq]; rfl
    · rw [thenF_eq]
      refine congrFun (congrArg (fun k => zD (deleteHE e) >>= k) (?_ : _ = fun _ => _)) s
      funext _ s
      rw [thenF_eq]
      refine congrFun (congrArg (fun k => zD (deleteHE t) >>= k) (?_ : _ = fun _ => _)) s
      funext _ s
      rw [thenF_eq]
      refine congrFun (congrArg (fun k => notify .debug >>= k) (?_ : _ = fun _ => _)) s
      funext _ s
      exact ih s

def borderLoopF (n : Nat) : List Nat → Option Nat → St K → Except Err (Unit × St K)
  | o :: e :: rest, cell, s =>
    thenF n ((cellAt o cell : AM K _) s) fun cell s => thenF n ((zD (newHE none none (.vtx e)) : AM K _) s) fun tw s =>
    thenF n ((zD (newHE cell (some tw) (.vtx o)) : AM K _) s) fun edge s =>
    thenF n ((zD (appendConn o edge) : AM K _) s) fun _ s =>
    thenF n ((zD (appendConn e tw) : AM K _) s) fun _ s =>
    thenF n ((optDo cell (fun p => zD (initFE p edge)) : AM K _) s) fun _ s =>
    thenF n ((linkEnd edge e : AM K _) s) fun _ s => thenF n ((linkOrigin edge o : AM K _) s) fun _ s =>
    thenF n ((modify fun s => { s with edges := s.edges ++ [edge] } : AM K _) s) fun _ s =>
    borderLoopF n (e :: rest) cell s
  | [], _, s => .ok ((), s)
  | [_], _, s => .ok ((), s)

theorem borderLoopF_eq (n : Nat) : ∀ l c (s : St K), borderLoopF n l c s = borderLoop l c s := by
  intro l
  induction l with
  | nil => intro c s; rfl
  | cons o l ih =>
    cases l with
    | nil => intro c s; rfl
    | cons e rest =>
      intro c s
      unfold borderLoopF borderLoop
      rw [thenF_eq]
      refine congrFun (congrArg (fun k => cellAt o c >>= k) (?_ : _ = fun _ => _)) s
      funext cell s
      rw [thenF_eq]
      refine congrFun (congrArg (fun k => zD (newHE none none (.vtx e)) >>= k) (?_ : _ = fun _ => _)) s
      funext tw s
      rw [thenF_eq]
      refine congrFun (congrArg (fun k => zD (newHE cell (some tw) (.vtx o)) >>= k) (?_ : _ = fun _ => _)) s
      funext edge s
      rw [thenF_eq]
      refine congrFun (congrArg (fun k => zD (appendConn o edge) >>= k) (?_ : _ = fun _ => _)) s
      funext _ s
      rw [thenF_eq]
      refine congrFun (congrArg (fun k => zD (appendConn e tw) >>= k) (?_ : _ = fun _ => _)) s
      funext _ s
      rw [thenF_eq]
      refine congrFun (congrArg (fun k => optDo cell (fun p => zD (initFE p edge)) >>= k) (?_ : _ = fun _ => _)) s
      funext _ s
      rw [thenF_eq]
      refine congrFun (congrArg (fun k => linkEnd edge e >>= k) (?_ : _ = fun _ => _)) s
      funext _ s
      rw [thenF_eq]
      refine congrFun (congrArg (fun k => linkOrigin edge o >>= k) (?_ : _ = fun _ => _)) s
      funext _ s
      rw [thenF_eq]
      refine congrFun (congrArg (fun k => (modify fun s => { s with edges := s.edges ++ [edge] } : AM K Unit) >>= k) (?_ : _ = fun _ => _)) s
      funext _ s
      exact ih cell s

def insideVertsF (poly : Poly K) (n : Nat) : List Nat → St K → Except Err (List Nat × St K)
  | [], s => .ok ([], s)
  | v :: rest, s =>
    thenF n ((zD (rdV v) : AM K _) s) fun r s => thenF n ((deref r.pos : AM K _) s) fun p s =>
    thenF n ((liftA (inside poly.points p) : AM K _) s) fun b s =>
    thenF n (insideVertsF poly n rest s) fun tl s => .ok (if b then v :: tl else tl, s)

theorem insideVertsF_eq (poly : Poly K) (n : Nat) : ∀ l s, insideVertsF poly n l s = insideVerts poly l s := by
  intro l
  induction l with
  | nil => intro s; rfl
  | cons v rest ih =>
    intro s
    unfold insideVertsF insideVerts
    rw [thenF_eq]
    refine congrFun (congrArg (fun k => zD (rdV v) >>= k) (?_ : _ = fun _ => _)) s
    funext r s
    rw [thenF_eq]
    refine congrFun (congrArg (fun k => deref r.pos >>= k) (?_ : _ = fun _ => _)) s
    funext p s
    rw [thenF_eq]
    refine congrFun (congrArg (fun k => liftA (inside poly.points p) >>= k) (?_ : _ = fun _ => _)) s
    funext b s
    rw [ih, thenF_eq]; rfl

def finishPolygonF (pts : Nat → K × K) (n : Nat) (poly : Poly K) (s : St K) : Except Err (Unit × St K) :=
  (fList fNat).run (orderedVertices poly s.d.vs s.polyVerts) fun vs =>
  match vs with
  | [] => .error .index
  | v0 :: _ =>
    thenF n ((zD (rdV v0) : AM K _) s) fun r s => thenF n ((deref r.pos : AM K _) s) fun p s =>
    thenF n (closestPoint pts n p s) fun cell s => thenF n (borderLoopF n (vs ++ [v0]) (some cell) s) fun _ s =>
    thenF n (insideVertsF poly n s.verts s) fun ex s =>
    (modify fun s => { s with verts := vs ++ ex } : AM K Unit) s

theorem finishPolygonF_eq (pts : Nat → K × K) (n : Nat) (poly : Poly K) (s : St K) :
    finishPolygonF pts n poly s = finishPolygon pts n poly s := by
  unfold finishPolygonF finishPolygon
  rw [Frc.eq]
  simp only [bind, StateT.bind, Except.bind, get, getThe, MonadStateOf.get, StateT.get, pure, Except.pure]
  cases hv : orderedVertices poly s.d.vs s.polyVerts with
  | nil => rfl
  | cons v0 vs =>
    simp only
    rw [thenF_eq]
    refine congrFun (congrArg (fun k => zD (rdV v0) >>= k) (?_ : _ = fun _ => _)) s
    funext r s
    rw [thenF_eq]
    refine congrFun (congrArg (fun k => deref r.pos >>= k) (?_ : _ = fun _ => _)) s
    funext p s
    rw [thenF_eq]
    refine congrFun (congrArg (fun k => closestPoint pts n p >>= k) (?_ : _ = fun _ => _)) s
    funext cell s
    rw [borderLoopF_eq, thenF_eq]
    refine congrFun (congrArg (fun k => borderLoop (v0 :: vs ++ [v0]) (some cell) >>= k) (?_ : _ = fun _ => _)) s
    funext _ s
    rw [insideVertsF_eq, thenF_eq]
    rfl

def cleanUpLoopF (pts : Nat → K × K) (n : Nat) : List Nat → St K → Except Err (List Nat × St K)
  | [], s => .ok ([], s)
  | e :: rest, s =>
    thenF n (getOriginSt pts e none none s) fun start s =>
    thenF n (deref (s.d.he e).twin s) fun t s =>
    thenF n (getOriginSt pts t none none s) fun end_ s =>
    thenF n (deref start s) fun p s =>
    thenF n (deref end_ s) fun q s =>
    if p.1 = q.1 ∧ p.2 = q.2 then
      thenF n (vtxOf (s.d.he e).origin s) fun v1 s' =>
      thenF n (vtxOf (s.d.he t).origin s') fun v2 s' =>
      thenF n (zD (moveConn v1 v2 ((s.d.vs v1).conn.length + 1) 0) s') fun _ s =>
      thenF n (removeVertex v1 s) fun _ s =>
      thenF n (zD (deleteHE e) s) fun _ s =>
      thenF n (zD (deleteHE t) s) fun _ s =>
      cleanUpLoopF pts n rest s
    else
      thenF n (cleanUpLoopF pts n rest s) fun tl s => .ok (e :: tl, s)

theorem cleanUpLoopF_eq (pts : Nat → K × K) (n : Nat) : ∀ l s, cleanUpLoopF pts n l s = cleanUpLoop pts l s := by
  intro l
  induction l with
  | nil => intro s; rfl
  | cons e rest ih =>
    intro s
    unfold cleanUpLoopF cleanUpLoop
    rw [thenF_eq]
    refine congrFun (congrArg (fun k => getOriginSt pts e none none >>= k) (?_ : _ = fun _ => _)) s
    funext start s
    rw [thenF_eq]
    refine Eq.trans ?_ (get_bind _ s).symm
    refine congrFun (congrArg (fun k => deref (s.d.he e).twin >>= k) (?_ : _ = fun _ => _)) s
    funext t s
    rw [thenF_eq]
    refine congrFun (congrArg (fun k => getOriginSt pts t none none >>= k) (?_ : _ = fun _ => _)) s
    funext end_ s
    rw [thenF_eq]
    refine congrFun (congrArg (fun k => deref start >>= k) (?_ : _ = fun _ => _)) s
    funext p s
    rw [thenF_eq]
    refine congrFun (congrArg (fun k => deref end_ >>= k) (?_ : _ = fun _ => _)) s
    funext q s
    split
    · rw [thenF_eq]
      refine Eq.trans ?_ (get_bind _ s).symm
      refine congrFun (congrArg (fun k => vtxOf (s.d.he e).origin >>= k) (?_ : _ = fun _ => _)) s
      funext v1 s'
      rw [thenF_eq]
      refine congrFun (congrArg (fun k => vtxOf (s.d.he t).origin >>= k) (?_ : _ = fun _ => _)) s'
      funext v2 s'
      rw [thenF_eq]
      refine congrFun (congrArg (fun k => zD (moveConn v1 v2 ((s.d.vs v1).conn.length + 1) 0) >>= k) (?_ : _ = fun _ => _)) s'
      funext _ s
      rw [thenF_eq]
      refine congrFun (congrArg (fun k => removeVertex v1 >>= k) (?_ : _ = fun _ => _)) s
      funext _ s
      rw [thenF_eq]
      refine congrFun (congrArg (fun k => zD (deleteHE e) >>= k) (?_ : _ = fun _ => _)) s
      funext _ s
      rw [thenF_eq]
      refine congrFun (congrArg (fun k => zD (deleteHE t) >>= k) (?_ : _ = fun _ => _)) s
      funext _ s
      exact ih s
    · rw [ih, thenF_eq]; rfl

def createDiagramF (pts : Nat → K × K) (q : PQ (QE K)) (n fuel : Nat) (poly : Poly K) (removeZero : Bool) (s : St K) :
    Except Err (Unit × St K) :=
  thenF n (sweepAllF pts q n fuel s) fun _ s =>
  thenF n (thenF n (finishEdgesF pts poly n s.edges s) fun r s => (modify fun s => { s with edges := r } : AM K Unit) s) fun _ s =>
  thenF n (finishPolygonF pts n poly s) fun _ s =>
  thenF n (if removeZero then thenF n (cleanUpLoopF pts n s.edges s) fun r s => (modify fun s => { s with edges := r } : AM K Unit) s
    else .ok ((), s)) fun _ s =>
  (do notify .debug; notify .voronoiFinished : AM K Unit) s

theorem createDiagramF_eq (pts : Nat → K × K) (q : PQ (QE K)) (n fuel : Nat) (poly : Poly K) (removeZero : Bool) (s : St K) :
    createDiagramF pts q n fuel poly removeZero s = createDiagram pts q n fuel poly removeZero s := by
  unfold createDiagramF createDiagram
  rw [sweepAllF_eq, thenF_eq]
  refine congrFun (congrArg (fun k => sweepAll pts q n fuel >>= k) (?_ : _ = fun _ => _)) s
  funext _ s
  have h1 : (thenF n (finishEdgesF pts poly n s.edges s) fun r s => (modify fun s => { s with edges := r } : AM K Unit) s) =
      finishEdgesSt pts poly s := by
    rw [finishEdgesF_eq, thenF_eq]; rfl
  rw [h1, thenF_eq]
  refine congrFun (congrArg (fun k => finishEdgesSt pts poly >>= k) (?_ : _ = fun _ => _)) s
  funext _ s
  rw [finishPolygonF_eq, thenF_eq]
  refine congrFun (congrArg (fun k => finishPolygon pts n poly >>= k) (?_ : _ = fun _ => _)) s
  funext _ s
  have h2 : (if removeZero then thenF n (cleanUpLoopF pts n s.edges s) fun r s => (modify fun s => { s with edges := r } : AM K Unit) s
    else .ok ((), s)) = whenDo removeZero (cleanUp pts) s := by
    cases removeZero with
    | false => rfl
    | true =>
      show (thenF n (cleanUpLoopF pts n s.edges s) fun r s => (modify fun s => { s with edges := r } : AM K Unit) s) = cleanUp pts s
      rw [cleanUpLoopF_eq, thenF_eq]; rfl
  rw [h2, thenF_eq]

def chk {α : Type} (r : Except Err (α × St K)) (f : α → St K → Bool) : Bool :=
  match r with
  | .ok (a, s) => f a s
  | .error _ => false

theorem chk_ok {α : Type} {r : Except Err (α × St K)} {f : α → St K → Bool} (h : chk r f = true) : ∃ a s, r = .ok (a, s) ∧ f a s = true := by
  unfold chk at h
  cases r with
  | error e => cases h
  | ok v => exact ⟨v.1, v.2, rfl, h⟩

end Foronoi
