import Verif.Model.Algorithm

/-!
# Model of `foronoi/observers/`

Observers and subjects are references.  The list objects held in `Subject._observers` are references too, because
`_update_children` makes the children share the list object of the parent.  `list.remove` compares observers with `==`, which is
identity for the observers of the package.  Observers that attach or detach observers while they are being notified are in Model/Notify.lean.
-/

namespace Foronoi

/-! ### subject.py -/

/-- subject.py:5-12: the attributes of a `Subject` (`_child_sender` is never read). -/
structure SubjR where
  observers : Nat
  children : List Nat
  rootSender : Nat

/-- All subjects, and all list objects. -/
structure SubjSt where
  lists : Nat → List Nat
  subj : Nat → SubjR

/-- subject.py:5-12: all subjects after `Subject.__init__`: own empty list, own sender. -/
def SubjSt.fresh : SubjSt := ⟨fun _ => [], fun i => ⟨i, [], i⟩⟩

/-- subject.py:83-88 `_update_children`. -/
def updateChildren (s : Nat) (st : SubjSt) : SubjSt :=
  ⟨st.lists, (st.subj s).children.foldl (fun f c => Function.update f c { f c with observers := (f s).observers }) st.subj⟩

/-- subject.py:14-25 `attach_observer`. -/
def attachObs (s o : Nat) (st : SubjSt) : SubjSt :=
  updateChildren s { st with lists := Function.update st.lists (st.subj s).observers (st.lists (st.subj s).observers ++ [o]) }

/-- subject.py:27-38 `detach_observer`; `list.remove` raises ValueError if the observer is absent. -/
def detachObs (s o : Nat) (st : SubjSt) : Except Err SubjSt :=
  if o ∈ st.lists (st.subj s).observers then
    .ok (updateChildren s { st with lists := Function.update st.lists (st.subj s).observers ((st.lists (st.subj s).observers).erase o) })
  else .error .value

/-- subject.py:40-51 `notify_observers`: the calls `observer.update(sender, message)` made, in order. -/
def notifyObs {M : Type} (s : Nat) (m : M) (st : SubjSt) : List (Nat × Nat × M) :=
  (st.lists (st.subj s).observers).map fun o => (o, (st.subj s).rootSender, m)

/-- subject.py:59-81 `inherit_observers_from`. -/
def inheritObs (c p : Nat) (st : SubjSt) : SubjSt :=
  let f := Function.update st.subj p { st.subj p with children := (st.subj p).children ++ [c] }
  { st with subj := Function.update f c { f c with rootSender := p } }

/-! ### tree_observer.py, debug_observer.py -/

/-- tree_observer.py:51-56. -/
structure TreeObs where
  visualizeSteps : Bool := true
  visualizeResult : Bool := true
  textBased : Bool := false
  nMessages : Nat := 0
  messages : List Msg := []

/-- tree_observer.py:58-81 `update` seen from outside: the value of `n_messages` during the call of the callback (`none`: no call).
Rendering the tree is left out; it needs a status tree (AttributeError on `None`). -/
def TreeObs.update (t : TreeObs) (hasTree : Bool) (m : Msg) : Except Err (Option Nat × TreeObs) :=
  if (m == .stepFinished && t.visualizeSteps) || (m == .voronoiFinished && t.visualizeResult && !t.visualizeSteps) then
    (if hasTree then .ok (some t.nMessages, { t with nMessages := t.nMessages + 1, messages := t.messages ++ [m] })
    else .error .attr)
  else .ok (none, t)

/-- debug_observer.py:21-35 `update`: whether the callback is called. -/
def debugUpdate (m : Msg) : Bool := m == .debug

/-! ### voronoi_observer.py -/

/-- Keyword arguments of `Visualizer.plot_all`. -/
abbrev Dict := Nat → Option Bool

/-- `dict.update`. -/
def Dict.upd (d e : Dict) : Dict := fun k => (e k).orElse fun _ => d k

/-- visualizer.py:31-39 `Presets`: three class attributes, so three dictionaries shared by all observers. -/
structure PresetSt where
  construction : Dict
  clipping : Dict
  final : Dict

/-- voronoi_observer.py:60-69. -/
structure VorObs where
  visualizeSteps : Bool := true
  visualizeBeforeClipping : Bool := false
  visualizeResult : Bool := true
  settings : Dict := fun _ => none
  nMessages : Nat := 0
  messages : List Msg := []

/-- voronoi_observer.py:71-113 `update` for a subject that is an `Algorithm`: the call of the callback, as the value of `n_messages`
and the settings drawn with.  `onEvent` is the assertion of line 92.  Drawing is left out. -/
def VorObs.update (v : VorObs) (p : PresetSt) (onEvent : Bool) (m : Msg) : Except Err (Option (Nat × Dict) × VorObs × PresetSt) :=
  if m == .stepFinished && v.visualizeSteps then
    (if onEvent then
      .ok (some (v.nMessages, p.construction.upd v.settings), { v with nMessages := v.nMessages + 1, messages := v.messages ++ [m] },
        { p with construction := p.construction.upd v.settings })
    else .error .assertion)
  else if m == .sweepFinished && v.visualizeBeforeClipping then
    .ok (some (v.nMessages, p.clipping.upd v.settings), { v with nMessages := v.nMessages + 1, messages := v.messages ++ [m] },
      { p with clipping := p.clipping.upd v.settings })
  else if m == .voronoiFinished && v.visualizeResult then
    .ok (some (v.nMessages, p.final.upd v.settings), { v with nMessages := v.nMessages + 1, messages := v.messages ++ [m] },
      { p with final := p.final.upd v.settings })
  else .ok (none, v, p)

/-! ### The notifications of `create_diagram` together with the state the observers see -/

variable {K : Type} [LinearOrder K] [Arith K]

/-- algorithm.py:160-205: the loop; each `STEP_FINISHED` (line 205) is recorded with the state in which it is sent. -/
def obsLoop (pts : Nat → K × K) (q : PQ (QE K)) : Nat → St K → Except Err (List (Msg × St K) × St K)
  | 0, _ => .error .fuel
  | fuel + 1, s =>
    match q.pop s.queue with
    | none => .ok ([], s)
    | some (e, rest) =>
      match handleEvent pts q e { s with queue := rest } with
      | .error x => .error x
      | .ok (_, s1) =>
        match obsLoop pts q fuel s1 with
        | .error x => .error x
        | .ok (tr, s2) => .ok (if !e.circ || (s.evs e.ref).valid then (.stepFinished, s1) :: tr else tr, s2)

/-- algorithm.py:153-222 `create_diagram`: the notifications other than DEBUG, with the states in which they are sent. -/
def obsCreate (pts : Nat → K × K) (q : PQ (QE K)) (n fuel : Nat) (poly : Poly K) (rz : Bool) (s : St K) :
    Except Err (List (Msg × St K) × St K) :=
  match initQueue pts q n s with
  | .error x => .error x
  | .ok (_, s0) =>
    match obsLoop pts q fuel s0 with
    | .error x => .error x
    | .ok (tr, s1) =>
      match (do notify .debug; notify .sweepFinished : AM K Unit) s1 with
      | .error x => .error x
      | .ok (_, s2) =>
        match (do finishEdgesSt pts poly; finishPolygon pts n poly; whenDo rz (cleanUp pts); notify .debug; notify .voronoiFinished : AM K Unit) s2 with
        | .error x => .error x
        | .ok (_, s3) => .ok (tr ++ [(.sweepFinished, s2), (.voronoiFinished, s3)], s3)

/-- `self.event.yd`. -/
def eventY (pts : Nat → K × K) (s : St K) : Option K :=
  s.event.map fun e => match e with
    | .site p => (pts p).2
    | .circle c => (cevQE (s.evs c) c).yd

end Foronoi
