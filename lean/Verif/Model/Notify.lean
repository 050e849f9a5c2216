import Verif.Model.Observers

/-!
# Notification of observers that change the list of observers

`notify_observers` runs `for observer in self._observers` (subject.py:40-51).  Python iterates over a list by index: the loop holds the list object and
an index, and ends when the index is not below the length the list then has.  `react o m` is what the method `update` of observer `o` does to the
subjects, which may be an exception.
-/

namespace Foronoi

variable {M : Type}

/-- subject.py:49-50: the loop over the list object `l` from index `i`; the calls that were made, and the subjects afterwards. -/
def notifyLoop (react : Nat → M → SubjSt → Except Err SubjSt) (s l : Nat) (m : M) :
    Nat → Nat → SubjSt → Except Err (List (Nat × Nat × M) × SubjSt)
  | 0, _, _ => .error .fuel
  | fuel + 1, i, st =>
    match (st.lists l)[i]? with
    | none => .ok ([], st)
    | some o =>
      match react o m st with
      | .error x => .error x
      | .ok st1 =>
        match notifyLoop react s l m fuel (i + 1) st1 with
        | .error x => .error x
        | .ok (cs, st2) => .ok ((o, (st.subj s).rootSender, m) :: cs, st2)

/-- subject.py:40-51 `notify_observers`. -/
def notifyR (react : Nat → M → SubjSt → Except Err SubjSt) (s : Nat) (m : M) (fuel : Nat) (st : SubjSt) :
    Except Err (List (Nat × Nat × M) × SubjSt) :=
  notifyLoop react s (st.subj s).observers m fuel 0 st

end Foronoi
