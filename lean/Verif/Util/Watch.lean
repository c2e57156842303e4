import Verif.Py.Basic
import Mathlib.Algebra.Ring.Defs

/-!
# The stop watch (`util/watch.py`)
-/

namespace Verif

/-- One call of a class method of `Watch`, with what `time.time()` returns during the call. Calls of subclasses are not modelled
(`cls.tstart = ...` would then set an attribute of the subclass). -/
inductive WatchOp (T : Type)
  | start (t : T) | stop (t : T) | stopPrint (t : T) | getTime (t : T)
  deriving DecidableEq, Repr

/-- What a call returns or prints. -/
inductive WatchOut (T : Type)
  | none | value (x : T) | printed (x : T)
  deriving DecidableEq, Repr

namespace Watch

variable {T : Type} [Ring T]

/-- `watch.py:23-25` `get_time`; the difference of a number and `None` raises `TypeError` -/
def getTime (tstart : Option T) (now : T) : Py T :=
  match tstart with
  | none => .error .typeError
  | some u => .ok ((now - u) * 1000)

/-- `watch.py:4-25`: one call, what it gives and the class attribute `tstart` afterwards (`stop` resets it after `get_time`
returned, lines 14-15; `stop_print` calls `stop`, line 21) -/
def step (tstart : Option T) : WatchOp T → Py (WatchOut T) × Option T
  | .start t => (.ok .none, some t)
  | .getTime t => ((getTime tstart t).map .value, tstart)
  | .stop t =>
    match getTime tstart t with
    | .error e => (.error e, tstart)
    | .ok x => (.ok (.value x), none)
  | .stopPrint t =>
    match getTime tstart t with
    | .error e => (.error e, tstart)
    | .ok x => (.ok (.printed x), none)

/-- The attribute after calls, whose exceptions the caller has caught; `watch.py:5` at the beginning -/
def after (calls : List (WatchOp T)) : Option T := calls.foldl (fun s c => (step s c).2) none

end Watch

end Verif
