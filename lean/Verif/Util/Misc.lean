import Verif.Py.Basic
import Verif.Py.Fl
import Mathlib.Data.List.Sublists

/-!
# Small utilities: `util/arrayutils.py`, `util/domainutils.py`
-/

set_option linter.unusedSectionVars false
set_option linter.unusedSimpArgs false

namespace Verif

/-! ### `powerset` -/

/-- `itertools.combinations(l, r)`: in lexicographic order of positions -/
def combinations {X : Type} : Nat → List X → List (List X)
  | 0, _ => [[]]
  | _ + 1, [] => []
  | r + 1, x :: l => (combinations r l).map (x :: ·) ++ combinations (r + 1) l

/-- `arrayutils.py:15-17` `powerset` -/
def powerset {X : Type} (l : List X) : List (List X) := (List.range (l.length + 1)).flatMap fun r => combinations r l

theorem combinations_perm {X : Type} (r : Nat) (l : List X) : (combinations r l).Perm (List.sublistsLen r l) := by
  induction l generalizing r with
  | nil => cases r <;> simp [combinations]
  | cons x l ih =>
    cases r with
    | zero => simp [combinations]
    | succ r =>
      rw [combinations, List.sublistsLen_succ_cons]
      exact (((ih r).map _).append (ih (r + 1))).trans List.perm_append_comm

theorem powerset_perm {X : Type} (l : List X) : (powerset l).Perm (List.sublists' l) :=
  (List.Perm.flatMap_left _ fun r _ => combinations_perm r l).trans (List.range_bind_sublistsLen_perm l)

/-! ### `identify_true_false` -/

/-- Python values that occur as states, by their exact type. -/
inductive PyVal (K : Type)
  | int (n : Int)
  | float (x : Fl K)
  | str (s : List Char)
  | bool (b : Bool)
  | other (t : Nat) (id : Nat)
  deriving DecidableEq

/-- `type(d)` -/
inductive PyType | int | float | str | bool | other (t : Nat)
  deriving DecidableEq

namespace PyVal
variable {K : Type}

def type : PyVal K → PyType
  | int _ => .int
  | float _ => .float
  | str _ => .str
  | bool _ => .bool
  | other t _ => .other t

/-- `d == True`, for numbers -/
def eqTrue [DecidableEq K] [One K] : PyVal K → Bool
  | int n => n = 1
  | float x => x = .fin 1
  | _ => false

/-- `d == False`, for numbers -/
def eqFalse [DecidableEq K] [Zero K] : PyVal K → Bool
  | int n => n = 0
  | float x => x = .fin 0
  | _ => false

/-- `d.lower() == s`, for strings; `lower` is `str.lower` -/
def lowerIs (lower : List Char → List Char) (s : List Char) : PyVal K → Bool
  | str t => lower t = s
  | _ => false

end PyVal

open PyVal in
/-- `domainutils.py:95-110` `identify_true_false` -/
def identifyTrueFalse {K : Type} [DecidableEq K] [Zero K] [One K] (lower : List Char → List Char) (var : List Char) (dom : List (PyVal K)) :
    Py (PyVal K × PyVal K) := do
  if dom.length > 2 then throw .valueError
  if (dom.map type).dedup.length > 1 then throw .valueError
  match dom.map type with
  | [] => throw .indexError
  | t :: _ =>
    let tf :=
      if t = .int ∨ t = .float then dom.filter eqTrue ++ dom.filter eqFalse
      else if t = .str then
        dom.filter (lowerIs lower (lower var ++ ['1'])) ++ dom.filter (lowerIs lower (lower var ++ ['0'])) ++
          dom.filter (lowerIs lower (lower var ++ ['2']))
      else []
    match tf with
    | [a, b] => return (a, b)
    | _ => throw .valueError

end Verif
