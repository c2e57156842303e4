import Verif.IO.Uai
import Verif.Model.SCM

/-!
# The UAI format for structural causal models: `readwrite/scmwrite.py`, `readwrite/scmread.py`

Simplifications as in `Verif.IO.Uai`. The ints that `argmax` gives are states by `ofNat`; `int(p)` on a state is `asInt`; a
float that was read is a state by `ofFloat` (`0.0 == 0`). Exogenous variables with deterministic factors are left out.
-/

set_option linter.unusedSectionVars false
set_option linter.unusedSimpArgs false

namespace Verif

/-- `deterministic.py:71-72`, `factor.py:102-108` `values_array` of a deterministic factor -/
def DetFactor.valuesArray {V S : Type} [DecidableEq V] [DecidableEq S] {L : LabelStore V S} (f : DetFactor L) (order : List V) :
    Py (NdArray S) := do
  let order := if order = [] then f.rightVars else order
  let order := if order = [] then f.vars else order
  let dom ← order.mapM fun v => do
    let d ← Dict.get f.dom v
    return (v, d)
  let vals ← (assignmentSpace dom).mapM f.getValue
  return ⟨cards dom, vals⟩

namespace Uai

/-- `a < b` for `np.argmax`: `nan` counts as the largest number -/
def argLess {K : Type} [LinearOrder K] : Fl K → Fl K → Bool
  | .nan, _ => false
  | _, .nan => true
  | .pinf, _ => false
  | _, .pinf => true
  | _, .ninf => false
  | .ninf, _ => true
  | .fin x, .fin y => decide (x < y)

/-- `np.argmax` on a row: the position of the first largest number -/
def argmaxFl {K : Type} [LinearOrder K] : List (Fl K) → Nat
  | [] => 0
  | x :: xs =>
    (xs.foldl (fun (st : Nat × Nat × Fl K) y => if argLess st.2.2 y then (st.1 + 1, st.1, y) else (st.1 + 1, st.2.1, st.2.2))
      (1, 0, x)).2.1

section Write
variable {V S K : Type} [DecidableEq V] [DecidableEq S] [Inhabited S] [Field K] [LinearOrder K] {I : StoreImpl V S (Fl K)} {L : LabelStore V S}

local notation "α" => Fl K

/-- `str(i)` for an int -/
def intText (i : Int) : Str := if i < 0 then '-' :: natText i.natAbs else natText i.natAbs

/-- `bnwrite.py:63-66`, `70`: the equation of an endogenous variable, flattened; `sc` is the scope without the variable -/
def equationOf (ofNat : Nat → S) (m : DagModel (AnyFactor I L) V S) (v : V) (sc : List V) : Py (List S) := do
  let f ← Dict.get m.factors v
  match f with
  | none => .error .attributeError
  | some (.multi f) => do
    let d ← f.toDeterministicWith argmaxFl ofNat
    let arr ← d.valuesArray sc
    return arr.flat
  | some (.det f) => do
    let arr ← f.valuesArray sc
    return arr.flat

/-- `bnwrite.py:60`, `70`: the table of an exogenous variable -/
def exoTableOf (m : DagModel (AnyFactor I L) V S) (v : V) (sc : List V) : Py (List α) := do
  let f ← Dict.get m.factors v
  match f with
  | some (.multi f) => do
    let arr ← f.valuesArray sc
    return arr.flat
  | _ => .error .attributeError

/-- `bnwrite.py:59-73`: what is written for `v` -/
def cellsOf (T : FloatText α) (asInt : S → Py Int) (ofNat : Nat → S) (m : SCM I L) (v : V) (sc : List V) : Py (List Str) :=
  if v ∈ m.endogenous then do
    let l ← equationOf ofNat m.base v (sc.filter (· ≠ v))
    let is ← l.mapM asInt
    return is.map intText
  else do
    let l ← exoTableOf m.base v sc
    return l.map T.str

/-- `scmwrite.py:16-17` `to_uai`, `bnwrite.py:31-83` with the label `CAUSAL` -/
def toUaiScm (T : FloatText α) (asInt : S → Py Int) (ofNat : Nat → S) (m : SCM I L) (varOrder : Option (List V)) : Py Str := do
  let order ← writeOrder (m.endogenous ++ m.exogenous) varOrder
  let sizes ← m.base.varsizes
  let cards ← order.mapM fun v => Dict.get sizes v
  let scopes ← order.mapM fun v => do
    let sc ← scope m.base v
    return (v, sc)
  let vals ← scopes.mapM fun p => cellsOf T asInt ofNat m p.1 p.2
  return text "CAUSAL".toList order.length cards m.base.factors.length (scopes.map fun p => p.2.map fun x => order.idxOf x) vals

end Write

/-- `[...]?` at the start of a text -/
def optChar (p : Char → Bool) : Str → Str × Str
  | [] => ([], [])
  | c :: r => if p c then ([c], r) else ([], c :: r)

/-- A match of `[-+]?(?:\d*\.*\d+E?[-+]?\d*)` (`scmread.py:39`) at the start of the text: as in `takeNum`, then what there is of an
`E`, a sign and digits -/
def takeNumE (s : Str) : Option (Str × Str) :=
  match takeNum s with
  | none => none
  | some (t, r) =>
    let e := optChar (· == 'E') r
    let sg := optChar (fun c => c == '-' || c == '+') e.2
    some (t ++ e.1 ++ sg.1 ++ sg.2.takeWhile Char.isDigit, sg.2.dropWhile Char.isDigit)

section Read
variable {S α : Type} [DecidableEq S] [Inhabited α] (I : StoreImpl Str S α) (L : LabelStore Str S)

/-- `scmread.py:70-73`: the factor of `v`, multinomial for a root and deterministic otherwise; `left_vars` is a string -/
def scmFactor {S α : Type} [DecidableEq S] [Inhabited α] (I : StoreImpl Str S α) (L : LabelStore Str S) (ofFloat : α → S) (g : DiGraph Str)
    (v : Str) (d : Dom Str S) (vals : List α) : Py (AnyFactor I L) := do
  let pa ← g.predecessors v
  if pa.length = 0 then do
    let f ← makeLeftStr I v d vals
    return .multi f
  else do
    let f ← DetFactor.make L d ⟨[vals.length], vals.map ofFloat⟩ none (some ((Dict.keys d).filter fun w => !isSub w v))
    return .det f

/-- `scmread.py:23-77` `from_uai` (it replaces the function of the same name in lines 17-19) -/
def fromUaiScm {S α : Type} [DecidableEq S] [Inhabited α] [Zero α] [One α] [DecidableEq α] (I : StoreImpl Str S α) (L : LabelStore Str S)
    (lab : Nat → S) (ofFloat : α → S) (T : FloatText α) (t : Str) : Py (SCM I L) := do
  checkLabel "CAUSAL".toList t
  let (h, s) ← readHeader lab (numbers takeNumE t)
  let (fs, _) ← readFactors T h (scmFactor I L ofFloat h.graph) s
  SCM.ofDict h.graph fs none true true

end Read

end Uai
end Verif
