import Verif.Model.SCM
import Verif.Learn.Data

/-!
# The objective of `GradientLikelihood`

`bcause/learning/parameter/gradient.py`. The optimiser of scipy (`minimize`, line 222) is not modelled: it is a parameter of
`Gradient.updatedFactor`. The function that it minimises is modelled, with `np.log` on positive numbers as a parameter;
its values may be in another field than the probabilities (real logarithms of rational numbers).
-/

set_option linter.unusedSectionVars false
set_option linter.unusedSimpArgs false

namespace Verif

variable {V S K : Type} [DecidableEq V] [DecidableEq S] [Field K] [LinearOrder K]
variable {R : Type} [Field R] [LinearOrder R]
variable {I : StoreImpl V S (Fl K)} {L : LabelStore V S}

/-- `store.py:153-155` `values_dict`, through `factor.py:98-100`, for a multinomial factor -/
def Factor.valuesDict (f : Factor I) : Py (List (Obs V S × Fl K)) :=
  (assignmentSpace f.dom).mapM fun o => do
    let x ← f.getValue o
    return (o, x)

/-- `f.values_dict[key] == 0`. The store of a deterministic factor ranges over its right variables only
(`deterministic.py:26-31`); what is kept under such a key is a state, which no key of the code reaches because these have the
left variable, too. -/
def AnyFactor.isZeroAt (f : AnyFactor I L) (key : Obs V S) : Py Bool :=
  match f with
  | .multi f => do
    let d ← f.valuesDict
    let x ← Dict.get d key
    return x == .fin 0
  | .det f => do
    let _ ← f.valuesList
    if key ∈ assignmentSpace (L.dom f.store) then .ok false else .error .keyError

/-- `f.variables` -/
def AnyFactor.allVars (f : AnyFactor I L) : List V :=
  match f with
  | .multi f => f.vars
  | .det f => f.vars

namespace SCM

/-- `cmodel.py:55-56` `get_edogenous_children` -/
def endoChildren (m : SCM I L) (v : V) : Py (List V) := do
  let l ← m.base.getChildren [v]
  return l.filter (· ∈ m.endogenous)

/-- `cmodel.py:53-54` `get_edogenous_parents` -/
def endoParents (m : SCM I L) (v : V) : Py (List V) := do
  let l ← m.base.getParents [v]
  return l.filter (· ∈ m.endogenous)

/-- An entry of `m.get_domains(…)`, used as part of a domain: `None` is not iterable -/
def needStates (p : V × Option (List S)) : Py (V × List S) :=
  match p.2 with
  | some st => .ok (p.1, st)
  | none => .error .typeError

/-- `m.get_domains(vs)` for a list of names (`pgmodel.py:140-141`), used as a domain -/
def domainsOf (m : SCM I L) (vs : List V) : Py (Dom V S) := (m.base.getDomains vs).mapM needStates

end SCM

namespace Gradient

/-- `gradient.py:85-88` `_get_bmY` -/
def bmY (m : SCM I L) (bmV : List V) : Py (List V) := do
  let l ← bmV.mapM m.endoParents
  return l.flatten.filter (· ∉ bmV)

/-- `gradient.py:106-120` `_filter_data`, of which only the number of records is used (line 99). A frame without columns or
without records counts as empty (line 112). -/
def countCell (fr : Frame V S) (bmv bmy : Obs V S) : Py ℕ := do
  let _ ← fr.select (Dict.keys bmv)
  let _ ← fr.select (Dict.keys bmy)
  if bmv = [] ∨ fr.rows = [] then return 0
  return fr.rows.countP fun r => (bmv.all fun p => Rec.eqAt r p.1 p.2) && bmy.all fun p => Rec.eqAt r p.1 p.2

/-- `gradient.py:137-149` `_get_P_v_pav_key`; the last case raises a plain `Exception` -/
def key (m : SCM I L) (bmV bmY : List V) (bmv bmy : Obs V S) (u : S) (vs : List V) : Py (Obs V S) :=
  vs.mapM fun w =>
    if w ∈ m.exogenous then .ok (w, u)
    else if w ∈ bmV then do let s ← Dict.get bmv w; return (w, s)
    else if w ∈ bmY then do let s ← Dict.get bmy w; return (w, s)
    else .error .valueError

/-- `gradient.py:129-133`: whether the product over the children `vs` is one -/
def prodOne (m : SCM I L) (bmV bmY : List V) (bmv bmy : Obs V S) (u : S) : List V → Py Bool
  | [] => .ok true
  | v :: vs => do
    match ← Dict.get m.base.factors v with
    | none => .error .attributeError
    | some f => do
      let k ← key m bmV bmY bmv bmy u f.allVars
      let z ← f.isZeroAt k
      if z then .ok false else prodOne m bmV bmY bmv bmy u vs

/-- `gradient.py:123-135` `_compute_P`: the values of the dictionary, in its order, which is that of the states of `U` -/
def computeP (m : SCM I L) (U : V) (bmV bmY : List V) (bmv bmy : Obs V S) : Py (List Bool) := do
  match ← Dict.get m.base.domains U with
  | none => .error .typeError
  | some st => st.mapM fun u => prodOne m bmV bmY bmv bmy u bmV

/-- `gradient.py:90-104` `_compute_N_and_P`: the two dictionaries, in the order in which they are filled -/
def cells (m : SCM I L) (U : V) (bmV bmY : List V) (fr : Frame V S) : Py (List (ℕ × List Bool)) := do
  let dv ← m.domainsOf bmV
  let dy ← m.domainsOf bmY
  ((assignmentSpace dv).flatMap fun bmv => (assignmentSpace dy).map fun bmy => (bmv, bmy)).mapM fun c => do
    let n ← countCell fr c.1 c.2
    let p ← computeP m U bmV bmY c.1 c.2
    return (n, p)

/-- `gradient.py:178-180`: the sum over the states -/
def dot : List Bool → List K → Py K
  | [], _ => .ok 0
  | _ :: _, [] => .error .indexError
  | b :: bs, t :: ts => do
    let r ← dot bs ts
    return (if b then t else 0) + r

/-- `np.log` of a number that is not zero; of a negative one it is `nan` -/
def npLog (log : K → R) (x : K) : Fl R := if x < 0 then .nan else .fin (log x)

/-- `gradient.py:175-188`: the loop over the cells, from the sum `acc` on -/
def nllFrom (log : K → R) (theta : List K) : List (ℕ × List Bool) → Fl R → Py (Fl R)
  | [], acc => .ok (-acc)
  | c :: cs, acc =>
    if c.1 = 0 then nllFrom log theta cs acc else do
      let s ← dot c.2 theta
      if s = 0 then .ok .pinf else nllFrom log theta cs (acc + .fin (c.1 : R) * npLog log s)

/-- `gradient.py:172-188` `negative_log_likelihood` -/
def nll (log : K → R) (theta : List K) (cs : List (ℕ × List Bool)) : Py (Fl R) := nllFrom log theta cs (.fin 0)

/-- `gradient.py:73-77`: the cells for the exogenous variable `U` -/
def cellsOf (m : SCM I L) (U : V) (fr : Frame V S) : Py (List (ℕ × List Bool)) := do
  let C ← m.endoChildren U
  let Y ← bmY m C
  cells m U C Y fr

/-- The function of `theta` that is minimised for `U` -/
def objective (log : K → R) (m : SCM I L) (U : V) (fr : Frame V S) (theta : List K) : Py (Fl R) := do
  let cs ← cellsOf m U fr
  nll log theta cs

/-- `gradient.py:56-83` `_updated_factor`. `sub x y` tells whether the name `x` is a part of the name `y`: `get_domains(U)` is called
with a name and not with a list (`pgmodel.py:140-141` then tests `v in "U"`). `opt` stands for scipy's `minimize`, from the
starting point and the objective to the values it returns. -/
def updatedFactor (log : K → R) (sub : V → V → Bool) (opt : List (Fl K) → (List K → Py (Fl R)) → List K) (m : SCM I L) (U : V)
    (fr : Frame V S) : Py (Factor I) := do
  match ← Dict.get m.base.factors U with
  | some (.multi f) => do
    let start ← f.valuesList
    let cs ← cellsOf m U fr
    let d ← (m.base.domains.filter fun p => sub p.1 U).mapM SCM.needStates
    Factor.make I d ((opt start fun theta => nll log theta cs).map .fin) none none
  | _ => .error .attributeError

end Gradient

end Verif
