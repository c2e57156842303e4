import Verif.Model.Components
import Verif.Learn.Gradient
import Verif.Inference.VE

/-!
# Factors over the decomposition graph and likelihood of data

`models/info.py:45-54`, `models/cmodel.py:233-261`, `models/pgmodel.py:102-104`, `factors/mulitnomial.py:137-138`.

The order in which networkx sorts the endogenous variables is a parameter of `qgraph` (`Components.lean`); here the
decomposition graph `q` is an argument. It is built anew at every use in the code (`cmodel.py:128-134`), each time from the
same model. Which element `c.pop()` takes out of a component is the parameter `pop`.
-/

set_option linter.unusedSectionVars false
set_option linter.unusedSimpArgs false

namespace Verif

section
variable {V S K : Type} [DecidableEq V] [DecidableEq S] [Field K] [LinearOrder K] {I : StoreImpl V S (Fl K)}
  {L : LabelStore V S}

/-- `info.py:54` without data: one query after the other with the same inference object -/
def qLoop {F : Type} [VEFactor F I] (ch : Choices V) (q : DiGraph V) : VEObj F I → List V → Py (List (V × Factor I))
  | _, [] => .ok []
  | o, v :: vs => do
    let pa ← q.predecessors v
    let (o', r) := o.queryCond ch [v] pa none
    let f ← r
    let fs ← qLoop ch q o' vs
    return (v, f) :: fs

namespace SCM

/-- `cmodel.py:128-134` `qgraph`; `order` is the topological order of the endogenous graph that networkx returns -/
abbrev qgraph (m : SCM I L) (order : List V) : DiGraph V := m.base.graph.qgraph m.endogenous order

/-- `info.py:45-54` `get_qfactors` without data -/
def qfactors (ch : Choices V) (m : SCM I L) (q : DiGraph V) (v : V) : Py (List (V × Factor I)) := do
  let c ← m.base.graph.getEndoCComponent m.endogenous v
  qLoop ch q (VEObj.new m.base) (ch.setOrd c)

/-- `info.py:45-54` `get_qfactors` with data; `model.domains` (`pgmodel.py:147-149`) has all the variables, and here
none of them may be without domain -/
def qfactorsData (N : NanName S) (setOrd : List V → List V) (m : SCM I L) (q : DiGraph V) (fr : Frame V S) (v : V) :
    Py (List (V × Factor I)) := do
  let d ← m.domainsOf m.base.graph.nodes
  let c ← m.base.graph.getEndoCComponent m.endogenous v
  (setOrd c).mapM fun w => do
    let pa ← q.predecessors w
    let f ← (⟨fr, d, true⟩ : Laplace V S).queryCond N I setOrd [w] pa []
    return (w, f)

/-- `dict(pairs)` -/
def dictOf {X : Type} (l : List (V × X)) : List (V × X) := l.foldl (fun d p => Dict.set d p.1 p.2) []

/-- `cmodel.py:236-237` `get_qfactorisation`, `get` being `get_qfactors` with or without data -/
def qfactorisation (m : SCM I L) (pop : List V → V) (get : V → Py (List (V × Factor I))) : Py (List (V × Factor I)) := do
  let l ← (m.base.graph.ccomponents m.endogenous).mapM fun c => get (pop c)
  return dictOf l.flatten

/-- `cmodel.py:240-241` `get_qbnet` -/
def qbnet (m : SCM I L) (q : DiGraph V) (pop : List V → V) (get : V → Py (List (V × Factor I))) :
    Py (DagModel (Factor I) V S) := do
  let l ← m.qfactorisation pop get
  DagModel.ofDict q (l.map fun p => (p.1, some p.2)) true

end SCM

/-- The entries of a record that are not missing -/
def Rec.obs (r : Rec V S) : Obs V S := r.filterMap fun p => p.2.map fun s => (p.1, s)

/-- `get_value(**r)` for a record of `data.to_dict("records")`. A missing value of a variable of the factor is in no list of
states (`ValueError` for arrays and lists; the nested dictionaries raise `KeyError`, which is not distinguished here). -/
def Factor.recValue (f : Factor I) (r : Rec V S) : Py (Fl K) :=
  if ∃ v ∈ f.vars, Dict.get? r v = some none then .error .valueError else f.getValue r.obs

variable {R : Type} [Field R] [LinearOrder R]

/-- `math.log`: `ValueError` for zero and for negative numbers -/
def mathLog (log : K → R) : Fl K → Py (Fl R)
  | .fin x => if 0 < x then .ok (.fin (log x)) else .error .valueError
  | .nan => .ok .nan
  | .pinf => .ok .pinf
  | .ninf => .error .valueError

/-- `mulitnomial.py:137-138` `log_prob` -/
def Factor.logProb (log : K → R) (rows : List (Rec V S)) (f : Factor I) : Py (List (Fl R)) :=
  rows.mapM fun r => do
    let x ← f.recValue r
    mathLog log x

/-- `pgmodel.py:104`: what is asked of one entry of `get_factors` (`None` has no method `log_prob`) -/
def slotLogProb (log : K → R) (rows : List (Rec V S)) : Option (Factor I) → Py (List (Fl R))
  | none => .error .attributeError
  | some f => f.logProb log rows

/-- `pgmodel.py:102-104` `log_prob`, `46-47` `get_factors`. An empty list of variables counts as missing. Without any factor numpy
returns the number 0 instead of an array of zeros; only the sum of the result is used. -/
def DagModel.logProb (log : K → R) (m : DagModel (Factor I) V S) (rows : List (Rec V S)) (vs : List V) : Py (List (Fl R)) := do
  let fs ← (if vs = [] then m.graph.nodes else vs).mapM (Dict.get m.factors)
  let ls ← fs.mapM (slotLogProb log rows)
  return ls.foldl (List.zipWith (· + ·)) (List.replicate rows.length (.fin 0))

/-- `cmodel.py:252-255` `log_likelihood` -/
def SCM.logLikelihood (log : K → R) (ch : Choices V) (pop : List V → V) (m : SCM I L) (q : DiGraph V) (fr : Frame V S)
    (vs : List V) : Py (Fl R) := do
  let bn ← m.qbnet q pop (m.qfactors ch q)
  let l ← bn.logProb log fr.rows vs
  return l.sum

/-- `cmodel.py:258-261` `max_log_likelihood` -/
def SCM.maxLogLikelihood (log : K → R) (N : NanName S) (setOrd : List V → List V) (pop : List V → V) (m : SCM I L)
    (q : DiGraph V) (fr : Frame V S) (vs : List V) : Py (Fl R) := do
  let bn ← m.qbnet q pop (m.qfactorsData N setOrd q fr)
  let l ← bn.logProb log fr.rows vs
  return l.sum

end
end Verif
