import Verif.Learn.EM

/-!
# Factors that are kept in different stores

Elsewhere all factors of a calculation are kept in the same store.  Here a factor carries its `vtype`
(`mulitnomial.py:34`): operations keep that of the first factor (`mulitnomial.py:36-39`), the stores refuse to combine
different classes
(`numpyops.py:33-34`, `operations.py:68-69`, `listops.py:38-39`, `treedictops.py:84-85`), and a factor that is made without `vtype`
is kept in the default store (`mulitnomial.py:23`, `store.py:13-16`), which is the parameter `dflt`.
-/

set_option linter.unusedSectionVars false
set_option linter.unusedSimpArgs false

namespace Verif

variable {V S K : Type} [DecidableEq V] [DecidableEq S] [Field K] [LinearOrder K]

/-- `MultinomialFactor` with its `vtype` (`mulitnomial.py:34`) -/
structure VFactor (V S K : Type) [DecidableEq V] [DecidableEq S] [Field K] [LinearOrder K] where
  vtype : VType
  fac : Factor (storeOf vtype : StoreImpl V S (Fl K))

namespace VFactor

/-- `factor.py:83-85` `domain` -/
def dom (f : VFactor V S K) : Dom V S := f.fac.dom
/-- `mulitnomial.py:33` `_variables` -/
def vars (f : VFactor V S K) : List V := f.fac.vars
/-- `factor.py:133-135` `left_vars` -/
def leftVars (f : VFactor V S K) : List V := f.fac.leftVars
/-- `factor.py:129-131` `right_vars` -/
def rightVars (f : VFactor V S K) : List V := f.fac.rightVars

instance : FactorLike (VFactor V S K) V S := ⟨dom, leftVars, rightVars⟩

/-- `mulitnomial.py:22-34`, `27-30` constructor with a number for all cells; without `vtype` the factor is kept in the default store -/
def makeScalar (dflt : VType) (vtype : Option VType) (d : Dom V S) (x : Fl K) (left right : Option (List V)) : Py (VFactor V S K) := do
  let f ← Factor.makeScalar (storeOf (vtype.getD dflt)) d x left right
  return ⟨vtype.getD dflt, f⟩

/-- An operation on two factors: `_generic_combine` first compares the classes of the stores (`numpyops.py:33-34`, `operations.py:68-69`,
`listops.py:38-39`, `treedictops.py:84-85`). -/
def binary (op : ∀ vt, Factor (storeOf vt : StoreImpl V S (Fl K)) → Factor (storeOf vt : StoreImpl V S (Fl K)) → Py (Factor (storeOf vt : StoreImpl V S (Fl K))))
    (f g : VFactor V S K) : Py (VFactor V S K) :=
  if h : g.vtype = f.vtype then do
    let r ← op f.vtype f.fac (h ▸ g.fac)
    return ⟨f.vtype, r⟩
  else .error .valueError

/-- `mulitnomial.py:83-89` `multiply` -/
def multiply : VFactor V S K → VFactor V S K → Py (VFactor V S K) := binary fun _ => Factor.multiply
/-- `mulitnomial.py:91-97` `addition` -/
def addition : VFactor V S K → VFactor V S K → Py (VFactor V S K) := binary fun _ => Factor.addition
/-- `mulitnomial.py:99-104` `subtract` -/
def subtract : VFactor V S K → VFactor V S K → Py (VFactor V S K) := binary fun _ => Factor.subtract
/-- `mulitnomial.py:106-117` `divide` -/
def divide : VFactor V S K → VFactor V S K → Py (VFactor V S K) := binary fun _ => Factor.divide

/-- `mulitnomial.py:70-74` `restrict` -/
def restrict (f : VFactor V S K) (obs : Obs V S) : Py (VFactor V S K) := do
  let r ← f.fac.restrict obs
  return ⟨f.vtype, r⟩

/-- `mulitnomial.py:119-123` `marginalize` -/
def marginalize (f : VFactor V S K) (xs : List V) : Py (VFactor V S K) := do
  let r ← f.fac.marginalize xs
  return ⟨f.vtype, r⟩

/-- `f * c` for a number: `mulitnomial.py:78-89`; the number becomes a factor in the store of `f`. -/
def timesScalar (f : VFactor V S K) (c : Fl K) : Py (VFactor V S K) := do
  let r ← f.fac.timesScalar c
  return ⟨f.vtype, r⟩

/-- `factor.py:68-69` `combine_all`, `functools.reduce` -/
def combineAll : List (VFactor V S K) → Py (VFactor V S K)
  | [] => .error .typeError
  | f :: fs => fs.foldlM multiply f

end VFactor

/-! ### Queries -/

namespace Mixed

/-- `simplification.py:12-38` `minimalize`; see `Verif.minimalize` -/
def minimalize (m : DagModel (VFactor V S K) V S) (target : List V) (ev : Obs V S) : Py (DagModel (VFactor V S K) V S) := do
  let irr := irrelevant m.graph target (Dict.keys ev)
  let newDag := (m.graph.removeOutgoing (Dict.keys ev)).removeNodes irr
  let newFactors ← (m.factors.filter fun p => p.1 ∉ irr).mapM fun p =>
    match p.2 with
    | none => .error .attributeError
    | some f => do
      let r ← VFactor.restrict f (ev.filter fun q => q.1 ∈ VFactor.rightVars f)
      return (p.1, some r)
  DagModel.ofDict newDag newFactors false

/-- `inference/probabilistic/elimination.py:61-74`: one turn of the loop -/
def elimStep (fs : List (VFactor V S K)) (x : V) : Py (List (VFactor V S K)) := do
  let relevant := fs.filter fun f => x ∈ f.vars
  let join ← VFactor.combineAll relevant
  let fnew ← join.marginalize [x]
  let rest := fs.filter fun f => x ∉ f.vars
  pure (if fnew.leftVars.length > 0 then rest ++ [fnew] else rest)

/-- `inference/probabilistic/elimination.py:62`: a factor that is still `None` has no attribute `variables`. -/
def slotFactor (p : V × Option (VFactor V S K)) : Py (VFactor V S K) :=
  match p.2 with
  | some f => .ok f
  | none => .error .attributeError

/-- `inference/probabilistic/elimination.py:45-86` `run`, for a compiled object -/
def veRun (ch : Choices V) (m : DagModel (VFactor V S K) V S) (target : List V) (ev : Obs V S) : Py (VFactor V S K) := do
  let fs ← m.factors.mapM slotFactor
  if fs.isEmpty then throw .typeError
  let varsInFactors := ch.setOrd (fs.flatMap VFactor.vars)
  let toRemove := varsInFactors.filter fun v => v ∉ target ∧ v ∉ Dict.keys ev
  let sizes ← m.varsizes
  let ordering ← ch.heur m.graph toRemove sizes
  let fs ← ordering.foldlM elimStep fs
  let joint ← VFactor.combineAll fs
  let joint ← joint.restrict ev
  let mg ← joint.marginalize target
  joint.divide mg

/-- `probabilistic.py:12-54`: a new object, `compile` and `run`.  What an object has answered before does not matter:
`query` always compiles. -/
def query (ch : Choices V) (m : DagModel (VFactor V S K) V S) (target : List V) (ev : Obs V S) : Py (VFactor V S K) :=
  if ¬ target.Nodup then .error .valueError else
  if ¬ (∀ t ∈ target, t ∉ Dict.keys ev) then .error .valueError else
  if ¬ (∀ v ∈ target ++ Dict.keys ev, v ∈ m.graph.nodes) then .error .nodeNotFound else do
    let i ← minimalize m target ev
    veRun ch i target ev

end Mixed

/-! ### A step of expectation maximisation -/

/-- `ExpectationMaximization` object; see `EM` -/
structure VEM (V S K : Type) [DecidableEq V] [DecidableEq S] [Field K] [LinearOrder K] where
  prior : DagModel (VFactor V S K) V S
  model : DagModel (VFactor V S K) V S
  trainable : List V
  converged : List V
  data : Frame V S

namespace VEM

/-- `model.domains[v]`, as needed for a new factor -/
def stateList (m : DagModel (VFactor V S K) V S) (v : V) : Py (V × List S) := do
  match ← Dict.get m.domains v with
  | some st => return (v, st)
  | none => throw .typeError

/-- `expectation_maximization.py:33-37` `get_pcounts`: the factor is made without `vtype`. -/
def zeroCounts (dflt : VType) (m : DagModel (VFactor V S K) V S) (v : V) : Py (VFactor V S K) := do
  let pa ← m.getParents [v]
  let d ← (v :: pa).mapM (stateList m)
  VFactor.makeScalar dflt none d (.fin 0) none none

/-- `expectation_maximization.py:62-68`: what one observation contributes to the counts of `v`, whose parents are `pa` -/
def addCounts (ch : Choices V) (m : DagModel (VFactor V S K) V S) (v : V) (pa : List V) (st : VFactor V S K) (oc : Obs V S × ℕ) : Py (VFactor V S K) := do
  let hidden := (v :: pa).filter fun x => x ∉ Dict.keys oc.1
  let p ← Mixed.query ch m hidden oc.1
  let e ← p.timesScalar (.fin (oc.2 : K))
  st.addition e

/-- `expectation_maximization.py:60`, `74`: the variables that are treated, in the order of a set -/
def todo (ch : Choices V) (s : VEM V S K) : List V := ch.setOrd (s.trainable.filter fun v => v ∉ s.converged)

/-- `expectation_maximization.py:60-68`: the counts of one variable -/
def countOne (ch : Choices V) (s : VEM V S K) (p0 : List (V × VFactor V S K)) (l : List (V × VFactor V S K)) (v : V) : Py (List (V × VFactor V S K)) := do
  let oc ← obsCounts s.model.graph s.data v
  let pa ← s.prior.getParents [v]
  let f0 ← Dict.get p0 v
  let q ← oc.foldlM (addCounts ch s.model v pa) f0
  return l ++ [(v, q)]

/-- `expectation_maximization.py:56-70` `_expectation` -/
def expectation (dflt : VType) (ch : Choices V) (s : VEM V S K) : Py (List (V × VFactor V S K)) := do
  let p0 ← s.trainable.mapM fun v => do
    let f ← zeroCounts dflt s.prior v
    return (v, f)
  (todo ch s).foldlM (countOne ch s p0) []

/-- `expectation_maximization.py:72-77` `_maximization` -/
def maximization (counts : List (V × VFactor V S K)) : Py (List (V × VFactor V S K)) :=
  counts.mapM fun p => do
    let g ← p.2.marginalize [p.1]
    let q ← p.2.divide g
    return (p.1, q)

/-- `parameter.py:61-64` `_update_model` without the recording -/
def updateModel (m : DagModel (VFactor V S K) V S) (new : List (V × VFactor V S K)) : Py (DagModel (VFactor V S K) V S) := do
  let rest ← (m.graph.nodes.filter fun v => v ∉ Dict.keys new).mapM fun v => do
    let f ← Dict.get m.factors v
    return (v, f)
  DagModel.ofDict m.graph (new.map (fun p => (p.1, some p.2)) ++ rest) false

/-- `expectation_maximization.py:28-30`, `parameter.py:24-27`: one step -/
def update (dflt : VType) (ch : Choices V) (s : VEM V S K) : Py (VEM V S K) := do
  let counts ← expectation dflt ch s
  let new ← maximization counts
  let m ← updateModel s.model new
  return { s with model := m }

end VEM

end Verif
