import Verif.Model.Basic

/-!
# Structural causal models (`models/cmodel.py`, `models/transform/*.py`)

The classes of the factors of one model share a store type (`vtype`), as they do in the code when nothing else is
asked for.  A structural causal model is its graph and dictionaries (`base`), the list `_endogenous` and the flag
`_cast_multinomial`.
-/

set_option linter.unusedSectionVars false
set_option linter.unusedSimpArgs false

namespace Verif

variable {V S : Type} [DecidableEq V] [DecidableEq S]

/-- `nx.relabel_nodes(g, mapping)` with `copy=True`: nodes and edges are added under their new names. -/
def DiGraph.relabel (g : DiGraph V) (ρ : V → V) : DiGraph V :=
  ⟨(g.nodes.map ρ).reverse.dedup.reverse, (g.edges.map fun e => (ρ e.1, ρ e.2)).reverse.dedup.reverse⟩

/-- `factor.py:90-92` `values` of a deterministic factor -/
def DetFactor.valuesList {L : LabelStore V S} (f : DetFactor L) : Py (List S) :=
  (assignmentSpace (L.dom f.store)).mapM (L.getValue f.store)

/-- `factor.py:113-124` `rename_vars` of a deterministic factor (for mappings that keep the names distinct). -/
def DetFactor.renameVars {L : LabelStore V S} (f : DetFactor L) (m : List (V × V)) : Py (DetFactor L) := do
  let vals ← f.valuesList
  DetFactor.make L (f.dom.map fun p => (Factor.renameOne m p.1, p.2)) ⟨[vals.length], vals⟩
    (some (f.leftVars.map (Factor.renameOne m))) (some (f.rightVars.map (Factor.renameOne m)))

section
variable {α : Type} [Inhabited α] [Zero α] [One α] [DecidableEq α] {I : StoreImpl V S α} {L : LabelStore V S}

namespace AnyFactor

/-- `mulitnomial.py:52-66`, `deterministic.py:74-80` `constant` -/
def constant (f : AnyFactor I L) (s : S) : Py (AnyFactor I L) :=
  match f with
  | .multi f => do let r ← f.constant s; return .multi r
  | .det f => do let r ← f.constant s; return .det r

/-- `factor.py:113-124` `rename_vars` -/
def renameVars (f : AnyFactor I L) (m : List (V × V)) : Py (AnyFactor I L) :=
  match f with
  | .multi f => do let r ← f.renameVars m; return .multi r
  | .det f => do let r ← f.renameVars m; return .det r

/-- `f.to_multinomial() if isinstance(f, DeterministicFactor) else f` -/
def toMulti (f : AnyFactor I L) : Py (AnyFactor I L) :=
  match f with
  | .multi f => .ok (.multi f)
  | .det f => do let r ← f.toMultinomial I; return .multi r

def isDet : AnyFactor I L → Bool
  | .multi _ => false
  | .det _ => true

end AnyFactor

/-- `StructuralCausalModel` -/
structure SCM (I : StoreImpl V S α) (L : LabelStore V S) where
  base : DagModel (AnyFactor I L) V S
  /-- `_endogenous` -/
  endogenous : List V
  /-- `_cast_multinomial` -/
  cast : Bool

namespace SCM

/-- `cmodel.py:40-45` `exogenous` -/
def exogenous (m : SCM I L) : List V := m.base.graph.nodes.filter (· ∉ m.endogenous)

/-- `cmodel.py:151`: the nodes with predecessors -/
def defaultEndo (g : DiGraph V) : List V := g.nodes.filter fun x => (g.pred x).length > 0

/-- `cmodel.py:151` `endogenous or [...]` (an empty list counts as missing) -/
def endoOr (g : DiGraph V) : Option (List V) → List V
  | none => defaultEndo g
  | some l => if l = [] then defaultEndo g else l

/-- `cmodel.py:176-181`: checks and casts of `set_factor` that come before those of `PGModel`. `None` has no method
`is_degenerate`. -/
def prepare (endo : List V) (cast check : Bool) (v : V) : Option (AnyFactor I L) → Py (Option (AnyFactor I L))
  | none => if v ∈ endo ∧ check then .error .attributeError else .ok none
  | some (.multi f) =>
    if v ∈ endo ∧ check then do
      let b ← f.isDegenerate
      if b then .ok (some (.multi f)) else .error .valueError
    else .ok (some (.multi f))
  | some (.det f) =>
    if v ∈ endo ∧ cast then do
      let r ← f.toMultinomial I
      .ok (some (.multi r))
    else .ok (some (.det f))

/-- `cmodel.py:168-183` `set_factor` -/
def setFactor (m : SCM I L) (v : V) (f : Option (AnyFactor I L)) : Py (SCM I L) := do
  let f ← prepare m.endogenous m.cast m.base.check v f
  let b ← m.base.setFactor v f
  return { m with base := b }

/-- `cmodel.py:148-153` -/
def init (g : DiGraph V) (endo : Option (List V)) (cast check : Bool) : Py (SCM I L) := do
  let b ← DagModel.init g check
  return ⟨b, endoOr g endo, cast⟩

/-- `cmodel.py:148-156` constructor, `pgmodel.py:129-131`, for a dictionary -/
def ofDict (g : DiGraph V) (fs : List (V × Option (AnyFactor I L))) (endo : Option (List V)) (cast check : Bool) :
    Py (SCM I L) := do
  let m ← init g endo cast check
  fs.foldlM (fun m p => m.setFactor p.1 p.2) m

/-- `pgmodel.py:133-135`: one element of a list of factors (`None` has no attribute `left_vars`) -/
def setOne (m : SCM I L) (f : Option (AnyFactor I L)) : Py (SCM I L) :=
  match f with
  | none => .error .attributeError
  | some f => do
    let v ← DagModel.leftOf f
    m.setFactor v (some f)

/-- `cmodel.py:148-156` constructor, `pgmodel.py:132-135`, for a list -/
def ofList (g : DiGraph V) (fs : List (Option (AnyFactor I L))) (endo : Option (List V)) (cast check : Bool) :
    Py (SCM I L) := do
  let m ← init g endo cast check
  fs.foldlM setOne m

/-- `cmodel.py:185-186` `to_multinomial` -/
def toMultinomial (m : SCM I L) : Py (SCM I L) := ofDict m.base.graph m.base.factors none true true

/-- `cmodel.py:163-165` `from_model` (`conversion.py` `bnet_to_causal` is the same call) -/
def fromModel (m : DagModel (AnyFactor I L) V S) : Py (SCM I L) := ofDict m.graph m.factors none true true

/-- `cmodel.py:196-197`: the factor of `v` in the intervened model -/
def doFactor (obs : Obs V S) (p : V × Option (AnyFactor I L)) : Py (V × Option (AnyFactor I L)) :=
  match Dict.get? obs p.1 with
  | none => .ok p
  | some s =>
    match p.2 with
    | none => .error .attributeError
    | some f => do
      let r ← f.constant s
      .ok (p.1, some r)

/-- `cmodel.py:193-198` `intervention` -/
def intervention (m : SCM I L) (obs : Obs V S) : Py (SCM I L) := do
  let newDag := m.base.graph.removeIngoing (Dict.keys obs)
  let fs ← m.base.factors.mapM (doFactor obs)
  ofDict newDag fs (some m.endogenous) m.cast true

/-- `pgmodel.py:188`, `cmodel.py:203`: renaming one factor of the dictionary -/
def renameSlot (mapping : List (V × V)) (p : V × Option (AnyFactor I L)) : Py (Option (AnyFactor I L)) :=
  match p.2 with
  | none => .error .attributeError
  | some f => do
    let r ← f.renameVars mapping
    .ok (some r)

/-- `cmodel.py:200-205` `rename_vars` -/
def renameVars (m : SCM I L) (mapping : List (V × V)) : Py (SCM I L) := do
  let newDag := m.base.graph.relabel (Factor.renameOne mapping)
  let fs ← m.base.factors.mapM (renameSlot mapping)
  let endo ← m.endogenous.mapM (Dict.get mapping)
  ofList newDag fs (some endo) m.cast true

/-- `pgmodel.py:185-189` `DiscreteDAGModel.rename_vars` of a Bayesian network (`bnet.py:18-19`: checks are on again) -/
def _root_.Verif.DagModel.renameVars (m : DagModel (AnyFactor I L) V S) (mapping : List (V × V)) :
    Py (DagModel (AnyFactor I L) V S) := do
  let fs ← m.factors.mapM (renameSlot mapping)
  DagModel.ofList (m.graph.relabel (Factor.renameOne mapping)) (fs.filterMap id) true

/-- `isinstance(f, DeterministicFactor)` -/
def slotDet : Option (AnyFactor I L) → Bool
  | some f => f.isDet
  | none => false

/-- `cmodel.py:188-190` `has_deterministic` -/
def hasDeterministic (m : SCM I L) : Py Bool := do
  let fs ← m.endogenous.mapM (Dict.get m.base.factors)
  return fs.any slotDet

/-- `cmodel.py:244-246` `to_bnet` -/
def toBnet (m : SCM I L) : Py (DagModel (AnyFactor I L) V S) := do
  let b ← m.hasDeterministic
  let m ← if b then m.toMultinomial else .ok m
  DagModel.ofDict m.base.graph m.base.factors true

/-- `pgmodel.py:199-200` `copy`, through `cmodel.py:158-161` `builder` -/
def copy (m : SCM I L) : Py (SCM I L) := ofDict m.base.graph m.base.factors (some m.endogenous) m.cast true

/-- `pgmodel.py:45-46` `get_factors` -/
def getFactors (m : SCM I L) (vs : List V) : Py (List (Option (AnyFactor I L))) := vs.mapM (Dict.get m.base.factors)

/-- `combination.py:6-23` `fusion_roots(models, on, endogenous=…)`; `setOrd` is the order in which python lists a set. -/
def fusionRoots (setOrd : List V → List V) (models : List (SCM I L)) (on : List V) (endo : List V) : Py (SCM I L) := do
  let roots ← (on.zip models).mapM fun p => do
    let pa ← p.2.base.graph.predecessors p.1
    return pa.length == 0
  if !roots.all id then throw .valueError
  match models with
  | [] => throw .indexError
  | m0 :: _ =>
    let g := (models.flatMap fun m => m.base.graph.edges).foldl (fun g e => g.addEdge e.1 e.2)
      (m0.base.graph.nodes.foldl (fun g v => g.addNode v) DiGraph.empty)
    let f0 ← m0.getFactors on
    let fs ← models.mapM fun m => m.getFactors (setOrd (m.base.graph.nodes.filter (· ∉ on)))
    ofList g (f0 ++ fs.flatten) (some endo) m0.cast true

end SCM
end
end Verif
