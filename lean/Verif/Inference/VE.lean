import Verif.Model.Basic
import Verif.Inference.Elim

/-!
# Pruning and variable elimination (`models/transform/simplification.py`,
`inference/probabilistic/probabilistic.py`, `inference/probabilistic/elimination.py`)

Two things are left open and are parameters: the elimination heuristic, and the order in which
python lists a set of names (`setOrd`).
-/

set_option linter.unusedSectionVars false
set_option linter.unusedSimpArgs false

namespace Verif

section
variable {V S α : Type} [DecidableEq V] [DecidableEq S] [Inhabited α]

/-- Factors that can be of a class without restriction; `view` is the multinomial factor when it is one. -/
class VEFactor (F : Type) (I : outParam (StoreImpl V S α)) extends FactorLike F V S where
  view : F → Option (Factor I)
  view_dom : ∀ f g, view f = some g → dom f = g.dom
  view_left : ∀ f g, view f = some g → leftVars f = g.leftVars
  view_right : ∀ f g, view f = some g → rightVars f = g.rightVars

instance {I : StoreImpl V S α} : VEFactor (Factor I) I where
  view := some
  view_dom := by rintro f g h; cases h; rfl
  view_left := by rintro f g h; cases h; rfl
  view_right := by rintro f g h; cases h; rfl

instance {I : StoreImpl V S α} {L : LabelStore V S} : VEFactor (AnyFactor I L) I where
  view | .multi f => some f | .det _ => none
  view_dom := by rintro (f | f) g h <;> cases h; rfl
  view_left := by rintro (f | f) g h <;> cases h; rfl
  view_right := by rintro (f | f) g h <;> cases h; rfl

/-- `f.R(**obs)`; `deterministic.py:85-86` raises `NotImplementedError` -/
def VEFactor.restrict {F : Type} {I : StoreImpl V S α} [VEFactor F I] (f : F) (obs : Obs V S) : Py (Factor I) :=
  match VEFactor.view f with
  | some g => g.restrict obs
  | none => .error .notImplemented

/-- `simplification.py:19-24`: the nodes to remove -/
def irrelevant (g : DiGraph V) (target evs : List V) : List V :=
  let barren := g.barrenNodes (target ++ evs)
  let graph := g.removeOutgoing evs
  let disconnected := (graph.removeNodes barren).disconnectedNodes target
  (barren ++ disconnected).filter (· ∉ target)

/-- `simplification.py:12-38` `minimalize`. A node without factor makes line 34 fail (`None.right_vars`). -/
def minimalize {F : Type} {I : StoreImpl V S α} [VEFactor F I] (m : DagModel F V S) (target : List V) (ev : Obs V S) :
    Py (DagModel (Factor I) V S) := do
  let irr := irrelevant m.graph target (Dict.keys ev)
  let newDag := (m.graph.removeOutgoing (Dict.keys ev)).removeNodes irr
  let newFactors ← (m.factors.filter fun p => p.1 ∉ irr).mapM fun p =>
    match p.2 with
    | none => .error .attributeError
    | some f => do
      let r ← VEFactor.restrict f (ev.filter fun q => q.1 ∈ FactorLike.rightVars f)
      return (p.1, some r)
  DagModel.ofDict newDag newFactors false

end

section
variable {V S K : Type} [DecidableEq V] [DecidableEq S] [Field K] [LinearOrder K]

/-- A heuristic: called with the graph, the variables to remove and their sizes. -/
abbrev Heur (V : Type) := DiGraph V → List V → List (V × Nat) → Py (List V)

/-- Choices that python or the user makes. -/
structure Choices (V : Type) where
  heur : Heur V
  /-- `list(set(xs))` -/
  setOrd : List V → List V

/-- A factor that is still `None` has no attribute `variables` (`inference/probabilistic/elimination.py:62`). -/
def slotFactor {I : StoreImpl V S (Fl K)} (p : V × Option (Factor I)) : Py (Factor I) :=
  match p.2 with
  | some f => .ok f
  | none => .error .attributeError

/-- `inference/probabilistic/elimination.py:45-86` `run`, for a compiled object -/
def veRun {I : StoreImpl V S (Fl K)} (ch : Choices V) (m : DagModel (Factor I) V S) (target : List V)
    (ev : Obs V S) : Py (Factor I) := do
  let fs ← m.factors.mapM slotFactor
  if fs.isEmpty then throw .typeError
  let varsInFactors := ch.setOrd (fs.flatMap Factor.vars)
  let toRemove := varsInFactors.filter fun v => v ∉ target ∧ v ∉ Dict.keys ev
  let sizes ← m.varsizes
  let ordering ← ch.heur m.graph toRemove sizes
  let fs ← Elim.eliminate ordering fs
  let joint ← Factor.combineAll fs
  let joint ← joint.restrict ev
  let mg ← joint.marginalize target
  joint.divide mg

/-- A `VariableElimination` object -/
structure VEObj (F : Type) (I : StoreImpl V S (Fl K)) where
  model : DagModel F V S
  target : Option (List V)
  evidence : Obs V S
  infModel : Option (DagModel (Factor I) V S)
  compiled : Bool

namespace VEObj

variable {F : Type} {I : StoreImpl V S (Fl K)} [VEFactor F I]

/-- `probabilistic.py:12-16` constructor -/
def new (m : DagModel F V S) : VEObj F I := ⟨m, none, [], none, false⟩

/-- `probabilistic.py:18-32` `compile`; evidence `none` is python's default `None`. -/
def compile (o : VEObj F I) (target : List V) (ev : Option (Obs V S)) : VEObj F I × Py Unit :=
  if ¬ target.Nodup then (o, .error .valueError) else
  match ev with
  | none => (o, .error .attributeError)
  | some ev =>
    if ¬ (∀ t ∈ target, t ∉ Dict.keys ev) then (o, .error .valueError) else
    let o := { o with target := some target, evidence := ev }
    if ¬ (∀ v ∈ target ++ Dict.keys ev, v ∈ o.model.graph.nodes) then (o, .error .nodeNotFound) else
    match minimalize o.model target ev with
    | .error e => (o, .error e)
    | .ok m => ({ o with infModel := some m, compiled := true }, .ok ())

/-- `inference/probabilistic/elimination.py:38-86` `run` -/
def run (ch : Choices V) (o : VEObj F I) : Py (Factor I) :=
  if ¬ o.compiled then .error .valueError else
  match o.infModel, o.target with
  | some m, some t => veRun ch m t o.evidence
  | _, _ => .error .attributeError

/-- `probabilistic.py:38-54` `query` without conditioning -/
def query (ch : Choices V) (o : VEObj F I) (target : List V) (ev : Option (Obs V S)) : VEObj F I × Py (Factor I) :=
  match o.compile target (some (ev.getD [])) with
  | (o, .error e) => (o, .error e)
  | (o, .ok _) => (o, o.run ch)

/-- `probabilistic.py:38-54` `query` with conditioning -/
def queryCond (ch : Choices V) (o : VEObj F I) (target cond : List V) (ev : Option (Obs V S)) :
    VEObj F I × Py (Factor I) :=
  if ¬ (∀ t ∈ target, t ∉ cond) then (o, .error .valueError) else
  match o.compile (ch.setOrd (target ++ cond)) (some (ev.getD [])) with
  | (o, .error e) => (o, .error e)
  | (o, .ok _) => (o, do
      let p ← o.run ch
      let q ← p.marginalize target
      p.divide q)

end VEObj
end
end Verif
