import Verif.Model.Build
import Verif.Model.SCM

/-!
# Models as python objects: which factors are shared

Elsewhere a model is a value.  Here the factors are objects with an address, a model refers to them, and `set_value` of
a store changes the factor where it is.  `copy`, `to_multinomial` and `intervention` hand the factors of the old model to the
new one (`pgmodel.py:199-200`, `cmodel.py:185-186`, `193-198`), `rename_vars` makes new ones (`factor.py:113-124`).  Graphs and
lists of names are values: no line of the package changes the graph, the states or the endogenous variables of a model after
it was made.
-/

set_option linter.unusedSectionVars false
set_option linter.unusedSimpArgs false

namespace Verif

variable {V S α : Type} [DecidableEq V] [DecidableEq S] [Inhabited α] [Zero α] [One α] [DecidableEq α]
  {I : StoreImpl V S α} {L : LabelStore V S}

/-- The factors made so far; the address of a factor is its position. -/
abbrev FacHeap (I : StoreImpl V S α) (L : LabelStore V S) := List (AnyFactor I L)

/-- `StructuralCausalModel` object: `_factors` holds addresses. -/
structure ObjModel (V S : Type) where
  graph : DiGraph V
  factors : List (V × Option Nat)
  domains : List (V × Option (List S))
  check : Bool
  endogenous : List V
  cast : Bool

/-- The factor at an address, `None` for `None` -/
def slotVal (h : FacHeap I L) (r : Option Nat) : Option (AnyFactor I L) := r.bind fun a => h[a]?

namespace ObjModel

/-- What is seen through the references -/
def read (h : FacHeap I L) (m : ObjModel V S) : SCM I L :=
  ⟨⟨m.graph, m.factors.map fun p => (p.1, slotVal h p.2), m.domains, m.check⟩, m.endogenous, m.cast⟩

/-- `cmodel.py:180-181`: `to_multinomial` makes a new factor, in the other cases the object is the one that was given. -/
def keep (h : FacHeap I L) (r : Option Nat) : Option (AnyFactor I L) → Option (AnyFactor I L) → FacHeap I L × Option Nat
  | some (.det _), some (.multi g) => (h ++ [.multi g], some h.length)
  | _, _ => (h, r)

/-- `cmodel.py:168-183`, `pgmodel.py:49-73` `set_factor`: the object itself is entered in the dictionary. -/
def setFactor (m : ObjModel V S) (h : FacHeap I L) (v : V) (r : Option Nat) : Py (FacHeap I L × ObjModel V S) := do
  let f ← SCM.prepare m.endogenous m.cast m.check v (slotVal h r)
  let b ← (m.read h).base.setFactor v f
  let k := keep h r (slotVal h r) f
  return (k.1, { m with factors := Dict.set m.factors v k.2, domains := b.domains })

/-- `cmodel.py:148-153`: the object before its factors are set -/
def init (g : DiGraph V) (endo : Option (List V)) (cast check : Bool) : Py (ObjModel V S) :=
  if g.hasCycle then .error .valueError
  else .ok ⟨g, g.nodes.map fun x => (x, none), g.nodes.map fun x => (x, none), check, SCM.endoOr g endo, cast⟩

/-- `pgmodel.py:129-131`: one entry of a dictionary of factors -/
def setEntry (q : FacHeap I L × ObjModel V S) (p : V × Option Nat) : Py (FacHeap I L × ObjModel V S) := q.2.setFactor q.1 p.1 p.2

/-- `cmodel.py:148-156` constructor for a dictionary of factors that exist already -/
def ofDict (h : FacHeap I L) (g : DiGraph V) (rs : List (V × Option Nat)) (endo : Option (List V)) (cast check : Bool) :
    Py (FacHeap I L × ObjModel V S) := do
  let m ← init g endo cast check
  rs.foldlM setEntry (h, m)

/-- `pgmodel.py:133-135`: one element of a list of factors -/
def setOne (q : FacHeap I L × ObjModel V S) (r : Option Nat) : Py (FacHeap I L × ObjModel V S) :=
  match slotVal q.1 r with
  | none => .error .attributeError
  | some f => do
    let v ← DagModel.leftOf f
    q.2.setFactor q.1 v r

/-- `cmodel.py:148-156` constructor for a list of factors that exist already -/
def ofList (h : FacHeap I L) (g : DiGraph V) (rs : List (Option Nat)) (endo : Option (List V)) (cast check : Bool) :
    Py (FacHeap I L × ObjModel V S) := do
  let m ← init g endo cast check
  rs.foldlM setOne (h, m)

/-- A comprehension whose elements may be new objects -/
def collect {A B : Type} (f : FacHeap I L → A → Py (FacHeap I L × B)) : FacHeap I L → List A → Py (FacHeap I L × List B)
  | h, [] => .ok (h, [])
  | h, a :: l => do
    let q ← f h a
    let w ← collect f q.1 l
    return (w.1, q.2 :: w.2)

/-- `cmodel.py:196-197`: `f if v not in obs else f.constant(obs[v])` -/
def doEntry (obs : Obs V S) (h : FacHeap I L) (p : V × Option Nat) : Py (FacHeap I L × (V × Option Nat)) :=
  match Dict.get? obs p.1 with
  | none => .ok (h, p)
  | some s =>
    match slotVal h p.2 with
    | none => .error .attributeError
    | some f => do
      let r ← f.constant s
      .ok (h ++ [r], (p.1, some h.length))

/-- `cmodel.py:193-198` `intervention` -/
def intervention (m : ObjModel V S) (h : FacHeap I L) (obs : Obs V S) : Py (FacHeap I L × ObjModel V S) := do
  let q ← collect (doEntry obs) h m.factors
  ofDict q.1 (m.graph.removeIngoing (Dict.keys obs)) q.2 (some m.endogenous) m.cast true

/-- `cmodel.py:203`: `f.rename_vars(names_mapping)`, a new factor -/
def renameEntry (mapping : List (V × V)) (h : FacHeap I L) (p : V × Option Nat) : Py (FacHeap I L × Option Nat) :=
  match slotVal h p.2 with
  | none => .error .attributeError
  | some f => do
    let r ← f.renameVars mapping
    .ok (h ++ [r], some h.length)

/-- `cmodel.py:200-205` `rename_vars` -/
def renameVars (m : ObjModel V S) (h : FacHeap I L) (mapping : List (V × V)) : Py (FacHeap I L × ObjModel V S) := do
  let q ← collect (renameEntry mapping) h m.factors
  let endo ← m.endogenous.mapM (Dict.get mapping)
  ofList q.1 (m.graph.relabel (Factor.renameOne mapping)) q.2 (some endo) m.cast true

/-- `pgmodel.py:199-200` `copy` -/
def copy (m : ObjModel V S) (h : FacHeap I L) : Py (FacHeap I L × ObjModel V S) :=
  ofDict h m.graph m.factors (some m.endogenous) m.cast true

/-- `cmodel.py:185-186` `to_multinomial` -/
def toMultinomial (m : ObjModel V S) (h : FacHeap I L) : Py (FacHeap I L × ObjModel V S) :=
  ofDict h m.graph m.factors none true true

end ObjModel

/-- What a program does with its models; they are numbered in the order they are made. -/
inductive ModelOp (I : StoreImpl V S α) (L : LabelStore V S)
  /-- `StructuralCausalModel(g, {v: f, …}, endo, cast, check)` with new factors -/
  | new (g : DiGraph V) (fs : List (V × AnyFactor I L)) (endo : Option (List V)) (cast check : Bool)
  /-- `models[i].copy()` -/
  | copy (i : Nat)
  /-- `models[i].to_multinomial()` -/
  | toMultinomial (i : Nat)
  /-- `models[i].intervention(**obs)` -/
  | intervention (i : Nat) (obs : Obs V S)
  /-- `models[i].rename_vars(mapping)` -/
  | rename (i : Nat) (mapping : List (V × V))
  /-- `models[i].set_factor(v, f)` with a new factor, also the steps of `randomize_factors` and `fill_random_…` (`cmodel.py:209-230`) -/
  | setNew (i : Nat) (v : V) (f : AnyFactor I L)
  /-- `models[i].set_factor(v, models[j].factors[w])` -/
  | setFrom (i : Nat) (v : V) (j : Nat) (w : V)
  /-- A change of the factor `models[i].factors[v]` where it is; `store.set_value(x, obs)` is one -/
  | write (i : Nat) (v : V) (u : AnyFactor I L → Py (AnyFactor I L))

/-- The models of a program as objects -/
structure ObjState (I : StoreImpl V S α) (L : LabelStore V S) where
  heap : FacHeap I L
  models : List (ObjModel V S)

/-- `models[i]` -/
def pick {A : Type} (l : List A) (i : Nat) : Py A :=
  match l[i]? with
  | none => .error .indexError
  | some a => .ok a

namespace ObjState

/-- A new model was made. -/
def made (st : ObjState I L) (q : FacHeap I L × ObjModel V S) : ObjState I L := ⟨q.1, st.models ++ [q.2]⟩

/-- One operation on the objects -/
def step (st : ObjState I L) : ModelOp I L → Py (ObjState I L)
  | .new g fs endo cast check => do
    let q ← ObjModel.ofDict (st.heap ++ fs.map Prod.snd) g (fs.zipIdx.map fun p => (p.1.1, some (st.heap.length + p.2))) endo cast check
    return st.made q
  | .copy i => do
    let m ← pick st.models i
    let q ← m.copy st.heap
    return st.made q
  | .toMultinomial i => do
    let m ← pick st.models i
    let q ← m.toMultinomial st.heap
    return st.made q
  | .intervention i obs => do
    let m ← pick st.models i
    let q ← m.intervention st.heap obs
    return st.made q
  | .rename i mapping => do
    let m ← pick st.models i
    let q ← m.renameVars st.heap mapping
    return st.made q
  | .setNew i v f => do
    let m ← pick st.models i
    let q ← m.setFactor (st.heap ++ [f]) v (some st.heap.length)
    return ⟨q.1, st.models.set i q.2⟩
  | .setFrom i v j w => do
    let m ← pick st.models i
    let m' ← pick st.models j
    let r ← Dict.get m'.factors w
    let q ← m.setFactor st.heap v r
    return ⟨q.1, st.models.set i q.2⟩
  | .write i v u => do
    let m ← pick st.models i
    let r ← Dict.get m.factors v
    match r with
    | none => .error .attributeError
    | some a => do
      let f ← pick st.heap a
      let f' ← u f
      return ⟨st.heap.set a f', st.models⟩

def run (ops : List (ModelOp I L)) : Py (ObjState I L) := ops.foldlM step ⟨[], []⟩

/-- What the program sees of its models -/
def values (st : ObjState I L) : List (SCM I L) := st.models.map (ObjModel.read st.heap)

end ObjState

/-- One operation on models that share nothing (the functions of `Verif/Model/SCM.lean`) -/
def modelStep (ms : List (SCM I L)) : ModelOp I L → Py (List (SCM I L))
  | .new g fs endo cast check => do
    let m ← SCM.ofDict g (fs.map fun p => (p.1, some p.2)) endo cast check
    return ms ++ [m]
  | .copy i => do
    let m ← pick ms i
    let m' ← m.copy
    return ms ++ [m']
  | .toMultinomial i => do
    let m ← pick ms i
    let m' ← m.toMultinomial
    return ms ++ [m']
  | .intervention i obs => do
    let m ← pick ms i
    let m' ← m.intervention obs
    return ms ++ [m']
  | .rename i mapping => do
    let m ← pick ms i
    let m' ← m.renameVars mapping
    return ms ++ [m']
  | .setNew i v f => do
    let m ← pick ms i
    let m' ← m.setFactor v (some f)
    return ms.set i m'
  | .setFrom i v j w => do
    let m ← pick ms i
    let m' ← pick ms j
    let f ← Dict.get m'.base.factors w
    let m'' ← m.setFactor v f
    return ms.set i m''
  | .write i v u => do
    let m ← pick ms i
    let o ← Dict.get m.base.factors v
    match o with
    | none => .error .attributeError
    | some f => do
      let f' ← u f
      return ms.set i { m with base := { m.base with factors := Dict.set m.base.factors v (some f') } }

def modelRun (ops : List (ModelOp I L)) : Py (List (SCM I L)) := ops.foldlM modelStep []

end Verif
