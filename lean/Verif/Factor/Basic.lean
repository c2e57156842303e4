import Verif.Store.Class
import Verif.Py.Fl

/-!
# `factors/factor.py` and `factors/mulitnomial.py` (`MultinomialFactor`)

`self._variables` is `list(domain.keys())` of the store, so only the right variables are kept.
The operations call `self.builder(domain=…, values=new_store.data, …)`, which rebuilds a store of
the same type from the data of `new_store`: the same store.
-/

set_option linter.unusedSectionVars false
set_option linter.unusedSimpArgs false

namespace Verif

variable {V S α : Type} [DecidableEq V] [DecidableEq S] [Inhabited α]

/-- `MultinomialFactor` over a store implementation. -/
structure Factor (I : StoreImpl V S α) where
  store : I.St
  /-- `_right_vars` -/
  rightVars : List V

namespace Factor

variable {I : StoreImpl V S α}

/-- `factor.py:83-85` `domain` -/
def dom (f : Factor I) : Dom V S := I.dom f.store

/-- `mulitnomial.py:33` `_variables` -/
def vars (f : Factor I) : List V := Dict.keys f.dom

/-- `factor.py:133-135` `left_vars` -/
def leftVars (f : Factor I) : List V := f.vars.filter fun v => v ∉ f.rightVars

/-- `factor.py:137-139` `right_domain` -/
def rightDomain (f : Factor I) : Dom V S := f.dom.filter fun p => p.1 ∈ f.rightVars

/-- `factor.py:141-143` `left_domain` -/
def leftDomain (f : Factor I) : Dom V S := f.dom.filter fun p => p.1 ∈ f.leftVars

/-- `factor.py:145-155` `set_variables`: the resulting right variables -/
def setVariables (vs : List V) : Option (List V) → Option (List V) → Py (List V)
  | none, none => .ok []
  | some l, none => .ok (vs.filter fun v => v ∉ l)
  | some l, some r =>
      if (∀ v ∈ vs, v ∈ l ∨ v ∈ r) ∧ (∀ v ∈ l ++ r, v ∈ vs) ∧ (∀ v ∈ r, v ∉ l)
      then .ok r else .error .valueError
  | none, some r => .ok r

/-- `factor.py:73-81` `_check_domain`: of the checks, those that are not a matter of typing here
is that state lists are not empty (`len(set(types)) == 1`); the test on leading underscores is
left out because variable names are abstract. -/
def checkDomain (d : Dom V S) : Py Unit :=
  if ∀ p ∈ d, p.2 ≠ [] then .ok () else .error .valueError

/-- `mulitnomial.py:22-34` constructor, values given flat in row-major order. -/
def make (I : StoreImpl V S α) (d : Dom V S) (values : List α) (left right : Option (List V)) :
    Py (Factor I) := do
  checkDomain d
  let st ← I.ofFlat d values
  let r ← setVariables (Dict.keys d) left right
  return ⟨st, r⟩

/-- `mulitnomial.py:27-30`: a scalar is repeated for every cell. -/
def makeScalar (I : StoreImpl V S α) (d : Dom V S) (x : α) (left right : Option (List V)) :
    Py (Factor I) :=
  make I d (List.replicate (cards d).prod x) left right

/-- `mulitnomial.py:36-39` `builder`, called with an existing store. -/
def build (f : Factor I) (st : I.St) (left right : Option (List V)) : Py (Factor I) := do
  let left := if left.isNone ∧ right.isNone then some f.leftVars else left
  checkDomain (I.dom st)
  let r ← setVariables (Dict.keys (I.dom st)) left right
  return ⟨st, r⟩

/-- `mulitnomial.py:36-39` `builder`, called with flat values. -/
def buildFlat (f : Factor I) (d : Dom V S) (values : List α) (left right : Option (List V)) :
    Py (Factor I) :=
  make I d values (if left.isNone ∧ right.isNone then some f.leftVars else left) right

/-- `factor.py:87-88` `get_value` -/
def getValue (f : Factor I) (obs : Obs V S) : Py α := I.getValue f.store obs

/-- `factor.py:94-96` `values_list` -/
def valuesList (f : Factor I) : Py (List α) := I.valuesList f.store

/-- `mulitnomial.py:70-74` `restrict` (scalar observations) -/
def restrict (f : Factor I) (obs : Obs V S) : Py (Factor I) :=
  if ∀ v ∈ Dict.keys obs, v ∉ f.vars then .ok f else do
    let st ← I.restrict f.store obs
    f.build st none (some ((Dict.keys (I.dom st)).filter fun v => v ∈ f.rightVars))

/-- `mulitnomial.py:70-74` `restrict` with states or lists of states -/
def restrictG (f : Factor I) (obs : List (V × ObsVal S)) : Py (Factor I) :=
  if ∀ v ∈ Dict.keys obs, v ∉ f.vars then .ok f else do
    let st ← I.restrictG f.store obs
    f.build st none (some ((Dict.keys (I.dom st)).filter fun v => v ∈ f.rightVars))

/-- `mulitnomial.py:83-104` `multiply`, `addition`, `subtract`, with `op` the operation. -/
def combine (op : α → α → α) (f g : Factor I) : Py (Factor I) := do
  let st ← I.combine op f.store g.store
  f.build st none (some ((Dict.keys (I.dom st)).filter fun v => v ∉ f.leftVars ∧ v ∉ g.leftVars))

/-- `mulitnomial.py:83-89` `multiply` -/
def multiply [Mul α] (f g : Factor I) : Py (Factor I) := combine (· * ·) f g
/-- `mulitnomial.py:91-97` `addition` -/
def addition [Add α] (f g : Factor I) : Py (Factor I) := combine (· + ·) f g
/-- `mulitnomial.py:99-104` `subtract` -/
def subtract [Sub α] (f g : Factor I) : Py (Factor I) := combine (· - ·) f g

/-- `mulitnomial.py:78-81` `_prepare_operand` for an int or float -/
def prepareScalar (f : Factor I) (x : α) : Py (Factor I) := f.buildFlat [] [x] none none

/-- `mulitnomial.py:106-117` `divide`, `q` being the quotient of the store -/
def divideG (q : α → α → α) (f g : Factor I) : Py (Factor I) := do
  let st ← I.combine q f.store g.store
  f.build st none (some ((Dict.keys (I.dom st)).filter fun v => v ∈ f.rightVars ∨ v ∈ g.vars))

/-- `mulitnomial.py:119-123` `marginalize` -/
def marginalize (f : Factor I) (vars : List V) : Py (Factor I) :=
  if ∀ v ∈ vars, v ∉ f.vars then .ok f else do
    let st ← I.marginalize f.store vars
    f.build st none (some ((Dict.keys (I.dom st)).filter fun v => v ∈ f.rightVars))

/-- `mulitnomial.py:52-66` `constant` -/
def constant [Zero α] [One α] (f : Factor I) (s : S) : Py (Factor I) :=
  let newDom := f.leftDomain
  match f.leftVars with
  | [] => .error .indexError
  | v :: _ => do
    let states ← Dict.get newDom v
    if newDom.length ≠ 1 then throw .valueError
    if s ∉ states then throw .valueError
    f.buildFlat newDom ((List.replicate states.length (0 : α)).set (states.idxOf s) 1) none none

/-- `factor.py:68-69` `combine_all` -/
def combineAll [Mul α] : List (Factor I) → Py (Factor I)
  | [] => .error .typeError
  | f :: fs => fs.foldlM multiply f

/-- `factor.py:102-108` `values_array`: cells in the requested variable order. -/
def valuesArray (f : Factor I) (order : List V) : Py (NdArray α) := do
  let order := if order = [] then f.vars else order
  let dom ← order.mapM fun v => do
    let d ← Dict.get f.dom v
    return (v, d)
  let vals ← (assignmentSpace dom).mapM f.getValue
  return ⟨cards dom, vals⟩

/-- `factor.py:110-111` `is_degenerate` -/
def isDegenerate [Zero α] [One α] [DecidableEq α] (f : Factor I) : Py Bool := do
  let vs ← f.valuesList
  return (vs.filter fun x => x ≠ 0 ∧ x ≠ 1).length == 0

/-- A name after `names_mapping` -/
def renameOne (m : List (V × V)) (v : V) : V := (Dict.get? m v).getD v

/-- `factor.py:113-124` `rename_vars` (for mappings that keep the names distinct; otherwise the
python `OrderedDict` would merge entries). -/
def renameVars (f : Factor I) (m : List (V × V)) : Py (Factor I) := do
  let vals ← f.valuesList
  f.buildFlat (f.dom.map fun p => (renameOne m p.1, p.2)) vals
    (some (f.leftVars.map (renameOne m))) (some (f.rightVars.map (renameOne m)))

end Factor

section
variable {K : Type} [Field K] [LinearOrder K] {I : StoreImpl V S (Fl K)}

/-- `mulitnomial.py:106-117` `divide`: the numpy store applies `np.nan_to_num`
(`numpyops.py:97-99`), the others do not. -/
def Factor.divide (f g : Factor I) : Py (Factor I) :=
  f.divideG (fun x y => I.divWrap Fl.nanToNum (x / y)) g
end

end Verif
