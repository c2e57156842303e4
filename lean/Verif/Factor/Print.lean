import Verif.Factor.Interval
import Verif.Model.SCM
import Verif.Util.Text

/-!
# What is printed about factors and models

Names of variables are strings (`Str`); `sh` is `str` on the values of a table.
-/

set_option linter.unusedSectionVars false
set_option linter.unusedSimpArgs false

namespace Verif

variable {S : Type} [DecidableEq S] {α : Type}

/-- `str` of a number of states -/
def cardText (n : Nat) : Str := Nat.toDigits 10 n

/-- `store.py:157-163` `values_str`, with the default `maxvalues = 4` -/
def valuesStr (sh : α → Str) (vals : List α) : Str :=
  pyJoin [','] ((vals.take 4).map sh) ++
    (if vals.length > 4 then ",...,".toList ++ (match vals.getLast? with | some x => sh x | none => []) else [])

/-- What is between the brackets of a name: `mulitnomial.py:205-207`, `imprecise.py:191-193` -/
def sides (left right : List Str) : Str :=
  pyJoin [','] left ++ (if right.length > 0 then '|' :: pyJoin [','] right else [])

/-- `mulitnomial.py:204-208` `name` of `MultinomialFactor`; `imprecise.py:189-194` that of `IntervalProbFactor` -/
def probName (left right : List Str) : Str := "P(".toList ++ sides left right ++ [')']

/-- `deterministic.py:117-122` `name` of `DeterministicFactor` -/
def detName (left right : List Str) : Str :=
  'f' :: pyJoin [] left ++ '(' :: (if right.length > 0 then pyJoin [','] right else []) ++ [')']

/-- `mulitnomial.py:212`, `deterministic.py:125`, `imprecise.py:198`: the numbers of states, `X:2,Y:3` -/
def cardStr (d : Dom Str S) : Str := pyJoin [','] (d.map fun p => p.1 ++ ':' :: cardText p.2.length)

/-- `mulitnomial.py:210-214` `__repr__`; `get_value` of the store may fail when the values are listed. -/
def Factor.repr {I : StoreImpl Str S α} (sh : α → Str) (f : Factor I) : Py Str := do
  let vals ← f.valuesList
  return "<MultinomialFactor ".toList ++ probName f.leftVars f.rightVars ++ ", cardinality = (".toList ++ cardStr f.dom ++ "), values=[".toList ++ valuesStr sh vals ++ "]>".toList

/-- `deterministic.py:124-127` `__repr__`; the values are those of the store, one for each assignment of the right variables (`store.py:150-152`). -/
def DetFactor.repr {L : LabelStore Str S} (sh : S → Str) (f : DetFactor L) : Py Str := do
  let vals ← (assignmentSpace (L.dom f.store)).mapM fun o => L.getValue f.store o
  return "<DeterministicFactor ".toList ++ detName f.leftVars f.rightVars ++ ", cardinality = (".toList ++ cardStr f.dom ++ "), values=[".toList ++ valuesStr sh vals ++ "]>".toList

section
variable {K : Type} [Field K] [LinearOrder K]

/-- `imprecise.py:196-202` `__repr__`; `_bound` is shown neither among the right variables nor among the numbers of states. -/
def IFactor.repr {I : StoreImpl Str S (Fl K)} (N : BoundNames Str S) (sh : Fl K → Str) (f : IFactor I) : Py Str := do
  let lo ← I.restrict f.store [(N.bound, N.low)]
  let lows ← I.valuesList lo
  let hi ← I.restrict f.store [(N.bound, N.up)]
  let ups ← I.valuesList hi
  return "<IntervalProbFactor ".toList ++ probName (f.leftVars N) (f.rightVars.filter fun v => v ≠ N.bound) ++ ", cardinality = (".toList ++ cardStr (f.dom N) ++
    "), values_low=[".toList ++ valuesStr sh lows ++ "], values_up=[".toList ++ valuesStr sh ups ++ "]>".toList

end

/-- `bnet.py:26`, `cmodel.py:264-267`: names and numbers of states; nothing after the colon when the states are not known -/
def domText (l : List (Str × Option (List S))) : Str :=
  pyJoin [','] (l.map fun p => p.1 ++ ':' :: (match p.2 with | none => [] | some st => cardText st.length))

/-- `bnet.py:25-28` `__repr__` of `BayesianNetwork` -/
def DagModel.repr {F : Type} (m : DagModel F Str S) : Py Str := do
  let d ← dag2str m.graph
  return "<BayesianNetwork (".toList ++ domText m.domains ++ "), dag=".toList ++ d ++ ['>']

/-- `cmodel.py:263-268` `__repr__` of `StructuralCausalModel` -/
def SCM.repr {I : StoreImpl Str S α} {L : LabelStore Str S} (m : SCM I L) : Py Str := do
  let d ← dag2str m.base.graph
  return "<StructuralCausalModel (".toList ++ domText (m.base.domains.filter fun p => p.1 ∈ m.endogenous) ++ '|' ::
    domText (m.base.domains.filter fun p => p.1 ∉ m.endogenous) ++ "), dag=".toList ++ d ++ ['>']

end Verif
