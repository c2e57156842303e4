import Verif.Factor.Lemmas
import Verif.Graph.Basic
import Verif.Model.Basic

/-!
# Data frames, counts, inference from data, and distinct observations

`util/datautils.py`, `inference/probabilistic/datainference.py`, `util/datadeps.py` and
`learning/parameter/expectation_maximization.py:50-52`.

A pandas frame is the list of its columns and the list of its records; a missing value is `none`.
Row labels are not modelled (no function here looks at them).
-/

set_option linter.unusedSectionVars false
set_option linter.unusedSimpArgs false

namespace Verif

/-- A record: the value of every column -/
abbrev Rec (V S : Type) := List (V × Option S)

/-- `pd.DataFrame` -/
structure Frame (V S : Type) where
  cols : List V
  rows : List (Rec V S)

section
variable {V S : Type} [DecidableEq V] [DecidableEq S]

/-- Columns are distinct and every record has a value (possibly missing) in each of them. -/
structure Frame.WF (fr : Frame V S) : Prop where
  nodup : fr.cols.Nodup
  keys : ∀ r ∈ fr.rows, Dict.keys r = fr.cols

/-- The value of a record, when there is one -/
def Rec.val (r : Rec V S) (v : V) : Option S := (Dict.get? r v).getD none

/-- `data[v] == s`, for one record; a missing value is different from everything -/
def Rec.eqAt (r : Rec V S) (v : V) (s : S) : Bool := Rec.val r v == some s

/-- `data.loc[data[k]==v]`; `KeyError` when there is no such column -/
def Frame.loc (fr : Frame V S) (k : V) (s : S) : Py (Frame V S) :=
  if k ∈ fr.cols then .ok { fr with rows := fr.rows.filter fun r => Rec.eqAt r k s } else .error .keyError

/-- `datautils.py:26-29` `filter_data` -/
def filterData (fr : Frame V S) (obs : Obs V S) : Py (Frame V S) :=
  obs.foldlM (fun fr p => fr.loc p.1 p.2) fr

/-- `data[list(vs)]`; `KeyError` when a column is missing -/
def Frame.select (fr : Frame V S) (vs : List V) : Py (Frame V S) :=
  if ∀ v ∈ vs, v ∈ fr.cols then
    .ok ⟨vs, fr.rows.map fun r => vs.map fun v => (v, Rec.val r v)⟩
  else .error .keyError

/-- `data.isna().any()[v]` -/
def Frame.hasNa (fr : Frame V S) (v : V) : Bool := fr.rows.any fun r => (Rec.val r v).isNone

/-- What is needed to talk of missing values in a domain: the state `"nan"` and whether a state is a string. -/
structure NanName (S : Type) where
  nan : S
  isStr : S → Bool

/-- `datautils.py:11-14`: the domains with the additional state. -/
def nanDomains (N : NanName S) (fr : Frame V S) (d : Dom V S) : Py (Dom V S) :=
  d.mapM fun p =>
    if fr.hasNa p.1 then
      if p.2.all N.isStr then .ok (p.1, p.2 ++ [N.nan]) else .error .valueError
    else .ok p

/-- How often the tuple `k` occurs: `dcounts[k]`, or 0 (lines 9 and 19). The counts are taken before missing values
are given a name (line 15), so that a record with a missing value agrees with no `k`. -/
def Frame.count (fr : Frame V S) (vs : List V) (k : List S) : Nat :=
  fr.rows.countP fun r => vs.map (Rec.val r) == k.map some

end

section
variable {V S K : Type} [DecidableEq V] [DecidableEq S] [Field K] [LinearOrder K]

/-- `datautils.py:5-23` `to_counts`, with data. `value_counts` refuses a frame without columns; `c/N` with `N = 0` is a
`ZeroDivisionError` because both are python integers. -/
def toCounts (N : NanName S) (I : StoreImpl V S (Fl K)) (d : Dom V S) (fr : Frame V S) (normalize : Bool) :
    Py (Factor I) := do
  let fr ← fr.select (Dict.keys d)
  if d.isEmpty then throw .valueError
  let d ← nanDomains N fr d
  let counts := (stateSpace d).map (fr.count (Dict.keys d))
  if normalize then
    let n := counts.sum
    if n = 0 ∧ counts ≠ [] then throw .zeroDivision
    Factor.make I d (counts.map fun c : ℕ => Fl.fin ((c : K) / (n : K))) none none
  else
    Factor.make I d (counts.map fun c : ℕ => Fl.fin (c : K)) none none

/-- A `LaplaceInference` object: data, domains and `preprocess_flag` (`datainference.py:14-18`) -/
structure Laplace (V S : Type) where
  data : Frame V S
  domains : Dom V S
  preprocess : Bool

namespace Laplace

/-- `datainference.py:19-39` `compile` and `_preprocess`: the frame that is used; `target` lists distinct names -/
def compile (o : Laplace V S) (target : List V) (ev : Obs V S) : Py (Frame V S) :=
  if ¬ target.Nodup then .error .valueError else
  if ¬ (∀ t ∈ target, t ∉ Dict.keys ev) then .error .valueError else
  if o.preprocess then o.data.select (target ++ Dict.keys ev) else .ok o.data

/-- `datainference.py:41-56` `run` -/
def run (N : NanName S) (I : StoreImpl V S (Fl K)) (o : Laplace V S) (fr : Frame V S) (target : List V) (ev : Obs V S) :
    Py (Factor I) := do
  let fr ← filterData fr ev
  toCounts N I (o.domains.filter fun p => p.1 ∈ target) fr true

/-- `probabilistic.py:38-43` `query` without conditioning -/
def query (N : NanName S) (I : StoreImpl V S (Fl K)) (o : Laplace V S) (target : List V) (ev : Obs V S) :
    Py (Factor I) := do
  let fr ← o.compile target ev
  o.run N I fr target ev

/-- `probabilistic.py:38-54` `query` with conditioning; the order in which python lists the set of line 51 is `setOrd`. -/
def queryCond (N : NanName S) (I : StoreImpl V S (Fl K)) (setOrd : List V → List V) (o : Laplace V S)
    (target cond : List V) (ev : Obs V S) : Py (Factor I) := do
  if ¬ (∀ t ∈ target, t ∉ cond) then throw .valueError
  let p ← o.query N I (setOrd (target ++ cond)) ev
  let q ← p.marginalize target
  p.divide q

end Laplace
end

section
variable {V S : Type} [DecidableEq V] [DecidableEq S]

/-- `datadeps.py:40`: equality of two observations, as dictionaries -/
def obsEq (d1 d2 : Obs V S) : Bool :=
  decide (SameSet (Dict.keys d1) (Dict.keys d2)) && (Dict.keys d1).all fun k => Dict.get? d1 k == Dict.get? d2 k

/-- `datadeps.py:45-48`, the pass for one `i` -/
def uniqStep (l : List (Obs V S)) (idx : List Nat) (i : Nat) : List Nat :=
  if (List.range i).reverse.any fun j => obsEq (l.getD i []) (l.getD j []) then idx.eraseIdx i else idx

/-- `datadeps.py:38-49` `__obs_unique`: `i` runs from the last index down to 1 -/
def obsUnique (l : List (Obs V S)) : List (Obs V S) :=
  let idx := ((List.range' 1 (l.length - 1)).reverse).foldl (uniqStep l) (List.range l.length)
  idx.map fun i => l.getD i []

/-- `data.drop_duplicates()` on a list -/
def dropDup {X : Type} [DecidableEq X] : List X → List X
  | [] => []
  | x :: xs => x :: (dropDup xs).filter (· ≠ x)

/-- `datadeps.py:32`: the observed columns of a record -/
def Rec.observed (r : Rec V S) : List V := (r.filter fun p => p.2.isSome).map Prod.fst

/-- `datadeps.py:31-34` `dsep_filter` -/
def dsepFilter (g : DiGraph V) (target : V) (r : Rec V S) : Obs V S :=
  let con := target :: g.dconNodes target (Rec.observed r)
  (r.filter fun p => p.1 ∈ con).filterMap fun p => p.2.map fun s => (p.1, s)

/-- `datadeps.py:29-36` `get_minimal_obs_blanket` (the cache does not change the value) -/
def obsBlanket (g : DiGraph V) (fr : Frame V S) (target : V) : List (Obs V S) :=
  obsUnique ((dropDup fr.rows).map (dsepFilter g target))

/-- `expectation_maximization.py:52`: how many records agree with an observation; `reduce` of nothing is a
`TypeError` -/
def matchCount (fr : Frame V S) (obs : Obs V S) : Py Nat :=
  if obs.isEmpty then .error .typeError
  else if ∀ p ∈ obs, p.1 ∈ fr.cols then .ok (fr.rows.countP fun r => obs.all fun p => Rec.eqAt r p.1 p.2)
  else .error .keyError

/-- `expectation_maximization.py:50-52` `_get_obs_counts` -/
def obsCounts (g : DiGraph V) (fr : Frame V S) (target : V) : Py (List (Obs V S × Nat)) :=
  (obsBlanket g fr target).mapM fun obs => do
    let c ← matchCount fr obs
    return (obs, c)

end
end Verif
