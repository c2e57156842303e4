import Verif.Inference.VELemmas

/-!
# Joint probabilities (`models/pgmodel.py:107-108`) and forward sampling (`models/sampling.py`,
`factors/mulitnomial.py:134-165`)
-/

set_option linter.unusedSectionVars false
set_option linter.unusedSimpArgs false

namespace Verif

variable {V S K : Type} [DecidableEq V] [DecidableEq S] [Field K] [LinearOrder K] {I : StoreImpl V S (Fl K)}

namespace Factor

/-- `mulitnomial.py:134-135` `prob` -/
def prob (f : Factor I) (obs : List (Obs V S)) : Py (List (Fl K)) := obs.mapM f.getValue

end Factor

/-- The factor as a multinomial one; `None` and deterministic factors do not have the method that is
asked for. -/
def needMulti {F : Type} [VEFactor F I] : Option F → Py (Factor I)
  | some f => match (VEFactor.view f : Option (Factor I)) with
    | some g => .ok g
    | none => .error .attributeError
  | none => .error .attributeError

/-- The factor whose method `sample` or `sample_conditional` is called without `varnames`: those of deterministic factors
(`deterministic.py:82-86`) need this argument. -/
def needSample {F : Type} [VEFactor F I] : Option F → Py (Factor I)
  | some f => match (VEFactor.view f : Option (Factor I)) with
    | some g => .ok g
    | none => .error .typeError
  | none => .error .attributeError

/-- `pgmodel.py:107-108` `prob`: the products over the factors, record by record -/
def DagModel.prob {F : Type} [VEFactor F I] (m : DagModel F V S) (obs : List (Obs V S)) : Py (List (Fl K)) := do
  let rows ← m.factors.mapM fun p => do
    let f ← needMulti p.2
    f.prob obs
  return (List.range obs.length).map fun i => (rows.map fun r => r.getD i 1).foldl (· * ·) 1

/-! ### Random choice -/

/-- Cumulative sums. -/
def cumSums : K → List K → List K
  | _, [] => []
  | acc, x :: xs => (acc + x) :: cumSums (acc + x) xs

/-- All values, when they are finite. -/
def finVals : List (Fl K) → Option (List K)
  | [] => some []
  | .fin x :: l => (finVals l).map (x :: ·)
  | _ :: _ => none

/-- `np.random.choice(list(range(k)), p=p)` where `u`, in `[0, 1)`, is what the generator gives:
probabilities that are negative, not finite or do not sum to one are refused with a `ValueError`;
otherwise the result is the first position whose cumulative sum exceeds `u` (`searchsorted` on the
right side).  numpy compares the sum with one up to a tolerance; without rounding it is exact. -/
def choice (p : List (Fl K)) (u : K) : Py Nat :=
  match finVals p with
  | none => .error .valueError
  | some ps =>
    if ps.any (· < 0) ∨ ps.sum ≠ 1 then .error .valueError
    else .ok ((cumSums 0 ps).findIdx (u < ·))

namespace Factor

/-- `mulitnomial.py:153-164` `_sample` with variable names; `u` is the uniform draw -/
def sampleOnce (f : Factor I) (u : K) : Py (Obs V S) :=
  if f.rightVars.length = 0 then do
    let observations := assignmentSpace f.leftDomain
    let probs ← observations.mapM f.getValue
    let idx ← choice (probs.map (· / probs.sum)) u
    match observations[idx]? with
    | some o => .ok o
    | none => .error .indexError
  else .error .notImplemented

/-- `mulitnomial.py:140-143` `sample`; `u i` is the draw for the `i`-th sample -/
def sample (f : Factor I) (size : Nat) (u : Nat → K) : Py (List (Obs V S)) :=
  if size < 1 then .error .valueError else (List.range size).mapM fun i => f.sampleOnce (u i)

/-- `mulitnomial.py:145-150` `sample_conditional`.  The dictionary of restricted factors, with one
entry for each different observation, only avoids repeating the restriction. -/
def sampleConditional (f : Factor I) (observations : List (Obs V S)) (u : Nat → K) : Py (List (Obs V S)) :=
  if observations.length < 1 then .error .valueError else do
    let factors ← observations.mapM f.restrict
    factors.zipIdx.mapM fun p => p.1.sampleOnce (u p.2)

end Factor

/-- `pd.concat([data, new], axis=1)` for records; `pd.DataFrame()` has none. -/
def concatCols (data new : List (Obs V S)) : List (Obs V S) :=
  if data = [] then new else List.zipWith (· ++ ·) data new

/-- One node of `sampling.py:13-16` -/
def sampleNode {F : Type} [VEFactor F I] (m : DagModel F V S) (n : Nat) (u : V → Nat → K) (data : List (Obs V S)) (v : V) :
    Py (List (Obs V S)) := do
  let pa ← m.getParents [v]
  let o ← Dict.get m.factors v
  let f ← needSample o
  let new ← if pa.length = 0 then f.sample n (u v) else f.sampleConditional data (u v)
  return concatCols data new

/-- `models/sampling.py:11-17` `forward_sampling`. `order` is the result of
`nx.topological_sort(model.graph)`, `u v i` the draw for node `v` in record `i`. -/
def forwardSampling {F : Type} [VEFactor F I] (m : DagModel F V S) (order : List V) (n : Nat) (u : V → Nat → K) :
    Py (List (Obs V S)) :=
  order.foldlM (sampleNode m n u) []

end Verif
