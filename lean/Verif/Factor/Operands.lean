import Verif.Factor.Operators
import Verif.Factor.Deterministic
import Verif.Factor.Interval

/-!
# Operators between factors of different kinds

`MultinomialFactor` (`mulitnomial.py:168-201`) and `IntervalProbFactor` (`imprecise.py:153-186`) define the python operators,
`DeterministicFactor` does not.  Here is what python does with an operator between any two of them, or one of them and a
number.  The operands are kept in stores of the same kind (otherwise `_generic_combine` raises, `numpyops.py:34-35`), and
variables that they share have the same states.
-/

set_option linter.unusedSectionVars false
set_option linter.unusedSimpArgs false

namespace Verif

variable {V S K : Type} [DecidableEq V] [DecidableEq S] [Field K] [LinearOrder K]

/-- What may stand on a side of an operator: a `MultinomialFactor`, a `DeterministicFactor`, an `IntervalProbFactor`, or a
python `int` or `float`. -/
inductive Operand (I : StoreImpl V S (Fl K)) (L : LabelStore V S)
  | table (f : Factor I)
  | eqn (g : DetFactor L)
  | interval (h : IFactor I)
  | num (x : Fl K)

/-- The argument of `**`: a name, or a list of names (`mulitnomial.py:199`, `isinstance(vars_remove, str)`). -/
inductive VarsArg (V : Type)
  | name (v : V)
  | names (vs : List V)

/-- `mulitnomial.py:199-201` -/
def VarsArg.toList : VarsArg V → List V
  | .name v => [v]
  | .names vs => vs

variable {I : StoreImpl V S (Fl K)} {L : LabelStore V S}

/-- A state in a place where a number is expected -/
def labelNum (label : S → Option K) (s : S) : Py (Fl K) :=
  match label s with
  | some x => .ok (.fin x)
  | none => .error .typeError

/-- The store of an equation as an operand of arithmetic: its cells are the states of the left variable
(`deterministic.py:33`), over the variables on the right.  `label s` is the number that the state `s` is, if it is one;
arithmetic on other states is a `TypeError` (`float * str`, or numpy's `UFuncTypeError`).  The result is a factor only in
order to use the operations of the stores. -/
def DetFactor.asNumbers (label : S → Option K) (I : StoreImpl V S (Fl K)) (g : DetFactor L) : Py (Factor I) := do
  let vals ← (assignmentSpace g.rightDomain).mapM fun obs => do
    let y ← g.getValue obs
    labelNum label y
  let st ← I.ofFlat g.rightDomain vals
  return ⟨st, Dict.keys g.rightDomain⟩

/-- `mulitnomial.py:83-117` with an equation as `other`: `_prepare_operand` leaves it as it is, the stores are combined, and
the variables on the right are those that are on the left of neither (of a quotient: those on the right of the table, and
all variables of the equation). -/
def Factor.withEqn (label : S → Option K) (op : FOp) (f : Factor I) (g : DetFactor L) : Py (Factor I) := do
  let n ← g.asNumbers label I
  let r ← FExpr.apply op f n
  return ⟨r.store, r.vars.filter fun v =>
    if op = .div then v ∈ f.rightVars ∨ v ∈ g.vars else v ∉ f.leftVars ∧ v ∉ g.leftVars⟩

/-- Two python numbers -/
def numOp : FOp → Fl K → Fl K → Py (Fl K)
  | .mul, x, y => .ok (x * y)
  | .add, x, y => .ok (x + y)
  | .sub, x, y => .ok (x - y)
  | .div, x, y => if y = .fin 0 then .error .zeroDivision else .ok (x / y)

/-- `x op y`.  Python asks the class of `x` for the operator; if it has none (equations and, for these operands, numbers), it
asks the class of `y` for the reflected one.

* a table on the left: `mulitnomial.py:83-117`; with an interval factor the result would have the variable `_bound`, which
  the constructor refuses (`factor.py:79-80`);
* an interval factor on the left: `NotImplementedError` (`imprecise.py:105-119`);
* an equation on the left of a table or an interval factor: `__rmul__` etc. call `multiply` etc. of the *equation*, which
  raise `NotImplementedError` (`deterministic.py:98-108`); on the left of an equation or a number: `TypeError`;
* a number on the left of a table or an interval factor: `__rmul__` etc. ask the number for `multiply` etc.:
  `AttributeError`; on the left of an equation: `TypeError`. -/
def Operand.binop (label : S → Option K) (op : FOp) : Operand I L → Operand I L → Py (Operand I L)
  | .table f, .table g => do
      let r ← FExpr.apply op f g
      return .table r
  | .table f, .num x => do
      let b ← f.prepareScalar x
      let r ← FExpr.apply op f b
      return .table r
  | .table f, .eqn g => do
      let r ← f.withEqn label op g
      return .table r
  | .table _, .interval _ => .error .valueError
  | .interval _, _ => .error .notImplemented
  | .eqn _, .table _ => .error .notImplemented
  | .eqn _, .interval _ => .error .notImplemented
  | .eqn _, .eqn _ => .error .typeError
  | .eqn _, .num _ => .error .typeError
  | .num _, .eqn _ => .error .typeError
  | .num _, .table _ => .error .attributeError
  | .num _, .interval _ => .error .attributeError
  | .num x, .num y => do
      let z ← numOp op x y
      return .num z

/-- `x ** vs`: `mulitnomial.py:198-201`, `imprecise.py:183-186` with 126-127; equations have no `__pow__`, nor have names and
lists an `__rpow__`. -/
def Operand.pow : Operand I L → VarsArg V → Py (Operand I L)
  | .table f, vs => do
      let r ← f.marginalize vs.toList
      return .table r
  | .interval _, _ => .error .notImplemented
  | .eqn _, _ => .error .typeError
  | .num _, _ => .error .typeError

/-- `factor.py:67-69` `combine_all`: `reduce` with `*`. -/
def Operand.combineAll (label : S → Option K) : List (Operand I L) → Py (Operand I L)
  | [] => .error .typeError
  | x :: xs => xs.foldlM (Operand.binop label .mul) x

end Verif
