import Verif.Factor.Basic

/-!
# The elimination loop (`inference/probabilistic/elimination.py:54-80`)

Factors have no `__eq__`, so `f not in relevant` compares identities and removes exactly the
relevant ones.
-/

set_option linter.unusedSectionVars false
set_option linter.unusedSimpArgs false

namespace Verif
namespace Elim

variable {V S K : Type} [DecidableEq V] [DecidableEq S] [Field K] [LinearOrder K] {I : StoreImpl V S (Fl K)}

/-- `inference/probabilistic/elimination.py:61-74`: one turn of the loop.  `reduce` of an empty list is a `TypeError`
(`combineAll`). -/
def elimStep (fs : List (Factor I)) (x : V) : Py (List (Factor I)) := do
  let relevant := fs.filter fun f => x ∈ f.vars
  let join ← Factor.combineAll relevant
  let fnew ← join.marginalize [x]
  let rest := fs.filter fun f => x ∉ f.vars
  pure (if fnew.leftVars.length > 0 then rest ++ [fnew] else rest)

/-- `inference/probabilistic/elimination.py:60-74`: the loop -/
def eliminate (order : List V) (fs : List (Factor I)) : Py (List (Factor I)) := order.foldlM elimStep fs

end Elim
end Verif
