import Verif.Util.Misc
import Verif.Py.Names
import Verif.DomainUtils

/-!
# Making up domains, and the order of the cells of an array: `util/domainutils.py`, `util/arrayutils.py`
-/

set_option linter.unusedSectionVars false
set_option linter.unusedSimpArgs false

namespace Verif

/-- `str(n)` -/
def intStr : Int → List Char
  | .ofNat n => Nat.toDigits 10 n
  | .negSucc n => '-' :: Nat.toDigits 10 (n + 1)

/-- `domainutils.py:17-25` `create_domain`: the first line takes the first item, which an empty dictionary does not have.  The
names are strings (`v.lower()`, an argument here); they are the keys of a dictionary, so each of them is met once. -/
def createDomain {K : Type} (lower : List Char → List Char) (varsizes : List (List Char × Int)) (first : Int := 1) (strValues : Bool := true) :
    Py (List (List Char × List (PyVal K))) :=
  if varsizes.length = 0 then .error .indexError
  else .ok (varsizes.map fun p =>
    (p.1, (List.range p.2.toNat).map fun (k : Nat) => if strValues then .str (lower p.1 ++ intStr (first + k)) else .int (first + k)))

/-- Column-major position of a coordinate vector (numpy's order "F"). -/
def ravelF : List Nat → List Nat → Nat
  | n :: ns, c :: cs => c + n * ravelF ns cs
  | _, _ => 0

/-- `arrayutils.py:37-38` `change_shape_order`: the values fill an array in order "F", whose cells are then listed in order "C".
Shapes with the size -1, which numpy fills in, are left out. -/
def changeShapeOrder {X : Type} (values : List X) (shape : List Nat) : Py (List X) :=
  if values.length ≠ shape.prod then .error .valueError
  else (idxSpace shape).mapM fun c => match values[ravelF shape c]? with
    | some x => .ok x
    | none => .error .indexError

end Verif
