import Mathlib.Algebra.Order.Field.Basic
import Mathlib.Algebra.BigOperators.Group.List.Basic

/-!
# Floating point values without rounding

Finite values are elements of an ordered field; `nan` and the infinities follow IEEE 754
as numpy implements them.  Signed zeros are not modelled (`x / 0` takes the sign of `x`),
and nothing overflows.
-/

set_option linter.unusedSectionVars false
set_option linter.unusedSimpArgs false

namespace Verif

/-- A numpy float: finite, `nan`, `inf` or `-inf`. -/
inductive Fl (K : Type) | fin (x : K) | nan | pinf | ninf
  deriving DecidableEq, Repr

namespace Fl

variable {K : Type} [Field K] [LinearOrder K]

instance : Inhabited (Fl K) := ⟨.fin 0⟩
instance : Zero (Fl K) := ⟨.fin 0⟩
instance : One (Fl K) := ⟨.fin 1⟩

/-- `x + y` -/
def add : Fl K → Fl K → Fl K
  | .fin x, .fin y => .fin (x + y)
  | .nan, _ => .nan
  | _, .nan => .nan
  | .pinf, .ninf => .nan
  | .ninf, .pinf => .nan
  | .pinf, _ => .pinf
  | _, .pinf => .pinf
  | .ninf, _ => .ninf
  | _, .ninf => .ninf

/-- `-x` -/
def neg : Fl K → Fl K
  | .fin x => .fin (-x)
  | .nan => .nan
  | .pinf => .ninf
  | .ninf => .pinf

/-- `inf` with the sign of `x`; `nan` when `x = 0` -/
def infSign (x : K) : Fl K := if x = 0 then .nan else if 0 < x then .pinf else .ninf

/-- `x * y` -/
def mul : Fl K → Fl K → Fl K
  | .fin x, .fin y => .fin (x * y)
  | .nan, _ => .nan
  | _, .nan => .nan
  | .fin x, .pinf => infSign x
  | .fin x, .ninf => infSign (-x)
  | .pinf, .fin y => infSign y
  | .ninf, .fin y => infSign (-y)
  | .pinf, .pinf => .pinf
  | .pinf, .ninf => .ninf
  | .ninf, .pinf => .ninf
  | .ninf, .ninf => .pinf

/-- numpy `x / y` (a warning, no exception, for a zero divisor) -/
def div : Fl K → Fl K → Fl K
  | .fin x, .fin y => if y = 0 then infSign x else .fin (x / y)
  | .nan, _ => .nan
  | _, .nan => .nan
  | .fin _, .pinf => .fin 0
  | .fin _, .ninf => .fin 0
  | .pinf, .fin y => if 0 ≤ y then .pinf else .ninf
  | .ninf, .fin y => if 0 ≤ y then .ninf else .pinf
  | .pinf, _ => .nan
  | .ninf, _ => .nan

instance : Add (Fl K) := ⟨add⟩
instance : Neg (Fl K) := ⟨neg⟩
instance : Sub (Fl K) := ⟨fun x y => x + -y⟩
instance : Mul (Fl K) := ⟨mul⟩
instance : Div (Fl K) := ⟨div⟩

/-- Largest double, used by `np.nan_to_num` for infinities. -/
def maxFloat : K := 2 ^ 1024 - 2 ^ 971

/-- `np.nan_to_num(x)` -/
def nanToNum : Fl K → Fl K
  | .fin x => .fin x
  | .nan => .fin 0
  | .pinf => .fin maxFloat
  | .ninf => .fin (-maxFloat)

@[simp] theorem fin_add (x y : K) : (.fin x + .fin y : Fl K) = .fin (x + y) := rfl
@[simp] theorem fin_mul (x y : K) : (.fin x * .fin y : Fl K) = .fin (x * y) := rfl
@[simp] theorem fin_sub (x y : K) : (.fin x - .fin y : Fl K) = .fin (x - y) := by
  rw [sub_eq_add_neg]; rfl
theorem fin_div {x y : K} (h : y ≠ 0) : (.fin x / .fin y : Fl K) = .fin (x / y) := by
  show div _ _ = _
  simp [div, h]
theorem zero_div_zero : (.fin 0 / .fin 0 : Fl K) = .nan := by
  show div _ _ = _
  simp [div, infSign]
theorem fin_zero : (.fin 0 : Fl K) = 0 := rfl
theorem fin_one : (.fin 1 : Fl K) = 1 := rfl

theorem add_comm' (a b : Fl K) : a + b = b + a := by
  show add a b = add b a
  cases a <;> cases b <;> simp [add, add_comm]

theorem add_assoc' (a b c : Fl K) : a + b + c = a + (b + c) := by
  show add (add a b) c = add a (add b c)
  cases a <;> cases b <;> cases c <;> simp [add, add_assoc]

theorem zero_add' (a : Fl K) : 0 + a = a := by
  show add (.fin 0) a = a
  cases a <;> simp [add]

instance : AddCommMonoid (Fl K) where
  add_assoc := add_assoc'
  zero_add := zero_add'
  add_zero a := by rw [add_comm', zero_add']
  add_comm := add_comm'
  nsmul := nsmulRec

theorem mul_comm' (a b : Fl K) : a * b = b * a := by
  show mul a b = mul b a
  cases a <;> cases b <;> simp [mul, mul_comm]

/-- Injection of the finite values as a morphism of additive monoids. -/
def finHom : K →+ Fl K where
  toFun := .fin
  map_zero' := rfl
  map_add' _ _ := rfl

theorem sum_fin (l : List K) : (l.map Fl.fin).sum = .fin l.sum :=
  (map_list_sum (finHom (K := K)) l).symm

theorem sum_fin' {ι : Type} (l : List ι) (f : ι → K) : (l.map fun i => Fl.fin (f i)).sum = .fin (l.map f).sum := by
  rw [← sum_fin, List.map_map]; rfl

end Fl
end Verif
