import Verif.Factor.Rep

/-!
# Python expressions over factors

`bcause/factors/mulitnomial.py` defines the operators `*`, `+`, `-`, `/` (lines 168-190) and `**` (lines
198-201), so that a user writes `((f * g) ** ["X"]) / h`.  Here such an expression is a tree, and `eval`
is what python does with it.  The operator `^` (maximum) is in `Verif/Props/Factors2.lean`.
-/

set_option linter.unusedSectionVars false
set_option linter.unusedSimpArgs false

namespace Verif

/-- The binary operators, `mulitnomial.py:168-190`. -/
inductive FOp | mul | add | sub | div
  deriving DecidableEq, Repr

/-- Expressions over the factors `f i`; `x` stands for a python `int` or `float`. -/
inductive FExpr (ι V S α : Type)
  /-- a factor -/
  | leaf (i : ι)
  /-- `l op r` -/
  | bin (op : FOp) (l r : FExpr ι V S α)
  /-- `e op x` -/
  | num (op : FOp) (e : FExpr ι V S α) (x : α)
  /-- `x op e` -/
  | numLeft (op : FOp) (x : α) (e : FExpr ι V S α)
  /-- `e op x` where `type(x)` is neither `int` nor `float`, such as `numpy.float64` or `bool` -/
  | other (op : FOp) (e : FExpr ι V S α) (x : α)
  /-- `e ** vs` -/
  | marg (e : FExpr ι V S α) (vs : List V)
  /-- `e.R(**obs)` -/
  | restr (e : FExpr ι V S α) (obs : Obs V S)

namespace FExpr
variable {ι V S K : Type} [DecidableEq V] [DecidableEq S] [Field K] [LinearOrder K] {I : StoreImpl V S (Fl K)}

/-- `mulitnomial.py:168-190`: the method behind the operator (`multiply` 83-89, `addition` 91-97,
`subtract` 99-104, `divide` 106-117). -/
def apply : FOp → Factor I → Factor I → Py (Factor I)
  | .mul => Factor.multiply
  | .add => Factor.addition
  | .sub => Factor.subtract
  | .div => Factor.divide

/-- The value of an expression.

* a number on the right is turned into a factor without variables (`_prepare_operand`, 78-81);
* a number on the left makes python call `__rmul__`, `__radd__`, `__rsub__` or `__rtruediv__` (171-190), which
  ask the *number* for `multiply`, `addition`, ...: `AttributeError`;
* a number of another type on the right is left as it is by `_prepare_operand`, and is asked for
  `store`: `AttributeError`;
* `**` is `marginalize` (198-201); `R` is `restrict` (`factor.py:40-41`).

The operands are evaluated before the operator, the left one first. -/
def eval (f : ι → Factor I) : FExpr ι V S (Fl K) → Py (Factor I)
  | leaf i => .ok (f i)
  | bin op l r => do
      let a ← eval f l
      let b ← eval f r
      apply op a b
  | num op e x => do
      let a ← eval f e
      let b ← a.prepareScalar x
      apply op a b
  | numLeft _ _ e => do
      let _ ← eval f e
      throw .attributeError
  | other _ e _ => do
      let _ ← eval f e
      throw .attributeError
  | marg e vs => do
      let a ← eval f e
      a.marginalize vs
  | restr e obs => do
      let a ← eval f e
      a.restrict obs

end FExpr

/-! ### Helper lemmas -/

namespace Factor
variable {V S K : Type} [DecidableEq V] [DecidableEq S] [Field K] [LinearOrder K] {I : StoreImpl V S (Fl K)}
variable {D : V → List S} {f g : Factor I} {φ ψ : (V → S) → K}

theorem dom_union_states {d1 d2 : Dom V S} (h1 : ∀ p ∈ d1, p.2 = D p.1) (h2 : ∀ p ∈ d2, p.2 = D p.1) :
    ∀ p ∈ domUnion d1 d2, p.2 = D p.1 := by
  intro p hp
  rcases mem_domUnion.1 hp with hp | hp
  · exact h1 p hp
  · exact h2 p hp.1

variable (hI : I.Lawful)
include hI

/-- A binary operation on represented factors. -/
theorem Rep.combine (op : Fl K → Fl K → Fl K) (o : K → K → K) (ho : ∀ x y, op (.fin x) (.fin y) = .fin (o x y))
    (hf : Rep D f φ) (hg : Rep D g ψ) :
    ∃ r, Factor.combine op f g = .ok r ∧ Rep D r (fun a => o (φ a) (ψ a)) ∧
      r.vars = f.vars ++ g.vars.filter (fun v => v ∉ f.vars) ∧
      ∀ v, v ∈ r.leftVars ↔ v ∈ f.leftVars ∨ v ∈ g.leftVars := by
  obtain ⟨r, h1, h2, h3, h4, h5⟩ := combine_ok hI op hf.wf hg.wf (hf.compat hg)
  have hv : ∀ v, v ∈ r.vars ↔ v ∈ f.vars ∨ v ∈ g.vars := by
    intro v; rw [vars, h3]; exact mem_keys_domUnion
  have hd : ∀ p ∈ r.dom, p.2 = D p.1 := by rw [h3]; exact dom_union_states hf.dom hg.dom
  refine ⟨r, h1, ⟨h2, hd, fun a ha => ?_⟩, ?_, fun v => ?_⟩
  · rw [h5 a (inDom_of_states hd ha), hf.sem a fun v hv' => ha v ((hv v).2 (.inl hv')),
      hg.sem a fun v hv' => ha v ((hv v).2 (.inr hv')), ho]
  · rw [vars, h3, keys_domUnion]; rfl
  · rw [mem_leftVars hI, h4]
    simp only [List.mem_filter, decide_eq_true_eq]
    have a1 : v ∈ f.leftVars → v ∈ f.vars := fun h => ((mem_leftVars hI).1 h).1
    have a2 : v ∈ g.leftVars → v ∈ g.vars := fun h => ((mem_leftVars hI).1 h).1
    rw [hv]
    tauto

/-- Division by a factor without zeros. -/
theorem Rep.divide (hf : Rep D f φ) (hg : Rep D g ψ) (hz : ∀ a, (∀ v ∈ g.vars, a v ∈ D v) → ψ a ≠ 0) :
    ∃ r, f.divide g = .ok r ∧ Rep D r (fun a => φ a / ψ a) ∧
      r.vars = f.vars ++ g.vars.filter (fun v => v ∉ f.vars) ∧
      ∀ v, v ∈ r.leftVars ↔ v ∈ f.leftVars ∧ v ∉ g.vars := by
  obtain ⟨r, h1, h2, h3, h4, h5⟩ :=
    divideG_ok hI (fun x y => I.divWrap Fl.nanToNum (x / y)) hf.wf hg.wf (hf.compat hg)
  have hv : ∀ v, v ∈ r.vars ↔ v ∈ f.vars ∨ v ∈ g.vars := by
    intro v; rw [vars, h3]; exact mem_keys_domUnion
  have hd : ∀ p ∈ r.dom, p.2 = D p.1 := by rw [h3]; exact dom_union_states hf.dom hg.dom
  refine ⟨r, h1, ⟨h2, hd, fun a ha => ?_⟩, ?_, fun v => ?_⟩
  · have ha1 : ∀ v ∈ f.vars, a v ∈ D v := fun v hv' => ha v ((hv v).2 (.inl hv'))
    have ha2 : ∀ v ∈ g.vars, a v ∈ D v := fun v hv' => ha v ((hv v).2 (.inr hv'))
    rw [h5 a (inDom_of_states hd ha), hf.sem a ha1, hg.sem a ha2, Fl.fin_div (hz a ha2)]
    rcases hI.divWrap_or with h | h <;> rw [h] <;> rfl
  · rw [vars, h3, keys_domUnion]; rfl
  · rw [mem_leftVars hI, h4, mem_leftVars hI]
    simp only [List.mem_filter, decide_eq_true_eq]
    rw [hv]
    tauto

theorem Rep.scalar [Nonempty S] (f : Factor I) (x : K) :
    ∃ g, f.prepareScalar (.fin x) = .ok g ∧ Rep D g (fun _ => x) ∧ g.vars = [] ∧ g.leftVars = [] := by
  obtain ⟨g, h1, h2, h3, _, h5⟩ := prepareScalar_ok hI f (Fl.fin x)
  have hv : g.vars = [] := by rw [vars, h3]; rfl
  exact ⟨g, h1, ⟨h2, by rw [h3]; simp, fun a _ => h5 a⟩, hv, by rw [leftVars, hv]; rfl⟩

end Factor
end Verif
