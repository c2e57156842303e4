import Verif.Factor.Operators
import Verif.Props.Factors
import Mathlib.Tactic.Ring

/-!
# C79: arithmetic expressions over factors compute what they say

An expression built from factors with `*`, `+`, `-`, `/`, numbers on the right, `**` and `R` evaluates to a
factor whose cells are the same arithmetic on the cells of the factors.  A number on the *left*, and a
number on the right that is not exactly an `int` or a `float`, raise `AttributeError`.
-/

set_option linter.unusedSectionVars false
set_option linter.unusedSimpArgs false

namespace Verif
namespace FExpr

/-! ### Specification -/

section Spec
variable {ι V S K : Type} [DecidableEq V] [Field K]

/-- The variables of an expression in terms of those of its factors. -/
def scope (sc : ι → List V) : FExpr ι V S (Fl K) → List V
  | leaf i => sc i
  | bin _ l r => scope sc l ++ (scope sc r).filter fun v => v ∉ scope sc l
  | num _ e _ | numLeft _ _ e | other _ e _ => scope sc e
  | marg e vs => (scope sc e).filter fun v => v ∉ vs
  | restr e obs => (scope sc e).filter fun v => v ∉ Dict.keys obs

/-- The variables on the left of the bar: those of a quotient are no longer conditioned on. -/
def left (sc lf : ι → List V) : FExpr ι V S (Fl K) → V → Prop
  | leaf i => fun v => v ∈ lf i
  | bin .div l r => fun v => left sc lf l v ∧ v ∉ scope sc r
  | bin _ l r => fun v => left sc lf l v ∨ left sc lf r v
  | num _ e _ | numLeft _ _ e | other _ e _ => left sc lf e
  | marg e vs => fun v => left sc lf e v ∧ v ∉ vs
  | restr e obs => fun v => left sc lf e v ∧ v ∉ Dict.keys obs

/-- The operation of an operator. -/
def FOpVal : FOp → K → K → K
  | .mul => (· * ·)
  | .add => (· + ·)
  | .sub => (· - ·)
  | .div => (· / ·)

/-- The number a python number stands for. -/
def toK : Fl K → K
  | .fin x => x
  | _ => 0

/-- The number denoted by an expression for the joint states `a`: the same arithmetic on the numbers
`t i a` of the factors. -/
def den (D : V → List S) (sc : ι → List V) (t : ι → (V → S) → K) : FExpr ι V S (Fl K) → (V → S) → K
  | leaf i => t i
  | bin op l r => fun a => FOpVal op (den D sc t l a) (den D sc t r a)
  | num op e x => fun a => FOpVal op (den D sc t e a) (toK x)
  | numLeft op x e => fun a => FOpVal op (toK x) (den D sc t e a)
  | other op e x => fun a => FOpVal op (den D sc t e a) (toK x)
  | marg e vs => sumOver D (vs.filter fun v => v ∈ scope sc e) (den D sc t e)
  | restr e obs => fun a => den D sc t e (over obs a)

/-- The expressions python can evaluate: numbers are finite, of type `int` or `float` and on the right,
divisors have no zeros, the variables of `**` are distinct and are all, or none, in the expression, and
`R` is given states of the variables. -/
def Ok (D : V → List S) (sc : ι → List V) (t : ι → (V → S) → K) : FExpr ι V S (Fl K) → Prop
  | leaf _ => True
  | bin op l r => Ok D sc t l ∧ Ok D sc t r ∧
      (op = .div → ∀ a, (∀ v ∈ scope sc r, a v ∈ D v) → den D sc t r a ≠ 0)
  | num op e x => Ok D sc t e ∧ (∃ y, x = .fin y ∧ (op = .div → y ≠ 0))
  | numLeft _ _ _ | other _ _ _ => False
  | marg e vs => Ok D sc t e ∧ vs.Nodup ∧ ((∀ v ∈ vs, v ∈ scope sc e) ∨ ∀ v ∈ vs, v ∉ scope sc e)
  | restr e obs => Ok D sc t e ∧ ∀ v ∈ scope sc e, ∀ s, Dict.get? obs v = some s → s ∈ D v

end Spec

/-! ### Proof -/

section
variable {ι V S K : Type} [DecidableEq V] [DecidableEq S] [Nonempty S] [Field K] [LinearOrder K]
variable {I : StoreImpl V S (Fl K)} {D : V → List S} {sc : ι → List V} {t : ι → (V → S) → K} {f : ι → Factor I}

theorem apply_rep (hI : I.Lawful) (op : FOp) {g h : Factor I} {φ ψ : (V → S) → K} (hg : Factor.Rep D g φ)
    (hh : Factor.Rep D h ψ) (hz : op = .div → ∀ a, (∀ v ∈ h.vars, a v ∈ D v) → ψ a ≠ 0) :
    ∃ r, apply op g h = .ok r ∧ Factor.Rep D r (fun a => FOpVal op (φ a) (ψ a)) ∧
      r.vars = g.vars ++ h.vars.filter (fun v => v ∉ g.vars) ∧
      ∀ v, v ∈ r.leftVars ↔
        if op = .div then v ∈ g.leftVars ∧ v ∉ h.vars else v ∈ g.leftVars ∨ v ∈ h.leftVars := by
  cases op with
  | mul => simpa [apply, FOpVal, Factor.multiply] using Factor.Rep.combine hI _ (· * ·) (fun x y => rfl) hg hh
  | add => simpa [apply, FOpVal, Factor.addition] using Factor.Rep.combine hI _ (· + ·) (fun x y => rfl) hg hh
  | sub => simpa [apply, FOpVal, Factor.subtract] using Factor.Rep.combine hI _ (· - ·) (fun x y => Fl.fin_sub x y) hg hh
  | div => simpa [apply, FOpVal] using Factor.Rep.divide hI hg hh (hz rfl)

theorem eval_rep (hI : I.Lawful) (hf : ∀ i, Factor.Rep D (f i) (t i)) (hs : ∀ i, (f i).vars = sc i) :
    ∀ e : FExpr ι V S (Fl K), Ok D sc t e →
      ∃ r, eval f e = .ok r ∧ Factor.Rep D r (den D sc t e) ∧ r.vars = scope sc e ∧
        ∀ v, v ∈ r.leftVars ↔ left sc (fun i => (f i).leftVars) e v := by
  intro e
  induction e with
  | leaf i => intro _; exact ⟨f i, rfl, hf i, hs i, fun v => Iff.rfl⟩
  | bin op l r ihl ihr =>
    rintro ⟨h1, h2, h3⟩
    obtain ⟨gl, a1, a2, a3, a4⟩ := ihl h1
    obtain ⟨gr, b1, b2, b3, b4⟩ := ihr h2
    obtain ⟨g, c1, c2, c3, c4⟩ := apply_rep hI op a2 b2 (by rw [b3]; exact h3)
    refine ⟨g, by simp only [eval, a1, b1, py_ok_bind, c1], c2, by rw [c3, a3, b3]; rfl, fun v => ?_⟩
    rw [c4, a4, b4, b3]
    cases op <;> simp [left]
  | num op e x ih =>
    rintro ⟨h1, y, rfl, hy⟩
    obtain ⟨g, a1, a2, a3, a4⟩ := ih h1
    obtain ⟨n, b1, b2, b3, b4⟩ := Factor.Rep.scalar (D := D) hI g y
    obtain ⟨r, c1, c2, c3, c4⟩ := apply_rep hI op a2 b2 (fun h a _ => hy h)
    refine ⟨r, by simp only [eval, a1, b1, py_ok_bind, c1], c2, by rw [c3, b3, a3]; simp [scope], fun v => ?_⟩
    rw [c4, b3, b4, a4]
    simp [left]
  | numLeft op x e ih => exact False.elim
  | other op e x ih => exact False.elim
  | marg e vs ih =>
    rintro ⟨h1, h2, h3⟩
    obtain ⟨g, a1, a2, a3, a4⟩ := ih h1
    rcases h3 with h3 | h3
    · obtain ⟨r, b1, b2, b3, b4, b5⟩ := a2.marginalize hI (xs := vs) (by rw [a3]; exact h3) h2
      refine ⟨r, by simp only [eval, a1, py_ok_bind, b1], ?_, ?_, fun v => by rw [b5, a4]; rfl⟩
      · have : (vs.filter fun v => v ∈ scope sc e) = vs := List.filter_eq_self.2 fun v hv => by simpa using h3 v hv
        rw [den, this]; exact b2
      · rw [Factor.vars, b3, keys_domOut, scope, ← a3]; rfl
    · have hno : ∀ v ∈ vs, v ∉ g.vars := by rw [a3]; exact h3
      refine ⟨g, by simp only [eval, a1, py_ok_bind]; exact Factor.marginalize_none (hI := hI) hno, ?_, ?_, fun v => ?_⟩
      · have : (vs.filter fun v => v ∈ scope sc e) = [] := List.filter_eq_nil_iff.2 fun v hv => by simpa using h3 v hv
        rw [den, this]; exact a2
      · rw [a3, scope, eq_comm, List.filter_eq_self]
        intro v hv
        simpa using fun hv' => h3 v hv' hv
      · rw [a4, left]
        refine ⟨fun h => ⟨h, fun hv => hno v hv ?_⟩, fun h => h.1⟩
        exact ((Factor.mem_leftVars hI).1 ((a4 v).2 h)).1
  | restr e obs ih =>
    rintro ⟨h1, h2⟩
    obtain ⟨g, a1, a2, a3, a4⟩ := ih h1
    have hoo : ObsOk g.dom obs := by
      intro p hp s hs'
      rw [a2.dom p hp]; exact h2 _ (by rw [← a3]; exact Dict.mem_keys_of_mem hp) s hs'
    obtain ⟨r, b1, b2, b3, b4⟩ := a2.restrict hI (obs := obs) (by rw [a3]; exact h2)
    refine ⟨r, by simp only [eval, a1, py_ok_bind, b1], b2, ?_, fun v => by rw [b4, a4]; rfl⟩
    obtain ⟨r', c1, _, c3, _⟩ := Factor.restrict_ok hI a2.wf hoo
    rw [b1] at c1; cases c1
    rw [Factor.vars, c3, Dict.keys_filter_key g.dom (fun v => v ∉ Dict.keys obs), scope, ← a3]; rfl

/-- A factor whose cells are read as `φ`. -/
theorem rep_of_reads (hI : I.Lawful) {g : Factor I} {φ : (V → S) → K} (hw : g.WF) (hd : ∀ p ∈ g.dom, p.2 = D p.1)
    (h : ∀ obs a, InDom g.dom a → Covers g.dom obs a → g.getValue obs = .ok (.fin (φ a))) : Factor.Rep D g φ := by
  refine ⟨hw, hd, fun a ha => ?_⟩
  have hi := Factor.inDom_of_states hd ha
  have hc : Covers g.dom (g.dom.map fun p => (p.1, a p.1)) a := by
    intro v hv
    obtain ⟨st, hst⟩ := Dict.mem_keys.1 hv
    refine Dict.get?_of_mem ?_ (List.mem_map.2 ⟨(v, st), hst, rfl⟩)
    have := (hw.domOk hI).keys
    simpa [Dict.keys, Function.comp_def] using this
  have h1 := h _ a hi hc
  rw [Factor.getValue_ok hI hw hi hc] at h1
  exact Except.ok.inj h1

end
end FExpr

namespace Props
open FExpr

variable {ι V S K : Type} [DecidableEq V] [DecidableEq S] [Nonempty S] [Field K] [LinearOrder K]

/-- The factors of an expression: `f i` is well formed over the variables `sc i` with states `D`, and the cell
of the joint states `a` reads `t i a`. -/
structure FEnv (vt : VType) (D : V → List S) (sc : ι → List V) (t : ι → (V → S) → K)
    (f : ι → Factor (storeOf vt : StoreImpl V S (Fl K))) : Prop where
  wf : ∀ i, (f i).WF
  vars : ∀ i, (f i).vars = sc i
  dom : ∀ i, ∀ p ∈ (f i).dom, p.2 = D p.1
  cells : ∀ i obs a, InDom (f i).dom a → Covers (f i).dom obs a → (f i).getValue obs = .ok (.fin (t i a))

/-- **C79** Every expression that python can evaluate gives a factor over the variables of the expression,
in order of appearance, whose cells are the arithmetic of the expression on the cells of its factors; the
variables on the left of its bar are those the expression says.  In every store.

The full statement would allow numbers on the left and numbers of every type; `Ok` excludes them because
the code refuses them (`C79_refused`). -/
theorem C79_expressions_partial (vt : VType) {D : V → List S} {sc : ι → List V} {t : ι → (V → S) → K}
    {f : ι → Factor (storeOf vt : StoreImpl V S (Fl K))} (hf : FEnv vt D sc t f) (e : FExpr ι V S (Fl K))
    (he : Ok D sc t e) :
    ∃ r, eval f e = .ok r ∧ r.WF ∧ r.vars = scope sc e ∧ (∀ p ∈ r.dom, p.2 = D p.1) ∧
      (∀ v, v ∈ r.leftVars ↔ left sc (fun i => (f i).leftVars) e v) ∧
      ∀ obs (a : V → S), (∀ v ∈ scope sc e, a v ∈ D v ∧ Dict.get? obs v = some (a v)) →
        r.getValue obs = .ok (.fin (den D sc t e a)) := by
  have hI := storeOf_lawful (V := V) (S := S) (α := Fl K) vt
  obtain ⟨r, h1, h2, h3, h4⟩ := eval_rep hI
    (fun i => rep_of_reads hI (hf.wf i) (hf.dom i) (hf.cells i)) hf.vars e he
  refine ⟨r, h1, h2.wf, h3, h2.dom, h4, fun obs a ha => ?_⟩
  have hst : ∀ v ∈ r.vars, a v ∈ D v := fun v hv => (ha v (by rwa [← h3])).1
  rw [Factor.getValue_ok hI h2.wf (Factor.inDom_of_states h2.dom hst) fun v hv =>
    (ha v (by rw [← h3]; exact hv)).2, h2.sem a hst]

/-- Two expressions over the same variables, the same number for every joint states: the two
factors cannot be told apart by reading them. -/
theorem C79_same_cells (vt : VType) {D : V → List S} {sc : ι → List V} {t : ι → (V → S) → K}
    {f : ι → Factor (storeOf vt : StoreImpl V S (Fl K))} (hf : FEnv vt D sc t f) (e e' : FExpr ι V S (Fl K))
    (he : Ok D sc t e) (he' : Ok D sc t e') (hs : ∀ v, v ∈ scope sc e ↔ v ∈ scope sc e')
    (h : ∀ a, (∀ v ∈ scope sc e, a v ∈ D v) → den D sc t e a = den D sc t e' a) :
    ∃ r r', eval f e = .ok r ∧ eval f e' = .ok r' ∧
      ∀ obs (a : V → S), (∀ v ∈ scope sc e, a v ∈ D v ∧ Dict.get? obs v = some (a v)) → r.getValue obs = r'.getValue obs := by
  obtain ⟨r, h1, _, _, _, _, h2⟩ := C79_expressions_partial vt hf e he
  obtain ⟨r', h1', _, _, _, _, h2'⟩ := C79_expressions_partial vt hf e' he'
  refine ⟨r, r', h1, h1', fun obs a ha => ?_⟩
  rw [h2 obs a ha, h2' obs a fun v hv => ha v ((hs v).2 hv), h a fun v hv => (ha v hv).1]

/-- **C79** The step of variable elimination: a factor without the variables that are summed may be taken out of
the sum, `(e * g) ** vs` reads as `(e ** vs) * g`. -/
theorem C79_take_out (vt : VType) {D : V → List S} {sc : ι → List V} {t : ι → (V → S) → K}
    {f : ι → Factor (storeOf vt : StoreImpl V S (Fl K))} (hf : FEnv vt D sc t f) (e g : FExpr ι V S (Fl K))
    (he : Ok D sc t e) (hg : Ok D sc t g) {vs : List V} (hn : vs.Nodup) (hve : ∀ v ∈ vs, v ∈ scope sc e)
    (hvg : ∀ v ∈ vs, v ∉ scope sc g) :
    ∃ r r', eval f (.marg (.bin .mul e g) vs) = .ok r ∧ eval f (.bin .mul (.marg e vs) g) = .ok r' ∧
      ∀ obs (a : V → S), (∀ v, v ∈ scope sc e ∨ v ∈ scope sc g → v ∉ vs → a v ∈ D v ∧ Dict.get? obs v = some (a v)) →
        r.getValue obs = r'.getValue obs := by
  have hI := storeOf_lawful (V := V) (S := S) (α := Fl K) vt
  have hmem : ∀ v, v ∈ scope sc (.bin .mul e g) ↔ v ∈ scope sc e ∨ v ∈ scope sc g := by
    intro v; simp only [scope, List.mem_append, List.mem_filter, decide_eq_true_eq]; tauto
  have hm1 : ∀ v, v ∈ scope sc (.marg (.bin .mul e g) vs) ↔ (v ∈ scope sc e ∨ v ∈ scope sc g) ∧ v ∉ vs := by
    intro v
    rw [scope, List.mem_filter, hmem]; simp
  have hm2 : ∀ v, v ∈ scope sc (.bin .mul (.marg e vs) g) ↔ (v ∈ scope sc e ∨ v ∈ scope sc g) ∧ v ∉ vs := by
    intro v
    have := hvg v
    simp only [scope, List.mem_append, List.mem_filter, decide_eq_true_eq]; tauto
  obtain ⟨rg, g1, g2, g3, _⟩ := eval_rep hI
    (fun i => rep_of_reads hI (hf.wf i) (hf.dom i) (hf.cells i)) hf.vars g hg
  have key : ∀ a : V → S, (∀ v ∈ scope sc (.marg (.bin .mul e g) vs), a v ∈ D v) →
      den D sc t (.marg (.bin .mul e g) vs) a = den D sc t (.bin .mul (.marg e vs) g) a := by
    intro a ha
    have e1 : (vs.filter fun v => v ∈ scope sc (.bin .mul e g)) = vs :=
      List.filter_eq_self.2 fun v hv => by simpa using (hmem v).2 (.inl (hve v hv))
    have e2 : (vs.filter fun v => v ∈ scope sc e) = vs :=
      List.filter_eq_self.2 fun v hv => by simpa using hve v hv
    have hga : ∀ v ∈ scope sc g, a v ∈ D v := fun v hv => ha v ((hm1 v).2 ⟨.inr hv, fun hv' => hvg v hv' hv⟩)
    show sumOver D _ _ a = sumOver D _ _ a * den D sc t g a
    rw [e1, e2]
    have : sumOver D vs (den D sc t (.bin .mul e g)) a = sumOver D vs (fun b => den D sc t e b * den D sc t g a) a := by
      refine sumOver_congr hn fun b hb1 _ => ?_
      have hb : ∀ v ∈ rg.vars, b v = a v := fun v hv => hb1 v fun hv' => hvg v hv' (by rwa [← g3])
      have e3 := g2.wf.sem_congr hI hb
      rw [g2.sem a (by rw [g3]; exact hga), g2.sem b (fun v hv => by rw [hb v hv]; exact hga v (by rwa [← g3]))] at e3
      show den D sc t e b * den D sc t g b = _
      rw [Fl.fin.inj e3]
    rw [this]
    exact sumOver_mul_right (vs := []) (g := fun _ => den D sc t g a) (fun _ _ _ => rfl) (by simp) a
  obtain ⟨r, r', h1, h2, h3⟩ := C79_same_cells vt hf (.marg (.bin .mul e g) vs) (.bin .mul (.marg e vs) g)
    ⟨⟨he, hg, by simp⟩, hn, .inl fun v hv => (hmem v).2 (.inl (hve v hv))⟩
    ⟨⟨he, hn, .inl hve⟩, hg, by simp⟩ (fun v => by rw [hm1, hm2]) key
  exact ⟨r, r', h1, h2, fun obs a ha => h3 obs a fun v hv => ha v ((hm1 v).1 hv).1 ((hm1 v).1 hv).2⟩

/-- **C79** (the code deviates) A number on the left of an operator, `2 * f`, is refused with `AttributeError`
whatever the factor: the reflected methods ask the number for `multiply`. -/
theorem C79_number_on_the_left (vt : VType) (f : ι → Factor (storeOf vt : StoreImpl V S (Fl K))) (op : FOp) (x : Fl K)
    (e : FExpr ι V S (Fl K)) {r} (h : eval f e = .ok r) : eval f (.numLeft op x e) = .error .attributeError := by
  rw [eval, h]; rfl

/-- **C79** (the code deviates) A number on the right that is not an `int` or a `float`, such as a cell of a numpy
store (a `numpy.float64`), is refused in the same way. -/
theorem C79_other_number (vt : VType) (f : ι → Factor (storeOf vt : StoreImpl V S (Fl K))) (op : FOp) (x : Fl K)
    (e : FExpr ι V S (Fl K)) {r} (h : eval f e = .ok r) : eval f (.other op e x) = .error .attributeError := by
  rw [eval, h]; rfl

/-- Somewhere in the expression there is a number on the left, or of another type. -/
def Refused : FExpr ι V S (Fl K) → Prop
  | .leaf _ => False
  | .bin _ l r => Refused l ∨ Refused r
  | .num _ e _ | .marg e _ | .restr e _ => Refused e
  | .numLeft _ _ _ | .other _ _ _ => True

/-- **C79** (the code deviates) No expression with such a number anywhere in it has a value. -/
theorem C79_refused (vt : VType) (f : ι → Factor (storeOf vt : StoreImpl V S (Fl K))) (e : FExpr ι V S (Fl K))
    (h : Refused e) : ∀ r, eval f e ≠ .ok r := by
  induction e with
  | leaf i => exact h.elim
  | bin op l r ihl ihr =>
    intro g hg
    rcases hl : eval f l with _ | a
    · rw [eval, hl] at hg; cases hg
    · rcases hr : eval f r with _ | b
      · rw [eval, hl, hr] at hg; cases hg
      · rcases h with h | h
        · exact ihl h a hl
        · exact ihr h b hr
  | num op e x ih | marg e vs ih | restr e obs ih =>
    intro g hg
    rcases he : eval f e with _ | a
    · rw [eval, he] at hg; cases hg
    · exact ih h a he
  | numLeft op x e ih | other op e x ih =>
    intro g hg
    rcases he : eval f e with _ | a <;> (rw [eval, he] at hg; cases hg)

/-! ### Examples -/

/-- Factors made by the constructor, of variables with the states `D`, satisfy the hypotheses of the theorems. -/
theorem fenv_make (vt : VType) (D : V → List S) (sc : ι → List V) (vals : ι → List K)
    (hd : ∀ i, DomOk ((sc i).map fun v => (v, D v)))
    (hl : ∀ i, (vals i).length = (cards ((sc i).map fun v => (v, D v))).prod) :
    ∃ f : ι → Factor (storeOf vt : StoreImpl V S (Fl K)),
      (∀ i, Factor.make _ ((sc i).map fun v => (v, D v)) ((vals i).map .fin) none none = .ok (f i)) ∧
      FEnv vt D sc (fun i a => (vals i).getD (ravel (cards ((sc i).map fun v => (v, D v)))
        (coords ((sc i).map fun v => (v, D v)) a)) 0) f := by
  have hI := storeOf_lawful (V := V) (S := S) (α := Fl K) vt
  have h := fun i => Factor.make_ok hI (left := none) (right := none) (hd i)
    (values := (vals i).map .fin) (by rw [List.length_map]; exact hl i) rfl
  choose f h1 h2 h3 _ h5 using h
  refine ⟨f, h1, ⟨h2, fun i => ?_, fun i p hp => ?_, fun i obs a ha hc => ?_⟩⟩
  · rw [Factor.vars, h3]; simp [Dict.keys, Function.comp_def]
  · rw [h3] at hp
    obtain ⟨v, _, rfl⟩ := List.mem_map.1 hp
    rfl
  · rw [Factor.getValue_ok hI (h2 i) ha hc]
    rw [h3] at ha
    have hlt := ravel_lt (validIdx_coords ha)
    rw [← hl i] at hlt
    rw [h5 i a ha]
    simp [List.getD, hlt]

/-- The states of `X`, `Y`, `Z` in the examples. -/
def opD : Char → List Char
  | 'X' => ['a', 'b']
  | 'Y' => ['c', 'd', 'e']
  | 'Z' => ['f', 'g']
  | _ => []

/-- Two factors, over `X, Y` and over `Z, Y`. -/
def opScope : Bool → List Char
  | true => ['X', 'Y']
  | false => ['Z', 'Y']

def opVals : Bool → List ℚ
  | true => [1, 2, 3, 4, 5, 6]
  | false => [10, 20, 30, 40, 50, 60]

/-- `((f * g) ** "Y" + 1) / 2`, and `.R(X="b")` of it. -/
def opExpr : FExpr Bool Char Char (Fl ℚ) :=
  .restr (.num .div (.num .add (.marg (.bin .mul (.leaf true) (.leaf false)) ['Y']) (.fin 1)) (.fin 2)) [('X', 'b')]

/-- Witness: the hypotheses of `C79_expressions_partial` hold of it, and its cells are the numbers one expects:
for `Z = g` it is `(4·40 + 5·50 + 6·60 + 1) / 2`. -/
theorem C79_example (vt : VType) : ∃ (f : Bool → Factor (storeOf vt : StoreImpl Char Char (Fl ℚ))) (t : Bool → (Char → Char) → ℚ),
    FEnv vt opD opScope t f ∧ Ok opD opScope t opExpr ∧
    ∃ r, eval f opExpr = .ok r ∧ r.vars = ['Z'] ∧ r.getValue [('Z', 'g')] = .ok (.fin (771 / 2)) := by
  obtain ⟨f, h1, h2⟩ := fenv_make vt opD opScope opVals
    (by intro i; cases i <;> exact ⟨by decide, by decide, by decide⟩) (by intro i; cases i <;> decide)
  have hok : ∀ t, Ok opD opScope t opExpr := fun t =>
    ⟨⟨⟨⟨⟨trivial, trivial, nofun⟩, by decide, .inl (by decide)⟩, 1, rfl, nofun⟩, 2, rfl, by decide⟩, by decide⟩
  refine ⟨f, _, h2, hok _, ?_⟩
  obtain ⟨r, r1, _, r3, _, _, r6⟩ := C79_expressions_partial vt h2 opExpr (hok _)
  refine ⟨r, r1, r3.trans (by decide), ?_⟩
  rw [r6 [('Z', 'g')] (fun _ => 'g') (by decide)]
  congr 2
  decide +kernel

end Props
end Verif
