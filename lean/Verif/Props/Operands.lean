import Verif.Factor.Operands
import Verif.Props.Operators
import Verif.Props.Deterministic

/-!
# C118: operators between tables, equations, interval factors and numbers

An equation stands for its zero-one table and a number for the constant table.  An operator between operands of different
kinds should either compute with the tables they stand for, or be refused.  The code refuses, except when the left operand
is a table and the right one is an equation: then the *states* selected by the equation are taken as numbers.
-/

set_option linter.unusedSectionVars false
set_option linter.unusedSimpArgs false

namespace Verif
namespace Props

variable {V S K : Type} [DecidableEq V] [DecidableEq S] [Inhabited S] [Field K] [LinearOrder K] {vt : VType}

local notation "II" => (storeOf vt : StoreImpl V S (Fl K))
local notation "LL" => (labelStoreOf vt : LabelStore V S)

/-! ### Specification -/

/-- The table over `vs` with the entries `φ` that an operand stands for; `D` are the states of the variables. -/
inductive Stands (vt : VType) (D : V → List S) : Operand II LL → List V → ((V → S) → K) → Prop
  /-- a table, read by its cells -/
  | table {f : Factor II} {φ : (V → S) → K} (wf : f.WF) (dom : ∀ p ∈ f.dom, p.2 = D p.1)
      (cells : ∀ obs a, InDom f.dom a → Covers f.dom obs a → f.getValue obs = .ok (.fin (φ a))) : Stands vt D (.table f) f.vars φ
  /-- an equation: one where the left state is the selected one -/
  | eqn {g : DetFactor LL} {x : V} {y : (V → S) → S} (wf : g.WF) (left : g.leftVars = [x]) (dom : ∀ p ∈ g.dom, p.2 = D p.1)
      (cells : ∀ obs a, InDom g.rightDomain a → Covers g.rightDomain obs a → g.getValue obs = .ok (y a)) :
      Stands vt D (.eqn g) g.vars fun a => if y a = a x then 1 else 0
  /-- a number -/
  | num (x : K) : Stands vt D (.num (.fin x)) [] fun _ => x

/-- Kinds -/
def Operand.isTable : Operand II LL → Prop
  | .table _ => True
  | _ => False
def Operand.isEqn : Operand II LL → Prop
  | .eqn _ => True
  | _ => False

variable {D : V → List S} {label : S → Option K}

/-! ### What is computed -/

/-- **C118** (partial) an operation that is not refused computes with the tables that the operands stand for.

Full statement: the same without `hk`.  It does not hold: `C118_wrong`, `C118_not_product`. -/
theorem C118_operators_partial {op : FOp} {x y z : Operand II LL} {vx vy : List V} {φ ψ : (V → S) → K} (hx : Stands vt D x vx φ)
    (hy : Stands vt D y vy ψ) (hk : ¬ (Operand.isTable x ∧ Operand.isEqn y))
    (hz : op = .div → ∀ a, (∀ v ∈ vy, a v ∈ D v) → ψ a ≠ 0) (h : x.binop label op y = .ok z) :
    ∃ vz, (∀ v, v ∈ vz ↔ v ∈ vx ∨ v ∈ vy) ∧ Stands vt D z vz fun a => FExpr.FOpVal op (φ a) (ψ a) := by
  have hI := storeOf_lawful (V := V) (S := S) (α := Fl K) vt
  have key : ∀ {f g r : Factor II} {φ ψ : (V → S) → K}, Factor.Rep D f φ → Factor.Rep D g ψ → FExpr.apply op f g = .ok r →
      (op = .div → ∀ a, (∀ v ∈ g.vars, a v ∈ D v) → ψ a ≠ 0) →
      ∃ vz, (∀ v, v ∈ vz ↔ v ∈ f.vars ∨ v ∈ g.vars) ∧ Stands vt D (.table r) vz fun a => FExpr.FOpVal op (φ a) (ψ a) := by
    intro f g r φ ψ hf hg hr hz
    obtain ⟨r', h1, h2, h3, _⟩ := FExpr.apply_rep hI op hf hg hz
    rw [hr] at h1
    cases h1
    refine ⟨r.vars, fun v => ?_, .table h2.wf h2.dom fun obs a ha hc => ?_⟩
    · rw [h3, List.mem_append, List.mem_filter]
      simp only [decide_eq_true_eq]
      tauto
    · rw [Factor.getValue_ok hI h2.wf ha hc, h2.sem a (Factor.states_of_inDom h2.dom ha)]
  cases hx with
  | @table f _ wf dom cells =>
    have hf := FExpr.rep_of_reads hI wf dom cells
    cases hy with
    | @table f' _ wf' dom' cells' =>
      simp only [Operand.binop] at h
      cases h1 : FExpr.apply op f f' with
      | error e => rw [h1] at h; cases h
      | ok r =>
        rw [h1] at h
        cases h
        exact key hf (FExpr.rep_of_reads hI wf' dom' cells') h1 hz
    | eqn wf' left' dom' cells' => exact absurd ⟨trivial, trivial⟩ hk
    | num c =>
      obtain ⟨b, b1, b2, b3, _⟩ := Factor.Rep.scalar (D := D) hI f c
      simp only [Operand.binop, b1, py_ok_bind] at h
      cases h1 : FExpr.apply op f b with
      | error e => rw [h1] at h; cases h
      | ok r =>
        rw [h1] at h
        cases h
        have := key hf b2 h1 (by rw [b3]; exact hz)
        rwa [b3] at this
  | eqn wf left dom cells =>
    cases hy <;> simp only [Operand.binop] at h <;> cases h
  | num c =>
    cases hy with
    | table wf' dom' cells' => simp only [Operand.binop] at h; cases h
    | eqn wf' left' dom' cells' => simp only [Operand.binop] at h; cases h
    | num c' =>
      have hval : numOp op (.fin c) (.fin c') = .ok (.fin (FExpr.FOpVal op c c')) := by
        cases op with
        | mul => rfl
        | add => rfl
        | sub => exact congrArg Except.ok (Fl.fin_sub c c')
        | div =>
          have hne : c' ≠ 0 := hz rfl (fun _ => default) (by simp)
          rw [numOp, if_neg fun e => hne (by cases e; rfl), Fl.fin_div hne]
          rfl
      simp only [Operand.binop, hval, py_ok_bind] at h
      cases h
      exact ⟨[], by simp, .num _⟩

/-- **C118** tables and numbers on their right are not refused. -/
theorem C118_answered {op : FOp} {f : Factor II} {y : Operand II LL} {vx vy : List V} {φ ψ : (V → S) → K}
    (hx : Stands vt D (.table f) vx φ) (hy : Stands vt D y vy ψ) (hk : ¬ Operand.isEqn y)
    (hz : op = .div → ∀ a, (∀ v ∈ vy, a v ∈ D v) → ψ a ≠ 0) : ∃ r, (Operand.table f).binop label op y = .ok (.table r) := by
  have hI := storeOf_lawful (V := V) (S := S) (α := Fl K) vt
  cases hx with
  | table wf dom cells =>
    have hf := FExpr.rep_of_reads hI wf dom cells
    cases hy with
    | table wf' dom' cells' =>
      obtain ⟨r, h1, _⟩ := FExpr.apply_rep hI op hf (FExpr.rep_of_reads hI wf' dom' cells') hz
      exact ⟨r, by simp only [Operand.binop, h1, py_ok_bind]; rfl⟩
    | eqn wf' left' dom' cells' => exact absurd trivial hk
    | num c =>
      obtain ⟨b, b1, b2, b3, _⟩ := Factor.Rep.scalar (D := D) hI f c
      obtain ⟨r, h1, _⟩ := FExpr.apply_rep hI op hf b2 (by rw [b3]; exact hz)
      exact ⟨r, by simp only [Operand.binop, b1, h1, py_ok_bind]; rfl⟩

/-! ### What is refused -/

/-- **C118** an operator is refused if the left operand is not a table, or the right one is an interval factor, except
between two numbers. -/
theorem C118_refused {op : FOp} (x y : Operand II LL)
    (h : (¬ Operand.isTable x ∧ ¬ ∃ a b, x = .num a ∧ y = .num b) ∨ ∃ i, y = .interval i) : ∃ e, x.binop label op y = .error e := by
  cases x <;> cases y <;> simp_all [Operand.binop, Operand.isTable]

/-- **C118** which exception is raised. -/
theorem C118_exceptions (op : FOp) (f : Factor II) (g g' : DetFactor LL) (i : IFactor II) (x : Fl K) (y : Operand II LL) :
    (Operand.eqn g).binop label op (.table f) = .error .notImplemented ∧ (Operand.eqn g).binop label op (.interval i) = .error .notImplemented ∧
    (Operand.eqn (I := II) g).binop label op (.eqn g') = .error .typeError ∧ (Operand.eqn (I := II) g).binop label op (.num x) = .error .typeError ∧
    (Operand.num (I := II) x).binop label op (.eqn g) = .error .typeError ∧ (Operand.num (L := LL) x).binop label op (.table f) = .error .attributeError ∧
    (Operand.num (L := LL) x).binop label op (.interval i) = .error .attributeError ∧ (Operand.interval i).binop label op y = .error .notImplemented ∧
    (Operand.table (L := LL) f).binop label op (.interval i) = .error .valueError :=
  ⟨rfl, rfl, rfl, rfl, rfl, rfl, rfl, rfl, rfl⟩

/-- **C118** `combine_all` of an equation and anything else is refused: the joint table of a causal model cannot be had by
multiplying its factors if the first of them is an equation. -/
theorem C118_combine_all (g : DetFactor LL) (y : Operand II LL) (ys : List (Operand II LL)) :
    ∃ e, Operand.combineAll label (.eqn g :: y :: ys) = .error e := by
  rw [Operand.combineAll, List.foldlM_cons]
  obtain ⟨e, he⟩ := C118_refused (label := label) (op := .mul) (.eqn g) y (.inl ⟨id, by rintro ⟨a, b, h, _⟩; cases h⟩)
  exact ⟨e, by rw [he]; rfl⟩

/-- **C118** `combine_all` of no operands is refused, of one it is the operand, and of more the operands are multiplied from the
left. -/
theorem C118_few (x y : Operand II LL) (xs : List (Operand II LL)) :
    Operand.combineAll label ([] : List (Operand II LL)) = .error .typeError ∧ Operand.combineAll label [x] = .ok x ∧
    Operand.combineAll label (x :: xs ++ [y]) =
      (do let z ← Operand.combineAll label (x :: xs); Operand.binop label .mul z y) := by
  refine ⟨rfl, rfl, ?_⟩
  simp only [Operand.combineAll, List.cons_append, List.foldlM_append, List.foldlM_cons, List.foldlM_nil]
  congr 1
  funext z
  cases Operand.binop label .mul z y <;> rfl

/-- **C118** `**` sums variables out of a table, one name or a list of names; everything else is refused. -/
theorem C118_pow (x : Operand II LL) (v : V) (vs : VarsArg V) : x.pow (.name v) = x.pow (.names [v]) ∧
    (¬ Operand.isTable x → ∃ e, x.pow vs = .error e) ∧ ∀ f, x = .table f → x.pow vs = (f.marginalize vs.toList).map .table := by
  refine ⟨by cases x <;> rfl, fun h => ?_, ?_⟩
  · cases x with
    | table f => exact absurd trivial h
    | eqn g => exact ⟨_, rfl⟩
    | interval i => exact ⟨_, rfl⟩
    | num c => exact ⟨_, rfl⟩
  · rintro f rfl
    simp only [Operand.pow]
    cases f.marginalize vs.toList <;> rfl

/-! ### A table and an equation -/

theorem asNumbers_ok {g : DetFactor LL} {y : (V → S) → S} {n : S → K} (wf : g.WF)
    (cells : ∀ obs a, InDom g.rightDomain a → Covers g.rightDomain obs a → g.getValue obs = .ok (y a))
    (hl : ∀ a, InDom g.rightDomain a → label (y a) = some (n (y a))) (dom : ∀ p ∈ g.dom, p.2 = D p.1) :
    ∃ r, g.asNumbers label II = .ok r ∧ Factor.Rep D r (fun a => n (y a)) ∧ r.dom = g.rightDomain := by
  have hI := storeOf_lawful (V := V) (S := S) (α := Fl K) vt
  have hrd := DetFactor.rightDomain_ok wf
  have hvals : ((assignmentSpace g.rightDomain).mapM fun obs => do
      let y ← g.getValue obs
      labelNum label y) = .ok ((assignmentSpace g.rightDomain).map fun o => Fl.fin (n (y (asg o)))) := by
    refine mapM_ok fun o ho => ?_
    have hfo := mem_assignmentSpace_fullObs hrd.keys ho
    rw [cells o (asg o) hfo.inDom hfo.covers, py_ok_bind, labelNum, hl _ hfo.inDom]
  obtain ⟨st, s1, s2, s3, s4⟩ := hI.ofFlat_ok hrd (data := (assignmentSpace g.rightDomain).map fun o => Fl.fin (n (y (asg o))))
    (by simp [assignmentSpace, stateSpace, length_product, cards, Function.comp_def])
  refine ⟨⟨st, Dict.keys g.rightDomain⟩, ?_, ⟨?_, ?_, ?_⟩, s3⟩
  · unfold DetFactor.asNumbers
    rw [hvals, py_ok_bind, s1]; rfl
  · exact s2
  · intro p hp
    rw [Factor.dom, s3] at hp
    exact dom p (List.mem_filter.1 hp).1
  · intro a ha
    have hin : InDom g.rightDomain a := by
      intro p hp
      have := ha p.1 (by rw [Factor.vars, Factor.dom, s3]; exact Dict.mem_keys_of_mem (p := p) hp)
      rwa [← dom p (List.mem_filter.1 hp).1] at this
    rw [Factor.sem, s4 a hin, List.getD_eq_getElem?_getD, List.getElem?_map, assignmentSpace_getElem? hin]
    simp only [Option.map_some, Option.getD_some]
    have hc := covers_map g.rightDomain a (e := g.rightDomain) (fun v h => h)
    have h1 := cells _ a hin hc
    have h2 := cells (g.rightDomain.map fun p => (p.1, a p.1)) (asg (g.rightDomain.map fun p => (p.1, a p.1)))
      (FullObs.inDom (fullObs_of_covers hin hc)) (FullObs.covers (fullObs_of_covers hin hc))
    rw [h1] at h2
    rw [Except.ok.inj h2]

/-- **C118** (the code deviates) what a table and an equation give: the operation on the cells of the table and the *states*
selected by the equation, taken as numbers.  The left variable of the equation is not in the result unless it is in the
table. -/
theorem C118_labels {op : FOp} {f : Factor II} {g : DetFactor LL} {x : V} {φ : (V → S) → K} {y : (V → S) → S} {n : S → K}
    (hf : Stands vt D (.table f) f.vars φ) (wf : g.WF) (left : g.leftVars = [x]) (dom : ∀ p ∈ g.dom, p.2 = D p.1)
    (cells : ∀ obs a, InDom g.rightDomain a → Covers g.rightDomain obs a → g.getValue obs = .ok (y a))
    (hl : ∀ a, InDom g.rightDomain a → label (y a) = some (n (y a)))
    (hz : op = .div → ∀ a, InDom g.rightDomain a → n (y a) ≠ 0) :
    ∃ r, (Operand.table f).binop label op (.eqn g) = .ok (.table r) ∧ (∀ v, v ∈ r.vars ↔ v ∈ f.vars ∨ v ∈ g.rightVars) ∧
      (∀ v, v ∈ r.rightVars ↔ v ∈ r.vars ∧ if op = .div then v ∈ f.rightVars ∨ v ∈ g.vars else v ∉ f.leftVars ∧ v ∉ g.leftVars) ∧
      (∀ p ∈ r.dom, p.2 = D p.1) ∧ ∀ obs a, InDom r.dom a → Covers r.dom obs a → r.getValue obs = .ok (.fin (FExpr.FOpVal op (φ a) (n (y a)))) := by
  have hI := storeOf_lawful (V := V) (S := S) (α := Fl K) vt
  generalize hvx : f.vars = vx at hf
  cases hf with
  | table wf' dom' cells' =>
    have hR := FExpr.rep_of_reads hI wf' dom' cells'
    obtain ⟨m, m1, m2, m3⟩ := asNumbers_ok (label := label) wf cells hl dom
    obtain ⟨r, h1, h2, h3, _⟩ := FExpr.apply_rep hI op hR m2 fun e a ha => hz e a fun p hp => by
      have := ha p.1 (by rw [Factor.vars, m3]; exact Dict.mem_keys_of_mem (p := p) hp)
      rwa [← dom p (List.mem_filter.1 hp).1] at this
    have hv : ∀ v, v ∈ r.vars ↔ v ∈ f.vars ∨ v ∈ g.rightVars := by
      intro v
      have hm : v ∈ m.vars ↔ v ∈ g.rightVars := by
        rw [Factor.vars, m3, DetFactor.rightDomain, Dict.keys_filter_key g.dom (fun v => v ∈ g.rightVars), List.mem_filter]
        exact ⟨fun h => by simpa using h.2, fun h => ⟨wf.right v h, by simpa using h⟩⟩
      rw [h3, List.mem_append, List.mem_filter, hm]
      simp only [decide_eq_true_eq]
      tauto
    have hok : f.withEqn label op g = .ok ⟨r.store, r.vars.filter fun v =>
        if op = .div then v ∈ f.rightVars ∨ v ∈ g.vars else v ∉ f.leftVars ∧ v ∉ g.leftVars⟩ := by
      simp only [Factor.withEqn, m1, py_ok_bind, h1]
      rfl
    refine ⟨⟨r.store, r.vars.filter fun v =>
      if op = .div then v ∈ f.rightVars ∨ v ∈ g.vars else v ∉ f.leftVars ∧ v ∉ g.leftVars⟩, by simp only [Operand.binop, hok, py_ok_bind]; rfl, hv, fun v => ?_, h2.dom, fun obs a ha hc => ?_⟩
    · rw [List.mem_filter]
      refine and_congr_right fun _ => ?_
      split <;> simp
    · have := Factor.getValue_ok hI h2.wf ha hc
      rw [h2.sem a (Factor.states_of_inDom h2.dom ha)] at this
      exact this

/-- **C118** (the code deviates) states that are not numbers: `TypeError`. -/
theorem C118_type_error {op : FOp} {f : Factor II} {g : DetFactor LL} {y : (V → S) → S} (wf : g.WF)
    (cells : ∀ obs a, InDom g.rightDomain a → Covers g.rightDomain obs a → g.getValue obs = .ok (y a))
    (hne : g.rightDomain.all fun p => !p.2.isEmpty) (hl : ∀ a, InDom g.rightDomain a → label (y a) = none) :
    (Operand.table f).binop label op (.eqn g) = .error .typeError := by
  have hrd := DetFactor.rightDomain_ok wf
  have hvals : ((assignmentSpace g.rightDomain).mapM fun obs => do
      let y ← g.getValue obs
      labelNum label y) = .error .typeError := by
    have hall : ∀ o ∈ assignmentSpace g.rightDomain, (do
        let y ← g.getValue o
        labelNum label y) = .error .typeError := fun o ho => by
      have hfo := mem_assignmentSpace_fullObs hrd.keys ho
      rw [cells o (asg o) hfo.inDom hfo.covers, py_ok_bind, labelNum, hl _ hfo.inDom]
    have hne' : assignmentSpace g.rightDomain ≠ [] := by
      have : (assignmentSpace g.rightDomain).length ≠ 0 := by
        simp only [assignmentSpace, stateSpace, length_product, List.length_map]
        refine List.prod_ne_zero fun h0 => ?_
        obtain ⟨l, hl, e⟩ := List.mem_map.1 h0
        obtain ⟨p, hp, rfl⟩ := List.mem_map.1 hl
        have := List.all_eq_true.1 hne p hp
        simp [List.length_eq_zero_iff.1 e] at this
      exact fun h => this (by rw [h]; rfl)
    cases hs : assignmentSpace g.rightDomain with
    | nil => exact absurd hs hne'
    | cons o os =>
      rw [List.mapM_cons, hall o (by rw [hs]; exact List.mem_cons_self)]
      rfl
  simp only [Operand.binop, Factor.withEqn, DetFactor.asNumbers, hvals]
  rfl

/-- **C118** (the code deviates) the result is never the operation on the table and the zero-one table of the equation if
the left variable of the equation is not in the table: that variable is missing. -/
theorem C118_not_product {op : FOp} {f : Factor II} {g : DetFactor LL} {x : V} {φ : (V → S) → K} {y : (V → S) → S} {n : S → K}
    (hf : Stands vt D (.table f) f.vars φ) (wf : g.WF) (left : g.leftVars = [x]) (dom : ∀ p ∈ g.dom, p.2 = D p.1)
    (cells : ∀ obs a, InDom g.rightDomain a → Covers g.rightDomain obs a → g.getValue obs = .ok (y a))
    (hl : ∀ a, InDom g.rightDomain a → label (y a) = some (n (y a)))
    (hz : op = .div → ∀ a, InDom g.rightDomain a → n (y a) ≠ 0) (hx : x ∉ f.vars) :
    ∃ r, (Operand.table f).binop label op (.eqn g) = .ok (.table r) ∧ x ∈ g.vars ∧ x ∉ r.vars := by
  obtain ⟨r, h1, h2, _⟩ := C118_labels (label := label) hf wf left dom cells hl hz
  have hxl : x ∈ g.leftVars := by rw [left]; exact List.mem_singleton.2 rfl
  have hxg := List.mem_filter.1 hxl
  exact ⟨r, h1, hxg.1, fun hc => ((h2 x).1 hc).elim hx (by simpa using hxg.2)⟩

/-! ### Examples -/

/-- The states `0` and `1` of the example are numbers, and what `P(X, U) = 1/4` and the equation `X = U` are. -/
def kindLabel : Char → Option ℚ
  | '0' => some 0
  | '1' => some 1
  | _ => none

/-- The product of `P(X, U)` and the equation `X = U` at a pair of states: with the equation, and with its table. -/
def kindProduct (vt : VType) (x u : Char) : Py (Fl ℚ × Fl ℚ) := do
  let d : Dom Char Char := [('X', ['0', '1']), ('U', ['0', '1'])]
  let f ← Factor.make (storeOf vt : StoreImpl Char Char (Fl ℚ)) d (List.replicate 4 (.fin (1 / 4))) none none
  let g ← DetFactor.make (labelStoreOf vt : LabelStore Char Char) d ⟨[2], ['0', '1']⟩ (some ['X']) none
  let t ← g.toMultinomial (storeOf vt : StoreImpl Char Char (Fl ℚ))
  let r ← (Operand.table f).binop kindLabel .mul (.eqn g)
  let r' ← (Operand.table (L := (labelStoreOf vt : LabelStore Char Char)) f).binop kindLabel .mul (.table t)
  match r, r' with
  | .table r, .table r' => do
      let a ← r.getValue [('X', x), ('U', u)]
      let b ← r'.getValue [('X', x), ('U', u)]
      return (a, b)
  | _, _ => .error .typeError

/-- **C118** (the code deviates) witness: the product of a table and an equation is not the product with its table. -/
theorem C118_wrong (vt : VType) : kindProduct vt '0' '1' = .ok (.fin (1 / 4), .fin 0) ∧
    kindProduct vt '0' '0' = .ok (.fin 0, .fin (1 / 4)) ∧ kindProduct vt '1' '1' = .ok (.fin (1 / 4), .fin (1 / 4)) := by
  cases vt <;> decide +kernel

/-- Witness: operands of all kinds that stand for tables. -/
theorem C118_example (vt : VType) : ∃ (f : Factor (storeOf vt : StoreImpl Char Char (Fl ℚ))) (g : DetFactor (labelStoreOf vt : LabelStore Char Char))
    (φ : (Char → Char) → ℚ) (y : (Char → Char) → Char),
    Stands vt opD (.table f) f.vars φ ∧ g.WF ∧ g.leftVars = ['X'] ∧ (∀ p ∈ g.dom, p.2 = opD p.1) ∧
    (∀ obs a, InDom g.rightDomain a → Covers g.rightDomain obs a → g.getValue obs = .ok (y a)) ∧
    Stands vt opD (.eqn g : Operand (storeOf vt : StoreImpl Char Char (Fl ℚ)) _) g.vars (fun a => if y a = a 'X' then 1 else 0) ∧
    Stands vt opD (.num (.fin (1 / 2)) : Operand (storeOf vt : StoreImpl Char Char (Fl ℚ)) (labelStoreOf vt)) [] (fun _ => 1 / 2) ∧
    (∃ f' ψ, Stands vt opD (.table f' : Operand (storeOf vt : StoreImpl Char Char (Fl ℚ)) (labelStoreOf vt)) f'.vars ψ ∧ 'X' ∉ f'.vars) ∧
    g.rightDomain.all (fun p => !p.2.isEmpty) = true := by
  obtain ⟨F, h1, h2⟩ := fenv_make vt opD opScope opVals
    (by intro i; cases i <;> exact ⟨by decide, by decide, by decide⟩) (by intro i; cases i <;> decide)
  obtain ⟨g, _, g2, g3, g4, g5⟩ := ex_det vt
  have hd : ∀ p ∈ g.dom, p.2 = opD p.1 := by rw [g4]; decide
  have hc : ∀ obs a, InDom g.rightDomain a → Covers g.rightDomain obs a → g.getValue obs = .ok (g.fn a) := fun obs a ha hc =>
    (labelStoreOf_lawful vt).getValue_ok g2.store (by rw [g2.storeDom]; exact ha) (by rw [g2.storeDom]; exact hc)
  exact ⟨F true, g, _, g.fn, .table (h2.wf true) (h2.dom true) (h2.cells true), g2, g3, hd, hc, .eqn g2 g3 hd hc, .num _,
    ⟨F false, _, .table (h2.wf false) (h2.dom false) (h2.cells false), by rw [h2.vars false]; decide⟩,
    by rw [DetFactor.rightDomain, g4, g5]; decide⟩

end Props
end Verif
