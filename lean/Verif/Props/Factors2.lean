import Verif.Props.Factors

/-!
# Properties of factor operations (C02, C06, C09, C10, C15)
-/

set_option linter.unusedSectionVars false
set_option linter.unusedSimpArgs false

namespace Verif.Props
open Verif

variable {V S α : Type} [DecidableEq V] [DecidableEq S] [Nonempty S] [Inhabited α] [AddCommMonoid α]

/-! ### C02: pairing by label -/

/-- **C02** as stated: the product of two tables whose shared variables have the same states in any
order multiplies the values that belong to the same labels. -/
def LabelPairing (vt : VType) (V S α : Type) [DecidableEq V] [DecidableEq S] [Inhabited α]
    [AddCommMonoid α] [Mul α] : Prop :=
  ∀ f g : Factor (storeOf vt : StoreImpl V S α), f.WF → g.WF → SetCompat f.dom g.dom →
    ∃ r, f.multiply g = .ok r ∧ r.WF ∧
      ∀ obs, FullObs r.dom obs →
        ∃ x y, f.getValue obs = .ok x ∧ g.getValue obs = .ok y ∧ r.getValue obs = .ok (x * y)

private theorem labelPairing_aux [Mul α] {I : StoreImpl V S α} (hI : I.Lawful)
    (hcomb : ∀ {s t}, I.WF s → I.WF t → SetCompat (I.dom s) (I.dom t) →
      ∃ r, I.combine (· * ·) s t = .ok r ∧ I.WF r ∧ I.dom r = Dict.merge (I.dom s) (I.dom t) ∧
        ∀ a, InDom (I.dom r) a → I.sem r a = I.sem s a * I.sem t a)
    (f g : Factor I) (hf : f.WF) (hg : g.WF) (hc : SetCompat f.dom g.dom) :
    ∃ r, f.multiply g = .ok r ∧ r.WF ∧
      ∀ obs, FullObs r.dom obs →
        ∃ x y, f.getValue obs = .ok x ∧ g.getValue obs = .ok y ∧ r.getValue obs = .ok (x * y) := by
  obtain ⟨st, h1, h2, h3, h4⟩ := hcomb hf hg hc
  let r : Factor I := ⟨st, (Dict.keys (I.dom st)).filter fun v => v ∉ f.leftVars ∧ v ∉ g.leftVars⟩
  have hr : r.WF := h2
  refine ⟨r, ?_, hr, ?_⟩
  · simp only [Factor.multiply, Factor.combine, h1, py_ok_bind]
    exact Factor.build_right (hI.wf_dom h2) _
  · intro obs ho
    have ho' : FullObs (Dict.merge f.dom g.dom) obs := by
      have : r.dom = Dict.merge f.dom g.dom := h3
      rw [← this]; exact ho
    refine ⟨_, _, Factor.getValue_full hI hf (ho'.merge_left (hf.domOk hI).keys hc),
      Factor.getValue_full hI hg (ho'.merge_right (hg.domOk hI).keys), ?_⟩
    rw [Factor.getValue_full hI hr ho]
    exact congrArg Except.ok (h4 _ ho.inDom)

/-- **C02** for the `list`, `numpy1d` and `treedict` stores.  The default (`numpy`) store is
missing: there it is false, see `C02_numpy_violation`; it holds when shared variables list
their states in the same order (`C01_product_pointwise`). -/
theorem C02_label_pairing_partial [Mul α] {vt : VType} (hvt : vt ≠ .numpy) : LabelPairing vt V S α := by
  intro f g hf hg hc
  cases vt with
  | numpy => exact absurd rfl hvt
  | numpy1d =>
    exact labelPairing_aux Numpy1DStore.lawful
      (fun hs ht h => Numpy1DStore.combine_ok (· * ·) hs ht h) f g hf hg hc
  | list =>
    exact labelPairing_aux ListStore.lawful
      (fun hs ht h => ListStore.combine_ok (· * ·) hs ht h) f g hf hg hc
  | treedict =>
    exact labelPairing_aux TreeStore.lawful
      (fun hs ht h => TreeStore.combine_ok (· * ·) hs ht h) f g hf hg hc

def dX' : Dom Char Char := [('X', ['b', 'a'])]
theorem dX'_ok : DomOk dX' := ⟨by decide, by decide, by decide⟩
theorem setCompat_X : SetCompat dX dX' := by
  simp [SetCompat, dX, dX']; exact List.Perm.swap _ _ _

/-- **C02 is false of the default store**: with X=(a,b) ↦ (1,2) and X=(b,a) ↦ (10,20) the product at
X=a is 40 instead of 1*20. -/
theorem C02_numpy_violation : ¬ LabelPairing .numpy Char Char ℤ := by
  intro h
  have hI := storeOf_lawful (V := Char) (S := Char) (α := ℤ) .numpy
  have hf0 : Factor.make (storeOf .numpy : StoreImpl Char Char ℤ) dX [1, 2] none none
      = .ok ⟨(⟨dX, ⟨[2], [1, 2]⟩⟩ : NumpyStore Char Char ℤ), []⟩ := rfl
  have hg0 : Factor.make (storeOf .numpy : StoreImpl Char Char ℤ) dX' [10, 20] none none
      = .ok ⟨(⟨dX', ⟨[2], [10, 20]⟩⟩ : NumpyStore Char Char ℤ), []⟩ := rfl
  obtain ⟨hf, hfd⟩ := wf_of_make .numpy dX_ok hf0
  obtain ⟨hg, hgd⟩ := wf_of_make .numpy dX'_ok hg0
  obtain ⟨r, h1, h2, h3⟩ := h _ _ hf hg (by rw [hfd, hgd]; exact setCompat_X)
  have hr : r = ⟨(⟨dX', ⟨[2], [10, 40]⟩⟩ : NumpyStore Char Char ℤ), []⟩ :=
    (Except.ok.inj h1).symm
  subst hr
  obtain ⟨x, y, e1, e2, e3⟩ := h3 [('X', 'a')] (by
    intro p hp
    have : p = ('X', ['b', 'a']) := by
      have : p ∈ dX' := hp
      simpa [dX'] using this
    subst this; exact ⟨'a', by decide, rfl⟩)
  have e1' : (Except.ok 1 : Py ℤ) = .ok x := e1
  have e2' : (Except.ok 20 : Py ℤ) = .ok y := e2
  have e3' : (Except.ok 40 : Py ℤ) = .ok (x * y) := e3
  cases e1'; cases e2'
  exact absurd (Except.ok.inj e3') (by decide)

example (vt : VType) : ∃ f g : Factor (storeOf vt : StoreImpl Char Char ℤ),
    f.WF ∧ g.WF ∧ SetCompat f.dom g.dom ∧ ¬ Compat f.dom g.dom := by
  have hI := storeOf_lawful (V := Char) (S := Char) (α := ℤ) vt
  obtain ⟨f, h1, h2, h3, _⟩ := Factor.make_ok hI
    (left := none) (right := none) (values := [1, 2]) dX_ok (by decide) rfl
  obtain ⟨g, g1, g2, g3, _⟩ := Factor.make_ok hI
    (left := none) (right := none) (values := [10, 20]) dX'_ok (by decide) rfl
  refine ⟨f, g, h2, g2, by rw [h3, g3]; exact setCompat_X, ?_⟩
  rw [h3, g3]; intro h
  exact absurd (h ('X', ['a', 'b']) (by decide) ('X', ['b', 'a']) (by decide) rfl) (by decide)

/-! ### C06: max-marginalisation -/

/-- `store.maxmarginalize` of each store. -/
def storeMaxMarg [LinearOrder α] : (vt : VType) → (storeOf vt : StoreImpl V S α).St → List V →
    Py (storeOf vt : StoreImpl V S α).St
  | .numpy => NumpyStore.maxmarginalize
  | .numpy1d => Numpy1DStore.maxmarginalize
  | .list => ListStore.maxmarginalize
  | .treedict => TreeStore.maxmarginalize

/-- `mulitnomial.py:126-130` `maxmarginalize` -/
def maxmarginalize [LinearOrder α] {vt : VType} (f : Factor (storeOf vt : StoreImpl V S α))
    (vars : List V) : Py (Factor (storeOf vt : StoreImpl V S α)) :=
  if ∀ v ∈ vars, v ∉ f.vars then .ok f else do
    let st ← storeMaxMarg vt f.store vars
    f.build st none (some ((Dict.keys ((storeOf vt : StoreImpl V S α).dom st)).filter fun v => v ∈ f.rightVars))

theorem maxOf_spec [LinearOrder α] {l : List α} (h : l ≠ []) :
    NumpyStore.maxOf l ∈ l ∧ ∀ x ∈ l, x ≤ NumpyStore.maxOf l := by
  obtain ⟨x, xs, rfl⟩ := List.exists_cons_of_ne_nil h
  simp only [NumpyStore.maxOf]
  clear h
  induction xs generalizing x with
  | nil => simp
  | cons y ys ih =>
    obtain ⟨h1, h2⟩ := ih (max x y)
    rw [List.foldl_cons]
    constructor
    · rcases List.mem_cons.1 h1 with h | h
      · rw [h]; rcases max_choice x y with e | e <;> rw [e] <;> simp
      · exact List.mem_cons_of_mem _ (List.mem_cons_of_mem _ h)
    · intro z hz
      have hm := h2 (max x y) List.mem_cons_self
      rcases List.mem_cons.1 hz with rfl | hz
      · exact le_trans (le_max_left _ _) hm
      · rcases List.mem_cons.1 hz with rfl | hz
        · exact le_trans (le_max_right _ _) hm
        · exact h2 z (List.mem_cons_of_mem _ hz)

/-- **C06** `f^vars` is the maximum over exactly the removed variables. -/
theorem C06_maxmarginalize [LinearOrder α] {vt : VType} (hvt : vt ≠ .numpy1d)
    {f : Factor (storeOf vt : StoreImpl V S α)} (hf : f.WF)
    {vars : List V} (hsub : ∀ v ∈ vars, v ∈ f.vars) (hnd : vars.Nodup) :
    ∃ r, maxmarginalize f vars = .ok r ∧ r.WF ∧ r.dom = domOut f.dom vars ∧
      ∀ obs, FullObs r.dom obs →
        ∃ l m, ((assignmentSpace (domIn f.dom vars)).mapM fun o => f.getValue (o ++ obs)) = .ok l ∧
          r.getValue obs = .ok m ∧ m ∈ l ∧ ∀ x ∈ l, x ≤ m := by
  have hI := storeOf_lawful (V := V) (S := S) (α := α) vt
  have hd : DomOk f.dom := hf.domOk hI
  have key : ∃ st, storeMaxMarg vt f.store vars = .ok st ∧ (storeOf vt : StoreImpl V S α).WF st ∧
      (storeOf vt : StoreImpl V S α).dom st = domOut f.dom vars ∧
      ∀ a, InDom (domOut f.dom vars) a → (storeOf vt : StoreImpl V S α).sem st a
        = NumpyStore.maxOf ((variants (domIn f.dom vars) a).map f.sem) := by
    cases vt with
    | numpy1d => exact absurd rfl hvt
    | numpy =>
      obtain ⟨st, h1, h2, h3, h4⟩ := NumpyStore.reduceVars_ok (s := f.store) hf NumpyStore.maxOf hsub hnd
      exact ⟨st, h1, h2, h3, fun a ha => h4 a (by rw [h3]; exact ha)⟩
    | list =>
      obtain ⟨st, h1, h2, h3, h4⟩ := ListStore.reduceVars_ok (s := f.store) hf NumpyStore.maxOf vars
      exact ⟨st, h1, h2, h3, fun a ha => h4 a (by rw [h3]; exact ha)⟩
    | treedict =>
      obtain ⟨st, h1, h2, h3, h4⟩ := TreeStore.maxmarginalize_ok (s := f.store) hf hsub hnd
      exact ⟨st, h1, h2, h3, fun a ha => h4 a (by rw [h3]; exact ha)⟩
  have spec : ∀ r : Factor (storeOf vt : StoreImpl V S α), r.WF → r.dom = domOut f.dom vars →
      (∀ a, InDom (domOut f.dom vars) a →
        r.sem a = NumpyStore.maxOf ((variants (domIn f.dom vars) a).map f.sem)) →
      ∀ obs, FullObs r.dom obs →
        ∃ l m, ((assignmentSpace (domIn f.dom vars)).mapM fun o => f.getValue (o ++ obs)) = .ok l ∧
          r.getValue obs = .ok m ∧ m ∈ l ∧ ∀ x ∈ l, x ≤ m := by
    intro r hr hrd hs obs ho
    have hne : (variants (domIn f.dom vars) (asg obs)).map f.sem ≠ [] := by
      simp only [ne_eq, List.map_eq_nil_iff]
      exact variants_ne_nil (hd.domIn vars) _
    obtain ⟨m1, m2⟩ := maxOf_spec hne
    exact ⟨_, _, Factor.mapM_getValue_domIn hI hf vars (by rw [← hrd]; exact ho), by
      rw [Factor.getValue_full hI hr ho, hs _ (by rw [← hrd]; exact ho.inDom)], m1, m2⟩
  by_cases h : ∀ v ∈ vars, v ∉ f.vars
  · have hv : vars = [] := by
      cases vars with
      | nil => rfl
      | cons v vs => exact absurd (hsub v List.mem_cons_self) (h v List.mem_cons_self)
    subst hv
    refine ⟨f, by rw [maxmarginalize, if_pos h], hf, by simp [domOut], spec f hf (by simp [domOut]) ?_⟩
    intro a _
    simp [domIn, variants, NumpyStore.maxOf]
  · obtain ⟨st, h1, h2, h3, h4⟩ := key
    let r : Factor (storeOf vt : StoreImpl V S α) :=
      ⟨st, (Dict.keys ((storeOf vt : StoreImpl V S α).dom st)).filter fun v => v ∈ f.rightVars⟩
    exact ⟨r, by rw [maxmarginalize, if_neg h, h1, py_ok_bind, Factor.build_right (hI.wf_dom h2)],
      h2, h3, spec r h2 h3 h4⟩

/-- **C06** the `numpy1d` store refuses. -/
theorem C06_numpy1d_refuses [LinearOrder α] {f : Factor (storeOf .numpy1d : StoreImpl V S α)}
    {vars : List V} {v : V} (hv : v ∈ vars) (hf : v ∈ f.vars) :
    maxmarginalize f vars = .error .notImplemented := by
  rw [maxmarginalize, if_neg (fun h => h v hv hf)]; rfl

example : ∀ vt ∈ [VType.numpy, .list, .treedict],
    (do let f ← Factor.make (storeOf vt : StoreImpl Char Char ℤ) dXY [1, 7, 3, 4, 5, 6] none none
        let r ← maxmarginalize f ['X']
        let l ← r.valuesList
        return (r.vars, l)) = (.ok (['Y'], [4, 7, 6]) : Py _) := by
  decide +kernel

/-! ### C09, C15: expressions -/

/-- Expressions over tables: a table has a domain, right variables and flat values. -/
inductive Expr (V S α : Type) where
  | table (d : Dom V S) (right : List V) (values : List α)
  | mul (a b : Expr V S α)
  | add (a b : Expr V S α)
  | sub (a b : Expr V S α)
  | marg (a : Expr V S α) (vars : List V)
  | restr (a : Expr V S α) (obs : Obs V S)

namespace Expr

/-- The library's evaluation of the expression with a given store type. -/
def eval [Mul α] [Sub α] (vt : VType) : Expr V S α → Py (Factor (storeOf vt : StoreImpl V S α))
  | table d r values => Factor.make _ d values none (some r)
  | mul a b => do (← eval vt a).multiply (← eval vt b)
  | add a b => do (← eval vt a).addition (← eval vt b)
  | sub a b => do (← eval vt a).subtract (← eval vt b)
  | marg a vars => do (← eval vt a).marginalize vars
  | restr a obs => do (← eval vt a).restrict obs

/-- Specification: domain of the result. -/
def scope : Expr V S α → Dom V S
  | table d _ _ => d
  | mul a b | add a b | sub a b => domUnion (scope a) (scope b)
  | marg a vars => domOut (scope a) vars
  | restr a obs => (scope a).filter fun p => p.1 ∉ Dict.keys obs

/-- Specification: value at a total assignment (first position of the row-major list for tables). -/
def value [Mul α] [Sub α] : Expr V S α → (V → S) → α
  | table d _ values => fun a => values.getD (ravel (cards d) (coords d a)) default
  | mul e f => fun a => value e a * value f a
  | add e f => fun a => value e a + value f a
  | sub e f => fun a => value e a - value f a
  | marg e vars => fun a => sumStates (value e) (domIn (scope e) vars) a
  | restr e obs => fun a => value e (over obs a)

/-- Specification of the variables on the left of the bar. -/
def isLeft : Expr V S α → V → Prop
  | table d r _ => fun v => v ∈ Dict.keys d ∧ v ∉ r
  | mul a b | add a b | sub a b => fun v => isLeft a v ∨ isLeft b v
  | marg a vars => fun v => isLeft a v ∧ v ∉ vars
  | restr a obs => fun v => isLeft a v ∧ v ∉ Dict.keys obs

/-- Well-formed expressions: consistent domains, tables of the right size, only
present variables are summed out, observed states exist. -/
def Ok : Expr V S α → Prop
  | table d r values => DomOk d ∧ values.length = (cards d).prod ∧ ∀ v ∈ r, v ∈ Dict.keys d
  | mul a b | add a b | sub a b => Ok a ∧ Ok b ∧ Compat (scope a) (scope b)
  | marg a vars => Ok a ∧ (∀ v ∈ vars, v ∈ Dict.keys (scope a)) ∧ vars.Nodup
  | restr a obs => Ok a ∧ ObsOk (scope a) obs

end Expr

private theorem isLeft_combine {I : StoreImpl V S α} {f g r : Factor I}
    (hd : r.dom = domUnion f.dom g.dom)
    (hr : r.rightVars = r.vars.filter fun v => v ∉ f.leftVars ∧ v ∉ g.leftVars) (v : V) :
    v ∈ r.leftVars ↔ v ∈ f.leftVars ∨ v ∈ g.leftVars := by
  have hv : v ∈ r.vars ↔ v ∈ f.vars ∨ v ∈ g.vars := by
    rw [Factor.vars, hd, mem_keys_domUnion]; rfl
  have h1 : v ∈ f.leftVars → v ∈ f.vars := fun h => (List.mem_filter.1 h).1
  have h2 : v ∈ g.leftVars → v ∈ g.vars := fun h => (List.mem_filter.1 h).1
  rw [Factor.leftVars, hr]
  simp only [List.mem_filter, decide_eq_true_eq, hv]
  tauto

/-- Evaluation follows the specification, in every store. -/
theorem expr_eval [Mul α] [Sub α] (vt : VType) (e : Expr V S α) (he : e.Ok) :
    ∃ r, e.eval vt = .ok r ∧ r.WF ∧ r.dom = e.scope ∧
      (∀ a, InDom e.scope a → r.sem a = e.value a) ∧
      (∀ v, v ∈ r.leftVars ↔ e.isLeft v) ∧ (∀ v ∈ r.rightVars, v ∈ r.vars) := by
  have hI := storeOf_lawful (V := V) (S := S) (α := α) vt
  have comb : ∀ (op : α → α → α) (f g : Factor (storeOf vt : StoreImpl V S α)) (a b : Expr V S α),
      f.WF → g.WF → f.dom = a.scope → g.dom = b.scope → Compat a.scope b.scope →
      (∀ x, InDom a.scope x → f.sem x = a.value x) → (∀ x, InDom b.scope x → g.sem x = b.value x) →
      (∀ v, v ∈ f.leftVars ↔ a.isLeft v) → (∀ v, v ∈ g.leftVars ↔ b.isLeft v) →
      ∃ r, Factor.combine op f g = .ok r ∧ r.WF ∧ r.dom = domUnion a.scope b.scope ∧
        (∀ x, InDom (domUnion a.scope b.scope) x → r.sem x = op (a.value x) (b.value x)) ∧
        (∀ v, v ∈ r.leftVars ↔ a.isLeft v ∨ b.isLeft v) ∧ (∀ v ∈ r.rightVars, v ∈ r.vars) := by
    intro op f g a b hf hg hfd hgd hc hfs hgs hfl hgl
    obtain ⟨r, h1, h2, h3, h4, h5⟩ := Factor.combine_ok hI op hf hg (by rw [hfd, hgd]; exact hc)
    refine ⟨r, h1, h2, by rw [h3, hfd, hgd], ?_, ?_, ?_⟩
    · intro x hx
      rw [h5 x (by rw [h3, hfd, hgd]; exact hx), hfs x hx.left, hgs x (hx.right hc)]
    · intro v; rw [isLeft_combine h3 h4, hfl, hgl]
    · intro v hv; rw [h4] at hv; exact (List.mem_filter.1 hv).1
  induction e with
  | table d r values =>
    obtain ⟨f, h1, h2, h3, h4, h5⟩ := Factor.make_ok hI (left := none) (right := some r) he.1 he.2.1 rfl
    refine ⟨f, h1, h2, h3, h5, ?_, ?_⟩
    · intro v; rw [Factor.leftVars, Factor.vars, h3, h4]; simp [Expr.isLeft]
    · rw [h4, Factor.vars, h3]; exact he.2.2
  | mul a b iha ihb =>
    obtain ⟨f, f1, f2, f3, f4, f5, _⟩ := iha he.1
    obtain ⟨g, g1, g2, g3, g4, g5, _⟩ := ihb he.2.1
    obtain ⟨r, h1, h2, h3, h4, h5, h6⟩ := comb (· * ·) f g a b f2 g2 f3 g3 he.2.2 f4 g4 f5 g5
    exact ⟨r, by rw [Expr.eval, f1, g1]; exact h1, h2, h3, h4, h5, h6⟩
  | add a b iha ihb =>
    obtain ⟨f, f1, f2, f3, f4, f5, _⟩ := iha he.1
    obtain ⟨g, g1, g2, g3, g4, g5, _⟩ := ihb he.2.1
    obtain ⟨r, h1, h2, h3, h4, h5, h6⟩ := comb (· + ·) f g a b f2 g2 f3 g3 he.2.2 f4 g4 f5 g5
    exact ⟨r, by rw [Expr.eval, f1, g1]; exact h1, h2, h3, h4, h5, h6⟩
  | sub a b iha ihb =>
    obtain ⟨f, f1, f2, f3, f4, f5, _⟩ := iha he.1
    obtain ⟨g, g1, g2, g3, g4, g5, _⟩ := ihb he.2.1
    obtain ⟨r, h1, h2, h3, h4, h5, h6⟩ := comb (· - ·) f g a b f2 g2 f3 g3 he.2.2 f4 g4 f5 g5
    exact ⟨r, by rw [Expr.eval, f1, g1]; exact h1, h2, h3, h4, h5, h6⟩
  | marg a vars ih =>
    obtain ⟨f, f1, f2, f3, f4, f5, f6⟩ := ih he.1
    obtain ⟨r, h1, h2, h3, h4, h5, h6⟩ := Factor.marginalize_ok hI f2
      (by rw [Factor.vars, f3]; exact he.2.1) he.2.2
    refine ⟨r, by rw [Expr.eval, f1]; exact h1, h2, by rw [h3, f3]; rfl, ?_, ?_, ?_⟩
    · intro x hx
      rw [h6 x (by rw [h3, f3]; exact hx), f3, Expr.value]
      show sumStates _ _ _ = sumStates _ _ _
      rw [sumStates_eq_variants, sumStates_eq_variants]
      congr 1
      refine List.map_congr_left fun b hb => f4 b ?_
      have hd : DomOk a.scope := f3 ▸ f2.domOk hI
      have hb1 := variants_inDom (hd.domIn vars).keys hb
      intro p hp
      by_cases hv : p.1 ∈ vars
      · exact hb1 p (List.mem_filter.2 ⟨hp, by simpa using hv⟩)
      · rw [variants_not_mem hb (by rw [keys_domIn]; simp [hv])]
        exact hx p (List.mem_filter.2 ⟨hp, by simpa using hv⟩)
    · intro v; rw [h4, List.mem_filter, f5]; simp [Expr.isLeft]
    · intro v hv
      rcases (h5 v).1 hv with ⟨hr, h | h⟩
      · exact h
      · subst h
        have : r.vars = f.vars := by rw [Factor.vars, h3, Factor.vars]; simp [domOut]
        rw [this]; exact f6 v hr
  | restr a obs ih =>
    obtain ⟨f, f1, f2, f3, f4, f5, f6⟩ := ih he.1
    obtain ⟨r, h1, h2, h3, h4, h5, h6⟩ := Factor.restrict_ok hI f2 (by rw [f3]; exact he.2)
    refine ⟨r, by rw [Expr.eval, f1]; exact h1, h2, by rw [h3, f3]; rfl, ?_, ?_, ?_⟩
    · intro x hx
      rw [h6 x (by rw [h3, f3]; exact hx), Expr.value]
      refine f4 _ ?_
      intro p hp
      rcases hg : Dict.get? obs p.1 with _ | s
      · have hk : p.1 ∉ Dict.keys obs := Dict.get?_eq_none.1 hg
        rw [over_of_not_mem hk]
        exact hx p (List.mem_filter.2 ⟨hp, by simpa using hk⟩)
      · rw [over_of_get? hg]; exact he.2 p hp s hg
    · intro v; rw [h5, List.mem_filter, f5]; simp [Expr.isLeft]
    · intro v hv
      rcases (h4 v).1 hv with ⟨hr, h | h⟩
      · exact h
      · have : r.vars = f.vars := by
          rw [Factor.vars, h3, Factor.vars]
          congr 1
          rw [List.filter_eq_self]
          intro p hp
          have : p.1 ∉ Dict.keys obs := fun hk => h _ hk (Dict.mem_keys_of_mem hp)
          simpa using this
        rw [this]; exact f6 v hr

/-- **C09** the store type is not observable: any expression evaluates in any two stores to factors
with the same domain and the same value at every full observation. -/
theorem C09_store_independence [Mul α] [Sub α] (e : Expr V S α) (he : e.Ok) (vt vt' : VType) :
    ∃ r r', e.eval vt = .ok r ∧ e.eval vt' = .ok r' ∧ r.dom = r'.dom ∧
      (∀ obs, FullObs r.dom obs → r.getValue obs = r'.getValue obs ∧ ∃ x, r.getValue obs = .ok x) ∧
      r.valuesList = r'.valuesList := by
  obtain ⟨r, h1, h2, h3, h4, _⟩ := expr_eval vt e he
  obtain ⟨r', h1', h2', h3', h4', _⟩ := expr_eval vt' e he
  have key : ∀ obs, FullObs e.scope obs → r.getValue obs = .ok (e.value (asg obs)) ∧
      r'.getValue obs = .ok (e.value (asg obs)) := by
    intro obs ho
    rw [Factor.getValue_full (storeOf_lawful vt) h2 (by rw [h3]; exact ho),
      Factor.getValue_full (storeOf_lawful vt') h2' (by rw [h3']; exact ho), h4 _ ho.inDom, h4' _ ho.inDom]
    exact ⟨rfl, rfl⟩
  refine ⟨r, r', h1, h1', by rw [h3, h3'], ?_, ?_⟩
  · intro obs ho
    obtain ⟨k1, k2⟩ := key obs (by rw [← h3]; exact ho)
    exact ⟨by rw [k1, k2], _, k1⟩
  · rw [Factor.valuesList_ok (storeOf_lawful vt) h2, Factor.valuesList_ok (storeOf_lawful vt') h2', h3, h3']
    congr 1
    refine List.map_congr_left fun o ho => ?_
    have hd : DomOk e.scope := h3 ▸ h2.domOk (storeOf_lawful vt)
    have := (mem_assignmentSpace_fullObs hd.keys ho).inDom
    rw [h4 _ this, h4' _ this]

/-- **C15** (left/right bookkeeping) whatever the operations, the result's left and right variables
partition its variables, and the left ones are those given by the specification `isLeft`:
in particular a product conditions on exactly the variables that are on the left of neither
operand. -/
theorem C15_left_right_bookkeeping [Mul α] [Sub α] (vt : VType) (e : Expr V S α) (he : e.Ok) :
    ∃ r, e.eval vt = .ok r ∧ (∀ v, v ∈ r.vars ↔ v ∈ r.leftVars ∨ v ∈ r.rightVars) ∧
      (∀ v, ¬ (v ∈ r.leftVars ∧ v ∈ r.rightVars)) ∧
      (∀ v, v ∈ r.leftVars ↔ e.isLeft v) ∧
      (∀ v, v ∈ r.rightVars ↔ v ∈ Dict.keys e.scope ∧ ¬ e.isLeft v) := by
  obtain ⟨r, h1, h2, h3, _, h5, h6⟩ := expr_eval vt e he
  have hl : ∀ v, v ∈ r.leftVars ↔ v ∈ r.vars ∧ v ∉ r.rightVars := by
    intro v; simp [Factor.leftVars, List.mem_filter]
  have hk : r.vars = Dict.keys e.scope := by rw [Factor.vars, h3]
  refine ⟨r, h1, ?_, ?_, h5, ?_⟩
  · intro v; rw [hl]
    have := h6 v
    by_cases hv : v ∈ r.rightVars <;> simp [hv, this]
  · intro v ⟨a, b⟩; exact ((hl v).1 a).2 b
  · intro v
    rw [← h5, hl, ← hk]
    have := h6 v
    by_cases hv : v ∈ r.rightVars <;> simp [hv]
    · exact this hv

/-- A well-formed expression: `((P(X|Y) * P(Z,Y)) ** Y).R(X=b)`. -/
def exExpr : Expr Char Char ℤ :=
  .restr (.marg (.mul (.table dXY ['Y'] [1, 2, 3, 4, 5, 6]) (.table dZY [] [10, 20, 30, 40, 50, 60])) ['Y'])
    [('X', 'b')]

theorem exExpr_ok : exExpr.Ok := by
  refine ⟨⟨⟨⟨dXY_ok, by decide, by decide⟩, ⟨dZY_ok, by decide, by decide⟩, compat_XY_ZY⟩, by decide, by decide⟩, ?_⟩
  intro p hp x hx
  have : p = ('X', ['a', 'b']) ∨ p = ('Z', ['f', 'g']) := by
    have : p ∈ [('X', ['a', 'b']), ('Z', ['f', 'g'])] := hp
    simpa using this
  rcases this with rfl | rfl
  · simp [Dict.get?] at hx; subst hx; decide
  · simp [Dict.get?] at hx

example : ∀ vt ∈ [VType.numpy, .numpy1d, .list, .treedict],
    (do let r ← exExpr.eval vt
        let l ← r.valuesList
        return (r.leftVars, r.rightVars, l)) = (.ok (['Z'], [], [320, 770]) : Py _) := by
  decide +kernel

/-! ### C10: writes -/

/-- A sequence of writes `set_value(x, obs)`. -/
def writes (vt : VType) (s : (storeOf vt : StoreImpl V S α).St) (ws : List (α × Obs V S)) :
    Py (storeOf vt : StoreImpl V S α).St :=
  ws.foldlM (fun s w => (storeOf vt).setValue s w.1 w.2) s

/-- Two observations give the same joint state. -/
def SameCell (d : Dom V S) (o o' : Obs V S) : Prop := ∀ v ∈ Dict.keys d, Dict.get? o v = Dict.get? o' v

instance (d : Dom V S) (o o' : Obs V S) : Decidable (SameCell d o o') := by
  unfold SameCell; infer_instance

/-- Specification: the last write to the cell wins; otherwise the original value. -/
def afterWrites (d : Dom V S) (obs : Obs V S) (x0 : α) (ws : List (α × Obs V S)) : α :=
  ws.foldl (fun x w => if SameCell d w.2 obs then w.1 else x) x0

/-- **C10** after any sequence of writes at full observations, `get_value` returns the last value
written to that cell, or the original value if it was never written. -/
theorem C10_read_after_writes (vt : VType) {s : (storeOf vt : StoreImpl V S α).St}
    (hs : (storeOf vt : StoreImpl V S α).WF s) (ws : List (α × Obs V S))
    (hws : ∀ w ∈ ws, FullObs ((storeOf vt : StoreImpl V S α).dom s) w.2) :
    ∃ r, writes vt s ws = .ok r ∧ (storeOf vt : StoreImpl V S α).WF r ∧
      (storeOf vt : StoreImpl V S α).dom r = (storeOf vt : StoreImpl V S α).dom s ∧
      ∀ obs, FullObs ((storeOf vt : StoreImpl V S α).dom s) obs →
        ∃ x0, (storeOf vt : StoreImpl V S α).getValue s obs = .ok x0 ∧
          (storeOf vt : StoreImpl V S α).getValue r obs
            = .ok (afterWrites ((storeOf vt : StoreImpl V S α).dom s) obs x0 ws) := by
  have hI := storeOf_lawful (V := V) (S := S) (α := α) vt
  induction ws generalizing s with
  | nil =>
    exact ⟨s, rfl, hs, rfl, fun obs ho => ⟨_, hI.getValue_ok hs ho.inDom ho.covers,
      hI.getValue_ok hs ho.inDom ho.covers⟩⟩
  | cons w ws ih =>
    have hw := hws w List.mem_cons_self
    obtain ⟨t, h1, h2, h3, h4, h5⟩ := hI.setValue_ok hs w.1 hw.inDom hw.covers
    obtain ⟨r, r1, r2, r3, r4⟩ := ih h2 (by rw [h3]; exact fun w' hw' => hws w' (List.mem_cons_of_mem _ hw'))
    refine ⟨r, by rw [writes, List.foldlM_cons, h1]; exact r1, r2, r3.trans h3, ?_⟩
    intro obs ho
    obtain ⟨x0, e1, e2⟩ := r4 obs (by rw [h3]; exact ho)
    refine ⟨_, hI.getValue_ok hs ho.inDom ho.covers, ?_⟩
    rw [e2, h3, afterWrites, afterWrites, List.foldl_cons]
    congr 2
    rw [hI.getValue_ok h2 (by rw [h3]; exact ho.inDom) (by rw [h3]; exact ho.covers)] at e1
    rw [← Except.ok.inj e1]
    have hcell : SameCell ((storeOf vt : StoreImpl V S α).dom s) w.2 obs ↔
        ∀ v ∈ Dict.keys ((storeOf vt : StoreImpl V S α).dom s), asg obs v = asg w.2 v := by
      constructor
      · intro h v hv
        have e1 := hw.covers v hv
        have e2 := ho.covers v hv
        rw [h v hv, e2] at e1
        exact Option.some.inj e1
      · intro h v hv
        rw [hw.covers v hv, ho.covers v hv, h v hv]
    by_cases h : SameCell ((storeOf vt : StoreImpl V S α).dom s) w.2 obs
    · rw [if_pos h, h4 _ ho.inDom (hcell.1 h)]
    · rw [if_neg h, h5 _ ho.inDom (fun hh => h (hcell.2 hh))]

example (vt : VType) : ∃ s : (storeOf vt : StoreImpl Char Char ℤ).St,
    (storeOf vt : StoreImpl Char Char ℤ).WF s ∧
    ∀ w ∈ [(100, [('Y', 'd'), ('X', 'b')]), (200, [('X', 'a'), ('Y', 'e')])],
      FullObs ((storeOf vt : StoreImpl Char Char ℤ).dom s) (Prod.snd (α := ℤ) w) := by
  obtain ⟨s, h1, h2, h3, _⟩ := (storeOf_lawful (V := Char) (S := Char) (α := ℤ) vt).ofFlat_ok dXY_ok
    (data := [1, 2, 3, 4, 5, 6]) (by decide)
  refine ⟨s, h2, ?_⟩
  rw [h3]
  simp [FullObs, dXY, Dict.get?]

example : ∀ vt ∈ [VType.numpy, .numpy1d, .list, .treedict],
    (do let s ← (storeOf vt : StoreImpl Char Char ℤ).ofFlat dXY [1, 2, 3, 4, 5, 6]
        let r ← writes vt s [(100, [('Y', 'd'), ('X', 'b')]), (200, [('X', 'a'), ('Y', 'e')])]
        (storeOf vt).valuesList r) = (.ok [1, 2, 200, 4, 100, 6] : Py _) := by
  decide +kernel

end Verif.Props
