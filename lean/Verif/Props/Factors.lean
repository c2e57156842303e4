import Verif.Factor.Api
import Mathlib.Tactic.Ring

/-!
# Properties of factor operations (C01, C03, C04, C05, C07, C12)

Statements use only the modelled API (`make`, `get_value`, `values_list`, the operation
itself) and the specification in `Verif.Spec.Sum`.  `storeOf vt` is the store selected by
`vtype`; `Factor.WF` holds of every factor built by the constructor
(`wf_of_make`) and is preserved by every operation (each theorem says so).
-/

set_option linter.unusedSectionVars false
set_option linter.unusedSimpArgs false

namespace Verif.Props
open Verif

variable {V S α : Type} [DecidableEq V] [DecidableEq S] [Nonempty S] [Inhabited α] [AddCommMonoid α]

/-! ### Examples used below -/

/-- X ∈ {a,b}, Y ∈ {c,d,e} -/
def dXY : Dom Char Char := [('X', ['a', 'b']), ('Y', ['c', 'd', 'e'])]
/-- Z ∈ {f,g}, Y ∈ {c,d,e} -/
def dZY : Dom Char Char := [('Z', ['f', 'g']), ('Y', ['c', 'd', 'e'])]
def dX : Dom Char Char := [('X', ['a', 'b'])]

theorem dXY_ok : DomOk dXY := ⟨by decide, by decide, by decide⟩
theorem dZY_ok : DomOk dZY := ⟨by decide, by decide, by decide⟩
theorem dX_ok : DomOk dX := ⟨by decide, by decide, by decide⟩
theorem compat_XY_ZY : Compat dXY dZY := by simp [Compat, dXY, dZY]

/-- Every factor built by the constructor from a domain with distinct variables and distinct
states is well formed. -/
theorem wf_of_make (vt : VType) {d : Dom V S} {values : List α} {left right : Option (List V)}
    {f : Factor (storeOf vt)} (hd : DomOk d) (h : Factor.make (storeOf vt) d values left right = .ok f) :
    f.WF ∧ f.dom = d := by
  have hI := storeOf_lawful (V := V) (S := S) (α := α) vt
  by_cases hl : values.length = (cards d).prod
  · rcases hr : Factor.setVariables (Dict.keys d) left right with e | r
    · obtain ⟨st, h1, _⟩ := hI.ofFlat_ok hd hl
      simp [Factor.make, Factor.checkDomain_ok hd, hr, h1] at h
    · obtain ⟨g, h1, h2, h3, _⟩ := Factor.make_ok hI hd hl hr
      rw [h] at h1; cases h1; exact ⟨h2, h3⟩
  · simp [Factor.make, Factor.checkDomain_ok hd, hI.ofFlat_error hl] at h

example (vt : VType) : ∃ f : Factor (storeOf vt : StoreImpl Char Char ℤ),
    Factor.make _ dXY [1, 2, 3, 4, 5, 6] none none = .ok f ∧ f.WF := by
  obtain ⟨f, h1, h2, _⟩ := Factor.make_ok (storeOf_lawful (V := Char) (S := Char) (α := ℤ) vt)
    (left := none) (right := none) (values := [1, 2, 3, 4, 5, 6]) dXY_ok (by decide) rfl
  exact ⟨f, h1, h2⟩

/-- Two tables with a shared variable, in every store: the hypotheses of the theorems below. -/
theorem ex_pair (vt : VType) : ∃ f g : Factor (storeOf vt : StoreImpl Char Char ℤ),
    Factor.make _ dXY [1, 2, 3, 4, 5, 6] none none = .ok f ∧
    Factor.make _ dZY [10, 20, 30, 40, 50, 60] none none = .ok g ∧
    f.WF ∧ g.WF ∧ Compat f.dom g.dom := by
  have hI := storeOf_lawful (V := Char) (S := Char) (α := ℤ) vt
  obtain ⟨f, h1, h2, h3, _⟩ := Factor.make_ok hI
    (left := none) (right := none) (values := [1, 2, 3, 4, 5, 6]) dXY_ok (by decide) rfl
  obtain ⟨g, g1, g2, g3, _⟩ := Factor.make_ok hI
    (left := none) (right := none) (values := [10, 20, 30, 40, 50, 60]) dZY_ok (by decide) rfl
  exact ⟨f, g, h1, g1, h2, g2, by rw [h3, g3]; exact compat_XY_ZY⟩

/-! ### C01 -/

/-- **C01** `f*g` is the pointwise product on the union of the scopes, in every store. -/
theorem C01_product_pointwise [Mul α] (vt : VType) {f g : Factor (storeOf vt : StoreImpl V S α)}
    (hf : f.WF) (hg : g.WF) (hc : Compat f.dom g.dom) :
    ∃ r, f.multiply g = .ok r ∧ r.WF ∧ r.vars = f.vars ++ g.vars.filter (fun v => v ∉ f.vars) ∧
      r.dom = domUnion f.dom g.dom ∧
      ∀ obs, FullObs r.dom obs →
        ∃ x y, f.getValue obs = .ok x ∧ g.getValue obs = .ok y ∧ r.getValue obs = .ok (x * y) := by
  obtain ⟨r, h1, h2, h3, h4⟩ := Factor.combine_getValue (storeOf_lawful vt) (· * ·) hf hg hc
  exact ⟨r, h1, h2, Factor.vars_of_dom h3, h3, h4⟩

example (vt : VType) : ∃ f g : Factor (storeOf vt : StoreImpl Char Char ℤ),
    f.WF ∧ g.WF ∧ Compat f.dom g.dom :=
  let ⟨f, g, _, _, h⟩ := ex_pair vt; ⟨f, g, h⟩

/-- What the model computes on the example, for each store. -/
example : ∀ vt ∈ [VType.numpy, .numpy1d, .list, .treedict],
    (do let f ← Factor.make (storeOf vt : StoreImpl Char Char ℤ) dXY [1, 2, 3, 4, 5, 6] none none
        let g ← Factor.make (storeOf vt) dZY [10, 20, 30, 40, 50, 60] none none
        let r ← f.multiply g
        let l ← r.valuesList
        return (r.vars, l)) =
      (.ok (['X', 'Y', 'Z'], [10, 40, 40, 100, 90, 180, 40, 160, 100, 250, 180, 360]) : Py _) := by
  decide +kernel

/-! ### C03 -/

/-- **C03** (first half) `f+g` and `f-g` are pointwise on the union of the scopes. -/
theorem C03_sum_pointwise (vt : VType) {f g : Factor (storeOf vt : StoreImpl V S α)}
    (hf : f.WF) (hg : g.WF) (hc : Compat f.dom g.dom) :
    ∃ r, f.addition g = .ok r ∧ r.WF ∧ r.vars = f.vars ++ g.vars.filter (fun v => v ∉ f.vars) ∧
      ∀ obs, FullObs r.dom obs →
        ∃ x y, f.getValue obs = .ok x ∧ g.getValue obs = .ok y ∧ r.getValue obs = .ok (x + y) := by
  obtain ⟨r, h1, h2, h3, h4⟩ := Factor.combine_getValue (storeOf_lawful vt) (· + ·) hf hg hc
  exact ⟨r, h1, h2, Factor.vars_of_dom h3, h4⟩

theorem C03_difference_pointwise [Sub α] (vt : VType) {f g : Factor (storeOf vt : StoreImpl V S α)}
    (hf : f.WF) (hg : g.WF) (hc : Compat f.dom g.dom) :
    ∃ r, f.subtract g = .ok r ∧ r.WF ∧ r.vars = f.vars ++ g.vars.filter (fun v => v ∉ f.vars) ∧
      ∀ obs, FullObs r.dom obs →
        ∃ x y, f.getValue obs = .ok x ∧ g.getValue obs = .ok y ∧ r.getValue obs = .ok (x - y) := by
  obtain ⟨r, h1, h2, h3, h4⟩ := Factor.combine_getValue (storeOf_lawful vt) (· - ·) hf hg hc
  exact ⟨r, h1, h2, Factor.vars_of_dom h3, h4⟩

/-- **C03** (second half) A scalar operand acts on every cell and leaves the scope and the
left/right split as they were.  `op` is any of `+`, `-`, `*`. -/
theorem C03_scalar_operand (vt : VType) (op : α → α → α) {f : Factor (storeOf vt : StoreImpl V S α)}
    (hf : f.WF) (c : α) :
    ∃ g r, f.prepareScalar c = .ok g ∧ Factor.combine op f g = .ok r ∧ r.WF ∧ r.dom = f.dom ∧
      r.leftVars = f.leftVars ∧ (∀ v, v ∈ r.rightVars ↔ v ∈ f.rightVars ∧ v ∈ f.vars) ∧
      ∀ obs, FullObs f.dom obs →
        ∃ x, f.getValue obs = .ok x ∧ r.getValue obs = .ok (op x c) := by
  have hI := storeOf_lawful (V := V) (S := S) (α := α) vt
  obtain ⟨g, g1, g2, g3, g4, g5⟩ := Factor.prepareScalar_ok hI f c
  have hc : Compat f.dom g.dom := by rw [g3]; intro p _ q hq; simp at hq
  obtain ⟨r, h1, h2, h3, h4, h5⟩ := Factor.combine_ok hI op hf g2 hc
  have hd : r.dom = f.dom := by rw [h3, g3]; simp [domUnion]
  have hv : r.vars = f.vars := by rw [Factor.vars, hd]; rfl
  have hgl : g.leftVars = [] := by simp [Factor.leftVars, Factor.vars, g3]
  have hr : ∀ v, v ∈ r.rightVars ↔ v ∈ f.rightVars ∧ v ∈ f.vars := by
    intro v
    rw [h4, hgl, hv]
    simp only [List.mem_filter, Factor.leftVars, decide_eq_true_eq, List.not_mem_nil, not_false_eq_true,
      and_true, decide_not, Bool.not_eq_true', decide_eq_false_iff_not, not_and, not_not]
    tauto
  refine ⟨g, r, g1, h1, h2, hd, ?_, hr, ?_⟩
  · rw [Factor.leftVars, hv, Factor.leftVars]
    refine List.filter_congr fun v hv' => ?_
    simp [hr, hv']
  · intro obs ho
    refine ⟨_, Factor.getValue_full hI hf ho, ?_⟩
    rw [Factor.getValue_full hI h2 (by rw [hd]; exact ho), h5 _ (by rw [hd]; exact ho.inDom), g5]

example : ∀ vt ∈ [VType.numpy, .numpy1d, .list, .treedict],
    (do let f ← Factor.make (storeOf vt : StoreImpl Char Char ℤ) dXY [1, 2, 3, 4, 5, 6] none (some ['Y'])
        let g ← f.prepareScalar 10
        let r ← f.subtract g
        let l ← r.valuesList
        return (r.leftVars, r.rightVars, l)) =
      (.ok (['X'], ['Y'], [-9, -8, -7, -6, -5, -4]) : Py _) := by
  decide +kernel

/-! ### C04 -/

section
variable {K : Type} [Field K] [LinearOrder K]

/-- **C04** division is pointwise wherever the divisor is a non-zero number, in every store. -/
theorem C04_division_pointwise (vt : VType) {f g : Factor (storeOf vt : StoreImpl V S (Fl K))}
    (hf : f.WF) (hg : g.WF) (hc : Compat f.dom g.dom) :
    ∃ r, f.divide g = .ok r ∧ r.WF ∧ r.dom = domUnion f.dom g.dom ∧
      (∀ v, v ∈ r.rightVars ↔ v ∈ r.vars ∧ (v ∈ f.rightVars ∨ v ∈ g.vars)) ∧
      ∀ obs x y, FullObs r.dom obs → f.getValue obs = .ok (.fin x) → g.getValue obs = .ok (.fin y) →
        y ≠ 0 → r.getValue obs = .ok (.fin (x / y)) := by
  have hI := storeOf_lawful (V := V) (S := S) (α := Fl K) vt
  obtain ⟨r, h1, h2, h3, h4, h5⟩ := Factor.divideG_ok hI
    (fun x y => (storeOf vt : StoreImpl V S (Fl K)).divWrap Fl.nanToNum (x / y)) hf hg hc
  refine ⟨r, h1, h2, h3, ?_, ?_⟩
  · intro v; rw [h4]; simp
  · intro obs x y ho hx hy hne
    have ho' := ho
    rw [h3] at ho'
    rw [Factor.getValue_full hI hf ho'.left] at hx
    rw [Factor.getValue_full hI hg (ho'.right hc)] at hy
    rw [Factor.getValue_full hI h2 ho, h5 _ ho.inDom, Except.ok.inj hx, Except.ok.inj hy,
      Fl.fin_div hne]
    rcases hI.divWrap_or with e | e <;> rw [e] <;> rfl

/-- **C04** in the default store `0/0` is `0` and no cell of a quotient is ever NaN. -/
theorem C04_zero_over_zero {f g : Factor (storeOf .numpy : StoreImpl V S (Fl K))}
    (hf : f.WF) (hg : g.WF) (hc : Compat f.dom g.dom) :
    ∃ r, f.divide g = .ok r ∧ r.WF ∧
      (∀ obs, FullObs r.dom obs → f.getValue obs = .ok (.fin 0) → g.getValue obs = .ok (.fin 0) →
        r.getValue obs = .ok (.fin 0)) ∧
      (∀ obs, FullObs r.dom obs → ∃ z : K, r.getValue obs = .ok (.fin z)) := by
  have hI := storeOf_lawful (V := V) (S := S) (α := Fl K) .numpy
  obtain ⟨r, h1, h2, h3, h4⟩ := Factor.divideG_getValue hI
    (fun x y => (storeOf .numpy : StoreImpl V S (Fl K)).divWrap Fl.nanToNum (x / y)) hf hg hc
  refine ⟨r, h1, h2, ?_, ?_⟩
  · intro obs ho hx hy
    obtain ⟨x, y, e1, e2, e3⟩ := h4 obs ho
    rw [hx] at e1; rw [hy] at e2; cases e1; cases e2
    rw [e3]
    show Except.ok (Fl.nanToNum (Fl.fin (0 : K) / Fl.fin 0)) = _
    rw [Fl.zero_div_zero]; rfl
  · intro obs ho
    obtain ⟨x, y, _, _, e3⟩ := h4 obs ho
    rw [e3]
    show ∃ z, Except.ok (Fl.nanToNum (x / y)) = _
    rcases x / y with z | _ | _ | _
    · exact ⟨z, rfl⟩
    · exact ⟨0, rfl⟩
    · exact ⟨_, rfl⟩
    · exact ⟨_, rfl⟩

end

/-- On the example the numpy store gives 0 for 0/0 where the list store gives NaN. -/
example : (do
    let f ← Factor.make (storeOf .numpy : StoreImpl Char Char (Fl ℚ)) dX [.fin 0, .fin 3] none none
    let g ← Factor.make (storeOf .numpy) dX [.fin 0, .fin 4] none none
    let r ← f.divide g
    r.valuesList) = (.ok [.fin 0, .fin (3/4)] : Py _) := by decide +kernel
example : (do
    let f ← Factor.make (storeOf .list : StoreImpl Char Char (Fl ℚ)) dX [.fin 0, .fin 3] none none
    let g ← Factor.make (storeOf .list) dX [.fin 0, .fin 4] none none
    let r ← f.divide g
    r.valuesList) = (.ok [.nan, .fin (3/4)] : Py _) := by decide +kernel

/-! ### C05 -/

/-- **C05** `f**vars` keeps the other variables in order and sums over exactly the joint states
of the removed ones; the summands are the values of `f` read through `get_value`. -/
theorem C05_marginalize_sums (vt : VType) {f : Factor (storeOf vt : StoreImpl V S α)} (hf : f.WF)
    {vars : List V} (hsub : ∀ v ∈ vars, v ∈ f.vars) (hnd : vars.Nodup) :
    ∃ r, f.marginalize vars = .ok r ∧ r.WF ∧ r.vars = f.vars.filter (fun v => v ∉ vars) ∧
      r.dom = domOut f.dom vars ∧
      ∀ obs, FullObs r.dom obs →
        ∃ l, ((assignmentSpace (domIn f.dom vars)).mapM fun o => f.getValue (o ++ obs)) = .ok l ∧
          r.getValue obs = .ok l.sum := by
  have hI := storeOf_lawful (V := V) (S := S) (α := α) vt
  obtain ⟨r, h1, h2, h3, _, _, h4⟩ := Factor.marginalize_ok hI hf hsub hnd
  refine ⟨r, h1, h2, ?_, h3, ?_⟩
  · rw [Factor.vars, h3, keys_domOut]; rfl
  · intro obs ho
    refine ⟨_, Factor.mapM_getValue_domIn hI hf vars (by rw [← h3]; exact ho), ?_⟩
    rw [Factor.getValue_full hI h2 ho, h4 _ ho.inDom, sumStates_eq_variants]

/-- **C05** removing only variables that `f` does not have returns `f` itself. -/
theorem C05_marginalize_absent (vt : VType) {f : Factor (storeOf vt : StoreImpl V S α)}
    {vars : List V} (h : ∀ v ∈ vars, v ∉ f.vars) : f.marginalize vars = .ok f :=
  Factor.marginalize_none (storeOf_lawful vt) h

example (vt : VType) : ∃ f : Factor (storeOf vt : StoreImpl Char Char ℤ), f.WF ∧
    (∀ v ∈ ['Y', 'X'], v ∈ f.vars) ∧ ['Y', 'X'].Nodup := by
  obtain ⟨f, h1, h2, h3, _⟩ := Factor.make_ok (storeOf_lawful (V := Char) (S := Char) (α := ℤ) vt)
    (left := none) (right := none) (values := [1, 2, 3, 4, 5, 6]) dXY_ok (by decide) rfl
  refine ⟨f, h2, ?_, by decide⟩
  rw [Factor.vars, h3]; decide

example : ∀ vt ∈ [VType.numpy, .numpy1d, .list, .treedict],
    (do let f ← Factor.make (storeOf vt : StoreImpl Char Char ℤ) dXY [1, 2, 3, 4, 5, 6] none none
        let r ← f.marginalize ['X']
        let l ← r.valuesList
        return (r.vars, l)) = (.ok (['Y'], [5, 7, 9]) : Py _) := by
  decide +kernel

/-! ### C07 -/

/-- **C07** `f.R(**obs)` drops exactly the observed variables of `f` and conditions on the
observed states; observed variables outside `f` are ignored (they do not constrain `ObsOk`). -/
theorem C07_restrict_conditions (vt : VType) {f : Factor (storeOf vt : StoreImpl V S α)} (hf : f.WF)
    {obs : Obs V S} (ho : ObsOk f.dom obs) :
    ∃ r, f.restrict obs = .ok r ∧ r.WF ∧ r.dom = f.dom.filter (fun p => p.1 ∉ Dict.keys obs) ∧
      ∀ o, FullObs r.dom o → ∃ x, f.getValue (obs ++ o) = .ok x ∧ r.getValue o = .ok x := by
  have hI := storeOf_lawful (V := V) (S := S) (α := α) vt
  obtain ⟨r, h1, h2, h3, _, _, h4⟩ := Factor.restrict_ok hI hf ho
  refine ⟨r, h1, h2, h3, fun o hfo => ?_⟩
  have hfull : FullObs f.dom (obs ++ o) := FullObs.append ho (by rw [← h3]; exact hfo)
  exact ⟨_, Factor.getValue_full hI hf hfull, by
    rw [Factor.getValue_full hI h2 hfo, h4 _ hfo.inDom, asg_append]⟩

/-- **C07** a state outside the domain raises. -/
theorem C07_restrict_bad_state (vt : VType) {f : Factor (storeOf vt : StoreImpl V S α)} (hf : f.WF)
    {obs : Obs V S} {v : V} {s : S} {states : List S} (hv : (v, states) ∈ f.dom)
    (hs : Dict.get? obs v = some s) (hbad : s ∉ states) : ∃ e, f.restrict obs = .error e := by
  have hI := storeOf_lawful (V := V) (S := S) (α := α) vt
  have h0 : ¬ ∀ w ∈ Dict.keys obs, w ∉ f.vars := by
    intro h
    exact h v (Dict.get?_isSome.1 (by rw [hs]; rfl)) (Dict.mem_keys_of_mem (p := (v, states)) hv)
  obtain ⟨e, he⟩ := hI.restrict_error hf (obs := obs) (fun h => hbad (h (v, states) hv s hs))
  exact ⟨e, by rw [Factor.restrict, if_neg h0, he]; rfl⟩

example (vt : VType) : ∃ f : Factor (storeOf vt : StoreImpl Char Char ℤ), f.WF ∧
    ObsOk f.dom [('Y', 'd'), ('W', 'w')] := by
  obtain ⟨f, h1, h2, h3, _⟩ := Factor.make_ok (storeOf_lawful (V := Char) (S := Char) (α := ℤ) vt)
    (left := none) (right := none) (values := [1, 2, 3, 4, 5, 6]) dXY_ok (by decide) rfl
  refine ⟨f, h2, ?_⟩
  rw [h3]
  intro p hp x hx
  simp only [dXY, List.mem_cons, List.not_mem_nil, or_false] at hp
  rcases hp with rfl | rfl
  · simp [Dict.get?] at hx
  · simp [Dict.get?] at hx; subst hx; decide

example : ∀ vt ∈ [VType.numpy, .numpy1d, .list, .treedict],
    (do let f ← Factor.make (storeOf vt : StoreImpl Char Char ℤ) dXY [1, 2, 3, 4, 5, 6] none none
        let r ← f.restrict [('Y', 'd'), ('W', 'w')]
        let l ← r.valuesList
        return (r.vars, l)) = (.ok (['X'], [2, 5]) : Py _) := by
  decide +kernel

/-! ### C12 -/

/-- **C12** a factor built from a flat row-major list returns that list. -/
theorem C12_values_roundtrip (vt : VType) {d : Dom V S} (hd : DomOk d) {values : List α}
    (hl : values.length = (cards d).prod) :
    ∃ f, Factor.make (storeOf vt) d values none none = .ok f ∧ f.valuesList = .ok values := by
  have hI := storeOf_lawful (V := V) (S := S) (α := α) vt
  obtain ⟨f, h1, h2, h3, _, h5⟩ := Factor.make_ok hI (left := none) (right := none) hd hl rfl
  refine ⟨f, h1, ?_⟩
  rw [Factor.valuesList_ok hI h2, h3]
  congr 1
  obtain ⟨a⟩ : Nonempty (V → S) := ⟨fun _ => Classical.arbitrary S⟩
  have e1 : (assignmentSpace d).map (fun o => f.sem (asg o))
      = (variants d (fun _ => Classical.arbitrary S)).map f.sem := by
    rw [variants_eq_assignmentSpace hd.keys, List.map_map]; rfl
  have e2 : (variants d (fun _ => Classical.arbitrary S)).map f.sem
      = (variants d (fun _ => Classical.arbitrary S)).map
          (fun b => values.getD (ravel (cards d) (coords d b)) default) := by
    refine List.map_congr_left fun b hb => ?_
    exact h5 b (variants_inDom hd.keys hb)
  rw [e1, e2]
  rw [← map_idxSpace_cards hd (fun _ => Classical.arbitrary S)
    (fun idx => values.getD (ravel (cards d) idx) default)]
  have e3 : (idxSpace (cards d)).map (fun idx => values.getD (ravel (cards d) idx) default)
      = ((idxSpace (cards d)).map (ravel (cards d))).map (fun i => values.getD i default) := by
    rw [List.map_map]; rfl
  rw [e3, map_ravel_idxSpace, ← hl]
  refine List.ext_getElem (by simp) ?_
  intro i h1 h2
  simp [List.getD_eq_getElem?_getD, h2]

/-- **C12** a list of the wrong length is rejected. -/
theorem C12_wrong_length (vt : VType) {d : Dom V S} (hd : DomOk d) {values : List α}
    (hl : values.length ≠ (cards d).prod) (left right : Option (List V)) :
    Factor.make (storeOf vt) d values left right = .error .valueError := by
  simp [Factor.make, Factor.checkDomain_ok hd, (storeOf_lawful (V := V) (S := S) (α := α) vt).ofFlat_error hl]

example : DomOk dXY ∧ [1, 2, 3, 4, 5, 6].length = (cards dXY).prod := ⟨dXY_ok, by decide⟩

end Verif.Props
