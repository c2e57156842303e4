import Verif.Props.Gradient
import Mathlib.Data.Rat.Cast.Order

/-!
# C61: examples and what the code does outside the hypotheses
-/

set_option linter.unusedSectionVars false
set_option linter.unusedSimpArgs false

namespace Verif.Props

/-- Records of the example model: four complete ones and one whose `Z` is missing -/
def frGrad : Frame PyStr Char :=
  ⟨[sX, sY, sZ],
   [[(sX, some '0'), (sY, some '1'), (sZ, some '1')], [(sX, some '1'), (sY, some '0'), (sZ, some '1')],
    [(sX, some '1'), (sY, some '0'), (sZ, some '0')], [(sX, some '1'), (sY, some '0'), (sZ, some '1')],
    [(sX, some '1'), (sY, some '0'), (sZ, none)]]⟩

/-- The hypotheses of `C61_objective_partial`, `C61_order`, `C61_not_counted` (but for its last one) and `C61_updated`, together -/
theorem ex_gradient (vt : VType) : ∃ (m : SCM (IS vt PyStr) (LS vt PyStr)) (B : BN PyStr Char ℚ),
    exScm vt none true = .ok m ∧ m.Rep B ∧ B.Valid ∧ B.Normalised ∧ B.NonNeg ∧ m.Doms B ∧ m.endogenous = [sX, sY, sZ] ∧
      (∀ U ∈ B.nodes, U ∉ m.endogenous → B.parents U = []) ∧
      (∀ U ∈ B.nodes, U ∉ m.endogenous → Gradient.Single m B U) ∧ B.kids m.endogenous sU ≠ [] ∧
      (∀ v ∈ B.nodes, v ∈ m.endogenous → v ∈ frGrad.cols) ∧ (∀ v ∈ B.compScope m.endogenous sU, v ∈ frGrad.cols) := by
  obtain ⟨l, B, h⟩ := ex_scm vt
  have hend : SCM.endoOr gScm none = [sX, sY, sZ] := by decide
  obtain ⟨m, e1, e2, e3, e4, e5, e6⟩ := C61_built h.valid h.graph h.nodes h.parents (by rw [h.keys]) h.tables none true
    (by rw [hend]; exact h.equations)
  rw [hend] at e5
  have hnodes : B.nodes = [sU, sW, sX, sY, sZ] := h.nodes.symm
  have hpar : ∀ v ∈ B.nodes, ∀ p, p ∈ B.parents v ↔ (p, v) ∈ gScm.edges := h.parents
  have hsU : sX ∈ B.kids m.endogenous sU := by
    refine Gradient.mem_kids.2 ⟨by rw [hnodes]; decide, by rw [e5]; decide, (hpar sX (by rw [hnodes]; decide) sU).2 (by decide)⟩
  have hcols : ∀ v ∈ m.endogenous, v ∈ frGrad.cols := by rw [e5]; decide
  refine ⟨m, B, by rw [exScm, h.facs]; exact e2, e3, h.valid, h.norm, h.nonneg, e4, e5, ?_, ?_, List.ne_nil_of_mem hsU,
    fun v _ hv => hcols v hv, fun v hv => hcols v ?_⟩
  · intro U hU hUE
    rw [List.eq_nil_iff_forall_not_mem]
    intro p hp
    have := (hpar U hU p).1 hp
    have hall : ∀ e ∈ gScm.edges, e.2 ∈ [sX, sY, sZ] := by decide
    rw [e5] at hUE
    exact hUE (hall _ this)
  · intro U hU hUE
    refine e6 U hU hUE fun v hv hvE hUv p hp => ?_
    have h1 := (hpar v hv U).1 hUv
    have h2 := (hpar v hv p).1 hp
    rw [e5] at hUE ⊢
    have hall : ∀ e ∈ gScm.edges, ∀ e' ∈ gScm.edges, e.2 = e'.2 → e.1 ∉ [sX, sY, sZ] → e'.1 ∈ [sX, sY, sZ] ∨ e'.1 = e.1 := by decide
    exact hall _ h1 _ h2 rfl hUE
  · simp only [BN.compScope, List.mem_filter, decide_eq_true_eq] at hv
    rcases hv.2 with h' | h'
    · exact (Gradient.mem_kids.1 h').2.1
    · exact h'.1

/-- The objective of the example for `U`, with `log x` replaced by `x` to have numbers: minus the sum of the probabilities of the four
complete records; infinite for parameters that make a record impossible. -/
example : ∀ vt, (do
      let m ← exScm vt none true
      let x ← Gradient.objective (fun x : ℚ => x) m sU frGrad [1/2, 1/3, 1/6]
      let y ← Gradient.objective (fun x : ℚ => x) m sU frGrad [1, 0, 0]
      let z ← Gradient.objective (fun x : ℚ => x) m sW frGrad [1/4, 3/4]
      return [x, y, z] : Py (List (Fl ℚ))) = .ok [.fin (-4/3), .pinf, .fin (-15/4)] := by
  intro vt; cases vt <;> decide +kernel

/-- Rational probabilities and real logarithms, as in `C61_order` and `C61_total` -/
example : StrictMono (Rat.castHom ℝ) := fun x y h => by simpa using h

/-- `C61_not_counted`: a frame in which the only record lacks `Z` -/
example : ∀ vt, (do
      let m ← exScm vt none true
      Gradient.objective (fun x : ℚ => x) m sU ⟨[sX, sY, sZ], [[(sX, some '1'), (sY, some '0'), (sZ, none)]]⟩ [1, 0, 0] : Py (Fl ℚ)) = .ok (.fin 0) := by
  intro vt; cases vt <;> decide +kernel

/-- Whether the string `x` is a part of the string `y`: python's `x in y` -/
def partOf : PyStr → PyStr → Bool
  | x, [] => x == []
  | x, c :: y => x.isPrefixOf (c :: y) || partOf x y

/-- `C61_updated` with an optimiser that returns the uniform distribution -/
example : ∀ vt, (do
      let m ← exScm vt none true
      let f ← Gradient.updatedFactor (fun x : ℚ => x) partOf (fun l _ => l.map fun _ => 1/3) m sU frGrad
      let v ← f.valuesList
      return (f.vars, v) : Py (List PyStr × List (Fl ℚ))) = .ok ([sU], [.fin (1/3), .fin (1/3), .fin (1/3)]) := by
  intro vt; cases vt <;> decide +kernel

/-! ### Outside the hypotheses -/

/-- **C61** equations that are still deterministic factors: `KeyError`, because their dictionary of values has no entry for the variable
itself. The model is the one of the example, built without a cast. -/
theorem C61_deterministic (vt : VType) : (do
      let m ← exScm vt none false
      Gradient.objective (fun x : ℚ => x) m sU frGrad [1/2, 1/3, 1/6] : Py (Fl ℚ)) = .error .keyError := by
  cases vt <;> decide +kernel

/-- `U → X`, `W → X` with `X` the difference of two exogenous bits -/
def gTwo : DiGraph PyStr := ⟨[sU, sW, sX], [(sU, sX), (sW, sX)]⟩

def rowsTwo : List (SRow PyStr) :=
  [.num [(sU, ['0', '1'])] [q (1/2), q (1/2)] sU,
   .num [(sW, ['0', '1'])] [q (1/2), q (1/2)] sW,
   .fn [(sX, ['0', '1']), (sU, ['0', '1']), (sW, ['0', '1'])] ['0', '1', '1', '0'] sX]

/-- The model of `rowsTwo`, with cast equations -/
def twoScm (vt : VType) : Py (SCM (IS vt PyStr) (LS vt PyStr)) := do
  let l ← facsOf vt rowsTwo
  SCM.ofList gTwo (l.map fun p => some p.2) none true true

/-- Its network -/
def twoNet (vt : VType) : Py (DagModel (Factor (IS vt PyStr)) PyStr Char) := do
  let l ← facsOf vt rowsTwo
  bnetOf vt gTwo l

/-- **C61** does not hold for a child with two exogenous parents: both are given the same state. Here the record `X = 1` has probability
one half and the objective is infinite. -/
theorem C61_two_parents (vt : VType) :
    (do let m ← twoScm vt
        Gradient.objective (fun x : ℚ => x) m sU ⟨[sX], [[(sX, some '1')]]⟩ [1/2, 1/2] : Py (Fl ℚ)) = .ok .pinf ∧
    (do let b ← twoNet vt
        return (BN.ofModel (IS vt PyStr) b : BN PyStr Char ℚ).marg [sX] (fun _ => '1') : Py ℚ) = .ok (1/2) := by
  constructor <;> cases vt <;> decide +kernel

/-- `U → X` next to another variable named `UV` with a child `Y` -/
def gNames : DiGraph PyStr := ⟨[sU, ['U', 'V'], sX, sY], [(sU, sX), (['U', 'V'], sY)]⟩

def rowsNames : List (SRow PyStr) :=
  [.num [(sU, ['0', '1'])] [q (1/2), q (1/2)] sU,
   .num [(['U', 'V'], ['0', '1'])] [q (1/2), q (1/2)] ['U', 'V'],
   .fn [(sX, ['0', '1']), (sU, ['0', '1'])] ['0', '1'] sX,
   .fn [(sY, ['0', '1']), (['U', 'V'], ['0', '1'])] ['0', '1'] sY]

/-- **C61** names matter: with variables `U` and `UV`, `get_domains("UV")` contains both, and the new factor of `UV` cannot be made. -/
theorem C61_names (vt : VType) : (do
      let l ← facsOf vt rowsNames
      let m ← SCM.ofList gNames (l.map fun p => some p.2) none true true
      let f ← Gradient.updatedFactor (fun x : ℚ => x) partOf (fun _ _ => [1/2, 1/2]) m ['U', 'V'] ⟨[sX, sY], [[(sX, some '1'), (sY, some '0')]]⟩
      f.valuesList : Py (List (Fl ℚ))) = .error .valueError := by
  cases vt <;> decide +kernel

end Verif.Props
