import Mathlib.Analysis.SpecialFunctions.Log.Basic
import Verif.Props.Attained
import Verif.Props.CanonicalEx
import Verif.Props.QLikelihoodEx

/-!
# C102: example

Five records of the causal graph `U → X → Z ← W`.
-/

set_option linter.unusedSectionVars false
set_option linter.unusedSimpArgs false

namespace Verif
namespace Props
open Causal

def frMark : Frame PyStr Char :=
  ⟨[sX, sZ], [[(sX, some '0'), (sZ, some '0')], [(sX, some '0'), (sZ, some '1')], [(sX, some '1'), (sZ, some '1')], [(sX, some '0'), (sZ, some '0')],
    [(sX, some '1'), (sZ, some '0')]]⟩

/-- **C102** applies to the example: whatever the two tables of probabilities of the exogenous variables of the given model, some model with canonical
equations over the same graph gives the five records the greatest log-likelihood. -/
theorem C102_example (vt : VType) (hvt : vt ≠ .numpy) : ∃ (m : SCM (IS vt PyStr) (LS vt PyStr)) (b : DagModel (Factor (IS vt PyStr)) PyStr Char)
    (m' : SCM (IS vt PyStr) (LS vt PyStr)) (B' : BN PyStr Char ℚ), markScm vt = .ok m ∧ CausalOk m (exB vt b) ∧ CompleteOn (exB vt b) (exB vt b).inner frMark ∧
      CausalOk m' B' ∧ B'.NonNeg ∧ BN.SameEndo (exB vt b) B' ∧ B'.states sU = ['0', '1'] ∧ B'.states sW = ['0', '1', '2', '3'] ∧
      ∀ order, TopoOrder (gMark.endoGraph m'.endogenous) order →
        ∃ x : ℝ, m'.logLikelihood (fun x : ℚ => Real.log x) chStr popStr (m'.qgraph order) frMark [] = .ok (.fin x) ∧
          m'.maxLogLikelihood (fun x : ℚ => Real.log x) nanEx List.dedup popStr (m'.qgraph order) frMark [] = .ok (.fin x) := by
  obtain ⟨m, b, hm, hok, _, hcan, _, hgr, f2, f3, f4, f5⟩ := markEx vt
  have hfr : CompleteOn (exB vt b) (exB vt b).inner frMark := by
    rw [f2]
    refine ⟨by constructor <;> decide, by decide, ?_⟩
    intro r hr v hv
    have : ∀ r ∈ frMark.rows, ∀ v ∈ [sX, sZ], Rec.asg r v ∈ ['0', '1'] ∧ (v, some (Rec.asg r v)) ∈ r := by decide +kernel
    obtain ⟨h1, h2⟩ := this r hr v hv
    refine ⟨?_, h2⟩
    rcases List.mem_cons.1 hv with rfl | hv
    · rw [f4]; exact h1
    · rw [List.mem_singleton.1 hv, f5]; rw [List.mem_singleton.1 hv] at h1; exact h1
  have hlog : ∀ x y : ℚ, 0 < x → 0 < y → (fun x : ℚ => Real.log x) (x * y) = (fun x : ℚ => Real.log x) x + (fun x : ℚ => Real.log x) y := fun x y hx hy => by
    show Real.log ((x * y : ℚ) : ℝ) = _
    rw [Rat.cast_mul, Real.log_mul (by exact_mod_cast hx.ne') (by exact_mod_cast hy.ne')]
  obtain ⟨can, θ, fu, m', B', c1, c2, c3, c4, c5, c6, c7, c8⟩ := C102_likelihood_partial (vt := vt) (R := ℝ) (log := fun x : ℚ => Real.log x) hlog hok.rep.wf hok.rep.nodes hok.rep.parents hok.valid hcan hvt
    true hfr (by decide)
  refine ⟨m, b, m', B', hm, hok, hfr, c4, c5, c6, by rw [c7 sU (by rw [f3]; decide)]; rfl, by rw [c7 sW (by rw [f3]; decide)]; rfl, fun order ho => ?_⟩
  exact c8 order (by rw [hgr]; exact ho) chStr chStr_ok nanEx _ popStr popStr py_ex py_ex.pop

end Props
end Verif
