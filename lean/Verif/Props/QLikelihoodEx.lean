import Verif.Props.QLikelihood
import Verif.Props.GradientEx
import Verif.Props.CausalEx

/-!
# C49: examples and what the code does outside the hypotheses
-/

set_option linter.unusedSectionVars false
set_option linter.unusedSimpArgs false

namespace Verif.Props
open Verif

/-- Complete records of the example model -/
def frQ : Frame PyStr Char :=
  ⟨[sX, sY, sZ],
   [[(sX, some '0'), (sY, some '1'), (sZ, some '1')], [(sX, some '1'), (sY, some '0'), (sZ, some '1')],
    [(sX, some '1'), (sY, some '0'), (sZ, some '0')], [(sX, some '1'), (sY, some '0'), (sZ, some '1')]]⟩

/-- Python's choices in the example -/
def popStr (c : List PyStr) : PyStr := c.headD []

theorem py_ex : PyChoices (List.dedup (α := PyStr)) popStr where
  set := fun l => ⟨List.nodup_dedup l, fun _ => List.mem_dedup⟩
  pop := fun c hc => by cases c with
    | nil => exact absurd rfl hc
    | cons a c => exact List.mem_cons_self

def qScm : DiGraph PyStr := gScm.qgraph [sX, sY, sZ] [sX, sY, sZ]

/-- The decomposition graph of the example: `X` and `Z` share `U` -/
theorem qScm_eq : qScm = ⟨[sX, sY, sZ], [(sX, sY), (sY, sZ), (sX, sZ)]⟩ := by decide +kernel

/-- What is to be computed for `ex_qlik` -/
def qCheck (vt : VType) : Bool :=
  match exBnet vt with
  | .ok b => decide (∀ r ∈ frQ.rows, ∀ v ∈ qScm.nodes, Rec.asg r v ∈ (BN.ofModel (IS vt PyStr) b : BN PyStr Char ℚ).states v ∧
      (v, some (Rec.asg r v)) ∈ r ∧ 0 < (BN.ofModel (IS vt PyStr) b : BN PyStr Char ℚ).marg (v :: qScm.pred v) (Rec.asg r))
  | .error _ => false

theorem qCheck_ex (vt : VType) : qCheck vt = true := by cases vt <;> decide +kernel


theorem endoScm_topo : TopoOrder (gScm.endoGraph [sX, sY, sZ]) [sX, sY, sZ] := by
  refine ⟨by decide, fun pre v post e p hp => ?_⟩
  have hmem : (p, v) ∈ [(sX, sY), (sY, sZ)] := hp
  match pre, e with
  | [], e => simp at e; obtain ⟨rfl, _⟩ := e; revert hmem; simp [sX, sY, sZ]
  | [a], e => simp at e; obtain ⟨rfl, rfl, _⟩ := e; revert hmem; simp [sX, sY, sZ]
  | [a, b], e => simp at e; obtain ⟨rfl, rfl, rfl, _⟩ := e; revert hmem; simp +contextual [sX, sY, sZ]
  | a :: b :: c :: d, e => simp at e

def isMulti {vt : VType} : Option (AnyFactor (IS vt PyStr) (LS vt PyStr)) → Bool
  | some f => !f.isDet
  | none => true

theorem allMulti_ex (vt : VType) : (do
    let m ← exScm vt none true
    return m.base.factors.all fun p => isMulti p.2 : Py Bool) = .ok true := by cases vt <;> decide +kernel

/-- The hypotheses of `C49_empirical`, `C49_model`, `C49_bound` and `C49_max_partial` (with the model itself as the other model), together -/
theorem ex_qlik (vt : VType) : ∃ (m : SCM (IS vt PyStr) (LS vt PyStr)) (B : BN PyStr Char ℚ),
    exScm vt none true = .ok m ∧ m.qgraph [sX, sY, sZ] = qScm ∧ QSetting m B [sX, sY, sZ] ∧ Represents (I := IS vt PyStr) m.base B ∧ B.Valid ∧
      B.Normalised ∧ B.NonNeg ∧ m.Doms B ∧ CompleteOn B qScm.nodes frQ ∧ frQ.rows ≠ [] ∧
      (∀ v ∈ usedVars qScm [], ∀ r ∈ frQ.rows, 0 < B.marg (v :: qScm.pred v) (Rec.asg r)) ∧
      ∃ b, exBnet vt = .ok b ∧ B = BN.ofModel (IS vt PyStr) b := by
  obtain ⟨l, b, hb, h⟩ := ex_scm_net vt
  have hend : SCM.endoOr gScm none = [sX, sY, sZ] := by decide
  obtain ⟨e1, e2, e3⟩ := SCM.rep_built h.valid h.graph h.nodes h.parents (by rw [h.keys]) h.tables none true true
    (by rw [hend]; exact h.equations) rfl
  obtain ⟨m, f1, f2, f3, f4, f5, _⟩ := C61_built h.valid h.graph h.nodes h.parents (by rw [h.keys]) h.tables none true
    (by rw [hend]; exact h.equations)
  rw [hend] at f5
  have hg : m.base.graph = gScm := by rw [Except.ok.inj (f2.symm.trans e2)]; rfl
  have hq : m.qgraph [sX, sY, sZ] = qScm := by rw [SCM.qgraph, f5, hg]; rfl
  have hex : exScm vt none true = .ok m := by rw [exScm, h.facs]; exact f2
  have hc := qCheck_ex vt
  rw [qCheck, hb] at hc
  simp only [decide_eq_true_eq] at hc
  refine ⟨m, _, hex, hq, ⟨f3.wf, f3.nodes, ?_, ?_, ?_⟩, ?_, h.valid, h.norm, h.nonneg, f4, ⟨⟨by decide, by decide⟩, by decide +kernel,
    fun r hr v hv => ⟨(hc r hr v hv).1, (hc r hr v hv).2.1⟩⟩, by decide, fun v hv r hr => (hc r hr v hv).2.2, b, hb, rfl⟩
  · rw [f5, hg]
    exact endoScm_topo
  · rw [hq, qScm_eq]
    exact (DiGraph.hasCycle_iff ⟨by decide, by decide, by decide⟩).1 (by decide +kernel)
  · rw [f5, hg]
    intro v _ hv
    have hall : ∀ v ∈ [sX, sY, sZ], ∃ e ∈ gScm.edges, e.2 = v ∧ e.1 ∉ [sX, sY, sZ] := by decide
    obtain ⟨e, he, rfl, hn⟩ := hall v hv
    exact ⟨e.1, hn, he⟩
  · refine f3.represents fun v f hf => ?_
    have hd := allMulti_ex vt
    rw [hex] at hd
    have hd := List.all_eq_true.1 (Except.ok.inj hd) _ (Dict.mem_of_get? hf)
    simpa [isMulti] using hd

/-- The two likelihoods in the example, with `log x` replaced by `x` to have numbers: all variables, and `Z` alone -/
example : ∀ vt, (do
      let m ← exScm vt none true
      let x ← m.logLikelihood (fun x : ℚ => x) chStr popStr (m.qgraph [sX, sY, sZ]) frQ []
      let y ← m.maxLogLikelihood (fun x : ℚ => x) nanEx List.dedup popStr (m.qgraph [sX, sY, sZ]) frQ []
      let x' ← m.logLikelihood (fun x : ℚ => x) chStr popStr (m.qgraph [sX, sY, sZ]) frQ [sZ]
      let y' ← m.maxLogLikelihood (fun x : ℚ => x) nanEx List.dedup popStr (m.qgraph [sX, sY, sZ]) frQ [sZ]
      return [x, y, x', y'] : Py (List (Fl ℚ))) = .ok [.fin (23/3), .fin (55/6), .fin (8/3), .fin (8/3)] := by
  intro vt; cases vt <;> decide +kernel

/-- A network over the decomposition graph, as `C49_any_network` needs it: the one of the relative frequencies -/
example : ∀ vt, (do
      let m ← exScm vt none true
      let bn ← m.qbnet (m.qgraph [sX, sY, sZ]) popStr (m.qfactorsData nanEx List.dedup (m.qgraph [sX, sY, sZ]) frQ)
      let l ← bn.logProb (fun x : ℚ => x) frQ.rows []
      return (decide (bn.graph = qScm), l) : Py (Bool × List (Fl ℚ))) = .ok (true, [.fin (9/4), .fin (29/12), .fin (25/12), .fin (29/12)]) := by
  intro vt; cases vt <;> decide +kernel

/-! ### Outside the hypotheses -/

/-- **C49** an impossible record (`C49_impossible`): `U = 0` whenever `X = 0`, and then `Z` differs from `0` for `Y = 1`. -/
example : ∀ vt, (do
      let m ← exScm vt none true
      m.logLikelihood (fun x : ℚ => x) chStr popStr (m.qgraph [sX, sY, sZ]) ⟨[sX, sY, sZ], [[(sX, some '0'), (sY, some '1'), (sZ, some '0')]]⟩ [] : Py (Fl ℚ))
      = .error .valueError := by
  intro vt; cases vt <;> decide +kernel

/-- `U → X → Y`: the endogenous `Y` has no exogenous parent. -/
def gChain : DiGraph PyStr := ⟨[sU, sX, sY], [(sU, sX), (sX, sY)]⟩

def rowsChain : List (SRow PyStr) :=
  [.num [(sU, ['0', '1'])] [q (1/2), q (1/2)] sU,
   .fn [(sX, ['0', '1']), (sU, ['0', '1'])] ['0', '1'] sX,
   .fn [(sY, ['0', '1']), (sX, ['0', '1'])] ['1', '0'] sY]

def chainScm (vt : VType) : Py (SCM (IS vt PyStr) (LS vt PyStr)) := do
  let l ← facsOf vt rowsChain
  SCM.ofList gChain (l.map fun p => some p.2) none true true

/-- **C49** an endogenous variable without exogenous parent is in no component, has no factor in the network of the decomposition, and both
likelihoods end with an `AttributeError`. -/
theorem C49_no_exogenous_parent (vt : VType) : scmCheck vt gChain rowsChain [sX, sY] = true ∧ (do
      let m ← chainScm vt
      m.logLikelihood (fun x : ℚ => x) chStr popStr (m.qgraph [sX, sY]) ⟨[sX, sY], [[(sX, some '0'), (sY, some '1')]]⟩ [] : Py (Fl ℚ))
      = .error .attributeError ∧ (do
      let m ← chainScm vt
      m.maxLogLikelihood (fun x : ℚ => x) nanEx List.dedup popStr (m.qgraph [sX, sY]) ⟨[sX, sY], [[(sX, some '0'), (sY, some '1')]]⟩ [] : Py (Fl ℚ))
      = .error .attributeError := by
  cases vt <;> decide +kernel

/-- **C49** equations that are still deterministic factors: `log_likelihood` is not implemented. -/
theorem C49_deterministic (vt : VType) : (do
      let m ← exScm vt none false
      m.logLikelihood (fun x : ℚ => x) chStr popStr (m.qgraph [sX, sY, sZ]) frQ [] : Py (Fl ℚ)) = .error .notImplemented := by
  cases vt <;> decide +kernel

/-- **C49** no records: the likelihood of the model is 0, the one of the frequencies divides by zero. -/
theorem C49_no_records (vt : VType) : (do
      let m ← exScm vt none true
      m.logLikelihood (fun x : ℚ => x) chStr popStr (m.qgraph [sX, sY, sZ]) ⟨[sX, sY, sZ], []⟩ [] : Py (Fl ℚ)) = .ok (.fin 0) ∧ (do
      let m ← exScm vt none true
      m.maxLogLikelihood (fun x : ℚ => x) nanEx List.dedup popStr (m.qgraph [sX, sY, sZ]) ⟨[sX, sY, sZ], []⟩ [] : Py (Fl ℚ))
      = .error .zeroDivision := by
  cases vt <;> decide +kernel

/-- **C49** a missing value: `ValueError` in both; without the record there is none. -/
theorem C49_missing (vt : VType) : (do
      let m ← exScm vt none true
      m.logLikelihood (fun x : ℚ => x) chStr popStr (m.qgraph [sX, sY, sZ]) ⟨frQ.cols, frQ.rows ++ [[(sX, some '1'), (sY, some '0'), (sZ, none)]]⟩ [] : Py (Fl ℚ))
      = .error .valueError ∧ (do
      let m ← exScm vt none true
      m.maxLogLikelihood (fun x : ℚ => x) nanEx List.dedup popStr (m.qgraph [sX, sY, sZ]) ⟨frQ.cols, frQ.rows ++ [[(sX, some '1'), (sY, some '0'), (sZ, none)]]⟩ []
        : Py (Fl ℚ)) = .error .valueError ∧ (do
      let m ← exScm vt none true
      let x ← m.logLikelihood (fun x : ℚ => x) chStr popStr (m.qgraph [sX, sY, sZ]) frQ []
      let y ← m.maxLogLikelihood (fun x : ℚ => x) nanEx List.dedup popStr (m.qgraph [sX, sY, sZ]) frQ []
      return decide (x = .nan ∨ y = .nan) : Py Bool) = .ok false := by
  cases vt <;> decide +kernel

end Verif.Props
