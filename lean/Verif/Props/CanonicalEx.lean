import Verif.Props.Canonical
import Verif.Props.IdentifiedEx

/-!
# C101: example

`X` is caused by `U` with three states and `Z` by `X` and by `W` with two states.  The canonical model has two states for `U` and four for `W`.
-/

set_option linter.unusedSectionVars false
set_option linter.unusedSimpArgs false

namespace Verif
namespace Props
open Causal

def gMark : DiGraph PyStr := ⟨[sU, sW, sX, sZ], [(sU, sX), (sX, sZ), (sW, sZ)]⟩

def rowsMark : List (SRow PyStr) :=
  [.num [(sU, ['0', '1', '2'])] [q (1/2), q (1/3), q (1/6)] sU,
   .num [(sW, ['0', '1'])] [q (1/4), q (3/4)] sW,
   .fn [(sX, ['0', '1']), (sU, ['0', '1', '2'])] ['0', '1', '1'] sX,
   .fn [(sZ, ['0', '1']), (sX, ['0', '1']), (sW, ['0', '1'])] ['0', '1', '1', '0'] sZ]

def markScm (vt : VType) : Py (SCM (IS vt PyStr) (LS vt PyStr)) := do
  let l ← facsOf vt rowsMark
  SCM.ofList gMark (l.map fun p => some p.2) none false true

def markBnet (vt : VType) : Py (DagModel (Factor (IS vt PyStr)) PyStr Char) := do
  let l ← facsOf vt rowsMark
  bnetOf vt gMark l

/-- What is evaluated for it -/
def markCheck (vt : VType) : Bool :=
  match markBnet vt, markScm vt with
  | .ok b, .ok m => decide ((exB vt b).nodes = [sU, sW, sX, sZ] ∧ (exB vt b).inner = [sX, sZ] ∧ (exB vt b).roots = [sU, sW] ∧ (exB vt b).states sX = ['0', '1'] ∧
      (exB vt b).states sZ = ['0', '1'] ∧ (exB vt b).parents sX = [sU] ∧ (∀ w ∈ (exB vt b).parents sZ, w = sX ∨ w = sW) ∧ sX ∈ (exB vt b).parents sZ ∧ sW ∈ (exB vt b).parents sZ) &&
      ([sU, sW].all fun v => ((Dict.get? m.base.factors v).getD none).all fun f => !f.isDet)
  | _, _ => false

def markExo (v : PyStr) : PyStr := if v = sX then sU else sW
def markUs (v : PyStr) : List Char := if v = sU then ['0', '1'] else ['0', '1', '2', '3']
def markDom (v : PyStr) : Dom PyStr Char :=
  if v = sX then [(sX, ['0', '1']), (sU, ['0', '1'])] else [(sX, ['0', '1']), (sZ, ['0', '1']), (sW, ['0', '1', '2', '3'])]
def markPa (v : PyStr) : List PyStr := if v = sX then [] else [sX]

/-- The hypotheses of `C101_canonical_partial` and `C101_causation` -/
theorem markEx (vt : VType) : ∃ (m : SCM (IS vt PyStr) (LS vt PyStr)) (b : DagModel (Factor (IS vt PyStr)) PyStr Char),
    markScm vt = .ok m ∧ CausalOk m (exB vt b) ∧ (exB vt b).NonNeg ∧ CanonIn (exB vt b) markExo markUs markDom markPa ∧
    CausationOk (exB vt b) pySfx sX sZ '1' '0' '1' '0' ∧ m.base.graph = gMark ∧ (exB vt b).inner = [sX, sZ] ∧ (exB vt b).roots = [sU, sW] ∧
    (exB vt b).states sX = ['0', '1'] ∧ (exB vt b).states sZ = ['0', '1'] := by
  obtain ⟨l, b, h1, h⟩ := scmCheck_spec (vt := vt) (g := gMark) (rows := rowsMark) (endo := [sX, sZ]) (by decide)
    (by cases vt <;> decide +kernel)
  obtain ⟨m, h2, h3, h4, hgr, h5⟩ := h.model (e := none) (by decide) false
  have hb : markBnet vt = .ok b := by rw [markBnet, h.facs]; exact h1
  have hm : markScm vt = .ok m := by rw [markScm, h.facs]; exact h2
  have hc : markCheck vt = true := by cases vt <;> decide +kernel
  rw [markCheck, hb, hm] at hc
  simp only [Bool.and_eq_true, decide_eq_true_eq] at hc
  obtain ⟨⟨f1, f2, f3, f4, f5, f6, f7, f8, f9⟩, hc2⟩ := hc
  have hok : CausalOk m (exB vt b) := by
    refine ⟨h3, h.valid, h.norm, fun v hv => h.equations v (by rw [← f2]; exact hv) (BN.mem_inner.1 hv).1, fun v hv f hf => ?_⟩
    rw [f3] at hv
    have := List.all_eq_true.1 hc2 v hv
    rw [hf] at this
    simpa using this
  have hcau : CausationOk (exB vt b) pySfx sX sZ '1' '0' '1' '0' := by
    refine ⟨by rw [f2]; decide, by rw [f2]; decide, by decide, ⟨sZ, by rw [f1]; decide, f8⟩, by rw [f4]; decide, by rw [f4]; decide, by rw [f5]; decide,
      by rw [f5]; decide, ?_, fun _ _ _ _ _ _ _ _ _ _ e => pySfx_inj e⟩
    rw [f1, f2]
    have : ∀ v ∈ [sX, sZ], ∀ i ∈ [1, 2], pySfx v i ∉ [sU, sW, sX, sZ] := by decide +kernel
    intro v hv i h1 h2
    exact this v hv i (by simp; omega)
  have hin : ∀ v, v ∈ (exB vt b).inner ↔ v = sX ∨ v = sZ := fun v => by rw [f2]; simp
  have hcan : CanonIn (exB vt b) markExo markUs markDom markPa := by
    refine ⟨⟨fun v hv => ?_, fun v hv p hp hr => ?_⟩, fun v hv w hw e => ?_, fun x hx => ?_, fun v hv => ?_, fun v hv => ?_, fun v hv p hp => ?_, fun v hv => ?_⟩
    · rcases (hin v).1 hv with rfl | rfl
      · rw [f3, f6]; decide
      · exact ⟨by rw [f3]; decide, f9⟩
    · rcases (hin v).1 hv with rfl | rfl
      · rw [f6] at hp; rw [List.mem_singleton.1 hp]; rfl
      · rcases f7 p hp with rfl | rfl
        · rw [f3] at hr; revert hr; decide
        · rfl
    · rcases (hin v).1 hv with rfl | rfl <;> rcases (hin w).1 hw with rfl | rfl <;> first | rfl | (revert e; decide)
    · rw [f3] at hx
      revert x; decide
    · rcases (hin v).1 hv with rfl | rfl
      · refine ⟨by decide, fun w => ?_⟩
        rw [f6, f2]
        simp only [markPa, if_true, List.not_mem_nil, false_iff, not_and, List.mem_singleton]
        rintro rfl; decide
      · refine ⟨by decide, fun w => ?_⟩
        rw [f2]
        show w ∈ [sX] ↔ _
        rw [List.mem_singleton]
        constructor
        · rintro rfl; exact ⟨f8, by decide⟩
        · rintro ⟨w1, w2⟩
          rcases f7 w w1 with e | rfl
          · exact e
          · revert w2; decide
    · rcases (hin v).1 hv with rfl | rfl
      · refine ⟨by decide, fun w => ?_⟩
        rw [f6]
        show w ∈ [sX, sU] ↔ _
        simp
      · refine ⟨by decide, fun w => ?_⟩
        show w ∈ [sX, sZ, sW] ↔ _
        constructor
        · intro hw
          simp only [List.mem_cons, List.not_mem_nil, or_false] at hw
          rcases hw with rfl | rfl | rfl
          · exact .inr f8
          · exact .inl rfl
          · exact .inr f9
        · rintro (rfl | hw)
          · decide
          · rcases f7 w hw with rfl | rfl <;> decide
    · rw [canonStates, f2]
      rcases (hin v).1 hv with rfl | rfl
      · rcases (by simpa [markDom] using hp : p = (sX, ['0', '1']) ∨ p = (sU, ['0', '1'])) with rfl | rfl
        · rw [if_pos (by decide), f4]
        · rw [if_neg (by decide)]; rfl
      · have hp : p ∈ [(sX, ['0', '1']), (sZ, ['0', '1']), (sW, ['0', '1', '2', '3'])] := hp
        simp only [List.mem_cons, List.not_mem_nil, or_false] at hp
        rcases hp with rfl | rfl | rfl
        · rw [if_pos (by decide), f4]
        · rw [if_pos (by decide), f5]
        · rw [if_neg (by decide)]; rfl
    · rcases (hin v).1 hv with rfl | rfl
      · rw [f4]; rfl
      · rw [f5]
        show _ = _ ^ ([sX].map _).prod
        rw [List.map_singleton, f4]; decide
  refine ⟨m, b, hm, hok, h.nonneg, hcan, hcau, h5, f2, f3, f4, f5⟩

/-- **C101** applies to the example, and the probabilities of causation of the two models are equal. -/
theorem C101_example (vt : VType) (hvt : vt ≠ .numpy) : ∃ (m : SCM (IS vt PyStr) (LS vt PyStr)) (b : DagModel (Factor (IS vt PyStr)) PyStr Char) (m' : SCM (IS vt PyStr) (LS vt PyStr))
    (B' : BN PyStr Char ℚ) (q q' : SCM (IS vt PyStr) (LS vt PyStr)), markScm vt = .ok m ∧ CausalOk m (exB vt b) ∧ CanonIn (exB vt b) markExo markUs markDom markPa ∧
    CausalOk m' B' ∧ BN.SameEndo (exB vt b) B' ∧ B'.states sW = ['0', '1', '2', '3'] ∧ new m = .ok q ∧ new m' = .ok q' ∧
    pns pySfx chStr q' sX sZ '1' '0' '1' '0' = pns pySfx chStr q sX sZ '1' '0' '1' '0' ∧ pns pySfx chStr q sX sZ '1' '0' '1' '0' = .ok (.fin (1/4)) := by
  obtain ⟨m, b, hm, hok, hnn, hcan, hcau, _, _, f3, _⟩ := markEx vt
  obtain ⟨can, θ, fu, m', B', c1, c2, c3, c4, c5, c6, c7, c8⟩ := C101_canonical_partial hok hnn hcan hvt true true
  obtain ⟨q1, q2, n1, n2, n3, _⟩ := C101_causation chStr_ok chStr_ok hok c4 c6 c8 hcau
  refine ⟨m, b, m', B', q1, q2, hm, hok, hcan, c4, c6, ?_, n1, n2, n3, ?_⟩
  · rw [c7 sW (by rw [f3]; decide)]; rfl
  · have hv : (do
        let m ← markScm vt
        let m' ← new m
        pns pySfx chStr m' sX sZ '1' '0' '1' '0') = .ok (q (1/4)) := by cases vt <;> decide +kernel
    rw [hm, py_ok_bind, n1, py_ok_bind] at hv
    exact hv

end Props
end Verif
