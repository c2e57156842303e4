import Verif.Props.AdjustEx
import Verif.Props.Identified
import Verif.IO.Uai

/-!
# C87 on the example `U → X`, `X, W → Y`, `Y → Z`, `U → Z`
-/

set_option linter.unusedSectionVars false
set_option linter.unusedSimpArgs false

namespace Verif
namespace Props
open Causal

/-- The outcome of the equations -/
def outcomeOf (u w : Char) : PyStr → Char :=
  let x := if u = '0' then '0' else '1'
  let y := if x = w then '0' else '1'
  let z := if (y, u) ∈ [('0', '1'), ('1', '0'), ('1', '2')] then '1' else '0'
  fun v => if v = sU then u else if v = sW then w else if v = sX then x else if v = sY then y else z

/-- A record of it -/
def recordOf (u w : Char) : Rec PyStr Char := [sX, sY, sZ].map fun v => (v, some (outcomeOf u w v))

/-- States of `U` and `W` in the proportions of the model -/
def unitsOf : List (Char × Char) :=
  List.replicate 3 ('0', '0') ++ List.replicate 9 ('0', '1') ++ List.replicate 2 ('1', '0') ++ List.replicate 6 ('1', '1') ++ [('2', '0')] ++ List.replicate 3 ('2', '1')

/-- Twenty-four records -/
def frUnits : Frame PyStr Char := ⟨[sX, sY, sZ], unitsOf.map fun p => recordOf p.1 p.2⟩

/-- What is evaluated for the example -/
def unitsCheck (vt : VType) : Bool :=
  match exBnet vt, exScm vt none true with
  | .ok b, .ok m =>
    let B := exB vt b
    decide (B.states sW = ['0', '1'] ∧ B.parents sU = [] ∧ B.parents sW = [] ∧ B.parents sX = [sU] ∧ B.parents sY = [sX, sW] ∧ B.parents sZ = [sY, sU] ∧
      m.base.domains = [(sU, some ['0', '1', '2']), (sW, some ['0', '1']), (sX, some ['0', '1']), (sY, some ['0', '1']), (sZ, some ['0', '1'])] ∧
      (∀ p ∈ unitsOf, ∀ v ∈ [sX, sY, sZ], B.table v (outcomeOf p.1 p.2) ≠ 0) ∧
      (∀ p ∈ unitsOf, B.marg [sX, sY, sZ] (recordOf p.1 p.2).asg = empirical ℚ frUnits.rows [sX, sY, sZ] (recordOf p.1 p.2).asg))
  | _, _ => false

theorem unitsCheck_ok (vt : VType) : unitsCheck vt = true := by
  cases vt <;> decide +kernel

/-- `'_'`, `'l'`, `'u'`: names of the bounds -/
def bndStr : BoundNames PyStr Char := ⟨['_'], 'l', 'u', by decide⟩

/-- The hypotheses are met by the example, with one optimiser. -/
theorem units_ok (vt : VType) (max : Option Nat) : ∃ (m : SCM (IS vt PyStr) (LS vt PyStr)) (b : DagModel (Factor (IS vt PyStr)) PyStr Char),
    exScm vt none true = .ok m ∧ exBnet vt = .ok b ∧ m.base.graph = gScm ∧ m.exogenous = [sU, sW] ∧ m.endogenous = [sX, sY, sZ] ∧
      (exB vt b).states sW = ['0', '1'] ∧ GdccModel m (exB vt b) ∧
      GdccData m (exB vt b) frUnits Uai.isSub ∧ Compatible m (exB vt b) frUnits.rows ∧ FindsLeast (Rat.castHom ℝ) leastOpt max m (exB vt b) frUnits := by
  obtain ⟨l, b, hb, h⟩ := ex_scm_net vt
  obtain ⟨m, m1, m2, m3, m4, m5⟩ := h.model (e := none) (by decide) true
  have hm : exScm vt none true = .ok m := by rw [exScm, h.facs]; exact m1
  obtain ⟨f1, f2, f3, f4, f5, f6, f7, _⟩ := exB_facts hb
  have hc := unitsCheck_ok vt
  rw [unitsCheck, hb, hm] at hc
  simp only [decide_eq_true_eq] at hc
  obtain ⟨c1, c2, c3, c4, c5, c6, c7, c8, c9⟩ := hc
  have hex : m.exogenous = [sU, sW] := by
    rw [SCM.exogenous, m5, m3]; decide
  have hst : ∀ v ∈ [sU, sW, sX, sY, sZ], Dict.get? m.base.domains v = some (some ((exB vt b).states v)) := by
    intro v hv
    rw [c7]
    rcases (by simpa using hv : v = sU ∨ v = sW ∨ v = sX ∨ v = sY ∨ v = sZ) with rfl | rfl | rfl | rfl | rfl
    · rw [f7]; decide
    · rw [c1]; decide
    · rw [f4]; decide
    · rw [f5]; decide
    · rw [f6]; decide
  have hk : DagModel.Known m.base.graph (exB vt b).states m.base := by
    refine ⟨rfl, m2.keys, by rw [c7, m5]; decide, fun v st hv => ?_⟩
    have hmem : v ∈ [sU, sW, sX, sY, sZ] := by
      have := Dict.mem_keys_of_mem (Dict.mem_of_get? hv)
      rw [c7] at this
      simpa [Dict.keys] using this
    rw [hst v hmem] at hv
    injection hv with hv
    injection hv with hv
    exact hv.symm
  have hg : GdccModel m (exB vt b) := by
    refine ⟨m2, h.valid, h.norm, h.nonneg, m4, hk, by rw [f1]; exact hst, by rw [m3]; decide, by rw [hex]; decide, ?_, ?_⟩
    · rw [hex]
      intro U hU
      rcases (by simpa using hU : U = sU ∨ U = sW) with rfl | rfl
      · exact c2
      · exact c3
    · intro v _ hv
      rw [m3] at hv
      rw [m3]
      rcases (by simpa using hv : v = sX ∨ v = sY ∨ v = sZ) with rfl | rfl | rfl
      · rw [c4]; decide
      · rw [c5]; decide
      · rw [c6]; decide
  have hd : GdccData m (exB vt b) frUnits Uai.isSub := by
    refine ⟨by rw [hex]; decide +kernel, fun r hr v _ hv => ?_, by rw [hex, f1]; decide +kernel, fun r hr => ?_⟩
    · rw [m3] at hv
      have : (exB vt b).states v = ['0', '1'] := by
        rcases (by simpa using hv : v = sX ∨ v = sY ∨ v = sZ) with rfl | rfl | rfl
        · exact f4
        · exact f5
        · exact f6
      rw [this]
      have key : ∀ r ∈ frUnits.rows, ∀ v ∈ [sX, sY, sZ], ∃ s ∈ ['0', '1'], Rec.val r v = some s := by decide +kernel
      exact key r hr v hv
    · obtain ⟨p, hp, rfl⟩ := List.mem_map.1 hr
      refine ⟨outcomeOf p.1 p.2, fun v hv => ?_, fun v hv => c8 p hp v (by rw [← m3]; exact hv), fun v s hs => ?_⟩
      · rw [f1] at hv
        have hs : ∀ p ∈ unitsOf, outcomeOf p.1 p.2 sU ∈ ['0', '1', '2'] ∧ ∀ v ∈ [sW, sX, sY, sZ], outcomeOf p.1 p.2 v ∈ ['0', '1'] := by decide +kernel
        rcases (by simpa using hv : v = sU ∨ v = sW ∨ v = sX ∨ v = sY ∨ v = sZ) with rfl | rfl | rfl | rfl | rfl
        · rw [f7]; exact (hs p hp).1
        · rw [c1]; exact (hs p hp).2 _ (by decide)
        · rw [f4]; exact (hs p hp).2 _ (by decide)
        · rw [f5]; exact (hs p hp).2 _ (by decide)
        · rw [f6]; exact (hs p hp).2 _ (by decide)
      · rw [Rec.val] at hs
        cases hg : Dict.get? (recordOf p.1 p.2) v with
        | none => rw [hg] at hs; cases hs
        | some o =>
          rw [hg] at hs
          have hs : o = some s := hs
          obtain ⟨w, _, hw⟩ := List.mem_map.1 (Dict.mem_of_get? hg)
          injection hw with e1 e2
          subst e1
          rw [hs] at e2
          injection e2
  have hcomp : Compatible m (exB vt b) frUnits.rows := by
    refine ⟨exB vt b, ⟨h.valid, h.norm, h.nonneg, rfl, rfl, rfl, fun _ _ _ => rfl⟩, fun r hr => ?_⟩
    obtain ⟨p, hp, rfl⟩ := List.mem_map.1 hr
    rw [m3, f1]
    exact c9 p hp
  refine ⟨m, b, hm, hb, m5, hex, m3, c1, hg, hd, hcomp, C87_optimiser (fun x y h => by simpa using h) hg hd hcomp ?_ max⟩
  rw [hex, m3]
  intro U hU
  rcases (by simpa using hU : U = sU ∨ U = sW) with rfl | rfl
  · exact List.ne_nil_of_mem (Gradient.mem_kids.2 ⟨by rw [f1]; decide, by decide, by rw [c4]; decide⟩ : sX ∈ _)
  · exact List.ne_nil_of_mem (Gradient.mem_kids.2 ⟨by rw [f1]; decide, by decide, by rw [c5]; decide⟩ : sY ∈ _)

/-- The adjustment formula for the twenty-four records -/
theorem units_adjusted : ∀ z ∈ ['0', '1'], adjusted ℚ (fun _ => ['0', '1']) frUnits.rows sY '1' [sZ] [sX] (fun _ => z) = if z = '1' then 2/3 else 1/3 := by
  decide +kernel

/-- **C87** applied: however many models are learnt, whatever negative numbers are drawn for them, the bounds of `P(Z=1 | do(Y=1))` are `2/3` and `2/3`,
although the unobserved `U` influences both `X` and `Z`. -/
theorem C87_example (vt : VType) {ts : List (PyStr → List ℚ)} (hts : ts ≠ [])
    (ht : ∀ t ∈ ts, ((t sU).length = 3 ∧ ∀ x ∈ t sU, x < 0) ∧ (t sW).length = 2 ∧ ∀ x ∈ t sW, x < 0) (max : Option Nat) :
    ∃ m o o' r, exScm vt none true = .ok m ∧
      Gdcc.compileObj (fun x => Real.log (Rat.castHom ℝ x)) Uai.isSub leastOpt m max frUnits (ts.map fun t x => (t x).map Fl.fin) true = .ok o ∧
      o.query bndStr (IS vt PyStr) (fun i => causalQuery chStr i [sZ] [(sY, '1')] none) = .ok (o', .interval r) ∧
      r.getValue [(['_'], 'l'), (sZ, '1')] = .ok (q (2/3)) ∧ r.getValue [(['_'], 'u'), (sZ, '1')] = .ok (q (2/3)) := by
  obtain ⟨m, b, h1, hb, hg, hex, hen, hW, h2, h3, h4, h5⟩ := units_ok vt max
  obtain ⟨f1, f2, f3, f4, f5, f6, f7, _⟩ := exB_facts hb
  obtain ⟨o, o', r, q1, q2, q3, q4, q5⟩ := C87_identified (fun x y h => by simpa using h) chStr_ok h2 h3 (by decide +kernel) h4 h5 hts
    (fun t htt x hx => by
      rw [hex] at hx
      rcases (by simpa using hx : x = sU ∨ x = sW) with rfl | rfl
      · rw [famDom, hg, show gScm.pred sU = [] from by decide]
        exact ⟨by simpa [f7, cards] using (ht t htt).1.1, fun h => absurd h (by decide), fun _ => (ht t htt).1.2⟩
      · rw [famDom, hg, show gScm.pred sW = [] from by decide]
        exact ⟨by simpa [hW, cards] using (ht t htt).2.1, fun h => absurd h (by decide), fun _ => (ht t htt).2.2⟩)
    bndStr vt (T := [sZ]) (Z := [sX]) (X := sY) (x := '1') (by decide) (by decide) (by decide)
    ⟨by rw [f1]; decide, by rw [hen]; decide⟩ (by rw [f5]; decide) (by rw [f1, hen]; decide) (by rw [f1, hen]; decide) (by decide)
    (fun z hz hr => by
      rw [hg] at hr
      have := reach_closed (L := [sY, sZ]) (by decide) (by decide) hr
      rw [List.mem_singleton.1 hz] at this
      exact absurd this (by decide))
    (by rw [hg]; decide +kernel)
    (fun a ha hx => by
      have hs : a sX ∈ ['0', '1'] := by
        have := ha sX (by rw [f1]; decide)
        rwa [f4] at this
      have key : ∀ c ∈ ['0', '1'], empirical ℚ frUnits.rows [sY, sX] (fun v => if v = sX then c else '1') ≠ 0 := by decide +kernel
      rw [empirical_dep frUnits.rows [sY, sX] a (fun v => if v = sX then a sX else '1') fun v hv => by
        rcases (by simpa using hv : v = sY ∨ v = sX) with rfl | rfl
        · rw [if_neg (by decide), hx]
        · rw [if_pos rfl]]
      exact key _ hs)
  have hval : adjusted ℚ (exB vt b).states frUnits.rows sY '1' [sZ] [sX] (asg [(sZ, '1')]) = 2/3 := by
    rw [adjusted_dep (K := ℚ) (D' := fun _ => ['0', '1']) frUnits.rows '1' (by decide) (fun z hz => by rw [List.mem_singleton.1 hz]; exact f4)
      (a' := fun _ => '1') fun t ht => by
        rw [List.mem_singleton.1 ht]
        exact over_of_get? rfl]
    exact units_adjusted '1' (by decide)
  obtain ⟨v1, v2⟩ := q5 [(sZ, '1')] (by
    intro p hp
    have hp1 : p.1 = sZ := by simpa using (q3 p.1).1 (Dict.mem_keys_of_mem hp)
    refine ⟨'1', ?_, by rw [hp1]; rfl⟩
    rw [q4 p hp, hp1, f6]; decide)
  rw [hval] at v1 v2
  exact ⟨m, o, o', r, h1, q1, q2, v1, v2⟩

end Props
end Verif
