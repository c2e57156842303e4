import Verif.Props.Emcc
import Verif.Props.LearningEx
import Verif.Props.ExScm

/-!
# C81: example and witnesses
-/

set_option linter.unusedSectionVars false
set_option linter.unusedSimpArgs false

namespace Verif.Props
open Verif

/-- A confounded pair: `U → X`, `U → Y`, `X → Y` -/
def gConf : DiGraph Char := ⟨['U', 'X', 'Y'], [('U', 'X'), ('U', 'Y'), ('X', 'Y')]⟩

/-- `X` is `0` only for the first state of `U`; `Y` is then `0`.  For the second state `Y` is `1` whatever `X` is, for the third
`Y` is `X`. -/
def rowsConf : List (SRow Char) :=
  [.num [('U', ['0', '1', '2'])] [q (1/2), q (1/4), q (1/4)] 'U',
   .fn [('X', ['0', '1']), ('U', ['0', '1', '2'])] ['0', '1', '1'] 'X',
   .fn [('Y', ['0', '1']), ('U', ['0', '1', '2']), ('X', ['0', '1'])] ['0', '0', '1', '1', '0', '1'] 'Y']

def scmConf (vt : VType) (cast : Bool) : Py (SCM (IS vt Char) (LS vt Char)) := do
  let l ← facsOf vt rowsConf
  SCM.ofList gConf (l.map fun p => some p.2) none cast true

/-- Records of `X` and `Y` -/
def frConf (xs : List (Char × Char)) : Frame Char Char := ⟨['X', 'Y'], xs.map fun x => [('X', some x.1), ('Y', some x.2)]⟩

/-- The bounds of `P(Y = s | do(X = 0))` after learning with the given draws -/
def confQuery (vt : VType) (cast : Bool) (n : ℕ) (xs : List (Char × Char)) (ts : List (List ℚ)) (s : Char) : Py (Fl ℚ × Fl ℚ) := do
  let m ← scmConf vt cast
  let r ← Emcc.causalQuery chEx klEq bndEx (IS vt Char) true m n (frConf xs) (ts.map fun t _ => t.map Fl.fin) ['Y'] [('X', '0')] none
  match r with
  | .interval r => do
    let lo ← r.getValue [('_', 'l'), ('Y', s)]
    let hi ← r.getValue [('_', 'u'), ('Y', s)]
    return (lo, hi)
  | _ => throw .typeError

/-- **C81** the effect is not determined by the records: the two models that are learnt give `1/4` and `1/2`. -/
theorem C81_example_values (vt : VType) :
    confQuery vt true 3 [('0', '0'), ('1', '1'), ('1', '1'), ('1', '1')] [[-1, -1, -2], [-1, -2, -1]] '1' = .ok (q (1/4), q (1/2)) := by
  cases vt <;> decide +kernel

/-- **C81** without models no bounds: the aggregator refuses to produce none, whatever the model and the data, and so does the
query. -/
theorem C81_no_models (vt : VType) : (∀ (m : SCM (IS vt Char) (LS vt Char)) n data, Emcc.generate chEx klEq m n data [] = .error .valueError) ∧
    confQuery vt true 3 [('0', '0'), ('1', '1')] [] '1' = .error .valueError := by
  refine ⟨fun m n data => rfl, ?_⟩
  cases vt <;> decide +kernel

/-- **C81** equations kept as deterministic factors: learning fails, since the factors are not multinomial. -/
theorem C81_not_cast (vt : VType) : confQuery vt false 3 [('0', '0'), ('1', '1')] [[-1, -1, -2]] '1' = .error .notImplemented := by
  cases vt <;> decide +kernel

/-- **C81** a record that the equations cannot produce: with the numpy store it is ignored, with the others the answer is not a
number. -/
theorem C81_impossible :
    confQuery .numpy true 3 [('0', '0'), ('1', '1'), ('0', '1')] [[-1, -1, -2]] '1' = .ok (q (1/6), q (1/6)) ∧
    confQuery .numpy1d true 3 [('0', '0'), ('1', '1'), ('0', '1')] [[-1, -1, -2]] '1' = .ok (.nan, .nan) ∧
    confQuery .list true 3 [('0', '0'), ('1', '1'), ('0', '1')] [[-1, -1, -2]] '1' = .ok (.nan, .nan) ∧
    confQuery .treedict true 3 [('0', '0'), ('1', '1'), ('0', '1')] [[-1, -1, -2]] '1' = .ok (.nan, .nan) := by
  refine ⟨?_, ?_, ?_, ?_⟩ <;> decide +kernel

/-! ### The hypotheses can be met -/

/-- What is evaluated for the example. -/
def confCheck (vt : VType) : Bool :=
  match facsOf vt rowsConf, scmConf vt true with
  | .ok l, .ok m => match bnetOf vt gConf l with
    | .ok b =>
      let B : BN Char Char ℚ := BN.ofModel (IS vt Char) b
      let a0 : Char → Char := fun _ => '0'
      let a1 : Char → Char := fun _ => '1'
      decide (B.nodes = ['U', 'X', 'Y'] ∧ B.parents 'U' = [] ∧ 'U' ∈ B.parents 'X' ∧ 'X' ∈ B.parents 'Y' ∧ B.states 'U' = ['0', '1', '2'] ∧ B.states 'X' = ['0', '1'] ∧
        B.states 'Y' = ['0', '1'] ∧ m.base.domains = [('U', some ['0', '1', '2']), ('X', some ['0', '1']), ('Y', some ['0', '1'])] ∧
        B.table 'X' a0 ≠ 0 ∧ B.table 'Y' a0 ≠ 0 ∧ B.table 'X' a1 ≠ 0 ∧ B.table 'Y' a1 ≠ 0)
    | .error _ => false
  | _, _ => false

theorem confCheck_ok (vt : VType) : confCheck vt = true := by
  cases vt <;> decide +kernel

theorem scmCheck_conf (vt : VType) : scmCheck vt gConf rowsConf ['X', 'Y'] = true := by
  cases vt <;> decide +kernel

/-- What the theorems require, for the example. -/
structure ConfOk (vt : VType) (xs : List Char) (m : SCM (IS vt Char) (LS vt Char)) (B : BN Char Char ℚ) : Prop where
  model : scmConf vt true = .ok m
  rep : m.Rep B
  valid : B.Valid
  norm : B.Normalised
  nonneg : B.NonNeg
  cast : m.cast = true
  known : DagModel.Known m.base.graph B.states m.base
  domains : ∀ v ∈ B.nodes, Dict.get? m.base.domains v = some (some (B.states v))
  exogenous : m.exogenous = ['U']
  data : EmccData m B (frConf (xs.map fun x => (x, x)))
  nodes : B.nodes = ['U', 'X', 'Y']
  parents : B.parents 'U' = [] ∧ 'U' ∈ B.parents 'X' ∧ 'X' ∈ B.parents 'Y'
  states : B.states 'X' = ['0', '1'] ∧ B.states 'Y' = ['0', '1']
  fam : famDom m.base.graph B.states 'U' = [('U', ['0', '1', '2'])]
  network : ∃ l b, facsOf vt rowsConf = .ok l ∧ bnetOf vt gConf l = .ok b ∧ B = BN.ofModel (IS vt Char) b

theorem conf_ok (vt : VType) {xs : List Char} (hx0 : xs ≠ []) (hxs : ∀ x ∈ xs, x = '0' ∨ x = '1') : ∃ m B, ConfOk vt xs m B := by
  obtain ⟨l, b, h1, h2⟩ := scmCheck_spec (by decide) (scmCheck_conf vt)
  obtain ⟨m, m1, m2, m3, m4, m5⟩ := h2.model (e := none) (by decide) true
  have hm : scmConf vt true = .ok m := by rw [scmConf, h2.facs]; exact m1
  have hc := confCheck_ok vt
  rw [confCheck, h2.facs, hm] at hc
  simp only [h1, decide_eq_true_eq] at hc
  obtain ⟨c1, c2, c2x, c2y, c3, c4, c5, c6, c7, c8, c9, c10⟩ := hc
  set B : BN Char Char ℚ := BN.ofModel (IS vt Char) b with hBdef
  have hex : m.exogenous = ['U'] := by
    rw [SCM.exogenous, m5, m3]; decide
  have hst : ∀ v ∈ ['U', 'X', 'Y'], Dict.get? m.base.domains v = some (some (B.states v)) := by
    intro v hv
    rw [c6]
    rcases (by simpa using hv : v = 'U' ∨ v = 'X' ∨ v = 'Y') with rfl | rfl | rfl
    · rw [c3]; decide
    · rw [c4]; decide
    · rw [c5]; decide
  have hk : DagModel.Known m.base.graph B.states m.base := by
    refine ⟨rfl, m2.keys, by rw [c6, m5]; decide, fun v st hv => ?_⟩
    have hmem : v ∈ ['U', 'X', 'Y'] := by
      have := Dict.mem_keys_of_mem (Dict.mem_of_get? hv)
      rw [c6] at this
      simpa [Dict.keys] using this
    rw [hst v hmem] at hv
    injection hv with hv
    injection hv with hv
    exact hv.symm
  have hval : ∀ {r : Rec Char Char}, r ∈ (frConf (xs.map fun x => (x, x))).rows → ∃ x ∈ xs, r = [('X', some x), ('Y', some x)] := by
    intro r hr
    obtain ⟨p, hp, rfl⟩ := List.mem_map.1 hr
    obtain ⟨x, hx, rfl⟩ := List.mem_map.1 hp
    exact ⟨x, hx, rfl⟩
  have hval2 : ∀ {x v s : Char}, Rec.val [('X', some x), ('Y', some x)] v = some s → (v = 'X' ∨ v = 'Y') ∧ x = s := by
    intro x v s hs
    rw [Rec.val] at hs
    by_cases h1 : 'X' = v
    · subst h1
      exact ⟨.inl rfl, by simpa [Dict.get?] using hs⟩
    · by_cases h2 : 'Y' = v
      · subst h2
        exact ⟨.inr rfl, by simpa [Dict.get?] using hs⟩
      · simp [Dict.get?, h1, h2] at hs
  have hsx : ∀ x ∈ xs, x ∈ ['0', '1'] := fun x hx => by rcases hxs x hx with rfl | rfl <;> decide
  have hd : EmccData m B (frConf (xs.map fun x => (x, x))) := by
    refine ⟨⟨⟨show ['X', 'Y'].Nodup by decide, fun r hr => ?_⟩, by simpa [frConf] using hx0, ?_, fun r hr v s hs => ?_, ?_, ?_, fun v hv r hr => ?_, fun v hv r hr => ?_⟩,
      fun r hr => ?_⟩
    · obtain ⟨x, _, rfl⟩ := hval hr; rfl
    · rw [c1]; exact show ∀ v ∈ ['X', 'Y'], v ∈ ['U', 'X', 'Y'] by decide
    · obtain ⟨x, hx, rfl⟩ := hval hr
      obtain ⟨h, rfl⟩ := hval2 hs
      rcases h with rfl | rfl
      · rw [c4]; exact hsx x hx
      · rw [c5]; exact hsx x hx
    · rw [hex, c1]; decide
    · rw [hex]; intro v hv
      obtain rfl : v = 'U' := by simpa using hv
      exact c2
    · rw [hex] at hv
      obtain rfl : v = 'U' := by simpa using hv
      obtain ⟨x, hx, rfl⟩ := hval hr
      rfl
    · rw [hex] at hv
      obtain rfl : v = 'U' := by simpa using hv
      obtain ⟨x, hx, rfl⟩ := hval hr
      rw [show Rec.observed [('X', some x), ('Y', some x)] = ['X', 'Y'] from rfl, m5]
      exact ⟨'X', by decide, by decide +kernel⟩
    · obtain ⟨x, hx, rfl⟩ := hval hr
      refine ⟨fun _ => x, fun v hv => ?_, fun v hv => ?_, fun v s hs => (hval2 hs).2⟩
      · rw [c1] at hv
        rcases (by simpa using hv : v = 'U' ∨ v = 'X' ∨ v = 'Y') with rfl | rfl | rfl
        · rw [c3]; rcases hxs x hx with rfl | rfl <;> decide
        · rw [c4]; exact hsx x hx
        · rw [c5]; exact hsx x hx
      · rw [m3] at hv
        rcases hxs x hx with rfl | rfl <;> rcases (by simpa using hv : v = 'X' ∨ v = 'Y') with rfl | rfl
        · exact c7
        · exact c8
        · exact c9
        · exact c10
  refine ⟨m, B, hm, m2, h2.valid, h2.norm, h2.nonneg, m4, hk, by rw [c1]; exact hst, hex, hd, c1, ⟨c2, c2x, c2y⟩, ⟨c4, c5⟩, ?_, l, b, h2.facs, h1, rfl⟩
  rw [famDom, m5, show gConf.pred 'U' = [] from by decide]
  simp [c3]

theorem ConfOk.draws {vt : VType} {xs : List Char} {m : SCM (IS vt Char) (LS vt Char)} {B : BN Char Char ℚ} (h : ConfOk vt xs m B)
    {ts : List (Char → List ℚ)} (ht : ∀ t ∈ ts, (t 'U').length = 3 ∧ ∀ x ∈ t 'U', x < 0) :
    ∀ t ∈ ts, ∀ x ∈ m.exogenous, Draws false (famDom m.base.graph B.states x) (m.base.graph.pred x) (t x) := by
  intro t htt x hx
  rw [h.exogenous] at hx
  obtain rfl : x = 'U' := by simpa using hx
  rw [h.fam]
  exact ⟨(ht t htt).1, fun h => absurd h (by decide), fun _ => (ht t htt).2⟩

/-- The hypotheses of the theorems are met by the example, whatever outcomes the records have, whatever negative numbers are drawn
and however many models are learnt. -/
theorem C81_example (vt : VType) {xs : List Char} (hx0 : xs ≠ []) (hxs : ∀ x ∈ xs, x = '0' ∨ x = '1') {ts : List (Char → List ℚ)} (hts : ts ≠ [])
    (ht : ∀ t ∈ ts, (t 'U').length = 3 ∧ ∀ x ∈ t 'U', x < 0) (n : ℕ) :
    ∃ m B os Bs r, scmConf vt true = .ok m ∧
      Emcc.generate chEx klEq m n (frConf (xs.map fun x => (x, x))) (ts.map fun t x => (t x).map Fl.fin) =
        .ok (EM.addMissing ['U', 'X', 'Y'] (frConf (xs.map fun x => (x, x))), os) ∧
      List.Forall₂ (fun o B' => Refit m B o.core.model B') os Bs ∧
      Emcc.causalQuery chEx klEq bndEx (IS vt Char) true m n (frConf (xs.map fun x => (x, x))) (ts.map fun t x => (t x).map Fl.fin)
        ['Y'] [('X', '0')] none = .ok (.interval r) ∧
      ∀ o, FullObs (r.dom bndEx) o → ∃ lo hi, TightBounds lo hi (Bs.map fun B' => B'.doMarg [('X', '0')] ['Y'] (asg o)) ∧
        r.getValue (('_', 'l') :: o) = .ok (.fin lo) ∧ r.getValue (('_', 'u') :: o) = .ok (.fin hi) := by
  obtain ⟨m, B, h⟩ := conf_ok vt hx0 hxs
  obtain ⟨os, Bs, r, g1, _, g3, g4, _, _, g7⟩ := C81_query chEx_ok klEq h.rep h.valid h.norm h.nonneg h.cast h.known h.domains
    (by rw [h.exogenous]; decide) h.data hts (h.draws ht) n bndEx vt (T := ['Y']) (d := [('X', '0')]) (by decide) (by decide)
    (by
      intro x hx
      obtain rfl : x = 'Y' := by simpa using hx
      rw [h.nodes]; decide) (by decide) ⟨by decide, by rw [h.nodes]; decide, fun v s hs => by
        have := Dict.mem_of_get? hs
        obtain ⟨rfl, rfl⟩ : v = 'X' ∧ s = '0' := by simpa using this
        rw [h.states.1]; decide⟩
  rw [h.nodes] at g1
  exact ⟨m, B, os, Bs, r, h.model, g1, g3, g4, g7⟩

end Verif.Props
