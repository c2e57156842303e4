import Verif.Props.Causal

/-!
# Examples and counterexamples for causal and counterfactual queries (C35, C42 – C46)
-/

set_option linter.unusedSectionVars false
set_option linter.unusedSimpArgs false

namespace Verif
namespace Props
open Causal

/-- One of the possible choices of the library. -/
def chStr : Choices PyStr := ⟨Ordering.elimOrdering .minFill (fun _ => 0), List.dedup⟩

theorem chStr_ok : chStr.Ok := builtin_ok _ _ fun l => ⟨List.nodup_dedup l, fun v => List.mem_dedup⟩

/-- The network of the example model. -/
abbrev exB (vt : VType) (b : DagModel (Factor (IS vt PyStr)) PyStr Char) : BN PyStr Char ℚ := BN.ofModel (IS vt PyStr) b

/-- What is computed about the network of the example. -/
theorem exB_facts {vt : VType} {b : DagModel (Factor (IS vt PyStr)) PyStr Char} (hb : exBnet vt = .ok b) :
    (exB vt b).nodes = [sU, sW, sX, sY, sZ] ∧ (exB vt b).inner = [sX, sY, sZ] ∧ (exB vt b).roots = [sU, sW] ∧
    (exB vt b).states sX = ['0', '1'] ∧ (exB vt b).states sY = ['0', '1'] ∧ (exB vt b).states sZ = ['0', '1'] ∧
    (exB vt b).states sU = ['0', '1', '2'] ∧
    sX ∈ (exB vt b).parents sY ∧ sY ∈ (exB vt b).parents sZ ∧
    (exB vt b).marg [sX, sZ] (fun _ => '1') ≠ 0 ∧ (exB vt b).marg [sX, sZ] (fun _ => '0') ≠ 0 ∧ (exB vt b).marg [sZ] (fun _ => '1') ≠ 0 := by
  have hc : (match exBnet vt with
      | .ok b => decide ((exB vt b).nodes = [sU, sW, sX, sY, sZ] ∧ (exB vt b).inner = [sX, sY, sZ] ∧ (exB vt b).roots = [sU, sW] ∧
        (exB vt b).states sX = ['0', '1'] ∧ (exB vt b).states sY = ['0', '1'] ∧ (exB vt b).states sZ = ['0', '1'] ∧
        (exB vt b).states sU = ['0', '1', '2'] ∧
        sX ∈ (exB vt b).parents sY ∧ sY ∈ (exB vt b).parents sZ ∧
        (exB vt b).marg [sX, sZ] (fun _ => '1') ≠ 0 ∧ (exB vt b).marg [sX, sZ] (fun _ => '0') ≠ 0 ∧ (exB vt b).marg [sZ] (fun _ => '1') ≠ 0)
      | .error _ => false) = true := by cases vt <;> decide +kernel
  rw [hb] at hc
  simpa only [decide_eq_true_eq] using hc

theorem ex_fresh {vt : VType} {b : DagModel (Factor (IS vt PyStr)) PyStr Char} (hb : exBnet vt = .ok b) :
    ∀ v ∈ (exB vt b).inner, ∀ i, 1 ≤ i → i ≤ 2 → pySfx v i ∉ (exB vt b).nodes := by
  obtain ⟨h1, h2, _⟩ := exB_facts hb
  rw [h1, h2]
  have : ∀ v ∈ [sX, sY, sZ], ∀ i ∈ [1, 2], pySfx v i ∉ [sU, sW, sX, sY, sZ] := by decide +kernel
  intro v hv i h1 h2
  exact this v hv i (by simp; omega)

/-- **C46** applies to the example: the cause `X` and the effect `Z` are as asked, both kinds of evidence have positive
probability. -/
theorem C46_example (vt : VType) : ∃ (m : SCM (IS vt PyStr) (LS vt PyStr)) (b : DagModel (Factor (IS vt PyStr)) PyStr Char),
    exScm vt none false = .ok m ∧ CausalOk m (exB vt b) ∧ (exB vt b).NonNeg ∧ CausationOk (exB vt b) pySfx sX sZ '1' '0' '1' '0' ∧
    (∀ s ∈ (exB vt b).states sX, s = '1' ∨ s = '0') ∧ (∀ s ∈ (exB vt b).states sZ, s = '1' ∨ s = '0') ∧
    (exB vt b).marg [sX, sZ] (asg [(sX, '1'), (sZ, '1')]) ≠ 0 ∧ (exB vt b).marg [sX, sZ] (asg [(sX, '0'), (sZ, '0')]) ≠ 0 := by
  obtain ⟨m, b, h1, hb, h3, h4, _⟩ := ex_causal vt
  obtain ⟨f1, f2, f3, f4, f5, f6, f7, f8, f9, f10, f11, f12⟩ := exB_facts hb
  have hm : ∀ c : Char, (exB vt b).marg [sX, sZ] (asg [(sX, c), (sZ, c)]) = (exB vt b).marg [sX, sZ] (fun _ => c) := by
    intro c
    refine h3.valid.marg_dep _ _ _ fun v hv => ?_
    simp only [List.mem_cons, List.not_mem_nil, or_false] at hv
    rcases hv with rfl | rfl
    · exact over_of_get? rfl
    · exact over_of_get? rfl
  refine ⟨m, b, h1, h3, h4, ⟨by rw [f2]; decide, by rw [f2]; decide, by decide, ⟨sY, by rw [f1]; decide, f8⟩, by rw [f4]; decide,
    by rw [f4]; decide, by rw [f6]; decide, by rw [f6]; decide, ex_fresh hb, fun _ _ _ _ _ _ _ _ _ _ e => pySfx_inj e⟩,
    by rw [f4]; decide, by rw [f6]; decide, by rw [hm]; exact f10, by rw [hm]; exact f11⟩

/-- The three probabilities of the example, as the code computes them. -/
def exPns (vt : VType) : Py (List (Fl ℚ)) := do
  let m ← exScm vt none false
  let m' ← new m
  let x ← pns pySfx chStr m' sX sZ '1' '0' '1' '0'
  let y ← pn pySfx chStr m' sX sZ '1' '0' '1' '0'
  let z ← ps pySfx chStr m' sX sZ '1' '0' '1' '0'
  return [x, y, z]

theorem exPns_eq (vt : VType) : exPns vt = .ok [q (5/12), q 1, q 1] := by cases vt <;> decide +kernel

/-- **C42** applies to the example: `X` is imposed, `Z` is asked for, `Y` is observed. -/
theorem C42_example (vt : VType) : ∃ (m : SCM (IS vt PyStr) (LS vt PyStr)) (b : DagModel (Factor (IS vt PyStr)) PyStr Char),
    exScm vt none false = .ok m ∧ CausalOk m (exB vt b) ∧ EvOk (exB vt b) [(sX, '1')] ∧ EvOk (exB vt b) [(sY, '1')] ∧
    (exB vt b).doMarg [(sX, '1')] [sY] (asg [(sY, '1')]) ≠ 0 ∧
    (do let m' ← new m
        let r ← causalQuery chStr m' [sZ] [(sX, '1')] (some [(sY, '1')])
        r.getValue [(sZ, '1')]) = .ok (q (2/3)) := by
  obtain ⟨m, b, h1, hb, h3, h4, _⟩ := ex_causal vt
  obtain ⟨f1, f2, f3, f4, f5, f6, f7, f8, f9, f10, f11, f12⟩ := exB_facts hb
  have hv : (do let m ← exScm vt none false
                let m' ← new m
                let r ← causalQuery chStr m' [sZ] [(sX, '1')] (some [(sY, '1')])
                r.getValue [(sZ, '1')]) = .ok (q (2/3)) := by cases vt <;> decide +kernel
  rw [h1] at hv
  have hc : (match exBnet vt with
      | .ok b => decide ((exB vt b).doMarg [(sX, '1')] [sY] (fun _ => '1') ≠ 0)
      | .error _ => false) = true := by cases vt <;> decide +kernel
  rw [hb] at hc
  simp only [decide_eq_true_eq] at hc
  have ev : ∀ v, v ∈ (exB vt b).nodes → '1' ∈ (exB vt b).states v → EvOk (exB vt b) [(v, '1')] := by
    intro v hv hs
    refine ⟨by simp, by simpa using hv, fun w s h => ?_⟩
    have := Dict.mem_of_get? h
    simp only [List.mem_singleton, Prod.mk.injEq] at this
    rw [this.1, this.2]; exact hs
  refine ⟨m, b, h1, h3, ev sX (by rw [f1]; decide) (by rw [f4]; decide), ev sY (by rw [f1]; decide) (by rw [f5]; decide), ?_, hv⟩
  have hdep := BN.doMarg_dep h3.valid (d := [(sX, '1')]) (by rw [f1]; decide) [sY] (asg [(sY, '1')]) (fun _ => '1') (fun v hv => by
    rw [List.mem_singleton.1 hv]
    exact over_of_get? rfl)
  rw [hdep]
  exact hc

/-- **C35**, **C43** apply to the example: two worlds, a target in each. -/
theorem C43_example (vt : VType) : ∃ (m : SCM (IS vt PyStr) (LS vt PyStr)) (b : DagModel (Factor (IS vt PyStr)) PyStr Char),
    exScm vt none false = .ok m ∧ CausalOk m (exB vt b) ∧
    CfOk (exB vt b) pySfx [[(sY, '1')], [(sX, '0')]] [(sZ, 1), (sY, 2)] ∧ EvOk (exB vt b) [(sZ, '1')] ∧
    (exB vt b).cfProb (exB vt b).roots (exB vt b).inner [([], [(sZ, '1')])] ≠ 0 := by
  obtain ⟨m, b, h1, hb, h3, h4, _⟩ := ex_causal vt
  obtain ⟨f1, f2, f3, f4, f5, f6, f7, f8, f9, f10, f11, f12⟩ := exB_facts hb
  have hev : EvOk (exB vt b) [(sZ, '1')] := by
    refine ⟨by simp, by rw [f1]; decide, fun w s h => ?_⟩
    have := Dict.mem_of_get? h
    simp only [List.mem_singleton, Prod.mk.injEq] at this
    rw [this.1, this.2, f6]; decide
  refine ⟨m, b, h1, h3, ⟨worldsOk_str (by decide) (by rw [f2]; decide) ?_ ?_ (ex_fresh hb), by decide, by decide, ?_⟩, hev, ?_⟩
  · intro d hd v s hs
    have := Dict.mem_of_get? hs
    simp only [List.mem_cons, List.not_mem_nil, or_false] at hd
    rcases hd with rfl | rfl <;> simp only [List.mem_singleton, Prod.mk.injEq] at this
    · rw [this.1, this.2, f5]; decide
    · rw [this.1, this.2, f4]; decide
  · intro d hd v hv
    simp only [List.mem_cons, List.not_mem_nil, or_false] at hd
    rcases hd with rfl | rfl <;> simp only [Dict.keys_cons, Dict.keys_nil, List.mem_singleton] at hv
    · exact ⟨sZ, by rw [f1]; decide, by rw [hv]; exact f9, by decide⟩
    · exact ⟨sY, by rw [f1]; decide, by rw [hv]; exact f8, by decide⟩
  · rw [f2]
    intro q hq
    simp only [List.mem_cons, List.not_mem_nil, or_false] at hq
    rcases hq with rfl | rfl
    · refine ⟨by decide, by decide, by decide, fun d hd => ?_⟩
      simp only [Nat.sub_self, List.getElem?_cons_zero, Option.some.injEq] at hd
      subst hd; decide
    · refine ⟨by decide, by decide, by decide, fun d hd => ?_⟩
      simp only [Nat.add_one_sub_one, List.getElem?_cons_succ, List.getElem?_cons_zero, Option.some.injEq] at hd
      subst hd; decide
  · rw [BN.cfProb_factual (BN.eqs_inner h3.valid h3.norm h3.equations) hev, h3.valid.marg_dep _ _ (fun _ => '1')]
    · exact f12
    · intro v hv
      simp at hv
      rw [hv]
      exact over_of_get? rfl

/-- The answer of a counterfactual query on the example at one point. -/
def exCf (vt : VType) (target : List PyStr) (dos : List (Obs PyStr Char)) (ev : Option (Obs PyStr Char)) (subs : Option (List Nat))
    (obs : Obs PyStr Char) : Py (Fl ℚ) := do
  let m ← exScm vt none false
  let m' ← new m
  let r ← counterfactualQuery pySfx chStr m' target dos ev subs
  r.getValue obs

theorem C43_example_value (vt : VType) : exCf vt [sZ, sY] [[(sY, '1')], [(sX, '0')]] (some [(sZ, '1')]) (some [1, 2])
    [(pySfx sZ 1, '1'), (pySfx sY 2, '0')] = .ok (q (1/16)) := by cases vt <;> decide +kernel

/-- **C45** on the example: the evidence contains the imposed state. -/
theorem C45_example_value (vt : VType) : exCf vt [sZ] [[(sX, '1')]] (some [(sX, '1'), (sY, '0')]) none [(pySfx sZ 1, '1')] = .ok (q (2/3)) ∧
    (do let m ← exScm vt none false
        let m' ← new m
        let r ← ((VEObj.new m'.base : VEObj _ (IS vt PyStr)).query chStr [sZ] (some [(sX, '1'), (sY, '0')])).2
        r.getValue [(sZ, '1')]) = .ok (q (2/3)) := by
  cases vt <;> decide +kernel

/-! ### C44: queries that fail -/

/-- **C44** (partial) a counterfactual query of the kind described by `CfOk` is answered.

Full statement: every counterfactual query whose variables belong to the model is answered.  It does not hold, see below. -/
theorem C44_answered_partial {V S K : Type} [DecidableEq V] [DecidableEq S] [Inhabited S] [Field K] [LinearOrder K] [IsStrictOrderedRing K]
    {vt : VType} {sfx : V → Nat → V} {dos : List (Obs V S)} {tg : List (V × Nat)} {ch : Choices V} (hch : ch.Ok)
    {m : SCM (storeOf vt : StoreImpl V S (Fl K)) (labelStoreOf vt)} {B : BN V S K} (h : CausalOk m B) (hq : CfOk B sfx dos tg)
    {e : Option (Obs V S)} (hev : EvOk B (e.getD [])) (hp : B.cfProb B.roots B.inner [([], e.getD [])] ≠ 0) :
    ∃ m' r, new m = .ok m' ∧ counterfactualQuery sfx ch m' (tg.map Prod.fst) dos e (some (tg.map Prod.snd)) = .ok r := by
  obtain ⟨m', r, h1, h2, _⟩ := C43_counterfactual_partial hch h hq hev rfl hp
  exact ⟨m', r, h1, h2⟩

/-- An intervention on a variable without children: the copy of the variable has no edge in its world, and the fused graph
has only the nodes of the first model and the ends of edges. -/
theorem C44_childless (vt : VType) : exCf vt [sY] [[(sZ, '1')]] none none [(pySfx sY 1, '1')] = .error .networkx := by
  cases vt <;> decide +kernel

/-- An intervention on an exogenous variable: it has no copy, but the imposed state is given to its copy. -/
theorem C44_exogenous_do (vt : VType) : exCf vt [sY] [[(sU, '1')]] none none [(pySfx sY 1, '1')] = .error .nodeNotFound := by
  cases vt <;> decide +kernel

/-- An exogenous target: likewise. -/
theorem C44_exogenous_target (vt : VType) : exCf vt [sU] [[(sX, '1')]] none none [(pySfx sU 1, '1')] = .error .nodeNotFound := by
  cases vt <;> decide +kernel

/-- An intervened target. -/
theorem C44_intervened_target (vt : VType) : exCf vt [sX] [[(sX, '1')]] none none [(pySfx sX 1, '1')] = .error .valueError := by
  cases vt <;> decide +kernel

/-- **C46** consequently the probabilities of causation of a cause without children are not found. -/
theorem C46_childless (vt : VType) : (do
    let m ← exScm vt none false
    let m' ← new m
    pns pySfx chStr m' sZ sX '1' '0' '1' '0') = .error .networkx := by
  cases vt <;> decide +kernel

/-! ### C43: a wrong answer when a variable has the name of a copy -/

/-- Two variables of which one has the name of the copy of the other: `X_1`. -/
abbrev sX1 : PyStr := ['X', '_', '1']

def gCol : DiGraph PyStr := ⟨[sU, sX, sX1, sY, sZ, sW], [(sU, sX), (sU, sX1), (sX1, sY), (sX, sZ), (sZ, sW)]⟩

def rowsCol : List (SRow PyStr) :=
  [.num [(sU, ['0', '1'])] [q (1/2), q (1/2)] sU,
   .fn [(sX, ['0', '1']), (sU, ['0', '1'])] ['0', '1'] sX,
   .fn [(sX1, ['0', '1']), (sU, ['0', '1'])] ['1', '0'] sX1,
   .fn [(sY, ['0', '1']), (sX1, ['0', '1'])] ['0', '1'] sY,
   .fn [(sZ, ['0', '1']), (sX, ['0', '1'])] ['0', '1'] sZ,
   .fn [(sW, ['0', '1']), (sZ, ['0', '1'])] ['0', '1'] sW]

def colScm (vt : VType) : Py (SCM (IS vt PyStr) (LS vt PyStr)) := do
  let l ← facsOf vt rowsCol
  SCM.ofList gCol (l.map fun p => some p.2) none false true

def colBnet (vt : VType) : Py (DagModel (Factor (IS vt PyStr)) PyStr Char) := do
  let l ← facsOf vt rowsCol
  bnetOf vt gCol l

/-- Counterfactual query on this model, with any way of naming the copies. -/
def colCf (vt : VType) (sfx : PyStr → Nat → PyStr) (obs : Obs PyStr Char) : Py (Fl ℚ) := do
  let m ← colScm vt
  let m' ← new m
  let r ← counterfactualQuery sfx chStr m' [sY] [[(sZ, '0')]] (some [(sY, '0')]) none
  r.getValue obs

/-- A way of naming copies that gives new names here. -/
def altSfx (v : PyStr) (i : Nat) : PyStr := v ++ '@' :: List.replicate i 'a'

theorem altSfx_inj {v w : PyStr} {i j : Nat} (h : altSfx v i = altSfx w j) : v = w ∧ i = j := by
  obtain ⟨h1, h2⟩ := append_sep_inj (by simp [List.mem_replicate]) (by simp [List.mem_replicate]) h
  exact ⟨h1, by simpa using congrArg List.length h2⟩

theorem col_causal (vt : VType) : ∃ (m : SCM (IS vt PyStr) (LS vt PyStr)) (b : DagModel (Factor (IS vt PyStr)) PyStr Char),
    colScm vt = .ok m ∧ colBnet vt = .ok b ∧ CausalOk m (exB vt b) := by
  obtain ⟨l, b, h1, h⟩ := scmCheck_spec (vt := vt) (g := gCol) (rows := rowsCol) (endo := [sX, sX1, sY, sZ, sW]) (by decide)
    (by cases vt <;> decide +kernel)
  obtain ⟨m, h2, h3, h4, _, h5⟩ := h.model (e := none) (by decide) false
  have hb : colBnet vt = .ok b := by rw [colBnet, h.facs]; exact h1
  have hm : colScm vt = .ok m := by rw [colScm, h.facs]; exact h2
  have hc : (match colBnet vt with
      | .ok b => decide ((exB vt b).inner = [sX, sX1, sY, sZ, sW] ∧ (exB vt b).roots = [sU])
      | .error _ => false) = true := by cases vt <;> decide +kernel
  have hd : (match colScm vt with
      | .ok m => [sU].all fun v => ((Dict.get? m.base.factors v).getD none).all fun f => !f.isDet
      | .error _ => false) = true := by cases vt <;> decide +kernel
  rw [hb] at hc
  rw [hm] at hd
  simp only [decide_eq_true_eq] at hc
  refine ⟨m, b, hm, hb, ⟨h3, h.valid, h.norm, fun v hv => h.equations v (by rw [← hc.1]; exact hv) (BN.mem_inner.1 hv).1, fun v hv f hf => ?_⟩⟩
  rw [hc.2] at hv
  have := List.all_eq_true.1 hd v hv
  rw [hf] at this
  simpa using this

/-- **C43** fails: given that `Y = 0`, it would still be so if `Z` were `0`, since `Z` has no influence on `Y`; the code
answers that it certainly would not.  The copy of `X` has the name of another variable, whose equation it replaces. -/
theorem C43_name_collision (vt : VType) :
    (∃ (m : SCM (IS vt PyStr) (LS vt PyStr)) (b : DagModel (Factor (IS vt PyStr)) PyStr Char), colScm vt = .ok m ∧
      CausalOk m (exB vt b) ∧
      (exB vt b).cfProb (exB vt b).roots (exB vt b).inner [([], [(sY, '0')]), ([(sZ, '0')], [(sY, '0')])] /
        (exB vt b).cfProb (exB vt b).roots (exB vt b).inner [([], [(sY, '0')])] = 1) ∧
    colCf vt pySfx [(pySfx sY 1, '0')] = .ok (q 0) := by
  refine ⟨?_, by cases vt <;> decide +kernel⟩
  obtain ⟨m, b, hm, hb, h⟩ := col_causal vt
  refine ⟨m, b, hm, h, ?_⟩
  have hc : (match colBnet vt with
      | .ok b => decide ((exB vt b).nodes = [sU, sX, sX1, sY, sZ, sW] ∧ (exB vt b).inner = [sX, sX1, sY, sZ, sW] ∧
        (exB vt b).states sY = ['0', '1'] ∧ (exB vt b).states sZ = ['0', '1'] ∧ sZ ∈ (exB vt b).parents sW ∧
        (exB vt b).marg [sY] (fun _ => '0') ≠ 0)
      | .error _ => false) = true := by cases vt <;> decide +kernel
  rw [hb] at hc
  simp only [decide_eq_true_eq] at hc
  obtain ⟨f1, f2, f3, f4, f5, f6⟩ := hc
  have hev : EvOk (exB vt b) [(sY, '0')] := by
    refine ⟨by simp, by rw [f1]; decide, fun w s h => ?_⟩
    have := Dict.mem_of_get? h
    simp only [List.mem_singleton, Prod.mk.injEq] at this
    rw [this.1, this.2, f3]; decide
  have hq : CfOk (exB vt b) altSfx [[(sZ, '0')]] ([sY].map fun t => (t, 1)) := by
    refine ⟨⟨by decide, by rw [f2]; decide, fun d hd v s hs => ?_, fun d hd v hv => ?_, ?_, fun _ _ _ _ _ _ _ _ _ _ e => altSfx_inj e⟩,
      by decide, by decide, ?_⟩
    · rw [List.mem_singleton.1 hd] at hs
      have := Dict.mem_of_get? hs
      simp only [List.mem_singleton, Prod.mk.injEq] at this
      rw [this.1, this.2, f4]; decide
    · rw [List.mem_singleton.1 hd] at hv ⊢
      simp only [Dict.keys_cons, Dict.keys_nil, List.mem_singleton] at hv
      exact ⟨sW, by rw [f1]; decide, by rw [hv]; exact f5, by decide⟩
    · rw [f1, f2]
      have hal : ∀ v ∈ [sX, sX1, sY, sZ, sW], altSfx v 1 ∉ [sU, sX, sX1, sY, sZ, sW] := by decide +kernel
      intro v hv i h1 h2
      have : i = 1 := by simp at h2; omega
      subst this
      exact hal v hv
    · rw [f2]
      intro p hp
      simp only [List.map_cons, List.map_nil, List.mem_singleton] at hp
      subst hp
      refine ⟨by decide, by decide, by decide, fun d hd => ?_⟩
      simp only [Nat.sub_self, List.getElem?_cons_zero, Option.some.injEq] at hd
      subst hd; decide
  have hE := BN.eqs_inner h.valid h.norm h.equations
  obtain ⟨m', r, e1, e2, _, _, _, e5, e6⟩ := C43_one_world_partial chStr_ok h hq hev (e := some [(sY, '0')]) rfl (by
    rw [BN.cfProb_factual hE hev, h.valid.marg_dep _ _ (fun _ => '0')]
    · exact f6
    · intro v hv
      simp at hv
      rw [hv]
      exact over_of_get? rfl)
  have hval : colCf vt altSfx [(altSfx sY 1, '0')] = .ok (q 1) := by cases vt <;> decide +kernel
  rw [colCf, hm] at hval
  simp only [py_ok_bind, e1, e2] at hval
  rw [e6 [(altSfx sY 1, '0')] fun p hp => by
    obtain ⟨t, ht, p1, p2⟩ := e5 p hp
    rw [List.mem_singleton] at ht
    subst ht
    exact ⟨'0', by rw [p2, f3]; decide, by rw [p1]; simp [Dict.get?]⟩] at hval
  have ha : (asg [(altSfx sY 1, '0')] : PyStr → Char) (altSfx sY 1) = '0' := over_of_get? (by simp [Dict.get?])
  simp only [List.map_cons, List.map_nil, ha] at hval
  injection hval with hval
  exact Fl.fin.inj hval

end Props
end Verif
