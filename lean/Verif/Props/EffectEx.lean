import Verif.Props.FrontDoorEx
import Verif.Props.Effect
import Verif.Props.CanonicalEx
import Verif.Props.Undetermined

/-!
# C103 on the example `U → X`, `X, W → Y`, `Y → Z`, `U → Z`

`X` shares the unobserved `U` with `Z`, not with its only child `Y`.
-/

set_option linter.unusedSectionVars false
set_option linter.unusedSimpArgs false

namespace Verif
namespace Props
open Causal Relation

theorem ex_unconfounded : Unconfounded gScm [sX, sY, sZ] [sX] := by
  intro x hx v hv _ hr
  rw [List.mem_singleton.1 hx] at hv hr
  have hvY : v = sY := (by decide : ∀ e ∈ gScm.edges, e.1 = sX → e.2 = sY) _ hv rfl
  have key : ∀ w, ReflTransGen (Confounded gScm [sX, sY, sZ]) sX w → w = sX ∨ w = sZ := by
    intro w hw
    induction hw with
    | refl => exact .inl rfl
    | tail _ he ih =>
      obtain ⟨_, _, u, hu, e1, e2⟩ := he
      have : ∀ e ∈ gScm.edges, ∀ e' ∈ gScm.edges, e.1 ∉ [sX, sY, sZ] → e.1 = e'.1 → e.2 = sX ∨ e.2 = sZ → e'.2 = sX ∨ e'.2 = sZ := by decide
      exact this _ e1 _ e2 hu rfl ih
  rcases key v hr with h | h <;> rw [hvY] at h <;> exact absurd h (by decide)

theorem gScm_endoOk : EndoOk gScm [sX, sY, sZ] [sX, sY, sZ] := ⟨⟨by decide, by decide, by decide⟩, endoScm_topo, by decide⟩

/-- The formula for the twenty-four records, and the frequencies that it is not -/
theorem units_effect :
    effectOf (K := ℚ) (fun _ => ['0', '1']) (empirical ℚ frUnits.rows) gScm [sX, sY, sZ] [sX, sY, sZ] [(sX, '0')] [sZ, sY] (fun _ => '1') = 1/2 ∧
    effectOf (K := ℚ) (fun _ => ['0', '1']) (empirical ℚ frUnits.rows) gScm [sX, sY, sZ] [sX, sY, sZ] [(sX, '0')] [sY] (fun _ => '1') = 3/4 ∧
    empirical ℚ frUnits.rows [sZ, sX, sY] (fun v => if v = sX then '0' else '1') /
      empirical ℚ frUnits.rows [sX, sY] (fun v => if v = sX then '0' else '1') = 1 := by
  decide +kernel

theorem effectOf_congr {V S K : Type} [DecidableEq V] [DecidableEq S] [Inhabited S] [Field K] [LinearOrder K] [IsStrictOrderedRing K] {g : DiGraph V} {endo o : List V} {D D' : V → List S}
    {P : List V → (V → S) → K} (hD : ∀ v ∈ o, D v = D' v) (hP : ∀ W, DependsOn (P W) W) {d : Obs V S} {W : List V} {a a' : V → S}
    (ha : ∀ w ∈ W, a w = a' w ∧ a w ∈ D w) (hd : ∀ v s, Dict.get? d v = some s → s ∈ D v) : effectOf D P g endo o d W a = effectOf D' P g endo o d W a' := by
  refine sumOver_rel (o := o) (fun c c' hc => imposed_congr hD (fun W hW b b' hb => hP W _ _ fun w hw => (hb w (hW w hw)).1) _ hc) _
    (fun t ht => hD t (List.mem_filter.1 ht).1) fun v hv hvT => ?_
  by_cases hvd : v ∈ Dict.keys d
  · obtain ⟨s, hs⟩ := Option.isSome_iff_exists.1 (Dict.get?_isSome.2 hvd)
    rw [over_of_get? hs, over_of_get? hs]
    exact ⟨rfl, hd v s hs⟩
  · have hvW : v ∈ W := by
      by_contra hm
      exact hvT (List.mem_filter.2 ⟨hv, by simpa using ⟨hm, hvd⟩⟩)
    rw [BN.over_not hvd, BN.over_not hvd]
    exact ha v hvW

/-- **C103** applied: however many models are learnt, whatever negative numbers are drawn for them, the bounds of `P(Z=1 | Y=1, do(X=0))` are `2/3` and `2/3`,
although `Z=1` in all the records with `X=0` and `Y=1`. -/
theorem C103_example (vt : VType) {ts : List (PyStr → List ℚ)} (hts : ts ≠ [])
    (ht : ∀ t ∈ ts, ((t sU).length = 3 ∧ ∀ x ∈ t sU, x < 0) ∧ (t sW).length = 2 ∧ ∀ x ∈ t sW, x < 0) (max : Option Nat) :
    ∃ m o o' r, exScm vt none true = .ok m ∧
      Gdcc.compileObj (fun x => Real.log (Rat.castHom ℝ x)) Uai.isSub leastOpt m max frUnits (ts.map fun t x => (t x).map Fl.fin) true = .ok o ∧
      o.query bndStr (IS vt PyStr) (fun i => causalQuery chStr i [sZ] [(sX, '0')] (some [(sY, '1')])) = .ok (o', .interval r) ∧
      r.getValue [(['_'], 'l'), (sZ, '1')] = .ok (q (2/3)) ∧ r.getValue [(['_'], 'u'), (sZ, '1')] = .ok (q (2/3)) := by
  obtain ⟨m, b, h1, hb, hg, hex, hen, hW, h2, h3, h4, h5⟩ := units_ok vt max
  obtain ⟨f1, f2, f3, f4, f5, f6, f7, _⟩ := exB_facts hb
  have hst : ∀ v ∈ [sX, sY, sZ], (exB vt b).states v = ['0', '1'] := by
    intro v hv
    rcases (by simpa using hv : v = sX ∨ v = sY ∨ v = sZ) with rfl | rfl | rfl
    · exact f4
    · exact f5
    · exact f6
  have hgd : ∀ v s, Dict.get? [(sX, '0')] v = some s → v = sX ∧ s = '0' := fun v s h => by
    have := Dict.mem_of_get? h
    simpa using this
  have hge : ∀ v s, Dict.get? [(sY, '1')] v = some s → v = sY ∧ s = '1' := fun v s h => by
    have := Dict.mem_of_get? h
    simpa using this
  have hE : ∀ (W : List PyStr) (a : PyStr → Char), (∀ w ∈ W, w ∈ [sX, sY, sZ] ∧ a w = '1') →
      effectOf (exB vt b).states (empirical ℚ frUnits.rows) gScm [sX, sY, sZ] [sX, sY, sZ] [(sX, '0')] W a =
      effectOf (fun _ => ['0', '1']) (empirical ℚ frUnits.rows) gScm [sX, sY, sZ] [sX, sY, sZ] [(sX, '0')] W (fun _ => '1') := fun W a ha =>
    effectOf_congr hst (fun W => empirical_dep _ W) (fun w hw => ⟨(ha w hw).2, by rw [(ha w hw).2, hst w (ha w hw).1]; decide⟩) fun v s h => by
      obtain ⟨rfl, rfl⟩ := hgd v s h; rw [f4]; decide
  have he1 : effectOf (exB vt b).states (empirical ℚ frUnits.rows) gScm [sX, sY, sZ] [sX, sY, sZ] [(sX, '0')] [sY] (asg [(sY, '1')]) = 3/4 := by
    rw [hE _ _ fun w hw => ?_]
    · exact units_effect.2.1
    · rw [List.mem_singleton.1 hw]; exact ⟨by decide, over_of_get? rfl⟩
  obtain ⟨o, o', r, q1, q2, q3, q4, q5⟩ := C103_identified (fun x y h => by simpa using h) chStr_ok h2 h3 (by decide +kernel) h4 h5 hts
    (fun t htt x hx => by
      rw [hex] at hx
      rcases (by simpa using hx : x = sU ∨ x = sW) with rfl | rfl
      · rw [famDom, hg, show gScm.pred sU = [] from by decide]
        exact ⟨by simpa [f7, cards] using (ht t htt).1.1, fun h => absurd h (by decide), fun _ => (ht t htt).1.2⟩
      · rw [famDom, hg, show gScm.pred sW = [] from by decide]
        exact ⟨by simpa [hW, cards] using (ht t htt).2.1, fun h => absurd h (by decide), fun _ => (ht t htt).2.2⟩)
    bndStr vt (o := [sX, sY, sZ]) (by rw [hg, hen]; exact gScm_endoOk) (T := [sZ]) (by decide) (by decide) (by decide) (d := [(sX, '0')]) (ev := [(sY, '1')])
    (by rw [f1, hen]; decide) ⟨by decide, by rw [f1]; decide, fun v s h => by obtain ⟨rfl, rfl⟩ := hgd v s h; rw [f4]; decide⟩ (by rw [hen]; decide)
    (by rw [hg, hen]; exact ex_unconfounded) ⟨by decide, by rw [f1]; decide, fun v s h => by obtain ⟨rfl, rfl⟩ := hge v s h; rw [f5]; decide⟩
    (by rw [hen]; decide) (e := some [(sY, '1')]) rfl
    (fun a ha => by
      have hs : a sX ∈ ['0', '1'] := f4 ▸ ha sX (by decide)
      have hs' : a sY ∈ ['0', '1'] := f5 ▸ ha sY (by decide)
      have key : ∀ x ∈ ['0', '1'], ∀ y ∈ ['0', '1'], empirical ℚ frUnits.rows [sX, sY] (fun v => if v = sX then x else y) ≠ 0 := by decide +kernel
      show empirical ℚ frUnits.rows [sX, sY] a ≠ 0
      rw [empirical_dep frUnits.rows [sX, sY] a (fun v => if v = sX then a sX else a sY) fun v hv => by
        rcases (by simpa using hv : v = sX ∨ v = sY) with rfl | rfl
        · rw [if_pos rfl]
        · rw [if_neg (by decide)]]
      exact key _ hs _ hs')
    (by rw [hg, hen]; show effectOf _ _ _ _ _ _ [sY] _ ≠ 0; rw [he1]; norm_num)
  obtain ⟨x, x1, v1, v2⟩ := q5 [(sZ, '1')] (by
    intro p hp
    have hp1 : p.1 = sZ := by simpa using (q3 p.1).1 (Dict.mem_keys_of_mem hp)
    refine ⟨'1', ?_, by rw [hp1]; rfl⟩
    rw [q4 p hp, hp1, f6]; decide)
  have hx : x = 2/3 := by
    rw [x1, hg, hen]
    show effectOf _ _ _ _ _ _ [sZ, sY] _ / effectOf _ _ _ _ _ _ [sY] _ = _
    rw [he1, hE _ _ fun w hw => ?_]
    · rw [units_effect.1]; norm_num
    · rcases (by simpa using hw : w = sZ ∨ w = sY) with rfl | rfl
      · exact ⟨by decide, over_of_get? rfl⟩
      · exact ⟨by decide, over_of_get? rfl⟩
  rw [hx] at v1 v2
  exact ⟨m, o, o', r, h1, q1, q2, v1, v2⟩

/-! ### Two models with the same observations -/

/-- `rowsMark` with other equations: `U` has two states and `W` three. -/
def rowsTwin : List (SRow PyStr) :=
  [.num [(sU, ['0', '1'])] [q (1/2), q (1/2)] sU,
   .num [(sW, ['0', '1', '2'])] [q (1/4), q (1/2), q (1/4)] sW,
   .fn [(sX, ['0', '1']), (sU, ['0', '1'])] ['0', '1'] sX,
   .fn [(sZ, ['0', '1']), (sX, ['0', '1']), (sW, ['0', '1', '2'])] ['0', '1', '1', '0', '0', '1'] sZ]

def scmOf (vt : VType) (rows : List (SRow PyStr)) : Py (SCM (IS vt PyStr) (LS vt PyStr)) := do
  let l ← facsOf vt rows
  SCM.ofList gMark (l.map fun p => some p.2) none false true

/-- What is evaluated for both -/
def obsCheck (vt : VType) (rows : List (SRow PyStr)) : Bool :=
  match facsOf vt rows, scmOf vt rows with
  | .ok l, .ok m => (match bnetOf vt gMark l with
    | .ok b => decide ((exB vt b).nodes = [sU, sW, sX, sZ] ∧ (exB vt b).inner = [sX, sZ] ∧ (exB vt b).roots = [sU, sW] ∧
        (exB vt b).states sX = ['0', '1'] ∧ (exB vt b).states sZ = ['0', '1'] ∧
        ((exB vt b).parents sU = [] ∧ (exB vt b).parents sW = [] ∧ (exB vt b).parents sX = [sU] ∧ (exB vt b).parents sZ = [sX, sW]) ∧
        (∀ x ∈ ['0', '1'], ∀ z ∈ ['0', '1'], (exB vt b).marg [sX, sZ] (fun v => if v = sX then x else z) = if x = z then 1/8 else 3/8) ∧
        (exB vt b).doMarg [(sX, '1')] [] (fun _ => '0') ≠ 0) &&
        ([sU, sW].all fun v => ((Dict.get? m.base.factors v).getD none).all fun f => !f.isDet)
    | _ => false)
  | _, _ => false

theorem obsEx {vt : VType} {rows : List (SRow PyStr)} (hd : ∀ r ∈ rows, DomOk r.dom ∧ r.shapeOk = true) (hs : scmCheck vt gMark rows [sX, sZ] = true)
    (hc : obsCheck vt rows = true) : ∃ (m : SCM (IS vt PyStr) (LS vt PyStr)) (B : BN PyStr Char ℚ),
    scmOf vt rows = .ok m ∧ CausalOk m B ∧ B.NonNeg ∧ m.base.graph = gMark ∧ B.nodes = [sU, sW, sX, sZ] ∧ B.inner = [sX, sZ] ∧
      B.states sX = ['0', '1'] ∧ B.states sZ = ['0', '1'] ∧ (B.parents sU = [] ∧ B.parents sW = [] ∧ B.parents sX = [sU] ∧ B.parents sZ = [sX, sW]) ∧
      (∀ x ∈ ['0', '1'], ∀ z ∈ ['0', '1'], B.marg [sX, sZ] (fun v => if v = sX then x else z) = if x = z then 1/8 else 3/8) ∧
      B.doMarg [(sX, '1')] [] (fun _ => '0') ≠ 0 := by
  obtain ⟨l, b, h1, h⟩ := scmCheck_spec hd hs
  obtain ⟨m, h2, h3, h4, hgr, h5⟩ := h.model (e := none) (by decide) false
  have hm : scmOf vt rows = .ok m := by rw [scmOf, h.facs]; exact h2
  rw [obsCheck, h.facs, hm] at hc
  simp only [h1, Bool.and_eq_true, decide_eq_true_eq] at hc
  obtain ⟨⟨f1, f2, f3, f4, f5, f6, f7, f8⟩, hc2⟩ := hc
  refine ⟨m, exB vt b, hm, ⟨h3, h.valid, h.norm, fun v hv => h.equations v (by rw [← f2]; exact hv) (BN.mem_inner.1 hv).1, fun v hv f hf => ?_⟩,
    h.nonneg, h5, f1, f2, f4, f5, f6, f7, f8⟩
  rw [f3] at hv
  have := List.all_eq_true.1 hc2 v hv
  rw [hf] at this
  simpa using this

/-- **C103** applied to two models with other exogenous variables and other equations -/
theorem C103_two_models (vt : VType) : ∃ (m m' i i' : SCM (IS vt PyStr) (LS vt PyStr)) (r r' : Factor (IS vt PyStr)),
    scmOf vt rowsMark = .ok m ∧ scmOf vt rowsTwin = .ok m' ∧ new m = .ok i ∧ new m' = .ok i' ∧
      causalQuery chStr i [sZ] [(sX, '1')] none = .ok r ∧ causalQuery chStr i' [sZ] [(sX, '1')] none = .ok r' ∧
      ∀ obs, FullObs r.dom obs → r'.getValue obs = r.getValue obs := by
  obtain ⟨m, B, h1, h2, h3, h4, f1, f2, f3, f4, ⟨p1, p2, p3, p4⟩, f6, f7⟩ := obsEx (vt := vt) (rows := rowsMark) (by decide) (by cases vt <;> decide +kernel) (by cases vt <;> decide +kernel)
  obtain ⟨m', B', k1, k2, k3, k4, g1, g2, g3, g4, ⟨q1, q2, q3, q4⟩, g6, g7⟩ := obsEx (vt := vt) (rows := rowsTwin) (by decide) (by cases vt <;> decide +kernel) (by cases vt <;> decide +kernel)
  have hs : BN.SameEndo B B' := by
    refine ⟨g1.trans f1.symm, fun v hv => ?_, fun v hv => ?_⟩
    · rw [f1] at hv
      rcases (by simpa using hv : v = sU ∨ v = sW ∨ v = sX ∨ v = sZ) with rfl | rfl | rfl | rfl
      · rw [p1, q1]
      · rw [p2, q2]
      · rw [p3, q3]
      · rw [p4, q4]
    · rw [f2] at hv
      rcases (by simpa using hv : v = sX ∨ v = sZ) with rfl | rfl
      · rw [f3, g3]
      · rw [f4, g4]
  have hsplit : ∀ {N : BN PyStr Char ℚ}, N.Valid → ∀ a : PyStr → Char, N.marg [sX, sZ] a = N.marg [sX, sZ] (fun v => if v = sX then a sX else a sZ) := fun hN a =>
    hN.marg_dep _ _ _ fun v hv => by
      rcases (by simpa using hv : v = sX ∨ v = sZ) with rfl | rfl
      · rw [if_pos rfl]
      · rw [if_neg (by decide)]
  have hval : ∀ a : PyStr → Char, (∀ v ∈ B.inner, a v ∈ B.states v) → a sX ∈ ['0', '1'] ∧ a sZ ∈ ['0', '1'] := fun a ha =>
    ⟨f3 ▸ ha sX (by rw [f2]; decide), f4 ▸ ha sZ (by rw [f2]; decide)⟩
  have hgd : ∀ v s, Dict.get? [(sX, '1')] v = some s → v = sX ∧ s = '1' := fun v s h => by
    have := Dict.mem_of_get? h
    simpa using this
  obtain ⟨i, i', r, r', c1, c2, c3, c4, _, _, c7⟩ := C103_determined chStr_ok chStr_ok h2 k2 h3 k3 hs
    (fun a ha => by
      obtain ⟨ha1, ha2⟩ := hval a ha
      rw [f2, hsplit k2.valid, hsplit h2.valid, g6 _ ha1 _ ha2, f6 _ ha1 _ ha2])
    (fun a ha => by
      obtain ⟨ha1, ha2⟩ := hval a ha
      rw [f2, hsplit h2.valid, f6 _ ha1 _ ha2]
      split <;> norm_num)
    (T := [sZ]) (d := [(sX, '1')]) (ev := []) (by decide) (by decide) (by rw [f2]; decide)
    ⟨by decide, by rw [f1]; decide, fun v s h => by obtain ⟨rfl, rfl⟩ := hgd v s h; rw [f3]; decide⟩ (by rw [f2]; decide)
    (by
      rw [h4, f2]
      intro x hx v hv _ hr
      rw [List.mem_singleton.1 hx] at hv hr
      have hvZ : v = sZ := (by decide : ∀ e ∈ gMark.edges, e.1 = sX → e.2 = sZ) _ hv rfl
      have key : ∀ w, ReflTransGen (Confounded gMark [sX, sZ]) sX w → w = sX := by
        intro w hw
        induction hw with
        | refl => rfl
        | tail _ he ih =>
          obtain ⟨_, _, u, hu, e1, e2⟩ := he
          have : ∀ e ∈ gMark.edges, ∀ e' ∈ gMark.edges, e.1 ∉ [sX, sZ] → e.1 = e'.1 → e.2 = sX → e'.2 = sX := by decide
          exact this _ e1 _ e2 hu rfl ih
      have := key v hr
      rw [hvZ] at this
      exact absurd this (by decide))
    ⟨by decide, by simp [Dict.keys], fun v s h => by cases h⟩ (by simp [Dict.keys]) (e := none) rfl
    (by
      have hk : ∀ v ∈ Dict.keys [(sX, '1')], v ∈ B.nodes := by rw [f1]; decide
      rw [show Dict.keys ([] : Obs PyStr Char) = [] from rfl, doMarg_dep_on h2.valid hk [] (b := fun _ => '0') (by simp)]
      exact f7)
  exact ⟨m, m', i, i', r, r', h1, k1, c1, c2, c3, c4, fun obs ho => (c7 obs ho).2⟩

/-! ### A variable that shares an unobserved cause with its child -/

/-- `U → X`, `X → Z`, `U → Z` -/
def gShared : DiGraph PyStr := ⟨[sU, sX, sZ], [(sU, sX), (sX, sZ), (sU, sZ)]⟩

/-- The two bits of `U` are independent; `X` is the first one. -/
def rowsShared (z : List Char) : List (SRow PyStr) :=
  [.num [(sU, ['0', '1', '2', '3'])] [q (1/3), q (1/6), q (1/3), q (1/6)] sU,
   .fn [(sX, ['0', '1']), (sU, ['0', '1', '2', '3'])] ['0', '0', '1', '1'] sX,
   .fn [(sZ, ['0', '1']), (sX, ['0', '1']), (sU, ['0', '1', '2', '3'])] z sZ]

/-- The probabilities of `X, Z` and those of `Z` when `X=1` is imposed -/
def runShared (vt : VType) (z : List Char) : Py (List (Fl ℚ) × List (Fl ℚ)) := do
  let l ← facsOf vt (rowsShared z)
  let m : SCM (IS vt PyStr) (LS vt PyStr) ← SCM.ofList gShared (l.map fun p => some p.2) none false true
  let i ← new m
  let r ← causalQuery chStr i [sX, sZ] [] none
  let s ← causalQuery chStr i [sZ] [(sX, '1')] none
  return (← [('0', '0'), ('0', '1'), ('1', '0'), ('1', '1')].mapM fun p => r.getValue [(sX, p.1), (sZ, p.2)], ← ['0', '1'].mapM fun z => s.getValue [(sZ, z)])

/-- **C103** the condition is needed: `Z` is the sum of both bits and of `X`, or it is the second bit.  The probabilities of `X, Z` are the same and positive, those
of `Z` when `X` is imposed are not the same. -/
theorem C103_confounded (vt : VType) :
    runShared vt ['0', '1', '1', '0', '1', '0', '0', '1'] = .ok ([q (1/3), q (1/6), q (1/3), q (1/6)], [q (1/2), q (1/2)]) ∧
    runShared vt ['0', '1', '0', '1', '0', '1', '0', '1'] = .ok ([q (1/3), q (1/6), q (1/3), q (1/6)], [q (2/3), q (1/3)]) ∧
    ¬ Unconfounded gShared [sX, sZ] [sX] := by
  refine ⟨by cases vt <;> decide +kernel, by cases vt <;> decide +kernel, fun h => ?_⟩
  exact h sX (by decide) sZ (by decide) (by decide) (.single ⟨by decide, by decide, sU, by decide, by decide, by decide⟩)

/-- `X` and its child `Z` are connected by a chain over `Y`: `U → X`, `U → Y`, `W → Y`, `W → Z`. -/
def gLong : DiGraph PyStr := ⟨[sU, sW, sX, sY, sZ], [(sU, sX), (sU, sY), (sW, sY), (sW, sZ), (sX, sZ)]⟩

/-- **C104** on three graphs -/
theorem C104_example (vt : VType) : Determined vt (Bool × Bool) ℚ chStr chStr gScm sX ∧ ¬ Determined vt (Bool × Bool) ℚ chStr chStr gShared sX ∧
    ¬ Determined vt (Bool × Bool) ℚ chStr chStr gLong sX := by
  have w1 : gScm.WF := ⟨by decide, by decide, by decide⟩
  have w2 : gShared.WF := ⟨by decide, by decide, by decide⟩
  have w3 : gLong.WF := ⟨by decide, by decide, by decide⟩
  refine ⟨(C104_exact vt ℚ chStr_ok chStr_ok w1 ((DiGraph.hasCycle_iff w1).1 (by decide +kernel)) (by decide)).2 ex_unconfounded,
    fun h => (C103_confounded vt).2.2 ((C104_exact vt ℚ chStr_ok chStr_ok w2 ((DiGraph.hasCycle_iff w2).1 (by decide +kernel)) (by decide)).1 h),
    fun h => ?_⟩
  have := (C104_exact vt ℚ chStr_ok chStr_ok w3 ((DiGraph.hasCycle_iff w3).1 (by decide +kernel)) (by decide)).1 h
  exact this sX (by decide) sZ (by decide) (by decide) (.tail (.single (b := sY) ⟨by decide, by decide, sU, by decide, by decide, by decide⟩)
    ⟨by decide, by decide, sW, by decide, by decide, by decide⟩)

end Props
end Verif
