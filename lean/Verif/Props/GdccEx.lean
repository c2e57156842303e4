import Verif.Props.GdccMulti
import Verif.Props.GradientEx
import Verif.Props.MultiCausalEx

/-!
# C83, C84: examples and witnesses
-/

set_option linter.unusedSectionVars false
set_option linter.unusedSimpArgs false

namespace Verif.Props
open Verif

/-! ### An optimiser that does its part -/

/-- The best distributions of `U` for the records `(0, 0)` and three times `(1, 1)`: the first probability is `1/4`, and the others are in the
proportion that they had -/
def optConf {R : Type} (_ : Option Nat) (start : List (Fl ℚ)) (_ : List ℚ → Py (Fl R)) : List ℚ :=
  match start with
  | [_, .fin b, .fin c] => if b + c = 0 then [1/4, 3/4, 0] else [1/4, 3/4 * (b / (b + c)), 3/4 * (c / (b + c))]
  | _ => []

/-- Names of one character: one is a part of another if they are equal. -/
def subConf (v u : Char) : Bool := v == u

/-- The records -/
def frFour : Frame Char Char := frConf (['0', '1', '1', '1'].map fun x => (x, x))

/-- The bounds of `P(Y = s | do(X = 0))` and the probabilities of causation of `X` for `Y` -/
def gdccConf (vt : VType) (cast : Bool) (ts : List (List ℚ)) (s : Char) : Py (List (Fl ℚ) × List (Fl ℚ) × List (Fl ℚ)) := do
  let m ← scmConf vt cast
  let o ← Gdcc.compileObj (fun x : ℚ => x) subConf optConf m none frFour (ts.map fun t _ => t.map Fl.fin) true
  let a ← numbersOf (o.queryAt bndEx (IS vt Char) (fun i => Causal.causalQuery chEx i ['Y'] [('X', '0')] none) [('Y', s)])
  let b ← numbersOf (o.pn bndEx (IS vt Char) sfxEx chEx tfEx 'X' 'Y' (some ('1', '0')) (some ('1', '0')))
  let c ← numbersOf (o.pns bndEx (IS vt Char) sfxEx chEx tfEx 'X' 'Y' (some ('1', '0')) (some ('1', '0')))
  return (a, b, c)

/-- **C84** the effect is not determined by the records: the two models give `1/4` and `1/2`. -/
theorem C84_example_values (vt : VType) :
    gdccConf vt true [[-1, -1, -2], [-1, -2, -1]] '1' = .ok ([q (1/4), q (1/2)], [q (1/3), q (2/3)], [q (1/4), q (1/2)]) := by
  cases vt <;> decide +kernel

/-- **C84** without models no bounds: none are generated, whatever the model and the data -/
theorem C84_no_models (vt : VType) :
    (∀ (m : SCM (IS vt Char) (LS vt Char)) max data, Gdcc.generate (fun x : ℚ => x) subConf optConf m max data [] = .error .valueError) ∧
    gdccConf vt true [] '1' = .error .valueError := by
  refine ⟨fun m max data => rfl, ?_⟩
  cases vt <;> decide +kernel

/-- **C84** equations kept as deterministic factors: learning fails. -/
theorem C84_not_cast (vt : VType) : gdccConf vt false [[-1, -1, -2]] '1' = .error .keyError := by
  cases vt <;> decide +kernel

/-- The distribution of `U` -/
def distrOf (vt : VType) (m : SCM (IS vt Char) (LS vt Char)) : Py (List (Fl ℚ)) :=
  match Dict.get? m.base.factors 'U' with
  | some (some (.multi f)) => f.valuesList
  | _ => .error .keyError

/-- The distributions of `U` in the models of a learning object: run, and one more step -/
def gradConf (vt : VType) (T : Option (List Char)) (fr : Frame Char Char) : Py (List (List (Fl ℚ))) := do
  let m ← scmConf vt true
  let o ← (GradObj.new m T).run (fun x : ℚ => x) subConf optConf fr none
  let o ← o.step (fun x : ℚ => x) subConf optConf
  o.evolution.mapM (distrOf vt)

/-- **C83** the prior has been recorded, and the second step finds what the first has found, with the trainable variable given or not. -/
theorem C83_example_values (vt : VType) :
    gradConf vt (some ['U']) frFour = .ok [[q (1/2), q (1/4), q (1/4)], [q (1/4), q (3/8), q (3/8)], [q (1/4), q (3/8), q (3/8)]] ∧
    gradConf vt none frFour = .ok [[q (1/2), q (1/4), q (1/4)], [q (1/4), q (3/8), q (3/8)], [q (1/4), q (3/8), q (3/8)]] := by
  cases vt <;> decide +kernel

/-- **C83** refused calls -/
theorem C83_example_refused (vt : VType) : gradConf vt (some ['X']) frFour = .error .valueError := by
  cases vt <;> decide +kernel

/-! ### The hypotheses can be met -/

/-- What is evaluated for the example -/
def gdccCheck (vt : VType) : Bool :=
  match facsOf vt rowsConf, scmConf vt true with
  | .ok l, .ok m => match bnetOf vt gConf l with
    | .ok b =>
      let B : BN Char Char ℚ := BN.ofModel (IS vt Char) b
      let at' : Char → Char → Char → Char := fun u x w => if w = 'U' then u else x
      decide (B.states 'U' = ['0', '1', '2'] ∧ B.kids ['X', 'Y'] 'U' = ['X', 'Y'] ∧ m.endogenous = ['X', 'Y'] ∧
        (∀ u ∈ ['0', '1', '2'], ∀ x ∈ ['0', '1'], B.table 'X' (at' u x) * B.table 'Y' (at' u x) = if (u = '0') = (x = '0') then 1 else 0))
    | .error _ => false
  | _, _ => false

theorem gdccCheck_ok (vt : VType) : gdccCheck vt = true := by
  cases vt <;> decide +kernel

/-- What the theorems require, for the example -/
structure GdccOk (vt : VType) (m : SCM (IS vt Char) (LS vt Char)) (B : BN Char Char ℚ) : Prop where
  conf : ConfOk vt ['0', '1', '1', '1'] m B
  states : B.states 'U' = ['0', '1', '2']
  kids : B.kids ['X', 'Y'] 'U' = ['X', 'Y']
  endo : m.endogenous = ['X', 'Y']
  tables : ∀ u ∈ ['0', '1', '2'], ∀ x ∈ ['0', '1'], B.table 'X' (fun w => if w = 'U' then u else x) * B.table 'Y' (fun w => if w = 'U' then u else x) =
    if (u = '0') = (x = '0') then 1 else 0

theorem gdcc_ok (vt : VType) : ∃ m B, GdccOk vt m B := by
  obtain ⟨m, B, h⟩ := conf_ok vt (xs := ['0', '1', '1', '1']) (by decide) (by decide)
  obtain ⟨l, b, h1, h2, h3⟩ := h.network
  have hc := gdccCheck_ok vt
  rw [gdccCheck, h1, h.model] at hc
  simp only [h2, decide_eq_true_eq] at hc
  rw [← h3] at hc
  exact ⟨m, B, h, hc.1, hc.2.1, hc.2.2.1, hc.2.2.2⟩

/-- The records, with a column for `U` -/
theorem frFour_rows (n : List Char) (hn : n = ['U', 'X', 'Y']) : (EM.addMissing n frFour).rows =
    ['0', '1', '1', '1'].map fun x => [('X', some x), ('Y', some x), ('U', none)] := by
  subst hn; decide

/-- The probability of the outcome `(x, x)` when `U` has the distribution `θ`, for models with these equations -/
theorem GdccOk.compLik {vt : VType} {m m0 : SCM (IS vt Char) (LS vt Char)} {B B0 : BN Char Char ℚ} (h : GdccOk vt m B) (h0 : Refit m B m0 B0) (θ : Char → ℚ)
    {x : Char} (hx : x ∈ ['0', '1']) :
    B0.compLik m0.endogenous 'U' θ (Rec.asg [('X', some x), ('Y', some x), ('U', none)]) = if x = '0' then θ '0' else θ '1' + θ '2' := by
  have hk : B0.kids m0.endogenous 'U' = ['X', 'Y'] := by
    rw [h0.endogenous, h.endo, BN.kids, h0.nodes, h0.parents]
    exact h.kids
  have ht : ∀ u ∈ ['0', '1', '2'], B0.table 'X' (upd (Rec.asg [('X', some x), ('Y', some x), ('U', none)]) 'U' u) *
      B0.table 'Y' (upd (Rec.asg [('X', some x), ('Y', some x), ('U', none)]) 'U' u) = if (u = '0') = (x = '0') then 1 else 0 := by
    intro u hu
    have hag : ∀ v ∈ ['X', 'Y'], B0.table v (upd (Rec.asg [('X', some x), ('Y', some x), ('U', none)]) 'U' u) = B.table v (fun w => if w = 'U' then u else x) := by
      intro v hv
      have hvn : v ∈ B.nodes := by rw [h.conf.nodes]; exact List.mem_cons_of_mem _ hv
      rw [h0.equations v (h.endo ▸ hv) hvn]
      refine h.conf.valid.scope v hvn _ _ fun w hw => ?_
      have hwn : w ∈ B.nodes := by
        rcases List.mem_cons.1 hw with rfl | hw
        · exact hvn
        · exact h.conf.valid.parents v hvn w hw
      rw [h.conf.nodes] at hwn
      rcases (by simpa using hwn : w = 'U' ∨ w = 'X' ∨ w = 'Y') with rfl | rfl | rfl
      · rw [upd_same]; rfl
      · rw [upd_ne _ _ (by decide)]; rfl
      · rw [upd_ne _ _ (by decide)]; rfl
    rw [hag 'X' (by decide), hag 'Y' (by decide)]
    exact h.tables u hu x hx
  rw [BN.compLik, hk, h0.states, h.states]
  simp only [List.map_cons, List.map_nil, List.prod_cons, List.prod_nil, List.sum_cons, List.sum_nil, mul_one, add_zero]
  rw [ht '0' (by decide), ht '1' (by decide), ht '2' (by decide)]
  rcases (by simpa using hx : x = '0' ∨ x = '1') with rfl | rfl <;> simp

theorem GdccOk.model {vt : VType} {m : SCM (IS vt Char) (LS vt Char)} {B : BN Char Char ℚ} (h : GdccOk vt m B) : GdccModel m B := by
  refine ⟨h.conf.rep, h.conf.valid, h.conf.norm, h.conf.nonneg, h.conf.cast, h.conf.known, h.conf.domains, by rw [h.endo]; decide, by rw [h.conf.exogenous]; decide, ?_, ?_⟩
  · intro U hU
    rw [h.conf.exogenous] at hU
    rw [List.mem_singleton.1 hU]; exact h.conf.parents.1
  · intro v hv _ p hp q hq hpE hqE
    have key : ∀ w ∈ B.parents v, w ∉ m.endogenous → w = 'U' := by
      intro w hw hwE
      have := (mem_exogenous h.conf.rep).2 ⟨h.conf.valid.parents v hv w hw, hwE⟩
      rw [h.conf.exogenous] at this
      exact List.mem_singleton.1 this
    rw [key p hp hpE, key q hq hqE]

theorem GdccOk.data {vt : VType} {m : SCM (IS vt Char) (LS vt Char)} {B : BN Char Char ℚ} (h : GdccOk vt m B) : GdccData m B frFour subConf := by
  refine ⟨?_, ?_, ?_, h.conf.data.outcome⟩
  · rw [h.conf.exogenous]; decide
  · intro r hr v _ hv
    rw [h.endo] at hv
    rcases (by simpa using hv : v = 'X' ∨ v = 'Y') with rfl | rfl
    · rw [h.conf.states.1]; revert r; decide
    · rw [h.conf.states.2]; revert r; decide
  · intro U _ v _
    simp [subConf]

theorem distr_three {B : BN Char Char ℚ} (hs : B.states 'U' = ['0', '1', '2']) (θ : Char → ℚ) :
    IsDistr B 'U' θ ↔ (0 ≤ θ '0' ∧ 0 ≤ θ '1' ∧ 0 ≤ θ '2') ∧ θ '0' + θ '1' + θ '2' = 1 := by
  rw [IsDistr, hs]
  simp [add_assoc]

/-- The optimiser of the example does its part. -/
theorem GdccOk.finds {vt : VType} {m : SCM (IS vt Char) (LS vt Char)} {B : BN Char Char ℚ} (h : GdccOk vt m B) (max : Option Nat) :
    FindsLeast (Rat.castHom ℝ) optConf max m B frFour := by
  intro m0 B0 h0 hg U hU
  rw [h.conf.exogenous] at hU
  obtain rfl := List.mem_singleton.1 hU
  have hs0 : B0.states 'U' = ['0', '1', '2'] := by rw [h0.states]; exact h.states
  have hroot : B0.parents 'U' = [] := by rw [h0.parents]; exact h.conf.parents.1
  have hU0 : 'U' ∈ m0.exogenous := (mem_exogenous h0.rep).2 ⟨by rw [h0.nodes, h.conf.nodes]; decide, by rw [h0.endogenous, h.endo]; decide⟩
  set b := B0.table 'U' fun _ => '1' with hb
  set c := B0.table 'U' fun _ => '2' with hc
  obtain ⟨⟨-, hb0, hc0⟩, -⟩ := (distr_three hs0 _).1 (isDistr_start hg.valid hg.norm hg.nonneg (by rw [h0.nodes, h.conf.nodes]; decide) hroot)
  -- the distribution that is returned
  obtain ⟨θ, t1, t2, t3⟩ : ∃ θ : Char → ℚ, (∀ F : List ℚ → Py (Fl ℝ), optConf max (['0', '1', '2'].map fun u => .fin (B0.table 'U' fun _ => u)) F = ['0', '1', '2'].map θ) ∧
      IsDistr B 'U' θ ∧ θ '0' = 1/4 := by
    by_cases hbc : b + c = 0
    · refine ⟨fun u => if u = '0' then 1/4 else if u = '1' then 3/4 else 0, fun F => ?_, (distr_three h.states _).2 ?_, rfl⟩
      · simp only [optConf, List.map_cons, List.map_nil]
        rw [if_pos hbc]; rfl
      · refine ⟨⟨?_, ?_, ?_⟩, ?_⟩ <;> decide +kernel
    · refine ⟨fun u => if u = '0' then 1/4 else if u = '1' then 3/4 * (b / (b + c)) else 3/4 * (c / (b + c)), fun F => ?_, (distr_three h.states _).2 ?_, rfl⟩
      · simp only [optConf, List.map_cons, List.map_nil]
        rw [if_neg hbc]; rfl
      · simp
        refine ⟨⟨by positivity, by positivity⟩, ?_⟩
        field_simp
        ring
  refine ⟨θ, by rw [hs0, h.states]; exact t1 _, t2, fun η hη x y hx hy => ?_⟩
  obtain ⟨x', y', e1, e2, e3⟩ := C61_order (φ := Rat.castHom ℝ) (fun x y h => by simpa using h) hg.rep hg.valid hg.doms (hg.single hU0)
    (fr := EM.addMissing B.nodes frFour) (θ := θ) (η := η)
    (by
      rw [h0.endogenous, h.endo, BN.kids, h0.nodes, h0.parents]
      exact fun e => absurd (h.kids.symm.trans e) (by decide)) (fun v hv => cols_addMissing _ _ (by
        have := (List.mem_filter.1 hv).1
        rwa [h0.nodes] at this)) (by rw [h0.states]; exact t2.1) (by rw [h0.states]; exact hη.1)
  rw [h0.states] at e1 e2
  obtain rfl : x = x' := by rw [hx] at e1; exact Except.ok.inj e1
  obtain rfl : y = y' := by rw [hy] at e2; exact Except.ok.inj e2
  refine e3.2 ?_
  have hw : (EM.addMissing B.nodes frFour).rows.filter (B0.within (B0.compScope m0.endogenous 'U')) = (EM.addMissing B.nodes frFour).rows := by
    have := within_of_complete (m := m0) (B := B0) (fr := frFour) (fun r hr v hv hvE => by
      rw [h0.states]
      exact h.data.complete r hr v (h0.nodes ▸ hv) (h0.endogenous ▸ hvE)) 'U'
    rwa [h0.nodes] at this
  rw [hw, frFour_rows _ h.conf.nodes]
  simp only [List.map_cons, List.map_nil, List.prod_cons, List.prod_nil]
  rw [h.compLik h0 η (x := '0') (by decide), h.compLik h0 η (x := '1') (by decide), h.compLik h0 θ (x := '0') (by decide), h.compLik h0 θ (x := '1') (by decide)]
  obtain ⟨⟨a1, a2, a3⟩, a4⟩ := (distr_three h.states η).1 hη
  obtain ⟨_, b4⟩ := (distr_three h.states θ).1 t2
  have hθ : θ '1' + θ '2' = 3/4 := by linarith
  have hη' : η '1' + η '2' = 1 - η '0' := by linarith
  simp only [if_pos, if_neg (by decide : ¬ ('1' : Char) = '0')]
  rw [hθ, hη', t3]
  have hle : η '0' ≤ 1 := by linarith
  nlinarith [mul_nonneg (sq_nonneg (4 * η '0' - 1)) (by nlinarith [sq_nonneg (η '0')] : (0:ℚ) ≤ 27 - 40 * η '0' + 16 * η '0' ^ 2)]

/-- The hypotheses of the theorems are met by the example, with an optimiser that keeps the proportion that it starts from; however many models are learnt and whatever
negative numbers are drawn for them, the bounds are those of models of greatest likelihood. -/
theorem C84_example (vt : VType) {ts : List (Char → List ℚ)} (hts : ts ≠ []) (ht : ∀ t ∈ ts, (t 'U').length = 3 ∧ ∀ x ∈ t 'U', x < 0) (max : Option Nat) :
    ∃ m B os ms Bs, scmConf vt true = .ok m ∧ GdccModel m B ∧ GdccData m B frFour subConf ∧ FindsLeast (Rat.castHom ℝ) optConf max m B frFour ∧
      Gdcc.generate (fun x => Real.log (Rat.castHom ℝ x)) subConf optConf m max frFour (ts.map fun t x => (t x).map Fl.fin) =
        .ok (EM.addMissing B.nodes frFour, os) ∧ os.map (fun o => o.model) = ms.map some ∧ ms.length = ts.length ∧
      List.Forall₂ (fun m' B' => Likeliest m B frFour.rows m' B') ms Bs ∧ CausationOk B sfxEx 'X' 'Y' '1' '0' '1' '0' := by
  obtain ⟨m, B, h⟩ := gdcc_ok vt
  obtain ⟨os, ms, Bs, g1, g2, g3, g4⟩ := C84_generate (φ := Rat.castHom ℝ) (fun x y h => by simpa using h) h.model h.data (h.finds max) hts (h.conf.draws ht)
  exact ⟨m, B, os, ms, Bs, h.conf.model, h.model, h.data, h.finds max, g1, g2, g3, g4, h.conf.causation⟩

end Verif.Props
