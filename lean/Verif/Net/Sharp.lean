import Verif.Net.Bounds
import Mathlib.Tactic.Linarith
import Mathlib.Tactic.LinearCombination

/-!
# Networks with a cause, an effect and an exogenous variable that says how the effect responds

No reference to the code.  The exogenous variable has eight states: the value of the cause, and the value of the effect for either value of the cause.
-/

set_option linter.unusedSectionVars false
set_option linter.unusedSimpArgs false

namespace Verif
open Relation

/-- The value of the cause, the effect with the cause, the effect without -/
abbrev Unit8 := Bool × Bool × Bool

/-- All of them -/
def units8 : List Unit8 := [(false, false, false), (false, false, true), (false, true, false), (false, true, true),
  (true, false, false), (true, false, true), (true, true, false), (true, true, true)]

/-- The states of the cause and the effect -/
def truth (b : Bool) : Unit8 := (b, false, false)

/-- The effect when the cause is `b` -/
def response (s : Unit8) (b : Bool) : Bool := if b then s.2.1 else s.2.2

/-- The network -/
def respNet {V K : Type} [DecidableEq V] [Zero K] [One K] (u x y : V) (q : Unit8 → K) : BN V Unit8 K where
  nodes := [u, x, y]
  parents v := if v = x then [u] else if v = y then [u, x] else []
  states v := if v = u then units8 else [truth false, truth true]
  table v a := if v = x then (if a x = truth (a u).1 then 1 else 0)
    else if v = y then (if a y = truth (response (a u) (a x).1) then 1 else 0) else q (a v)

theorem truth_inj {a b : Bool} : truth a = truth b ↔ a = b := by simp [truth]

namespace RespNet
variable {V K : Type} [DecidableEq V] [Field K] [LinearOrder K] [IsStrictOrderedRing K] {u x y : V} {q : Unit8 → K}

theorem mem_cause {s : Unit8} : s ∈ [truth false, truth true] ↔ ∃ b, s = truth b := by
  simp

variable (hux : u ≠ x) (huy : u ≠ y) (hxy : x ≠ y)
include hux huy hxy

theorem states_u : (respNet u x y q).states u = units8 := if_pos rfl
theorem states_x : (respNet u x y q).states x = [truth false, truth true] := if_neg hux.symm
theorem states_y : (respNet u x y q).states y = [truth false, truth true] := if_neg huy.symm
theorem parents_u : (respNet u x y q).parents u = [] := by simp [respNet, hux, huy]
theorem parents_x : (respNet u x y q).parents x = [u] := by simp [respNet]
theorem parents_y : (respNet u x y q).parents y = [u, x] := by simp [respNet, hxy.symm]
theorem table_u (a : V → Unit8) : (respNet u x y q).table u a = q (a u) := by simp [respNet, hux, huy]
theorem table_x (a : V → Unit8) : (respNet u x y q).table x a = if a x = truth (a u).1 then 1 else 0 := by simp [respNet]
theorem table_y (a : V → Unit8) : (respNet u x y q).table y a = if a y = truth (response (a u) (a x).1) then 1 else 0 := by
  simp [respNet, hxy.symm]

theorem roots : (respNet u x y q).roots = [u] := by
  simp only [BN.roots, show (respNet u x y q).nodes = [u, x, y] from rfl, List.filter_cons, parents_u hux huy hxy, parents_x hux huy hxy, parents_y hux huy hxy]
  simp

theorem inner : (respNet u x y q).inner = [x, y] := by
  simp only [BN.inner, show (respNet u x y q).nodes = [u, x, y] from rfl, List.filter_cons, parents_u hux huy hxy, parents_x hux huy hxy, parents_y hux huy hxy]
  simp

theorem cases {P : V → Prop} (h1 : P u) (h2 : P x) (h3 : P y) : ∀ v ∈ (respNet u x y q).nodes, P v := by
  intro v hv
  have : v = u ∨ v = x ∨ v = y := by simpa [respNet] using hv
  rcases this with rfl | rfl | rfl <;> assumption

theorem valid : (respNet u x y q).Valid where
  nodes := by simp [respNet, hux, huy, hxy]
  parents := cases hux huy hxy (by rw [parents_u hux huy hxy]; simp) (by rw [parents_x hux huy hxy]; simp [respNet]) (by rw [parents_y hux huy hxy]; simp [respNet])
  acyclic := by
    let rank : V → Nat := fun v => if v = y then 2 else if v = x then 1 else 0
    have hlt : ∀ a b, (b ∈ (respNet u x y q).nodes ∧ a ∈ (respNet u x y q).parents b) → rank a < rank b := by
      rintro a b ⟨hb, ha⟩
      revert ha
      revert b
      refine cases hux huy hxy ?_ ?_ ?_
      · rw [parents_u hux huy hxy]; simp
      · rw [parents_x hux huy hxy]; simp only [List.mem_singleton]; rintro rfl; simp [rank, hux, huy, hxy]
      · rw [parents_y hux huy hxy]; simp only [List.mem_cons, List.not_mem_nil, or_false]; rintro (rfl | rfl) <;> simp [rank, hux, huy, hxy]
    intro v hv
    have : ∀ w, TransGen (fun u_1 w => w ∈ (respNet u x y q).nodes ∧ u_1 ∈ (respNet u x y q).parents w) v w → rank v < rank w := by
      intro w hw
      induction hw with
      | single h => exact hlt _ _ h
      | tail _ h ih => exact ih.trans (hlt _ _ h)
    exact Nat.lt_irrefl _ (this v hv)
  nodupStates := cases hux huy hxy (by rw [states_u hux huy hxy]; decide) (by rw [states_x hux huy hxy]; decide) (by rw [states_y hux huy hxy]; decide)
  nonempty := cases hux huy hxy (by rw [states_u hux huy hxy]; decide) (by rw [states_x hux huy hxy]; decide) (by rw [states_y hux huy hxy]; decide)
  scope := cases hux huy hxy
    (fun a b hab => by rw [table_u hux huy hxy, table_u hux huy hxy, hab u (by simp)])
    (fun a b hab => by
      rw [parents_x hux huy hxy] at hab
      rw [table_x hux huy hxy, table_x hux huy hxy, hab u (by simp), hab x (by simp)])
    (fun a b hab => by
      rw [parents_y hux huy hxy] at hab
      rw [table_y hux huy hxy, table_y hux huy hxy, hab u (by simp), hab x (by simp), hab y (by simp)])

theorem normalised (hq : (units8.map q).sum = 1) : (respNet u x y q).Normalised := by
  refine cases hux huy hxy (fun a _ => ?_) (fun a _ => ?_) fun a _ => ?_
  · simp only [states_u hux huy hxy, table_u hux huy hxy, upd_same]; exact hq
  · simp only [states_x hux huy hxy, table_x hux huy hxy, upd_same, upd_ne _ _ hux, List.map_cons, List.map_nil, List.sum_cons, List.sum_nil, truth_inj]
    cases (a u).1 <;> simp
  · simp only [states_y hux huy hxy, table_y hux huy hxy, upd_same, upd_ne _ _ huy, upd_ne _ _ hxy, List.map_cons, List.map_nil, List.sum_cons, List.sum_nil, truth_inj]
    cases response (a u) (a x).1 <;> simp

theorem nonneg (hq : ∀ s, 0 ≤ q s) : (respNet u x y q).NonNeg := by
  refine cases hux huy hxy (fun a _ => ?_) (fun a _ => ?_) fun a _ => ?_
  · rw [table_u hux huy hxy]; exact hq _
  · rw [table_x hux huy hxy]; split <;> simp
  · rw [table_y hux huy hxy]; split <;> simp

theorem equations : ∀ v ∈ (respNet u x y q).inner, ∀ a, (respNet u x y q).InStates a → (respNet u x y q).table v a = 0 ∨ (respNet u x y q).table v a = 1 := by
  intro v hv a _
  rw [inner hux huy hxy] at hv
  rcases List.mem_cons.1 hv with rfl | hv
  · rw [table_x hux huy hxy]; split <;> simp
  · rw [List.mem_singleton.1 hv, table_y hux huy hxy]; split <;> simp

theorem eqs (hq : (units8.map q).sum = 1) : (respNet u x y q).Eqs (respNet u x y q).inner :=
  BN.eqs_inner (valid hux huy hxy) (normalised hux huy hxy hq) (equations hux huy hxy)

/-- What is the case, for the exogenous state `s` and the imposed value of the cause, if any -/
def outcome (u x : V) (s : Unit8) (d : Option Bool) (v : V) : Unit8 :=
  if v = u then s else if v = x then truth (d.getD s.1) else truth (response s (d.getD s.1))

/-- The intervention -/
def imposed (x : V) (d : Option Bool) : Obs V Unit8 := match d with
  | none => []
  | some b => [(x, truth b)]

theorem doOk (d : Option Bool) : (respNet u x y q).DoOk (imposed x d) := by
  intro v s hs _
  cases d with
  | none => cases hs
  | some b =>
    have := Dict.mem_of_get? hs
    have : v = x ∧ s = truth b := by simpa [imposed] using this
    rw [this.1, this.2, states_x hux huy hxy]
    cases b <;> simp

theorem solves (s : Unit8) (d : Option Bool) : (respNet u x y q).Solves (respNet u x y q).inner (imposed x d) (outcome u x s d) := by
  rw [inner hux huy hxy]
  have ou : outcome u x s d u = s := if_pos rfl
  have ox : outcome u x s d x = truth (d.getD s.1) := by simp [outcome, hux.symm]
  have oy : outcome u x s d y = truth (response s (d.getD s.1)) := by simp [outcome, huy.symm, hxy.symm]
  intro v hv
  rcases List.mem_cons.1 hv with rfl | hv
  · refine ⟨by rw [states_x hux huy hxy, ox]; cases d.getD s.1 <;> simp, fun t ht => ?_, fun ht => ?_⟩
    · cases d with
      | none => cases ht
      | some b =>
        have := Dict.mem_of_get? ht
        have : t = truth b := by simpa [imposed] using this
        rw [ox, this]; rfl
    · cases d with
      | none => rw [table_x hux huy hxy, ox, ou]; exact if_pos rfl
      | some b => rw [imposed, Dict.get?, if_pos rfl] at ht; cases ht
  · have := List.mem_singleton.1 hv
    subst this
    refine ⟨by rw [states_y hux huy hxy, oy]; cases response s (d.getD s.1) <;> simp, fun t ht => ?_, fun _ => ?_⟩
    · cases d with
      | none => cases ht
      | some b =>
        have := Dict.mem_of_get? ht
        simp [imposed, hxy.symm] at this
    · rw [table_y hux huy hxy, oy, ou, ox]; exact if_pos rfl

open Classical in
/-- Counterfactual probabilities are sums of the probabilities of units. -/
theorem cfProb_eq (hq : (units8.map q).sum = 1) (ws : List (Option Bool × Obs V Unit8)) (hws : ∀ w ∈ ws, ∀ v ∈ Dict.keys w.2, v ∈ [u, x, y]) :
    (respNet u x y q).cfProb (respNet u x y q).roots (respNet u x y q).inner (ws.map fun w => (imposed x w.1, w.2)) =
      (units8.map fun s => if ∀ w ∈ ws, BN.Agrees w.2 (outcome u x s w.1) then q s else 0).sum := by
  have hE := eqs hux huy hxy hq
  have hr := roots hux huy hxy (q := q)
  rw [BN.cfProb]
  conv_lhs => rw [hr]
  rw [sumOver_cons, states_u hux huy hxy]
  refine congrArg List.sum (List.map_congr_left fun s hs => ?_)
  rw [sumOver_nil]
  have hu : ∀ v ∈ (respNet u x y q).roots, (upd (fun _ => default) u s : V → Unit8) v ∈ (respNet u x y q).states v := by
    rw [hr]
    intro v hv
    rw [List.mem_singleton.1 hv, upd_same, states_u hux huy hxy]; exact hs
  have hbu : ∀ d, ∀ v ∈ (respNet u x y q).roots, outcome u x s d v = (upd (fun _ => default) u s : V → Unit8) v := by
    rw [hr]
    intro d v hv
    rw [List.mem_singleton.1 hv, upd_same]; exact if_pos rfl
  have hiff : (∀ w ∈ ws.map fun w => (imposed x w.1, w.2), (respNet u x y q).Holds [u] (respNet u x y q).inner (upd (fun _ => default) u s) w) ↔
      ∀ w ∈ ws, BN.Agrees w.2 (outcome u x s w.1) := by
    rw [List.forall_mem_map]
    refine forall_congr' fun w => imp_congr_right fun hw => ?_
    have := BN.holds_sol hE (doOk hux huy hxy w.1) (c := w.2) (hws w hw) hu (solves hux huy hxy s w.1) (hbu w.1)
    rw [hr] at this
    exact this
  simp only [hiff, List.map_cons, List.map_nil, List.prod_cons, List.prod_nil, mul_one, table_u hux huy hxy, upd_same]

theorem outcome_x (s : Unit8) (d : Option Bool) : outcome u x s d x = truth (d.getD s.1) := by simp [outcome, hux.symm]
theorem outcome_y (s : Unit8) (d : Option Bool) : outcome u x s d y = truth (response s (d.getD s.1)) := by simp [outcome, huy.symm, hxy.symm]

theorem agrees_xy (r : Unit8) (d : Option Bool) (s t : Bool) :
    BN.Agrees [(x, truth s), (y, truth t)] (outcome u x r d) ↔ d.getD r.1 = s ∧ response r (d.getD r.1) = t := by
  rw [BN.agrees_two hxy, outcome_x hux huy hxy, outcome_y hux huy hxy, truth_inj, truth_inj]

theorem agrees_y (r : Unit8) (d : Option Bool) (t : Bool) : BN.Agrees [(y, truth t)] (outcome u x r d) ↔ response r (d.getD r.1) = t := by
  rw [BN.agrees_one, outcome_y hux huy hxy, truth_inj]

theorem agrees_nil (r : Unit8) (d : Option Bool) : BN.Agrees ([] : Obs V Unit8) (outcome u x r d) := fun v s hs => by cases hs

theorem cf_obs (hq : (units8.map q).sum = 1) (s t : Bool) :
    (respNet u x y q).cfProb (respNet u x y q).roots (respNet u x y q).inner [([], [(x, truth s), (y, truth t)])] =
      (units8.map fun r => if r.1 = s ∧ response r r.1 = t then q r else 0).sum := by
  have := cfProb_eq hux huy hxy hq [(none, [(x, truth s), (y, truth t)])] (by simp only [List.forall_mem_cons, Dict.keys, List.map_cons, List.map_nil]; simp)
  simp only [List.map_cons, List.map_nil, List.forall_mem_singleton, agrees_xy hux huy hxy, Option.getD_none] at this
  exact this

theorem cf_do (hq : (units8.map q).sum = 1) (s t : Bool) :
    (respNet u x y q).cfProb (respNet u x y q).roots (respNet u x y q).inner [([(x, truth s)], [(y, truth t)])] =
      (units8.map fun r => if response r s = t then q r else 0).sum := by
  have := cfProb_eq hux huy hxy hq [(some s, [(y, truth t)])] (by simp only [List.forall_mem_cons, Dict.keys, List.map_cons, List.map_nil]; simp)
  simp only [List.map_cons, List.map_nil, List.forall_mem_singleton, agrees_y hux huy hxy, Option.getD_some] at this
  exact this

theorem cf_both (hq : (units8.map q).sum = 1) :
    (respNet u x y q).cfProb (respNet u x y q).roots (respNet u x y q).inner
      [([], []), ([(x, truth false)], [(y, truth false)]), ([(x, truth true)], [(y, truth true)])] = q (true, true, false) + q (false, true, false) := by
  have := cfProb_eq hux huy hxy hq [(none, []), (some false, [(y, truth false)]), (some true, [(y, truth true)])] (by simp only [List.forall_mem_cons, Dict.keys, List.map_cons, List.map_nil]; simp)
  simp only [List.forall_mem_cons, agrees_y hux huy hxy, agrees_nil hux huy hxy, Option.getD_some, true_and] at this
  refine this.trans ?_
  simp [units8, response, add_comm]

theorem cf_pn (hq : (units8.map q).sum = 1) :
    (respNet u x y q).cfProb (respNet u x y q).roots (respNet u x y q).inner
      [([], [(x, truth true), (y, truth true)]), ([(x, truth false)], [(y, truth false)])] = q (true, true, false) := by
  have := cfProb_eq hux huy hxy hq [(none, [(x, truth true), (y, truth true)]), (some false, [(y, truth false)])] (by simp only [List.forall_mem_cons, Dict.keys, List.map_cons, List.map_nil]; simp)
  simp only [List.forall_mem_cons, agrees_xy hux huy hxy, agrees_y hux huy hxy, Option.getD_some, Option.getD_none] at this
  refine this.trans ?_
  simp [units8, response]

theorem cf_ps (hq : (units8.map q).sum = 1) :
    (respNet u x y q).cfProb (respNet u x y q).roots (respNet u x y q).inner
      [([], [(x, truth false), (y, truth false)]), ([(x, truth true)], [(y, truth true)])] = q (false, true, false) := by
  have := cfProb_eq hux huy hxy hq [(none, [(x, truth false), (y, truth false)]), (some true, [(y, truth true)])] (by simp only [List.forall_mem_cons, Dict.keys, List.map_cons, List.map_nil]; simp)
  simp only [List.forall_mem_cons, agrees_xy hux huy hxy, agrees_y hux huy hxy, Option.getD_some, Option.getD_none] at this
  refine this.trans ?_
  simp [units8, response]

omit hux huy hxy in
/-- The probabilities of the units when those with the cause, and those without, that respond to the cause only have the probabilities `h1` and `h0`;
`obs`: `P(cause, effect)`, `exp b`: probability of the effect when the cause is `b` -/
def mass (obs : Bool → Bool → K) (exp : Bool → K) (h1 h0 : K) : Unit8 → K
  | (true, true, false) => h1
  | (true, true, true) => obs true true - h1
  | (true, false, true) => exp false - obs false true - obs true true + h1
  | (true, false, false) => obs true false - exp false + obs false true + obs true true - h1
  | (false, true, false) => h0
  | (false, true, true) => exp true - obs true true - h0
  | (false, false, true) => obs false true - exp true + obs true true + h0
  | (false, false, false) => obs false false - h0

omit hux huy hxy in
theorem mass_sum {obs : Bool → Bool → K} {exp : Bool → K} {h1 h0 : K} (hs : obs true true + obs true false + obs false true + obs false false = 1) :
    (units8.map (mass obs exp h1 h0)).sum = 1 := by
  simp only [units8, List.map_cons, List.map_nil, List.sum_cons, List.sum_nil, mass]
  linear_combination hs

omit hux huy hxy in
theorem mass_obs {obs : Bool → Bool → K} {exp : Bool → K} {h1 h0 : K} (s t : Bool) :
    (units8.map fun r => if r.1 = s ∧ response r r.1 = t then mass obs exp h1 h0 r else 0).sum = obs s t := by
  cases s <;> cases t <;> simp [units8, response, mass]

omit hux huy hxy in
theorem mass_do {obs : Bool → Bool → K} {exp : Bool → K} {h1 h0 : K} (hs : obs true true + obs true false + obs false true + obs false false = 1) (s t : Bool) :
    (units8.map fun r => if response r s = t then mass obs exp h1 h0 r else 0).sum = if t then exp s else 1 - exp s := by
  cases s <;> cases t <;> simp [units8, response, mass]
  · linear_combination hs
  · ring
  · linear_combination hs
  · ring

omit hux huy hxy in
/-- The two numbers can be chosen independently. -/
theorem mass_nonneg {obs : Bool → Bool → K} {exp : Bool → K} {a b : K} (h0 : ∀ s t, 0 ≤ obs s t)
    (a0 : 0 ≤ a) (a1 : obs true true + obs false true - exp false ≤ a) (a2 : a ≤ obs true true) (a3 : a ≤ obs true true + obs true false + obs false true - exp false)
    (b0 : 0 ≤ b) (b1 : exp true - obs true true - obs false true ≤ b) (b2 : b ≤ obs false false) (b3 : b ≤ exp true - obs true true) :
    ∀ s, 0 ≤ mass obs exp a b s := by
  rintro ⟨_ | _, _ | _, _ | _⟩ <;> simp only [mass] <;> linarith

omit hux huy hxy in
/-- Every number within the bounds is the sum of two numbers that leave no unit negative. -/
theorem exists_mass {obs : Bool → Bool → K} {exp : Bool → K} {p : K} (h0 : ∀ s t, 0 ≤ obs s t)
    (hs : obs true true + obs true false + obs false true + obs false false = 1)
    (n1 : ∀ s, obs s true ≤ exp s) (n2 : ∀ s, exp s ≤ 1 - obs s false)
    (l0 : 0 ≤ p) (l1 : exp true - exp false ≤ p) (l2 : obs true true + obs false true - exp false ≤ p) (l3 : exp true - (obs true true + obs false true) ≤ p)
    (u1 : p ≤ exp true) (u2 : p ≤ 1 - exp false) (u3 : p ≤ obs true true + obs false false)
    (u4 : p ≤ exp true - exp false + obs true false + obs false true) : ∃ a b : K, a + b = p ∧ ∀ s, 0 ≤ mass obs exp a b s := by
  have t1 := h0 true true
  have t2 := h0 true false
  have t3 := h0 false true
  have t4 := h0 false false
  have n1t := n1 true
  have n1f := n1 false
  have n2t := n2 true
  have n2f := n2 false
  -- the largest number possible for the units without the cause
  let U := min (exp true - obs true true) (obs false false)
  let L := max 0 (obs true true - (exp false - obs false true))
  have hU1 : U ≤ exp true - obs true true := min_le_left _ _
  have hU2 : U ≤ obs false false := min_le_right _ _
  have hL1 : 0 ≤ L := le_max_left _ _
  have hL2 : obs true true - (exp false - obs false true) ≤ L := le_max_right _ _
  have hU : U = exp true - obs true true ∨ U = obs false false := min_choice _ _
  have hL : L = 0 ∨ L = obs true true - (exp false - obs false true) := max_choice _ _
  have hM1 : L ≤ max L (p - U) := le_max_left _ _
  have hM2 : p - U ≤ max L (p - U) := le_max_right _ _
  have hM : max L (p - U) = L ∨ max L (p - U) = p - U := max_choice _ _
  generalize max L (p - U) = A at hM1 hM2 hM
  clear_value U L
  refine ⟨A, p - A, by ring, ?_⟩
  rintro ⟨_ | _, _ | _, _ | _⟩ <;> simp only [mass] <;> rcases hM with e | e <;> rcases hU with e' | e' <;> rcases hL with e'' | e'' <;> linarith

end RespNet
end Verif
