import Verif.Net.Sharp
import Verif.Props.Bounds
import Verif.Props.Undetermined
import Verif.Props.CausalEx
import Mathlib.Tactic.NormNum
import Mathlib.Tactic.Linarith

/-!
# C108: the bounds of C89 cannot be improved

Given the probabilities of a cause and an effect with two states, and those of the effect after imposing either state of the cause, every number within the
bounds of Tian and Pearl is the probability of necessity and sufficiency of a causal model with these probabilities.
-/

set_option linter.unusedSectionVars false
set_option linter.unusedSimpArgs false

namespace Verif
namespace Props
open Causal

variable {V K : Type} [DecidableEq V] [Field K] [LinearOrder K] [IsStrictOrderedRing K] {vt : VType}

/-! ### Specification -/

/-- A cause, an effect and an exogenous variable that is a parent of both -/
def confoundedPair (u x y : V) : DiGraph V := ⟨[u, x, y], [(u, x), (u, y), (x, y)]⟩

/-- `obs s t`: probability that the cause is `s` and the effect is `t`; `exp s`: probability of the effect after imposing `s`.  An intervention
changes nothing where the imposed state is the actual one. -/
structure Compatible2 (obs : Bool → Bool → K) (exp : Bool → K) : Prop where
  nonneg : ∀ s t, 0 ≤ obs s t
  total : obs true true + obs true false + obs false true + obs false false = 1
  least : ∀ s, obs s true ≤ exp s
  most : ∀ s, exp s ≤ 1 - obs s false

/-- The variables are different, and the names of the copies are new. -/
structure Names3 (sfx : V → Nat → V) (u x y : V) : Prop where
  ux : u ≠ x
  uy : u ≠ y
  xy : x ≠ y
  fresh : ∀ v ∈ [x, y], ∀ i, 1 ≤ i → i ≤ 2 → sfx v i ∉ [u, x, y]
  inj : ∀ v ∈ [x, y], ∀ w ∈ [x, y], ∀ i j, 1 ≤ i → i ≤ 2 → 1 ≤ j → j ≤ 2 → sfx v i = sfx w j → v = w ∧ i = j

/-- The model with network `B` has the probabilities `obs` and `exp`, as the library answers. -/
structure HasProbs (vt : VType) (x y : V) (obs : Bool → Bool → K) (exp : Bool → K)
    (m : SCM (storeOf vt : StoreImpl V Unit8 (Fl K)) (labelStoreOf vt : LabelStore V Unit8)) (B : BN V Unit8 K) : Prop where
  ok : CausalOk m B
  nonneg : B.NonNeg
  cause : B.states x = [truth false, truth true]
  effect : B.states y = [truth false, truth true]
  observed : ∀ s t, both2 B x y (truth s) (truth t) = obs s t
  imposed : ∀ s, did B x y (truth s) (truth true) = exp s
  answers : ∀ ch : Choices V, ch.Ok → ∃ i, new m = .ok i ∧
    (∀ s t, ∃ r, causalQuery ch i [x, y] [] none = .ok r ∧ r.getValue [(x, truth s), (y, truth t)] = .ok (.fin (obs s t))) ∧
    ∀ s, ∃ r, causalQuery ch i [y] [(x, truth s)] none = .ok r ∧ r.getValue [(y, truth true)] = .ok (.fin (exp s))

/-! ### Lemmas -/

theorem doBN_nil (B : BN V Unit8 K) : B.doBN [] = B := by
  cases B; simp [BN.doBN, Dict.keys, Dict.get?]

theorem confoundedPair_wf {u x y : V} (hux : u ≠ x) (huy : u ≠ y) (hxy : x ≠ y) : (confoundedPair u x y).WF :=
  ⟨by simp [confoundedPair, hux, huy, hxy], by simp [confoundedPair, hux, huy, hxy], by simp [confoundedPair]⟩

theorem respNet_causation {sfx : V → Nat → V} {u x y : V} (hn : Names3 sfx u x y) (q : Unit8 → K) :
    CausationOk (respNet u x y q) sfx x y (truth true) (truth false) (truth true) (truth false) := by
  have hx := RespNet.states_x hn.ux hn.uy hn.xy (q := q)
  have hy := RespNet.states_y hn.ux hn.uy hn.xy (q := q)
  have hi := RespNet.inner hn.ux hn.uy hn.xy (q := q)
  refine ⟨by rw [hi]; simp, by rw [hi]; simp, hn.xy, ⟨y, by simp [respNet], by rw [RespNet.parents_y hn.ux hn.uy hn.xy]; simp⟩, by rw [hx]; simp,
    by rw [hx]; simp, by rw [hy]; simp, by rw [hy]; simp, ?_, ?_⟩
  · rw [hi]; exact hn.fresh
  · rw [hi]; exact hn.inj

/-- The causal model with given probabilities of the units -/
theorem respNet_model (vt : VType) {sfx : V → Nat → V} {u x y : V} (hn : Names3 sfx u x y) {obs : Bool → Bool → K} {exp : Bool → K} (hc : Compatible2 obs exp)
    {a b : K} (h0 : ∀ s, 0 ≤ RespNet.mass obs exp a b s) (cast check : Bool) :
    ∃ m, buildScm vt (respNet u x y (RespNet.mass obs exp a b)) (confoundedPair u x y) (domOf (respNet u x y (RespNet.mass obs exp a b))) cast check = .ok m ∧
      m.base.graph = confoundedPair u x y ∧ HasProbs vt x y obs exp m (respNet u x y (RespNet.mass obs exp a b)) := by
  set q := RespNet.mass obs exp a b with hq
  have hsum : (units8.map q).sum = 1 := RespNet.mass_sum hc.total
  have hv := RespNet.valid hn.ux hn.uy hn.xy (q := q)
  have hco := respNet_causation hn q
  obtain ⟨m, m1, m2, _, m4⟩ := C93_causal_build (vt := vt) (N := respNet u x y q) hv (RespNet.normalised hn.ux hn.uy hn.xy hsum) (RespNet.equations hn.ux hn.uy hn.xy)
    (confoundedPair_wf hn.ux hn.uy hn.xy) rfl
    (RespNet.cases hn.ux hn.uy hn.xy
      (fun p => by rw [RespNet.parents_u hn.ux hn.uy hn.xy]; simp [confoundedPair, hn.ux, hn.uy])
      (fun p => by rw [RespNet.parents_x hn.ux hn.uy hn.xy]; simp [confoundedPair, hn.xy])
      (fun p => by rw [RespNet.parents_y hn.ux hn.uy hn.xy]; simp [confoundedPair, hn.xy.symm]))
    (d := domOf (respNet u x y q)) (fun v hv' => domOf_ok hv hv') cast check
  obtain ⟨p1, _, _⟩ := hco.probs (BN.eqs_inner hv (RespNet.normalised hn.ux hn.uy hn.xy hsum) (RespNet.equations hn.ux hn.uy hn.xy))
  have hsx : ∀ s, truth s ∈ (respNet u x y q).states x := fun s => by rw [RespNet.states_x hn.ux hn.uy hn.xy]; cases s <;> simp
  have hsy : ∀ s, truth s ∈ (respNet u x y q).states y := fun s => by rw [RespNet.states_y hn.ux hn.uy hn.xy]; cases s <;> simp
  have ho : ∀ s t, both2 (respNet u x y q) x y (truth s) (truth t) = obs s t := fun s t => by
    rw [← (p1 _ (hsx s) _ (hsy t)).2, RespNet.cf_obs hn.ux hn.uy hn.xy hsum]; exact RespNet.mass_obs s t
  have hd : ∀ s, did (respNet u x y q) x y (truth s) (truth true) = exp s := fun s => by
    rw [← (p1 _ (hsx s) _ (hsy true)).1, RespNet.cf_do hn.ux hn.uy hn.xy hsum]; exact RespNet.mass_do hc.total s true
  have hxn : x ∈ (respNet u x y q).nodes := by simp [respNet]
  have hyn : y ∈ (respNet u x y q).nodes := by simp [respNet]
  refine ⟨m, m1, m2, m4, RespNet.nonneg hn.ux hn.uy hn.xy h0, RespNet.states_x hn.ux hn.uy hn.xy, RespNet.states_y hn.ux hn.uy hn.xy, ho, hd, fun ch hch => ?_⟩
  obtain ⟨i, i1, _⟩ := new_ok m4
  refine ⟨i, i1, fun s t => ?_, fun s => ?_⟩
  · obtain ⟨i', r, e1, e2, _, e4⟩ := query_effect hch m4 (T := [x, y]) (d := []) (by simp) (by simp [hn.xy])
      (fun v hv' => by
        rcases List.mem_cons.1 hv' with rfl | hv'
        · exact ⟨hxn, by simp [Dict.keys]⟩
        · rw [List.mem_singleton.1 hv']; exact ⟨hyn, by simp [Dict.keys]⟩)
      (evOk_nil _) (a := fun v => if v = x then truth s else truth t)
      (fun v hv' => by
        rcases List.mem_cons.1 hv' with rfl | hv'
        · rw [if_pos rfl]; exact hsx s
        · rw [List.mem_singleton.1 hv', if_neg hn.xy.symm]; exact hsy t)
    rw [i1] at e1
    injection e1 with e1
    subst e1
    refine ⟨r, e2, ?_⟩
    simp only [List.map_cons, List.map_nil, if_pos, if_neg hn.xy.symm] at e4
    rw [e4, ← ho s t, both2, ← BN.doMarg_eq (by simp [Dict.keys])]
    congr 2
    rw [doBN_nil]
    refine hv.marg_dep _ _ _ fun v hv' => ?_
    rcases List.mem_cons.1 hv' with rfl | hv'
    · rw [if_pos rfl]; exact (over_of_get? (by rw [Dict.get?, if_pos rfl])).symm
    · rw [List.mem_singleton.1 hv', if_neg hn.xy.symm]
      exact (over_of_get? (by rw [Dict.get?, if_neg hn.xy, Dict.get?, if_pos rfl])).symm
  · obtain ⟨i', r, e1, e2, _, e4⟩ := query_effect hch m4 (T := [y]) (d := [(x, truth s)]) (by simp) (by simp)
      (fun v hv' => by rw [List.mem_singleton.1 hv']; exact ⟨hyn, by simp [Dict.keys, hn.xy.symm]⟩)
      (evOk_one hxn (hsx s)) (a := asg [(y, truth true)])
      (fun v hv' => by rw [List.mem_singleton.1 hv', asg, over_of_get? (by rw [Dict.get?, if_pos rfl])]; exact hsy true)
    rw [i1] at e1
    injection e1 with e1
    subst e1
    have hy : (asg [(y, truth true)] : V → Unit8) y = truth true := over_of_get? (by rw [Dict.get?, if_pos rfl])
    refine ⟨r, e2, ?_⟩
    rw [List.map_singleton, hy] at e4
    rw [e4, ← hd s]; rfl

/-! ### Theorems -/

/-- **C108** every number within the bounds of Tian and Pearl is what `prob_necessity_sufficiency` returns for a causal model, accepted by the constructors,
with the given probabilities of observations and after interventions. -/
theorem C108_attained (vt : VType) {sfx : V → Nat → V} {u x y : V} (hn : Names3 sfx u x y) {obs : Bool → Bool → K} {exp : Bool → K} (hc : Compatible2 obs exp)
    {p : K} (hp : TianPearl obs (fun t => obs true t + obs false t) (fun s t => if t then exp s else 1 - exp s) true false true false p p) (cast check : Bool) :
    ∃ (B : BN V Unit8 K) (m : SCM (storeOf vt : StoreImpl V Unit8 (Fl K)) (labelStoreOf vt : LabelStore V Unit8)),
      buildScm vt B (confoundedPair u x y) (domOf B) cast check = .ok m ∧ m.base.graph = confoundedPair u x y ∧ HasProbs vt x y obs exp m B ∧
      ∀ ch : Choices V, ch.Ok → ∃ i, new m = .ok i ∧ pns sfx ch i x y (truth true) (truth false) (truth true) (truth false) = .ok (.fin p) := by
  obtain ⟨⟨l0, l1, l2, l3⟩, u1, u2, u3, u4⟩ := hp
  simp only [if_true, Bool.false_eq_true, if_false] at l1 l2 l3 u1 u2 u4
  obtain ⟨a, b, hab, h0⟩ := RespNet.exists_mass hc.nonneg hc.total hc.least hc.most l0 l1 l2 l3 u1 u2 u3 u4
  obtain ⟨m, m1, m2, m3⟩ := respNet_model vt hn hc h0 cast check
  refine ⟨_, m, m1, m2, m3, fun ch hch => ?_⟩
  obtain ⟨i, i1, i2⟩ := C46_necessity_sufficiency_partial hch m3.ok (respNet_causation hn _)
  refine ⟨i, i1, ?_⟩
  rw [i2, RespNet.cf_both hn.ux hn.uy hn.xy (RespNet.mass_sum hc.total), ← hab]
  rfl

/-- **C108** the probabilities of necessity and of sufficiency take every pair of values within their bounds. -/
theorem C108_attained_pair (vt : VType) {sfx : V → Nat → V} {u x y : V} (hn : Names3 sfx u x y) {obs : Bool → Bool → K} {exp : Bool → K} (hc : Compatible2 obs exp)
    (hpos : 0 < obs true true ∧ 0 < obs false false) {α β : K} (hα : 0 ≤ α ∧ α ≤ 1) (hβ : 0 ≤ β ∧ β ≤ 1)
    (hα1 : (obs true true + obs false true - exp false) / obs true true ≤ α) (hα2 : α ≤ (1 - exp false - obs false false) / obs true true)
    (hβ1 : (exp true - (obs true true + obs false true)) / obs false false ≤ β) (hβ2 : β ≤ (exp true - obs true true) / obs false false) (cast check : Bool) :
    ∃ (B : BN V Unit8 K) (m : SCM (storeOf vt : StoreImpl V Unit8 (Fl K)) (labelStoreOf vt : LabelStore V Unit8)),
      buildScm vt B (confoundedPair u x y) (domOf B) cast check = .ok m ∧ m.base.graph = confoundedPair u x y ∧ HasProbs vt x y obs exp m B ∧
      ∀ ch : Choices V, ch.Ok → ∃ i, new m = .ok i ∧ pn sfx ch i x y (truth true) (truth false) (truth true) (truth false) = .ok (.fin α) ∧
        ps sfx ch i x y (truth true) (truth false) (truth true) (truth false) = .ok (.fin β) := by
  obtain ⟨p1, p0⟩ := hpos
  rw [div_le_iff₀ p1] at hα1
  rw [le_div_iff₀ p1] at hα2
  rw [div_le_iff₀ p0] at hβ1
  rw [le_div_iff₀ p0] at hβ2
  have ht := hc.total
  have h0 : ∀ s, 0 ≤ RespNet.mass obs exp (α * obs true true) (β * obs false false) s :=
    RespNet.mass_nonneg hc.nonneg (mul_nonneg hα.1 p1.le) hα1 (by nlinarith) (by linarith) (mul_nonneg hβ.1 p0.le) (by linarith) (by nlinarith) (by linarith)
  obtain ⟨m, m1, m2, m3⟩ := respNet_model vt hn hc h0 cast check
  refine ⟨_, m, m1, m2, m3, fun ch hch => ?_⟩
  have o1 := m3.observed true true
  have o0 := m3.observed false false
  rw [both2] at o1 o0
  obtain ⟨i, i1, i2⟩ := C46_necessity_partial hch m3.ok (respNet_causation hn _) (by rw [o1]; exact p1.ne')
  obtain ⟨j, j1, j2⟩ := C46_sufficiency_partial hch m3.ok (respNet_causation hn _) (by rw [o0]; exact p0.ne')
  rw [i1] at j1
  injection j1 with j1
  subst j1
  refine ⟨i, i1, ?_, ?_⟩
  · rw [i2, o1, RespNet.cf_pn hn.ux hn.uy hn.xy (RespNet.mass_sum hc.total)]
    congr 2
    exact mul_div_cancel_right₀ _ p1.ne'
  · rw [j2, o0, RespNet.cf_ps hn.ux hn.uy hn.xy (RespNet.mass_sum hc.total)]
    congr 2
    exact mul_div_cancel_right₀ _ p0.ne'

/-- **C108** the bounds are exact: the values of the probability of necessity and sufficiency in the causal models with the given probabilities are the numbers within
the bounds of Tian and Pearl. -/
theorem C108_exact (vt : VType) {ch : Choices V} (hch : ch.Ok) {sfx : V → Nat → V} {u x y : V} (hn : Names3 sfx u x y) {obs : Bool → Bool → K} {exp : Bool → K}
    (hc : Compatible2 obs exp) (p : K) :
    (∃ m B, m.base.graph = confoundedPair u x y ∧ HasProbs vt x y obs exp m B ∧
      ∃ i, new m = .ok i ∧ pns sfx ch i x y (truth true) (truth false) (truth true) (truth false) = .ok (.fin p)) ↔
    TianPearl obs (fun t => obs true t + obs false t) (fun s t => if t then exp s else 1 - exp s) true false true false p p := by
  constructor
  · rintro ⟨m, B, hg, hm, i, i1, i2⟩
    have hB := hm.ok.valid
    have hnd : ∀ v, v ∈ B.nodes ↔ v ∈ [u, x, y] := fun v => by
      have := hm.ok.rep.nodes
      rw [hg] at this
      rw [← this]; rfl
    have hpar : ∀ v ∈ B.nodes, ∀ w, w ∈ B.parents v ↔ (w, v) ∈ (confoundedPair u x y).edges := fun v hv w => by
      rw [hm.ok.rep.parents v hv w, hg]
    have hxn : x ∈ B.nodes := (hnd x).2 (by simp)
    have hyn : y ∈ B.nodes := (hnd y).2 (by simp)
    have hin : ∀ v, v ∈ B.inner ↔ v ∈ [x, y] := fun v => by
      rw [BN.mem_inner]
      constructor
      · rintro ⟨h1, h2⟩
        obtain ⟨w, hw⟩ := List.exists_mem_of_ne_nil _ h2
        have := (hpar v h1 w).1 hw
        simp only [confoundedPair, List.mem_cons, Prod.mk.injEq, List.not_mem_nil, or_false] at this ⊢
        rcases this with h | h | h
        · exact Or.inl h.2
        · exact Or.inr h.2
        · exact Or.inr h.2
      · intro hv
        simp only [List.mem_cons, List.not_mem_nil, or_false] at hv
        rcases hv with rfl | rfl
        · exact ⟨hxn, List.ne_nil_of_mem ((hpar _ hxn u).2 (by simp [confoundedPair]))⟩
        · exact ⟨hyn, List.ne_nil_of_mem ((hpar _ hyn u).2 (by simp [confoundedPair]))⟩
    have hco : CausationOk B sfx x y (truth true) (truth false) (truth true) (truth false) := by
      refine ⟨(hin x).2 (by simp), (hin y).2 (by simp), hn.xy, ⟨y, hyn, (hpar y hyn x).2 (by simp [confoundedPair])⟩, by rw [hm.cause]; simp,
        by rw [hm.cause]; simp, by rw [hm.effect]; simp, by rw [hm.effect]; simp, fun v hv i h1 h2 => ?_, fun v hv w hw => hn.inj v ((hin v).1 hv) w ((hin w).1 hw)⟩
      rw [hnd]; exact hn.fresh v ((hin v).1 hv) i h1 h2
    have h2 : TwoStates B x y (truth true) (truth false) (truth true) (truth false) := by
      refine ⟨fun s hs => ?_, fun s hs => ?_, by simp [truth], by simp [truth]⟩
      · rw [hm.cause] at hs; simpa [or_comm] using hs
      · rw [hm.effect] at hs; simpa [or_comm] using hs
    obtain ⟨p', q1, q2⟩ := C89_both_partial hch hm.ok hm.nonneg hco h2 i1
    rw [i2] at q1
    injection q1 with q1
    injection q1 with q1
    subst q1
    have hsum : ∀ t, one1 B y (truth t) = obs true t + obs false t := fun t => by
      have := hB.sum_marg (T := [x]) (W := [y]) (by simpa using hxn) (by simp) (by simpa using hn.xy) (asg [(y, truth t)])
      rw [one1, ← this, sumOver_cons, hm.cause]
      have hv : ∀ s, B.marg ([x] ++ [y]) (upd (asg [(y, truth t)]) x (truth s)) = obs s t := fun s => by
        rw [← hm.observed s t]
        refine hB.marg_dep _ _ _ fun v hv' => ?_
        rcases List.mem_cons.1 hv' with rfl | hv'
        · rw [upd_same]; exact (over_of_get? (by rw [Dict.get?, if_pos rfl])).symm
        · rw [List.mem_singleton.1 hv', upd_ne _ _ hn.xy.symm, asg, over_of_get? (by rw [Dict.get?, if_pos rfl])]
          exact (over_of_get? (by rw [Dict.get?, if_neg hn.xy, Dict.get?, if_pos rfl])).symm
      simp only [List.map_cons, List.map_nil, List.sum_cons, List.sum_nil, sumOver_nil, add_zero]
      rw [show [x, y] = [x] ++ [y] from rfl] at *
      rw [hv, hv, add_comm]
    have hfe : ∀ s, did B x y (truth s) (truth false) = 1 - exp s := fun s => by
      have hev := evOk_one hxn (show truth s ∈ B.states x by rw [hm.cause]; cases s <;> simp)
      have h1 := doMarg_nil_one hB hm.ok.norm hev
      have h3 := (hB.doBN [(x, truth s)]).sum_marg (T := [y]) (W := []) (by simpa [BN.doBN] using hyn) (by simp) (by simp) (asg [])
      have hv : ∀ t, (B.doBN [(x, truth s)]).marg ([y] ++ []) (upd (asg []) y (truth t)) = did B x y (truth s) (truth t) := fun t => by
        rw [did, ← BN.doMarg_eq hev.nodes]
        refine (hB.doBN _).marg_dep _ _ _ fun v hv' => ?_
        rw [List.mem_singleton.1 hv', upd_same]
        exact (over_of_get? (by rw [Dict.get?, if_pos rfl])).symm
      rw [← BN.doMarg_eq hev.nodes] at h1
      rw [show (B.doBN [(x, truth s)]).marg [] (asg []) = 1 from h1, sumOver_cons] at h3
      rw [show (B.doBN [(x, truth s)]).states y = [truth false, truth true] from hm.effect] at h3
      simp only [List.map_cons, List.map_nil, List.sum_cons, List.sum_nil, sumOver_nil, add_zero] at h3
      rw [hv, hv, hm.imposed s] at h3
      linear_combination h3
    obtain ⟨⟨l0, l1, l2, l3⟩, u1, u2, u3, u4⟩ := q2
    rw [hm.imposed, hm.imposed] at l1
    rw [hsum, hm.imposed] at l2
    rw [hsum, hm.imposed] at l3
    rw [hm.imposed] at u1
    rw [hfe] at u2
    rw [hm.observed, hm.observed] at u3
    rw [hm.imposed, hm.imposed, hm.observed, hm.observed] at u4
    exact ⟨⟨l0, l1, l2, l3⟩, u1, u2, u3, u4⟩
  · intro hp
    obtain ⟨B, m, _, m2, m3, m4⟩ := C108_attained vt hn hc hp true true
    exact ⟨m, B, m2, m3, m4 ch hch⟩

/-! ### Example -/

namespace SharpEx

/-- Cause and effect agree in 4/5 of the cases. -/
def obs (s t : Bool) : ℚ := if s = t then 2 / 5 else 1 / 10

/-- The effect has probability 3/5 after imposing the cause and 2/5 after preventing it. -/
def exp (s : Bool) : ℚ := if s then 3 / 5 else 2 / 5

theorem compatible : Compatible2 obs exp := by
  refine ⟨fun s t => ?_, by norm_num [obs], fun s => ?_, fun s => ?_⟩
  · cases s <;> cases t <;> norm_num [obs]
  · cases s <;> norm_num [obs, exp]
  · cases s <;> norm_num [obs, exp]

theorem names : Names3 pySfx sU sX sY := by
  refine ⟨by decide, by decide, by decide, fun v hv i h1 h2 => ?_, fun v hv w hw i j h1 h2 h3 h4 => ?_⟩
  · have : i = 1 ∨ i = 2 := by omega
    simp only [List.mem_cons, List.not_mem_nil, or_false] at hv
    rcases hv with rfl | rfl <;> rcases this with rfl | rfl <;> decide +kernel
  · have hi : i = 1 ∨ i = 2 := by omega
    have hj : j = 1 ∨ j = 2 := by omega
    simp only [List.mem_cons, List.not_mem_nil, or_false] at hv hw
    rcases hv with rfl | rfl <;> rcases hw with rfl | rfl <;> rcases hi with rfl | rfl <;> rcases hj with rfl | rfl <;> decide +kernel

end SharpEx

/-- **C108** (example) the values of the probability of necessity and sufficiency are those from 1/5 to 2/5. -/
theorem C108_example (vt : VType) {ch : Choices _} (hch : ch.Ok) (p : ℚ) :
    (∃ m B, m.base.graph = confoundedPair sU sX sY ∧ HasProbs vt sX sY SharpEx.obs SharpEx.exp m B ∧
      ∃ i, new m = .ok i ∧ pns pySfx ch i sX sY (truth true) (truth false) (truth true) (truth false) = .ok (.fin p)) ↔
    1 / 5 ≤ p ∧ p ≤ 2 / 5 := by
  rw [C108_exact vt hch SharpEx.names SharpEx.compatible]
  simp only [TianPearl, SharpEx.obs, SharpEx.exp, if_true, if_false, Bool.false_eq_true, reduceCtorEq]
  constructor
  · rintro ⟨⟨_, h, _⟩, _, _, _, k⟩
    constructor <;> linarith
  · rintro ⟨h, k⟩
    refine ⟨⟨?_, ?_, ?_, ?_⟩, ?_, ?_, ?_, ?_⟩ <;> linarith

/-- **C108** (example) each of the numbers 1/4 and 1/2 as probability of necessity, with each of them as probability of sufficiency -/
theorem C108_example_pair (vt : VType) {ch : Choices _} (hch : ch.Ok) (α β : ℚ) (hα : α = 1 / 4 ∨ α = 1 / 2) (hβ : β = 1 / 4 ∨ β = 1 / 2) :
    ∃ m B, m.base.graph = confoundedPair sU sX sY ∧ HasProbs vt sX sY SharpEx.obs SharpEx.exp m B ∧
      ∃ i, new m = .ok i ∧ pn pySfx ch i sX sY (truth true) (truth false) (truth true) (truth false) = .ok (.fin α) ∧
        ps pySfx ch i sX sY (truth true) (truth false) (truth true) (truth false) = .ok (.fin β) := by
  obtain ⟨B, m, _, h2, h3, h4⟩ := C108_attained_pair vt SharpEx.names SharpEx.compatible (by norm_num [SharpEx.obs]) (α := α) (β := β)
    (by rcases hα with rfl | rfl <;> norm_num) (by rcases hβ with rfl | rfl <;> norm_num)
    (by rcases hα with rfl | rfl <;> norm_num [SharpEx.obs, SharpEx.exp]) (by rcases hα with rfl | rfl <;> norm_num [SharpEx.obs, SharpEx.exp])
    (by rcases hβ with rfl | rfl <;> norm_num [SharpEx.obs, SharpEx.exp]) (by rcases hβ with rfl | rfl <;> norm_num [SharpEx.obs, SharpEx.exp]) true true
  exact ⟨m, B, h2, h3, h4 ch hch⟩

end Props
end Verif
