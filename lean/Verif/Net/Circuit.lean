import Verif.Net.DSep
import Verif.Learn.EMData
import Mathlib.Algebra.BigOperators.Ring.Finset
import Mathlib.Algebra.Order.BigOperators.Ring.Finset

/-!
# Networks of binary gates

No reference to the code: each node of a graph has some gates, its state is the set of gates that are on.  Gates without inputs
are fair coins, the others are on when an odd number of their inputs is on.
-/

set_option linter.unusedSectionVars false
set_option linter.unusedSimpArgs false

namespace Verif
open Relation

variable {V P : Type} [DecidableEq V] [DecidableEq P]

/-- Gates, each at a node, with other gates as inputs -/
structure Circuit (V P : Type) where
  gates : Finset P
  node : P → V
  pars : P → List P

namespace Circuit

/-- What a gate does with its inputs -/
def out (c : Circuit V P) (β : P → Bool) (p : P) : Bool := ((c.pars p).map β).foldr xor false

/-- All gates with inputs do what they should. -/
def Sol (c : Circuit V P) (β : P → Bool) : Prop := ∀ p ∈ c.gates, c.pars p ≠ [] → β p = c.out β p

/-- Inputs come along the edges of the graph. -/
def Along (c : Circuit V P) (g : DiGraph V) : Prop := ∀ p ∈ c.gates, ∀ q ∈ c.pars p, q ∈ c.gates ∧ g.Edge (c.node q) (c.node p)

/-- The gates that are on -/
def bits (c : Circuit V P) (a : V → Finset P) (p : P) : Bool := decide (p ∈ a (c.node p))

/-- One gate in the table of a node -/
def factor (K : Type) [Field K] (c : Circuit V P) (v : V) (a : V → Finset P) (p : P) (b : Bool) : K :=
  if c.node p = v then (if c.pars p = [] then 2⁻¹ else if b = c.out (c.bits a) p then 1 else 0) else if b then 0 else 1

/-- The network -/
noncomputable def net (K : Type) [Field K] (c : Circuit V P) (g : DiGraph V) : BN V (Finset P) K where
  nodes := g.nodes
  parents := g.pred
  states := fun _ => c.gates.powerset.toList
  table := fun v a => ∏ p ∈ c.gates, c.factor K v a p (decide (p ∈ a v))

variable {K : Type} [Field K] [LinearOrder K] [IsStrictOrderedRing K] {c : Circuit V P} {g : DiGraph V}

theorem mem_pred' {p v : V} : p ∈ g.pred v ↔ g.Edge p v := by
  rw [DiGraph.pred]
  simp only [List.mem_map, List.mem_filter, decide_eq_true_eq]
  constructor
  · rintro ⟨⟨x, y⟩, ⟨h, rfl⟩, rfl⟩; exact h
  · intro h; exact ⟨(p, v), ⟨h, rfl⟩, rfl⟩

theorem out_congr {β γ : P → Bool} {p : P} (h : ∀ q ∈ c.pars p, β q = γ q) : c.out β p = c.out γ p := by
  rw [out, out, List.map_congr_left h]

theorem factor_congr (hc : c.Along g) {v : V} {a b : V → Finset P} (h : ∀ w ∈ g.pred v, a w = b w) {p : P} (hp : p ∈ c.gates) (x : Bool) :
    c.factor K v a p x = c.factor K v b p x := by
  rw [factor, factor]
  by_cases hv : c.node p = v
  · rw [out_congr fun q hq => ?_]
    rw [bits, bits, h _ (mem_pred'.2 (hv ▸ (hc p hp q hq).2))]
  · rw [if_neg hv, if_neg hv]

theorem net_valid (hg : g.WF) (ha : g.Acyclic) (hc : c.Along g) : (c.net K g).Valid where
  nodes := hg.nodes
  parents := fun v _ p hp => (hg.ends _ (mem_pred'.1 hp)).1
  acyclic := fun v hv => ha v (TransGen.mono (fun x y hxy => mem_pred'.1 hxy.2) _ _ hv)
  nodupStates := fun _ _ => Finset.nodup_toList _
  nonempty := fun _ _ h => by
    have : (∅ : Finset P) ∈ c.gates.powerset.toList := by simp
    rw [show c.gates.powerset.toList = [] from h] at this
    cases this
  scope := fun v _ a b h => by
    refine Finset.prod_congr rfl fun p hp => ?_
    rw [h v (by simp), factor_congr hc (fun w hw => h w (List.mem_cons_of_mem _ hw)) hp]

theorem factor_nonneg (v : V) (a : V → Finset P) (p : P) (b : Bool) : 0 ≤ c.factor K v a p b := by
  rw [factor]
  split_ifs <;> norm_num

theorem net_nonneg : (c.net K g).NonNeg := fun _ _ _ _ => Finset.prod_nonneg fun _ _ => factor_nonneg _ _ _ _

theorem factor_sum (v : V) (a : V → Finset P) (p : P) : c.factor K v a p true + c.factor K v a p false = 1 := by
  rw [factor, factor]
  by_cases hv : c.node p = v
  · rw [if_pos hv, if_pos hv]
    by_cases h0 : c.pars p = []
    · rw [if_pos h0, if_pos h0]
      norm_num
    · rw [if_neg h0, if_neg h0]
      cases c.out (c.bits a) p <;> simp
  · rw [if_neg hv, if_neg hv]; simp

theorem net_normalised (ha : g.Acyclic) (hc : c.Along g) : (c.net K g).Normalised := by
  intro v _ a _
  have e : ∀ s ∈ c.gates.powerset, (∏ p ∈ c.gates, c.factor K v (upd a v s) p (decide (p ∈ upd a v s v))) =
      (∏ p ∈ s, c.factor K v a p true) * ∏ p ∈ c.gates \ s, c.factor K v a p false := by
    intro s hs
    have hs := Finset.mem_powerset.1 hs
    rw [mul_comm, ← Finset.prod_sdiff hs]
    have hup : ∀ w ∈ g.pred v, upd a v s w = a w := fun w hw => upd_ne _ _ (by
      rintro rfl; exact ha w (.single (mem_pred'.1 hw)))
    congr 1
    · refine Finset.prod_congr rfl fun p hp => ?_
      obtain ⟨h1, h2⟩ := Finset.mem_sdiff.1 hp
      rw [factor_congr hc hup h1, upd_same, decide_eq_false h2]
    · refine Finset.prod_congr rfl fun p hp => ?_
      rw [factor_congr hc hup (hs hp), upd_same, decide_eq_true hp]
  show (c.gates.powerset.toList.map fun s => ∏ p ∈ c.gates, c.factor K v (upd a v s) p (decide (p ∈ upd a v s v))).sum = 1
  rw [Finset.sum_map_toList, Finset.sum_congr rfl e, ← Finset.prod_add]
  exact Finset.prod_eq_one fun p _ => factor_sum v a p

/-- The states in which the gates `β` are on -/
def asg (c : Circuit V P) (β : P → Bool) (v : V) : Finset P := c.gates.filter fun p => c.node p = v ∧ β p = true

theorem bits_asg {β : P → Bool} {p : P} (hp : p ∈ c.gates) : c.bits (c.asg β) p = β p := by
  rw [bits, asg]
  by_cases h : β p = true <;> simp [h, hp]

theorem asg_inStates (β : P → Bool) : (c.net K g).InStates (c.asg β) := fun v _ =>
  Finset.mem_toList.2 (Finset.mem_powerset.2 (Finset.filter_subset _ _))

theorem joint_asg (hc : c.Along g) {β : P → Bool} (hβ : c.Sol β) : 0 < (c.net K g).joint (c.asg β) := by
  refine List.prod_pos fun x hx => ?_
  obtain ⟨v, _, rfl⟩ := List.mem_map.1 hx
  refine Finset.prod_pos fun p hp => ?_
  rw [factor]
  by_cases hv : c.node p = v
  · rw [if_pos hv]
    by_cases h0 : c.pars p = []
    · rw [if_pos h0]; norm_num
    · rw [if_neg h0, if_pos]
      · norm_num
      · rw [out_congr fun q hq => bits_asg (hc p hp q hq).1, ← hβ p hp h0, ← hv]
        exact bits_asg hp
  · rw [if_neg hv, if_neg]
    · norm_num
    · simp [asg, hv]

theorem sol_of_joint (hg : ∀ p ∈ c.gates, c.node p ∈ g.nodes) {a : V → Finset P} (hj : (c.net K g).joint a ≠ 0) : c.Sol (c.bits a) := by
  intro p hp h0
  by_contra hne
  refine hj (List.prod_eq_zero (List.mem_map.2 ⟨c.node p, hg p hp, ?_⟩))
  refine Finset.prod_eq_zero hp ?_
  rw [factor, if_pos rfl, if_neg h0]
  exact if_neg hne

/-- A circuit that makes some variables depend on others given the rest -/
theorem dependent (hg : g.WF) (ha : g.Acyclic) (hc : c.Along g) (hn : ∀ p ∈ c.gates, c.node p ∈ g.nodes) {T Y Z : List V}
    (hTY : ∀ t ∈ T, t ∉ Y) (hTZ : ∀ t ∈ T, t ∉ Z) {p q : P} (hp : p ∈ c.gates) (hq : q ∈ c.gates) (hpT : c.node p ∈ T) (hqY : c.node q ∈ Y)
    (hsame : ∀ β, c.Sol β → (∀ r ∈ c.gates, c.node r ∈ Z → β r = false) → β p = β q)
    {β : P → Bool} (hβ : c.Sol β) (hβZ : ∀ r ∈ c.gates, c.node r ∈ Z → β r = false) (hβp : β p = true) :
    ∃ a, (c.net K g).InStates a ∧ (c.net K g).marg (T ++ (Y ++ Z)) a = 0 ∧ 0 < (c.net K g).marg (T ++ Z) a ∧
      0 < (c.net K g).marg (Y ++ Z) a ∧ 0 < (c.net K g).marg Z a := by
  have hB := net_valid (K := K) hg ha hc
  have hnn : (c.net K g).NonNeg := net_nonneg
  have h0 : c.Sol fun _ => false := by
    intro r _ _
    rw [out]
    induction c.pars r with
    | nil => rfl
    | cons x l ih => simpa using ih
  refine ⟨fun v => if v ∈ T then c.asg β v else ∅, fun v hv => ?_, ?_⟩
  · show (if v ∈ T then _ else _) ∈ _
    split_ifs
    · exact asg_inStates (K := K) (g := g) β v hv
    · exact Finset.mem_toList.2 (by simp)
  set a : V → Finset P := fun v => if v ∈ T then c.asg β v else ∅ with hadef
  have haZ : ∀ z ∈ Z, a z = ∅ := fun z hz => if_neg fun h => hTZ z h hz
  have e1 : (c.net K g).marg (T ++ (Y ++ Z)) a = 0 := by
    rw [BN.marg, sumOver_congr (hB.nodes.filter _) (g := fun _ => 0)]
    · exact sumOver_zero _ _
    · intro b hb _
      by_contra hj
      have hbeq : ∀ v, v ∈ T ++ (Y ++ Z) → b v = a v := fun v hv => hb v fun h => by
        exact absurd hv (of_decide_eq_true (List.mem_filter.1 h).2)
      have hs := hsame _ (sol_of_joint hn hj) fun r _ hrZ => by
        rw [bits, hbeq _ (by simp [hrZ]), haZ _ hrZ]; rfl
      have k1 : c.bits b p = true := by
        have : b (c.node p) = c.asg β (c.node p) := (hbeq _ (by simp [hpT])).trans (if_pos hpT)
        rw [bits, this]
        simp [asg, hp, hβp]
      have k2 : c.bits b q = false := by
        have : b (c.node q) = ∅ := (hbeq _ (by simp [hqY])).trans (if_neg fun h => hTY _ h hqY)
        rw [bits, this]
        simp
      rw [k1, k2] at hs
      cases hs
  have e2 : 0 < (c.net K g).marg (T ++ Z) a := by
    have : (c.net K g).marg (T ++ Z) a = (c.net K g).marg (T ++ Z) (c.asg β) := by
      refine hB.marg_dep _ _ _ fun v hv => ?_
      rcases List.mem_append.1 hv with hv | hv
      · exact if_pos hv
      · rw [haZ v hv, asg, eq_comm, Finset.filter_eq_empty_iff]
        rintro r hr ⟨rfl, h⟩
        rw [hβZ r hr hv] at h
        cases h
    rw [this]
    exact BN.marg_pos hB hnn _ (asg_inStates β) (joint_asg hc hβ)
  have e3 : 0 < (c.net K g).marg (Y ++ Z) a := by
    have : (c.net K g).marg (Y ++ Z) a = (c.net K g).marg (Y ++ Z) (c.asg fun _ => false) := by
      refine hB.marg_dep _ _ _ fun v hv => ?_
      have hvT : v ∉ T := fun h => (List.mem_append.1 hv).elim (hTY v h) (hTZ v h)
      rw [show a v = ∅ from if_neg hvT, asg]
      simp
    rw [this]
    exact BN.marg_pos hB hnn _ (asg_inStates _) (joint_asg hc h0)
  have e4 : 0 < (c.net K g).marg Z a := by
    have : (c.net K g).marg Z a = (c.net K g).marg Z (c.asg fun _ => false) := by
      refine hB.marg_dep _ _ _ fun v hv => ?_
      rw [haZ v hv, asg]
      simp
    rw [this]
    exact BN.marg_pos hB hnn _ (asg_inStates _) (joint_asg hc h0)
  exact ⟨e1, e2, e3, e4⟩

end Circuit
end Verif
