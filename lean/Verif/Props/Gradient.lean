import Verif.Learn.GradientObj
import Verif.Model.Intervene
import Verif.Props.Models
import Verif.Net.Sums
import Mathlib.Analysis.SpecialFunctions.Log.Basic
import Mathlib.Algebra.Order.BigOperators.Group.List

/-!
# C61: the objective of `GradientLikelihood`
-/

set_option linter.unusedSectionVars false
set_option linter.unusedSimpArgs false

namespace Verif.Props

variable {V S K : Type} [DecidableEq V] [DecidableEq S] [Inhabited S] [Field K] [LinearOrder K] [IsStrictOrderedRing K]

section
variable {vt : VType}
local notation "II" => (storeOf vt : StoreImpl V S (Fl K))
local notation "LL" => (labelStoreOf vt : LabelStore V S)

theorem compLik_nonneg {m : SCM II LL} {B : BN V S K} (hm : m.Rep B) {U : V} {θ : S → K} (hθ : ∀ u ∈ B.states U, 0 ≤ θ u) {a : V → S}
    (ha : B.InStates a) : 0 ≤ B.compLik m.endogenous U θ a := by
  refine List.sum_nonneg fun x hx => ?_
  obtain ⟨u, hu, rfl⟩ := List.mem_map.1 hx
  refine mul_nonneg (hθ u hu) ?_
  have h01 : ((B.kids m.endogenous U).map fun v => B.table v (upd a U u)).prod = 0 ∨
      ((B.kids m.endogenous U).map fun v => B.table v (upd a U u)).prod = 1 := by
    refine Gradient.prod_zero_one fun x hx => ?_
    obtain ⟨v, hv, rfl⟩ := List.mem_map.1 hx
    obtain ⟨h1, h2, _⟩ := Gradient.mem_kids.1 hv
    refine hm.equations v h2 h1 _ fun w hw => ?_
    by_cases hwU : w = U
    · subst hwU; simpa using hu
    · rw [upd_ne _ _ hwU]; exact ha w hw
  rcases h01 with h | h
  · rw [h]
  · rw [h]; exact zero_le_one

/-- The constructor, asked to cast, gives a model to which the theorem below applies, for every exogenous variable whose children have no
other exogenous parent. -/
theorem C61_built {B : BN V S K} (hB : B.Valid) {g : DiGraph V} (hg : g.WF) (hgn : g.nodes = B.nodes)
    (hp : ∀ v ∈ B.nodes, ∀ p, p ∈ B.parents v ↔ (p, v) ∈ g.edges) {l : List (V × AnyFactor II LL)} (hk : (Dict.keys l).Perm B.nodes)
    (ht : ∀ p ∈ l, AnyTable B p.1 p.2) (endo : Option (List V)) (check : Bool)
    (heq : ∀ v ∈ SCM.endoOr g endo, v ∈ B.nodes → ∀ a, B.InStates a → B.table v a = 0 ∨ B.table v a = 1) :
    ∃ m, SCM.ofDict g (l.map fun p => (p.1, some p.2)) endo true check = .ok m ∧ SCM.ofList g (l.map fun p => some p.2) endo true check = .ok m ∧
      m.Rep B ∧ m.Doms B ∧ m.endogenous = SCM.endoOr g endo ∧
      ∀ U ∈ B.nodes, U ∉ m.endogenous → (∀ v ∈ B.nodes, v ∈ m.endogenous → U ∈ B.parents v → ∀ p ∈ B.parents v, p ∈ m.endogenous ∨ p = U) →
        Gradient.Single m B U := by
  obtain ⟨h1, h2, h3⟩ := SCM.rep_built hB hg hgn hp hk ht endo true check heq rfl
  refine ⟨_, h1, h2, h3, ?_, rfl, fun U hU hx hone => ⟨hU, hx, fun v hv f hf => ?_, fun v hv => ?_⟩⟩
  · show (g.nodes.map fun v => (v, if v ∈ Dict.keys (l.map fun p => (p.1, SCM.prep (SCM.endoOr g endo) true check p.1 p.2)) then some (B.states v) else none)) = _
    rw [hgn]
    refine List.map_congr_left fun v hv => ?_
    rw [if_pos]
    have : Dict.keys (l.map fun p => (p.1, SCM.prep (SCM.endoOr g endo) true check p.1 p.2)) = Dict.keys l := by
      simp [Dict.keys, List.map_map, Function.comp_def]
    rw [this]
    exact hk.mem_iff.2 hv
  · exact h3.casted rfl v (Gradient.mem_kids.1 hv).2.1 f hf
  · obtain ⟨a, b, c⟩ := Gradient.mem_kids.1 hv
    exact hone v a b c

/-- **C61.** For parameters that are not negative, `negative_log_likelihood` is infinite when some counted record is impossible
(`∑_u θ_u ∏_v P(v | pa v) = 0`), and otherwise minus the sum over the counted records of the logarithm of that number. The records that
count are those with a state of the model for each endogenous child of `U` and each endogenous parent of these children. Nothing is
assumed of the function `log`, which is used on positive numbers only.

Partial: the full statement is for every model whose endogenous variables have one exogenous parent, and for all records. Missing are
models whose equations are still deterministic factors, where the code fails (`C61_deterministic`), and records with missing values, which
the code leaves out (`C61_not_counted`). -/
theorem C61_objective_partial {m : SCM II LL} {B : BN V S K} (hm : m.Rep B) (hB : B.Valid) (hd : m.Doms B) {U : V} (hU : Gradient.Single m B U)
    (hk : B.kids m.endogenous U ≠ []) {fr : Frame V S} (hc : ∀ v ∈ B.compScope m.endogenous U, v ∈ fr.cols) {R : Type} [Field R] [LinearOrder R] (log : K → R) {θ : S → K}
    (hθ : ∀ u ∈ B.states U, 0 ≤ θ u) :
    Gradient.objective log m U fr ((B.states U).map θ) = .ok
      (if ∃ r ∈ fr.rows.filter (B.within (B.compScope m.endogenous U)), B.compLik m.endogenous U θ r.asg = 0 then .pinf
       else .fin (-((fr.rows.filter (B.within (B.compScope m.endogenous U))).map fun r => log (B.compLik m.endogenous U θ r.asg)).sum)) := by
  obtain ⟨a0, ha0⟩ := Gradient.exists_inStates hB
  obtain ⟨dv, dy, hdv, hdy, hst, hsc, hcells⟩ := Gradient.cellsOf_ok hm hB hd hU hk hc ha0
  set E := m.endogenous with hE
  -- the assignment of a cell
  let ac : Obs V S × Obs V S → V → S := fun c => over c.1 (over c.2 a0)
  let cell : Rec V S → Obs V S × Obs V S := fun r => (dv.map fun p => (p.1, r.asg p.1), dy.map fun p => (p.1, r.asg p.1))
  have hmem : ∀ c ∈ Gradient.pairs dv dy, c.1 ∈ assignmentSpace dv ∧ c.2 ∈ assignmentSpace dy := fun c hc => List.mem_product.1 hc
  have hin : ∀ c ∈ Gradient.pairs dv dy, B.InStates (ac c) := by
    intro c hcm v hv
    obtain ⟨h1, h2⟩ := hmem c hcm
    obtain ⟨k1, o1⟩ := mem_assignmentSpace' hdv.keys h1
    obtain ⟨k2, o2⟩ := mem_assignmentSpace' hdy.keys h2
    show over c.1 (over c.2 a0) v ∈ B.states v
    rcases hg1 : Dict.get? c.1 v with _ | s
    · rw [show over c.1 (over c.2 a0) v = over c.2 a0 v by simp [over, hg1]]
      rcases hg2 : Dict.get? c.2 v with _ | s
      · rw [show over c.2 a0 v = a0 v by simp [over, hg2]]; exact ha0 v hv
      · rw [over_of_get? hg2]
        have hvk : v ∈ Dict.keys dy := by
          rw [← k2]; by_contra hh; rw [Dict.get?_eq_none.2 hh] at hg2; cases hg2
        obtain ⟨st, hs⟩ := Dict.mem_keys.1 hvk
        have := o2 _ hs s hg2
        rwa [hst _ (List.mem_append_right _ hs)] at this
    · rw [over_of_get? hg1]
      have hvk : v ∈ Dict.keys dv := by
        rw [← k1]; by_contra hh; rw [Dict.get?_eq_none.2 hh] at hg1; cases hg1
      obtain ⟨st, hs⟩ := Dict.mem_keys.1 hvk
      have := o1 _ hs s hg1
      rwa [hst _ (List.mem_append_left _ hs)] at this
  have hw : ∀ r : Rec V S, B.within (B.compScope E U) r = true ↔
      (∀ p ∈ dv, ∃ s ∈ p.2, Rec.val r p.1 = some s) ∧ ∀ p ∈ dy, ∃ s ∈ p.2, Rec.val r p.1 = some s := by
    intro r
    have hone : ∀ v, (Rec.val r v).any (· ∈ B.states v) = true ↔ ∃ s ∈ B.states v, Rec.val r v = some s := by
      intro v
      cases Rec.val r v <;> simp
    rw [BN.within, List.all_eq_true]
    simp only [hone]
    constructor
    · intro h
      refine ⟨fun p hp => ?_, fun p hp => ?_⟩
      · rw [hst p (List.mem_append_left _ hp)]; exact h p.1 ((hsc p.1).1 (Or.inl (Dict.mem_keys_of_mem hp)))
      · rw [hst p (List.mem_append_right _ hp)]; exact h p.1 ((hsc p.1).1 (Or.inr (Dict.mem_keys_of_mem hp)))
    · rintro ⟨h1, h2⟩ v hv
      rcases (hsc v).2 hv with h | h
      · obtain ⟨st, hs⟩ := Dict.mem_keys.1 h
        have := h1 _ hs
        rwa [hst _ (List.mem_append_left _ hs)] at this
      · obtain ⟨st, hs⟩ := Dict.mem_keys.1 h
        have := h2 _ hs
        rwa [hst _ (List.mem_append_right _ hs)] at this
  have hhit : ∀ r : Rec V S, ∀ c ∈ Gradient.pairs dv dy,
      ((c.1.all fun p => Rec.eqAt r p.1 p.2) && c.2.all fun p => Rec.eqAt r p.1 p.2) = true ↔ B.within (B.compScope E U) r = true ∧ c = cell r := by
    intro r c hcm
    obtain ⟨h1, h2⟩ := hmem c hcm
    rw [Bool.and_eq_true, Gradient.all_eqAt hdv h1, Gradient.all_eqAt hdy h2, hw]
    constructor
    · rintro ⟨⟨a, b⟩, c', d⟩; exact ⟨⟨a, c'⟩, Prod.ext b d⟩
    · rintro ⟨⟨a, c'⟩, rfl⟩; exact ⟨⟨a, rfl⟩, c', rfl⟩
  have hcellmem : ∀ r : Rec V S, B.within (B.compScope E U) r = true → cell r ∈ Gradient.pairs dv dy := fun r hr =>
    List.mem_product.2 ⟨Gradient.asg_mem_space ((hw r).1 hr).1, Gradient.asg_mem_space ((hw r).1 hr).2⟩
  have hcelllik : ∀ r : Rec V S, B.compLik E U θ (ac (cell r)) = B.compLik E U θ r.asg := by
    intro r
    refine Gradient.compLik_congr hB hU (fun w hwm => ?_) θ
    show over (dv.map fun p => (p.1, r.asg p.1)) (over (dy.map fun p => (p.1, r.asg p.1)) a0) w = r.asg w
    by_cases h1 : w ∈ Dict.keys dv
    · rw [over_of_get? (covers_map dv r.asg (e := dv) (fun _ h => h) w h1)]
    · have h2 := ((hsc w).2 hwm).resolve_left h1
      have hn : Dict.get? (dv.map fun p => (p.1, r.asg p.1)) w = none := by
        refine Dict.get?_eq_none.2 ?_
        simpa [Dict.keys, Function.comp_def] using h1
      rw [show over (dv.map fun p => (p.1, r.asg p.1)) (over (dy.map fun p => (p.1, r.asg p.1)) a0) w
        = over (dy.map fun p => (p.1, r.asg p.1)) a0 w by simp [over, hn]]
      rw [over_of_get? (covers_map dy r.asg (e := dy) (fun _ h => h) w h2)]
  have hdot : ∀ c ∈ Gradient.pairs dv dy, Gradient.dot ((B.states U).map fun u =>
      decide (((B.kids E U).map fun v => B.table v (upd (over c.1 (over c.2 a0)) U u)).prod ≠ 0)) ((B.states U).map θ) = .ok (B.compLik E U θ (ac c)) := by
    intro c hcm
    rw [Gradient.dot_ok]
    congr 2
    refine List.map_congr_left fun u hu => ?_
    have h01 : ((B.kids E U).map fun v => B.table v (upd (ac c) U u)).prod = 0 ∨ ((B.kids E U).map fun v => B.table v (upd (ac c) U u)).prod = 1 := by
      refine Gradient.prod_zero_one fun x hx => ?_
      obtain ⟨v, hv, rfl⟩ := List.mem_map.1 hx
      obtain ⟨h1, h2, _⟩ := Gradient.mem_kids.1 hv
      refine hm.equations v h2 h1 _ fun w hw => ?_
      by_cases hwU : w = U
      · subst hwU; simpa using hu
      · rw [upd_ne _ _ hwU]; exact hin c hcm w hw
    show (if decide (((B.kids E U).map fun v => B.table v (upd (ac c) U u)).prod ≠ 0) = true then θ u else 0) = _
    rcases h01 with h | h
    · simp [h]
    · simp [h]
  rw [Gradient.objective, hcells, py_ok_bind, Gradient.nll]
  by_cases hz : ∃ r ∈ fr.rows.filter (B.within (B.compScope E U)), B.compLik E U θ r.asg = 0
  · rw [if_pos hz]
    obtain ⟨r, hr, h0⟩ := hz
    obtain ⟨hr1, hr2⟩ := List.mem_filter.1 hr
    refine Gradient.nllFrom_inf _ hdot ⟨cell r, hcellmem r hr2, ?_, by rw [hcelllik, h0]⟩ _
    intro hz0
    rw [List.countP_eq_zero] at hz0
    exact hz0 r hr1 ((hhit r _ (hcellmem r hr2)).2 ⟨hr2, rfl⟩)
  · rw [if_neg hz]
    have hpos : ∀ c ∈ Gradient.pairs dv dy,
        (fr.rows.countP fun r => (c.1.all fun p => Rec.eqAt r p.1 p.2) && c.2.all fun p => Rec.eqAt r p.1 p.2) ≠ 0 → 0 < B.compLik E U θ (ac c) := by
      intro c hcm hn
      obtain ⟨r, hr, hh⟩ := List.countP_pos_iff.1 (Nat.pos_of_ne_zero hn)
      obtain ⟨hr2, rfl⟩ := (hhit r c hcm).1 hh
      refine lt_of_le_of_ne (compLik_nonneg hm hθ (hin _ hcm)) fun h0 => hz ⟨r, List.mem_filter.2 ⟨hr, hr2⟩, ?_⟩
      rw [← hcelllik, ← h0]
    rw [Gradient.nllFrom_fin _ hdot hpos, zero_add]
    congr 3
    have hsum := Gradient.sum_counts (K := R) (l := Gradient.pairs dv dy)
      ((nodup_assignmentSpace hdv).product (nodup_assignmentSpace hdy)) fr.rows
      (fun c r => (c.1.all fun p => Rec.eqAt r p.1 p.2) && c.2.all fun p => Rec.eqAt r p.1 p.2) cell (B.within (B.compScope E U))
      (fun r _ c hcm => hhit r c hcm) (fun r _ hr => hcellmem r hr) (fun c => log (B.compLik E U θ (ac c)))
    rw [hsum]
    congr 1
    refine List.map_congr_left fun r _ => ?_
    rw [hcelllik]

theorem Gradient.cellsOf_childless {m : SCM II LL} {B : BN V S K} (hm : m.Rep B) (hB : B.Valid) (hd : m.Doms B) {U : V} (hU : U ∈ B.nodes)
    (hk : B.kids m.endogenous U = []) (fr : Frame V S) : Gradient.cellsOf m U fr = .ok [(0, (B.states U).map fun _ => true)] := by
  obtain ⟨C, hC, hperm⟩ := Gradient.endoChildren_ok hm hB hU
  rw [hk, List.perm_nil] at hperm
  subst hperm
  have hdU : Dict.get m.base.domains U = .ok (some (B.states U)) := by
    rw [hd, Dict.get, Gradient.get?_map_pair _ _ hU]
  have hdom : m.domainsOf [] = .ok [] := by
    rw [Gradient.domainsOf_ok hd]; simp [partDom]
  have hP : Gradient.computeP m U [] [] [] [] = .ok ((B.states U).map fun _ => true) := by
    rw [Gradient.computeP, hdU, py_ok_bind]
    exact mapM_ok fun u _ => rfl
  rw [Gradient.cellsOf, hC, py_ok_bind]
  show (do let Y ← (.ok [] : Py (List V)); Gradient.cells m U [] Y fr : Py _) = _
  rw [py_ok_bind, Gradient.cells, hdom, py_ok_bind, py_ok_bind]
  show ([(([] : Obs V S), ([] : Obs V S))].mapM fun c => do
    let n ← Gradient.countCell fr c.1 c.2
    let p ← Gradient.computeP m U [] [] c.1 c.2
    return (n, p) : Py _) = _
  refine mapM_ok (g := fun _ => (0, (B.states U).map fun _ => true)) fun c hc => ?_
  rw [List.mem_singleton.1 hc]
  simp only
  rw [hP]
  simp [Gradient.countCell, Frame.select]

/-- **C61** for a variable without endogenous children the objective is zero, whatever the parameters. -/
theorem C61_childless {m : SCM II LL} {B : BN V S K} (hm : m.Rep B) (hB : B.Valid) (hd : m.Doms B) {U : V} (hU : U ∈ B.nodes)
    (hk : B.kids m.endogenous U = []) (fr : Frame V S) {R : Type} [Field R] [LinearOrder R] (log : K → R) (theta : List K) :
    Gradient.objective log m U fr theta = .ok (.fin 0) := by
  rw [Gradient.objective, Gradient.cellsOf_childless hm hB hd hU hk, py_ok_bind]
  show (.ok (.fin (-0)) : Py (Fl R)) = _
  rw [neg_zero]

theorem Gradient.cellsOf_total {m : SCM II LL} {B : BN V S K} (hm : m.Rep B) (hB : B.Valid) (hd : m.Doms B) {U : V} (hU : Gradient.Single m B U)
    {fr : Frame V S} (hc : ∀ v ∈ B.compScope m.endogenous U, v ∈ fr.cols) : ∃ cs, Gradient.cellsOf m U fr = .ok cs := by
  by_cases hk : B.kids m.endogenous U = []
  · exact ⟨_, Gradient.cellsOf_childless hm hB hd hU.node hk fr⟩
  · obtain ⟨a0, ha0⟩ := Gradient.exists_inStates hB
    obtain ⟨_, _, _, _, _, _, h⟩ := Gradient.cellsOf_ok hm hB hd hU hk hc ha0
    exact ⟨_, h⟩

/-- **C61** records without a state for some child or some endogenous parent of a child are not counted: when there is no other record,
the objective is zero whatever the parameters. -/
theorem C61_not_counted {m : SCM II LL} {B : BN V S K} (hm : m.Rep B) (hB : B.Valid) (hd : m.Doms B) {U : V} (hU : Gradient.Single m B U)
    (hk : B.kids m.endogenous U ≠ []) {fr : Frame V S} (hc : ∀ v ∈ B.compScope m.endogenous U, v ∈ fr.cols) {R : Type} [Field R] [LinearOrder R] (log : K → R) {θ : S → K}
    (hθ : ∀ u ∈ B.states U, 0 ≤ θ u) (hr : ∀ r ∈ fr.rows, ∃ v ∈ B.compScope m.endogenous U, ∀ s ∈ B.states v, Rec.val r v ≠ some s) :
    Gradient.objective log m U fr ((B.states U).map θ) = .ok (.fin 0) := by
  have : fr.rows.filter (B.within (B.compScope m.endogenous U)) = [] := by
    rw [List.filter_eq_nil_iff]
    intro r hrm h
    obtain ⟨v, hv, hn⟩ := hr r hrm
    rw [BN.within, List.all_eq_true] at h
    have := h v hv
    rcases hval : Rec.val r v with _ | s
    · rw [hval] at this; cases this
    · rw [hval] at this
      exact hn s (by simpa using this) hval
  rw [C61_objective_partial hm hB hd hU hk hc log hθ, this]
  simp

end

/-! ### Parameters and likelihoods -/

/-- The order of floats, for values that are not `nan` -/
def FlLe (x y : Fl ℝ) : Prop :=
  match x, y with
  | .fin x, .fin y => x ≤ y
  | .fin _, .pinf => True
  | .pinf, .pinf => True
  | _, _ => False

section
variable {vt : VType}
local notation "II" => (storeOf vt : StoreImpl V S (Fl K))
local notation "LL" => (labelStoreOf vt : LabelStore V S)

theorem log_prod_map {φ : K →+* ℝ} (hφ : StrictMono φ) {X : Type} (l : List X) (f : X → K) (h : ∀ x ∈ l, 0 < f x) :
    Real.log (φ (l.map f).prod) = (l.map fun x => Real.log (φ (f x))).sum := by
  induction l with
  | nil => simp
  | cons x l ih =>
    have hp : 0 < (l.map f).prod := by
      refine List.prod_pos fun y hy => ?_
      obtain ⟨z, hz, rfl⟩ := List.mem_map.1 hy
      exact h z (List.mem_cons_of_mem _ hz)
    rw [List.map_cons, List.prod_cons, List.map_cons, List.sum_cons, map_mul,
      Real.log_mul (map_zero φ ▸ hφ (h x List.mem_cons_self)).ne' (map_zero φ ▸ hφ hp).ne',
      ih fun y hy => h y (List.mem_cons_of_mem _ hy)]

/-- **C61** less is better: of two parameter vectors, the one with the smaller objective is the one with the larger likelihood of the
counted records. Probabilities are in a field whose order is that of real numbers (`φ`), such as the rationals. -/
theorem C61_order {φ : K →+* ℝ} (hφ : StrictMono φ) {m : SCM II LL} {B : BN V S K} (hm : m.Rep B) (hB : B.Valid) (hd : m.Doms B) {U : V} (hU : Gradient.Single m B U)
    (hk : B.kids m.endogenous U ≠ []) {fr : Frame V S} (hc : ∀ v ∈ B.compScope m.endogenous U, v ∈ fr.cols) {θ η : S → K}
    (hθ : ∀ u ∈ B.states U, 0 ≤ θ u) (hη : ∀ u ∈ B.states U, 0 ≤ η u) :
    ∃ x y, Gradient.objective (fun x => Real.log (φ x)) m U fr ((B.states U).map θ) = .ok x ∧ Gradient.objective (fun x => Real.log (φ x)) m U fr ((B.states U).map η) = .ok y ∧
      (FlLe x y ↔ ((fr.rows.filter (B.within (B.compScope m.endogenous U))).map fun r => B.compLik m.endogenous U η r.asg).prod ≤
        ((fr.rows.filter (B.within (B.compScope m.endogenous U))).map fun r => B.compLik m.endogenous U θ r.asg).prod) := by
  refine ⟨_, _, C61_objective_partial hm hB hd hU hk hc _ hθ, C61_objective_partial hm hB hd hU hk hc _ hη, ?_⟩
  obtain ⟨a0, ha0⟩ := Gradient.exists_inStates hB
  set recs := fr.rows.filter (B.within (B.compScope m.endogenous U)) with hrecs
  have hnn : ∀ (θ : S → K), (∀ u ∈ B.states U, 0 ≤ θ u) → ∀ r ∈ recs, 0 ≤ B.compLik m.endogenous U θ r.asg := by
    intro θ hθ r hr
    have hr2 := (List.mem_filter.1 hr).2
    have e : B.compLik m.endogenous U θ r.asg = B.compLik m.endogenous U θ (fun v => if v ∈ B.compScope m.endogenous U then r.asg v else a0 v) :=
      Gradient.compLik_congr hB hU (fun w hw => by simp [hw]) θ
    rw [e]
    refine compLik_nonneg hm hθ fun v hv => ?_
    by_cases h : v ∈ B.compScope m.endogenous U
    · simp only [h, if_true]
      rw [BN.within, List.all_eq_true] at hr2
      have := hr2 v h
      rcases hval : Rec.val r v with _ | s
      · rw [hval] at this; cases this
      · rw [hval] at this; rw [Rec.asg, hval]; simpa using this
    · simp only [h, if_false]; exact ha0 v hv
  have hzero : ∀ (θ : S → K), ∀ r ∈ recs, B.compLik m.endogenous U θ r.asg = 0 → (recs.map fun r => B.compLik m.endogenous U θ r.asg).prod = 0 :=
    fun θ r hr e => List.prod_eq_zero (List.mem_map.2 ⟨r, hr, e⟩)
  by_cases h1 : ∃ r ∈ recs, B.compLik m.endogenous U θ r.asg = 0 <;> by_cases h2 : ∃ r ∈ recs, B.compLik m.endogenous U η r.asg = 0
  · rw [if_pos h1, if_pos h2]
    obtain ⟨r, hr, e⟩ := h1
    obtain ⟨r', hr', e'⟩ := h2
    rw [hzero θ r hr e, hzero η r' hr' e']
    simp [FlLe]
  · rw [if_pos h1, if_neg h2]
    obtain ⟨r, hr, e⟩ := h1
    rw [hzero θ r hr e]
    have hp : 0 < (recs.map fun r => B.compLik m.endogenous U η r.asg).prod := by
      refine List.prod_pos fun y hy => ?_
      obtain ⟨z, hz, rfl⟩ := List.mem_map.1 hy
      exact lt_of_le_of_ne (hnn η hη z hz) fun h0 => h2 ⟨z, hz, h0.symm⟩
    simp only [FlLe, false_iff, not_le]
    exact hp
  · rw [if_neg h1, if_pos h2]
    obtain ⟨r, hr, e⟩ := h2
    rw [hzero η r hr e]
    simp only [FlLe, true_iff]
    refine List.prod_nonneg fun y hy => ?_
    obtain ⟨z, hz, rfl⟩ := List.mem_map.1 hy
    exact hnn θ hθ z hz
  · rw [if_neg h1, if_neg h2]
    have p1 : ∀ r ∈ recs, 0 < B.compLik m.endogenous U θ r.asg := fun r hr =>
      lt_of_le_of_ne (hnn θ hθ r hr) fun h0 => h1 ⟨r, hr, h0.symm⟩
    have p2 : ∀ r ∈ recs, 0 < B.compLik m.endogenous U η r.asg := fun r hr =>
      lt_of_le_of_ne (hnn η hη r hr) fun h0 => h2 ⟨r, hr, h0.symm⟩
    rw [← log_prod_map hφ _ _ p1, ← log_prod_map hφ _ _ p2]
    simp only [FlLe, neg_le_neg_iff]
    rw [Real.log_le_log_iff, hφ.le_iff_le]
    · refine map_zero φ ▸ hφ (List.prod_pos fun y hy => ?_)
      obtain ⟨z, hz, rfl⟩ := List.mem_map.1 hy
      exact p2 z hz
    · refine map_zero φ ▸ hφ (List.prod_pos fun y hy => ?_)
      obtain ⟨z, hz, rfl⟩ := List.mem_map.1 hy
      exact p1 z hz

end

/-! ### The components together -/

theorem sumOver_prod_groups {D : V → List S} {E : List V} {X : List V} (hX : X.Nodup) (hd : ∀ x ∈ X, x ∉ E) {g : V → (V → S) → K}
    (hg : ∀ x ∈ X, DependsOn (g x) (x :: E)) (a : V → S) :
    sumOver D X (fun b => (X.map fun x => g x b).prod) a = (X.map fun x => ((D x).map fun s => g x (upd a x s)).sum).prod := by
  induction X generalizing a with
  | nil => rfl
  | cons x X ih =>
    obtain ⟨h1, h2⟩ := List.nodup_cons.1 hX
    have hrest : ∀ s, (X.map fun y => ((D y).map fun t => g y (upd (upd a x s) y t)).sum).prod = (X.map fun y => ((D y).map fun t => g y (upd a y t)).sum).prod := by
      intro s
      congr 1
      refine List.map_congr_left fun y hy => ?_
      congr 1
      refine List.map_congr_left fun t _ => ?_
      refine hg y (List.mem_cons_of_mem _ hy) _ _ fun v hv => ?_
      by_cases hvy : v = y
      · subst hvy; simp
      · rw [upd_ne _ _ hvy, upd_ne _ _ hvy, upd_ne]
        rintro rfl
        rcases List.mem_cons.1 hv with h | h
        · exact hvy h
        · exact hd v List.mem_cons_self h
    rw [sumOver_cons, List.map_cons, List.prod_cons, ← List.sum_map_mul_right]
    congr 1
    refine List.map_congr_left fun s _ => ?_
    have : sumOver D X (fun b => ((x :: X).map fun x => g x b).prod) (upd a x s) =
        g x (upd a x s) * sumOver D X (fun b => (X.map fun x => g x b).prod) (upd a x s) := by
      simp only [List.map_cons, List.prod_cons]
      refine sumOver_mul_left (vs := x :: E) (hg x List.mem_cons_self) (fun v hv hm => ?_) _
      rcases List.mem_cons.1 hm with rfl | hm
      · exact h1 hv
      · exact hd v (List.mem_cons_of_mem _ hv) hm
    rw [this, ih h2 (fun y hy => hd y (List.mem_cons_of_mem _ hy)) (fun y hy => hg y (List.mem_cons_of_mem _ hy)), hrest]

/-- **C61** what the separate objectives have to do with the model: when exogenous variables are roots and no variable has two of them
as parents, the probability of the endogenous variables is the product, over the exogenous ones, of what is inside the logarithm of their
objective, times the tables of the endogenous variables that have no exogenous parent. -/
theorem C61_decomposes {B : BN V S K} (hB : B.Valid) (E : List V) (hroot : ∀ U ∈ B.nodes, U ∉ E → B.parents U = [])
    (hone : ∀ v ∈ B.nodes, v ∈ E → ∀ p ∈ B.parents v, ∀ q ∈ B.parents v, p ∉ E → q ∉ E → p = q) (a : V → S) :
    B.marg E a = ((B.nodes.filter fun v => v ∈ E ∧ ∀ p ∈ B.parents v, p ∈ E).map fun v => B.table v a).prod *
      ((B.nodes.filter (· ∉ E)).map fun U => B.compLik E U (fun u => B.table U fun _ => u) a).prod := by
  set X := B.nodes.filter (· ∉ E) with hXdef
  set R := B.nodes.filter fun v => v ∈ E ∧ ∀ p ∈ B.parents v, p ∈ E with hR
  have hXn : X.Nodup := hB.nodes.filter _
  have hXm : ∀ x, x ∈ X ↔ x ∈ B.nodes ∧ x ∉ E := fun x => by simp [hXdef]
  have hkids : ∀ U v, v ∈ B.kids E U ↔ v ∈ B.nodes ∧ v ∈ E ∧ U ∈ B.parents v := fun U v => Gradient.mem_kids
  -- the nodes, grouped
  have hperm : B.nodes.Perm (R ++ X.flatMap fun U => U :: B.kids E U) := by
    refine (List.perm_ext_iff_of_nodup hB.nodes ?_).2 fun v => ?_
    · refine List.nodup_append.2 ⟨hB.nodes.filter _, ?_, ?_⟩
      · refine List.nodup_flatMap.2 ⟨fun U hU => ?_, ?_⟩
        · refine List.nodup_cons.2 ⟨fun h => ((hXm U).1 hU).2 ((hkids U U).1 h).2.1, hB.nodes.filter _⟩
        · refine hXn.imp_of_mem fun {U W} hU hW hne => ?_
          intro v h1 h2
          rcases List.mem_cons.1 h1 with rfl | h1
          · rcases List.mem_cons.1 h2 with h2 | h2
            · exact hne h2
            · exact ((hXm v).1 hU).2 ((hkids W v).1 h2).2.1
          · rcases List.mem_cons.1 h2 with h2 | h2
            · subst h2; exact ((hXm v).1 hW).2 ((hkids U v).1 h1).2.1
            · obtain ⟨n1, e1, p1⟩ := (hkids U v).1 h1
              obtain ⟨_, _, p2⟩ := (hkids W v).1 h2
              exact hne (hone v n1 e1 U p1 W p2 ((hXm U).1 hU).2 ((hXm W).1 hW).2)
      · intro v hv w hw
        rintro rfl
        obtain ⟨n1, e1, p1⟩ : v ∈ B.nodes ∧ v ∈ E ∧ ∀ p ∈ B.parents v, p ∈ E := by simpa [hR] using hv
        obtain ⟨U, hU, hm⟩ := List.mem_flatMap.1 hw
        rcases List.mem_cons.1 hm with rfl | hm
        · exact ((hXm v).1 hU).2 e1
        · exact ((hXm U).1 hU).2 (p1 U ((hkids U v).1 hm).2.2)
    · simp only [List.mem_append, List.mem_flatMap, List.mem_cons]
      constructor
      · intro hv
        by_cases hvE : v ∈ E
        · by_cases hp : ∀ p ∈ B.parents v, p ∈ E
          · left; simp [hR, hv, hvE]; exact hp
          · push Not at hp
            obtain ⟨p, hp1, hp2⟩ := hp
            exact Or.inr ⟨p, (hXm p).2 ⟨hB.parents v hv p hp1, hp2⟩, Or.inr ((hkids p v).2 ⟨hv, hvE, hp1⟩)⟩
        · exact Or.inr ⟨v, (hXm v).2 ⟨hv, hvE⟩, Or.inl rfl⟩
      · rintro (h | ⟨U, hU, rfl | h⟩)
        · exact (List.mem_filter.1 h).1
        · exact ((hXm v).1 hU).1
        · exact ((hkids U v).1 h).1
  let g : V → (V → S) → K := fun U b => B.table U b * ((B.kids E U).map fun v => B.table v b).prod
  have hjoint : ∀ b, B.joint b = (R.map fun v => B.table v b).prod * (X.map fun U => g U b).prod := by
    intro b
    rw [BN.joint, (hperm.map fun v => B.table v b).prod_eq, List.map_append, List.prod_append]
    congr 1
    generalize X = X
    induction X with
    | nil => rfl
    | cons U X ih =>
      rw [List.flatMap_cons, List.map_append, List.prod_append, ih, List.map_cons (f := fun U => g U b), List.prod_cons]
      rfl
  have hRd : DependsOn (fun b => (R.map fun v => B.table v b).prod) E := by
    intro b c hbc
    show (R.map fun v => B.table v b).prod = (R.map fun v => B.table v c).prod
    congr 1
    refine List.map_congr_left fun v hv => ?_
    obtain ⟨n1, e1, p1⟩ : v ∈ B.nodes ∧ v ∈ E ∧ ∀ p ∈ B.parents v, p ∈ E := by simpa [hR] using hv
    refine hB.scope v n1 _ _ fun w hw => hbc w ?_
    rcases List.mem_cons.1 hw with rfl | hw
    · exact e1
    · exact p1 w hw
  have hgd : ∀ U ∈ X, DependsOn (g U) (U :: E) := by
    intro U hU b c hbc
    obtain ⟨hUn, hUE⟩ := (hXm U).1 hU
    show B.table U b * _ = B.table U c * _
    congr 1
    · refine hB.scope U hUn _ _ fun w hw => hbc w ?_
      rw [hroot U hUn hUE] at hw
      rcases List.mem_cons.1 hw with rfl | hw
      · exact List.mem_cons_self
      · cases hw
    · congr 1
      refine List.map_congr_left fun v hv => ?_
      obtain ⟨n1, e1, p1⟩ := (hkids U v).1 hv
      refine hB.scope v n1 _ _ fun w hw => hbc w ?_
      rcases List.mem_cons.1 hw with rfl | hw
      · exact List.mem_cons_of_mem _ e1
      · by_cases hwE : w ∈ E
        · exact List.mem_cons_of_mem _ hwE
        · rw [hone v n1 e1 w hw U p1 hwE hUE]; exact List.mem_cons_self
  rw [BN.marg]
  rw [sumOver_congr' (g := fun b => (R.map fun v => B.table v b).prod * (X.map fun U => g U b).prod) hjoint]
  rw [sumOver_mul_left hRd fun v hv => ((hXm v).1 hv).2]
  rw [sumOver_prod_groups hXn (fun x hx => ((hXm x).1 hx).2) hgd]
  congr 2
  refine List.map_congr_left fun U hU => ?_
  obtain ⟨hUn, hUE⟩ := (hXm U).1 hU
  unfold BN.compLik
  congr 1
  refine List.map_congr_left fun u _ => ?_
  show B.table U (upd a U u) * _ = _
  congr 1
  refine hB.scope U hUn _ _ fun w hw => ?_
  rw [hroot U hUn hUE] at hw
  rcases List.mem_cons.1 hw with rfl | hw
  · simp
  · cases hw

section
variable {vt : VType}
local notation "II" => (storeOf vt : StoreImpl V S (Fl K))
local notation "LL" => (labelStoreOf vt : LabelStore V S)

/-- **C61** the objectives of all exogenous variables, each at the distribution that the variable has in the model, add up to minus the
log-likelihood of the model for complete endogenous data. -/
theorem C61_total (φ : K →+* ℝ) {m : SCM II LL} {B : BN V S K} (hm : m.Rep B) (hB : B.Valid) (hn : B.Normalised) (hnn : B.NonNeg) (hd : m.Doms B)
    (hroot : ∀ U ∈ B.nodes, U ∉ m.endogenous → B.parents U = [])
    (hU : ∀ U ∈ B.nodes, U ∉ m.endogenous → Gradient.Single m B U) {fr : Frame V S}
    (hc : ∀ v ∈ B.nodes, v ∈ m.endogenous → v ∈ fr.cols) (hr : ∀ r ∈ fr.rows, B.within (B.nodes.filter (· ∈ m.endogenous)) r = true)
    (hpos : ∀ r ∈ fr.rows, B.marg m.endogenous r.asg ≠ 0) :
    ∃ x : V → ℝ, (∀ U ∈ m.exogenous, Gradient.objective (fun x => Real.log (φ x)) m U fr ((B.states U).map fun u => B.table U fun _ => u) = .ok (.fin (x U))) ∧
      (m.exogenous.map x).sum = -(fr.rows.map fun r => Real.log (φ (B.marg m.endogenous r.asg))).sum := by
  set E := m.endogenous with hE
  have hXeq : m.exogenous = B.nodes.filter (· ∉ E) := by rw [SCM.exogenous, hm.nodes]
  have hXm : ∀ U, U ∈ m.exogenous ↔ U ∈ B.nodes ∧ U ∉ E := Gradient.mem_exogenous hm
  obtain ⟨a0, ha0⟩ := Gradient.exists_inStates hB
  have hθ : ∀ U ∈ m.exogenous, ∀ a : V → S, ∀ u, B.table U (upd a U u) = B.table U fun _ => u := by
    intro U hUx a u
    obtain ⟨h1, h2⟩ := (hXm U).1 hUx
    refine hB.scope U h1 _ _ fun w hw => ?_
    rw [hroot U h1 h2] at hw
    rcases List.mem_cons.1 hw with rfl | hw
    · simp
    · cases hw
  have hone : ∀ v ∈ B.nodes, v ∈ E → ∀ p ∈ B.parents v, ∀ q ∈ B.parents v, p ∉ E → q ∉ E → p = q := by
    intro v hv hvE p hp q hq hpE hqE
    have := (hU p (hB.parents v hv p hp) hpE).one v (Gradient.mem_kids.2 ⟨hv, hvE, hp⟩) q hq
    exact (this.resolve_left hqE).symm
  have hscope : ∀ U, ∀ v ∈ B.compScope E U, v ∈ B.nodes ∧ v ∈ E := by
    intro U v hv
    simp only [BN.compScope, List.mem_filter, decide_eq_true_eq] at hv
    refine ⟨hv.1, ?_⟩
    rcases hv.2 with h | h
    · exact (Gradient.mem_kids.1 h).2.1
    · exact h.1
  have hval : ∀ r ∈ fr.rows, ∀ v ∈ B.nodes, v ∈ E → ∃ s ∈ B.states v, Rec.val r v = some s := by
    intro r hrm v hv hvE
    have := hr r hrm
    rw [BN.within, List.all_eq_true] at this
    have := this v (List.mem_filter.2 ⟨hv, by simpa using hvE⟩)
    rcases h : Rec.val r v with _ | s
    · rw [h] at this; cases this
    · rw [h] at this; exact ⟨s, by simpa using this, rfl⟩
  have hall : ∀ U, fr.rows.filter (B.within (B.compScope E U)) = fr.rows := by
    intro U
    rw [List.filter_eq_self]
    intro r hrm
    rw [BN.within, List.all_eq_true]
    intro v hv
    obtain ⟨s, hs, e⟩ := hval r hrm v (hscope U v hv).1 (hscope U v hv).2
    rw [e]; simpa using hs
  -- what a record gives
  have hdec := C61_decomposes hB E hroot hone
  have hR1 : ∀ r ∈ fr.rows, ((B.nodes.filter fun v => v ∈ E ∧ ∀ p ∈ B.parents v, p ∈ E).map fun v => B.table v r.asg).prod = 1 := by
    intro r hrm
    have h01 : ((B.nodes.filter fun v => v ∈ E ∧ ∀ p ∈ B.parents v, p ∈ E).map fun v => B.table v r.asg).prod = 0 ∨
        ((B.nodes.filter fun v => v ∈ E ∧ ∀ p ∈ B.parents v, p ∈ E).map fun v => B.table v r.asg).prod = 1 := by
      refine Gradient.prod_zero_one fun x hx => ?_
      obtain ⟨v, hv, rfl⟩ := List.mem_map.1 hx
      obtain ⟨n1, e1, p1⟩ : v ∈ B.nodes ∧ v ∈ E ∧ ∀ p ∈ B.parents v, p ∈ E := by simpa using hv
      have e : B.table v r.asg = B.table v (fun w => if w ∈ E then r.asg w else a0 w) := by
        refine hB.scope v n1 _ _ fun w hw => ?_
        have : w ∈ E := by
          rcases List.mem_cons.1 hw with rfl | hw
          · exact e1
          · exact p1 w hw
        simp [this]
      rw [e]
      refine hm.equations v e1 n1 _ fun w hw => ?_
      by_cases hwE : w ∈ E
      · simp only [hwE, if_true]
        obtain ⟨s, hs, e⟩ := hval r hrm w hw hwE
        rw [Rec.asg, e]; exact hs
      · simp only [hwE, if_false]; exact ha0 w hw
    refine h01.resolve_left fun h0 => hpos r hrm ?_
    rw [hdec, h0, zero_mul]
  have hmarg : ∀ r ∈ fr.rows, B.marg E r.asg = (m.exogenous.map fun U => B.compLik E U (fun u => B.table U fun _ => u) r.asg).prod := by
    intro r hrm
    rw [hdec, hR1 r hrm, one_mul, hXeq]
  have hne : ∀ r ∈ fr.rows, ∀ U ∈ m.exogenous, B.compLik E U (fun u => B.table U fun _ => u) r.asg ≠ 0 := by
    intro r hrm U hUx h0
    refine hpos r hrm ?_
    rw [hmarg r hrm]
    exact List.prod_eq_zero (List.mem_map.2 ⟨U, hUx, h0⟩)
  refine ⟨fun U => -(fr.rows.map fun r => Real.log (φ (B.compLik E U (fun u => B.table U fun _ => u) r.asg))).sum, fun U hUx => ?_, ?_⟩
  · obtain ⟨hU1, hU2⟩ := (hXm U).1 hUx
    have hnnU : ∀ u ∈ B.states U, 0 ≤ B.table U fun _ => u := by
      intro u hu
      rw [← hθ U hUx a0 u]
      refine hnn U hU1 _ fun w hw => ?_
      by_cases hwU : w = U
      · subst hwU; simpa using hu
      · rw [upd_ne _ _ hwU]; exact ha0 w hw
    by_cases hk : B.kids E U = []
    · rw [C61_childless hm hB hd hU1 hk]
      have h1 : ∀ a, B.compLik E U (fun u => B.table U fun _ => u) a = 1 := by
        intro a
        rw [BN.compLik, hk]
        simp only [List.map_nil, List.prod_nil, mul_one]
        rw [← hn U hU1 a0 ha0]
        congr 1
        exact List.map_congr_left fun u _ => (hθ U hUx a0 u).symm
      congr 2
      simp only [h1, map_one, Real.log_one]
      simp
    · rw [C61_objective_partial hm hB hd (hU U hU1 hU2) hk (fun v hv => hc v (hscope U v hv).1 (hscope U v hv).2) _ hnnU, hall U, if_neg]
      rintro ⟨r, hrm, h0⟩
      exact hne r hrm U hUx h0
  · have key : ∀ rows : List (Rec V S), (∀ r ∈ rows, r ∈ fr.rows) →
        (m.exogenous.map fun U => -(rows.map fun r => Real.log (φ (B.compLik E U (fun u => B.table U fun _ => u) r.asg))).sum).sum =
        -(rows.map fun r => Real.log (φ (B.marg E r.asg))).sum := by
      intro rows
      induction rows with
      | nil => intro _; simp
      | cons r rows ih =>
        intro hrows
        have ih' := ih fun q hq => hrows q (List.mem_cons_of_mem _ hq)
        have hrm := hrows r List.mem_cons_self
        have e : Real.log (φ (B.marg E r.asg)) = (m.exogenous.map fun U => Real.log (φ (B.compLik E U (fun u => B.table U fun _ => u) r.asg))).sum := by
          rw [hmarg r hrm]
          have : ∀ l : List V, (∀ U ∈ l, B.compLik E U (fun u => B.table U fun _ => u) r.asg ≠ 0) →
              Real.log (φ (l.map fun U => B.compLik E U (fun u => B.table U fun _ => u) r.asg).prod) =
                (l.map fun U => Real.log (φ (B.compLik E U (fun u => B.table U fun _ => u) r.asg))).sum := by
            intro l
            induction l with
            | nil => intro _; simp
            | cons U l ihl =>
              intro hl
              have hp : (l.map fun U => B.compLik E U (fun u => B.table U fun _ => u) r.asg).prod ≠ 0 := by
                intro h0
                obtain ⟨W, hW, e0⟩ := List.mem_map.1 (List.prod_eq_zero_iff.1 h0)
                exact hl W (List.mem_cons_of_mem _ hW) e0
              rw [List.map_cons, List.prod_cons, List.map_cons, List.sum_cons, map_mul,
                Real.log_mul ((map_ne_zero φ).2 (hl U List.mem_cons_self)) ((map_ne_zero φ).2 hp),
                ihl fun W hW => hl W (List.mem_cons_of_mem _ hW)]
          exact this _ fun U hUx => hne r hrm U hUx
        rw [List.map_cons, List.sum_cons, neg_add, ← ih', e]
        have hneg : ∀ (l : List V) (f : V → ℝ), -(l.map f).sum = (l.map fun x => -f x).sum := by
          intro l f
          induction l with
          | nil => simp
          | cons x l ihl => rw [List.map_cons, List.sum_cons, neg_add, ihl, List.map_cons, List.sum_cons]
        rw [hneg, ← List.sum_map_add]
        congr 1
        refine List.map_congr_left fun U _ => ?_
        rw [List.map_cons, List.sum_cons, neg_add]
    exact key fr.rows fun _ h => h

end

/-! ### The new factor -/

section
variable {vt : VType}
local notation "II" => (storeOf vt : StoreImpl V S (Fl K))
local notation "LL" => (labelStoreOf vt : LabelStore V S)

/-- **C61** the factor that `_updated_factor` returns holds the values that the optimiser found from the values of the old factor on, provided that no other variable has a
name that is a part of the name of `U`. -/
theorem C61_updated {m : SCM II LL} {B : BN V S K} (hm : m.Rep B) (hB : B.Valid) (hd : m.Doms B) {U : V} (hU : Gradient.Single m B U)
    {fr : Frame V S} (hc : ∀ v ∈ B.compScope m.endogenous U, v ∈ fr.cols) {R : Type} [Field R] [LinearOrder R] (log : K → R)
    {sub : V → V → Bool} (hsub : ∀ v ∈ B.nodes, sub v U = true ↔ v = U) {opt : List (Fl K) → (List K → Py (Fl R)) → List K}
    {f : Factor II} (hf : Dict.get? m.base.factors U = some (some (.multi f))) {start : List (Fl K)} (hs : f.valuesList = .ok start)
    {θ : S → K} (hopt : opt start (Gradient.objective log m U fr) = (B.states U).map θ) :
    ∃ g, Gradient.updatedFactor log sub opt m U fr = .ok g ∧ g.WF ∧ g.dom = [(U, B.states U)] ∧ g.rightVars = [] ∧
      ∀ u ∈ B.states U, ∀ o, Dict.get? o U = some u → g.getValue o = .ok (.fin (θ u)) := by
  have hI := storeOf_lawful (V := V) (S := S) (α := Fl K) vt
  obtain ⟨cs, hcells⟩ := Gradient.cellsOf_total hm hB hd hU hc
  obtain ⟨f', hf', htab⟩ := hm.table U hU.node
  rw [hf] at hf'
  injection hf' with hf'
  injection hf' with hf'
  subst hf'
  have htab : IsTable B U f := htab
  have hdomf : (m.base.domains.filter fun p => sub p.1 U).mapM SCM.needStates = .ok [(U, B.states U)] := by
    have : B.nodes.filter (fun v => sub v U) = [U] := by
      have h1 : B.nodes.filter (fun v => sub v U) = B.nodes.filter fun v => v = U := by
        refine List.filter_congr fun v hv => ?_
        rw [Bool.eq_iff_iff, hsub v hv]; simp
      rw [h1, List.filter_eq, List.count_eq_one_of_mem hB.nodes hU.node]; rfl
    rw [hd, List.filter_map]
    have e : (fun p : V × Option (List S) => sub p.1 U) ∘ (fun v => (v, some (B.states v))) = fun v => sub v U := rfl
    rw [e, this]; rfl
  have hdo : DomOk [(U, B.states U)] := ⟨by simp, by simpa using hB.nodupStates U hU.node, by simpa using hB.nonempty U hU.node⟩
  have hcard : cards [(U, B.states U)] = [(B.states U).length] := rfl
  obtain ⟨g, g1, g2, g3, g4, g5⟩ := Factor.make_ok hI (d := [(U, B.states U)]) (values := ((B.states U).map θ).map .fin) (left := none) (right := none)
    (r := []) hdo (by simp [hcard]) rfl
  refine ⟨g, ?_, g2, g3, g4, fun u hu o ho => ?_⟩
  · have hobj : (fun theta => Gradient.nll log theta cs) = Gradient.objective log m U fr := by
      funext theta
      rw [Gradient.objective, hcells, py_ok_bind]
    have hup : Gradient.updatedFactor log sub opt m U fr = Factor.make II [(U, B.states U)]
        ((opt start (Gradient.objective log m U fr)).map .fin) none none := by
      rw [Gradient.updatedFactor, Dict.get, hf]
      simp only [py_ok_bind]
      rw [hs, py_ok_bind, hcells, py_ok_bind, hdomf, py_ok_bind, hobj]
    rw [hup, hopt]; exact g1
  · have hasg : asg o U = u := by rw [asg, over_of_get? ho]
    have hin : InDom [(U, B.states U)] (asg o) := by
      intro p hp
      rw [List.mem_singleton.1 hp, hasg]; exact hu
    have hcov : Covers g.dom o (asg o) := by
      intro v hv
      rw [g3] at hv
      have : v = U := by simpa using hv
      subst this
      rw [ho, hasg]
    rw [Factor.getValue_ok hI g2 (by rw [g3]; exact hin) hcov, g5 _ hin]
    congr 1
    have hidx : ravel (cards [(U, B.states U)]) (coords [(U, B.states U)] (asg o)) = (B.states U).idxOf u := by
      simp [cards, coords, ravel, hasg]
    rw [hidx, List.map_map, List.getD_eq_getElem?_getD, List.getElem?_map, List.getElem?_idxOf hu]
    rfl

end

end Verif.Props
