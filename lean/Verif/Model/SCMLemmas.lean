import Verif.Model.SetAll
import Verif.Net.Clamp
import Verif.Props.Factors3

/-!
# Structural causal models and networks: helper lemmas
-/

set_option linter.unusedSectionVars false
set_option linter.unusedSimpArgs false

namespace Verif

variable {V S K : Type} [DecidableEq V] [DecidableEq S] [Inhabited S] [Field K] [LinearOrder K] {vt : VType}

local notation "II" => (storeOf vt : StoreImpl V S (Fl K))
local notation "LL" => (labelStoreOf vt : LabelStore V S)

/-- The deterministic factor `f` is the table of `v`. -/
structure DetTable {L : LabelStore V S} (B : BN V S K) (v : V) (f : DetFactor L) : Prop where
  wf : f.WF
  left : f.leftVars = [v]
  right : ∀ w, w ∈ f.rightVars ↔ w ∈ B.parents v
  vars : ∀ w, w ∈ f.vars ↔ w = v ∨ w ∈ B.parents v
  dom : ∀ p ∈ f.dom, p.2 = B.states p.1
  value : ∀ obs, FullObs f.dom obs → ∃ b, f.eval obs = .ok b ∧ B.table v (asg obs) = if b then 1 else 0

/-- A factor of either class is the table of `v`. -/
def AnyTable {I : StoreImpl V S (Fl K)} {L : LabelStore V S} (B : BN V S K) (v : V) : AnyFactor I L → Prop
  | .multi g => IsTable B v g
  | .det f => DetTable B v f

/-- The object `m` has the graph of `B` and its factors are the tables of `B`; the tables of endogenous variables are
zero-one, and deterministic ones have been cast if this was asked for (as `set_factor` does). -/
structure SCM.Rep {I : StoreImpl V S (Fl K)} {L : LabelStore V S} (m : SCM I L) (B : BN V S K) : Prop where
  wf : m.base.graph.WF
  nodes : m.base.graph.nodes = B.nodes
  parents : ∀ v ∈ B.nodes, ∀ p, p ∈ B.parents v ↔ (p, v) ∈ m.base.graph.edges
  keys : Dict.keys m.base.factors = m.base.graph.nodes
  table : ∀ v ∈ B.nodes, ∃ f, Dict.get? m.base.factors v = some (some f) ∧ AnyTable B v f
  equations : ∀ v ∈ m.endogenous, v ∈ B.nodes → ∀ a, B.InStates a → B.table v a = 0 ∨ B.table v a = 1
  casted : m.cast = true → ∀ v ∈ m.endogenous, ∀ f, Dict.get? m.base.factors v = some (some f) → f.isDet = false
  endo : m.endogenous = [] → m.base.graph.edges = []

/-! ### Tables -/

theorem leftVars_eq_of_iff {g : Factor II} (hg : g.WF) {v : V} (h : ∀ w, w ∈ g.leftVars ↔ w = v) : g.leftVars = [v] := by
  have hn : g.leftVars.Nodup := List.Nodup.filter _ (Factor.WF.domOk (storeOf_lawful vt) hg).keys
  cases hl : g.leftVars with
  | nil => have := (h v).2 rfl; rw [hl] at this; cases this
  | cons w l =>
    rw [hl] at h hn
    have hw : w = v := (h w).1 List.mem_cons_self
    cases l with
    | nil => rw [hw]
    | cons u l =>
      have hu : u = v := (h u).1 (by simp)
      simp [hw, hu] at hn

theorem IsTable.left_eq {B : BN V S K} {v : V} {g : Factor II} (h : IsTable B v g) : g.leftVars = [v] :=
  leftVars_eq_of_iff h.wf h.left

theorem AnyTable.left_eq {B : BN V S K} {v : V} {f : AnyFactor II LL} (h : AnyTable B v f) : f.leftVars = [v] := by
  cases f with
  | multi g => exact IsTable.left_eq h
  | det g => exact DetTable.left h

theorem AnyTable.vars {B : BN V S K} {v : V} {f : AnyFactor II LL} (h : AnyTable B v f) :
    ∀ w, w ∈ Dict.keys f.dom ↔ w = v ∨ w ∈ B.parents v := by
  cases f with
  | multi g => exact IsTable.vars h
  | det g => exact DetTable.vars h

theorem AnyTable.right {B : BN V S K} {v : V} {f : AnyFactor II LL} (h : AnyTable B v f) :
    ∀ w, w ∈ f.rightVars ↔ w ∈ B.parents v := by
  cases f with
  | multi g => exact IsTable.right h
  | det g => exact DetTable.right h

theorem AnyTable.dom {B : BN V S K} {v : V} {f : AnyFactor II LL} (h : AnyTable B v f) : ∀ p ∈ f.dom, p.2 = B.states p.1 := by
  cases f with
  | multi g => exact IsTable.dom h
  | det g => exact DetTable.dom h

theorem AnyTable.domOk {B : BN V S K} {v : V} {f : AnyFactor II LL} (h : AnyTable B v f) : DomOk f.dom := by
  cases f with
  | multi g => exact Factor.WF.domOk (storeOf_lawful vt) (IsTable.wf h)
  | det g => exact (DetTable.wf h).dom

theorem AnyTable.mem_dom {B : BN V S K} {v : V} {f : AnyFactor II LL} (h : AnyTable B v f) : (v, B.states v) ∈ f.dom := by
  obtain ⟨st, hst⟩ := Dict.mem_keys.1 ((h.vars v).2 (.inl rfl))
  have := h.dom _ hst
  rw [← this]; exact hst

theorem AnyTable.fits {B : BN V S K} {v : V} {f : AnyFactor II LL} (h : AnyTable B v f) {g : DiGraph V} (hv : v ∈ g.nodes)
    (hp : ∀ p, p ∈ B.parents v ↔ (p, v) ∈ g.edges) : DagModel.Fits g B.states v f where
  node := hv
  right := ⟨fun w hw => (h.right w).2 ((hp w).2 (DiGraph.mem_pred.1 hw)),
    fun w hw => DiGraph.mem_pred.2 ((hp w).1 ((h.right w).1 hw))⟩
  left := by
    show SameSet [v] f.leftVars
    rw [h.left_eq]; exact ⟨fun _ h => h, fun _ h => h⟩
  dom := h.dom
  mem := (h.vars v).2 (.inl rfl)

/-- The table of a deterministic factor is the table of its multinomial version. -/
theorem DetTable.toMultinomial {B : BN V S K} {v : V} {f : DetFactor LL} (h : DetTable B v f) :
    ∃ r : Factor II, f.toMultinomial II = .ok r ∧ IsTable B v r := by
  obtain ⟨r, h1, h2, h3, h4, h5, h6⟩ := Props.C16_to_multinomial (α := Fl K) vt h.wf h.left
  refine ⟨r, h1, ⟨h2, fun w => by rw [h4]; simp, fun w => by rw [h5]; exact h.right w, fun w => ?_, fun p hp => ?_, fun obs ho => ?_⟩⟩
  · rw [Factor.vars, h3]; exact h.vars w
  · rw [h3] at hp; exact h.dom p hp
  · rw [h3] at ho
    obtain ⟨b, hb, ht⟩ := h.value obs ho
    have hv : v ∈ Dict.keys f.dom := (h.vars v).2 (.inl rfl)
    obtain ⟨y, _, hy2, hy3⟩ := h6 obs (asg obs v) ho (ho.covers v hv)
    rw [hb] at hy2
    injection hy2 with hy2
    rw [hy3, ht, hy2]
    by_cases e : y = asg obs v <;> simp [e] <;> rfl

/-- Assignments that agree on a node and its parents, one of them in the states. -/
theorem BN.Valid.extend {B : BN V S K} (hB : B.Valid) {v : V} (hv : v ∈ B.nodes) {a : V → S}
    (ha : ∀ w, w = v ∨ w ∈ B.parents v → a w ∈ B.states w) : ∃ b, B.InStates b ∧ B.table v a = B.table v b := by
  refine ⟨B.clamp a, hB.clamp_in a, (hB.scope v hv _ _ fun w hw => ?_).symm⟩
  exact BN.clamp_of_mem fun _ => ha w (by simpa using hw)

theorem IsTable.isDegenerate {B : BN V S K} (hB : B.Valid) {v : V} (hv : v ∈ B.nodes) {g : Factor II} (h : IsTable B v g)
    (hd : ∀ a, B.InStates a → B.table v a = 0 ∨ B.table v a = 1) : g.isDegenerate = .ok true := by
  have hI := storeOf_lawful (V := V) (S := S) (α := Fl K) vt
  rw [Factor.isDegenerate, Factor.valuesList_ok hI h.wf, py_ok_bind]
  have : (((assignmentSpace g.dom).map fun o => g.sem (asg o)).filter fun x => x ≠ 0 ∧ x ≠ 1) = [] := by
    rw [List.filter_eq_nil_iff]
    intro x hx
    obtain ⟨o, ho, rfl⟩ := List.mem_map.1 hx
    have hf : FullObs g.dom o := mem_assignmentSpace_fullObs (h.wf.domOk hI).keys ho
    obtain ⟨b, hb, hbe⟩ := hB.extend hv (a := asg o) fun w hw =>
      Factor.states_of_inDom h.dom hf.inDom w ((h.vars w).2 hw)
    have hval := h.value o hf
    rw [Factor.getValue_full hI h.wf hf] at hval
    injection hval with hval
    rw [hval, hbe]
    rcases hd b hb with e | e <;> rw [e]
    · intro hc; exact absurd (show (Fl.fin 0 : Fl K) = 0 from rfl) (by simpa using hc : _ ∧ _).1
    · intro hc; exact absurd (show (Fl.fin 1 : Fl K) = 1 from rfl) (by simpa using hc : _ ∧ _).2
  rw [this]; rfl

/-- What `set_factor` stores is again the table. -/
theorem AnyTable.prepare {B : BN V S K} (hB : B.Valid) {v : V} (hv : v ∈ B.nodes) {f : AnyFactor II LL} (h : AnyTable B v f)
    {endo : List V} (hd : v ∈ endo → ∀ a, B.InStates a → B.table v a = 0 ∨ B.table v a = 1) (cast check : Bool) :
    SCM.prepare endo cast check v (some f) = .ok (some (SCM.prep endo cast check v f)) ∧
      AnyTable B v (SCM.prep endo cast check v f) ∧
      (v ∈ endo → cast = true → (SCM.prep endo cast check v f).isDet = false) ∧
      ((v ∈ endo → cast = true → f.isDet = false) → SCM.prep endo cast check v f = f) := by
  cases f with
  | multi g =>
    have hp : SCM.prepare endo cast check v (some (AnyFactor.multi g : AnyFactor II LL)) = .ok (some (.multi g)) := by
      rw [SCM.prepare]
      split
      · rename_i hc
        rw [IsTable.isDegenerate hB hv h (hd hc.1)]; rfl
      · rfl
    rw [SCM.prep, hp]
    exact ⟨rfl, h, fun _ _ => rfl, fun _ => rfl⟩
  | det g =>
    by_cases hc : v ∈ endo ∧ cast = true
    · obtain ⟨r, h1, h2⟩ := DetTable.toMultinomial h
      have hp : SCM.prepare endo cast check v (some (AnyFactor.det g : AnyFactor II LL)) = .ok (some (.multi r)) := by
        rw [SCM.prepare, if_pos hc, h1]; rfl
      rw [SCM.prep, hp]
      exact ⟨rfl, h2, fun _ _ => rfl, fun h => absurd (h hc.1 hc.2) (by simp [AnyFactor.isDet])⟩
    · have hp : SCM.prepare endo cast check v (some (AnyFactor.det g : AnyFactor II LL)) = .ok (some (.det g)) := by
        rw [SCM.prepare, if_neg hc]
      rw [SCM.prep, hp]
      exact ⟨rfl, h, fun h1 h2 => absurd ⟨h1, h2⟩ hc, fun _ => rfl⟩


/-! ### Interventions -/

theorem BN.doBN_inStates {B : BN V S K} {d : Obs V S} {a : V → S} : (B.doBN d).InStates a ↔ B.InStates a := Iff.rfl

theorem BN.Valid.doBN {B : BN V S K} (hB : B.Valid) (d : Obs V S) : (B.doBN d).Valid where
  nodes := hB.nodes
  parents := by
    intro v hv p hp
    simp only [BN.doBN] at hp
    split at hp
    · cases hp
    · exact hB.parents v hv p hp
  acyclic := by
    intro v h
    refine hB.acyclic v (Relation.TransGen.mono (fun u w huw => ?_) _ _ h)
    refine ⟨huw.1, ?_⟩
    have h2 := huw.2
    simp only [BN.doBN] at h2
    split at h2
    · cases h2
    · exact h2
  nodupStates := hB.nodupStates
  nonempty := hB.nonempty
  scope := by
    intro v hv a b hab
    simp only [BN.doBN] at hab ⊢
    cases hd : Dict.get? d v with
    | some s => simp only [hab v List.mem_cons_self]
    | none =>
      rw [if_neg (Dict.get?_eq_none.1 hd)] at hab
      exact hB.scope v hv a b hab

theorem BN.doBN_zero_one {B : BN V S K} {d : Obs V S} {v : V} {a : V → S}
    (h : v ∉ Dict.keys d → B.table v a = 0 ∨ B.table v a = 1) : (B.doBN d).table v a = 0 ∨ (B.doBN d).table v a = 1 := by
  simp only [BN.doBN]
  cases hd : Dict.get? d v with
  | some s => simp only; split <;> simp
  | none => exact h (Dict.get?_eq_none.1 hd)

theorem sum_ite_eq_one {st : List S} (hn : st.Nodup) {s : S} (hs : s ∈ st) : (st.map fun t => if t = s then (1 : K) else 0).sum = 1 := by
  induction st with
  | nil => cases hs
  | cons x l ih =>
    rw [List.nodup_cons] at hn
    rw [List.map_cons, List.sum_cons]
    by_cases hx : x = s
    · subst hx
      have : (l.map fun t => if t = x then (1 : K) else 0).sum = 0 := by
        refine List.sum_eq_zero fun y hy => ?_
        obtain ⟨t, ht, rfl⟩ := List.mem_map.1 hy
        rw [if_neg]; rintro rfl; exact hn.1 ht
      rw [if_pos rfl, this, add_zero]
    · rw [if_neg hx, zero_add]
      exact ih hn.2 ((List.mem_cons.1 hs).resolve_left (Ne.symm hx))

/-- The imposed states are states of the model. -/
def BN.DoOk (B : BN V S K) (d : Obs V S) : Prop := ∀ v s, Dict.get? d v = some s → v ∈ B.nodes → s ∈ B.states v

theorem BN.Normalised.doBN {B : BN V S K} (hB : B.Valid) (hn : B.Normalised) {d : Obs V S} (hd : B.DoOk d) :
    (B.doBN d).Normalised := by
  intro v hv a ha
  simp only [BN.doBN]
  cases h : Dict.get? d v with
  | some s =>
    have hs := sum_ite_eq_one (K := K) (hB.nodupStates v hv) (hd v s h hv)
    simpa [upd] using hs
  | none => exact hn v hv a ha

theorem BN.NonNeg.doBN [IsStrictOrderedRing K] {B : BN V S K} (hn : B.NonNeg) (d : Obs V S) : (B.doBN d).NonNeg := by
  intro v hv a ha
  simp only [BN.doBN]
  cases h : Dict.get? d v with
  | some s => simp only; split <;> simp
  | none => exact hn v hv a ha

theorem BN.doBN_joint {B : BN V S K} {d : Obs V S} (hd : ∀ v ∈ Dict.keys d, v ∈ B.nodes) (a : V → S) :
    (B.doBN d).joint a = B.doJoint d a := by
  rw [BN.doJoint]
  have hj : (B.doBN d).joint a = (B.nodes.map fun v => (B.doBN d).table v a).prod := rfl
  rw [hj]
  split
  · rename_i h
    rw [BN.trunc]
    have : ∀ l : List V, (l.map fun v => (B.doBN d).table v a).prod = ((l.filter (· ∉ Dict.keys d)).map fun v => B.table v a).prod := by
      intro l
      induction l with
      | nil => rfl
      | cons x l ih =>
        rw [List.map_cons, List.prod_cons, ih]
        cases hx : Dict.get? d x with
        | some s =>
          have : x ∈ Dict.keys d := Dict.get?_isSome.1 (by rw [hx]; rfl)
          rw [List.filter_cons_of_neg (by simpa using this)]
          simp [BN.doBN, hx, h x s hx]
        | none =>
          have := Dict.get?_eq_none.1 hx
          rw [List.filter_cons_of_pos (by simpa using this), List.map_cons, List.prod_cons]
          simp [BN.doBN, hx]
    exact this _
  · rename_i h
    have : ∃ v s, Dict.get? d v = some s ∧ a v ≠ s := by
      by_contra hc
      refine h fun v s hs => ?_
      by_contra hne
      exact hc ⟨v, s, hs, hne⟩
    obtain ⟨v, s, hs, hne⟩ := this
    refine List.prod_eq_zero (List.mem_map.2 ⟨v, hd v (Dict.get?_isSome.1 (by rw [hs]; rfl)), ?_⟩)
    simp [BN.doBN, hs, hne]

/-- The factor that replaces the table of an intervened variable. -/
theorem AnyTable.constant {B : BN V S K} {v : V} {f : AnyFactor II LL} (h : AnyTable B v f) {d : Obs V S} {s : S}
    (hd : Dict.get? d v = some s) (hs : s ∈ B.states v) : ∃ f', f.constant s = .ok f' ∧ AnyTable (B.doBN d) v f' ∧
      f'.isDet = f.isDet ∧ f'.leftVars = [v] ∧ f'.dom = [(v, B.states v)] := by
  have hk : v ∈ Dict.keys d := Dict.get?_isSome.1 (by rw [hd]; rfl)
  have hpa : (B.doBN d).parents v = [] := if_pos hk
  have htab : ∀ a, (B.doBN d).table v a = if a v = s then 1 else 0 := fun a => by simp [BN.doBN, hd]
  have hfo : ∀ obs, FullObs [(v, B.states v)] obs → ∃ t ∈ B.states v, Dict.get? obs v = some t ∧ asg obs v = t := by
    intro obs ho
    obtain ⟨t, ht, hg⟩ := ho _ List.mem_cons_self
    exact ⟨t, ht, hg, over_of_get? hg⟩
  cases f with
  | multi g =>
    have h : IsTable B v g := h
    obtain ⟨r, h1, h2, h3, h4, h5, h6⟩ := Props.C18_constant vt h.wf h.left_eq (AnyTable.mem_dom (f := (.multi g : AnyFactor II LL)) h) hs
    refine ⟨.multi r, by rw [AnyFactor.constant, h1]; rfl, ⟨h2, fun w => by rw [h4]; simp, fun w => by rw [h5, hpa], fun w => ?_,
      fun p hp => ?_, fun obs ho => ?_⟩, rfl, h4, h3⟩
    · rw [Factor.vars, h3, hpa]; simp
    · rw [h3] at hp
      rw [List.mem_singleton.1 hp]; rfl
    · have hI := storeOf_lawful (V := V) (S := S) (α := Fl K) vt
      have ho' := ho
      rw [h3] at ho'
      obtain ⟨t, ht, hg, ha⟩ := hfo obs ho'
      have hf1 : FullObs r.dom [(v, t)] := by
        rw [h3]
        intro p hp
        rw [List.mem_singleton.1 hp]
        exact ⟨t, ht, by simp [Dict.get?]⟩
      have := h6 t ht
      rw [Factor.getValue_full hI h2 hf1] at this
      rw [Factor.getValue_full hI h2 ho, htab, ha]
      have e : r.sem (asg obs) = r.sem (asg [(v, t)]) := Factor.WF.sem_congr hI h2 fun w hw => by
        have : w = v := by rw [Factor.vars, h3] at hw; simpa using hw
        subst this
        rw [ha]; simp [asg, over, Dict.get?]
      rw [e, this]
      by_cases e : t = s <;> simp [e] <;> rfl
  | det g =>
    have h : DetTable B v g := h
    obtain ⟨r, h1, h2, h3, h4, h5, h6⟩ := Props.C18_constant_deterministic vt h.wf h.left
      (AnyTable.mem_dom (f := (.det g : AnyFactor II LL)) h) hs
    refine ⟨.det r, by rw [AnyFactor.constant, h1]; rfl, ⟨h2, h4, fun w => by rw [h5, hpa], fun w => ?_,
      fun p hp => ?_, fun obs ho => ?_⟩, rfl, h4, h3⟩
    · rw [DetFactor.vars, h3, hpa]; simp
    · rw [h3] at hp
      rw [List.mem_singleton.1 hp]; rfl
    · have ho' := ho
      rw [h3] at ho'
      obtain ⟨t, ht, hg, ha⟩ := hfo obs ho'
      refine ⟨decide (s = t), ?_, ?_⟩
      · rw [DetFactor.eval, h5, h4]
        show (r.getValue [] >>= _) = _
        rw [h6, py_ok_bind]
        simp [Dict.get, hg]
      · rw [htab, ha]
        by_cases e : t = s
        · simp [e]
        · simp [e, Ne.symm e]

/-- The tables of the other variables. -/
theorem AnyTable.keep {B : BN V S K} {v : V} {f : AnyFactor II LL} (h : AnyTable B v f) {d : Obs V S}
    (hd : Dict.get? d v = none) : AnyTable (B.doBN d) v f := by
  have hpa : (B.doBN d).parents v = B.parents v := if_neg (Dict.get?_eq_none.1 hd)
  have htab : ∀ a, (B.doBN d).table v a = B.table v a := fun a => by simp [BN.doBN, hd]
  cases f with
  | multi g =>
    have h : IsTable B v g := h
    exact ⟨h.wf, h.left, fun w => by rw [hpa]; exact h.right w, fun w => by rw [hpa]; exact h.vars w, h.dom,
      fun obs ho => by rw [htab]; exact h.value obs ho⟩
  | det g =>
    have h : DetTable B v g := h
    exact ⟨h.wf, h.left, fun w => by rw [hpa]; exact h.right w, fun w => by rw [hpa]; exact h.vars w, h.dom,
      fun obs ho => by rw [htab]; exact h.value obs ho⟩

namespace SCM

/-- The factors of a model as a dictionary without missing entries. -/
theorem facs_of {B : BN V S K} : ∀ (fs : List (V × Option (AnyFactor II LL))), (Dict.keys fs).Nodup →
    (∀ v ∈ Dict.keys fs, ∃ f, Dict.get? fs v = some (some f) ∧ AnyTable B v f) →
    ∃ l : List (V × AnyFactor II LL), fs = l.map (fun p => (p.1, some p.2)) ∧ Dict.keys l = Dict.keys fs ∧
      ∀ p ∈ l, AnyTable B p.1 p.2 := by
  intro fs
  induction fs with
  | nil => intro _ _; exact ⟨[], rfl, rfl, by simp⟩
  | cons p fs ih =>
    intro hn ht
    rw [Dict.keys_cons, List.nodup_cons] at hn
    obtain ⟨f, hf, hft⟩ := ht p.1 (by simp)
    have hp : p.2 = some f := by simpa [Dict.get?] using hf
    obtain ⟨l, h1, h2, h3⟩ := ih hn.2 fun v hv => by
      obtain ⟨f, hf, hft⟩ := ht v (by simp [hv])
      have hne : p.1 ≠ v := by rintro rfl; exact hn.1 hv
      rw [Dict.get?, if_neg hne] at hf
      exact ⟨f, hf, hft⟩
    refine ⟨(p.1, f) :: l, ?_, by simp [h2], ?_⟩
    · rw [List.map_cons, ← h1, ← hp]
    · intro q hq
      rcases List.mem_cons.1 hq with rfl | hq
      · exact hft
      · exact h3 q hq

theorem Rep.facs {m : SCM II LL} {B : BN V S K} (h : m.Rep B) (hB : B.Valid) : ∃ l : List (V × AnyFactor II LL),
    m.base.factors = l.map (fun p => (p.1, some p.2)) ∧ Dict.keys l = B.nodes ∧ ∀ p ∈ l, AnyTable B p.1 p.2 := by
  have hk : Dict.keys m.base.factors = B.nodes := h.keys.trans h.nodes
  obtain ⟨l, h1, h2, h3⟩ := facs_of m.base.factors (by rw [hk]; exact hB.nodes) (by rw [hk]; exact h.table)
  exact ⟨l, h1, h2.trans hk, h3⟩

/-- The model built from a dictionary of tables. -/
theorem rep_after {B : BN V S K} (hB : B.Valid) {g : DiGraph V} (hg : g.WF) (hgn : g.nodes = B.nodes)
    (hp : ∀ v ∈ B.nodes, ∀ p, p ∈ B.parents v ↔ (p, v) ∈ g.edges) {endo : List V} {cast check : Bool}
    {l : List (V × AnyFactor II LL)} (hk : (Dict.keys l).Perm B.nodes) (ht : ∀ p ∈ l, AnyTable B p.1 p.2)
    (heq : ∀ v ∈ endo, v ∈ B.nodes → ∀ a, B.InStates a → B.table v a = 0 ∨ B.table v a = 1)
    (hc : cast = true → ∀ p ∈ l, p.1 ∈ endo → p.2.isDet = false) (he : endo = [] → g.edges = []) :
    (⟨DagModel.after g B.states check l, endo, cast⟩ : SCM II LL).Rep B where
  wf := hg
  nodes := hgn
  parents := hp
  keys := by
    show Dict.keys (g.nodes.map fun v => (v, Dict.get? l v)) = g.nodes
    simp [Dict.keys, List.map_map, Function.comp_def]
  table := by
    intro v hv
    obtain ⟨f, hf⟩ := Dict.mem_keys.1 (hk.mem_iff.2 hv)
    refine ⟨f, ?_, ht _ hf⟩
    show Dict.get? (g.nodes.map fun v => (v, Dict.get? l v)) v = _
    rw [Dict.get?_map, if_pos (by rw [hgn]; exact hv), Dict.get?_of_mem (hk.nodup_iff.2 hB.nodes) hf]
  equations := heq
  casted := by
    intro h v hv f hf
    have hf : Dict.get? (g.nodes.map fun v => (v, Dict.get? l v)) v = some (some f) := hf
    rw [Dict.get?_map] at hf
    split at hf
    · injection hf with hf
      exact hc h (v, f) (Dict.mem_of_get? hf) hv
    · cases hf
  endo := he

/-- The factor of `p.1` in the intervened model. -/
def doFac {I : StoreImpl V S (Fl K)} {L : LabelStore V S} (d : Obs V S) (p : V × AnyFactor I L) : AnyFactor I L :=
  match Dict.get? d p.1 with
  | none => p.2
  | some s => match p.2.constant s with
    | .ok r => r
    | .error _ => p.2

theorem doFac_ok {B : BN V S K} {d : Obs V S} (hd : B.DoOk d) {p : V × AnyFactor II LL} (hp : p.1 ∈ B.nodes) (h : AnyTable B p.1 p.2) :
    doFactor d (p.1, some p.2) = .ok (p.1, some (doFac d p)) ∧ AnyTable (B.doBN d) p.1 (doFac d p) ∧
      (doFac d p).isDet = p.2.isDet := by
  cases hg : Dict.get? d p.1 with
  | none =>
    simp only [doFactor, doFac, hg]
    exact ⟨trivial, h.keep hg, trivial⟩
  | some s =>
    obtain ⟨f', h1, h2, h3, _⟩ := h.constant hg (hd _ _ hg hp)
    simp only [doFactor, doFac, hg, h1, py_ok_bind]
    exact ⟨trivial, h2, h3⟩

theorem mapM_map_ok {X Y Z : Type} {f : Y → Py Z} {g : X → Y} {h : X → Z} {l : List X} (hh : ∀ x ∈ l, f (g x) = .ok (h x)) :
    (l.map g).mapM f = .ok (l.map h) := by
  induction l with
  | nil => rfl
  | cons x l ih =>
    rw [List.map_cons, List.mapM_cons, hh x List.mem_cons_self, ih fun y hy => hh y (List.mem_cons_of_mem _ hy)]
    rfl

theorem endoOr_some {g : DiGraph V} {l : List V} (h : l = [] → g.edges = []) : endoOr g (some l) = l := by
  rw [endoOr]
  split
  · rename_i e
    rw [e]
    have := h e
    rw [defaultEndo, List.filter_eq_nil_iff]
    intro x _
    simp [DiGraph.pred, this]
  · rfl

/-- `intervention`, with the resulting object. -/
theorem Rep.intervention_eq {m : SCM II LL} {B : BN V S K} (h : m.Rep B) (hB : B.Valid) {l : List (V × AnyFactor II LL)}
    (hl : m.base.factors = l.map (fun p => (p.1, some p.2))) (hk : Dict.keys l = B.nodes) (ht : ∀ p ∈ l, AnyTable B p.1 p.2)
    {d : Obs V S} (hd : B.DoOk d) :
    m.intervention d = .ok ⟨DagModel.after (m.base.graph.removeIngoing (Dict.keys d)) B.states true
      (l.map fun p => (p.1, prep m.endogenous m.cast true p.1 (doFac d p))), m.endogenous, m.cast⟩ ∧
    (⟨DagModel.after (m.base.graph.removeIngoing (Dict.keys d)) B.states true
      (l.map fun p => (p.1, prep m.endogenous m.cast true p.1 (doFac d p))), m.endogenous, m.cast⟩ : SCM II LL).Rep (B.doBN d) := by
  have hmem : ∀ p ∈ l, p.1 ∈ B.nodes := fun p hp => by rw [← hk]; exact Dict.mem_keys_of_mem hp
  have hg : (m.base.graph.removeIngoing (Dict.keys d)).WF := h.wf.removeIngoing _
  have hacy : m.base.graph.Acyclic := by
    intro v hv
    refine hB.acyclic v (Relation.TransGen.mono (fun u w huw => ?_) _ _ hv)
    have hw : w ∈ B.nodes := by rw [← h.nodes]; exact (h.wf.ends _ huw).2
    exact ⟨hw, (h.parents w hw u).2 huw⟩
  have ha : (m.base.graph.removeIngoing (Dict.keys d)).Acyclic := hacy.mono fun e he => (List.mem_filter.1 he).1
  have hedge : m.endogenous = [] → (m.base.graph.removeIngoing (Dict.keys d)).edges = [] := by
    intro he
    show (m.base.graph.edges.filter _) = []
    rw [h.endo he]; rfl
  have hpar : ∀ v ∈ B.nodes, ∀ p, p ∈ (B.doBN d).parents v ↔ (p, v) ∈ (m.base.graph.removeIngoing (Dict.keys d)).edges := by
    intro v hv p
    show p ∈ (if v ∈ Dict.keys d then [] else B.parents v) ↔ (p, v) ∈ m.base.graph.edges.filter fun e => e.2 ∉ Dict.keys d
    by_cases hvd : v ∈ Dict.keys d
    · simp [hvd]
    · simp [hvd, h.parents v hv p]
  have heq : ∀ v ∈ m.endogenous, v ∈ B.nodes → ∀ a, (B.doBN d).InStates a → (B.doBN d).table v a = 0 ∨ (B.doBN d).table v a = 1 :=
    fun v hv hvn a haa => BN.doBN_zero_one fun _ => h.equations v hv hvn a haa
  have hprep : ∀ p ∈ l, _ := fun p hp => (doFac_ok hd (hmem p hp) (ht p hp)).2.1.prepare (hB.doBN d) (hmem p hp)
    (endo := m.endogenous) (fun hv => heq p.1 hv (hmem p hp)) m.cast true
  have hn : (Dict.keys l).Nodup := by rw [hk]; exact hB.nodes
  have hkm : ∀ (F : V × AnyFactor II LL → AnyFactor II LL), Dict.keys (l.map fun p => (p.1, F p)) = Dict.keys l := fun F => by
    simp [Dict.keys, List.map_map, Function.comp_def]
  constructor
  · rw [intervention, hl, mapM_map_ok fun p hp => (doFac_ok hd (hmem p hp) (ht p hp)).1]
    simp only [py_ok_bind]
    have hfit := ofDict_fits (I := II) (L := LL) hg ha (D := B.states) (some m.endogenous) (cast := m.cast) (check := true)
      (l.map fun p => (p.1, doFac d p)) ?_ ?_ (by rw [hkm]; exact hn)
    · rw [endoOr_some hedge, List.map_map, List.map_map] at hfit
      exact hfit
    · intro p' hp'
      obtain ⟨p, hp, rfl⟩ := List.mem_map.1 hp'
      rw [endoOr_some hedge]
      exact (hprep p hp).1
    · intro p' hp'
      obtain ⟨p, hp, rfl⟩ := List.mem_map.1 hp'
      rw [endoOr_some hedge]
      exact (hprep p hp).2.1.fits (B := B.doBN d) (by show p.1 ∈ m.base.graph.nodes; rw [h.nodes]; exact hmem p hp)
        (hpar p.1 (hmem p hp))
  · refine rep_after (B := B.doBN d) (hB.doBN d) hg h.nodes hpar (by rw [hkm, hk]; exact .refl _) ?_ heq ?_ hedge
    · intro p' hp'
      obtain ⟨p, hp, rfl⟩ := List.mem_map.1 hp'
      exact (hprep p hp).2.1
    · intro hc p' hp' hv
      obtain ⟨p, hp, rfl⟩ := List.mem_map.1 hp'
      exact (hprep p hp).2.2.1 hv hc

end SCM
end Verif
