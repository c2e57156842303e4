import Verif.Learn.Gdcc
import Verif.Props.Gradient
import Verif.Props.Emcc
import Verif.Model.SamplingLemmas

/-!
# C83: `GradientLikelihood.run` finds the causal model of greatest likelihood, when the optimiser does its part

What scipy's `minimize` returns is a parameter here.
-/

set_option linter.unusedSectionVars false
set_option linter.unusedSimpArgs false

namespace Verif
namespace Props

variable {V S K : Type} [DecidableEq V] [DecidableEq S] [Inhabited S] [Field K] [LinearOrder K] [IsStrictOrderedRing K]
variable {vt : VType}

local notation "II" => (storeOf vt : StoreImpl V S (Fl K))
local notation "LL" => (labelStoreOf vt : LabelStore V S)

/-! ### What is required and what is obtained -/

/-- Causal models for which the method is meant: exogenous variables are roots, no variable has two exogenous parents; the equations
have been cast to multinomial factors, and there is one. -/
structure GradModel (m : SCM II LL) (B : BN V S K) : Prop where
  rep : m.Rep B
  valid : B.Valid
  norm : B.Normalised
  nonneg : B.NonNeg
  doms : m.Doms B
  multi : m.Multi
  endo : m.endogenous ≠ []
  roots : ∀ U ∈ m.exogenous, B.parents U = []
  one : ∀ v ∈ B.nodes, v ∈ m.endogenous → ∀ p ∈ B.parents v, ∀ q ∈ B.parents v, p ∉ m.endogenous → q ∉ m.endogenous → p = q

/-- The network with other distributions of the roots `T` -/
def BN.withRoots (B : BN V S K) (T : List V) (θ : V → S → K) : BN V S K := BN.withTables B T fun U a => θ U (a U)

/-- The probabilities `θ` of the states of `U` are not negative and add up to one. -/
def IsDistr (B : BN V S K) (U : V) (θ : S → K) : Prop := (∀ u ∈ B.states U, 0 ≤ θ u) ∧ ((B.states U).map θ).sum = 1

/-- Probability of the endogenous part of the records -/
def endoLik (B : BN V S K) (E : List V) (rows : List (Rec V S)) : K := (rows.map fun r => B.marg E r.asg).prod

/-! ### Helpers -/

theorem GradModel.single {m : SCM II LL} {B : BN V S K} (h : GradModel m B) {U : V} (hU : U ∈ m.exogenous) : Gradient.Single m B U := by
  obtain ⟨h1, h2⟩ := (mem_exogenous h.rep).1 hU
  refine ⟨h1, h2, fun v _ f hf => h.multi v f hf, fun v hv p hp => ?_⟩
  obtain ⟨k1, k2, k3⟩ := Gradient.mem_kids.1 hv
  by_cases hpE : p ∈ m.endogenous
  · exact .inl hpE
  · exact .inr (h.one v k1 k2 p hp U k3 hpE h2)

theorem root_dom {B : BN V S K} (hB : B.Valid) {U : V} (hU : U ∈ B.nodes) (hp : B.parents U = []) {f : Factor II} (hf : IsTable B U f) :
    f.dom = [(U, B.states U)] := by
  have hI := storeOf_lawful (V := V) (S := S) (α := Fl K) vt
  have hk : Dict.keys f.dom = [U] := eq_singleton (hf.wf.domOk hI).keys fun w => by
    refine (hf.vars w).trans ?_
    rw [hp]
    simp
  rcases hd : f.dom with _ | ⟨p, _ | ⟨q, l⟩⟩
  · rw [hd] at hk; cases hk
  · rw [hd] at hk
    have h1 : p.1 = U := by simpa [Dict.keys] using hk
    have h2 := hf.dom p (by rw [hd]; exact List.mem_singleton.2 rfl)
    rw [h1] at h2
    obtain ⟨x, y⟩ := p
    simp only at h1 h2
    rw [h1, h2]
  · rw [hd] at hk; simp [Dict.keys] at hk

theorem root_values {B : BN V S K} (hB : B.Valid) {U : V} (hU : U ∈ B.nodes) (hp : B.parents U = []) {f : Factor II} (hf : IsTable B U f) :
    f.valuesList = .ok ((B.states U).map fun u => .fin (B.table U fun _ => u)) := by
  have hI := storeOf_lawful (V := V) (S := S) (α := Fl K) vt
  have hd := root_dom hB hU hp hf
  rw [Factor.valuesList_ok hI hf.wf, hd, assignmentSpace_one, List.map_map]
  congr 1
  refine List.map_congr_left fun u hu => ?_
  have hg : Dict.get? [(U, u)] U = some u := by simp [Dict.get?]
  have ha : asg [(U, u)] U = u := by rw [asg, over_of_get? hg]
  have := (hf.rep hI hB hU).sem (asg [(U, u)]) (fun v hv => by
    have : v = U := by
      have := (hf.vars v).1 hv
      rw [hp] at this
      simpa using this
    subst this
    rw [ha]; exact hu)
  show f.sem (asg [(U, u)]) = _
  rw [this]
  congr 1
  refine hB.scope U hU _ _ fun w hw => ?_
  rw [hp] at hw
  rw [List.mem_singleton.1 hw, BN.clamp_of_mem (fun _ => by rw [ha]; exact hu), ha]

theorem table_root {B : BN V S K} {U : V} {st : List S} (hst : B.states U = st) (hp : B.parents U = []) {g : Factor II} (h1 : g.WF) (h2 : g.dom = [(U, st)])
    (h3 : g.rightVars = []) {θ : S → K} (h4 : ∀ u ∈ st, ∀ o, Dict.get? o U = some u → g.getValue o = .ok (.fin (θ u)))
    (ht : ∀ a, B.table U a = θ (a U)) : IsTable B U g := by
  have hv : g.vars = [U] := by rw [Factor.vars, h2]; rfl
  refine ⟨h1, fun w => ?_, fun w => by rw [h3, hp], fun w => by rw [hv, hp]; simp, fun p hp => ?_, fun o ho => ?_⟩
  · rw [Factor.leftVars, hv, h3]; simp
  · rw [h2] at hp
    rw [List.mem_singleton.1 hp]; exact hst.symm
  · rw [h2] at ho
    obtain ⟨u, hu, e⟩ := ho _ (List.mem_singleton.2 rfl)
    rw [h4 u hu o e, ht, asg, over_of_get? e]

theorem cols_addMissing (vs : List V) (fr : Frame V S) {v : V} (hv : v ∈ vs) : v ∈ (EM.addMissing vs fr).cols := by
  by_cases hc : v ∈ fr.cols
  · exact List.mem_append_left _ hc
  · exact List.mem_append_right _ (List.mem_filter.2 ⟨hv, by simpa using hc⟩)

theorem withRoots_valid {B : BN V S K} (hB : B.Valid) (T : List V) (θ : V → S → K) : (BN.withRoots B T θ).Valid := by
  refine ⟨hB.nodes, hB.parents, hB.acyclic, hB.nodupStates, hB.nonempty, fun v hv a b hab => ?_⟩
  show (if v ∈ T then fun a => θ v (a v) else B.table v) a = (if v ∈ T then fun a => θ v (a v) else B.table v) b
  by_cases hT : v ∈ T
  · rw [if_pos hT]
    exact congrArg _ (hab v List.mem_cons_self)
  · rw [if_neg hT]; exact hB.scope v hv a b hab

theorem withRoots_norm {B : BN V S K} (hn : B.Normalised) {T : List V} {θ : V → S → K} (h : ∀ U ∈ T, IsDistr B U (θ U)) :
    (BN.withRoots B T θ).Normalised := by
  intro v hv a ha
  show ((B.states v).map fun s => (if v ∈ T then fun a => θ v (a v) else B.table v) (upd a v s)).sum = 1
  by_cases hT : v ∈ T
  · rw [if_pos hT, ← (h v hT).2]
    congr 1
    exact List.map_congr_left fun s _ => by rw [upd_same]
  · rw [if_neg hT]; exact hn v hv a ha

theorem withRoots_nonneg {B : BN V S K} (hn : B.NonNeg) {T : List V} {θ : V → S → K} (h : ∀ U ∈ T, IsDistr B U (θ U)) :
    (BN.withRoots B T θ).NonNeg := by
  intro v hv a ha
  show 0 ≤ (if v ∈ T then fun a => θ v (a v) else B.table v) a
  by_cases hT : v ∈ T
  · rw [if_pos hT]; exact (h v hT).1 _ (ha v hv)
  · rw [if_neg hT]; exact hn v hv a ha

/-! ### The run -/

theorem collect_ok {R : Type} [Field R] [LinearOrder R] {log : K → R} {sub : V → V → Bool} {opt : Option Nat → List (Fl K) → (List K → Py (Fl R)) → List K}
    {o : GradObj II LL} {G : V → Factor II} {T : List V} (hT : ∀ U ∈ T, o.updated log sub opt U = .ok (G U)) (hn : T.Nodup) (d : List (V × Factor II))
    (hd : ∀ U ∈ T, U ∉ Dict.keys d) : T.foldlM (o.collect log sub opt) d = .ok (d ++ T.map fun U => (U, G U)) := by
  induction T generalizing d with
  | nil => simp
  | cons U T ih =>
    have hU := hd U List.mem_cons_self
    rw [List.foldlM_cons, GradObj.collect, hT U List.mem_cons_self, py_ok_bind]
    have hs : Dict.set d U (G U) = d ++ [(U, G U)] := by rw [Dict.set, if_neg hU]
    show (T.foldlM (o.collect log sub opt) (Dict.set d U (G U))) = _
    rw [hs, ih (fun W hW => hT W (List.mem_cons_of_mem _ hW)) (List.nodup_cons.1 hn).2]
    · rw [List.append_assoc]; rfl
    · intro W hW hc
      rw [Dict.keys_append] at hc
      rcases List.mem_append.1 hc with hc | hc
      · exact hd W (List.mem_cons_of_mem _ hW) hc
      · have : W = U := by simpa [Dict.keys] using hc
        exact (List.nodup_cons.1 hn).1 (this ▸ hW)

theorem grad_step {R : Type} [Field R] [LinearOrder R] (log : K → R) {m : SCM II LL} {B : BN V S K} (h : GradModel m B) {T : List V}
    (hTn : T.Nodup) (hTx : ∀ U ∈ T, U ∈ m.exogenous) {fr : Frame V S}
    {sub : V → V → Bool} (hsub : ∀ U ∈ T, ∀ v ∈ B.nodes, sub v U = true ↔ v = U)
    {opt : Option Nat → List (Fl K) → (List K → Py (Fl R)) → List K} {max : Option Nat} {θ : V → S → K}
    (hopt : ∀ U ∈ T, opt max ((B.states U).map fun u => .fin (B.table U fun _ => u))
      (Gradient.objective log m U (EM.addMissing B.nodes fr)) = (B.states U).map (θ U))
    {m0 : SCM II LL} {B0 : BN V S K} (c2 : m0.Rep B0) (hmu : m0.Multi) (c3 : m0.base.graph = m.base.graph) (c5 : m0.endogenous = m.endogenous)
    (c4 : ∀ v ∈ B.nodes, v ∉ T → Dict.get? m0.base.factors v = Dict.get? m.base.factors v)
    (e1 : B0.nodes = B.nodes) (e2 : B0.parents = B.parents) (e3 : B0.states = B.states) (e4 : ∀ v ∈ B.nodes, v ∉ T → B0.table v = B.table v)
    (evo : Option (List (SCM II LL))) :
    ∃ m', (⟨m, T, some m0, some (EM.addMissing B.nodes fr), some max, evo⟩ : GradObj II LL).step log sub opt =
        .ok ⟨m, T, some m', some (EM.addMissing B.nodes fr), some max, some (evo.getD [m] ++ [m'])⟩ ∧
      m'.Rep (BN.withRoots B T θ) ∧ m'.Multi ∧ m'.base.graph = m.base.graph ∧
      m'.endogenous = m.endogenous ∧ ∀ v ∈ B.nodes, v ∉ T → Dict.get? m'.base.factors v = Dict.get? m.base.factors v := by
  set fr' := EM.addMissing B.nodes fr with hfr'
  -- the new factors
  have hnew : ∀ U, ∃ g : Factor II, U ∈ T → Gradient.updatedFactor log sub (opt max) m U fr' = .ok g ∧ g.WF ∧ g.dom = [(U, B.states U)] ∧ g.rightVars = [] ∧
      ∀ u ∈ B.states U, ∀ o, Dict.get? o U = some u → g.getValue o = .ok (.fin (θ U u)) := by
    intro U
    by_cases hU : U ∈ T
    · obtain ⟨hUn, hUe⟩ := (mem_exogenous h.rep).1 (hTx U hU)
      obtain ⟨f, f1, f2⟩ := h.rep.table U hUn
      have hdet := h.multi U f f1
      cases f with
      | det _ => cases hdet
      | multi f =>
        have f2 : IsTable B U f := f2
        obtain ⟨g, g1⟩ := C61_updated h.rep h.valid h.doms (h.single (hTx U hU)) (fr := fr')
          (fun v hv => cols_addMissing _ _ (List.mem_filter.1 hv).1) log (hsub U hU) f1 (root_values h.valid hUn (h.roots U (hTx U hU)) f2) (hopt U hU)
        exact ⟨g, fun _ => g1⟩
    · haveI := nonempty_factor (V := V) (S := S) (K := K) (vt := vt)
      exact ⟨Classical.arbitrary _, fun hc => absurd hc hU⟩
  choose G hG using hnew
  -- the model, as a network
  obtain ⟨b, b1, b2⟩ := exists_lift c2 hmu
  have hB' := withRoots_valid h.valid T θ
  have htab : ∀ U ∈ T, IsTable (BN.withRoots B T θ) U (G U) := by
    intro U hU
    obtain ⟨_, g2, g3, g4, g5⟩ := hG U hU
    refine table_root (B := BN.withRoots B T θ) rfl (h.roots U (hTx U hU)) g2 g3 g4 g5 fun a => ?_
    show (if U ∈ T then fun a => θ U (a U) else B.table U) a = _
    rw [if_pos hU]
  have hkeys : Dict.keys (T.map fun U => (U, G U)) = T := by simp [Dict.keys, Function.comp_def]
  obtain ⟨b', u1, u2, u3, u4, _⟩ := EM.updateModel_ok b2 hB' e1.symm e2.symm e3.symm (new := T.map fun U => (U, G U)) (by rw [hkeys]; exact hTn)
    (by rw [hkeys, e1]; exact fun v hv => ((mem_exogenous h.rep).1 (hTx v hv)).1)
    (fun p hp => by
      obtain ⟨U, hU, rfl⟩ := List.mem_map.1 hp
      exact htab U hU)
    (fun v hv hvT => by
      rw [hkeys] at hvT
      show (if v ∈ T then fun a => θ v (a v) else B.table v) = _
      rw [if_neg hvT, e4 v (e1 ▸ hv) hvT])
  have hup : ScmEM.updateModel m0 (T.map fun U => (U, G U)) = .ok (liftScm LL m0.endogenous m0.cast b') := by
    have := ScmEM.updateModel_lift (L := LL) (endo := m0.endogenous) (cast := m0.cast) (m := b) (new := T.map fun U => (U, G U)) (by rw [c5]; exact h.endo)
    rw [u1] at this
    rw [← b1] at this
    exact this
  have hrl := rep_lift (cast := m0.cast) u2 (endo := m0.endogenous) (by rw [c5]; exact h.endo) fun v hv hvn a ha => by
    have hvT : v ∉ T := fun hc => ((mem_exogenous h.rep).1 (hTx v hc)).2 (c5 ▸ hv)
    show (if v ∈ T then fun a => θ v (a v) else B.table v) a = 0 ∨ (if v ∈ T then fun a => θ v (a v) else B.table v) a = 1
    rw [if_neg hvT]
    exact h.rep.equations v (c5 ▸ hv) hvn a ha
  have hslot : ∀ v ∈ B.nodes, v ∉ T → Dict.get? (liftScm LL m0.endogenous m0.cast b').base.factors v = Dict.get? m.base.factors v := by
    intro v hv hvT
    rw [← c4 v hv hvT]
    show Dict.get? (b'.factors.map (liftSlot (L := LL))) v = _
    have e : m0.base.factors = b.factors.map (liftSlot (L := LL)) := by
      have := congrArg (fun x : SCM II LL => x.base.factors) b1
      exact this
    rw [e, get?_lift, get?_lift, u4 v (e1.symm ▸ hv) (by rw [hkeys]; exact hvT)]
  have hgr : (liftScm LL m0.endogenous m0.cast b').base.graph = m.base.graph := by
    show b'.graph = _
    rw [u3, ← c3]
    exact (congrArg (fun x : SCM II LL => x.base.graph) b1).symm
  refine ⟨liftScm LL m0.endogenous m0.cast b', ?_, hrl.1, hrl.2, hgr, c5, hslot⟩
  have hcol := collect_ok (o := (⟨m, T, some m0, some fr', some max, evo⟩ : GradObj II LL)) (G := G) (fun U hU => (hG U hU).1) hTn []
    (by simp [Dict.keys])
  rw [List.nil_append] at hcol
  rw [GradObj.step, hcol, py_ok_bind]
  show (ScmEM.updateModel m0 _ >>= _) = _
  rw [hup]
  rfl

/-- **C83** `run`: whatever values the optimiser returns for the trainable exogenous variables, from their old distributions on, they
become their tables; the copied model keeps the rest, and the object records the prior and the result. -/
theorem C83_run {R : Type} [Field R] [LinearOrder R] (log : K → R) {m : SCM II LL} {B : BN V S K} (h : GradModel m B) {T : List V} (hT : T ≠ [])
    (hTn : T.Nodup) (hTx : ∀ U ∈ T, U ∈ m.exogenous) {fr : Frame V S} (hfr : ∀ U ∈ T, ∀ r ∈ fr.rows, Rec.val r U = none)
    {sub : V → V → Bool} (hsub : ∀ U ∈ T, ∀ v ∈ B.nodes, sub v U = true ↔ v = U)
    {opt : Option Nat → List (Fl K) → (List K → Py (Fl R)) → List K} {max : Option Nat} {θ : V → S → K}
    (hopt : ∀ U ∈ T, opt max ((B.states U).map fun u => .fin (B.table U fun _ => u))
      (Gradient.objective log m U (EM.addMissing B.nodes fr)) = (B.states U).map (θ U)) :
    ∃ o m', (GradObj.new m (some T)).run log sub opt fr max = .ok o ∧ o.model = some m' ∧ o.data = some (EM.addMissing B.nodes fr) ∧
      o.evolution = [m, m'] ∧ m'.Rep (BN.withRoots B T θ) ∧ (BN.withRoots B T θ).Valid ∧ m'.Multi ∧ m'.base.graph = m.base.graph ∧
      m'.endogenous = m.endogenous ∧ (∀ v ∈ B.nodes, v ∉ T → Dict.get? m'.base.factors v = Dict.get? m.base.factors v) ∧
      -- one more step changes nothing but the list of models
      ∃ o' m'', o.step log sub opt = .ok o' ∧ o'.model = some m'' ∧ m''.Rep (BN.withRoots B T θ) ∧ o'.evolution = [m, m', m''] := by
  have hgn : m.base.graph.nodes = B.nodes := h.rep.nodes
  obtain ⟨m0, c1, c2, c3, c4, c5, c6⟩ := h.rep.copy h.valid
  have hB' := withRoots_valid h.valid T θ
  have hmu : m0.Multi := fun v f hf => h.multi v f (by rw [← c4]; exact hf)
  obtain ⟨m', s1, s2, s3, s4, s5, s6⟩ := grad_step log h hTn hTx hsub hopt c2 hmu c3 c5 (fun v _ _ => by rw [c4]) rfl rfl rfl (fun v _ _ => rfl) none
  obtain ⟨m'', t1, t2, _⟩ := grad_step log h hTn hTx hsub hopt s2 s3 s4 s5 s6 rfl rfl rfl (fun v _ hv => if_neg hv) (some ([m] ++ [m']))
  set fr' := EM.addMissing B.nodes fr with hfr'
  -- the object
  have hchk : T.mapM (GradObj.checkTrainable m fr') = .ok (T.map fun _ => ()) := by
    refine mapM_ok fun U hU => ?_
    obtain ⟨hUn, hUe⟩ := (mem_exogenous h.rep).1 (hTx U hU)
    rw [GradObj.checkTrainable, if_neg hUe, if_neg (not_not.2 (cols_addMissing _ _ hUn)), if_neg]
    rw [List.any_eq_true]
    rintro ⟨r, hr, hs⟩
    obtain ⟨r0, hr0, rfl⟩ := List.mem_map.1 hr
    rw [val_missing, hfr U hU r0 hr0] at hs
    cases hs
  have hstart : ({ (GradObj.new m (some T) : GradObj II LL) with maxIter := some max }).start fr = .ok ⟨m, T, some m0, some fr', some max, none⟩ := by
    rw [GradObj.start]
    show (m.copy >>= _) = _
    rw [c1, py_ok_bind, GradObj.processData]
    show ((if T = [] then _ else T).mapM (GradObj.checkTrainable m (EM.addMissing m.base.graph.nodes fr)) >>= _) = _
    rw [if_neg hT, hgn, hchk, py_ok_bind]
    simp [GradObj.new, hT, hgn]
    rfl
  exact ⟨_, m', by rw [GradObj.run, hstart, py_ok_bind]; exact s1, rfl, rfl, rfl, s2, hB', s3, s4, s5, s6, _, m'', t1, rfl, t2, rfl⟩

/-- **C83** without a list of trainable variables, those with a missing value are taken, once the data have a column for each variable. -/
theorem C83_default {R : Type} [Field R] [LinearOrder R] (log : K → R) (m : SCM II LL) (fr : Frame V S) (sub : V → V → Bool)
    (opt : Option Nat → List (Fl K) → (List K → Py (Fl R)) → List K) (max : Option Nat) {T : List V} (hT : T ≠ [])
    (h : (EM.addMissing m.base.graph.nodes fr).cols.filter (EM.addMissing m.base.graph.nodes fr).hasNa = T) :
    (GradObj.new m none).run log sub opt fr max = (GradObj.new m (some T)).run log sub opt fr max := by
  rw [GradObj.run, GradObj.run, GradObj.start, GradObj.start]
  congr 1
  refine congrArg _ (funext fun m0 => ?_)
  rw [GradObj.processData, GradObj.processData]
  simp only [GradObj.new, Option.getD_none, Option.getD_some, h, if_neg hT, if_true]

/-- **C83** refused: trainable variables that are endogenous, or for which some record has a value -/
theorem C83_refuses {R : Type} [Field R] [LinearOrder R] (log : K → R) {m : SCM II LL} {B : BN V S K} (hm : m.Rep B) (hB : B.Valid) {T : List V}
    (hTn : ∀ U ∈ T, U ∈ B.nodes) {fr : Frame V S} {U : V} (hU : U ∈ T) (hbad : U ∈ m.endogenous ∨ ∃ r ∈ fr.rows, Rec.val r U ≠ none)
    (sub : V → V → Bool) (opt : Option Nat → List (Fl K) → (List K → Py (Fl R)) → List K) (max : Option Nat) :
    (GradObj.new m (some T)).run log sub opt fr max = .error .valueError := by
  have hgn : m.base.graph.nodes = B.nodes := hm.nodes
  have hT : T ≠ [] := List.ne_nil_of_mem hU
  obtain ⟨m0, c1, _⟩ := hm.copy hB
  have hchk : ∀ T : List V, (∀ U ∈ T, U ∈ B.nodes) → U ∈ T → T.mapM (GradObj.checkTrainable m (EM.addMissing B.nodes fr)) = .error .valueError := by
    intro T hTn hU
    have hall : ∀ W ∈ T, GradObj.checkTrainable m (EM.addMissing B.nodes fr) W = .ok () ∨
        GradObj.checkTrainable m (EM.addMissing B.nodes fr) W = .error .valueError := by
      intro W hW
      rw [GradObj.checkTrainable, if_neg (not_not.2 (cols_addMissing _ _ (hTn W hW)))]
      split_ifs <;> simp
    have hbad' : GradObj.checkTrainable m (EM.addMissing B.nodes fr) U = .error .valueError := by
      rw [GradObj.checkTrainable, if_neg (not_not.2 (cols_addMissing _ _ (hTn U hU)))]
      by_cases hE : U ∈ m.endogenous
      · rw [if_pos hE]
      · rw [if_neg hE, if_pos]
        obtain ⟨r, hr, hv⟩ := hbad.resolve_left hE
        rw [List.any_eq_true]
        refine ⟨_, List.mem_map.2 ⟨r, hr, rfl⟩, ?_⟩
        rw [val_missing]
        exact Option.isSome_iff_ne_none.2 hv
    clear hTn
    induction T with
    | nil => cases hU
    | cons W T ih =>
      rw [List.mapM_cons]
      rcases hall W List.mem_cons_self with e | e
      · rw [e, py_ok_bind]
        rcases List.mem_cons.1 hU with rfl | hU
        · rw [hbad'] at e; cases e
        · rw [ih hU fun W hW => hall W (List.mem_cons_of_mem _ hW)]; rfl
      · rw [e]; rfl
  rw [GradObj.run, GradObj.start]
  show ((m.copy >>= _) >>= _) = _
  rw [c1, py_ok_bind, GradObj.processData]
  show (((if T = [] then _ else T).mapM (GradObj.checkTrainable m (EM.addMissing m.base.graph.nodes fr)) >>= _) >>= _) = _
  rw [if_neg hT, hgn, hchk T hTn hU]
  rfl

/-- **C83** `initialize` and `step` without `run`, as the methods of expectation maximisation are used: the attribute for the number of
iterations does not exist. -/
theorem C83_no_run {R : Type} [Field R] [LinearOrder R] (log : K → R) {m : SCM II LL} {B : BN V S K} (h : GradModel m B) {T : List V} (hT : T ≠ [])
    (hTx : ∀ U ∈ T, U ∈ m.exogenous) {fr : Frame V S} {o : GradObj II LL} (ho : (GradObj.new m (some T)).start fr = .ok o)
    (sub : V → V → Bool) (opt : Option Nat → List (Fl K) → (List K → Py (Fl R)) → List K) :
    o.step log sub opt = .error .attributeError := by
  have hgn : m.base.graph.nodes = B.nodes := h.rep.nodes
  obtain ⟨m0, c1, _⟩ := h.rep.copy h.valid
  rw [GradObj.start] at ho
  have ho : (m.copy >>= fun m0 => GradObj.processData { (GradObj.new m (some T) : GradObj II LL) with model := some m0 } fr) = .ok o := ho
  rw [c1, py_ok_bind, GradObj.processData] at ho
  have ho : ((if T = [] then _ else T).mapM (GradObj.checkTrainable m (EM.addMissing m.base.graph.nodes fr)) >>= fun _ =>
    (.ok ⟨m, if T = [] then _ else T, some m0, some (EM.addMissing m.base.graph.nodes fr), none, none⟩ : Py (GradObj II LL))) = .ok o := ho
  rw [if_neg hT] at ho
  rcases hc : T.mapM (GradObj.checkTrainable m (EM.addMissing m.base.graph.nodes fr)) with e | l
  · rw [hc] at ho; cases ho
  · rw [hc, py_ok_bind] at ho
    injection ho with ho
    subst ho
    obtain ⟨U, T', rfl⟩ := List.exists_cons_of_ne_nil hT
    obtain ⟨cs, hcs⟩ := Gradient.cellsOf_total h.rep h.valid h.doms (h.single (hTx U List.mem_cons_self)) (fr := EM.addMissing B.nodes fr)
      (fun v hv => cols_addMissing _ _ (List.mem_filter.1 hv).1)
    rw [GradObj.step]
    show ((U :: T').foldlM (GradObj.collect log sub opt _) [] >>= _) = _
    rw [List.foldlM_cons, GradObj.collect, GradObj.updated]
    simp only [hgn, hcs, py_ok_bind]
    rfl

/-! ### Likelihoods -/

theorem prod_map_le {X : Type} {l : List X} {f g : X → K} (h0 : ∀ x ∈ l, 0 ≤ f x) (h : ∀ x ∈ l, f x ≤ g x) : (l.map f).prod ≤ (l.map g).prod := by
  induction l with
  | nil => exact le_refl _
  | cons x l ih =>
    rw [List.map_cons, List.prod_cons, List.map_cons, List.prod_cons]
    refine mul_le_mul (h x List.mem_cons_self) (ih (fun y hy => h0 y (List.mem_cons_of_mem _ hy)) fun y hy => h y (List.mem_cons_of_mem _ hy)) ?_
      ((h0 x List.mem_cons_self).trans (h x List.mem_cons_self))
    refine List.prod_nonneg fun y hy => ?_
    obtain ⟨z, hz, rfl⟩ := List.mem_map.1 hy
    exact h0 z (List.mem_cons_of_mem _ hz)

theorem prod_map_swap {X Y : Type} (l : List X) (k : List Y) (f : X → Y → K) :
    (l.map fun x => (k.map fun y => f x y).prod).prod = (k.map fun y => (l.map fun x => f x y).prod).prod := by
  induction l with
  | nil => simp
  | cons x l ih =>
    simp only [List.map_cons, List.prod_cons]
    rw [ih, List.prod_map_mul]

theorem asg_missing (r : Rec V S) (vs : List V) : Rec.asg (r ++ vs.map fun v => (v, none)) = Rec.asg r :=
  funext fun v => by rw [Rec.asg, Rec.asg, val_missing]

theorem within_of_complete {m : SCM II LL} {B : BN V S K} {fr : Frame V S} (hr : ∀ r ∈ fr.rows, ∀ v ∈ B.nodes, v ∈ m.endogenous → ∃ s ∈ B.states v, Rec.val r v = some s)
    (U : V) : (EM.addMissing B.nodes fr).rows.filter (B.within (B.compScope m.endogenous U)) = (EM.addMissing B.nodes fr).rows := by
  rw [List.filter_eq_self]
  intro r hrm
  obtain ⟨r0, hr0, rfl⟩ := List.mem_map.1 hrm
  rw [BN.within, List.all_eq_true]
  intro v hv
  obtain ⟨h1, h2⟩ := List.mem_filter.1 hv
  have hvE : v ∈ m.endogenous := by
    have h2 := of_decide_eq_true h2
    rcases h2 with h2 | h2
    · exact (Gradient.mem_kids.1 h2).2.1
    · exact h2.1
  obtain ⟨s, hs, e⟩ := hr r0 hr0 v h1 hvE
  rw [val_missing, e]
  simpa using hs

theorem endoLik_split {B : BN V S K} (hB : B.Valid) {E : List V} (hroot : ∀ U ∈ B.nodes, U ∉ E → B.parents U = [])
    (hone : ∀ v ∈ B.nodes, v ∈ E → ∀ p ∈ B.parents v, ∀ q ∈ B.parents v, p ∉ E → q ∉ E → p = q) (T : List V) (θ : V → S → K) (rows : List (Rec V S)) :
    endoLik (BN.withRoots B T θ) E rows =
      (rows.map fun r => ((B.nodes.filter fun v => v ∈ E ∧ ∀ p ∈ B.parents v, p ∈ E).map fun v => (BN.withRoots B T θ).table v r.asg).prod).prod *
      ((B.nodes.filter (· ∉ E)).map fun U => (rows.map fun r =>
        (BN.withRoots B T θ).compLik E U (fun u => (BN.withRoots B T θ).table U fun _ => u) r.asg).prod).prod := by
  rw [endoLik]
  rw [List.map_congr_left fun r _ => C61_decomposes (withRoots_valid hB T θ) E hroot hone r.asg]
  rw [List.prod_map_mul]
  congr 1
  exact prod_map_swap _ _ _

theorem GradModel.roots' {m : SCM II LL} {B : BN V S K} (h : GradModel m B) : ∀ U ∈ B.nodes, U ∉ m.endogenous → B.parents U = [] :=
  fun U h1 h2 => h.roots U ((mem_exogenous h.rep).2 ⟨h1, h2⟩)

theorem withRoots_compLik {m : SCM II LL} {B : BN V S K} {T : List V} (hTx : ∀ U ∈ T, U ∉ m.endogenous)
    (θ : V → S → K) (U : V) (η : S → K) (a : V → S) : (BN.withRoots B T θ).compLik m.endogenous U η a = B.compLik m.endogenous U η a := by
  unfold BN.compLik
  show ((B.states U).map fun u => η u * ((B.kids m.endogenous U).map fun v => (if v ∈ T then fun a => θ v (a v) else B.table v) (upd a U u)).prod).sum = _
  congr 1
  refine List.map_congr_left fun u _ => ?_
  congr 2
  refine List.map_congr_left fun v hv => ?_
  rw [if_neg fun hc => hTx v hc (Gradient.mem_kids.1 hv).2.1]

/-- **C83** the separate objectives and the likelihood of the model: if no trainable variable has a smaller objective with `η` than with `θ`,
then the records are at most as likely in the model with `η` as in the model with `θ`. Records have a state for each endogenous variable. -/
theorem C83_compare {φ : K →+* ℝ} (hφ : StrictMono φ) {m : SCM II LL} {B : BN V S K} (h : GradModel m B) {T : List V}
    (hTx : ∀ U ∈ T, U ∈ m.exogenous) {fr : Frame V S}
    (hr : ∀ r ∈ fr.rows, ∀ v ∈ B.nodes, v ∈ m.endogenous → ∃ s ∈ B.states v, Rec.val r v = some s) {θ η : V → S → K}
    (hθ : ∀ U ∈ T, IsDistr B U (θ U)) (hη : ∀ U ∈ T, IsDistr B U (η U))
    (hle : ∀ U ∈ T, ∀ x y, Gradient.objective (fun x => Real.log (φ x)) m U (EM.addMissing B.nodes fr) ((B.states U).map (θ U)) = .ok x →
      Gradient.objective (fun x => Real.log (φ x)) m U (EM.addMissing B.nodes fr) ((B.states U).map (η U)) = .ok y → FlLe x y) :
    endoLik (BN.withRoots B T η) m.endogenous fr.rows ≤ endoLik (BN.withRoots B T θ) m.endogenous fr.rows := by
  obtain ⟨a0, ha0⟩ := Gradient.exists_inStates h.valid
  have hTe : ∀ U ∈ T, U ∉ m.endogenous := fun U hU => ((mem_exogenous h.rep).1 (hTx U hU)).2
  have hval : ∀ r ∈ fr.rows, B.InStates fun w => if w ∈ m.endogenous then Rec.asg r w else a0 w := by
    intro r hrm v hv
    by_cases hvE : v ∈ m.endogenous
    · obtain ⟨s, hs, e⟩ := hr r hrm v hv hvE
      simp only [hvE, if_true, Rec.asg, e]
      exact hs
    · simp only [hvE, if_false]; exact ha0 v hv
  rw [endoLik_split h.valid h.roots' h.one, endoLik_split h.valid h.roots' h.one]
  have hR : ∀ θ : V → S → K, (fr.rows.map fun r => ((B.nodes.filter fun v => v ∈ m.endogenous ∧ ∀ p ∈ B.parents v, p ∈ m.endogenous).map fun v => (BN.withRoots B T θ).table v r.asg).prod).prod =
      (fr.rows.map fun r => ((B.nodes.filter fun v => v ∈ m.endogenous ∧ ∀ p ∈ B.parents v, p ∈ m.endogenous).map fun v => B.table v r.asg).prod).prod := by
    intro θ
    congr 1
    refine List.map_congr_left fun r _ => ?_
    congr 1
    refine List.map_congr_left fun v hv => ?_
    show (if v ∈ T then fun a => θ v (a v) else B.table v) _ = _
    rw [if_neg fun hc => hTe v hc (of_decide_eq_true (List.mem_filter.1 hv).2).1]
  rw [hR, hR]
  simp only [withRoots_compLik hTe]
  -- the tables, as numbers of the states
  have htab : ∀ (θ : V → S → K) (U : V), (fun u => (BN.withRoots B T θ).table U fun _ => u) = if U ∈ T then θ U else fun u => B.table U fun _ => u := by
    intro θ U
    funext u
    show (if U ∈ T then fun a => θ U (a U) else B.table U) _ = _
    by_cases hU : U ∈ T
    · simp [hU]
    · simp [hU]
  simp only [htab]
  have hnnt : ∀ U, U ∈ B.nodes → U ∉ m.endogenous → ∀ u ∈ B.states U, 0 ≤ B.table U fun _ => u := by
    intro U h1 h2 u hu
    have hp := h.roots U ((mem_exogenous h.rep).2 ⟨h1, h2⟩)
    have e : (B.table U fun _ => u) = B.table U (upd a0 U u) := h.valid.scope U h1 _ _ fun w hw => by
      rw [hp] at hw
      rw [List.mem_singleton.1 hw, upd_same]
    rw [e]
    refine h.nonneg U h1 _ fun w hw => ?_
    by_cases hwU : w = U
    · subst hwU; rw [upd_same]; exact hu
    · rw [upd_ne _ _ hwU]; exact ha0 w hw
  have hcl : ∀ (θ : V → S → K), (∀ U ∈ T, IsDistr B U (θ U)) → ∀ U, U ∈ B.nodes → U ∉ m.endogenous → ∀ r ∈ fr.rows,
      0 ≤ B.compLik m.endogenous U (if U ∈ T then θ U else fun u => B.table U fun _ => u) r.asg := by
    intro θ hθ U h1 h2 r hrm
    have hs := h.single ((mem_exogenous h.rep).2 ⟨h1, h2⟩)
    have hpos : ∀ u ∈ B.states U, 0 ≤ (if U ∈ T then θ U else fun u => B.table U fun _ => u) u := by
      intro u hu
      by_cases hU : U ∈ T
      · rw [if_pos hU]; exact (hθ U hU).1 u hu
      · rw [if_neg hU]; exact hnnt U h1 h2 u hu
    rw [Gradient.compLik_congr h.valid hs (b := fun w => if w ∈ m.endogenous then Rec.asg r w else a0 w) fun w hw => ?_]
    · exact compLik_nonneg h.rep hpos (hval r hrm)
    · have : w ∈ m.endogenous := by
        rcases of_decide_eq_true (List.mem_filter.1 hw).2 with h2 | h2
        · exact (Gradient.mem_kids.1 h2).2.1
        · exact h2.1
      simp [this]
  refine mul_le_mul_of_nonneg_left (prod_map_le ?_ ?_) ?_
  · intro U hU
    obtain ⟨h1, h2⟩ := List.mem_filter.1 hU
    refine List.prod_nonneg fun x hx => ?_
    obtain ⟨r, hrm, rfl⟩ := List.mem_map.1 hx
    exact hcl η hη U h1 (by simpa using h2) r hrm
  · intro U hU
    obtain ⟨h1, h2⟩ := List.mem_filter.1 hU
    by_cases hUT : U ∈ T
    · simp only [if_pos hUT]
      by_cases hk : B.kids m.endogenous U = []
      · have e : ∀ θ : S → K, ∀ a, B.compLik m.endogenous U θ a = ((B.states U).map θ).sum := by
          intro θ a
          rw [BN.compLik, hk]; simp
        simp only [e]
        rw [(hθ U hUT).2, (hη U hUT).2]
      · obtain ⟨x, y, e1, e2, e3⟩ := C61_order hφ h.rep h.valid h.doms (h.single (hTx U hUT)) hk (fr := EM.addMissing B.nodes fr)
          (fun v hv => cols_addMissing _ _ (List.mem_filter.1 hv).1) (hθ U hUT).1 (hη U hUT).1
        have := e3.1 (hle U hUT x y e1 e2)
        rw [within_of_complete hr] at this
        simp only [EM.addMissing, List.map_map, Function.comp_def, asg_missing] at this
        exact this
    · simp only [if_neg hUT]; exact le_refl _
  · refine List.prod_nonneg fun x hx => ?_
    obtain ⟨r, hrm, rfl⟩ := List.mem_map.1 hx
    refine List.prod_nonneg fun x hx => ?_
    obtain ⟨v, hv, rfl⟩ := List.mem_map.1 hx
    obtain ⟨h1, h2⟩ := List.mem_filter.1 hv
    obtain ⟨h2, h3⟩ := of_decide_eq_true h2
    rw [h.valid.scope v h1 _ (fun w => if w ∈ m.endogenous then Rec.asg r w else a0 w) fun w hw => ?_]
    · exact h.nonneg v h1 _ (hval r hrm)
    · have : w ∈ m.endogenous := by
        rcases List.mem_cons.1 hw with rfl | hw
        · exact h2
        · exact h3 w hw
      simp [this]

theorem withRoots_self {B : BN V S K} (hB : B.Valid) {T : List V} (hT : ∀ U ∈ T, U ∈ B.nodes ∧ B.parents U = []) :
    BN.withRoots B T (fun U u => B.table U fun _ => u) = B := by
  have : (BN.withRoots B T fun U u => B.table U fun _ => u).table = B.table := by
    funext U a
    show (if U ∈ T then fun a => B.table U fun _ => a U else B.table U) a = _
    by_cases hU : U ∈ T
    · rw [if_pos hU]
      refine hB.scope U (hT U hU).1 _ _ fun w hw => ?_
      rw [(hT U hU).2] at hw
      rw [List.mem_singleton.1 hw]
    · rw [if_neg hU]
  exact congrArg (fun t => ({ B with table := t } : BN V S K)) this

theorem isDistr_start {B : BN V S K} (hB : B.Valid) (hn : B.Normalised) (hnn : B.NonNeg) {U : V} (hU : U ∈ B.nodes) (hp : B.parents U = []) :
    IsDistr B U fun u => B.table U fun _ => u := by
  obtain ⟨a0, ha0⟩ := Gradient.exists_inStates hB
  have e : ∀ u, (B.table U fun _ => u) = B.table U (upd a0 U u) := fun u => hB.scope U hU _ _ fun w hw => by
    rw [hp] at hw
    rw [List.mem_singleton.1 hw, upd_same]
  refine ⟨fun u hu => ?_, ?_⟩
  · show 0 ≤ B.table U fun _ => u
    rw [e]
    refine hnn U hU _ fun w hw => ?_
    by_cases hwU : w = U
    · subst hwU; rw [upd_same]; exact hu
    · rw [upd_ne _ _ hwU]; exact ha0 w hw
  · simp only [e]
    exact hn U hU a0 ha0

/-- What `run` is given: trainable exogenous variables without values in the data, records with a state for each endogenous variable, and
names that are not parts of one another -/
structure GradData (m : SCM II LL) (B : BN V S K) (T : List V) (fr : Frame V S) (sub : V → V → Bool) : Prop where
  ne : T ≠ []
  nodup : T.Nodup
  exo : ∀ U ∈ T, U ∈ m.exogenous
  missing : ∀ U ∈ T, ∀ r ∈ fr.rows, Rec.val r U = none
  complete : ∀ r ∈ fr.rows, ∀ v ∈ B.nodes, v ∈ m.endogenous → ∃ s ∈ B.states v, Rec.val r v = some s
  names : ∀ U ∈ T, ∀ v ∈ B.nodes, sub v U = true ↔ v = U

/-- The network differs from `B` in the distributions of `T` only. -/
structure Other (B : BN V S K) (T : List V) (B' : BN V S K) : Prop where
  valid : B'.Valid
  norm : B'.Normalised
  nonneg : B'.NonNeg
  nodes : B'.nodes = B.nodes
  parents : B'.parents = B.parents
  states : B'.states = B.states
  tables : ∀ v ∈ B.nodes, v ∉ T → B'.table v = B.table v

theorem Other.withRoots {B B' : BN V S K} {T : List V} (h : Other B T B') (hT : ∀ U ∈ T, U ∈ B.nodes ∧ B.parents U = []) (E : List V) (rows : List (Rec V S)) :
    (∀ U ∈ T, IsDistr B U fun u => B'.table U fun _ => u) ∧ endoLik B' E rows = endoLik (BN.withRoots B T fun U u => B'.table U fun _ => u) E rows := by
  refine ⟨fun U hU => ?_, ?_⟩
  · have := isDistr_start h.valid h.norm h.nonneg (h.nodes ▸ (hT U hU).1) (by rw [h.parents]; exact (hT U hU).2)
    rw [IsDistr, h.states] at this
    exact this
  · have hj : B'.joint = (BN.withRoots B T fun U u => B'.table U fun _ => u).joint := by
      funext a
      rw [BN.joint, BN.joint, h.nodes]
      show _ = (B.nodes.map _).prod
      congr 1
      refine List.map_congr_left fun v hv => ?_
      show _ = (if v ∈ T then fun a => B'.table v fun _ => a v else B.table v) a
      by_cases hvT : v ∈ T
      · rw [if_pos hvT]
        refine h.valid.scope v (h.nodes.symm ▸ hv) _ _ fun w hw => ?_
        rw [h.parents, (hT v hvT).2] at hw
        rw [List.mem_singleton.1 hw]
      · rw [if_neg hvT, h.tables v hv hvT]
    unfold endoLik BN.marg
    rw [hj, h.nodes, h.states]
    rfl

/-- **C83** maximum likelihood: if the optimiser finds, for each trainable variable, a distribution with the least objective, then the model of
the object keeps the equations, its tables are distributions, and no model that differs in these distributions makes the records more likely. -/
theorem C83_maximum {φ : K →+* ℝ} (hφ : StrictMono φ) {m : SCM II LL} {B : BN V S K} (h : GradModel m B) {T : List V} {fr : Frame V S}
    {sub : V → V → Bool} (hd : GradData m B T fr sub)
    {opt : Option Nat → List (Fl K) → (List K → Py (Fl ℝ)) → List K} {max : Option Nat} {θ : V → S → K}
    (hopt : ∀ U ∈ T, opt max ((B.states U).map fun u => .fin (B.table U fun _ => u))
      (Gradient.objective (fun x => Real.log (φ x)) m U (EM.addMissing B.nodes fr)) = (B.states U).map (θ U))
    (hθ : ∀ U ∈ T, IsDistr B U (θ U))
    (hmin : ∀ U ∈ T, ∀ η, IsDistr B U η → ∀ x y,
      Gradient.objective (fun x => Real.log (φ x)) m U (EM.addMissing B.nodes fr) ((B.states U).map (θ U)) = .ok x →
      Gradient.objective (fun x => Real.log (φ x)) m U (EM.addMissing B.nodes fr) ((B.states U).map η) = .ok y → FlLe x y) :
    ∃ o m' B', (GradObj.new m (some T)).run (fun x => Real.log (φ x)) sub opt fr max = .ok o ∧ o.model = some m' ∧
      o.data = some (EM.addMissing B.nodes fr) ∧ Refit m B m' B' ∧ m'.Multi ∧ Other B T B' ∧
      ∀ B'', Other B T B'' → endoLik B'' m.endogenous fr.rows ≤ endoLik B' m.endogenous fr.rows := by
  obtain ⟨o, m', r1, r2, r3, _, r5, r6, r7, r8, r9, r10, _⟩ := C83_run _ h hd.ne hd.nodup hd.exo hd.missing hd.names hopt
  have hTe : ∀ U ∈ T, U ∉ m.endogenous := fun U hU => ((mem_exogenous h.rep).1 (hd.exo U hU)).2
  have hoth : Other B T (BN.withRoots B T θ) := ⟨r6, withRoots_norm h.norm hθ, withRoots_nonneg h.nonneg hθ, rfl, rfl, rfl, fun v _ hv => if_neg hv⟩
  refine ⟨o, m', _, r1, r2, r3, ⟨r5, r6, hoth.norm, hoth.nonneg, rfl, rfl, rfl, fun v hv _ => if_neg fun hc => hTe v hc hv, r8, r9,
    fun v hv hvn => r10 v hvn fun hc => hTe v hc hv⟩, r7, hoth, fun B'' h'' => ?_⟩
  obtain ⟨k1, k2⟩ := h''.withRoots (fun U hU => ⟨((mem_exogenous h.rep).1 (hd.exo U hU)).1, h.roots U (hd.exo U hU)⟩) m.endogenous fr.rows
  rw [k2]
  exact C83_compare hφ h hd.exo hd.complete hθ k1 fun U hU x y => hmin U hU _ (k1 U hU) x y

/-- **C83** no loss: if the optimiser returns distributions and does not increase the objective of any trainable variable, the records are at
least as likely in the new model as in the old one. -/
theorem C83_improves {φ : K →+* ℝ} (hφ : StrictMono φ) {m : SCM II LL} {B : BN V S K} (h : GradModel m B) {T : List V} {fr : Frame V S}
    {sub : V → V → Bool} (hd : GradData m B T fr sub)
    {opt : Option Nat → List (Fl K) → (List K → Py (Fl ℝ)) → List K} {max : Option Nat} {θ : V → S → K}
    (hopt : ∀ U ∈ T, opt max ((B.states U).map fun u => .fin (B.table U fun _ => u))
      (Gradient.objective (fun x => Real.log (φ x)) m U (EM.addMissing B.nodes fr)) = (B.states U).map (θ U))
    (hθ : ∀ U ∈ T, IsDistr B U (θ U))
    (hle : ∀ U ∈ T, ∀ x y,
      Gradient.objective (fun x => Real.log (φ x)) m U (EM.addMissing B.nodes fr) ((B.states U).map (θ U)) = .ok x →
      Gradient.objective (fun x => Real.log (φ x)) m U (EM.addMissing B.nodes fr) ((B.states U).map fun u => B.table U fun _ => u) = .ok y → FlLe x y) :
    ∃ o m' B', (GradObj.new m (some T)).run (fun x => Real.log (φ x)) sub opt fr max = .ok o ∧ o.model = some m' ∧ Refit m B m' B' ∧ Other B T B' ∧
      endoLik B m.endogenous fr.rows ≤ endoLik B' m.endogenous fr.rows := by
  obtain ⟨o, m', r1, r2, _, _, r5, r6, r7, r8, r9, r10, _⟩ := C83_run _ h hd.ne hd.nodup hd.exo hd.missing hd.names hopt
  have hTe : ∀ U ∈ T, U ∉ m.endogenous := fun U hU => ((mem_exogenous h.rep).1 (hd.exo U hU)).2
  have hroot : ∀ U ∈ T, U ∈ B.nodes ∧ B.parents U = [] := fun U hU => ⟨((mem_exogenous h.rep).1 (hd.exo U hU)).1, h.roots U (hd.exo U hU)⟩
  have hoth : Other B T (BN.withRoots B T θ) := ⟨r6, withRoots_norm h.norm hθ, withRoots_nonneg h.nonneg hθ, rfl, rfl, rfl, fun v _ hv => if_neg hv⟩
  refine ⟨o, m', _, r1, r2, ⟨r5, r6, hoth.norm, hoth.nonneg, rfl, rfl, rfl, fun v hv _ => if_neg fun hc => hTe v hc hv, r8, r9,
    fun v hv hvn => r10 v hvn fun hc => hTe v hc hv⟩, hoth, ?_⟩
  have := C83_compare hφ h hd.exo hd.complete hθ (η := fun U u => B.table U fun _ => u) (fun U hU => isDistr_start h.valid h.norm h.nonneg (hroot U hU).1 (hroot U hU).2) hle
  rwa [withRoots_self h.valid hroot] at this

end Props
end Verif
