import Verif.Props.ExScm
import Verif.Model.Relabel

/-!
# Properties of models

Each theorem is about any model object `m` that represents a network `B` (`SCM.Rep`): the graph of `m` is that of `B`, its
factors (of either class, in any of the four stores) are the tables of `B`, and those of endogenous variables are zero-one.
`SCM.rep_built` shows that the constructor yields such objects.
-/

set_option linter.unusedSectionVars false
set_option linter.unusedSimpArgs false

namespace Verif.Props
open Verif

variable {V S K : Type} [DecidableEq V] [DecidableEq S] [Inhabited S] [Field K] [LinearOrder K] {vt : VType}

local notation "II" => (storeOf vt : StoreImpl V S (Fl K))
local notation "LL" => (labelStoreOf vt : LabelStore V S)

/-- The model of `rowsScm`. -/
def exScm (vt : VType) (endo : Option (List PyStr)) (cast : Bool) : Py (SCM (IS vt PyStr) (LS vt PyStr)) := do
  let l ← facsOf vt rowsScm
  SCM.ofList gScm (l.map fun p => some p.2) endo cast true

/-- The example model, with its equations as they are or cast to tables. -/
theorem ex_model (vt : VType) (cast : Bool) : ∃ (m : SCM (IS vt PyStr) (LS vt PyStr)) (B : BN PyStr Char ℚ),
    exScm vt none cast = .ok m ∧ m.Rep B ∧ B.Valid ∧ B.Normalised ∧ B.NonNeg ∧ m.endogenous = [sX, sY, sZ] ∧ m.base.graph = gScm := by
  obtain ⟨l, B, h⟩ := ex_scm vt
  obtain ⟨m, h1, h2, h3, _, h5⟩ := h.model (e := none) (by decide) cast
  exact ⟨m, B, by rw [exScm, h.facs]; exact h1, h2, h.valid, h.norm, h.nonneg, h3, h5⟩

/-! ### C31 -/

/-- **C31** the intervened model has the graph without the edges into the intervened variables, the same classification
of variables, and represents a network whose joint distribution is the truncated factorisation. -/
theorem C31_intervention {m : SCM II LL} {B : BN V S K} (h : m.Rep B) (hB : B.Valid) {d : Obs V S}
    (hn : ∀ v ∈ Dict.keys d, v ∈ B.nodes) (hd : ∀ v s, Dict.get? d v = some s → v ∈ B.nodes → s ∈ B.states v) :
    ∃ m', m.intervention d = .ok m' ∧ m'.base.graph.nodes = m.base.graph.nodes ∧
      m'.base.graph.edges = m.base.graph.edges.filter (fun e => e.2 ∉ Dict.keys d) ∧ m'.endogenous = m.endogenous ∧
      m'.cast = m.cast ∧ ∃ B' : BN V S K, m'.Rep B' ∧ B'.Valid ∧ B'.states = B.states ∧ B'.nodes = B.nodes ∧
        (∀ a, B'.joint a = B.doJoint d a) ∧ (B.Normalised → B'.Normalised) := by
  obtain ⟨l, hl, hk, ht⟩ := h.facs hB
  obtain ⟨e1, e2⟩ := h.interv hB hl hk ht hd
  exact ⟨_, e1, rfl, rfl, rfl, rfl, B.doBN d, e2, hB.doBN d, rfl, rfl, BN.doBN_joint hn, fun h => BN.Normalised.doBN hB h hd⟩

/-- The factors of the other variables are kept as they are. -/
theorem C31_other_factors {m m' : SCM II LL} {B : BN V S K} (h : m.Rep B) (hB : B.Valid) {d : Obs V S}
    (hd : ∀ v s, Dict.get? d v = some s → v ∈ B.nodes → s ∈ B.states v) (hm : m.intervention d = .ok m') {v : V}
    (hv : v ∈ B.nodes) (hvd : v ∉ Dict.keys d) : Dict.get? m'.base.factors v = Dict.get? m.base.factors v := by
  obtain ⟨l, hl, hk, ht⟩ := h.facs hB
  obtain ⟨e1, _⟩ := h.interv hB hl hk ht hd
  rw [e1] at hm
  injection hm with hm
  subst hm
  obtain ⟨f, hf⟩ := Dict.mem_keys.1 (show v ∈ Dict.keys l by rw [hk]; exact hv)
  have h1 : Dict.get? m.base.factors v = some (some f) := h.get_of_mem hB hl hk hf
  rw [h1]
  show Dict.get? (m.base.graph.nodes.map fun w => (w, Dict.get? (l.map fun p => (p.1, SCM.doFac d p)) w)) v = _
  rw [Dict.get?_map, if_pos (by rw [h.nodes]; exact hv)]
  have : SCM.doFac d (v, f) = f := by
    simp only [SCM.doFac, Dict.get?_eq_none.2 hvd]
  have hm : (v, f) ∈ l.map fun p => (p.1, SCM.doFac d p) := List.mem_map.2 ⟨(v, f), hf, by rw [this]⟩
  rw [Dict.get?_of_mem (by
    have : Dict.keys (l.map fun p => (p.1, SCM.doFac d p)) = Dict.keys l := by simp [Dict.keys, List.map_map, Function.comp_def]
    rw [this, hk]; exact hB.nodes) hm]

/-- An intervention that fixes two of the variables, one of them exogenous. -/
example (vt : VType) (cast : Bool) : ∃ (m : SCM (IS vt PyStr) (LS vt PyStr)) (B : BN PyStr Char ℚ), m.Rep B ∧ B.Valid ∧
    (∀ v ∈ Dict.keys [(sY, '1'), (sU, '2')], v ∈ B.nodes) := by
  obtain ⟨m, B, _, h2, h3, _, _, _, h7⟩ := ex_model vt cast
  exact ⟨m, B, h2, h3, by rw [← h2.nodes, h7]; decide⟩

/-- The tables after an intervention, computed. -/
theorem C31_example (vt : VType) (cast : Bool) :
    (do let m ← exScm vt none cast
        let m' ← m.intervention [(sY, '1')]
        return (m'.base.graph.edges, m'.endogenous)) =
      .ok ([(sU, sX), (sY, sZ), (sU, sZ)], [sX, sY, sZ]) := by
  cases vt <;> cases cast <;> decide +kernel

/-! ### C32 -/

/-- Interventions are determined by the values they give to the nodes. -/
theorem intervention_congr {m : SCM II LL} {B : BN V S K} (h : m.Rep B) {a b : Obs V S}
    (hab : ∀ v ∈ B.nodes, Dict.get? a v = Dict.get? b v) : m.intervention a = m.intervention b := by
  have hg : m.base.graph.removeIngoing (Dict.keys a) = m.base.graph.removeIngoing (Dict.keys b) := by
    rw [DiGraph.removeIngoing, DiGraph.removeIngoing]
    congr 1
    refine List.filter_congr fun e he => ?_
    have he2 : e.2 ∈ B.nodes := by rw [← h.nodes]; exact (h.wf.ends _ he).2
    have : e.2 ∈ Dict.keys a ↔ e.2 ∈ Dict.keys b := by
      rw [← Dict.get?_isSome, ← Dict.get?_isSome, hab _ he2]
    simp only [this]
  have hm : m.base.factors.mapM (SCM.doFactor a) = m.base.factors.mapM (SCM.doFactor b) := by
    have : ∀ l : List (V × Option (AnyFactor II LL)), (∀ p ∈ l, p.1 ∈ B.nodes) → l.mapM (SCM.doFactor a) = l.mapM (SCM.doFactor b) := by
      intro l
      induction l with
      | nil => intro _; rfl
      | cons p l ih =>
        intro hl
        rw [List.mapM_cons, List.mapM_cons, ih fun q hq => hl q (List.mem_cons_of_mem _ hq)]
        have : SCM.doFactor a p = SCM.doFactor b p := by
          simp only [SCM.doFactor, hab p.1 (hl p List.mem_cons_self)]
        rw [this]
    refine this _ fun p hp => ?_
    rw [← h.nodes, ← h.keys]; exact Dict.mem_keys_of_mem hp
  rw [SCM.intervention, SCM.intervention, hg, hm]

/-- **C32** two interventions in a row are the simultaneous one, with the values of the second for variables in both. -/
theorem C32_compose {m : SCM II LL} {B : BN V S K} (h : m.Rep B) (hB : B.Valid) {a b : Obs V S}
    (ha : ∀ v s, Dict.get? a v = some s → v ∈ B.nodes → s ∈ B.states v)
    (hb : ∀ v s, Dict.get? b v = some s → v ∈ B.nodes → s ∈ B.states v) :
    (do let m' ← m.intervention a; m'.intervention b) = m.intervention (Dict.merge a b) :=
  h.interv_interv hB ha hb

/-- **C32** interventions on disjoint sets of variables commute. -/
theorem C32_commute {m : SCM II LL} {B : BN V S K} (h : m.Rep B) (hB : B.Valid) {a b : Obs V S}
    (ha : ∀ v s, Dict.get? a v = some s → v ∈ B.nodes → s ∈ B.states v)
    (hb : ∀ v s, Dict.get? b v = some s → v ∈ B.nodes → s ∈ B.states v) (hab : ∀ v ∈ Dict.keys a, v ∉ Dict.keys b) :
    (do let m' ← m.intervention a; m'.intervention b) = (do let m' ← m.intervention b; m'.intervention a) := by
  rw [h.interv_interv hB ha hb, h.interv_interv hB hb ha]
  refine intervention_congr h fun v _ => ?_
  rw [Dict.get?_merge, Dict.get?_merge]
  cases h1 : Dict.get? a v with
  | none => cases Dict.get? b v <;> rfl
  | some s =>
    have : v ∈ Dict.keys a := Dict.get?_isSome.1 (by rw [h1]; rfl)
    rw [Dict.get?_eq_none.2 (hab v this)]; rfl

/-- **C32** repeating an intervention gives the same object. -/
theorem C32_idempotent {m m' : SCM II LL} {B : BN V S K} (h : m.Rep B) (hB : B.Valid) {a : Obs V S}
    (ha : ∀ v s, Dict.get? a v = some s → v ∈ B.nodes → s ∈ B.states v) (hm : m.intervention a = .ok m') :
    m'.intervention a = .ok m' := by
  have := h.interv_interv hB ha ha
  rw [hm] at this
  refine Eq.trans this (Eq.trans (intervention_congr h fun v _ => ?_) hm)
  rw [Dict.get?_merge]
  cases Dict.get? a v <;> rfl

/-- Names outside the model are ignored. -/
theorem C31_unknown_ignored {m : SCM II LL} {B : BN V S K} (h : m.Rep B) (d : Obs V S) :
    m.intervention d = m.intervention (d.filter fun p => p.1 ∈ B.nodes) :=
  intervention_congr h fun v hv => by
    rw [Dict.get?_filter_key d (fun v => v ∈ B.nodes), if_pos (by simpa using hv)]

/-- Two interventions with a common variable, on the example model. -/
example (vt : VType) (cast : Bool) : ∃ (m : SCM (IS vt PyStr) (LS vt PyStr)) (B : BN PyStr Char ℚ) (m' : _), m.Rep B ∧ B.Valid ∧
    m.intervention [(sY, '1'), (sX, '0')] = .ok m' ∧ m'.base.graph.edges = [(sY, sZ), (sU, sZ)] := by
  obtain ⟨m, B, h1, h2, h3, _⟩ := ex_model vt cast
  have hc : (do let m ← exScm vt none cast
                let m' ← m.intervention [(sY, '1'), (sX, '0')]
                return m'.base.graph.edges) = .ok [(sY, sZ), (sU, sZ)] := by
    cases vt <;> cases cast <;> decide +kernel
  rw [h1] at hc
  simp only [py_ok_bind] at hc
  cases hm : m.intervention [(sY, '1'), (sX, '0')] with
  | error e => rw [hm] at hc; cases hc
  | ok m' =>
    rw [hm] at hc
    injection hc with hc
    exact ⟨m, B, m', h2, h3, hm, hc⟩

/-! ### C33 -/

/-- **C33** (partial) when every variable with parents has a zero-one table, `to_multinomial` keeps the graph and the
network (hence the joint distribution), and casts the equations of variables with parents. Missing: the classification of
the variables is kept only if the endogenous ones are those with parents (`C33_roles_lost`), and deterministic factors
of root variables stay deterministic (`C33_root_not_cast`). -/
theorem C33_to_multinomial_partial {m : SCM II LL} {B : BN V S K} (h : m.Rep B) (hB : B.Valid)
    (heq : ∀ v ∈ B.nodes, B.parents v ≠ [] → ∀ a, B.InStates a → B.table v a = 0 ∨ B.table v a = 1) :
    ∃ m', m.toMultinomial = .ok m' ∧ m'.Rep B ∧ m'.base.graph = m.base.graph ∧
      (∀ v, v ∈ m'.endogenous ↔ ∃ p, (p, v) ∈ m.base.graph.edges) ∧
      ((∀ v, v ∈ m.endogenous ↔ ∃ p, (p, v) ∈ m.base.graph.edges) → (∀ v, v ∈ m'.endogenous ↔ v ∈ m.endogenous) ∧
        m'.exogenous = m.exogenous) ∧
      ∀ v f', Dict.get? m'.base.factors v = some (some f') → (B.parents v ≠ [] → f'.isDet = false) ∧
        (B.parents v = [] → Dict.get? m.base.factors v = some (some f')) := by
  obtain ⟨m', h1, h2, h3, h4, h5, h6⟩ := h.toMultinomial hB heq
  have hm : ∀ v, v ∈ m'.endogenous ↔ ∃ p, (p, v) ∈ m.base.graph.edges := fun v => by
    rw [h4]; exact SCM.mem_defaultEndo h.wf
  refine ⟨m', h1, h2, h3, hm, fun hme => ⟨fun v => (hm v).trans (hme v).symm, ?_⟩, h6⟩
  rw [SCM.exogenous, SCM.exogenous, h3]
  refine List.filter_congr fun v _ => ?_
  have : v ∈ m'.endogenous ↔ v ∈ m.endogenous := (hm v).trans (hme v).symm
  simp only [this]

/-- **C33** (partial) `to_bnet` keeps the graph and the network when the variables with parents are endogenous and no root
has a deterministic factor. -/
theorem C33_to_bnet_partial {m : SCM II LL} {B : BN V S K} (h : m.Rep B) (hB : B.Valid)
    (hend : ∀ v ∈ B.nodes, B.parents v ≠ [] → v ∈ m.endogenous) (hsub : ∀ v ∈ m.endogenous, v ∈ B.nodes)
    (hroot : ∀ v f, B.parents v = [] → Dict.get? m.base.factors v = some (some f) → f.isDet = false) :
    ∃ b, m.toBnet = .ok b ∧ b.graph = m.base.graph ∧ Represents (I := II) b B :=
  h.toBnet hB (fun v hv hp => h.equations v (hend v hv hp) hv) hend hsub hroot

example (vt : VType) (cast : Bool) : ∃ (m : SCM (IS vt PyStr) (LS vt PyStr)) (B : BN PyStr Char ℚ), m.Rep B ∧ B.Valid ∧
    (∀ v ∈ B.nodes, B.parents v ≠ [] → v ∈ m.endogenous) ∧ (∀ v ∈ m.endogenous, v ∈ B.nodes) := by
  obtain ⟨m, B, _, h2, h3, _, _, h6, h7⟩ := ex_model vt cast
  refine ⟨m, B, h2, h3, fun v hv hp => ?_, fun v hv => ?_⟩
  · obtain ⟨p, hp⟩ := List.exists_mem_of_ne_nil _ hp
    have := (h2.parents v hv p).1 hp
    rw [h7] at this
    rw [h6]
    have hall : ∀ e ∈ gScm.edges, e.2 ∈ [sX, sY, sZ] := by decide
    exact hall _ this
  · rw [h6] at hv
    rw [← h2.nodes, h7]
    have hall : ∀ v ∈ [sX, sY, sZ], v ∈ gScm.nodes := by decide
    exact hall v hv

/-- **C33** (violation) the classification of the variables is lost: an intervened variable, which has no parents any more,
is exogenous after `to_multinomial`. -/
theorem C33_roles_lost (vt : VType) (cast : Bool) :
    (do let m ← exScm vt none cast
        let m ← m.intervention [(sY, '1')]
        let m' ← m.toMultinomial
        return (m.exogenous, m'.exogenous)) = .ok ([sU, sW], [sU, sW, sY]) := by
  cases vt <;> cases cast <;> decide +kernel

/-- A root that is endogenous because the user said so. -/
def rowsRoot : List (SRow PyStr) :=
  [.fn [(sX, ['0', '1'])] ['1'] sX, .num [(sU, ['0', '1'])] [q (1/4), q (3/4)] sU,
   .fn [(sY, ['0', '1']), (sX, ['0', '1']), (sU, ['0', '1'])] ['0', '1', '1', '0'] sY]

def exRoot (vt : VType) (endo : Option (List PyStr)) (cast : Bool) : Py (SCM (IS vt PyStr) (LS vt PyStr)) := do
  let l ← facsOf vt rowsRoot
  SCM.ofList ⟨[sX, sU, sY], [(sX, sY), (sU, sY)]⟩ (l.map fun p => some p.2) endo cast true

/-- **C33** (violation) the classification given to the constructor is lost. -/
theorem C33_explicit_roles_lost (vt : VType) (cast : Bool) :
    (do let m ← exRoot vt (some [sX, sY]) cast
        let m' ← m.toMultinomial
        return (m.exogenous, m'.exogenous)) = .ok ([sU], [sX, sU]) := by
  cases vt <;> cases cast <;> decide +kernel

/-- **C33** (violation) deterministic factors of variables without parents are not converted: after an intervention the
"multinomial" model still has one. -/
theorem C33_root_not_cast (vt : VType) :
    (do let m ← exScm vt none false
        let m ← m.intervention [(sY, '1')]
        let m' ← m.toMultinomial
        return (m'.base.factors.map fun p : _ × _ => (p.1, SCM.slotDet p.2))) =
      .ok [(sU, false), (sW, false), (sX, false), (sY, true), (sZ, false)] := by
  cases vt <;> decide +kernel

/-- A variable with parents that is exogenous because the user said so. -/
def exParents (vt : VType) : Py (SCM (IS vt PyStr) (LS vt PyStr)) := do
  let l ← facsOf vt [.num [(sU, ['0', '1'])] [q (1/4), q (3/4)] sU,
    .num [(sW, ['0', '1']), (sU, ['0', '1'])] [q (1/2), q (1/3), q (1/2), q (2/3)] sW,
    .fn [(sX, ['0', '1']), (sW, ['0', '1'])] ['0', '1'] sX]
  SCM.ofList ⟨[sU, sW, sX], [(sU, sW), (sW, sX)]⟩ (l.map fun p => some p.2) (some [sX]) false true

/-- **C33** (violation) `to_multinomial` and `to_bnet` fail for a variable with parents that the user declared exogenous. -/
theorem C33_exogenous_with_parents (vt : VType) :
    (do let m ← exParents vt
        return (m.toMultinomial.map (fun _ => ()), m.toBnet.map (fun _ => ()))) =
      .ok (.error .valueError, .error .valueError) := by
  cases vt <;> decide +kernel

/-! ### C34 -/

/-- The name given to `v` by a mapping: names that are not mapped stay. -/
def newName (mapping : List (V × V)) (v : V) : V := (Dict.get? mapping v).getD v

theorem newName_eq (mapping : List (V × V)) : newName mapping = Factor.renameOne mapping := by
  funext v; rw [newName, Factor.renameOne]

/-- **C34** renaming the variables of a causal model with a mapping that is injective on its variables, and mentions the
endogenous ones, gives the renamed graph and classification, and the joint distribution read through the new names. -/
theorem C34_rename_causal {m : SCM II LL} {B : BN V S K} (h : m.Rep B) (hB : B.Valid) {mapping : List (V × V)}
    (hinj : ∀ v ∈ B.nodes, ∀ w ∈ B.nodes, newName mapping v = newName mapping w → v = w)
    (hend : ∀ v ∈ m.endogenous, v ∈ Dict.keys mapping ∧ v ∈ B.nodes) :
    ∃ m', m.renameVars mapping = .ok m' ∧ m'.base.graph.nodes = m.base.graph.nodes.map (newName mapping) ∧
      m'.base.graph.edges = m.base.graph.edges.map (fun e => (newName mapping e.1, newName mapping e.2)) ∧
      m'.endogenous = m.endogenous.map (newName mapping) ∧ m'.cast = m.cast ∧
      ∃ B' : BN V S K, m'.Rep B' ∧ B'.Valid ∧ B'.nodes = B.nodes.map (newName mapping) ∧
        (∀ v ∈ B.nodes, B'.states (newName mapping v) = B.states v) ∧
        (∀ a, B'.joint a = B.joint fun v => a (newName mapping v)) ∧ (B.Normalised → B'.Normalised) := by
  rw [newName_eq] at *
  obtain ⟨m', h1, h2, h3, h4, h5, _⟩ := h.renameVars hB hinj hend
  exact ⟨m', h1, by rw [h3], by rw [h3], h4, h5, B.relabel _, h2, hB.relabel hinj, rfl,
    fun v hv => BN.relabel_states hinj hv, BN.relabel_joint hinj, fun h => BN.Normalised.relabel hB h hinj⟩

/-- **C34** the same for Bayesian networks, where variables that are not mentioned keep their name. -/
theorem C34_rename_bnet {m : DagModel (AnyFactor II LL) V S} {B : BN V S K} (h : Represents (I := II) m B) (hB : B.Valid)
    {mapping : List (V × V)} (hinj : ∀ v ∈ B.nodes, ∀ w ∈ B.nodes, newName mapping v = newName mapping w → v = w) :
    ∃ m', m.renameVars mapping = .ok m' ∧ m'.graph.nodes = m.graph.nodes.map (newName mapping) ∧
      m'.graph.edges = m.graph.edges.map (fun e => (newName mapping e.1, newName mapping e.2)) ∧
      ∃ B' : BN V S K, Represents (I := II) m' B' ∧ B'.Valid ∧ B'.nodes = B.nodes.map (newName mapping) ∧
        (∀ v ∈ B.nodes, B'.states (newName mapping v) = B.states v) ∧
        (∀ a, B'.joint a = B.joint fun v => a (newName mapping v)) ∧ (B.Normalised → B'.Normalised) := by
  rw [newName_eq] at *
  obtain ⟨m', h1, h2, h3⟩ := h.renameVars hB hinj
  exact ⟨m', h1, by rw [h3], by rw [h3], B.relabel _, h2, hB.relabel hinj, rfl,
    fun v hv => BN.relabel_states hinj hv, BN.relabel_joint hinj, fun h => BN.Normalised.relabel hB h hinj⟩

/-- `X` and `Z` swap their names, `Y` keeps its own. -/
def exNames : List (PyStr × PyStr) := [(sX, sZ), (sY, sY), (sZ, sX)]

example (vt : VType) (cast : Bool) : ∃ (m : SCM (IS vt PyStr) (LS vt PyStr)) (B : BN PyStr Char ℚ), m.Rep B ∧ B.Valid ∧
    (∀ v ∈ B.nodes, ∀ w ∈ B.nodes, newName exNames v = newName exNames w → v = w) ∧
    (∀ v ∈ m.endogenous, v ∈ Dict.keys exNames ∧ v ∈ B.nodes) := by
  obtain ⟨m, B, _, h2, h3, _, _, h6, h7⟩ := ex_model vt cast
  refine ⟨m, B, h2, h3, ?_, ?_⟩
  · rw [← h2.nodes, h7]; decide
  · rw [h6, ← h2.nodes, h7]; decide

/-- The endogenous variables must all be mentioned: `rename_vars` of a causal model fails with `KeyError` otherwise, even
though an exogenous one may be left out. -/
theorem C34_endogenous_must_be_mapped (vt : VType) (cast : Bool) :
    (do let m ← exScm vt none cast
        return ((m.renameVars [(sX, sZ), (sZ, sX)]).map fun _ => (), (m.renameVars exNames).map fun m' : SCM (IS vt PyStr) (LS vt PyStr) => m'.endogenous)) =
      .ok (.error .keyError, .ok [sZ, sY, sX]) := by
  cases vt <;> cases cast <;> decide +kernel

/-- **C34** whatever the model, an endogenous variable that the mapping does not mention makes the renaming fail. -/
theorem C34_unmapped_fails {I : StoreImpl V S (Fl K)} {L : LabelStore V S} {m : SCM I L} {mapping : List (V × V)} {v : V}
    (hv : v ∈ m.endogenous) (hm : v ∉ Dict.keys mapping) : ∃ e, m.renameVars mapping = .error e := by
  have key : ∀ l : List V, v ∈ l → ∃ e, l.mapM (Dict.get mapping) = .error e := by
    intro l
    induction l with
    | nil => intro h; cases h
    | cons x l ih =>
      intro h
      rw [List.mapM_cons]
      rcases List.mem_cons.1 h with rfl | h
      · exact ⟨.keyError, by rw [Dict.get, Dict.get?_eq_none.2 hm]; rfl⟩
      · obtain ⟨e, he⟩ := ih h
        cases hg : Dict.get mapping x with
        | error e' => exact ⟨e', rfl⟩
        | ok y => exact ⟨e, by rw [he]; rfl⟩
  obtain ⟨e, he⟩ := key _ hv
  rw [SCM.renameVars]
  cases m.base.factors.mapM (SCM.renameSlot mapping) with
  | error e' => exact ⟨e', rfl⟩
  | ok fs => exact ⟨e, by rw [he]; rfl⟩

end Verif.Props
