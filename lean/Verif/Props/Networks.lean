import Verif.Model.SamplingLemmas
import Verif.Props.ExNet
import Mathlib.Data.List.Infix

/-!
# Properties of network objects (C26, C27, C29, C30, C62)
-/

set_option linter.unusedSectionVars false
set_option linter.unusedSimpArgs false

namespace Verif.Props
open Verif

/-! ### C26 -/

section
variable {F V S : Type} [DecidableEq V] [DecidableEq S] [FactorLike F V S]

/-- A history of `set_factor` calls; those that raise leave the model as it was. -/
def runCalls (m : DagModel F V S) (calls : List (V × Option F)) : DagModel F V S :=
  calls.foldl (fun m c => match m.setFactor c.1 c.2 with
    | .ok m' => m'
    | .error _ => m) m

/-- Every table in the model has its node on the left and the parents of the node on the right. -/
def TablesMatch (m : DagModel F V S) : Prop :=
  ∀ v f, Dict.get? m.factors v = some (some f) → v ∈ m.graph.nodes ∧
    (∀ w, w ∈ FactorLike.leftVars f ↔ w = v) ∧ ∀ w, w ∈ FactorLike.rightVars f ↔ (w, v) ∈ m.graph.edges

theorem SetStep.tablesMatch {m m' : DagModel F V S} {v : V} {f : F} (hc : m.check = true) (h : TablesMatch m)
    (hs : DagModel.SetStep m v f m') : TablesMatch m' := by
  intro w g hg
  rw [hs.factors, Dict.get?_set] at hg
  rw [hs.graph]
  split at hg
  · rename_i e
    subst e
    injection hg with hg
    injection hg with hg
    subst hg
    obtain ⟨h1, h2, h3, _⟩ := DagModel.checkFactor_ok.1 (hs.checked hc)
    refine ⟨h1, fun x => ⟨fun hx => by simpa using h3.2 x hx, fun hx => h3.1 x (by simp [hx])⟩, fun x => ?_⟩
    rw [← DiGraph.mem_pred]
    exact ⟨fun hx => h2.2 x hx, fun hx => h2.1 x hx⟩
  · exact h w g hg

theorem setFactor_none {m : DagModel F V S} (hc : m.check = true) (v : V) : m.setFactor v none = .error .valueError := by
  simp [DagModel.setFactor, hc]

theorem runCalls_inv {m : DagModel F V S} (hc : m.check = true) (h : TablesMatch m) (calls : List (V × Option F)) :
    (runCalls m calls).check = true ∧ (runCalls m calls).graph = m.graph ∧ TablesMatch (runCalls m calls) := by
  induction calls generalizing m with
  | nil => exact ⟨hc, rfl, h⟩
  | cons c calls ih =>
    cases hs : m.setFactor c.1 c.2 with
    | error e =>
      have : runCalls m (c :: calls) = runCalls m calls := by simp [runCalls, hs]
      rw [this]
      exact ih hc h
    | ok m' =>
      have : runCalls m (c :: calls) = runCalls m' calls := by simp [runCalls, hs]
      rw [this]
      obtain ⟨v, o⟩ := c
      cases o with
      | none => rw [setFactor_none hc] at hs; cases hs
      | some f =>
        have st := DagModel.setFactor_step hs
        obtain ⟨i1, i2, i3⟩ := ih (m := m') (st.check.trans hc) (SetStep.tablesMatch hc h st)
        exact ⟨i1, i2.trans st.graph, i3⟩

theorem tablesMatch_init (g : DiGraph V) (check : Bool) : TablesMatch
    (⟨g, g.nodes.map fun x => (x, none), g.nodes.map fun x => (x, none), check⟩ : DagModel F V S) := by
  intro v f h
  simp only [DagModel.get?_init] at h
  split at h <;> cases h

/-- **C26** with the checks on, whatever the history of `set_factor` calls on a new model, every table
that is stored has exactly its node on the left and exactly the parents of the node on the right. -/
theorem C26_histories {g : DiGraph V} {m : DagModel F V S} (h : DagModel.init g true = .ok m) (calls : List (V × Option F)) :
    TablesMatch (runCalls m calls) ∧ (runCalls m calls).graph = g := by
  obtain ⟨_, rfl⟩ := DagModel.init_inv h
  obtain ⟨_, h2, h3⟩ := runCalls_inv (m := (⟨g, g.nodes.map fun x => (x, none), g.nodes.map fun x => (x, none), true⟩ :
    DagModel F V S)) rfl (tablesMatch_init g true) calls
  exact ⟨h3, h2⟩

/-- The same for the constructor. -/
theorem C26_constructed {g : DiGraph V} {fs : List F} {m : DagModel F V S} (h : DagModel.ofList g fs true = .ok m) :
    TablesMatch m ∧ m.graph = g := by
  obtain ⟨_, l, _, _, hs⟩ := DagModel.ofList_inv h
  have := hs.induct (P := fun x => x.check = true ∧ x.graph = g ∧ TablesMatch x) ⟨rfl, rfl, tablesMatch_init g true⟩
    fun m v f m' _ hp st => ⟨st.check.trans hp.1, st.graph.trans hp.2.1, SetStep.tablesMatch hp.1 hp.2.2 st⟩
  exact ⟨this.2.2, this.2.1⟩

theorem C26_constructed_dict {g : DiGraph V} {fs : List (V × F)} {m : DagModel F V S}
    (h : DagModel.ofDict g (fs.map fun p => (p.1, some p.2)) true = .ok m) : TablesMatch m ∧ m.graph = g := by
  obtain ⟨_, hs⟩ := DagModel.ofDict_inv h
  have := hs.induct (P := fun x => x.check = true ∧ x.graph = g ∧ TablesMatch x) ⟨rfl, rfl, tablesMatch_init g true⟩
    fun m v f m' _ hp st => ⟨st.check.trans hp.1, st.graph.trans hp.2.1, SetStep.tablesMatch hp.1 hp.2.2 st⟩
  exact ⟨this.2.2, this.2.1⟩

/-- **C26**, refusals, for the nodes of the graph: a table that does not have the node on the left and its parents on the
right, or no table at all, raises `ValueError`.
The property asks for a `ValueError` for every other assignment; for a name that is not a node the code raises
`NetworkXError` instead (`C26_unknown_name`). -/
theorem C26_refused_partial {m : DagModel F V S} (hc : m.check = true) {v : V} (hv : v ∈ m.graph.nodes) (o : Option F)
    (h : ∀ f, o = some f → ¬ ((∀ w, w ∈ FactorLike.leftVars f ↔ w = v) ∧ ∀ w, w ∈ FactorLike.rightVars f ↔ (w, v) ∈ m.graph.edges)) :
    m.setFactor v o = .error .valueError := by
  cases o with
  | none => exact setFactor_none hc v
  | some f =>
    have hne : m.checkFactor v f ≠ .ok () := by
      intro hok
      obtain ⟨_, h2, h3, _⟩ := DagModel.checkFactor_ok.1 hok
      refine h f rfl ⟨fun x => ⟨fun hx => by simpa using h3.2 x hx, fun hx => h3.1 x (by simp [hx])⟩, fun x => ?_⟩
      rw [← DiGraph.mem_pred]
      exact ⟨fun hx => h2.2 x hx, fun hx => h2.1 x hx⟩
    rw [DagModel.setFactor, if_pos hc, DagModel.checkFactor_error hv hne]
    rfl

/-- A name that is not a node is refused with networkx's exception. -/
theorem C26_unknown_name {m : DagModel F V S} (hc : m.check = true) {v : V} (hv : v ∉ m.graph.nodes) (f : F) :
    m.setFactor v (some f) = .error .networkx := by
  rw [DagModel.setFactor, if_pos hc, DagModel.checkFactor, DiGraph.predecessors, if_neg hv]
  rfl

/-- A table that fits and whose states are those known is accepted. -/
theorem C26_accepted {m : DagModel F V S} {v : V} (hv : v ∈ m.graph.nodes) {f : F}
    (h1 : ∀ w, w ∈ FactorLike.leftVars f ↔ w = v) (h2 : ∀ w, w ∈ FactorLike.rightVars f ↔ (w, v) ∈ m.graph.edges)
    (h3 : ∀ p ∈ FactorLike.dom f, ∀ st, Dict.get? m.domains p.1 = some (some st) → SameSet st p.2)
    (h4 : v ∈ Dict.keys (FactorLike.dom f)) :
    ∃ m', m.setFactor v (some f) = .ok m' ∧ Dict.get? m'.factors v = some (some f) := by
  have hok : m.checkFactor v f = .ok () := by
    refine DagModel.checkFactor_ok.2 ⟨hv, ⟨fun x hx => (h2 x).2 (DiGraph.mem_pred.1 hx), fun x hx => DiGraph.mem_pred.2 ((h2 x).1 hx)⟩,
      ⟨fun x hx => (h1 x).2 (by simpa using hx), fun x hx => by simpa using (h1 x).1 hx⟩, fun p hp => ?_⟩
    rcases hd : Dict.get? m.domains p.1 with _ | _ | st
    · rfl
    · rfl
    · simpa [DagModel.domFits] using h3 p hp st hd
  obtain ⟨st, hst⟩ := Option.isSome_iff_exists.1 (Dict.get?_isSome.2 h4)
  rw [DagModel.setFactor, hok]
  rcases hd : Dict.get? m.domains v with _ | _ | st'
  all_goals cases hc : m.check <;> simp [Dict.get, hst, Dict.get?_set, DagModel.setFactor]

end

/-- The constructor of the example network accepts its tables. -/
example (vt : VType) : ∃ m, netOf vt gEx rowsEx = .ok m ∧ TablesMatch m := by
  obtain ⟨m, h1, _⟩ := ex_net vt
  refine ⟨m, h1, ?_⟩
  rw [netOf] at h1
  cases ht : tablesOf vt rowsEx with
  | error e => rw [ht] at h1; cases h1
  | ok fs => rw [ht, py_ok_bind] at h1; exact (C26_constructed h1).1

/-! ### C27 -/

section
variable {V S K : Type} [DecidableEq V] [DecidableEq S] [Field K] [LinearOrder K] {vt : VType}
local notation "II" => (storeOf vt : StoreImpl V S (Fl K))

/-- Everything that the tables say about states is what the model knows, and the nodes in `known` have been given states. -/
structure Known (m : DagModel (Factor II) V S) (known : List V) : Prop where
  check : m.check = true
  known : ∀ v ∈ known, ∃ st, Dict.get? m.domains v = some (some st)
  tables : ∀ v f, Dict.get? m.factors v = some (some f) → ∀ p ∈ f.dom,
    ∃ st, Dict.get? m.domains p.1 = some (some st) ∧ SameSet st p.2

theorem SameSet.symm {X : Type} {a b : List X} (h : SameSet a b) : SameSet b a := ⟨h.2, h.1⟩
theorem SameSet.trans {X : Type} {a b c : List X} (h : SameSet a b) (h' : SameSet b c) : SameSet a c :=
  ⟨fun x hx => h'.1 x (h.1 x hx), fun x hx => h.2 x (h'.2 x hx)⟩

theorem Known.step {m m' : DagModel (Factor II) V S} {known : List V} (h : Known m known) {v : V} {f : Factor II}
    (hn : (Dict.keys f.dom).Nodup) (hpa : ∀ p ∈ m.graph.pred v, p ∈ known) (hs : DagModel.SetStep m v f m') :
    Known m' (known ++ [v]) := by
  obtain ⟨_, c2, c3, c4⟩ := DagModel.checkFactor_ok.1 (hs.checked h.check)
  have keep : ∀ w st, Dict.get? m.domains w = some (some st) → Dict.get? m'.domains w = some (some st) := by
    intro w st hw
    rcases hs.domains with ⟨st', _, e⟩ | ⟨st', hno, _, e⟩
    · rw [e]; exact hw
    · rw [e, Dict.get?_set]
      split
      · rename_i hwv; subst hwv; exact absurd hw (hno st)
      · exact hw
  have hv : ∃ st, Dict.get? m'.domains v = some (some st) := by
    rcases hs.domains with ⟨st', h1, e⟩ | ⟨st', _, _, e⟩
    · exact ⟨st', by rw [e]; exact h1⟩
    · exact ⟨st', by rw [e, Dict.get?_set, if_pos rfl]⟩
  refine ⟨hs.check.trans h.check, ?_, ?_⟩
  · intro w hw
    rcases List.mem_append.1 hw with hw | hw
    · obtain ⟨st, hst⟩ := h.known w hw
      exact ⟨st, keep w st hst⟩
    · rw [List.mem_singleton.1 hw]; exact hv
  · intro w g hg p hp
    rw [hs.factors, Dict.get?_set] at hg
    split at hg
    · injection hg with hg
      injection hg with hg
      subst hg
      have hfit := c4 p hp
      by_cases hright : p.1 ∈ f.rightVars
      · obtain ⟨st, hst⟩ := h.known _ (hpa _ (c2.2 _ hright))
        rw [hst] at hfit
        exact ⟨st, keep _ st hst, by simpa [DagModel.domFits] using hfit⟩
      · have hleft : p.1 ∈ f.leftVars := List.mem_filter.2 ⟨Dict.mem_keys_of_mem hp, by simpa using hright⟩
        have hpv : p.1 = v := by simpa using c3.2 _ hleft
        rcases hs.domains with ⟨st', h1, e⟩ | ⟨st', hno, hd, e⟩
        · rw [hpv, h1] at hfit
          exact ⟨st', by rw [hpv, e]; exact h1, by simpa [DagModel.domFits] using hfit⟩
        · have : st' = p.2 := by
            have h2 := Dict.get?_of_mem hn (show (p.1, p.2) ∈ f.dom from hp)
            rw [hpv] at h2
            have hd' : Dict.get? f.dom v = some st' := hd
            rw [h2] at hd'
            injection hd' with hd'
            exact hd'.symm
          exact ⟨st', by rw [hpv, e, Dict.get?_set, if_pos rfl], by rw [this]; exact ⟨fun _ h => h, fun _ h => h⟩⟩
    · obtain ⟨st, h1, h2⟩ := h.tables w g hg p hp
      exact ⟨st, keep _ st h1, h2⟩

/-- **C27** (partly): when the tables are given in an order in which parents come before their children, all
tables of the constructed model that mention a variable have the same set of states for it, the one recorded
in the model.
The property is about all orders, and about lists of states: both are refuted, by `C27_child_first` and
`C27_state_order`. -/
theorem C27_topological_partial {g : DiGraph V} {fs : List (V × Factor II)} {m : DagModel (Factor II) V S}
    (h : DagModel.ofDict g (fs.map fun p => (p.1, some p.2)) true = .ok m) (hd : ∀ p ∈ fs, DomOk p.2.dom)
    (ho : ∀ pre p post, fs = pre ++ p :: post → ∀ w, (w, p.1) ∈ g.edges → w ∈ Dict.keys pre) :
    ∀ v f w f', Dict.get? m.factors v = some (some f) → Dict.get? m.factors w = some (some f') →
      ∀ p ∈ f.dom, ∀ p' ∈ f'.dom, p.1 = p'.1 → SameSet p.2 p'.2 := by
  obtain ⟨_, hs⟩ := DagModel.ofDict_inv h
  have key : ∀ (post : List (V × Factor II)) (m0 m1 : DagModel (Factor II) V S), DagModel.Sets m0 post m1 → m0.graph = g →
      ∀ pre, fs = pre ++ post → Known m0 (Dict.keys pre) → Known m1 (Dict.keys fs) := by
    intro post m0 m1 hss
    induction hss with
    | nil => intro hg pre e hk; rw [e, List.append_nil]; exact hk
    | @cons m0 m1 m2 v f l hst _ ih =>
      intro hg pre e hk
      refine ih (hst.graph.trans hg) (pre ++ [(v, f)]) (by rw [e]; simp) ?_
      rw [Dict.keys_append]
      refine hk.step (hd (v, f) (by rw [e]; simp)).keys ?_ hst
      intro p hp
      rw [hg] at hp
      exact ho pre (v, f) l e p (DiGraph.mem_pred.1 hp)
  have hk := key fs _ m hs rfl [] rfl ⟨rfl, by simp, fun v f hf => by
    simp only [DagModel.get?_init] at hf
    split at hf <;> cases hf⟩
  intro v f w f' hf hf' p hp p' hp' e
  obtain ⟨st, h1, h2⟩ := hk.tables v f hf p hp
  obtain ⟨st', h1', h2'⟩ := hk.tables w f' hf' p' hp'
  rw [e, h1'] at h1
  injection h1 with h1
  injection h1 with h1
  subst h1
  exact SameSet.trans (SameSet.symm h2) h2'

end

/-- The states that the tables of a model have for a variable. -/
def statesIn {vt : VType} (m : DagModel (Factor (IQ vt)) Char Char) (v : Char) : List (List Char) :=
  m.factors.filterMap fun p => match p.2 with
    | some f => Dict.get? f.dom v
    | none => none

/-- `X → Y` with the table of the child first: its states for `X` are never compared with those of `X`. -/
def childFirst (vt : VType) : Py (List (List Char)) := do
  let m ← netOf vt ⟨['X', 'Y'], [('X', 'Y')]⟩
    [([('Y', ['a', 'b']), ('X', ['0', '1'])], [q 1, q 0, q 0, q 1], 'Y'),
     ([('X', ['2', '3', '4'])], [q 1, q 0, q 0], 'X')]
  return statesIn m 'X'

/-- C27 does not hold for all orders: a model is constructed whose two tables have different states for `X`. -/
theorem C27_child_first (vt : VType) : childFirst vt = .ok [['2', '3', '4'], ['0', '1']] := by
  cases vt <;> decide +kernel

/-- The same tables in the other order are refused. -/
theorem C27_parent_first (vt : VType) : (netOf vt ⟨['X', 'Y'], [('X', 'Y')]⟩
    [([('X', ['2', '3', '4'])], [q 1, q 0, q 0], 'X'),
     ([('Y', ['a', 'b']), ('X', ['0', '1'])], [q 1, q 0, q 0, q 1], 'Y')]).map (fun _ => ()) = .error .valueError := by
  cases vt <;> decide +kernel

/-- `X → Y` with the states of `X` listed in different orders. -/
def orderDiffers (vt : VType) : Py (List (List Char)) := do
  let m ← netOf vt ⟨['X', 'Y'], [('X', 'Y')]⟩
    [([('X', ['0', '1'])], [q 1, q 0], 'X'),
     ([('Y', ['a', 'b']), ('X', ['1', '0'])], [q 1, q 0, q 0, q 1], 'Y')]
  return statesIn m 'X'

/-- Only the sets of states are compared: the lists may be in different orders. -/
theorem C27_state_order (vt : VType) : orderDiffers vt = .ok [['0', '1'], ['1', '0']] := by
  cases vt <;> decide +kernel

/-! ### C62 -/

section
variable {F S : Type} [DecidableEq S] [FactorLike F (List Char) S]

/-- `pgmodel.py:140-141` `get_domains` called with a single name: `v in variables` is then the
substring test. -/
def getDomainsOfName (m : DagModel F (List Char) S) (name : List Char) : List (List Char × Option (List S)) :=
  m.domains.filter fun p => p.1 <:+: name

/-- **C62** (partly): when no other variable's name is a substring of the name, its domain alone is returned.
Without the condition the property fails (`C62_substring`). -/
theorem C62_single_partial {m : DagModel F (List Char) S} (hk : (Dict.keys m.domains).Nodup) {name : List Char}
    {d : Option (List S)} (hd : Dict.get? m.domains name = some d)
    (hs : ∀ v ∈ Dict.keys m.domains, v <:+: name → v = name) : getDomainsOfName m name = [(name, d)] := by
  have hm := Dict.mem_of_get? hd
  have key : ∀ l : List (List Char × Option (List S)), (Dict.keys l).Nodup → (name, d) ∈ l →
      (∀ v ∈ Dict.keys l, v <:+: name → v = name) → (l.filter fun p => p.1 <:+: name) = [(name, d)] := by
    intro l
    induction l with
    | nil => intro _ h; simp at h
    | cons p l ih =>
      intro hn h hsub
      have hn' := List.nodup_cons.1 (by simpa using hn : (p.1 :: Dict.keys l).Nodup)
      rcases List.mem_cons.1 h with e | h
      · subst e
        rw [List.filter_cons, if_pos (by simp)]
        congr 1
        rw [List.filter_eq_nil_iff]
        intro r hr hsr
        have hk' : r.1 ∈ Dict.keys l := Dict.mem_keys_of_mem hr
        have : r.1 = name := hsub r.1 (List.mem_cons_of_mem _ hk') (by simpa using hsr)
        exact hn'.1 (by rw [← this]; exact hk')
      · rw [List.filter_cons, if_neg, ih hn'.2 h fun v hv => hsub v (List.mem_cons_of_mem _ hv)]
        intro hc
        have : p.1 = name := hsub p.1 List.mem_cons_self (by simpa using hc)
        exact hn'.1 (this ▸ Dict.mem_keys_of_mem h)
  exact key _ hk hm hs

/-- Called with a list holding the name, the method returns the domain of that variable, without any condition
on names. -/
theorem C62_list {m : DagModel F (List Char) S} {name : List Char} :
    m.getDomains [name] = m.domains.filter fun p => p.1 = name := by
  simp [DagModel.getDomains]

end

/-- Two exogenous variables `U` and `U1`. -/
def twoExo : Py (DagModel (Factor (storeOf .numpy : StoreImpl (List Char) Char (Fl ℚ))) (List Char) Char) := do
  let f ← Factor.make (storeOf .numpy) [(['U'], ['a', 'b'])] [q (1/2), q (1/2)] none none
  let f1 ← Factor.make (storeOf .numpy) [(['U', '1'], ['c', 'd'])] [q (1/2), q (1/2)] none none
  DagModel.ofList ⟨[['U'], ['U', '1']], []⟩ [f, f1] true

/-- C62 does not hold in general: asked for `U1`, the method returns the domain of `U` as well. -/
theorem C62_substring : twoExo.map (fun m => getDomainsOfName m ['U', '1']) =
    .ok [(['U'], some ['a', 'b']), (['U', '1'], some ['c', 'd'])] := by decide +kernel

/-- The hypotheses of `C62_single_partial` can be met: asked for `U` in the same model. -/
example : twoExo.map (fun m => getDomainsOfName m ['U']) = .ok [(['U'], some ['a', 'b'])] := by decide +kernel

/-! ### C29 -/

section
variable {V S K : Type} [DecidableEq V] [DecidableEq S] [Inhabited S] [Field K] [LinearOrder K] {vt : VType}
  {F : Type} [VEFactor F (storeOf vt : StoreImpl V S (Fl K))]

/-- **C29** `prob` returns, for each full record, the product of the tables. -/
theorem C29_prob {m : DagModel F V S} {B : BN V S K} (hr : Represents m B) (hB : B.Valid) {obs : List (Obs V S)}
    (ho : ∀ o ∈ obs, ∀ v ∈ B.nodes, ∃ s ∈ B.states v, Dict.get? o v = some s) :
    m.prob obs = .ok (obs.map fun o => .fin (B.joint (asg o))) := prob_ok hr hB ho

/-- **C29** the marginal of an ancestral set is the product of its tables. -/
theorem C29_ancestral {B : BN V S K} (hB : B.Valid) (hn : B.Normalised) {A : List V} (hA : A.Nodup)
    (hAn : ∀ v ∈ A, v ∈ B.nodes) (hanc : ∀ v ∈ A, ∀ p ∈ B.parents v, p ∈ A) {a : V → S} (ha : ∀ v ∈ A, a v ∈ B.states v) :
    B.marg A a = (A.map fun v => B.table v a).prod := by
  have hp : B.nodes.Perm (B.nodes.filter (· ∉ A) ++ A) := by
    refine (List.perm_ext_iff_of_nodup hB.nodes ?_).2 fun v => ?_
    · refine List.nodup_append'.2 ⟨hB.nodes.filter _, hA, fun v hv hv' => ?_⟩
      have := (List.mem_filter.1 hv).2
      simp [hv'] at this
    · constructor
      · intro hv
        by_cases hvA : v ∈ A
        · exact List.mem_append_right _ hvA
        · exact List.mem_append_left _ (List.mem_filter.2 ⟨hv, by simpa using hvA⟩)
      · intro hv
        rcases List.mem_append.1 hv with hv | hv
        · exact (List.mem_filter.1 hv).1
        · exact hAn v hv
  have hT := (hB.tables hn)
  have hT' : Tables B.states B.parents B.ctab (B.nodes.filter (· ∉ A) ++ A) :=
    hT.sublist (hp.nodup_iff.1 hB.nodes) fun v hv => hp.mem_iff.2 hv
  have h1 := hT'.sum_barren (fun v hv p hpv hm => by
    have := (List.mem_filter.1 hm).2
    simp [hanc v hv p hpv] at this) a
  rw [hB.marg_eq (fun v hv _ => ha v hv)]
  have h2 : ∀ b, prodT B.ctab B.nodes b = prodT B.ctab (B.nodes.filter (· ∉ A) ++ A) b := prodT_perm B.ctab hp
  rw [sumOver_congr' h2, h1]
  refine congrArg List.prod (List.map_congr_left fun v hv => ?_)
  refine hB.ctab_eq (hAn v hv) ?_
  intro w hw
  rcases List.mem_cons.1 hw with rfl | hw
  · exact ha w hv
  · exact ha w (hanc v hv w hw)

/-- **C29** with normalised tables the joint probabilities sum to one. -/
theorem C29_total {B : BN V S K} (hB : B.Valid) (hn : B.Normalised) (a : V → S) : sumOver B.states B.nodes B.joint a = 1 := by
  have := C29_ancestral hB hn (A := []) List.nodup_nil (by simp) (by simp) (a := a) (by simp)
  simpa [BN.marg] using this

/-- **C29** the values that `prob` returns for all the joint states sum to one. -/
theorem C29_prob_total {m : DagModel F V S} {B : BN V S K} (hr : Represents m B) (hB : B.Valid) (hn : B.Normalised) :
    ∃ ps : List (Fl K), m.prob (I := (storeOf vt : StoreImpl V S (Fl K))) (assignmentSpace (B.nodes.map fun v => (v, B.states v))) = .ok ps ∧ ps.sum = .fin 1 := by
  have hk : Dict.keys (B.nodes.map fun v => (v, B.states v)) = B.nodes := by simp [Dict.keys, Function.comp_def]
  have hk' : (Dict.keys (B.nodes.map fun v => (v, B.states v))).Nodup := by rw [hk]; exact hB.nodes
  refine ⟨_, C29_prob hr hB fun o ho v hv => ?_, ?_⟩
  · exact mem_assignmentSpace_fullObs hk' ho (v, B.states v) (List.mem_map_of_mem hv)
  · have h1 := C29_total hB hn fun _ => Classical.arbitrary S
    rw [sumOver_eq_sumStates, sumStates_eq_variants, variants_eq_assignmentSpace hk', List.map_map] at h1
    rw [← h1]
    exact Fl.sum_fin' _ _

end

/-- The probability of a record of the example network. -/
def probEx (vt : VType) : Py (List (Fl ℚ)) := do
  let m ← netOf vt gEx rowsEx
  m.prob (I := IQ vt) [[('A', 'b'), ('B', 'a'), ('C', 'd'), ('D', 'b')], [('D', 'a'), ('C', 'e'), ('B', 'b'), ('A', 'b')]]

theorem C29_example (vt : VType) : probEx vt =
    .ok [.fin (1 / 2 * (1 / 4) * (1 / 3) * (3 / 5)), .fin (1 / 2 * (3 / 4) * (1 / 2) * 1)] := by
  cases vt <;> decide +kernel

/-- The hypotheses of `C29_ancestral` can be met: `{A, B}` in the example network. -/
example (vt : VType) : ∃ m, netOf vt gEx rowsEx = .ok m ∧ ∃ B : BN Char Char ℚ, Represents m B ∧ B.Valid ∧ B.Normalised ∧
    (∀ v ∈ ['A', 'B'], v ∈ B.nodes) ∧ ∀ v ∈ ['A', 'B'], ∀ p ∈ B.parents v, p ∈ ['A', 'B'] := by
  obtain ⟨m, h1, h2, h3, h4, h5, _⟩ := ex_net vt
  refine ⟨m, h1, _, h3, h4, h5, ?_, ?_⟩
  · rw [← h3.nodes, h2]; decide
  · have : (BN.ofModel (IQ vt) m : BN Char Char ℚ).parents = gEx.pred := by rw [← h2]; rfl
    rw [this]; decide

/-! ### C30 -/

section
variable {V S K : Type} [DecidableEq V] [DecidableEq S] [Inhabited S] [Field K] [LinearOrder K] [IsStrictOrderedRing K] {vt : VType}
  {F : Type} [VEFactor F (storeOf vt : StoreImpl V S (Fl K))]

/-- **C30** for every network, every topological order that networkx may return, every `n ≥ 1` and whatever the
generator returns in `[0, 1)`, sampling returns `n` records; each assigns to every node exactly one of its states
and has positive joint probability. -/
theorem C30_sampling {m : DagModel F V S} {B : BN V S K} (hr : Represents m B) (hB : B.Valid) (hn : B.Normalised)
    (hnn : B.NonNeg) {n : Nat} (hn1 : 1 ≤ n) (hne : B.nodes ≠ []) {u : V → Nat → K} (hu : ∀ v i, 0 ≤ u v i ∧ u v i < 1) {order : List V}
    (ho : TopoOrder m.graph order) :
    ∃ data, forwardSampling m order n u = .ok data ∧ data.length = n ∧
      ∀ r ∈ data, (Dict.keys r).Perm B.nodes ∧ (∀ v ∈ B.nodes, ∃ s ∈ B.states v, Dict.get? r v = some s) ∧
        0 < B.joint (asg r) := by
  obtain ⟨data, h1, h2, h3, h4⟩ := forwardSampling_ok (storeOf_lawful vt) hr hB hn hnn hn1 hu ho order [] [] rfl
    (by simp [recsOf]) (fun _ => rfl) (by
      intro i hi
      simp only [recsOf, if_true, List.getElem_replicate]
      exact ⟨rfl, by simp, by simp⟩)
  have hone : order ≠ [] := fun e => by
    have := ho.perm
    rw [e, List.nil_perm, hr.nodes] at this
    exact hne this
  have hdata : recsOf n data = data := by rw [recsOf, if_neg fun e => hone (h3 e)]
  simp only [hdata] at h2 h4
  refine ⟨data, h1, h2, fun r hrm => ?_⟩
  obtain ⟨i, hi, rfl⟩ := List.mem_iff_getElem.1 hrm
  have hk := h4 i hi
  have hmem : ∀ v, v ∈ B.nodes → v ∈ order := fun v hv => ho.perm.mem_iff.2 (by rw [hr.nodes]; exact hv)
  refine ⟨by rw [hk.keys, ← hr.nodes]; exact ho.perm, fun v hv => hk.states v (hmem v hv), ?_⟩
  refine List.prod_pos fun x hx => ?_
  obtain ⟨v, hv, rfl⟩ := List.mem_map.1 hx
  exact (hk.cell v (hmem v hv)).pos

/-- Asking for no sample is refused. -/
theorem C30_no_samples {m : DagModel F V S} {B : BN V S K} (hr : Represents m B) {order : List V} {v : V}
    {post : List V} (ho : order = v :: post) (hv : v ∈ B.nodes) (u : V → Nat → K) :
    forwardSampling m order 0 u = .error .valueError := by
  obtain ⟨pa, hp1, hp2⟩ := getParents_one (m := m) (v := v) (by rw [hr.nodes]; exact hv)
  obtain ⟨f, g, h1, h2, h3⟩ := hr.table v hv
  have hm : (needSample (some f) : Py (Factor (storeOf vt : StoreImpl V S (Fl K)))) = .ok g := by simp only [needSample, h2]
  rw [forwardSampling, ho, List.foldlM_cons, sampleNode, hp1, py_ok_bind, Dict.get, h1]
  show (((needSample (some f) : Py (Factor (storeOf vt : StoreImpl V S (Fl K)))) >>= _) >>= _) = _
  rw [hm, py_ok_bind]
  by_cases hz : pa.length = 0
  · rw [if_pos hz]; rfl
  · rw [if_neg hz]; rfl

end

theorem gEx_topo : TopoOrder gEx ['A', 'B', 'C', 'D'] := by
  refine ⟨List.Perm.refl _, fun pre v post e p hp => ?_⟩
  have hmem : (p, v) ∈ [('A', 'B'), ('B', 'C'), ('C', 'D')] := hp
  match pre, e with
  | [], e => simp at e; obtain ⟨rfl, _⟩ := e; simp at hmem
  | [a], e => simp at e; obtain ⟨rfl, rfl, _⟩ := e; simp at hmem; simp [hmem]
  | [a, b], e => simp at e; obtain ⟨rfl, rfl, rfl, _⟩ := e; simp at hmem; simp [hmem]
  | [a, b, c], e => simp at e; obtain ⟨rfl, rfl, rfl, rfl, _⟩ := e; simp at hmem; simp [hmem]
  | a :: b :: c :: d :: l, e => simp at e

/-- Two records of the example network, for two sets of draws. -/
def samplingEx (vt : VType) : Py (List (Obs Char Char)) := do
  let m ← netOf vt gEx rowsEx
  forwardSampling (I := IQ vt) m ['A', 'B', 'C', 'D'] 2 fun v i => if v = 'A' then i * (1 / 2) else i * (9 / 10)

theorem C30_example (vt : VType) : samplingEx vt =
    .ok [[('A', 'a'), ('B', 'a'), ('C', 'c'), ('D', 'a')], [('A', 'b'), ('B', 'b'), ('C', 'e'), ('D', 'a')]] := by
  cases vt <;> decide +kernel

end Verif.Props
