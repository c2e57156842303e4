import Verif.Model.BuildNet
import Verif.Model.Intervene
import Verif.Util.Text
import Verif.Props.ExScm

/-!
# Conversions between causal models and networks (`models/transform/conversion.py`) and models given by the text of a graph

`bnet_to_causal` is `SCM.fromModel` of `Verif/Model/SCM.lean`.
-/

set_option linter.unusedSectionVars false
set_option linter.unusedSimpArgs false

namespace Verif

section
variable {V S α : Type} [DecidableEq V] [DecidableEq S] [Inhabited α] [Zero α] [One α] [DecidableEq α]
  {I : StoreImpl V S α} {L : LabelStore V S}

/-- `pgmodel.py:133-135`: one element of a list of factors that may contain `None` (which has no attribute
`left_vars`) -/
def DagModel.setOne {F : Type} [FactorLike F V S] (m : DagModel F V S) : Option F → Py (DagModel F V S)
  | none => .error .attributeError
  | some f => do
    let v ← DagModel.leftOf f
    m.setFactor v (some f)

/-- `conversion.py:7`: one element of the comprehension; `None` is not deterministic and is kept -/
def SCM.slotMulti : Option (AnyFactor I L) → Py (Option (AnyFactor I L))
  | none => .ok none
  | some f => do
    let r ← f.toMulti
    return some r

/-- `conversion.py:6-8` `causal_to_bnet`; the network is built with checks (`bnet.py:12`) -/
def SCM.causalToBnet (m : SCM I L) : Py (DagModel (AnyFactor I L) V S) := do
  let fs ← m.base.factors.mapM fun p => SCM.slotMulti p.2
  let b ← DagModel.init m.base.graph true
  fs.foldlM DagModel.setOne b

end

section
variable {S α : Type} [DecidableEq S] [Inhabited α] [Zero α] [One α] [DecidableEq α]
  {I : StoreImpl Str S α} {L : LabelStore Str S}

/-- `pgmodel.py:169-178` `get_dag_str`; the same text as `dag2str`, since `":".join` needs names that are strings -/
def DagModel.getDagStr {F : Type} (m : DagModel F Str S) : Py Str := dag2str m.graph

/-- `bnet.py:12-16` with `pgmodel.py:117-122`: `BayesianNetwork(text, factors)` for a dictionary -/
def DagModel.ofDictText {F : Type} [FactorLike F Str S] (s : Str) (fs : List (Str × Option F)) (check : Bool) :
    Py (DagModel F Str S) := do
  let g ← str2dag s
  DagModel.ofDict g fs check

/-- `cmodel.py:151` when the graph is given as text: `endogenous or [x for x in dag if …]` runs through the characters of
the text, which have no method `predecessors`. -/
def SCM.endoText (s : Str) : Option (List Str) → Py (List Str)
  | some (v :: l) => .ok (v :: l)
  | _ => if s = [] then .ok [] else .error .attributeError

/-- `cmodel.py:148-156` with `pgmodel.py:117-122`: `StructuralCausalModel(text, factors, endogenous, …)` for a
dictionary -/
def SCM.ofDictText (s : Str) (fs : List (Str × Option (AnyFactor I L))) (endo : Option (List Str)) (cast check : Bool) :
    Py (SCM I L) := do
  let g ← str2dag s
  let b ← DagModel.init g check
  let e ← SCM.endoText s endo
  fs.foldlM (fun m p => m.setFactor p.1 p.2) (⟨b, e, cast⟩ : SCM I L)

end

/-! ### Lemmas -/

namespace DagModel
variable {F V S : Type} [DecidableEq V] [DecidableEq S] [FactorLike F V S]

/-- A factor for a variable outside the graph is refused, if the factors before it are accepted. -/
theorem setAll_outside {g : DiGraph V} {D : V → List S} (l : List (V × F)) {fs : List (V × F)}
    (hf : ∀ p ∈ l, p.1 ∈ g.nodes → Fits g D p.1 p.2) (hn : (Dict.keys (fs ++ l)).Nodup) (hout : ∃ p ∈ l, p.1 ∉ g.nodes) :
    l.foldlM (fun m p => m.setFactor p.1 (some p.2)) (after g D true fs) = .error .networkx := by
  induction l generalizing fs with
  | nil => obtain ⟨p, hp, _⟩ := hout; simp at hp
  | cons p l ih =>
    rw [List.foldlM_cons]
    by_cases hp : p.1 ∈ g.nodes
    · have hv : p.1 ∉ Dict.keys fs := by
        rw [Dict.keys_append, Dict.keys_cons] at hn
        exact fun h => (List.disjoint_of_nodup_append hn) h List.mem_cons_self
      rw [setFactor_after (hf p List.mem_cons_self hp) hv, py_ok_bind]
      refine ih (fun q hq => hf q (List.mem_cons_of_mem _ hq)) (by simpa using hn) ?_
      obtain ⟨q, hq, hqn⟩ := hout
      rcases List.mem_cons.1 hq with rfl | hq
      · exact absurd hp hqn
      · exact ⟨q, hq, hqn⟩
    · have : (after g D true fs).setFactor p.1 (some p.2) = .error .networkx := by
        have hc : (after g D true fs).checkFactor p.1 p.2 = .error .networkx := by
          rw [checkFactor]
          have : (after (F := F) g D true fs).graph.predecessors p.1 = .error .networkx := by
            show DiGraph.predecessors g p.1 = _
            rw [DiGraph.predecessors, if_neg hp]
          rw [this]; rfl
        rw [setFactor]
        have hck : (after (F := F) g D true fs).check = true := rfl
        simp only [hck, if_true, hc]
        rfl
      rw [this]; rfl

end DagModel

section
variable {V S K : Type} [DecidableEq V] [DecidableEq S] [Inhabited S] [Field K] [LinearOrder K] {vt : VType}

local notation "II" => (storeOf vt : StoreImpl V S (Fl K))
local notation "LL" => (labelStoreOf vt : LabelStore V S)

theorem AnyTable.toMulti {B : BN V S K} {v : V} {f : AnyFactor II LL} (h : AnyTable B v f) :
    ∃ r : Factor II, f.toMulti = .ok (.multi r) ∧ IsTable B v r := by
  cases f with
  | multi g => exact ⟨g, rfl, h⟩
  | det g =>
    obtain ⟨r, h1, h2⟩ := DetTable.toMultinomial h
    exact ⟨r, by rw [AnyFactor.toMulti, h1]; rfl, h2⟩

/-- A model with a multinomial table for each node. -/
theorem represents_after {B : BN V S K} (hB : B.Valid) {g : DiGraph V} (hg : g.WF) (hgn : g.nodes = B.nodes)
    (hp : ∀ v ∈ B.nodes, ∀ p, p ∈ B.parents v ↔ (p, v) ∈ g.edges) {l : List (V × Factor II)} (hk : (Dict.keys l).Perm B.nodes)
    (ht : ∀ p ∈ l, IsTable B p.1 p.2) (check : Bool) :
    Represents (I := II) (DagModel.after g B.states check (l.map fun p => (p.1, (.multi p.2 : AnyFactor II LL)))) B := by
  have hn : (Dict.keys l).Nodup := hk.nodup_iff.2 hB.nodes
  have hkl : Dict.keys (l.map fun p => (p.1, (.multi p.2 : AnyFactor II LL))) = Dict.keys l := by
    simp [Dict.keys, List.map_map, Function.comp_def]
  refine ⟨hg, hgn, hp, ?_, fun v hv => ?_⟩
  · simp [DagModel.after, Dict.keys, Function.comp_def]
  · obtain ⟨r, hr⟩ := Dict.mem_keys.1 (hk.mem_iff.2 hv)
    refine ⟨.multi r, r, ?_, rfl, ht _ hr⟩
    show Dict.get? (g.nodes.map fun w => (w, Dict.get? (l.map fun p => (p.1, (.multi p.2 : AnyFactor II LL))) w)) v = _
    rw [Dict.get?_map, if_pos (by rw [hgn]; exact hv)]
    congr 1
    exact Dict.get?_of_mem (by rw [hkl]; exact hn) (List.mem_map.2 ⟨_, hr, rfl⟩)

theorem SCM.Rep.causalToBnet {m : SCM II LL} {B : BN V S K} (h : m.Rep B) (hB : B.Valid) :
    ∃ b, m.causalToBnet = .ok b ∧ b.graph = m.base.graph ∧ Represents (I := II) b B ∧
      ∀ v r, Dict.get? m.base.factors v = some (some (.multi r)) → Dict.get? b.factors v = some (some (.multi r)) := by
  obtain ⟨l, hl, hk, ht⟩ := h.facs hB
  have hmem : ∀ p ∈ l, p.1 ∈ B.nodes := fun p hp => hk ▸ Dict.mem_keys_of_mem hp
  have hacy : m.base.graph.Acyclic := by
    intro v hv
    refine hB.acyclic v (Relation.TransGen.mono (fun u w huw => ?_) _ _ hv)
    have hw : w ∈ B.nodes := by rw [← h.nodes]; exact (h.wf.ends _ huw).2
    exact ⟨hw, (h.parents w hw u).2 huw⟩
  haveI : Nonempty (Factor II) := by
    obtain ⟨f, _⟩ := Factor.make_ok (storeOf_lawful (V := V) (S := S) (α := Fl K) vt) (d := []) (values := [default]) (left := none)
      (right := none) ⟨by simp, by simp, by simp⟩ rfl rfl
    exact ⟨f⟩
  choose! r hr using fun p (hp : p ∈ l) => (ht p hp).toMulti
  have hk' : Dict.keys (l.map fun p => (p.1, r p)) = B.nodes := by
    rw [← hk]; simp [Dict.keys, List.map_map, Function.comp_def]
  have hk2 : Dict.keys ((l.map fun p => (p.1, r p)).map fun p => (p.1, (.multi p.2 : AnyFactor II LL))) = B.nodes := by
    rw [← hk]; simp [Dict.keys, List.map_map, Function.comp_def]
  have ht' : ∀ p ∈ l.map fun p => (p.1, r p), IsTable B p.1 p.2 := by
    intro q hq
    obtain ⟨p, hp, rfl⟩ := List.mem_map.1 hq
    exact (hr p hp).2
  have hfit : ∀ p ∈ (l.map fun p => (p.1, r p)).map fun p => (p.1, (.multi p.2 : AnyFactor II LL)),
      DagModel.Fits m.base.graph B.states p.1 p.2 := by
    intro q hq
    obtain ⟨p, hp, rfl⟩ := List.mem_map.1 hq
    have hpn : p.1 ∈ B.nodes := hk' ▸ Dict.mem_keys_of_mem hp
    exact AnyTable.fits (f := (.multi p.2 : AnyFactor II LL)) (ht' p hp) (by rw [h.nodes]; exact hpn) (h.parents p.1 hpn)
  have hfold := DagModel.setAll (check := true) (fs := []) _ hfit (by rw [List.nil_append, hk2]; exact hB.nodes)
  refine ⟨DagModel.after m.base.graph B.states true ((l.map fun p => (p.1, r p)).map fun p => (p.1, (.multi p.2 : AnyFactor II LL))), ?_, rfl,
    represents_after hB h.wf h.nodes h.parents (by rw [hk']) ht' true, fun v f hf => ?_⟩
  · rw [SCM.causalToBnet, hl, List.mapM_map, mapM_ok (g := fun p => some (.multi (r p) : AnyFactor II LL)) (fun p hp => by
      show SCM.slotMulti (some p.2) = _
      rw [SCM.slotMulti, (hr p hp).1]; rfl), py_ok_bind, DagModel.init_ok h.wf hacy, py_ok_bind, ← DagModel.after_nil m.base.graph B.states true]
    refine Eq.trans ?_ hfold
    rw [List.map_map, List.foldlM_map, List.foldlM_map]
    have key : ∀ (l' : List (V × AnyFactor II LL)) (b : DagModel (AnyFactor II LL) V S), (∀ p ∈ l', p ∈ l) →
        l'.foldlM (fun b p => DagModel.setOne b (some (.multi (r p) : AnyFactor II LL))) b =
          l'.foldlM (fun b p => b.setFactor p.1 (some (.multi (r p) : AnyFactor II LL))) b := by
      intro l'
      induction l' with
      | nil => intro _ _; rfl
      | cons p l' ih =>
        intro b hsub
        rw [List.foldlM_cons, List.foldlM_cons]
        have h1 : DagModel.setOne b (some (.multi (r p) : AnyFactor II LL)) = b.setFactor p.1 (some (.multi (r p))) := by
          rw [DagModel.setOne, SCM.leftOf_fits (v := p.1) (IsTable.left_eq (hr p (hsub p List.mem_cons_self)).2)]; rfl
        rw [h1]
        cases b.setFactor p.1 (some (.multi (r p))) with
        | error e => rfl
        | ok b1 => exact ih b1 fun q hq => hsub q (List.mem_cons_of_mem _ hq)
    exact key l _ fun p hp => hp
  · have hv : v ∈ Dict.keys l := by
      have : v ∈ Dict.keys m.base.factors := Dict.get?_isSome.1 (by rw [hf]; rfl)
      rw [hl] at this
      simpa [Dict.keys, List.map_map, Function.comp_def] using this
    obtain ⟨f', hf'⟩ := Dict.mem_keys.1 hv
    have e1 := h.get_of_mem hB hl hk hf'
    rw [hf] at e1
    injection e1 with e1
    injection e1 with e1
    have hrf : r (v, f') = f := by
      have := (hr _ hf').1
      rw [show (v, f').2 = .multi f from e1.symm, AnyFactor.toMulti] at this
      injection this with this
      injection this with this
      exact this.symm
    show Dict.get? (m.base.graph.nodes.map fun w => (w, Dict.get? ((l.map fun p => (p.1, r p)).map fun p => (p.1, (.multi p.2 : AnyFactor II LL))) w)) v = _
    rw [Dict.get?_map, if_pos (by rw [h.nodes, ← hk]; exact hv)]
    congr 1
    refine Dict.get?_of_mem (by rw [hk2]; exact hB.nodes) (List.mem_map.2 ⟨(v, r (v, f')), List.mem_map.2 ⟨_, hf', rfl⟩, by rw [hrf]⟩)

/-- A multinomial factor is not changed by `set_factor`. -/
theorem SCM.prep_self {endo : List V} {cast check : Bool} {v : V} {f : AnyFactor II LL} (h : f.isDet = false) :
    prep endo cast check v f = f := by
  cases f with
  | det g => cases h
  | multi g =>
    rw [prep]
    have : ∀ f', prepare endo cast check v (some (.multi g : AnyFactor II LL)) = .ok (some f') → f' = .multi g := by
      intro f' hf
      rw [prepare] at hf
      split at hf
      · cases hd : g.isDegenerate with
        | error e => rw [hd] at hf; cases hf
        | ok b =>
          rw [hd, py_ok_bind] at hf
          cases b with
          | false => cases hf
          | true => injection hf with hf; injection hf with hf; exact hf.symm
      · injection hf with hf; injection hf with hf; exact hf.symm
    split
    · rename_i f' hf; exact this f' hf
    · rfl

/-- The factors of a network are multinomial tables. -/
theorem Represents.anyFacs {b : DagModel (AnyFactor II LL) V S} {B : BN V S K} (h : Represents (I := II) b B) (hB : B.Valid) :
    ∃ l : List (V × AnyFactor II LL), b.factors = l.map (fun p => (p.1, some p.2)) ∧ Dict.keys l = B.nodes ∧
      (∀ p ∈ l, AnyTable B p.1 p.2) := by
  have hk : Dict.keys b.factors = B.nodes := h.keys.trans h.nodes
  obtain ⟨l, h1, h2, h3⟩ := SCM.facs_of b.factors (B := B) (by rw [hk]; exact hB.nodes) (by
    rw [hk]
    intro v hv
    obtain ⟨f, g, f1, f2, f3⟩ := h.table v hv
    cases f with
    | multi g' => cases f2; exact ⟨_, f1, f3⟩
    | det g' => cases f2)
  exact ⟨l, h1, h2.trans hk, h3⟩

/-- The table of a deterministic factor has entries zero and one. -/
theorem DetTable.zero_one {B : BN V S K} (hB : B.Valid) {v : V} (hv : v ∈ B.nodes) {g : DetFactor LL}
    (h : DetTable B v g) : ∀ a, B.InStates a → B.table v a = 0 ∨ B.table v a = 1 := by
  intro a ha
  have hin : InDom g.dom a := fun p hp => by
    rw [h.dom p hp]
    rcases (h.vars _).1 (Dict.mem_keys_of_mem hp) with e | e
    · rw [e]; exact ha v hv
    · exact ha _ (hB.parents v hv _ e)
  obtain ⟨h1, h2⟩ := fullObs_of_states h.wf.dom.keys hin
  obtain ⟨y, _, hy⟩ := h.value _ h1
  have htab : B.table v (asg (g.dom.map fun p => (p.1, a p.1))) = B.table v a := by
    refine hB.scope v hv _ _ fun w hw => h2 w ((h.vars w).2 (List.mem_cons.1 hw))
  rw [htab] at hy
  rw [hy]
  cases y <;> simp

/-- The constructor refuses a dictionary with an endogenous table that is not zero-one. -/
theorem SCM.ofDict_refused {B : BN V S K} (hB : B.Valid) {g : DiGraph V} (hg : g.WF) (hgn : g.nodes = B.nodes)
    (hp : ∀ v ∈ B.nodes, ∀ p, p ∈ B.parents v ↔ (p, v) ∈ g.edges) {l : List (V × AnyFactor II LL)}
    (hk : (Dict.keys l).Perm B.nodes) (ht : ∀ p ∈ l, AnyTable B p.1 p.2) (endo : Option (List V)) (cast : Bool)
    (hbad : ∃ v ∈ endoOr g endo, v ∈ B.nodes ∧ ∃ a, B.InStates a ∧ B.table v a ≠ 0 ∧ B.table v a ≠ 1) :
    (ofDict g (l.map fun p => (p.1, some p.2)) endo cast true : Py (SCM II LL)) = .error .valueError := by
  have hacy : g.Acyclic := by
    intro v hv
    refine hB.acyclic v (Relation.TransGen.mono (fun u w huw => ?_) _ _ hv)
    have hw : w ∈ B.nodes := by rw [← hgn]; exact (hg.ends _ huw).2
    exact ⟨hw, (hp w hw u).2 huw⟩
  have hmem : ∀ p ∈ l, p.1 ∈ B.nodes := fun p hp => hk.mem_iff.1 (Dict.mem_keys_of_mem hp)
  have hn : (Dict.keys l).Nodup := hk.nodup_iff.2 hB.nodes
  rw [ofDict, init, DagModel.init_ok hg hacy, ← DagModel.after_nil g B.states true, py_ok_bind]
  show List.foldlM _ _ _ = _
  rw [List.foldlM_map]
  have key : ∀ (l' fs : List (V × AnyFactor II LL)), (∀ p ∈ l', p ∈ l) → (Dict.keys (fs ++ l')).Nodup →
      (∃ p ∈ l', p.1 ∈ endoOr g endo ∧ ∃ a, B.InStates a ∧ B.table p.1 a ≠ 0 ∧ B.table p.1 a ≠ 1) →
      l'.foldlM (fun (m : SCM II LL) p => m.setFactor p.1 (some p.2)) ⟨DagModel.after g B.states true fs, endoOr g endo, cast⟩ =
        .error .valueError := by
    intro l'
    induction l' with
    | nil => rintro fs _ _ ⟨p, hp, _⟩; simp at hp
    | cons p l' ih =>
      rintro fs hsub hnd hb
      have hpl := hsub p List.mem_cons_self
      rw [List.foldlM_cons]
      by_cases hbp : p.1 ∈ endoOr g endo ∧ ∃ a, B.InStates a ∧ B.table p.1 a ≠ 0 ∧ B.table p.1 a ≠ 1
      · obtain ⟨h1, a, h2, h3, h4⟩ := hbp
        have hprep : prepare (endoOr g endo) cast true p.1 (some p.2) = .error .valueError := by
          have htp := ht p hpl
          cases hf : p.2 with
          | multi f =>
            rw [hf] at htp
            rw [prepare, if_pos ⟨h1, rfl⟩]
            have hdg : f.isDegenerate = .ok false := by
              have hval : ∃ b, f.isDegenerate = .ok b := by
                rw [Factor.isDegenerate, Factor.valuesList_ok (storeOf_lawful vt) (IsTable.wf htp)]
                exact ⟨_, rfl⟩
              obtain ⟨b, hb⟩ := hval
              cases b with
              | false => exact hb
              | true => rcases IsTable.zero_one hB (hmem p hpl) htp hb a h2 with e | e
                        · exact absurd e h3
                        · exact absurd e h4
            rw [hdg]; rfl
          | det f =>
            rw [hf] at htp
            rcases DetTable.zero_one hB (hmem p hpl) htp a h2 with e | e
            · exact absurd e h3
            · exact absurd e h4
        have : (⟨DagModel.after g B.states true fs, endoOr g endo, cast⟩ : SCM II LL).setFactor p.1 (some p.2) = .error .valueError := by
          rw [setFactor]
          show (prepare (endoOr g endo) cast true p.1 (some p.2) >>= _) = _
          rw [hprep]; rfl
        rw [this]; rfl
      · have h01 : p.1 ∈ endoOr g endo → ∀ a, B.InStates a → B.table p.1 a = 0 ∨ B.table p.1 a = 1 := by
          intro h1 a ha
          by_contra hc
          rw [not_or] at hc
          exact hbp ⟨h1, a, ha, hc⟩
        obtain ⟨q1, q2, _⟩ := (ht p hpl).prepare hB (hmem p hpl) h01 cast true
        have hv : p.1 ∉ Dict.keys fs := by
          rw [Dict.keys_append, Dict.keys_cons] at hnd
          exact fun h => (List.disjoint_of_nodup_append hnd) h List.mem_cons_self
        have hset : (⟨DagModel.after g B.states true fs, endoOr g endo, cast⟩ : SCM II LL).setFactor p.1 (some p.2) =
            .ok ⟨DagModel.after g B.states true (fs ++ [(p.1, prep (endoOr g endo) cast true p.1 p.2)]), endoOr g endo, cast⟩ := by
          have := setAll (g := g) (D := B.states) (endo := endoOr g endo) (cast := cast) (check := true) [p] (fs := fs) (by simpa using q1)
            (by simpa using q2.fits (by rw [hgn]; exact hmem p hpl) (hp p.1 (hmem p hpl)))
            (by
              rw [Dict.keys_append]
              refine List.nodup_append.2 ⟨?_, by simp [Dict.keys], ?_⟩
              · rw [Dict.keys_append] at hnd; exact (List.nodup_append.1 hnd).1
              · intro x hx y hy
                simp only [Dict.keys, List.map_cons, List.map_nil, List.mem_singleton] at hy
                rintro rfl
                exact hv (hy ▸ hx))
          have hret : ∀ x : Py (SCM II LL), (x >>= fun m => Except.ok m) = x := fun x => by cases x <;> rfl
          rw [List.foldlM_cons] at this
          have := (hret _).symm.trans this
          simpa using this
        rw [hset, py_ok_bind]
        refine ih _ (fun q hq => hsub q (List.mem_cons_of_mem _ hq)) ?_ ?_
        · have : Dict.keys (fs ++ [(p.1, prep (endoOr g endo) cast true p.1 p.2)] ++ l') = Dict.keys (fs ++ p :: l') := by
            simp [Dict.keys]
          rw [this]; exact hnd
        · obtain ⟨q, hq, hq'⟩ := hb
          rcases List.mem_cons.1 hq with rfl | hq
          · exact absurd hq' hbp
          · exact ⟨q, hq, hq'⟩
  refine key l [] (fun p hp => hp) (by simpa using hn) ?_
  obtain ⟨v, hv, hvn, ha⟩ := hbad
  obtain ⟨f, hf⟩ := Dict.mem_keys.1 (hk.mem_iff.2 hvn)
  exact ⟨(v, f), hf, hv, ha⟩

end
end Verif
