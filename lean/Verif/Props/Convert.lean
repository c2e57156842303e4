import Verif.Model.Convert
import Verif.Props.Models
import Verif.Props.Exact
import Verif.Props.Pgmpy

/-!
# Conversions between causal models and networks, and models given by the text of their graph (C33, C94, C95)
-/

set_option linter.unusedSectionVars false
set_option linter.unusedSimpArgs false

namespace Verif.Props
open Verif

section
variable {V S K : Type} [DecidableEq V] [DecidableEq S] [Inhabited S] [Field K] [LinearOrder K] {vt : VType}

local notation "II" => (storeOf vt : StoreImpl V S (Fl K))
local notation "LL" => (labelStoreOf vt : LabelStore V S)

/-- Every variable with parents is a function of them: its table contains zeros and ones only. -/
def Functional (B : BN V S K) : Prop :=
  ∀ v ∈ B.nodes, B.parents v ≠ [] → ∀ a, B.InStates a → B.table v a = 0 ∨ B.table v a = 1

theorem not_functional {B : BN V S K} {g : DiGraph V} (hg : g.WF) (hp : ∀ v ∈ B.nodes, ∀ p, p ∈ B.parents v ↔ (p, v) ∈ g.edges)
    (h : ¬Functional B) : ∃ v ∈ SCM.endoOr g none, v ∈ B.nodes ∧ ∃ a, B.InStates a ∧ B.table v a ≠ 0 ∧ B.table v a ≠ 1 := by
  simp only [Functional, not_forall, not_or] at h
  obtain ⟨v, hv, hpv, a, ha, h0, h1⟩ := h
  obtain ⟨p, hp'⟩ := List.exists_mem_of_ne_nil _ hpv
  exact ⟨v, (SCM.mem_defaultEndo hg).2 ⟨p, (hp v hv p).1 hp'⟩, hv, a, ha, h0, h1⟩

/-! ### C33 -/

/-- **C33** `to_multinomial` gives a model of the same distribution exactly when every variable with parents is a function
of them, and raises ValueError otherwise. -/
theorem C33_exact {m : SCM II LL} {B : BN V S K} (h : m.Rep B) (hB : B.Valid) :
    (Functional B ↔ ∃ m', m.toMultinomial = .ok m') ∧ (Functional B ↔ ∃ m', m.toMultinomial = .ok m' ∧ m'.Rep B) ∧
      (¬Functional B ↔ m.toMultinomial = .error .valueError) := by
  have hy : Functional B → ∃ m', m.toMultinomial = .ok m' ∧ m'.Rep B := fun hf => by
    obtain ⟨m', h1, h2, _⟩ := C33_to_multinomial_partial h hB hf
    exact ⟨m', h1, h2⟩
  have hn : ¬Functional B → m.toMultinomial = .error .valueError := fun hf => by
    obtain ⟨l, hl, hk, ht⟩ := h.facs hB
    rw [SCM.toMultinomial, hl]
    exact SCM.ofDict_refused hB h.wf h.nodes h.parents (by rw [hk]) ht none true (not_functional h.wf h.parents hf)
  refine ⟨⟨fun hf => ?_, fun ⟨m', hm⟩ => ?_⟩, ⟨hy, fun ⟨m', hm, _⟩ => ?_⟩, hn, fun he hf => ?_⟩
  · obtain ⟨m', h1, _⟩ := hy hf; exact ⟨m', h1⟩
  · by_contra hc; rw [hn hc] at hm; cases hm
  · by_contra hc; rw [hn hc] at hm; cases hm
  · obtain ⟨m', h1, _⟩ := hy hf; rw [he] at h1; cases h1

/-! ### C94 -/

/-- **C94** `causal_to_bnet` turns every causal model into a network of multinomial tables with the same graph and the same
distribution, whatever variables are endogenous. -/
theorem C94_causal_to_bnet {m : SCM II LL} {B : BN V S K} (h : m.Rep B) (hB : B.Valid) :
    ∃ b, m.causalToBnet = .ok b ∧ b.graph = m.base.graph ∧ Represents (I := II) b B ∧
      ∀ v r, Dict.get? m.base.factors v = some (some (.multi r)) → Dict.get? b.factors v = some (some (.multi r)) :=
  h.causalToBnet hB

/-- **C94** `causal_to_bnet` refuses every model in which a factor is not set yet. -/
theorem C94_unset {m : SCM II LL} {v : V} (hv : (v, none) ∈ m.base.factors) (b : DagModel (AnyFactor II LL) V S) : m.causalToBnet ≠ .ok b := by
  intro h
  rw [SCM.causalToBnet] at h
  cases hf : m.base.factors.mapM fun p => SCM.slotMulti p.2 with
  | error e => rw [hf] at h; cases h
  | ok fs =>
    have hmem : none ∈ fs := by
      clear h
      generalize m.base.factors = l at hv hf
      induction l generalizing fs with
      | nil => cases hv
      | cons p l ih =>
        rw [List.mapM_cons] at hf
        cases h1 : SCM.slotMulti p.2 with
        | error e => rw [h1] at hf; cases hf
        | ok x =>
          rw [h1, py_ok_bind] at hf
          cases h2 : l.mapM fun p => SCM.slotMulti p.2 with
          | error e => rw [h2] at hf; cases hf
          | ok xs =>
            rw [h2, py_ok_bind] at hf
            injection hf with hf
            subst hf
            rcases List.mem_cons.1 hv with rfl | hv
            · injection h1 with h1; subst h1; exact List.mem_cons_self
            · exact List.mem_cons_of_mem _ (ih xs hv h2)
    rw [hf, py_ok_bind] at h
    cases hi : DagModel.init (F := AnyFactor II LL) (S := S) m.base.graph true with
    | error e => rw [hi] at h; cases h
    | ok b0 =>
      rw [hi, py_ok_bind] at h
      clear hf hi hv
      induction fs generalizing b0 with
      | nil => cases hmem
      | cons x fs ih =>
        rw [List.foldlM_cons] at h
        cases h1 : b0.setOne x with
        | error e => rw [h1] at h; cases h
        | ok b1 =>
          rw [h1, py_ok_bind] at h
          rcases List.mem_cons.1 hmem with rfl | hmem
          · cases h1
          · exact ih hmem b1 h

/-- **C94** `bnet_to_causal` accepts a network exactly when every variable with parents is a function of them; then the
causal model has the same graph and the same distribution and its exogenous variables are those without parents. Otherwise
it raises ValueError. -/
theorem C94_bnet_to_causal {b : DagModel (AnyFactor II LL) V S} {B : BN V S K} (h : Represents (I := II) b B) (hB : B.Valid) :
    (Functional B → ∃ m, SCM.fromModel b = .ok m ∧ m.Rep B ∧ m.base.graph = b.graph ∧ m.base.factors = b.factors ∧
      (∀ v, v ∈ m.exogenous ↔ v ∈ B.nodes ∧ B.parents v = [])) ∧
    (¬Functional B → SCM.fromModel b = .error .valueError) := by
  obtain ⟨l, hl, hk, ht⟩ := h.anyFacs hB
  have hmulti : ∀ p ∈ l, p.2.isDet = false := by
    intro p hp
    have hpn : p.1 ∈ B.nodes := hk ▸ Dict.mem_keys_of_mem hp
    obtain ⟨f, g, f1, f2, _⟩ := h.table p.1 hpn
    have hg : Dict.get? b.factors p.1 = some (some p.2) := by
      rw [hl]
      refine Dict.get?_of_mem ?_ (List.mem_map.2 ⟨p, hp, rfl⟩)
      have : Dict.keys (l.map fun p => (p.1, some p.2)) = B.nodes := by
        rw [← hk]; simp [Dict.keys, List.map_map, Function.comp_def]
      rw [this]; exact hB.nodes
    rw [hg] at f1
    injection f1 with f1
    injection f1 with f1
    rw [f1]
    cases f with
    | multi g' => rfl
    | det g' => cases f2
  refine ⟨fun hf => ?_, fun hf => ?_⟩
  · have hde : ∀ v, v ∈ SCM.endoOr b.graph none ↔ v ∈ B.nodes ∧ B.parents v ≠ [] := by
      intro v
      refine (SCM.mem_defaultEndo h.wf).trans ⟨fun ⟨p, hp⟩ => ?_, fun ⟨hv, hp⟩ => ?_⟩
      · have hv : v ∈ B.nodes := by rw [← h.nodes]; exact (h.wf.ends _ hp).2
        exact ⟨hv, List.ne_nil_of_mem ((h.parents v hv p).2 hp)⟩
      · obtain ⟨p, hp⟩ := List.exists_mem_of_ne_nil _ hp
        exact ⟨p, (h.parents v hv p).1 hp⟩
    obtain ⟨h1, _, h3⟩ := SCM.rep_built hB h.wf h.nodes h.parents (by rw [hk]) ht none true true
      (fun v hv hvn => hf v hvn ((hde v).1 hv).2) rfl
    refine ⟨_, by rw [SCM.fromModel, hl]; exact h1, h3, rfl, ?_, fun v => ?_⟩
    · have hp : ∀ p ∈ l, SCM.prep (SCM.endoOr b.graph none) true true p.1 p.2 = p.2 := by
        intro p hp
        exact SCM.prep_self (hmulti p hp)
      have hmap : (l.map fun p => (p.1, SCM.prep (SCM.endoOr b.graph none) true true p.1 p.2)) = l := by
        conv_rhs => rw [← List.map_id l]
        refine List.map_congr_left fun p hpm => ?_
        rw [hp p hpm]; rfl
      show (DagModel.after b.graph B.states true (l.map fun p => (p.1, SCM.prep (SCM.endoOr b.graph none) true true p.1 p.2))).factors = _
      rw [hmap]
      show (b.graph.nodes.map fun v => (v, Dict.get? l v)) = _
      rw [hl, h.nodes, ← hk, Dict.keys, List.map_map]
      refine List.map_congr_left fun p hpm => ?_
      show (p.1, Dict.get? l p.1) = (p.1, some p.2)
      rw [Dict.get?_of_mem (by rw [hk]; exact hB.nodes) hpm]
    · rw [SCM.exogenous, List.mem_filter]
      show v ∈ b.graph.nodes ∧ decide (v ∉ SCM.endoOr b.graph none) = true ↔ _
      rw [decide_eq_true_eq, hde, h.nodes]
      constructor
      · rintro ⟨h1, h2⟩
        exact ⟨h1, by_contra fun hc => h2 ⟨h1, hc⟩⟩
      · rintro ⟨h1, h2⟩
        exact ⟨h1, fun hc => hc.2 h2⟩
  · rw [SCM.fromModel, hl]
    exact SCM.ofDict_refused hB h.wf h.nodes h.parents (by rw [hk]) ht none true (not_functional h.wf h.parents hf)

/-- **C94** a network that `bnet_to_causal` accepts comes back from `causal_to_bnet` with the same graph and factors. -/
theorem C94_net_round_trip {b : DagModel (AnyFactor II LL) V S} {B : BN V S K} (h : Represents (I := II) b B) (hB : B.Valid)
    {m : SCM II LL} (hm : SCM.fromModel b = .ok m) :
    ∃ b', m.causalToBnet = .ok b' ∧ b'.graph = b.graph ∧ Represents (I := II) b' B ∧
      ∀ v ∈ B.nodes, Dict.get? b'.factors v = Dict.get? b.factors v := by
  obtain ⟨h1, h2⟩ := C94_bnet_to_causal h hB
  have hf : Functional B := by by_contra hc; rw [h2 hc] at hm; cases hm
  obtain ⟨m', e, r1, r2, r3, _⟩ := h1 hf
  rw [hm] at e
  injection e with e
  subst e
  obtain ⟨b', k1, k2, k3, k4⟩ := C94_causal_to_bnet r1 hB
  refine ⟨b', k1, k2.trans r2, k3, fun v hv => ?_⟩
  obtain ⟨f, g, f1, f2, _⟩ := h.table v hv
  cases f with
  | multi g' => rw [f1]; exact k4 v g' (by rw [r3]; exact f1)
  | det g' => cases f2

/-- **C94** a causal model goes to a network and comes back with the same graph and distribution exactly when every variable
with parents is a function of them. -/
theorem C94_model_round_trip {m : SCM II LL} {B : BN V S K} (h : m.Rep B) (hB : B.Valid) :
    Functional B ↔ ∃ m', (do let b ← m.causalToBnet; SCM.fromModel b) = .ok m' ∧ m'.Rep B ∧ m'.base.graph = m.base.graph := by
  obtain ⟨b, k1, k2, k3, _⟩ := C94_causal_to_bnet h hB
  obtain ⟨h1, h2⟩ := C94_bnet_to_causal k3 hB
  rw [k1, py_ok_bind]
  refine ⟨fun hf => ?_, fun ⟨m', hm, _⟩ => ?_⟩
  · obtain ⟨m', r1, r2, r3, _⟩ := h1 hf
    exact ⟨m', r1, r2, r3.trans k2⟩
  · by_contra hc; rw [h2 hc] at hm; cases hm

end

/-- The hypotheses are met, before and after an intervention; the intervened model keeps a deterministic factor for a root,
which `to_multinomial` leaves as it is (`C33_root_not_cast`) and `causal_to_bnet` converts. -/
theorem C94_example (vt : VType) :
    (do let m ← exScm vt none false
        let m ← m.intervention [(sY, '1')]
        let b ← m.causalToBnet
        return (b.factors.map fun p : _ × _ => (p.1, SCM.slotDet p.2))) =
      .ok [(sU, false), (sW, false), (sX, false), (sY, false), (sZ, false)] ∧
    (do let m ← exParents vt
        let b ← m.causalToBnet
        return (b.graph.edges, (SCM.fromModel b).map fun _ => ())) = .ok ([(sU, sW), (sW, sX)], .error .valueError) := by
  cases vt <;> decide +kernel

/-- **C94** (example) a model without its factors -/
theorem C94_unset_example : ∀ vt, (do
    let m ← SCM.init (I := IS vt PyStr) (L := LS vt PyStr) ⟨[sU, sX], [(sU, sX)]⟩ none true true
    let b ← m.causalToBnet
    return b.graph) = .error .attributeError := by
  intro vt
  cases vt <;> decide +kernel

theorem C94_holds (vt : VType) (cast : Bool) : ∃ (m : SCM (IS vt PyStr) (LS vt PyStr)) (B : BN PyStr Char ℚ)
    (b : DagModel (AnyFactor (IS vt PyStr) (LS vt PyStr)) PyStr Char), m.Rep B ∧ B.Valid ∧ Functional B ∧ m.causalToBnet = .ok b ∧
      Represents (I := IS vt PyStr) b B := by
  obtain ⟨m, B, _, h2, h3, _, _, h6, h7⟩ := ex_model vt cast
  obtain ⟨b, k1, k2, k3, _⟩ := C94_causal_to_bnet h2 h3
  refine ⟨m, B, b, h2, h3, fun v hv hp => ?_, k1, k3⟩
  refine h2.equations v ?_ hv
  obtain ⟨p, hp⟩ := List.exists_mem_of_ne_nil _ hp
  have := (h2.parents v hv p).1 hp
  rw [h7] at this
  rw [h6]
  have hall : ∀ e ∈ gScm.edges, e.2 ∈ [sX, sY, sZ] := by decide
  exact hall _ this

/-! ### C95 -/

section
variable {S K : Type} [DecidableEq S] [Inhabited S] [Field K] [LinearOrder K] {vt : VType}

local notation "II" => (storeOf vt : StoreImpl Str S (Fl K))
local notation "LL" => (labelStoreOf vt : LabelStore Str S)

/-- **C95** a network is rebuilt from the text of its graph and its factors exactly when every variable has an arc; then it
has the same parents, states and tables. Otherwise NetworkXError is raised. -/
theorem C95_network {b : DagModel (AnyFactor II LL) Str S} {B : BN Str S K} (h : Represents (I := II) b B) (hB : B.Valid)
    (hn : ∀ v ∈ B.nodes, NameOk v) (h2 : 2 ≤ B.nodes.length) :
    ∃ s, b.getDagStr = .ok s ∧
      ((∀ v ∈ B.nodes, B.parents v ≠ [] ∨ ∃ w ∈ B.nodes, v ∈ B.parents w) → ∃ b' nodes, DagModel.ofDictText s b.factors true = .ok b' ∧
        nodes.Perm B.nodes ∧ Represents (I := II) b' (B.reorder nodes)) ∧
      (¬(∀ v ∈ B.nodes, B.parents v ≠ [] ∨ ∃ w ∈ B.nodes, v ∈ B.parents w) → DagModel.ofDictText s b.factors true = .error .networkx) := by
  obtain ⟨s, g, s1, s2, hg, he, hgn⟩ := C22_roundtrip_partial h.wf (by rw [h.nodes]; exact hn) (by rw [h.nodes]; exact h2)
  obtain ⟨l, hl, hk, ht⟩ := h.anyFacs hB
  have hmem : ∀ p ∈ l, p.1 ∈ B.nodes := fun p hp => hk ▸ Dict.mem_keys_of_mem hp
  have hgs : ∀ v ∈ g.nodes, v ∈ B.nodes := by
    intro v hv
    obtain ⟨e, h1, h3⟩ := (hgn v).1 hv
    rw [← h.nodes]
    rcases h3 with rfl | rfl
    · exact (h.wf.ends e h1).1
    · exact (h.wf.ends e h1).2
  have harc : ∀ v ∈ B.nodes, (v ∈ g.nodes ↔ B.parents v ≠ [] ∨ ∃ w ∈ B.nodes, v ∈ B.parents w) := by
    intro v hv
    rw [hgn]
    constructor
    · rintro ⟨⟨x, y⟩, h1, h3⟩
      have hy : y ∈ B.nodes := by rw [← h.nodes]; exact (h.wf.ends _ h1).2
      have hxy := (h.parents y hy x).2 h1
      rcases h3 with rfl | rfl
      · exact .inr ⟨y, hy, hxy⟩
      · exact .inl (List.ne_nil_of_mem hxy)
    · rintro (h1 | ⟨w, hw, h1⟩)
      · obtain ⟨p, hp⟩ := List.exists_mem_of_ne_nil _ h1
        exact ⟨(p, v), (h.parents v hv p).1 hp, .inr rfl⟩
      · exact ⟨(v, w), (h.parents w hw v).1 h1, .inl rfl⟩
  refine ⟨s, s1, fun hcon => ?_, fun hcon => ?_⟩
  · have hperm : g.nodes.Perm B.nodes :=
      (List.perm_ext_iff_of_nodup hg.nodes hB.nodes).2 fun v => ⟨hgs v, fun hv => (harc v hv).2 (hcon v hv)⟩
    have ht' : ∀ p ∈ l, AnyTable (B.reorder g.nodes) p.1 p.2 := by
      intro p hp
      have := ht p hp
      cases hq : p.2 with
      | multi f =>
        rw [hq] at this
        have this : IsTable B p.1 f := this
        exact ⟨this.wf, this.left, this.right, this.vars, this.dom, this.value⟩
      | det f =>
        rw [hq] at this
        have this : DetTable B p.1 f := this
        exact ⟨this.wf, this.left, this.right, this.vars, this.dom, this.value⟩
    have hpar : ∀ v ∈ (B.reorder g.nodes).nodes, ∀ p, p ∈ (B.reorder g.nodes).parents v ↔ (p, v) ∈ g.edges := fun v hv p => by
      rw [he]; exact h.parents v (hperm.mem_iff.1 hv) p
    have hk' : (Dict.keys l).Perm (B.reorder g.nodes).nodes := by rw [hk]; exact hperm.symm
    have r1 := DagModel.ofDict_tables (hB.reorder hperm) hg rfl hpar hk' ht' true
    refine ⟨_, g.nodes, by rw [DagModel.ofDictText, s2, py_ok_bind, hl]; exact r1, hperm, ⟨hg, rfl, hpar, ?_, fun v hv => ?_⟩⟩
    · simp [DagModel.after, Dict.keys, Function.comp_def]
    · obtain ⟨f, f', f1, f2, f3⟩ := h.table v (hperm.mem_iff.1 hv)
      refine ⟨f, f', ?_, f2, ⟨f3.wf, f3.left, f3.right, f3.vars, f3.dom, f3.value⟩⟩
      show Dict.get? (g.nodes.map fun w => (w, Dict.get? l w)) v = _
      rw [Dict.get?_map, if_pos (show v ∈ g.nodes from hv)]
      congr 1
      rw [hl] at f1
      have := Dict.mem_of_get? f1
      obtain ⟨p, hp, e⟩ := List.mem_map.1 this
      injection e with e1 e2
      injection e2 with e2
      subst e1 e2
      exact Dict.get?_of_mem (by rw [hk]; exact hB.nodes) hp
  · have hacy : g.Acyclic := by
      intro v hv
      refine hB.acyclic v (Relation.TransGen.mono (fun u w huw => ?_) _ _ hv)
      have hw : w ∈ B.nodes := hgs w (hg.ends _ huw).2
      exact ⟨hw, (h.parents w hw u).2 ((he _).1 huw)⟩
    rw [DagModel.ofDictText, s2, py_ok_bind, hl, DagModel.ofDict, DagModel.init_ok hg hacy, ← DagModel.after_nil g B.states true, py_ok_bind,
      DagModel.setFactorsDict, List.foldlM_map]
    refine DagModel.setAll_outside l (fun p hp hpg => (ht p hp).fits hpg fun q => ?_) (by rw [List.nil_append, hk]; exact hB.nodes) ?_
    · rw [he]; exact h.parents p.1 (hmem p hp) q
    · by_contra hc
      refine hcon fun v hv => (harc v hv).1 ?_
      by_contra hv'
      obtain ⟨f, hf⟩ := Dict.mem_keys.1 (hk ▸ hv : v ∈ Dict.keys l)
      exact hc ⟨(v, f), hf, hv'⟩

end

section
variable {S α : Type} [DecidableEq S] [Inhabited α] [Zero α] [One α] [DecidableEq α] {I : StoreImpl Str S α} {L : LabelStore Str S}

/-- **C95** (violation) a structural causal model cannot be built from the text of a graph without naming the endogenous
variables, whatever the text and the factors. -/
theorem C95_scm_text_fails (s : Str) (fs : List (Str × Option (AnyFactor I L))) (cast check : Bool) (m : SCM I L) :
    SCM.ofDictText s fs none cast check ≠ .ok m ∧ SCM.ofDictText s fs (some []) cast check ≠ .ok m := by
  have hs : ∀ g, str2dag s = .ok g → s ≠ [] := by
    rintro g hg rfl
    have : str2dag [] = .error .indexError := by decide
    rw [this] at hg; cases hg
  constructor <;>
  · intro h
    rw [SCM.ofDictText] at h
    cases h1 : str2dag s with
    | error e => rw [h1] at h; cases h
    | ok g =>
      rw [h1, py_ok_bind] at h
      cases h2 : (DagModel.init g check : Py (DagModel (AnyFactor I L) Str S)) with
      | error e => rw [h2] at h; cases h
      | ok b =>
        rw [h2, py_ok_bind] at h
        have : ∀ e, (SCM.endoText s e = .error .attributeError) ∨ ∃ v l, e = some (v :: l) := by
          intro e
          match e with
          | none => exact .inl (by rw [SCM.endoText, if_neg (hs g h1)]; simp)
          | some [] => exact .inl (by rw [SCM.endoText, if_neg (hs g h1)]; simp)
          | some (v :: l) => exact .inr ⟨v, l, rfl⟩
        first
        | rcases this none with e | ⟨v, l, e⟩
          · rw [e] at h; cases h
          · cases e
        | rcases this (some []) with e | ⟨v, l, e⟩
          · rw [e] at h; cases h
          · cases e

/-- **C95** with the endogenous variables named, the text of a graph gives the model of the graph. -/
theorem C95_scm_text_named {s : Str} {g : DiGraph Str} (hs : str2dag s = .ok g) (fs : List (Str × Option (AnyFactor I L)))
    {endo : List Str} (he : endo ≠ []) (cast check : Bool) :
    SCM.ofDictText s fs (some endo) cast check = (SCM.ofDict g fs (some endo) cast check : Py (SCM I L)) := by
  match endo, he with
  | v :: l, _ =>
    rw [SCM.ofDictText, hs, py_ok_bind, SCM.ofDict, SCM.init]
    cases h2 : (DagModel.init g check : Py (DagModel (AnyFactor I L) Str S)) with
    | error e => rfl
    | ok b => rfl

end

/-- The hypotheses of `C95_network` are met. -/
theorem C95_holds (vt : VType) (cast : Bool) : ∃ (B : BN PyStr Char ℚ)
    (b : DagModel (AnyFactor (IS vt PyStr) (LS vt PyStr)) PyStr Char), B.Valid ∧ Represents (I := IS vt PyStr) b B ∧
      (∀ v ∈ B.nodes, NameOk v) ∧ 2 ≤ B.nodes.length := by
  obtain ⟨m, B, _, h2, h3, _, _, _, h7⟩ := ex_model vt cast
  obtain ⟨b, _, _, k3, _⟩ := C94_causal_to_bnet h2 h3
  have hn : B.nodes = gScm.nodes := by rw [← h2.nodes, h7]
  exact ⟨B, b, h3, k3, by rw [hn]; decide, by rw [hn]; decide⟩

/-- The network of a causal model is rebuilt from its text, the network of its intervention on `Y` (where `W` has no arc) is
not, and the causal model itself is rebuilt only if its endogenous variables are named. -/
theorem C95_example (vt : VType) :
    (do let m ← exScm vt none true
        let b ← m.causalToBnet
        let s ← b.getDagStr
        let b' ← DagModel.ofDictText s b.factors true
        return (s, b'.graph.nodes)) = .ok ("[U][W][X|U][Y|X:W][Z|Y:U]".toList, [sU, sX, sY, sW, sZ]) ∧
    (do let m ← exScm vt none true
        let m ← m.intervention [(sY, '1')]
        let b ← m.causalToBnet
        let s ← b.getDagStr
        return (s, (DagModel.ofDictText s b.factors true).map fun _ => ())) = .ok ("[U][W][X|U][Y][Z|Y:U]".toList, .error .networkx) ∧
    (do let m ← exScm vt none true
        let s ← m.base.getDagStr
        return ((SCM.ofDictText s m.base.factors none true true : Py (SCM (IS vt PyStr) (LS vt PyStr))).map SCM.exogenous,
          (SCM.ofDictText s m.base.factors (some [sX, sY, sZ]) true true : Py (SCM (IS vt PyStr) (LS vt PyStr))).map SCM.exogenous)) =
      .ok (.error .attributeError, .ok [sU, sW]) := by
  cases vt <;> decide +kernel

end Verif.Props
