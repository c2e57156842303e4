import Verif.Model.Twin
import Verif.Inference.QueryLemmas
import Verif.Props.Inference

/-!
# Causal and counterfactual queries: helper lemmas
-/

set_option linter.unusedSectionVars false
set_option linter.unusedSimpArgs false

namespace Verif

variable {V S K : Type} [DecidableEq V] [DecidableEq S] [Inhabited S] [Field K] [LinearOrder K] {vt : VType}

local notation "II" => (storeOf vt : StoreImpl V S (Fl K))
local notation "LL" => (labelStoreOf vt : LabelStore V S)

/-- A structural causal model: the object `m` represents the network `B`, the tables of the nodes with parents are
equations (entries zero and one) and those of the roots are multinomial factors. -/
structure CausalOk (m : SCM II LL) (B : BN V S K) : Prop where
  rep : m.Rep B
  valid : B.Valid
  norm : B.Normalised
  equations : ∀ v ∈ B.inner, ∀ a, B.InStates a → B.table v a = 0 ∨ B.table v a = 1
  rootTables : ∀ v ∈ B.roots, ∀ f, Dict.get? m.base.factors v = some (some f) → f.isDet = false

namespace BN

theorem mem_roots {B : BN V S K} {v : V} : v ∈ B.roots ↔ v ∈ B.nodes ∧ B.parents v = [] := by simp [roots]

theorem mem_inner {B : BN V S K} {v : V} : v ∈ B.inner ↔ v ∈ B.nodes ∧ B.parents v ≠ [] := by simp [inner]

theorem roots_inner (B : BN V S K) : B.nodes.Perm (B.roots ++ B.inner) := by
  have := List.filter_append_perm (fun v => decide (B.parents v = [])) B.nodes
  refine this.symm.trans (List.Perm.append_left _ (List.Perm.of_eq ?_))
  exact List.filter_congr fun v _ => by simp

/-- Conditioning on the imposed states is no restriction. -/
theorem doMarg_over {B : BN V S K} (hB : B.Valid) {d : Obs V S} (hd : B.DoOk d) (hk : ∀ v ∈ Dict.keys d, v ∈ B.nodes) {vs ws : List V}
    (hw : ∀ v ∈ B.nodes, v ∈ ws ↔ v ∈ vs ∨ v ∈ Dict.keys d) {a : V → S} (ha : ∀ v ∈ vs, ∀ s, Dict.get? d v = some s → a v = s) :
    B.doMarg d ws (over d a) = B.doMarg d vs a := by
  have hnd : (B.nodes.filter (· ∉ vs)).Nodup := hB.nodes.filter _
  have hfix := sumOver_fixed (D := B.states) hnd (fun x hx => hB.nodupStates x (List.mem_filter.1 hx).1) (vs := Dict.keys d) (a := over d a)
    (fun v hv hvd => by
      obtain ⟨s, hs⟩ := Option.isSome_iff_exists.1 (Dict.get?_isSome.2 hvd)
      rw [over_of_get? hs]
      exact hd v s hs (List.mem_filter.1 hv).1) (B.doJoint d) a
  have e1 : (fun v => if v ∈ B.nodes.filter (· ∉ vs) ∧ v ∈ Dict.keys d then over d a v else a v) = over d a := by
    funext v
    split
    · rfl
    · rename_i hc
      by_cases hvd : v ∈ Dict.keys d
      · obtain ⟨s, hs⟩ := Option.isSome_iff_exists.1 (Dict.get?_isSome.2 hvd)
        rw [over_of_get? hs]
        refine ha v ?_ s hs
        by_contra hvs
        exact hc ⟨List.mem_filter.2 ⟨hk v hvd, by simpa using hvs⟩, hvd⟩
      · rw [over_of_not_mem hvd]
  have e2 : (B.nodes.filter (· ∉ vs)).filter (· ∉ Dict.keys d) = B.nodes.filter (· ∉ ws) := by
    rw [List.filter_filter]
    exact List.filter_congr fun v hv => by
      have := hw v hv
      by_cases h1 : v ∈ vs <;> by_cases h2 : v ∈ Dict.keys d <;> simp [h1, h2] at this ⊢ <;> exact this
  rw [e1, e2] at hfix
  rw [doMarg, ← hfix, doMarg]
  refine sumOver_congr hnd fun u hu _ => ?_
  split
  · rfl
  · rename_i hc
    rw [doJoint, if_neg]
    intro hag
    refine hc fun v hv hvd => ?_
    obtain ⟨s, hs⟩ := Option.isSome_iff_exists.1 (Dict.get?_isSome.2 hvd)
    rw [over_of_get? hs]; exact hag v s hs

/-- Evidence against the intervention has probability zero. -/
theorem doMarg_conflict {B : BN V S K} (hB : B.Valid) {d : Obs V S} {vs : List V} {a : V → S} {v : V} {s : S} (hv : v ∈ vs)
    (hs : Dict.get? d v = some s) (ha : a v ≠ s) : B.doMarg d vs a = 0 := by
  refine (sumOver_congr (g := fun _ => 0) (hB.nodes.filter _) fun u hu _ => ?_).trans (sumOver_zero _ _)
  rw [doJoint, if_neg]
  intro hag
  refine ha ?_
  rw [← hag v s hs, hu v fun hc => by simpa [hv] using (List.mem_filter.1 hc).2]

theorem doMarg_dep {B : BN V S K} (hB : B.Valid) {d : Obs V S} (hk : ∀ v ∈ Dict.keys d, v ∈ B.nodes) (vs : List V) :
    DependsOn (B.doMarg d vs) vs := by
  intro a b h
  have := (hB.doBN d).marg_dep vs a b h
  rw [BN.marg, BN.marg] at this
  rw [doMarg, doMarg, sumOver_congr' (g := (B.doBN d).joint) fun c => (BN.doBN_joint hk c).symm,
    sumOver_congr' (g := (B.doBN d).joint) fun c => (BN.doBN_joint hk c).symm]
  exact this

theorem doMarg_eq {B : BN V S K} {d : Obs V S} (hk : ∀ v ∈ Dict.keys d, v ∈ B.nodes) (vs : List V) (a : V → S) :
    (B.doBN d).marg vs a = B.doMarg d vs a := sumOver_congr' (fun c => BN.doBN_joint hk c) a

end BN

namespace Causal

/-- The model that the queries use. -/
theorem new_ok {m : SCM II LL} {B : BN V S K} (h : CausalOk m B) : ∃ m', new m = .ok m' ∧ m'.Rep B ∧ m'.Multi ∧
    m'.base.graph = m.base.graph ∧ m'.endogenous = B.inner ∧ m'.exogenous = B.roots := by
  obtain ⟨m', h1, h2, h3, h4, _, h6⟩ := h.rep.toMultinomial h.valid fun v hv hp => h.equations v (BN.mem_inner.2 ⟨hv, hp⟩)
  have hn : m.base.graph.nodes = B.nodes := h.rep.nodes
  have he : m'.endogenous = B.inner := by
    rw [h4, SCM.defaultEndo, hn, BN.inner]
    refine List.filter_congr fun v hv => ?_
    have : v ∈ SCM.defaultEndo m.base.graph ↔ B.parents v ≠ [] := by
      rw [SCM.mem_defaultEndo h.rep.wf]
      constructor
      · rintro ⟨p, hp⟩; exact List.ne_nil_of_mem ((h.rep.parents v hv p).2 hp)
      · intro hne
        obtain ⟨p, hp⟩ := List.exists_mem_of_ne_nil _ hne
        exact ⟨p, (h.rep.parents v hv p).1 hp⟩
    rw [SCM.defaultEndo, List.mem_filter, hn] at this
    simp only [hv, true_and] at this
    by_cases hc : B.parents v ≠ []
    · have := this.2 hc; simp_all
    · have h' := mt this.1 hc; simp_all
  refine ⟨m', h1, h2, fun v f hf => ?_, h3, he, ?_⟩
  · have hv : v ∈ B.nodes := by
      rw [← h2.nodes, ← h2.keys]; exact Dict.mem_keys_of_mem (Dict.mem_of_get? hf)
    by_cases hc : B.parents v = []
    · exact h.rootTables v (BN.mem_roots.2 ⟨hv, hc⟩) f ((h6 v f hf).2 hc)
    · exact (h6 v f hf).1 hc
  · rw [SCM.exogenous, he, h3, hn, BN.roots]
    exact List.filter_congr fun v hv => by
      by_cases hc : B.parents v = [] <;> simp [BN.mem_inner, hv, hc]

end Causal
end Verif
