import Verif.Learn.EMData

/-!
# When a step of expectation maximisation fails

`expectation_maximization.py:63-67`: the posterior of those of the variable and its parents that are not observed is asked
for, even if there are none.
-/

set_option linter.unusedSectionVars false
set_option linter.unusedSimpArgs false

namespace Verif

/-- What a loop that succeeds has done: with an invariant of the state, every element was treated successfully. -/
theorem foldlM_inv {σ X : Type} {f : σ → X → Py σ} (P : σ → Prop) (hP : ∀ s x s', P s → f s x = .ok s' → P s') :
    ∀ (l : List X) {s s' : σ}, P s → l.foldlM f s = .ok s' → ∀ x ∈ l, ∃ t t', P t ∧ f t x = .ok t'
  | [], _, _, _, _, _, hx => by cases hx
  | y :: l, s, s', hs, h, x, hx => by
    rw [List.foldlM_cons] at h
    cases hy : f s y with
    | error e => rw [hy] at h; cases h
    | ok t =>
      rw [hy, py_ok_bind] at h
      rcases List.mem_cons.1 hx with rfl | hx
      · exact ⟨s, t, hs, hy⟩
      · exact foldlM_inv P hP l (hP s y t hs hy) h x hx

theorem forall₂_left {X Y : Type} {R : X → Y → Prop} {l : List X} {r : List Y} (h : List.Forall₂ R l r) :
    ∀ x ∈ l, ∃ y ∈ r, R x y := by
  induction h with
  | nil => intro x hx; cases hx
  | cons hxy _ ih =>
    intro x hx
    rcases List.mem_cons.1 hx with rfl | hx
    · exact ⟨_, List.mem_cons_self, hxy⟩
    · obtain ⟨y, h1, h2⟩ := ih x hx
      exact ⟨y, List.mem_cons_of_mem _ h1, h2⟩

/-- An invariant holds at the end. -/
theorem foldlM_last {σ X : Type} {f : σ → X → Py σ} (P : σ → Prop) (hP : ∀ s x s', P s → f s x = .ok s' → P s') :
    ∀ (l : List X) {s s' : σ}, P s → l.foldlM f s = .ok s' → P s'
  | [], _, _, hs, h => by cases h; exact hs
  | y :: l, s, s', hs, h => by
    rw [List.foldlM_cons] at h
    cases hy : f s y with
    | error e => rw [hy] at h; cases h
    | ok t =>
      rw [hy, py_ok_bind] at h
      exact foldlM_last P hP l (hP s y t hs hy) h

section
variable {V S K : Type} [DecidableEq V] [DecidableEq S] [Nonempty S] [Field K] [LinearOrder K] {vt : VType}

local notation "II" => (storeOf vt : StoreImpl V S (Fl K))

/-- Without a target every node is irrelevant. -/
theorem mem_irrelevant_nil {g : DiGraph V} (evs : List V) {v : V} (hv : v ∈ g.nodes) : v ∈ irrelevant g [] evs := by
  rw [irrelevant]
  simp only [List.mem_filter, List.mem_append, List.not_mem_nil, not_false_iff, decide_true, and_true]
  by_cases hb : v ∈ g.barrenNodes ([] ++ evs)
  · exact .inl hb
  · refine .inr (List.mem_filter.2 ⟨List.mem_filter.2 ⟨hv, by simpa using hb⟩, ?_⟩)
    simp [DiGraph.connected]

/-- A query without target fails: no factor is left. -/
theorem query_nil {F : Type} [VEFactor F II] (ch : Choices V) (o : VEObj F II) {B : BN V S K} (hr : Represents o.model B)
    (e : Option (Obs V S)) : (o.query ch [] e).2 =
      .error (if ∀ v ∈ Dict.keys (e.getD []), v ∈ B.nodes then .typeError else .nodeNotFound) := by
  set ev := e.getD [] with hev
  by_cases hk : ∀ v ∈ Dict.keys ev, v ∈ B.nodes
  · have hirr : ∀ v ∈ o.model.graph.nodes, v ∈ irrelevant o.model.graph [] (Dict.keys ev) := fun v hv =>
      mem_irrelevant_nil _ hv
    have hdag : (o.model.graph.removeOutgoing (Dict.keys ev)).removeNodes (irrelevant o.model.graph [] (Dict.keys ev)) = ⟨[], []⟩ := by
      simp only [DiGraph.removeNodes, DiGraph.removeOutgoing, DiGraph.mk.injEq, List.filter_eq_nil_iff]
      refine ⟨fun v hv => by simpa using hirr v hv, fun e he => ?_⟩
      have he := (List.mem_filter.1 he).1
      have := hirr _ (hr.wf.ends e he).1
      simp [this]
    have hfs : (o.model.factors.filter fun p => p.1 ∉ irrelevant o.model.graph [] (Dict.keys ev)) = [] := by
      rw [List.filter_eq_nil_iff]
      intro p hp
      have : p.1 ∈ o.model.graph.nodes := by rw [← hr.keys]; exact Dict.mem_keys_of_mem hp
      simpa using hirr _ this
    have hm : minimalize o.model [] ev = (.ok ⟨⟨[], []⟩, [], [], false⟩ : Py (DagModel (Factor II) V S)) := by
      rw [minimalize]
      simp only [hfs, hdag]
      rfl
    have hc : o.compile [] (some ev) = ({ o with target := some [], evidence := ev, infModel := some ⟨⟨[], []⟩, [], [], false⟩, compiled := true }, .ok ()) := by
      rw [VEObj.compile, if_neg (by simp)]
      simp only
      rw [if_neg (by simp), if_neg (by rw [hr.nodes]; simpa using hk), hm]
    rw [VEObj.query, ← hev, hc, if_pos hk]
    rfl
  · have hc : o.compile [] (some ev) = ({ o with target := some [], evidence := ev }, .error .nodeNotFound) := by
      rw [VEObj.compile, if_neg (by simp)]
      simp only
      rw [if_neg (by simp), if_pos (by rw [hr.nodes]; simpa using hk)]
    rw [VEObj.query, ← hev, hc, if_neg hk]

/-- Observed parents of an observed node are kept in the observation for the node. -/
theorem parent_dcon {g : DiGraph V} (hg : g.WF) {p v : V} (hpv : (p, v) ∈ g.edges) (hne : p ≠ v) (ev : List V) :
    p ∈ g.dconNodes v ev := by
  have hp := (hg.ends _ hpv).1
  have hv := (hg.ends _ hpv).2
  refine List.mem_filter.2 ⟨hp, ?_⟩
  simp only [decide_eq_true_eq]
  refine ⟨fun hd => ?_, hne⟩
  have hd := (List.mem_filter.1 hd).2
  rw [DiGraph.dSeparated] at hd
  simp only [List.any_cons, List.any_nil, Bool.or_false, Bool.not_eq_true', decide_eq_false_iff_not] at hd
  refine hd ?_
  have hb : ∀ w ∈ [v, p], w ∉ g.barrenNodes ([v] ++ [p] ++ ev.filter (· ≠ p)) := by
    intro w hw hwb
    obtain ⟨inv, _⟩ := DiGraph.barrenInfo_spec hg ([v] ++ [p] ++ ev.filter (· ≠ p))
    exact inv.notNeeded w hwb ⟨w, by simp only [List.mem_append]; simp at hw; simp [hw], .refl⟩
  have hwf : ((g.barrenRemoval ([v] ++ [p] ++ ev.filter (· ≠ p))).removeOutgoing (ev.filter (· ≠ p))).WF := by
    rw [DiGraph.barrenRemoval_eq hg]
    exact (hg.removeNodes _).removeOutgoing _
  rw [DiGraph.mem_component hwf]
  · refine .single (.inr ?_)
    rw [DiGraph.barrenRemoval_eq hg]
    refine List.mem_filter.2 ⟨List.mem_filter.2 ⟨hpv, ?_⟩, by simp⟩
    simp only [decide_eq_true_eq]
    exact ⟨hb p (by simp), hb v (by simp)⟩
  · rw [DiGraph.barrenRemoval_eq hg]
    exact List.mem_filter.2 ⟨hv, by simp only [decide_eq_true_eq]; exact hb v (by simp)⟩
end
end Verif
