import Verif.Graph.Basic
import Verif.Spec.Graph
import Mathlib.Data.Finset.Card
import Mathlib.Data.Finset.Basic
import Mathlib.Algebra.Order.BigOperators.Group.List
import Mathlib.Algebra.Order.Monoid.Canonical.Defs
import Mathlib.Algebra.Order.Group.Nat

/-!
# Reachability, acyclicity and pruning: helper lemmas
-/

set_option linter.unusedSectionVars false
set_option linter.unusedSimpArgs false

namespace Verif.DiGraph
open Relation

variable {V : Type} [DecidableEq V]

theorem mem_pred {g : DiGraph V} {u v : V} : u ∈ g.pred v ↔ (u, v) ∈ g.edges := by
  simp [pred]

theorem mem_succ {g : DiGraph V} {u v : V} : v ∈ g.succ u ↔ (u, v) ∈ g.edges := by
  simp [succ]

theorem mem_nbrs {g : DiGraph V} {u v : V} : v ∈ g.nbrs u ↔ (u, v) ∈ g.edges ∨ (v, u) ∈ g.edges := by
  simp [nbrs, mem_pred, mem_succ]

/-! ### closure -/

theorem subset_closure (next : V → List V) (n : Nat) (xs : List V) : ∀ x ∈ xs, x ∈ closure next n xs := by
  induction n generalizing xs with
  | zero => intro x hx; exact hx
  | succ n ih =>
    intro x hx
    rw [closure]
    split
    · exact hx
    · exact ih _ x (List.mem_append_left _ hx)

theorem closure_sound (next : V → List V) (n : Nat) (xs : List V) :
    ∀ y ∈ closure next n xs, ∃ x ∈ xs, ReflTransGen (fun u v => v ∈ next u) x y := by
  induction n generalizing xs with
  | zero => intro y hy; exact ⟨y, hy, .refl⟩
  | succ n ih =>
    intro y hy
    rw [closure] at hy
    split at hy
    · exact ⟨y, hy, .refl⟩
    · obtain ⟨z, hz, hzy⟩ := ih _ y hy
      rcases List.mem_append.1 hz with hz | hz
      · exact ⟨z, hz, hzy⟩
      · have hz := (List.mem_filter.1 (List.mem_dedup.1 hz)).1
        obtain ⟨x, hx, hxz⟩ := List.mem_flatMap.1 hz
        exact ⟨x, hx, hzy.head hxz⟩

theorem closure_closed (next : V → List V) {U : List V} (hU : U.Nodup) (hc : ∀ u ∈ U, ∀ v ∈ next u, v ∈ U)
    (n : Nat) (xs : List V) (hx : xs.Nodup) (hs : ∀ x ∈ xs, x ∈ U) (hn : U.length ≤ n + xs.length) :
    ∀ u ∈ closure next n xs, ∀ v ∈ next u, v ∈ closure next n xs := by
  induction n generalizing xs with
  | zero =>
    intro u hu v hv
    have hperm : xs.Perm U := by
      refine (List.subperm_of_subset hx (fun x h => hs x h)).perm_of_length_le (by omega)
    exact hperm.mem_iff.2 (hc u (hs u hu) v hv)
  | succ n ih =>
    rw [closure]
    split
    · next h =>
      intro u hu v hv
      by_contra hne
      have : v ∈ (xs.flatMap next).filter (· ∉ xs) :=
        List.mem_filter.2 ⟨List.mem_flatMap.2 ⟨u, hu, hv⟩, by simpa using hne⟩
      rw [h] at this; simp at this
    · next h =>
      refine ih _ ?_ ?_ ?_
      · rw [List.nodup_append']
        refine ⟨hx, List.nodup_dedup _, fun x h1 h2 => ?_⟩
        have := (List.mem_filter.1 (List.mem_dedup.1 h2)).2
        simp at this; exact this h1
      · intro x hx'
        rcases List.mem_append.1 hx' with h1 | h1
        · exact hs x h1
        · obtain ⟨u, hu, huv⟩ := List.mem_flatMap.1 (List.mem_filter.1 (List.mem_dedup.1 h1)).1
          exact hc u (hs u hu) x huv
      · have : ((xs.flatMap next).filter (· ∉ xs)).dedup ≠ [] := by
          intro h0
          obtain ⟨y, hy⟩ := List.exists_mem_of_ne_nil _ h
          have := List.mem_dedup.2 hy
          rw [h0] at this; simp at this
        have := List.length_pos_of_ne_nil this
        rw [List.length_append]; omega

theorem mem_closure {next : V → List V} {U : List V} (hU : U.Nodup) (hc : ∀ u ∈ U, ∀ v ∈ next u, v ∈ U)
    {x : V} (hx : x ∈ U) {y : V} :
    y ∈ closure next U.length [x] ↔ ReflTransGen (fun u v => v ∈ next u) x y := by
  constructor
  · intro h
    obtain ⟨z, hz, hzy⟩ := closure_sound next _ _ y h
    rw [List.mem_singleton.1 hz] at hzy; exact hzy
  · intro h
    induction h with
    | refl => exact subset_closure _ _ _ x List.mem_cons_self
    | tail _ h ih =>
      exact closure_closed next hU hc _ [x] (by simp) (by simpa using hx) (by simp) _ ih _ h

theorem mem_reach {g : DiGraph V} (hg : g.WF) {x y : V} (hx : x ∈ g.nodes) :
    y ∈ g.reach x ↔ ReflTransGen g.Edge x y := by
  rw [reach, mem_closure hg.nodes _ hx]
  · simp only [mem_succ]; rfl
  · intro u _ v hv; exact (hg.ends _ (mem_succ.1 hv)).2

theorem mem_component {g : DiGraph V} (hg : g.WF) {x y : V} (hx : x ∈ g.nodes) :
    y ∈ g.component x ↔ ReflTransGen g.UEdge x y := by
  rw [component, mem_closure hg.nodes _ hx]
  · simp only [mem_nbrs]; rfl
  · intro u _ v hv
    rcases mem_nbrs.1 hv with h | h
    · exact (hg.ends _ h).2
    · exact (hg.ends _ h).1

theorem hasCycle_iff {g : DiGraph V} (hg : g.WF) : g.hasCycle = false ↔ g.Acyclic := by
  rw [hasCycle, List.any_eq_false]
  constructor
  · intro h v hv
    obtain ⟨w, hvw, hwv⟩ := TransGen.head'_iff.1 hv
    refine h _ hvw ?_
    have := (mem_reach hg (hg.ends _ hvw).2).2 hwv
    simpa using this
  · intro h e he
    simp only [decide_eq_true_eq]
    intro hr
    have := (mem_reach hg (hg.ends e he).2).1 hr
    exact h _ (TransGen.head' (b := e.2) he this)

theorem component_symm {g : DiGraph V} {x y : V} (h : ReflTransGen g.UEdge x y) : ReflTransGen g.UEdge y x := by
  have : Std.Symm g.UEdge := ⟨fun a b h => h.symm⟩
  exact ReflTransGen.symmetric.symm _ _ h

/-! ### subgraphs -/

theorem WF.subgraph {g : DiGraph V} (hg : g.WF) (vs : List V) : (g.subgraph vs).WF := by
  refine ⟨hg.nodes.filter _, hg.edges.filter _, ?_⟩
  intro e he
  obtain ⟨h1, h2⟩ := List.mem_filter.1 he
  simp only [decide_eq_true_eq] at h2
  have := hg.ends e h1
  exact ⟨List.mem_filter.2 ⟨this.1, by simpa using h2.1⟩, List.mem_filter.2 ⟨this.2, by simpa using h2.2⟩⟩

theorem WF.removeNodes {g : DiGraph V} (hg : g.WF) (vs : List V) : (g.removeNodes vs).WF := by
  refine ⟨hg.nodes.filter _, hg.edges.filter _, ?_⟩
  intro e he
  obtain ⟨h1, h2⟩ := List.mem_filter.1 he
  simp only [decide_eq_true_eq] at h2
  have := hg.ends e h1
  exact ⟨List.mem_filter.2 ⟨this.1, by simpa using h2.1⟩, List.mem_filter.2 ⟨this.2, by simpa using h2.2⟩⟩

theorem WF.removeOutgoing {g : DiGraph V} (hg : g.WF) (vs : List V) : (g.removeOutgoing vs).WF :=
  ⟨hg.nodes, hg.edges.filter _, fun e he => hg.ends e (List.mem_filter.1 he).1⟩

theorem WF.removeIngoing {g : DiGraph V} (hg : g.WF) (vs : List V) : (g.removeIngoing vs).WF :=
  ⟨hg.nodes, hg.edges.filter _, fun e he => hg.ends e (List.mem_filter.1 he).1⟩

theorem Acyclic.mono {g h : DiGraph V} (hg : g.Acyclic) (hs : ∀ e ∈ h.edges, e ∈ g.edges) : h.Acyclic := by
  intro v hv
  exact hg v (TransGen.mono (fun a b hab => hs _ hab) _ _ hv)

/-! ### topological rank -/

/-- A finite acyclic graph has a rank that increases along edges. -/
theorem Acyclic.exists_rank {g : DiGraph V} (hg : g.WF) (ha : g.Acyclic) :
    ∃ rank : V → Nat, ∀ u v, g.Edge u v → rank u < rank v := by
  classical
  refine ⟨fun v => (g.nodes.toFinset.filter fun u => TransGen g.Edge u v).card, fun u v huv => ?_⟩
  refine Finset.card_lt_card ⟨?_, ?_⟩
  · intro w hw
    simp only [Finset.mem_filter] at hw ⊢
    exact ⟨hw.1, hw.2.tail huv⟩
  · intro h
    have hu : u ∈ (g.nodes.toFinset.filter fun w => TransGen g.Edge w v) := by
      simp only [Finset.mem_filter, List.mem_toFinset]
      exact ⟨(hg.ends _ huv).1, .single huv⟩
    have := h hu
    simp only [Finset.mem_filter] at this
    exact ha u this.2

/-! ### barren nodes -/

/-- A loop state: the current graph is what remains after removing `barren`. -/
structure BarrenInv (g : DiGraph V) (S : List V) (h : DiGraph V) (barren : List V) : Prop where
  nodes : h.nodes = g.nodes.filter (· ∉ barren)
  edges : h.edges = g.edges.filter fun e => e.1 ∉ barren ∧ e.2 ∉ barren
  sub : ∀ x ∈ barren, x ∈ g.nodes
  notNeeded : ∀ x ∈ barren, ¬ g.Needed S x

theorem barren_step {g : DiGraph V} (hg : g.WF) {S : List V} {h : DiGraph V} {barren : List V}
    (inv : BarrenInv g S h barren) :
    BarrenInv g S (h.subgraph (h.nodes.filter
        (· ∉ barren ++ h.nodes.filter fun x => (h.succ x).length = 0 ∧ x ∉ S)))
      (barren ++ h.nodes.filter fun x => (h.succ x).length = 0 ∧ x ∉ S) := by
  set new := h.nodes.filter fun x => (h.succ x).length = 0 ∧ x ∉ S with hnew
  refine ⟨?_, ?_, ?_, ?_⟩
  · rw [subgraph]
    simp only [inv.nodes, List.filter_filter]
    refine List.filter_congr fun x hx => ?_
    by_cases h1 : x ∈ barren <;> by_cases h2 : x ∈ new <;> simp [h1, h2, hx]
  · rw [subgraph]
    simp only [inv.edges, inv.nodes, List.filter_filter]
    refine List.filter_congr fun e he => ?_
    have := hg.ends e he
    by_cases h1 : e.1 ∈ barren <;> by_cases h2 : e.1 ∈ new <;> by_cases h3 : e.2 ∈ barren <;>
      by_cases h4 : e.2 ∈ new <;> simp [h1, h2, h3, h4, this]
  · intro x hx
    rcases List.mem_append.1 hx with hx | hx
    · exact inv.sub x hx
    · have := (List.mem_filter.1 hx).1
      rw [inv.nodes] at this
      exact (List.mem_filter.1 this).1
  · intro x hx
    rcases List.mem_append.1 hx with hx | hx
    · exact inv.notNeeded x hx
    · obtain ⟨h1, h2⟩ := List.mem_filter.1 hx
      simp only [decide_eq_true_eq] at h2
      rintro ⟨s, hs, hr⟩
      rcases ReflTransGen.cases_head hr with rfl | ⟨y, hxy, hys⟩
      · exact h2.2 hs
      · have hy : y ∈ barren := by
          by_contra hyb
          have : (x, y) ∈ h.edges := by
            rw [inv.edges]
            refine List.mem_filter.2 ⟨hxy, ?_⟩
            rw [inv.nodes] at h1
            have := (List.mem_filter.1 h1).2
            simp only [decide_eq_true_eq] at this ⊢
            exact ⟨this, hyb⟩
          have : y ∈ h.succ x := mem_succ.2 this
          rw [List.length_eq_zero_iff.1 h2.1] at this
          simp at this
        exact inv.notNeeded y hy ⟨s, hs, hys⟩

theorem barrenLoop_spec {g : DiGraph V} (hg : g.WF) {S : List V} (n : Nat) (h : DiGraph V) (barren : List V)
    (inv : BarrenInv g S h barren) (hn : h.nodes.length < n) :
    BarrenInv g S (barrenLoop S n h barren).1 (barrenLoop S n h barren).2 ∧
      ∀ x ∈ (barrenLoop S n h barren).1.nodes, x ∈ S ∨ (barrenLoop S n h barren).1.succ x ≠ [] := by
  induction n generalizing h barren with
  | zero => omega
  | succ n ih =>
    rw [barrenLoop]
    simp only []
    split
    · next hpos =>
      refine ih _ _ (barren_step hg inv) ?_
      set new := h.nodes.filter fun x => (h.succ x).length = 0 ∧ x ∉ S with hnew
      obtain ⟨x, hx⟩ := List.exists_mem_of_length_pos hpos
      have hlt : (h.nodes.filter (· ∈ h.nodes.filter (· ∉ barren ++ new))).length < h.nodes.length := by
        refine List.length_filter_lt_length_iff_exists.2 ⟨x, (List.mem_filter.1 hx).1, ?_⟩
        simp [hx]
      show (h.nodes.filter _).length < n
      omega
    · next hpos =>
      refine ⟨inv, fun x hx => ?_⟩
      by_contra hc
      push Not at hc
      have : x ∈ h.nodes.filter fun x => (h.succ x).length = 0 ∧ x ∉ S :=
        List.mem_filter.2 ⟨hx, by simp [hc.1, hc.2]⟩
      exact hpos (List.length_pos_of_mem this)

theorem barrenInfo_spec {g : DiGraph V} (hg : g.WF) (S : List V) :
    BarrenInv g S (g.barrenInfo S).1 (g.barrenInfo S).2 ∧
      ∀ x ∈ (g.barrenInfo S).1.nodes, x ∈ S ∨ (g.barrenInfo S).1.succ x ≠ [] := by
  refine barrenLoop_spec hg _ g [] ⟨by simp, by simp, by simp, by simp⟩ (by omega)

theorem mem_barrenNodes {g : DiGraph V} (hg : g.WF) (ha : g.Acyclic) {S : List V} {v : V} :
    v ∈ g.barrenNodes S ↔ v ∈ g.nodes ∧ ¬ g.Needed S v := by
  obtain ⟨inv, hend⟩ := barrenInfo_spec hg S
  refine ⟨fun h => ⟨inv.sub v h, inv.notNeeded v h⟩, ?_⟩
  rintro ⟨hv, hne⟩
  by_contra hb
  -- in the remaining graph every node is in S or has a successor; ranks give a contradiction
  obtain ⟨rank, hrank⟩ := ha.exists_rank hg
  obtain ⟨M, hM⟩ : ∃ M, ∀ u ∈ g.nodes, rank u ≤ M := by
    refine ⟨(g.nodes.map rank).sum, fun u hu => List.le_sum_of_mem (List.mem_map_of_mem hu)⟩
  have key : ∀ k u, M - rank u ≤ k → u ∈ (g.barrenInfo S).1.nodes → ∃ s ∈ S, ReflTransGen g.Edge u s := by
    intro k
    induction k with
    | zero =>
      intro u hk hu
      rcases hend u hu with h | h
      · exact ⟨u, h, .refl⟩
      · obtain ⟨w, hw⟩ := List.exists_mem_of_ne_nil _ h
        have he := mem_succ.1 hw
        rw [inv.edges] at he
        have he := (List.mem_filter.1 he).1
        have := hrank u w he
        have := hM w (hg.ends _ he).2
        omega
    | succ k ih =>
      intro u hk hu
      rcases hend u hu with h | h
      · exact ⟨u, h, .refl⟩
      · obtain ⟨w, hw⟩ := List.exists_mem_of_ne_nil _ h
        have he' := mem_succ.1 hw
        rw [inv.edges] at he'
        obtain ⟨he, hp⟩ := List.mem_filter.1 he'
        simp only [decide_eq_true_eq] at hp
        have h1 := hrank u w he
        have h2 := hM w (hg.ends _ he).2
        have hwn : w ∈ (g.barrenInfo S).1.nodes := by
          rw [inv.nodes]
          exact List.mem_filter.2 ⟨(hg.ends _ he).2, by simpa using hp.2⟩
        obtain ⟨s, hs, hr⟩ := ih w (by omega) hwn
        exact ⟨s, hs, hr.head he⟩
  refine hne (key _ v le_rfl ?_)
  rw [inv.nodes]
  refine List.mem_filter.2 ⟨hv, ?_⟩
  simp only [decide_eq_true_eq]; exact hb

theorem barrenRemoval_eq {g : DiGraph V} (hg : g.WF) (S : List V) :
    g.barrenRemoval S = g.removeNodes (g.barrenNodes S) := by
  obtain ⟨inv, _⟩ := barrenInfo_spec hg S
  have h1 := inv.nodes
  have h2 := inv.edges
  rw [barrenRemoval, removeNodes, barrenNodes]
  cases hx : (g.barrenInfo S).1 with
  | mk n e =>
    rw [hx] at h1 h2
    simp only [] at h1 h2
    rw [h1, h2]

end Verif.DiGraph
