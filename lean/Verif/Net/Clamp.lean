import Verif.Net.Sums
import Verif.Graph.Lemmas

/-!
# From networks to tables that are normalised at every assignment: helper lemmas

The tables of a network say something only about assignments to states.  Replacing other values by
some state gives tables to which the lemmas on sums apply, and changes no marginal.
-/

set_option linter.unusedSectionVars false
set_option linter.unusedSimpArgs false

namespace Verif
namespace BN

variable {V S K : Type} [DecidableEq V] [DecidableEq S] [CommSemiring K]

/-- Values outside the states are replaced by the first state. -/
def clamp (B : BN V S K) (a : V → S) : V → S := fun v =>
  if v ∈ B.nodes then (if a v ∈ B.states v then a v else (B.states v).headD (a v)) else a v

/-- The tables at clamped assignments. -/
def ctab (B : BN V S K) (v : V) (a : V → S) : K := B.table v (B.clamp a)

variable {B : BN V S K}

theorem Valid.clamp_in (h : B.Valid) (a : V → S) : B.InStates (B.clamp a) := by
  intro v hv
  rw [clamp, if_pos hv]
  split
  · assumption
  · have := h.nonempty v hv
    cases hs : B.states v with
    | nil => exact absurd hs this
    | cons s l => simp

theorem clamp_of_mem {a : V → S} {v : V} (h : v ∈ B.nodes → a v ∈ B.states v) : B.clamp a v = a v := by
  rw [clamp]
  split
  · rename_i hv; rw [if_pos (h hv)]
  · rfl

theorem clamp_upd {a : V → S} {v : V} {s : S} (h : s ∈ B.states v) : B.clamp (upd a v s) = upd (B.clamp a) v s := by
  funext w
  by_cases e : w = v
  · subst e
    rw [upd_same, clamp_of_mem (by rw [upd_same]; exact fun _ => h), upd_same]
  · rw [upd_ne _ _ e, clamp, clamp, upd_ne _ _ e]

/-- A rank from the acyclicity of the parent relation. -/
theorem Valid.rank (h : B.Valid) : ∃ r : V → Nat, ∀ v ∈ B.nodes, ∀ p ∈ B.parents v, r p < r v := by
  let g : DiGraph V := ⟨B.nodes, (B.nodes.flatMap fun v => (B.parents v).map fun p => (p, v)).dedup⟩
  have he : ∀ u v, (u, v) ∈ g.edges ↔ v ∈ B.nodes ∧ u ∈ B.parents v := by
    intro u v
    simp only [g, List.mem_dedup, List.mem_flatMap, List.mem_map, Prod.mk.injEq]
    constructor
    · rintro ⟨w, hw, p, hp, rfl, rfl⟩; exact ⟨hw, hp⟩
    · rintro ⟨h1, h2⟩; exact ⟨v, h1, u, h2, rfl, rfl⟩
  have hwf : g.WF := ⟨h.nodes, List.nodup_dedup _, by
    rintro ⟨u, v⟩ he'
    obtain ⟨h1, h2⟩ := (he u v).1 he'
    exact ⟨h.parents v h1 u h2, h1⟩⟩
  have ha : g.Acyclic := by
    intro v hv
    exact h.acyclic v (Relation.TransGen.mono (fun a b hab => (he a b).1 hab) _ _ hv)
  obtain ⟨r, hr⟩ := ha.exists_rank hwf
  exact ⟨r, fun v hv p hp => hr p v ((he p v).2 ⟨hv, hp⟩)⟩

theorem Valid.ctab_dep (h : B.Valid) {v : V} (hv : v ∈ B.nodes) : DependsOn (B.ctab v) (v :: B.parents v) := by
  intro a b hab
  refine h.scope v hv _ _ fun w hw => ?_
  have := hab w hw
  simp only [clamp, this]

theorem Valid.tables (h : B.Valid) (hn : B.Normalised) : Tables B.states B.parents B.ctab B.nodes := by
  refine ⟨h.nodes, h.rank, fun v hv => h.ctab_dep hv, fun v hv a => ?_⟩
  rw [← hn v hv (B.clamp a) (h.clamp_in a)]
  congr 1
  refine List.map_congr_left fun s hs => ?_
  rw [ctab, clamp_upd hs]

/-- On states the clamped tables are the tables. -/
theorem Valid.ctab_eq (h : B.Valid) {v : V} (hv : v ∈ B.nodes) {a : V → S}
    (ha : ∀ w ∈ v :: B.parents v, a w ∈ B.states w) : B.ctab v a = B.table v a :=
  h.scope v hv _ _ fun w hw => clamp_of_mem fun _ => ha w hw

theorem Valid.joint_eq (h : B.Valid) {a : V → S} (ha : B.InStates a) : prodT B.ctab B.nodes a = B.joint a := by
  refine prodT_congr fun v hv => h.ctab_eq hv fun w hw => ?_
  rcases List.mem_cons.1 hw with rfl | hw
  · exact ha _ hv
  · exact ha w (h.parents v hv w hw)

theorem Valid.marg_eq (h : B.Valid) {vs : List V} {a : V → S} (ha : ∀ v ∈ vs, v ∈ B.nodes → a v ∈ B.states v) :
    B.marg vs a = sumOver B.states (B.nodes.filter (· ∉ vs)) (prodT B.ctab B.nodes) a := by
  refine sumOver_congr (h.nodes.filter _) fun b hb1 hb2 => (h.joint_eq ?_).symm
  intro v hv
  by_cases hvs : v ∈ vs
  · rw [hb1 v (by simp [hvs])]; exact ha v hvs hv
  · exact hb2 v (List.mem_filter.2 ⟨hv, by simpa using hvs⟩)

end BN
end Verif
