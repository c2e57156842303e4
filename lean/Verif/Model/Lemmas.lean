import Verif.Model.Basic
import Verif.Graph.Lemmas

/-!
# Building models: helper lemmas
-/

set_option linter.unusedSectionVars false
set_option linter.unusedSimpArgs false

namespace Verif

namespace Dict
variable {κ ν : Type} [DecidableEq κ]

theorem keys_set_of_mem {d : List (κ × ν)} {k : κ} (h : k ∈ keys d) (v : ν) : keys (set d k v) = keys d := by
  rw [set, if_pos h, keys, keys, List.map_map]
  refine List.map_congr_left fun p _ => ?_
  by_cases e : p.1 = k <;> simp [e]

theorem get?_set_of_mem {d : List (κ × ν)} {k : κ} (h : k ∈ keys d) (v : ν) (k' : κ) :
    get? (set d k v) k' = if k' = k then some v else get? d k' := by
  rw [set, if_pos h]
  induction d with
  | nil => simp at h
  | cons p d ih =>
    rw [List.map_cons, get?, get?]
    by_cases e : p.1 = k
    · by_cases e' : k = k'
      · subst e'; simp [e]
      · have e'' : k' ≠ k := fun h => e' h.symm
        have hne : ¬ p.1 = k' := by rw [e]; exact e'
        simp only [e, if_true, e', e'', if_false]
        by_cases hk : k ∈ keys d
        · rw [ih hk, if_neg e'']
        · have : d.map (fun p => if p.1 = k then (p.1, v) else p) = d := by
            conv_rhs => rw [← List.map_id d]
            refine List.map_congr_left fun q hq => ?_
            have : q.1 ≠ k := fun h => hk (h ▸ mem_keys_of_mem hq)
            simp [this]
          rw [this]
    · have hk : k ∈ keys d := by
        rcases List.mem_cons.1 h with h | h
        · exact absurd h.symm e
        · exact h
      simp only [e, if_false]
      by_cases e' : p.1 = k'
      · have : k' ≠ k := fun h => e (e'.trans h)
        simp [e', this]
      · simp only [e', if_false]
        exact ih hk

end Dict

namespace DagModel
variable {F V S : Type} [DecidableEq V] [DecidableEq S] [FactorLike F V S]

/-- Setting tables without checks: all entries are set. -/
theorem setFactorsDict_unchecked (fs : List (V × F)) (m : DagModel F V S) (hc : m.check = false)
    (h1 : ∀ p ∈ fs, p.1 ∈ Dict.keys m.factors) (h2 : ∀ p ∈ fs, p.1 ∈ Dict.keys m.domains)
    (h3 : ∀ p ∈ fs, p.1 ∈ Dict.keys (FactorLike.dom p.2)) (hn : (Dict.keys fs).Nodup) :
    ∃ m', m.setFactorsDict (fs.map fun p => (p.1, some p.2)) = .ok m' ∧ m'.graph = m.graph ∧ m'.check = false ∧
      Dict.keys m'.factors = Dict.keys m.factors ∧ Dict.keys m'.domains = Dict.keys m.domains ∧
      (∀ p ∈ fs, Dict.get? m'.factors p.1 = some (some p.2)) ∧
      (∀ v, v ∉ Dict.keys fs → Dict.get? m'.factors v = Dict.get? m.factors v) ∧
      (∀ p ∈ fs, ∃ st, Dict.get? m'.domains p.1 = some (some st)) ∧
      (∀ v st, Dict.get? m.domains v = some (some st) → Dict.get? m'.domains v = some (some st)) := by
  induction fs generalizing m with
  | nil => exact ⟨m, rfl, rfl, hc, rfl, rfl, by simp, by simp, by simp, fun _ _ h => h⟩
  | cons p fs ih =>
    rw [Dict.keys_cons, List.nodup_cons] at hn
    have hpf := h1 p List.mem_cons_self
    have hpd := h2 p List.mem_cons_self
    obtain ⟨st, hst⟩ := Option.isSome_iff_exists.1 (Dict.get?_isSome.2 (h3 p List.mem_cons_self))
    -- the first call
    have first : ∃ m1, m.setFactor p.1 (some p.2) = .ok m1 ∧ m1.graph = m.graph ∧ m1.check = false ∧
        m1.factors = Dict.set m.factors p.1 (some p.2) ∧ Dict.keys m1.domains = Dict.keys m.domains ∧
        (∃ st, Dict.get? m1.domains p.1 = some (some st)) ∧
        (∀ v st, Dict.get? m.domains v = some (some st) → Dict.get? m1.domains v = some (some st)) := by
      simp only [setFactor, hc, Bool.false_eq_true, if_false]
      cases hd : Dict.get? m.domains p.1 with
      | none => exact absurd (Dict.get?_eq_none.1 hd) (not_not.2 hpd)
      | some o =>
        cases o with
        | some st' => exact ⟨_, rfl, rfl, rfl, rfl, rfl, ⟨st', hd⟩, fun _ _ h => h⟩
        | none =>
          refine ⟨⟨m.graph, Dict.set m.factors p.1 (some p.2), Dict.set m.domains p.1 (some st), false⟩,
            by simp [Dict.get, hst], rfl, rfl, rfl, Dict.keys_set_of_mem hpd _, ⟨st, ?_⟩, ?_⟩
          · simp [Dict.get?_set_of_mem hpd]
          · intro v st' hv
            have hne : v ≠ p.1 := by rintro rfl; rw [hd] at hv; cases hv
            simp [Dict.get?_set_of_mem hpd, hne, hv]
    obtain ⟨m1, e1, e2, e3, e4, e5, e6, e7⟩ := first
    have hk : Dict.keys m1.factors = Dict.keys m.factors := by rw [e4, Dict.keys_set_of_mem hpf]
    obtain ⟨m', f1, f2, f3, f4, f5, f6, f7, f8, f9⟩ := ih m1 e3
      (fun q hq => by rw [hk]; exact h1 q (List.mem_cons_of_mem _ hq))
      (fun q hq => by rw [e5]; exact h2 q (List.mem_cons_of_mem _ hq))
      (fun q hq => h3 q (List.mem_cons_of_mem _ hq)) hn.2
    refine ⟨m', ?_, f2.trans e2, f3, f4.trans hk, f5.trans e5, ?_, ?_, ?_, fun v st hv => f9 v st (e7 v st hv)⟩
    · rw [setFactorsDict, List.map_cons, List.foldlM_cons, e1]; exact f1
    · intro q hq
      rcases List.mem_cons.1 hq with rfl | hq
      · rw [f7 _ hn.1, e4, Dict.get?_set_of_mem hpf, if_pos rfl]
      · exact f6 q hq
    · intro v hv
      have hv : v ≠ p.1 ∧ v ∉ Dict.keys fs := by simpa using hv
      rw [f7 v hv.2, e4, Dict.get?_set_of_mem hpf, if_neg hv.1]
    · intro q hq
      rcases List.mem_cons.1 hq with rfl | hq
      · obtain ⟨st, h⟩ := e6
        exact ⟨st, f9 _ st h⟩
      · exact f8 q hq

theorem init_ok {g : DiGraph V} (hg : g.WF) (ha : g.Acyclic) (check : Bool) :
    (init g check : Py (DagModel F V S)) =
      .ok ⟨g, g.nodes.map fun x => (x, none), g.nodes.map fun x => (x, none), check⟩ := by
  rw [init, (DiGraph.hasCycle_iff hg).2 ha]; rfl

theorem keys_init (l : List V) {ν : Type} (o : ν) : Dict.keys (l.map fun x => (x, o)) = l := by
  simp [Dict.keys, List.map_map, Function.comp_def]

theorem ofDict_unchecked {g : DiGraph V} (hg : g.WF) (ha : g.Acyclic) (fs : List (V × F))
    (hk : (Dict.keys fs).Perm g.nodes) (h3 : ∀ p ∈ fs, p.1 ∈ Dict.keys (FactorLike.dom p.2)) :
    ∃ m' : DagModel F V S, ofDict g (fs.map fun p => (p.1, some p.2)) false = .ok m' ∧ m'.graph = g ∧
      Dict.keys m'.factors = g.nodes ∧ Dict.keys m'.domains = g.nodes ∧
      (∀ p ∈ fs, Dict.get? m'.factors p.1 = some (some p.2)) ∧
      (∀ v ∈ g.nodes, ∃ st, Dict.get? m'.domains v = some (some st)) := by
  have hmem : ∀ p ∈ fs, p.1 ∈ g.nodes := fun p hp => hk.mem_iff.1 (Dict.mem_keys_of_mem hp)
  obtain ⟨m', h1, h2, _, h4, h5, h6, _, h8, _⟩ := setFactorsDict_unchecked fs
    (⟨g, g.nodes.map fun x => (x, none), g.nodes.map fun x => (x, none), false⟩ : DagModel F V S) rfl
    (fun p hp => by rw [keys_init]; exact hmem p hp) (fun p hp => by rw [keys_init]; exact hmem p hp) h3
    (hk.nodup_iff.2 hg.nodes)
  refine ⟨m', by rw [ofDict, init_ok hg ha]; exact h1, h2, h4.trans (keys_init _ _), h5.trans (keys_init _ _), h6, ?_⟩
  intro v hv
  obtain ⟨f, hf⟩ := Dict.mem_keys.1 (hk.mem_iff.2 hv)
  exact h8 _ hf

theorem varsizes_ok {m : DagModel F V S} (hk : (Dict.keys m.domains).Nodup)
    (h : ∀ v ∈ Dict.keys m.domains, ∃ st, Dict.get? m.domains v = some (some st)) :
    ∃ sizes, m.varsizes = .ok sizes ∧
      Dict.keys sizes = (Dict.keys m.domains).filter (· ∈ m.graph.nodes) := by
  have : ∀ p ∈ m.domains.filter (fun p => p.1 ∈ m.graph.nodes), (match p.2 with
      | some st => .ok (p.1, st.length)
      | none => .error .typeError : Py (V × Nat)) = .ok (p.1, (p.2.getD []).length) := by
    rintro ⟨v, o⟩ hp
    have hp := (List.mem_filter.1 hp).1
    obtain ⟨st, hst⟩ := h v (Dict.mem_keys_of_mem hp)
    rw [Dict.get?_of_mem hk hp] at hst
    cases hst; rfl
  refine ⟨_, mapM_ok this, ?_⟩
  rw [← Dict.keys_filter_key m.domains (fun v => v ∈ m.graph.nodes)]
  simp [Dict.keys, List.map_map, Function.comp_def]

end DagModel
end Verif
