import Verif.Model.Lemmas

/-!
# Sequences of `set_factor`: helper lemmas
-/

set_option linter.unusedSectionVars false
set_option linter.unusedSimpArgs false

namespace Verif

theorem Dict.get?_set {κ ν : Type} [DecidableEq κ] (d : List (κ × ν)) (k : κ) (v : ν) (k' : κ) :
    get? (set d k v) k' = if k' = k then some v else get? d k' := by
  by_cases h : k ∈ keys d
  · exact get?_set_of_mem h v k'
  · rw [set, if_neg h, get?_append, get?, get?]
    by_cases hk : k' = k
    · subst hk
      simp [get?_eq_none.2 h]
    · simp [hk, Ne.symm hk]

namespace DagModel
variable {F V S : Type} [DecidableEq V] [DecidableEq S] [FactorLike F V S]

theorem checkFactor_ok {m : DagModel F V S} {v : V} {f : F} :
    m.checkFactor v f = .ok () ↔ v ∈ m.graph.nodes ∧ SameSet (m.graph.pred v) (FactorLike.rightVars f) ∧
      SameSet [v] (FactorLike.leftVars f) ∧ ∀ p ∈ FactorLike.dom f, domFits (Dict.get? m.domains p.1) p.2 = true := by
  rw [checkFactor, DiGraph.predecessors]
  by_cases h1 : v ∈ m.graph.nodes
  · by_cases h2 : SameSet (m.graph.pred v) (FactorLike.rightVars f)
    · by_cases h3 : SameSet [v] (FactorLike.leftVars f)
      · by_cases h4 : ∀ p ∈ FactorLike.dom f, domFits (Dict.get? m.domains p.1) p.2 = true
        · simp only [h1, h2, h3, if_true, not_true_eq_false, if_false, py_ok_bind]
          rw [if_neg (not_not.2 h4)]
          exact iff_of_true rfl ⟨trivial, trivial, trivial, h4⟩
        · simp only [h1, h2, h3, if_true, not_true_eq_false, if_false, py_ok_bind]
          rw [if_pos h4]
          constructor
          · intro h; cases h
          · intro h; exact absurd h.2.2.2 h4
      · simp only [h1, h2, h3, if_true, not_true_eq_false, if_false, py_ok_bind, not_false_eq_true]
        constructor
        · intro h; cases h
        · intro h; exact absurd h.2.2.1 (by simp)
    · simp only [h1, h2, if_true, py_ok_bind, not_false_eq_true]
      constructor
      · intro h; cases h
      · intro h; exact absurd h.2.1 (by simp)
  · simp only [h1, if_false]
    constructor
    · intro h; cases h
    · intro h; exact absurd h.1 (by simp)

/-- Refusals are value errors, except for names that are not nodes. -/
theorem checkFactor_error {m : DagModel F V S} {v : V} {f : F} (hv : v ∈ m.graph.nodes)
    (h : m.checkFactor v f ≠ .ok ()) : m.checkFactor v f = .error .valueError := by
  revert h
  rw [checkFactor, DiGraph.predecessors, if_pos hv]
  simp only [py_ok_bind]
  split
  · intro _; rfl
  · split
    · intro _; rfl
    · split
      · intro _; rfl
      · intro h; exact absurd rfl h

/-- A successful `set_factor`. -/
structure SetStep (m : DagModel F V S) (v : V) (f : F) (m' : DagModel F V S) : Prop where
  graph : m'.graph = m.graph
  check : m'.check = m.check
  factors : m'.factors = Dict.set m.factors v (some f)
  checked : m.check = true → m.checkFactor v f = .ok ()
  domains : (∃ st, Dict.get? m.domains v = some (some st) ∧ m'.domains = m.domains) ∨
    (∃ st, (∀ st', Dict.get? m.domains v ≠ some (some st')) ∧ Dict.get? (FactorLike.dom f) v = some st ∧
      m'.domains = Dict.set m.domains v (some st))

theorem setFactor_step {m m' : DagModel F V S} {v : V} {f : F} (h : m.setFactor v (some f) = .ok m') :
    SetStep m v f m' := by
  rw [setFactor] at h
  have hc : m.check = true → m.checkFactor v f = .ok () := by
    intro hc
    simp only [hc, if_true] at h
    cases hh : m.checkFactor v f with
    | ok u => rfl
    | error e => rw [hh] at h; cases h
  have h' : (match Dict.get? m.domains v with
    | some (some _) => .ok { m with factors := Dict.set m.factors v (some f) }
    | _ => do
      let st ← Dict.get (FactorLike.dom f) v
      .ok { m with factors := Dict.set m.factors v (some f), domains := Dict.set m.domains v (some st) } : Py _) = .ok m' := by
    by_cases hcc : m.check = true
    · rw [if_pos hcc, hc hcc] at h
      exact h
    · rw [if_neg hcc] at h
      exact h
  have second : ∀ {o}, Dict.get? m.domains v = o → (∀ st', o ≠ some (some st')) →
      (do let st ← Dict.get (FactorLike.dom f) v
          .ok { m with factors := Dict.set m.factors v (some f), domains := Dict.set m.domains v (some st) } : Py _) = .ok m' →
      SetStep m v f m' := by
    intro o ho hno h2
    rw [Dict.get] at h2
    cases hd : Dict.get? (FactorLike.dom f) v with
    | none => rw [hd] at h2; cases h2
    | some st =>
      rw [hd] at h2
      simp only [py_ok_bind] at h2
      injection h2 with h2
      subst h2
      exact ⟨rfl, rfl, rfl, hc, .inr ⟨st, fun st' => by rw [ho]; exact hno st', hd, rfl⟩⟩
  cases hd : Dict.get? m.domains v with
  | none => rw [hd] at h'; exact second hd (by simp) h'
  | some o =>
    cases o with
    | none => rw [hd] at h'; exact second hd (by simp) h'
    | some st =>
      rw [hd] at h'
      injection h' with h'
      subst h'
      exact ⟨rfl, rfl, rfl, hc, .inl ⟨st, hd, rfl⟩⟩

/-- Setting several factors one after the other. -/
inductive Sets : DagModel F V S → List (V × F) → DagModel F V S → Prop
  | nil (m) : Sets m [] m
  | cons {m m1 m2 v f l} : SetStep m v f m1 → Sets m1 l m2 → Sets m ((v, f) :: l) m2

theorem sets_of_list {fs : List F} {m m' : DagModel F V S} (h : m.setFactorsList fs = .ok m') :
    ∃ l : List (V × F), l.map Prod.snd = fs ∧ (∀ p ∈ l, FactorLike.leftVars p.2 = [p.1]) ∧ Sets m l m' := by
  induction fs generalizing m with
  | nil => injection h with h; subst h; exact ⟨[], rfl, by simp, .nil _⟩
  | cons f fs ih =>
    rw [setFactorsList, List.foldlM_cons] at h
    cases hl : leftOf f with
    | error e => rw [hl] at h; cases h
    | ok v =>
      rw [hl] at h
      simp only [py_ok_bind] at h
      cases hs : m.setFactor v (some f) with
      | error e => rw [hs] at h; cases h
      | ok m1 =>
        rw [hs] at h
        obtain ⟨l, h1, h2, h3⟩ := ih h
        refine ⟨(v, f) :: l, by simp [h1], ?_, .cons (setFactor_step hs) h3⟩
        intro p hp
        rcases List.mem_cons.1 hp with rfl | hp
        · rw [leftOf] at hl
          split at hl
          · cases hl
          · rename_i hlen
            cases hlv : FactorLike.leftVars f with
            | nil => rw [hlv] at hl; cases hl
            | cons w r =>
              rw [hlv] at hl hlen
              injection hl with hl
              simp only [List.length_cons, not_lt] at hlen
              have : r = [] := List.length_eq_zero_iff.1 (by omega)
              rw [this]; simp [hl]
        · exact h2 p hp

theorem sets_of_dict {fs : List (V × F)} {m m' : DagModel F V S}
    (h : m.setFactorsDict (fs.map fun p => (p.1, some p.2)) = .ok m') : Sets m fs m' := by
  induction fs generalizing m with
  | nil => injection h with h; subst h; exact .nil _
  | cons p fs ih =>
    rw [setFactorsDict, List.map_cons, List.foldlM_cons] at h
    cases hs : m.setFactor p.1 (some p.2) with
    | error e => rw [hs] at h; cases h
    | ok m1 => rw [hs] at h; exact .cons (setFactor_step hs) (ih h)

theorem Sets.induct {P : DagModel F V S → Prop} {m m' : DagModel F V S} {l : List (V × F)} (h : Sets m l m') (h0 : P m)
    (hs : ∀ m v f m', (v, f) ∈ l → P m → SetStep m v f m' → P m') : P m' := by
  induction h with
  | nil => exact h0
  | cons s _ ih => exact ih (hs _ _ _ _ List.mem_cons_self h0 s) fun m v f m' hm => hs m v f m' (List.mem_cons_of_mem _ hm)

theorem Sets.graph {m m' : DagModel F V S} {l : List (V × F)} (h : Sets m l m') : m'.graph = m.graph ∧ m'.check = m.check :=
  h.induct (P := fun x => x.graph = m.graph ∧ x.check = m.check) ⟨rfl, rfl⟩
    fun _ _ _ _ _ hp hs => ⟨hs.graph.trans hp.1, hs.check.trans hp.2⟩

/-- The factors found afterwards are among those set or were there before. -/
theorem Sets.factors {m m' : DagModel F V S} {l : List (V × F)} (h : Sets m l m') {v : V} {f : F}
    (hf : Dict.get? m'.factors v = some (some f)) : (v, f) ∈ l ∨ Dict.get? m.factors v = some (some f) := by
  refine h.induct (P := fun x => ∀ v f, Dict.get? x.factors v = some (some f) → (v, f) ∈ l ∨
    Dict.get? m.factors v = some (some f)) (fun _ _ h => .inr h) ?_ v f hf
  clear hf v f
  intro m1 w g m2 hm hp hs v f hf
  rw [hs.factors, Dict.get?_set] at hf
  split at hf
  · rename_i e; subst e; cases hf; exact .inl hm
  · exact hp v f hf

theorem init_inv {g : DiGraph V} {check : Bool} {m : DagModel F V S} (h : init g check = .ok m) :
    g.hasCycle = false ∧ m = ⟨g, g.nodes.map fun x => (x, none), g.nodes.map fun x => (x, none), check⟩ := by
  rw [init] at h
  split at h
  · cases h
  · rename_i hc
    injection h with h
    exact ⟨by simpa using hc, h.symm⟩

theorem get?_init {ν : Type} (l : List V) (o : ν) (v : V) :
    Dict.get? (l.map fun x => (x, o)) v = if v ∈ l then some o else none := by
  induction l with
  | nil => rfl
  | cons x l ih =>
    rw [List.map_cons, Dict.get?]
    by_cases h : x = v
    · simp [h]
    · simp [h, ih, Ne.symm h]

theorem ofList_inv {g : DiGraph V} {fs : List F} {check : Bool} {m : DagModel F V S} (h : ofList g fs check = .ok m) :
    g.hasCycle = false ∧ ∃ l : List (V × F), l.map Prod.snd = fs ∧ (∀ p ∈ l, FactorLike.leftVars p.2 = [p.1]) ∧
      Sets ⟨g, g.nodes.map fun x => (x, none), g.nodes.map fun x => (x, none), check⟩ l m := by
  rw [ofList] at h
  cases hi : (init g check : Py (DagModel F V S)) with
  | error e => rw [hi] at h; cases h
  | ok m0 =>
    rw [hi] at h
    obtain ⟨h1, rfl⟩ := init_inv hi
    exact ⟨h1, sets_of_list h⟩

theorem ofDict_inv {g : DiGraph V} {fs : List (V × F)} {check : Bool} {m : DagModel F V S}
    (h : ofDict g (fs.map fun p => (p.1, some p.2)) check = .ok m) :
    g.hasCycle = false ∧ Sets ⟨g, g.nodes.map fun x => (x, none), g.nodes.map fun x => (x, none), check⟩ fs m := by
  rw [ofDict] at h
  cases hi : (init g check : Py (DagModel F V S)) with
  | error e => rw [hi] at h; cases h
  | ok m0 =>
    rw [hi] at h
    obtain ⟨h1, rfl⟩ := init_inv hi
    exact ⟨h1, sets_of_dict h⟩

theorem ofList_factors {g : DiGraph V} {fs : List F} {check : Bool} {m : DagModel F V S} (h : ofList g fs check = .ok m)
    {v : V} {f : F} (hf : Dict.get? m.factors v = some (some f)) : f ∈ fs := by
  obtain ⟨_, l, rfl, _, hs⟩ := ofList_inv h
  rcases hs.factors hf with h | h
  · exact List.mem_map_of_mem (f := Prod.snd) h
  · simp only [get?_init] at h
    split at h <;> cases h

end DagModel
end Verif
