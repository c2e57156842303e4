import Verif.Net.Push

/-!
# Exogenous variables that enumerate the responses

Every causal model in which each endogenous variable has one exogenous parent is read by a model with the same graph in which every
combination of response functions is selected by a state of the exogenous variable.
-/

set_option linter.unusedSectionVars false
set_option linter.unusedSimpArgs false

namespace Verif.BN

variable {V S K : Type} [DecidableEq V] [DecidableEq S] [Inhabited S] [Field K] [LinearOrder K] [IsStrictOrderedRing K]

/-- Each endogenous variable `v` has one exogenous parent, `exo v`. -/
structure OneExo (B : BN V S K) (exo : V → V) : Prop where
  mem : ∀ v ∈ B.inner, exo v ∈ B.roots ∧ exo v ∈ B.parents v
  only : ∀ v ∈ B.inner, ∀ p ∈ B.parents v, p ∈ B.roots → p = exo v

/-- A response of `v`: a state of `v` for each joint state of its endogenous parents. -/
structure IsResponse (B : BN V S K) (v : V) (r : (V → S) → S) : Prop where
  states : ∀ a, B.InStates a → r a ∈ B.states v
  dep : DependsOn r ((B.parents v).filter (· ∈ B.inner))

/-- For all responses of the children of an exogenous variable, one of its states selects these responses. -/
def Rich (B : BN V S K) (exo : V → V) : Prop :=
  ∀ x ∈ B.roots, ∀ r : V → (V → S) → S, (∀ v ∈ B.inner, exo v = x → B.IsResponse v (r v)) →
    ∃ s ∈ B.states x, ∀ v ∈ B.inner, exo v = x → ∀ a, B.InStates a → a x = s → B.table v a = if a v = r v a then 1 else 0

/-- The response of `v` when its exogenous parent `x` has the state `s`. -/
noncomputable def respond (B : BN V S K) (x : V) (s : S) (v : V) (a : V → S) : S :=
  Classical.epsilon fun t => t ∈ B.states v ∧ B.table v (upd (upd a x s) v t) = 1

variable {B B' : BN V S K} {exo : V → V}

theorem inner_or {v : V} (hv : v ∈ B.nodes) : v ∈ B.roots ∨ v ∈ B.inner := by
  by_cases h : B.parents v = []
  · exact .inl (mem_roots.2 ⟨hv, h⟩)
  · exact .inr (mem_inner.2 ⟨hv, h⟩)

theorem not_root {v : V} (hv : v ∈ B.inner) : v ∉ B.roots := fun h => (mem_inner.1 hv).2 (mem_roots.1 h).2

/-- The table of `v` looks at `v`, its exogenous parent and its endogenous parents. -/
theorem OneExo.table (h : B.OneExo exo) (hB : B.Valid) {v : V} (hv : v ∈ B.inner) {a b : V → S} (h1 : a v = b v) (h2 : a (exo v) = b (exo v))
    (h3 : ∀ p ∈ B.parents v, p ∈ B.inner → a p = b p) : B.table v a = B.table v b := by
  refine hB.scope v (mem_inner.1 hv).1 _ _ fun w hw => ?_
  rcases List.mem_cons.1 hw with rfl | hw
  · exact h1
  · rcases inner_or (hB.parents v (mem_inner.1 hv).1 w hw) with hr | hi
    · rw [h.only v hv w hw hr]; exact h2
    · exact h3 w hw hi

theorem respond_dep (h : B.OneExo exo) (hB : B.Valid) {v : V} (hv : v ∈ B.inner) (s : S) :
    DependsOn (B.respond (exo v) s v) ((B.parents v).filter (· ∈ B.inner)) := by
  intro a b hab
  rw [respond, respond]
  congr 1
  funext t
  refine congrArg (t ∈ B.states v ∧ ·) ?_
  rw [h.table hB hv (a := upd (upd a (exo v) s) v t) (b := upd (upd b (exo v) s) v t)]
  · rw [upd_same, upd_same]
  · have : exo v ≠ v := fun e => not_root hv (by rw [← e]; exact (h.mem v hv).1)
    rw [upd_ne _ _ this, upd_ne _ _ this, upd_same, upd_same]
  · intro p hp hi
    by_cases e : p = v
    · subst e; rw [upd_same, upd_same]
    · have : p ≠ exo v := fun e => not_root hi (by rw [e]; exact (h.mem v hv).1)
      rw [upd_ne _ _ e, upd_ne _ _ e, upd_ne _ _ this, upd_ne _ _ this]
      exact hab p (List.mem_filter.2 ⟨hp, by simpa using hi⟩)

/-- The equation of `v` in terms of its response. -/
theorem respond_table (h : B.Eqs B.inner) {v : V} (hv : v ∈ B.inner) {x : V} {a : V → S} (ha : B.InStates a) :
    B.respond x (a x) v a ∈ B.states v ∧ B.table v a = if a v = B.respond x (a x) v a then 1 else 0 := by
  obtain ⟨⟨t, h1, h2⟩, h3⟩ := h.col hv ha
  have hx : upd a x (a x) = a := by funext w; by_cases e : w = x; · subst e; rw [upd_same]
                                    · rw [upd_ne _ _ e]
  have e : B.respond x (a x) v a ∈ B.states v ∧ B.table v (upd a v (B.respond x (a x) v a)) = 1 := by
    have := Classical.epsilon_spec (p := fun t => t ∈ B.states v ∧ B.table v (upd (upd a x (a x)) v t) = 1) ⟨t, h1, by rw [hx]; exact h2⟩
    refine ⟨this.1, ?_⟩
    have h4 := this.2
    conv at h4 => lhs; rw [show ∀ t, upd (upd a x (a x)) v t = upd a v t from fun t => by rw [hx]]
    exact h4
  refine ⟨e.1, ?_⟩
  have hav : upd a v (a v) = a := by funext w; by_cases e : w = v; · subst e; rw [upd_same]
                                     · rw [upd_ne _ _ e]
  split
  · rename_i he
    have := e.2
    rwa [← he, hav] at this
  · rename_i hne
    rcases h.zeroOne v hv a ha with h0 | h0
    · exact h0
    · exact absurd (h3 _ (ha v (mem_inner.1 hv).1) _ e.1 (by rw [hav]; exact h0) e.2) hne

/-- Same graph, and the same states of the endogenous variables. -/
structure SameEndo (B B' : BN V S K) : Prop where
  nodes : B'.nodes = B.nodes
  parents : ∀ v ∈ B.nodes, B'.parents v = B.parents v
  states : ∀ v ∈ B.inner, B'.states v = B.states v

theorem SameEndo.roots (h : SameEndo B B') : B'.roots = B.roots := by
  rw [BN.roots, BN.roots, h.nodes]
  exact List.filter_congr fun v hv => by rw [h.parents v hv]

theorem SameEndo.inner (h : SameEndo B B') : B'.inner = B.inner := by
  rw [BN.inner, BN.inner, h.nodes]
  exact List.filter_congr fun v hv => by rw [h.parents v hv]

theorem SameEndo.oneExo (h : SameEndo B B') (hx : B.OneExo exo) : B'.OneExo exo := by
  constructor
  · intro v hv
    rw [h.inner] at hv
    rw [h.roots, h.parents v (mem_inner.1 hv).1]
    exact hx.mem v hv
  · intro v hv p hp hr
    rw [h.inner] at hv
    rw [h.parents v (mem_inner.1 hv).1] at hp
    rw [h.roots] at hr
    exact hx.only v hv p hp hr

/-- The states of the rich model that stand for the states of the other one. -/
theorem Rich.exists_map (hR : B'.Rich exo) (hs : SameEndo B B') (hE : B.Eqs B.inner) (hB' : B'.Valid) (hx : B.OneExo exo) :
    ∃ φ : V → S → S, (∀ x ∈ B.roots, ∀ s ∈ B.states x, φ x s ∈ B'.states x) ∧
      ∀ v ∈ B.inner, ∀ a, B.InStates a → B'.table v (moved φ B.roots a) = B.table v a := by
  have key : ∀ x s, ∃ s', x ∈ B.roots → s ∈ B.states x → s' ∈ B'.states x ∧ ∀ v ∈ B.inner, exo v = x → ∀ a, B'.InStates a → a x = s' →
      B'.table v a = if a v = B.respond x s v a then 1 else 0 := by
    intro x s
    by_cases hxr : x ∈ B.roots ∧ s ∈ B.states x
    · obtain ⟨hxr, hss⟩ := hxr
      obtain ⟨s', h1, h2⟩ := hR x (by rw [hs.roots]; exact hxr) (fun v => B.respond x s v) (fun v hv hvx => by
        rw [hs.inner] at hv
        refine ⟨fun a ha => ?_, ?_⟩
        · set b : V → S := fun w => if w ∈ B.inner then a w else if w = x then s else (B.states w).headD default with hb
          have hbi : B.InStates b := fun w hw => by
            simp only [hb]
            split
            · rename_i hwi
              rw [← hs.states w hwi]; exact ha w (by rw [hs.nodes]; exact hw)
            · split
              · rename_i e; rw [e]; exact hss
              · have hne := hE.valid.nonempty w hw
                cases hst : B.states w with
                | nil => exact absurd hst hne
                | cons t l => simp
          have hbx : b x = s := by simp only [hb]; rw [if_neg fun h => not_root h hxr]; simp
          have := (respond_table hE hv (x := x) hbi).1
          rw [hbx] at this
          have e : B.respond x s v a = B.respond x s v b := by
            subst hvx
            refine respond_dep hx hE.valid hv s a b fun w hw => ?_
            have hwi : w ∈ B.inner := by simpa using (List.mem_filter.1 hw).2
            simp only [hb]; rw [if_pos hwi]
          show B.respond x s v a ∈ B'.states v
          rw [e, hs.states v hv]; exact this
        · subst hvx
          have := respond_dep hx hE.valid hv s
          rw [hs.parents v (mem_inner.1 hv).1, hs.inner]
          exact this)
      exact ⟨s', fun _ _ => ⟨h1, fun v hv hvx a ha hax => h2 v (by rw [hs.inner]; exact hv) hvx a ha hax⟩⟩
    · exact ⟨default, fun h1 h2 => absurd ⟨h1, h2⟩ hxr⟩
  choose φ hφ using key
  refine ⟨φ, fun x hxr s hss => (hφ x s hxr hss).1, fun v hv a ha => ?_⟩
  obtain ⟨hr, hp⟩ := hx.mem v hv
  have hn := (mem_roots.1 hr).1
  obtain ⟨_, h2⟩ := hφ (exo v) (a (exo v)) hr (ha _ hn)
  have hm : B'.InStates (moved φ B.roots a) := fun w hw => by
    rw [hs.nodes] at hw
    rcases inner_or hw with hw' | hw'
    · rw [moved, if_pos hw']; exact (hφ w (a w) hw' (ha w hw)).1
    · rw [moved_inner hw', hs.states w hw']; exact ha w hw
  rw [h2 v hv rfl _ hm (by rw [moved, if_pos hr]), moved_inner hv, (respond_table hE hv (x := exo v) ha).2]
  have : B.respond (exo v) (a (exo v)) v (moved φ B.roots a) = B.respond (exo v) (a (exo v)) v a :=
    respond_dep hx hE.valid hv _ _ _ fun w hw => moved_inner (by simpa using (List.mem_filter.1 hw).2)
  rw [this]

end Verif.BN
