import Verif.Factor.Basic

/-!
# Laws of `MultinomialFactor`, for any lawful store
-/

set_option linter.unusedSectionVars false
set_option linter.unusedSimpArgs false

namespace Verif

variable {V S α : Type} [DecidableEq V] [DecidableEq S] [Inhabited α]

/-- The total assignment behind a full observation. -/
noncomputable def asg [Nonempty S] (o : Obs V S) : V → S := over o (fun _ => Classical.arbitrary S)

theorem FullObs.inDom [Nonempty S] {d : Dom V S} {o : Obs V S} (h : FullObs d o) : InDom d (asg o) := by
  intro p hp
  obtain ⟨s, hs, hg⟩ := h p hp
  rw [asg, over_of_get? hg]; exact hs

theorem FullObs.covers [Nonempty S] {d : Dom V S} {o : Obs V S} (h : FullObs d o) :
    Covers d o (asg o) := by
  intro v hv
  obtain ⟨st, hst⟩ := Dict.mem_keys.1 hv
  obtain ⟨s, _, hg⟩ := h _ hst
  rw [asg, over_of_get? hg]; exact hg

theorem FullObs.mono {d d' : Dom V S} {o : Obs V S} (h : FullObs d o) (hs : ∀ p ∈ d', p ∈ d) :
    FullObs d' o := fun p hp => h p (hs p hp)

theorem fullObs_of_covers {d : Dom V S} {o : Obs V S} {a : V → S} (ha : InDom d a)
    (hc : Covers d o a) : FullObs d o :=
  fun p hp => ⟨a p.1, ha p hp, hc p.1 (Dict.mem_keys_of_mem hp)⟩

theorem mem_assignmentSpace_fullObs [Nonempty S] {d : Dom V S} (hk : (Dict.keys d).Nodup) {o : Obs V S}
    (h : o ∈ assignmentSpace d) : FullObs d o := by
  obtain ⟨a, ha, hc⟩ := exists_assignment_of_space hk h
  exact fullObs_of_covers ha hc

namespace Factor

variable {I : StoreImpl V S α}

/-- A factor whose store is well formed. -/
def WF (f : Factor I) : Prop := I.WF f.store

/-- Value at a total assignment. -/
def sem (f : Factor I) (a : V → S) : α := I.sem f.store a

variable [AddCommMonoid α] (hI : I.Lawful)
include hI

theorem WF.domOk {f : Factor I} (hf : f.WF) : DomOk f.dom := hI.wf_dom hf

theorem WF.sem_congr {f : Factor I} (hf : f.WF) {a b : V → S} (h : ∀ v ∈ f.vars, a v = b v) :
    f.sem a = f.sem b := hI.sem_congr hf h

theorem getValue_ok {f : Factor I} (hf : f.WF) {obs : Obs V S} {a : V → S} (ha : InDom f.dom a)
    (hc : Covers f.dom obs a) : f.getValue obs = .ok (f.sem a) := hI.getValue_ok hf ha hc

theorem getValue_full [Nonempty S] {f : Factor I} (hf : f.WF) {obs : Obs V S} (h : FullObs f.dom obs) :
    f.getValue obs = .ok (f.sem (asg obs)) := hI.getValue_ok hf h.inDom h.covers

omit hI in
theorem checkDomain_ok {d : Dom V S} (h : DomOk d) : checkDomain d = .ok () := by
  rw [checkDomain, if_pos h.nonempty]

omit hI in
theorem build_right {f : Factor I} {st : I.St} (h : DomOk (I.dom st)) (r : List V) :
    f.build st none (some r) = .ok ⟨st, r⟩ := by
  simp [build, checkDomain_ok h, setVariables]

theorem make_ok {d : Dom V S} {values : List α} {left right : Option (List V)} {r : List V}
    (hd : DomOk d) (hl : values.length = (cards d).prod)
    (hr : setVariables (Dict.keys d) left right = .ok r) :
    ∃ f, make I d values left right = .ok f ∧ f.WF ∧ f.dom = d ∧ f.rightVars = r ∧
      ∀ a, InDom d a → f.sem a = values.getD (ravel (cards d) (coords d a)) default := by
  obtain ⟨st, h1, h2, h3, h4⟩ := hI.ofFlat_ok hd hl
  exact ⟨⟨st, r⟩, by simp [make, checkDomain_ok hd, h1, hr], h2, h3, rfl, h4⟩

theorem combine_ok (op : α → α → α) {f g : Factor I} (hf : f.WF) (hg : g.WF)
    (hc : Compat f.dom g.dom) :
    ∃ r, combine op f g = .ok r ∧ r.WF ∧ r.dom = domUnion f.dom g.dom ∧
      r.rightVars = (r.vars.filter fun v => v ∉ f.leftVars ∧ v ∉ g.leftVars) ∧
      ∀ a, InDom r.dom a → r.sem a = op (f.sem a) (g.sem a) := by
  obtain ⟨st, h1, h2, h3, h4⟩ := hI.combine_ok op hf hg hc
  refine ⟨⟨st, (Dict.keys (I.dom st)).filter fun v => v ∉ f.leftVars ∧ v ∉ g.leftVars⟩, ?_, h2, h3, rfl, h4⟩
  simp only [combine, h1, py_ok_bind]
  exact build_right (hI.wf_dom h2) _

theorem divideG_ok (q : α → α → α) {f g : Factor I} (hf : f.WF) (hg : g.WF)
    (hc : Compat f.dom g.dom) :
    ∃ r, divideG q f g = .ok r ∧ r.WF ∧ r.dom = domUnion f.dom g.dom ∧
      r.rightVars = (r.vars.filter fun v => v ∈ f.rightVars ∨ v ∈ g.vars) ∧
      ∀ a, InDom r.dom a → r.sem a = q (f.sem a) (g.sem a) := by
  obtain ⟨st, h1, h2, h3, h4⟩ := hI.combine_ok q hf hg hc
  refine ⟨⟨st, (Dict.keys (I.dom st)).filter fun v => v ∈ f.rightVars ∨ v ∈ g.vars⟩, ?_, h2, h3, rfl, h4⟩
  simp only [divideG, h1, py_ok_bind]
  exact build_right (hI.wf_dom h2) _

theorem restrict_ok {f : Factor I} (hf : f.WF) {obs : Obs V S} (ho : ObsOk f.dom obs) :
    ∃ r, f.restrict obs = .ok r ∧ r.WF ∧ r.dom = f.dom.filter (fun p => p.1 ∉ Dict.keys obs) ∧
      (∀ v, v ∈ r.rightVars ↔ v ∈ f.rightVars ∧ (v ∈ r.vars ∨ ∀ w ∈ Dict.keys obs, w ∉ f.vars)) ∧
      r.leftVars = f.leftVars.filter (fun v => v ∉ Dict.keys obs) ∧
      ∀ a, InDom r.dom a → r.sem a = f.sem (over obs a) := by
  by_cases h : ∀ v ∈ Dict.keys obs, v ∉ f.vars
  · have hd : f.dom.filter (fun p => p.1 ∉ Dict.keys obs) = f.dom := by
      rw [List.filter_eq_self]
      intro p hp
      have : p.1 ∉ Dict.keys obs := fun hk => h _ hk (Dict.mem_keys_of_mem hp)
      simpa using this
    have hl : f.leftVars.filter (fun v => v ∉ Dict.keys obs) = f.leftVars := by
      rw [List.filter_eq_self]
      intro v hv
      have : v ∉ Dict.keys obs := fun hk => h _ hk (List.mem_filter.1 hv).1
      simpa using this
    refine ⟨f, by rw [restrict, if_pos h], hf, hd.symm, fun v => ?_, hl.symm, ?_⟩
    · exact ⟨fun hv => ⟨hv, Or.inr h⟩, fun hv => hv.1⟩
    · intro a _
      refine (hf.sem_congr hI fun v hv => ?_)
      rw [over_of_not_mem fun hk => h v hk hv]
  · obtain ⟨st, h1, h2, h3, h4⟩ := hI.restrict_ok hf ho
    refine ⟨⟨st, (Dict.keys (I.dom st)).filter fun v => v ∈ f.rightVars⟩, ?_, h2, h3, ?_, ?_, h4⟩
    · rw [restrict, if_neg h, h1, py_ok_bind, build_right (hI.wf_dom h2)]
    · intro v
      simp only [List.mem_filter, decide_eq_true_eq]
      constructor
      · rintro ⟨a, b⟩; exact ⟨b, Or.inl a⟩
      · rintro ⟨a, b | b⟩
        · exact ⟨b, a⟩
        · exact absurd b h
    · simp only [leftVars, vars, dom, h3, Dict.keys_filter_key (I.dom f.store) (fun v => v ∉ Dict.keys obs),
        List.filter_filter]
      refine List.filter_congr fun v hv => ?_
      simp only [List.mem_filter, decide_eq_true_eq, decide_not, Bool.decide_and, hv, decide_true,
        Bool.true_and]
      by_cases h1 : v ∈ Dict.keys obs <;> by_cases h2 : v ∈ f.rightVars <;> simp [h1, h2]

theorem marginalize_ok {f : Factor I} (hf : f.WF) {vars : List V} (hsub : ∀ v ∈ vars, v ∈ f.vars)
    (hnd : vars.Nodup) :
    ∃ r, f.marginalize vars = .ok r ∧ r.WF ∧ r.dom = domOut f.dom vars ∧
      r.leftVars = f.leftVars.filter (fun v => v ∉ vars) ∧
      (∀ v, v ∈ r.rightVars ↔ v ∈ f.rightVars ∧ (v ∈ r.vars ∨ vars = [])) ∧
      ∀ a, InDom r.dom a → r.sem a = sumStates f.sem (domIn f.dom vars) a := by
  by_cases h : ∀ v ∈ vars, v ∉ f.vars
  · have hv : vars = [] := by
      cases vars with
      | nil => rfl
      | cons v vs => exact absurd (hsub v List.mem_cons_self) (h v List.mem_cons_self)
    subst hv
    refine ⟨f, by rw [marginalize, if_pos h], hf, by simp [domOut], by simp, by simp, ?_⟩
    intro a _
    have : domIn f.dom [] = [] := by simp [domIn]
    rw [this]; rfl
  · obtain ⟨st, h1, h2, h3, h4⟩ := hI.marginalize_ok hf hsub hnd
    refine ⟨⟨st, (Dict.keys (I.dom st)).filter fun v => v ∈ f.rightVars⟩, ?_, h2, h3, ?_, ?_, h4⟩
    · rw [marginalize, if_neg h, h1, py_ok_bind, build_right (hI.wf_dom h2)]
    · simp only [leftVars, Factor.vars, dom, h3, keys_domOut, List.filter_filter]
      refine List.filter_congr fun v hv => ?_
      by_cases h1 : v ∈ vars <;> by_cases h2 : v ∈ f.rightVars <;> simp [h1, h2, hv]
    · intro v
      simp only [List.mem_filter, decide_eq_true_eq]
      constructor
      · rintro ⟨a, b⟩; exact ⟨b, Or.inl a⟩
      · rintro ⟨a, b | b⟩
        · exact ⟨b, a⟩
        · subst b; simp at h

/-- A factor none of whose variables is removed is returned unchanged. -/
theorem marginalize_none {f : Factor I} {vars : List V} (h : ∀ v ∈ vars, v ∉ f.vars) :
    f.marginalize vars = .ok f := by rw [marginalize, if_pos h]

theorem valuesList_ok [Nonempty S] {f : Factor I} (hf : f.WF) :
    f.valuesList = .ok ((assignmentSpace f.dom).map fun o => f.sem (asg o)) := by
  refine mapM_ok fun o ho => ?_
  exact getValue_full hI hf (mem_assignmentSpace_fullObs (hf.domOk hI).keys ho)

theorem values_length {f : Factor I} : ((assignmentSpace f.dom).map fun o => f.getValue o).length
    = (cards f.dom).prod := by
  simp [assignmentSpace, stateSpace, length_product, cards, Function.comp_def]

end Factor
end Verif
