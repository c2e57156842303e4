import Verif.Factor.Lemmas

/-!
# Helper lemmas that turn the laws of factors into statements about `get_value`
-/

set_option linter.unusedSectionVars false
set_option linter.unusedSimpArgs false

namespace Verif

variable {V S α : Type} [DecidableEq V] [DecidableEq S] [Inhabited α]

theorem FullObs.left {d1 d2 : Dom V S} {o : Obs V S} (h : FullObs (domUnion d1 d2) o) : FullObs d1 o :=
  fun p hp => h p (List.mem_append_left _ hp)

theorem FullObs.right {d1 d2 : Dom V S} {o : Obs V S} (hc : Compat d1 d2)
    (h : FullObs (domUnion d1 d2) o) : FullObs d2 o := by
  intro p hp
  by_cases hk : p.1 ∈ Dict.keys d1
  · obtain ⟨st, hst⟩ := Dict.mem_keys.1 hk
    have := hc _ hst p hp rfl
    obtain ⟨s, hs, hg⟩ := h _ (List.mem_append_left _ hst)
    exact ⟨s, by simpa [← this] using hs, hg⟩
  · exact h p (List.mem_append_right _ (List.mem_filter.2 ⟨hp, by simpa using hk⟩))

theorem fullObs_iff_inDom [Nonempty S] {d : Dom V S} {o : Obs V S} :
    FullObs d o ↔ InDom d (asg o) ∧ Covers d o (asg o) :=
  ⟨fun h => ⟨h.inDom, h.covers⟩, fun h => fullObs_of_covers h.1 h.2⟩

theorem FullObs.merge_left [Nonempty S] {d1 d2 : Dom V S} {o : Obs V S} (h1 : (Dict.keys d1).Nodup)
    (hc : SetCompat d1 d2) (h : FullObs (Dict.merge d1 d2) o) : FullObs d1 o :=
  fullObs_of_covers (inDom_of_merge_left h1 hc h.inDom)
    fun v hv => h.covers v (keys_sub_merge_left d1 d2 v hv)

theorem FullObs.merge_right [Nonempty S] {d1 d2 : Dom V S} {o : Obs V S} (h2 : (Dict.keys d2).Nodup)
    (h : FullObs (Dict.merge d1 d2) o) : FullObs d2 o :=
  fullObs_of_covers (inDom_of_merge_right h2 h.inDom)
    fun v hv => h.covers v (keys_sub_merge_right d1 d2 v hv)

/-- Appending observations: the first one wins, as `over`. -/
theorem asg_append [Nonempty S] (o1 o2 : Obs V S) : (asg (o1 ++ o2) : V → S) = over o1 (asg o2) := by
  funext v
  simp only [asg, over, Dict.get?_append]
  rcases Dict.get? o1 v with _ | x <;> simp

theorem FullObs.append {d : Dom V S} {o1 o2 : Obs V S} (h1 : ObsOk d o1)
    (h2 : FullObs (d.filter fun p => p.1 ∉ Dict.keys o1) o2) : FullObs d (o1 ++ o2) := by
  intro p hp
  rw [Dict.get?_append]
  rcases hg : Dict.get? o1 p.1 with _ | x
  · have hk : p.1 ∉ Dict.keys o1 := Dict.get?_eq_none.1 hg
    obtain ⟨s, hs, hg2⟩ := h2 p (List.mem_filter.2 ⟨hp, by simpa using hk⟩)
    exact ⟨s, hs, by simp [hg2]⟩
  · exact ⟨x, h1 p hp x hg, by simp⟩

namespace Factor

variable {I : StoreImpl V S α} [AddCommMonoid α] [Nonempty S] (hI : I.Lawful)
include hI

theorem combine_getValue (op : α → α → α) {f g : Factor I} (hf : f.WF) (hg : g.WF)
    (hc : Compat f.dom g.dom) :
    ∃ r, combine op f g = .ok r ∧ r.WF ∧ r.dom = domUnion f.dom g.dom ∧
      ∀ obs, FullObs r.dom obs →
        ∃ x y, f.getValue obs = .ok x ∧ g.getValue obs = .ok y ∧ r.getValue obs = .ok (op x y) := by
  obtain ⟨r, h1, h2, h3, _, h4⟩ := combine_ok hI op hf hg hc
  refine ⟨r, h1, h2, h3, fun obs ho => ?_⟩
  have ho' := ho
  rw [h3] at ho'
  exact ⟨_, _, getValue_full hI hf ho'.left, getValue_full hI hg (ho'.right hc), by
    rw [getValue_full hI h2 ho, h4 _ ho.inDom]⟩

theorem divideG_getValue (op : α → α → α) {f g : Factor I} (hf : f.WF) (hg : g.WF)
    (hc : Compat f.dom g.dom) :
    ∃ r, divideG op f g = .ok r ∧ r.WF ∧ r.dom = domUnion f.dom g.dom ∧
      ∀ obs, FullObs r.dom obs →
        ∃ x y, f.getValue obs = .ok x ∧ g.getValue obs = .ok y ∧ r.getValue obs = .ok (op x y) := by
  obtain ⟨r, h1, h2, h3, _, h4⟩ := divideG_ok hI op hf hg hc
  refine ⟨r, h1, h2, h3, fun obs ho => ?_⟩
  have ho' := ho
  rw [h3] at ho'
  exact ⟨_, _, getValue_full hI hf ho'.left, getValue_full hI hg (ho'.right hc), by
    rw [getValue_full hI h2 ho, h4 _ ho.inDom]⟩

omit hI in
theorem vars_of_dom {f g r : Factor I} (h : r.dom = domUnion f.dom g.dom) :
    r.vars = f.vars ++ g.vars.filter (fun v => v ∉ f.vars) := by
  rw [vars, h, keys_domUnion]; rfl

theorem prepareScalar_ok (f : Factor I) (x : α) :
    ∃ g, f.prepareScalar x = .ok g ∧ g.WF ∧ g.dom = [] ∧ g.rightVars = [] ∧ ∀ a, g.sem a = x := by
  obtain ⟨g, h1, h2, h3, h4, h5⟩ := make_ok hI (I := I) (d := ([] : Dom V S)) (values := [x])
    (left := some f.leftVars) (right := none) (r := []) DomOk.nil (by simp [cards]) (by simp [setVariables])
  refine ⟨g, h1, h2, h3, h4, fun a => ?_⟩
  rw [h5 a (by intro p hp; simp at hp)]
  simp [cards, coords]

/-- Values of `f` over the joint states of the removed variables, as read with `get_value`. -/
theorem mapM_getValue_domIn {f : Factor I} (hf : f.WF) (vars : List V) {obs : Obs V S}
    (ho : FullObs (domOut f.dom vars) obs) :
    ((assignmentSpace (domIn f.dom vars)).mapM fun o => f.getValue (o ++ obs))
      = .ok ((variants (domIn f.dom vars) (asg obs)).map f.sem) := by
  have hd := hf.domOk hI
  rw [variants_eq_assignmentSpace (hd.domIn vars).keys, List.map_map]
  refine mapM_ok fun o ho' => ?_
  obtain ⟨h1, h2⟩ := space_domIn_ok hd ho'
  rw [getValue_full hI hf (FullObs.append h1 (by rw [h2]; exact ho)), asg_append]; rfl

end Factor
end Verif
