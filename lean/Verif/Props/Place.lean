import Verif.Props.Factors2
import Verif.Store.NumpyPlace

/-!
# C02 exactly: the default store pairs values by the place of the states
-/

set_option linter.unusedSectionVars false
set_option linter.unusedSimpArgs false

namespace Verif.Props
open Verif

variable {V S α : Type} [DecidableEq V] [DecidableEq S] [Nonempty S] [Inhabited α] [AddCommMonoid α]

/-- Shared variables have the same number of states. -/
def SameSizes (d e : Dom V S) : Prop := ∀ p ∈ d, ∀ q ∈ e, p.1 = q.1 → p.2.length = q.2.length

/-- The two observations agree outside of `e`, and for the variables of both domains give the states at the same place, `o'` in `d` and `o` in `e`. -/
structure SamePlace (d e : Dom V S) (o o' : Obs V S) : Prop where
  own : ∀ p ∈ d, p.1 ∉ Dict.keys e → Dict.get? o' p.1 = Dict.get? o p.1
  shared : ∀ p ∈ d, ∀ q ∈ e, p.1 = q.1 → ∃ (k : Nat) (x y : S), q.2[k]? = some x ∧ p.2[k]? = some y ∧ Dict.get? o p.1 = some x ∧ Dict.get? o' p.1 = some y

/-- **C02** in the default store, whatever the labels of the states: any operation pairs the value of the second factor with the value of the first one at the
states **at the same place**. -/
theorem C02_numpy_by_place (op : α → α → α) {f g : Factor (storeOf .numpy : StoreImpl V S α)} (hf : f.WF) (hg : g.WF) (hc : SameSizes f.dom g.dom) :
    ∃ r, f.combine op g = .ok r ∧ r.WF ∧ r.dom = Dict.merge f.dom g.dom ∧
      ∀ o o', FullObs r.dom o → SamePlace f.dom g.dom o o' →
        ∃ x y, f.getValue o' = .ok x ∧ g.getValue o = .ok y ∧ r.getValue o = .ok (op x y) := by
  have hI := storeOf_lawful (V := V) (S := S) (α := α) .numpy
  obtain ⟨st, h1, h2, h3, h4⟩ := NumpyStore.combine_place op (s := f.store) (t := g.store) hf hg hc
  have hfd := hf.domOk hI
  have hgd := hg.domOk hI
  let r : Factor (storeOf .numpy : StoreImpl V S α) := ⟨st, (Dict.keys ((storeOf .numpy : StoreImpl V S α).dom st)).filter fun v => v ∉ f.leftVars ∧ v ∉ g.leftVars⟩
  have hr : r.WF := h2
  refine ⟨r, ?_, hr, h3, ?_⟩
  · have h1' : (storeOf .numpy : StoreImpl V S α).combine op f.store g.store = .ok st := h1
    simp only [Factor.combine, h1', py_ok_bind]
    exact Factor.build_right (hI.wf_dom h2) _
  · intro o o' ho hp
    have hrd : r.dom = Dict.merge f.dom g.dom := h3
    have hgo : FullObs g.dom o := by rw [hrd] at ho; exact ho.merge_right hgd.keys
    have hown : ∀ p ∈ f.dom, p.1 ∉ Dict.keys g.dom → p ∈ r.dom := by
      intro p hp hn
      rw [hrd, Dict.merge]
      refine List.mem_append_left _ (List.mem_map.2 ⟨p, hp, ?_⟩)
      rw [Dict.get?_eq_none.2 hn]; rfl
    have hfo : FullObs f.dom o' := by
      intro p hpf
      by_cases hn : p.1 ∈ Dict.keys g.dom
      · obtain ⟨l, hl⟩ := Dict.mem_keys.1 hn
        obtain ⟨k, x, y, _, k2, _, k4⟩ := hp.shared p hpf _ hl rfl
        exact ⟨y, List.mem_of_getElem? k2, k4⟩
      · obtain ⟨s, hs, hg'⟩ := ho p (hown p hpf hn)
        exact ⟨s, hs, by rw [hp.own p hpf hn]; exact hg'⟩
    refine ⟨_, _, Factor.getValue_full hI hf hfo, Factor.getValue_full hI hg hgo, ?_⟩
    rw [Factor.getValue_full hI hr ho]
    refine congrArg Except.ok (h4 _ _ ho.inDom fun p hpf => ?_)
    by_cases hn : p.1 ∈ Dict.keys g.dom
    · obtain ⟨l, hl⟩ := Dict.mem_keys.1 hn
      obtain ⟨k, x, y, k1, k2, k3, k4⟩ := hp.shared p hpf _ hl rfl
      have e0 : Dict.get? g.store.dom p.1 = some l := Dict.get?_of_mem hgd.keys hl
      rw [e0, Option.getD_some, show asg o' p.1 = y from over_of_get? k4, show asg o p.1 = x from over_of_get? k3]
      obtain ⟨i1, e1⟩ := List.getElem?_eq_some_iff.1 k1
      obtain ⟨i2, e2⟩ := List.getElem?_eq_some_iff.1 k2
      rw [← e1, ← e2, List.Nodup.idxOf_getElem (hfd.states p hpf) k i2]
      exact (List.Nodup.idxOf_getElem (hgd.states _ hl) k i1).symm
    · have e0 : Dict.get? g.store.dom p.1 = none := Dict.get?_eq_none.2 hn
      rw [e0, Option.getD_none]
      simp only [asg, over, hp.own p hpf hn]

/-- The states of X in two orders: the value 2 of X=b meets the value 20 of X=a. -/
theorem C02_by_place_example :
    (do let f ← Factor.make (storeOf .numpy : StoreImpl Char Char ℤ) dX [1, 2] none none
        let g ← Factor.make (storeOf .numpy : StoreImpl Char Char ℤ) dX' [10, 20] none none
        let r ← f.multiply g
        let x ← f.getValue [('X', 'b')]
        let y ← g.getValue [('X', 'a')]
        let z ← r.getValue [('X', 'a')]
        return (x, y, z)) = (.ok (2, 20, 40) : Py _) := by decide +kernel

/-- The hypotheses of `C02_numpy_by_place` are met by factors with no label in common. -/
example : ∃ f g : Factor (storeOf .numpy : StoreImpl Char Char ℤ), f.WF ∧ g.WF ∧ SameSizes f.dom g.dom ∧
    SamePlace f.dom g.dom [('X', 'q')] [('X', 'b')] := by
  have hI := storeOf_lawful (V := Char) (S := Char) (α := ℤ) .numpy
  obtain ⟨f, _, h2, h3, _⟩ := Factor.make_ok hI (left := none) (right := none) (values := [1, 2]) dX_ok (by decide) rfl
  obtain ⟨g, _, g2, g3, _⟩ := Factor.make_ok hI (left := none) (right := none) (values := [10, 20]) (d := [('X', ['p', 'q'])])
    ⟨by decide, by decide, by decide⟩ (by decide) rfl
  refine ⟨f, g, h2, g2, ?_, ?_, ?_⟩
  · rw [h3, g3]; simp [SameSizes, dX]
  · rw [h3, g3]; simp [dX]
  · rw [h3, g3]; simp only [dX, List.mem_singleton, forall_eq]
    exact fun _ => ⟨1, 'q', 'b', rfl, rfl, rfl, rfl⟩

end Verif.Props
