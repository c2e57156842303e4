import Verif.Factor.Api
import Verif.Net.Sums

/-!
# Factors that represent functions of an assignment: helper lemmas

`Rep D f φ`: the factor `f` is well formed, its variables have the states given by `D`, and its cells
are the finite values `φ a`.
-/

set_option linter.unusedSectionVars false
set_option linter.unusedSimpArgs false

namespace Verif
namespace Factor

variable {V S K : Type} [DecidableEq V] [DecidableEq S] [Field K] [LinearOrder K] {I : StoreImpl V S (Fl K)}

structure Rep (D : V → List S) (f : Factor I) (φ : (V → S) → K) : Prop where
  wf : f.WF
  dom : ∀ p ∈ f.dom, p.2 = D p.1
  sem : ∀ a, (∀ v ∈ f.vars, a v ∈ D v) → f.sem a = .fin (φ a)

variable {D : V → List S} {f g : Factor I} {φ ψ : (V → S) → K}

theorem Rep.compat (hf : Rep D f φ) (hg : Rep D g ψ) : Compat f.dom g.dom := by
  intro p hp q hq e
  rw [hf.dom p hp, hg.dom q hq, e]

theorem inDom_of_states {d : Dom V S} (hd : ∀ p ∈ d, p.2 = D p.1) {a : V → S} (ha : ∀ v ∈ Dict.keys d, a v ∈ D v) :
    InDom d a := fun p hp => by rw [hd p hp]; exact ha _ (Dict.mem_keys_of_mem hp)

theorem states_of_inDom {d : Dom V S} (hd : ∀ p ∈ d, p.2 = D p.1) {a : V → S} (ha : InDom d a) :
    ∀ v ∈ Dict.keys d, a v ∈ D v := by
  intro v hv
  obtain ⟨st, hst⟩ := Dict.mem_keys.1 hv
  have := ha _ hst
  rw [hd _ hst] at this; exact this

theorem Rep.congr (hf : Rep D f φ) (h : ∀ a, (∀ v ∈ f.vars, a v ∈ D v) → φ a = ψ a) : Rep D f ψ :=
  ⟨hf.wf, hf.dom, fun a ha => by rw [hf.sem a ha, h a ha]⟩

variable (hI : I.Lawful)
include hI

theorem mem_leftVars {f : Factor I} {v : V} : v ∈ f.leftVars ↔ v ∈ f.vars ∧ v ∉ f.rightVars := by
  simp [leftVars]

theorem Rep.mul (hf : Rep D f φ) (hg : Rep D g ψ) :
    ∃ r, f.multiply g = .ok r ∧ Rep D r (fun a => φ a * ψ a) ∧
      (∀ v, v ∈ r.vars ↔ v ∈ f.vars ∨ v ∈ g.vars) ∧ ∀ v, v ∈ r.leftVars ↔ v ∈ f.leftVars ∨ v ∈ g.leftVars := by
  have hc := hf.compat hg
  obtain ⟨r, h1, h2, h3, h4, h5⟩ := combine_ok hI (· * ·) hf.wf hg.wf hc
  have hv : ∀ v, v ∈ r.vars ↔ v ∈ f.vars ∨ v ∈ g.vars := by
    intro v; rw [vars, h3]; exact mem_keys_domUnion
  have hd : ∀ p ∈ r.dom, p.2 = D p.1 := by
    intro p hp
    rw [h3] at hp
    rcases mem_domUnion.1 hp with hp | hp
    · exact hf.dom p hp
    · exact hg.dom p hp.1
  refine ⟨r, h1, ⟨h2, hd, fun a ha => ?_⟩, hv, fun v => ?_⟩
  · rw [h5 a (inDom_of_states hd ha), hf.sem a fun v hv' => ha v ((hv v).2 (.inl hv')),
      hg.sem a fun v hv' => ha v ((hv v).2 (.inr hv'))]
    rfl
  · rw [mem_leftVars hI, h4]
    simp only [List.mem_filter, decide_eq_true_eq]
    have a1 : v ∈ f.leftVars → v ∈ f.vars := fun h => ((mem_leftVars hI).1 h).1
    have a2 : v ∈ g.leftVars → v ∈ g.vars := fun h => ((mem_leftVars hI).1 h).1
    rw [hv]
    tauto

/-- Product of a non-empty list of factors. -/
theorem Rep.combineAll {β : Type} (F : β → Factor I) (Φ : β → (V → S) → K) (l : List β) (hl : l ≠ [])
    (h : ∀ b ∈ l, Rep D (F b) (Φ b)) :
    ∃ r, Factor.combineAll (l.map F) = .ok r ∧ Rep D r (fun a => (l.map fun b => Φ b a).prod) ∧
      (∀ v, v ∈ r.vars ↔ ∃ b ∈ l, v ∈ (F b).vars) ∧ ∀ v, v ∈ r.leftVars ↔ ∃ b ∈ l, v ∈ (F b).leftVars := by
  cases l with
  | nil => exact absurd rfl hl
  | cons b l =>
    have key : ∀ (l : List β) (f : Factor I) (φ : (V → S) → K), Rep D f φ → (∀ b ∈ l, Rep D (F b) (Φ b)) →
        ∃ r, (l.map F).foldlM multiply f = .ok r ∧ Rep D r (fun a => φ a * (l.map fun b => Φ b a).prod) ∧
          (∀ v, v ∈ r.vars ↔ v ∈ f.vars ∨ ∃ b ∈ l, v ∈ (F b).vars) ∧
          ∀ v, v ∈ r.leftVars ↔ v ∈ f.leftVars ∨ ∃ b ∈ l, v ∈ (F b).leftVars := by
      intro l
      induction l with
      | nil => intro f φ hf _; exact ⟨f, rfl, by simpa using hf, by simp, by simp⟩
      | cons c l ih =>
        intro f φ hf h
        obtain ⟨r1, a1, a2, a3, a4⟩ := hf.mul hI (h c List.mem_cons_self)
        obtain ⟨r, b1, b2, b3, b4⟩ := ih r1 _ a2 fun b hb => h b (List.mem_cons_of_mem _ hb)
        refine ⟨r, ?_, ?_, ?_, ?_⟩
        · rw [List.map_cons, List.foldlM_cons, a1]; exact b1
        · exact b2.congr fun a _ => by simp [mul_assoc]
        · intro v; rw [b3, a3]; simp [or_assoc]
        · intro v; rw [b4, a4]; simp [or_assoc]
    obtain ⟨r, h1, h2, h3, h4⟩ := key l (F b) (Φ b) (h b List.mem_cons_self)
      fun c hc => h c (List.mem_cons_of_mem _ hc)
    exact ⟨r, h1, h2.congr fun a _ => by simp, by intro v; rw [h3]; simp, by intro v; rw [h4]; simp⟩

theorem sumStates_fin (d : Dom V S) (φ : (V → S) → K) (a : V → S) :
    sumStates (fun a => Fl.fin (φ a)) d a = .fin (sumStates φ d a) := by
  induction d generalizing a with
  | nil => rfl
  | cons p d ih =>
    simp only [sumStates, ih]
    exact Fl.sum_fin' p.2 _

/-- Marginalising a list of variables. -/
theorem Rep.marginalize (hf : Rep D f φ) {xs : List V} (hx : ∀ x ∈ xs, x ∈ f.vars) (hn : xs.Nodup) :
    ∃ r, f.marginalize xs = .ok r ∧ Rep D r (sumOver D xs φ) ∧
      (r.dom = domOut f.dom xs) ∧ (∀ v, v ∈ r.vars ↔ v ∈ f.vars ∧ v ∉ xs) ∧
      ∀ v, v ∈ r.leftVars ↔ v ∈ f.leftVars ∧ v ∉ xs := by
  obtain ⟨r, h1, h2, h3, h4, _, h5⟩ := marginalize_ok hI hf.wf hx hn
  have hv : ∀ v, v ∈ r.vars ↔ v ∈ f.vars ∧ v ∉ xs := by
    intro v
    rw [vars, h3, keys_domOut]; simp [vars]
  have hd : ∀ p ∈ r.dom, p.2 = D p.1 := by
    intro p hp
    rw [h3] at hp
    exact hf.dom p (List.mem_filter.1 hp).1
  refine ⟨r, h1, ⟨h2, hd, fun a ha => ?_⟩, h3, hv, fun v => ?_⟩
  · rw [h5 a (inDom_of_states hd ha)]
    have hfd := hf.wf.domOk hI
    have hnd := (hfd.domIn xs).keys
    have e1 : sumStates f.sem (domIn f.dom xs) a = sumStates (fun b => Fl.fin (φ b)) (domIn f.dom xs) a := by
      refine sumStates_congr fun b hb => hf.sem b fun v hv' => ?_
      by_cases hvx : v ∈ xs
      · have h6 := variants_inDom hnd hb
        obtain ⟨st, hst⟩ := Dict.mem_keys.1 hv'
        have h7 := h6 (v, st) (List.mem_filter.2 ⟨hst, by simpa using hvx⟩)
        rw [hf.dom _ hst] at h7; exact h7
      · have h6 : b v = a v := variants_not_mem hb (by
          rw [keys_domIn]; simp [hvx])
        rw [h6]; exact ha v ((hv v).2 ⟨hv', hvx⟩)
    rw [e1, sumStates_fin hI]
    congr 1
    have e2 : domIn f.dom xs = (Dict.keys (domIn f.dom xs)).map fun v => (v, D v) := by
      rw [Dict.keys, List.map_map]
      conv_lhs => rw [← List.map_id (domIn f.dom xs)]
      refine List.map_congr_left fun p hp => ?_
      have := hf.dom p (List.mem_filter.1 hp).1
      show p = (p.1, D p.1)
      rw [← this]
    rw [e2, ← sumOver_eq_sumStates]
    refine sumOver_perm ?_ (hfd.domIn xs).keys φ a
    rw [List.perm_ext_iff_of_nodup (hfd.domIn xs).keys hn]
    intro v
    rw [keys_domIn]
    simp only [List.mem_filter, decide_eq_true_eq]
    exact ⟨fun h => h.2, fun h => ⟨hx v h, h⟩⟩
  · rw [h4]; simp

theorem Rep.restrict (hf : Rep D f φ) {obs : Obs V S} (ho : ∀ v ∈ f.vars, ∀ s, Dict.get? obs v = some s → s ∈ D v) :
    ∃ r, f.restrict obs = .ok r ∧ Rep D r (fun a => φ (over obs a)) ∧
      (∀ v, v ∈ r.vars ↔ v ∈ f.vars ∧ v ∉ Dict.keys obs) ∧
      ∀ v, v ∈ r.leftVars ↔ v ∈ f.leftVars ∧ v ∉ Dict.keys obs := by
  have hoo : ObsOk f.dom obs := by
    intro p hp s hs
    rw [hf.dom p hp]; exact ho _ (Dict.mem_keys_of_mem hp) s hs
  obtain ⟨r, h1, h2, h3, _, h4, h5⟩ := restrict_ok hI hf.wf hoo
  have hv : ∀ v, v ∈ r.vars ↔ v ∈ f.vars ∧ v ∉ Dict.keys obs := by
    intro v
    rw [vars, h3, Dict.keys_filter_key f.dom (fun v => v ∉ Dict.keys obs)]; simp [vars]
  have hd : ∀ p ∈ r.dom, p.2 = D p.1 := by
    intro p hp
    rw [h3] at hp
    exact hf.dom p (List.mem_filter.1 hp).1
  refine ⟨r, h1, ⟨h2, hd, fun a ha => ?_⟩, hv, fun v => by rw [h4]; simp⟩
  rw [h5 a (inDom_of_states hd ha)]
  refine hf.sem _ fun v hv' => ?_
  rcases hg : Dict.get? obs v with _ | s
  · have := Dict.get?_eq_none.1 hg
    rw [over_of_not_mem this]; exact ha v ((hv v).2 ⟨hv', this⟩)
  · rw [over_of_get? hg]; exact ho v hv' s hg

/-- Reading a represented factor. -/
theorem Rep.getValue [Nonempty S] (hf : Rep D f φ) {obs : Obs V S} (ho : FullObs f.dom obs) :
    f.getValue obs = .ok (.fin (φ (asg obs))) := by
  rw [getValue_full hI hf.wf ho, hf.sem _ (states_of_inDom hf.dom ho.inDom)]

end Factor
end Verif
