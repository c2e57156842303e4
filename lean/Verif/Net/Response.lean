import Verif.Net.Rich

/-!
# Distributions of responses

If the states of an exogenous variable enumerate the responses of its child, every conditional distribution of the child given its endogenous
parents is obtained by giving probabilities to these states.
-/

set_option linter.unusedSectionVars false
set_option linter.unusedSimpArgs false

namespace Verif.BN

variable {V S K : Type} [DecidableEq V] [DecidableEq S] [Inhabited S] [Field K] [LinearOrder K] [IsStrictOrderedRing K]

variable {B : BN V S K} {exo : V → V}

/-- One configuration of the parents after the other. -/
theorem Rich.exists_distr (hR : B.Rich exo) (hE : B.Eqs B.inner) (hx : B.OneExo exo) {v : V} (hv : v ∈ B.inner)
    (hinj : ∀ w ∈ B.inner, exo w = exo v → w = v) {P : (V → S) → K} (h0 : ∀ a, B.InStates a → 0 ≤ P a)
    (h1 : ∀ a, B.InStates a → ((B.states v).map fun y => P (upd a v y)).sum = 1)
    (hd : DependsOn P (v :: (B.parents v).filter (· ∈ B.inner))) (L : List (V → S)) (hL : ∀ a ∈ L, B.InStates a) :
    ∃ θ : S → K, (∀ s ∈ B.states (exo v), 0 ≤ θ s) ∧ ((B.states (exo v)).map θ).sum = 1 ∧
      ∀ a ∈ L, ∀ y ∈ B.states v, ((B.states (exo v)).map fun s => θ s * B.table v (upd (upd a (exo v) s) v y)).sum = P (upd a v y) := by
  have hB := hE.valid
  obtain ⟨hr, hxp⟩ := hx.mem v hv
  have hvn := (mem_inner.1 hv).1
  have hxn := (mem_roots.1 hr).1
  have hxv : exo v ≠ v := fun e => not_root hv (by rw [← e]; exact hr)
  set pa := (B.parents v).filter (· ∈ B.inner) with hpa
  have hpx : exo v ∉ pa := fun h => not_root (by simpa using (List.mem_filter.1 h).2) hr
  have hpv : v ∉ pa := fun h => hB.acyclic v (.single ⟨hvn, (List.mem_filter.1 h).1⟩)
  have hne1 : ∀ w ∈ pa, w ≠ v := fun w hw e => hpv (by rw [← e]; exact hw)
  have hne2 : ∀ w ∈ pa, w ≠ exo v := fun w hw e => hpx (by rw [← e]; exact hw)
  have hin : ∀ {a : V → S}, B.InStates a → ∀ {w s}, s ∈ B.states w → B.InStates (upd a w s) := fun {a} ha {w s} hs u hu => by
    by_cases e : u = w
    · rw [e, upd_same]; exact hs
    · rw [upd_ne _ _ e]; exact ha u hu
  induction L with
  | nil =>
    obtain ⟨s0, hs0⟩ := List.exists_mem_of_ne_nil _ (hB.nonempty _ hxn)
    refine ⟨fun s => if s = s0 then 1 else 0, fun s _ => ?_, ?_, by simp⟩
    · show (0 : K) ≤ if s = s0 then 1 else 0
      split
      · exact zero_le_one
      · exact le_rfl
    · rw [sum_map_single (hB.nodupStates _ hxn) hs0 fun t _ ht => if_neg ht, if_pos rfl]
  | cons a0 L ih =>
    obtain ⟨θ, t0, t1, t2⟩ := ih fun a ha => hL a (List.mem_cons_of_mem _ ha)
    have ha0 := hL a0 List.mem_cons_self
    by_cases hold : ∃ b ∈ L, ∀ w ∈ pa, b w = a0 w
    · -- nothing new
      obtain ⟨b, hb, hba⟩ := hold
      refine ⟨θ, t0, t1, fun a ha y hy => ?_⟩
      rcases List.mem_cons.1 ha with rfl | ha
      · have e := t2 b hb y hy
        have e1 : P (upd b v y) = P (upd a v y) := hd _ _ fun w hw => by
          rcases List.mem_cons.1 hw with rfl | hw
          · rw [upd_same, upd_same]
          · have : w ≠ v := fun e => hpv (e ▸ hw)
            rw [upd_ne _ _ this, upd_ne _ _ this]; exact hba w hw
        rw [← e1, ← e]
        refine congrArg List.sum (List.map_congr_left fun s _ => ?_)
        congr 1
        refine hx.table hB hv (by rw [upd_same, upd_same]) (by rw [upd_ne _ _ hxv, upd_ne _ _ hxv, upd_same, upd_same]) fun p hp hi => ?_
        have hpp : p ∈ pa := List.mem_filter.2 ⟨hp, by simpa using hi⟩
        have e1 : p ≠ v := fun e => hpv (e ▸ hpp)
        have e2 : p ≠ exo v := fun e => hpx (e ▸ hpp)
        rw [upd_ne _ _ e1, upd_ne _ _ e1, upd_ne _ _ e2, upd_ne _ _ e2]
        exact (hba p hpp).symm
      · exact t2 a ha y hy
    · -- the states that give `y` for the new configuration, and otherwise what `s` gives
      have hresp : ∀ s ∈ B.states (exo v), ∀ a, B.InStates a → B.respond (exo v) s v a ∈ B.states v := fun s hs a ha => by
        have := (respond_table hE hv (x := exo v) (hin ha hs)).1
        rw [upd_same] at this
        rw [respond_dep hx hB hv s a (upd a (exo v) s) fun w hw => (upd_ne _ _ (hne2 w hw)).symm]
        exact this
      have key : ∀ s y, ∃ s', s ∈ B.states (exo v) → y ∈ B.states v → s' ∈ B.states (exo v) ∧ ∀ a, B.InStates a → a (exo v) = s' →
          B.table v a = if a v = (if ∀ w ∈ pa, a w = a0 w then y else B.respond (exo v) s v a) then 1 else 0 := by
        intro s y
        by_cases hsy : s ∈ B.states (exo v) ∧ y ∈ B.states v
        · obtain ⟨hs, hy⟩ := hsy
          obtain ⟨s', e1, e2⟩ := hR (exo v) hr (fun w a => if ∀ w ∈ pa, a w = a0 w then y else B.respond (exo v) s v a) fun w hw hwx => by
            have := hinj w hw hwx
            subst this
            refine ⟨fun a ha => ?_, fun a b hab => ?_⟩
            · split
              · exact hy
              · exact hresp s hs a ha
            · have : (∀ u ∈ pa, a u = a0 u) ↔ ∀ u ∈ pa, b u = a0 u := forall₂_congr fun u hu => by rw [hab u hu]
              simp only [this, respond_dep hx hB hw s a b hab]
          exact ⟨s', fun _ _ => ⟨e1, e2 v hv rfl⟩⟩
        · exact ⟨default, fun h1 h2 => absurd ⟨h1, h2⟩ hsy⟩
      choose g hg using key
      let θ' : S → K := fun s' => ((B.states v).map fun y => P (upd a0 v y) * (((B.states (exo v)).filter fun s => g s y = s').map θ).sum).sum
      have hmove : ∀ H : S → K, ((B.states (exo v)).map fun s' => θ' s' * H s').sum =
          ((B.states v).map fun y => P (upd a0 v y) * ((B.states (exo v)).map fun s => θ s * H (g s y)).sum).sum := by
        intro H
        have e1 : ∀ s', θ' s' * H s' = ((B.states v).map fun y => P (upd a0 v y) * ((((B.states (exo v)).filter fun s => g s y = s').map θ).sum * H s')).sum := by
          intro s'
          rw [← List.sum_map_mul_right]
          simp only [mul_assoc]
        simp only [e1]
        rw [sum_map_comm]
        refine congrArg List.sum (List.map_congr_left fun y hy => ?_)
        rw [List.sum_map_mul_left, sum_fibres (hB.nodupStates _ hxn) (fun s hs => (hg s y hs hy).1) θ H]
      refine ⟨θ', fun s' _ => ?_, ?_, fun a ha y' hy' => ?_⟩
      · refine List.sum_nonneg fun z hz => ?_
        obtain ⟨y, hy, rfl⟩ := List.mem_map.1 hz
        refine mul_nonneg (h0 _ (hin ha0 hy)) (List.sum_nonneg fun z hz => ?_)
        obtain ⟨s, hs, rfl⟩ := List.mem_map.1 hz
        exact t0 s (List.mem_filter.1 hs).1
      · have := hmove fun _ => 1
        simp only [mul_one, t1] at this
        rw [this]; exact h1 a0 ha0
      · have hai := hL a ha
        rw [hmove fun s' => B.table v (upd (upd a (exo v) s') v y')]
        have hT : ∀ y ∈ B.states v, ∀ s ∈ B.states (exo v), B.table v (upd (upd a (exo v) (g s y)) v y') =
            if y' = (if ∀ w ∈ pa, a w = a0 w then y else B.respond (exo v) s v a) then 1 else 0 := by
          intro y hy s hs
          obtain ⟨g1, g2⟩ := hg s y hs hy
          have hag : ∀ w ∈ pa, upd (upd a (exo v) (g s y)) v y' w = a w := fun w hw => by
            rw [upd_ne _ _ (hne1 w hw), upd_ne _ _ (hne2 w hw)]
          rw [g2 _ (hin (hin hai g1) hy') (by rw [upd_ne _ _ hxv, upd_same]), upd_same, respond_dep hx hB hv s _ a hag]
          have : (∀ w ∈ pa, upd (upd a (exo v) (g s y)) v y' w = a0 w) ↔ ∀ w ∈ pa, a w = a0 w := forall₂_congr fun w hw => by rw [hag w hw]
          simp only [this]
        rw [List.map_congr_left fun y hy => congrArg (P (upd a0 v y) * ·) (congrArg List.sum (List.map_congr_left fun s hs => congrArg (θ s * ·) (hT y hy s hs)))]
        rcases List.mem_cons.1 ha with rfl | ha
        · simp only [implies_true, if_true]
          rw [List.map_congr_left (g := fun y => if y = y' then P (upd a v y') else 0) fun y _ => ?_]
          · rw [sum_map_single (hB.nodupStates v hvn) hy' fun t _ ht => if_neg ht, if_pos rfl]
          · by_cases e : y = y'
            · subst e; simp [t1]
            · simp [e, Ne.symm e]
        · have hna : ¬ ∀ w ∈ pa, a w = a0 w := fun h => hold ⟨a, ha, h⟩
          simp only [if_neg hna]
          rw [List.sum_map_mul_right, h1 a0 ha0, one_mul, ← t2 a ha y' hy']
          refine congrArg List.sum (List.map_congr_left fun s hs => ?_)
          rw [(respond_table hE hv (x := exo v) (hin (hin hai hs) hy')).2, upd_same, upd_ne _ _ hxv, upd_same]
          have : B.respond (exo v) s v (upd (upd a (exo v) s) v y') = B.respond (exo v) s v a := respond_dep hx hB hv s _ _ fun w hw => by
            rw [upd_ne _ _ (hne1 w hw), upd_ne _ _ (hne2 w hw)]
          rw [this]

/-- All configurations. -/
theorem Rich.exists_cond (hR : B.Rich exo) (hE : B.Eqs B.inner) (hx : B.OneExo exo) {v : V} (hv : v ∈ B.inner)
    (hinj : ∀ w ∈ B.inner, exo w = exo v → w = v) {P : (V → S) → K} (h0 : ∀ a, B.InStates a → 0 ≤ P a)
    (h1 : ∀ a, B.InStates a → ((B.states v).map fun y => P (upd a v y)).sum = 1)
    (hd : DependsOn P (v :: (B.parents v).filter (· ∈ B.inner))) :
    ∃ θ : S → K, (∀ s ∈ B.states (exo v), 0 ≤ θ s) ∧ ((B.states (exo v)).map θ).sum = 1 ∧
      ∀ a, B.InStates a → ((B.states (exo v)).map fun s => θ s * B.table v (upd a (exo v) s)).sum = P a := by
  have hB := hE.valid
  obtain ⟨hr, hxp⟩ := hx.mem v hv
  have hvn := (mem_inner.1 hv).1
  have hxv : exo v ≠ v := fun e => not_root hv (by rw [← e]; exact hr)
  set pa := (B.parents v).filter (· ∈ B.inner) with hpa
  have hpx : exo v ∉ pa := fun h => not_root (by simpa using (List.mem_filter.1 h).2) hr
  have hpv : v ∉ pa := fun h => hB.acyclic v (.single ⟨hvn, (List.mem_filter.1 h).1⟩)
  have hne1 : ∀ w ∈ pa, w ≠ v := fun w hw e => hpv (by rw [← e]; exact hw)
  have hne2 : ∀ w ∈ pa, w ≠ exo v := fun w hw e => hpx (by rw [← e]; exact hw)
  have hpn : ∀ w ∈ pa, w ∈ B.nodes := fun w hw => (mem_inner.1 (by simpa using (List.mem_filter.1 hw).2)).1
  have hb : ∀ w, ∃ s, w ∈ B.nodes → s ∈ B.states w := fun w => by
    by_cases hw : w ∈ B.nodes
    · obtain ⟨s, hs⟩ := List.exists_mem_of_ne_nil _ (hB.nonempty w hw)
      exact ⟨s, fun _ => hs⟩
    · exact ⟨default, fun h => absurd h hw⟩
  choose b hb using hb
  let dm : Dom V S := pa.dedup.map fun w => (w, B.states w)
  have hk : Dict.keys dm = pa.dedup := by rw [Dict.keys, List.map_map]; exact List.map_id _
  have hkn : (Dict.keys dm).Nodup := by rw [hk]; exact List.nodup_dedup _
  obtain ⟨θ, t0, t1, t2⟩ := hR.exists_distr hE hx hv hinj h0 h1 hd ((assignmentSpace dm).map fun o => over o b) fun a ha w hw => by
    obtain ⟨o, ho, rfl⟩ := List.mem_map.1 ha
    by_cases hwk : w ∈ Dict.keys dm
    · have := (mem_assignmentSpace hkn ho b).1 (w, B.states w) (List.mem_map.2 ⟨w, by rw [← hk]; exact hwk, rfl⟩)
      exact this
    · have : Dict.get? o w = none := Dict.get?_eq_none.2 (by rw [(mem_assignmentSpace' hkn ho).1]; exact hwk)
      simp only [over, this, Option.getD_none]; exact hb w hw
  refine ⟨θ, t0, t1, fun a ha => ?_⟩
  set o : Obs V S := dm.map fun p => (p.1, a p.1) with ho
  have hom : o ∈ assignmentSpace dm := List.mem_of_getElem? (assignmentSpace_getElem? fun p hp => by
    obtain ⟨w, hw, rfl⟩ := List.mem_map.1 hp
    exact ha w (hpn w (List.mem_dedup.1 hw)))
  have hag : ∀ w ∈ pa, over o b w = a w := fun w hw => by
    refine over_of_get? (Dict.get?_of_mem (by rw [ho, Dict.keys, List.map_map]; exact hkn) ?_)
    exact List.mem_map.2 ⟨(w, B.states w), List.mem_map.2 ⟨w, List.mem_dedup.2 hw, rfl⟩, rfl⟩
  have e := t2 _ (List.mem_map.2 ⟨o, hom, rfl⟩) (a v) (ha v hvn)
  have e1 : P (upd (over o b) v (a v)) = P a := hd _ _ fun w hw => by
    rcases List.mem_cons.1 hw with rfl | hw
    · rw [upd_same]
    · rw [upd_ne _ _ (hne1 w hw)]; exact hag w hw
  rw [← e1, ← e]
  refine congrArg List.sum (List.map_congr_left fun s _ => ?_)
  congr 1
  refine hx.table hB hv (by rw [upd_same, upd_ne _ _ hxv.symm]) (by rw [upd_ne _ _ hxv, upd_same, upd_same]) fun p hp hi => ?_
  have hpp : p ∈ pa := List.mem_filter.2 ⟨hp, by simpa using hi⟩
  have e1 : p ≠ v := fun e => hpv (e ▸ hpp)
  have e2 : p ≠ exo v := fun e => hpx (e ▸ hpp)
  rw [upd_ne _ _ e1, upd_ne _ _ e2, upd_ne _ _ e2]
  exact (hag p hpp).symm

end Verif.BN
