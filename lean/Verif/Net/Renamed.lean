import Verif.Net.CfProb
import Verif.Model.Relabel

/-!
# Probabilities of a renamed network
-/

set_option linter.unusedSectionVars false
set_option linter.unusedSimpArgs false

namespace Verif

variable {V S K : Type} [DecidableEq V] [DecidableEq S] [Inhabited S] [Field K] [LinearOrder K]

/-- An observation in which the variables have other names -/
def renObs (ρ : V → V) (o : Obs V S) : Obs V S := o.map fun p => (ρ p.1, p.2)

theorem keys_renObs (ρ : V → V) (o : Obs V S) : Dict.keys (renObs ρ o) = (Dict.keys o).map ρ := by
  simp [renObs, Dict.keys, Function.comp_def]

theorem renObs_append (ρ : V → V) (o o' : Obs V S) : renObs ρ (o ++ o') = renObs ρ o ++ renObs ρ o' := by simp [renObs]

theorem get?_renObs {ρ : V → V} {o : Obs V S} {v : V} (h : ∀ w ∈ Dict.keys o, ρ w = ρ v → w = v) :
    Dict.get? (renObs ρ o) (ρ v) = Dict.get? o v := by
  induction o with
  | nil => rfl
  | cons p o ih =>
    rw [Dict.keys_cons] at h
    have ih := ih fun w hw => h w (List.mem_cons_of_mem _ hw)
    show Dict.get? ((ρ p.1, p.2) :: renObs ρ o) (ρ v) = _
    by_cases e : p.1 = v
    · rw [Dict.get?, Dict.get?, if_pos (by rw [e]), if_pos e]
    · rw [Dict.get?, Dict.get?, if_neg (fun hc => e (h _ List.mem_cons_self hc)), if_neg e, ih]

theorem asg_renObs {ρ : V → V} {o : Obs V S} {v : V} (h : ∀ w ∈ Dict.keys o, ρ w = ρ v → w = v) :
    (asg (renObs ρ o) : V → S) (ρ v) = asg o v := by
  rw [asg, asg, over, over, get?_renObs h]

theorem sumOver_rename {D D' : V → List S} {ρ : V → V} {W : List V} (hinj : ∀ v ∈ W, ∀ w ∈ W, ρ v = ρ w → v = w)
    {f : (V → S) → K} (hf : DependsOn f W) {xs : List V} (hx : ∀ x ∈ xs, x ∈ W ∧ D' (ρ x) = D x) (a : V → S) :
    sumOver D' (xs.map ρ) (fun b => f fun v => b (ρ v)) a = sumOver D xs f fun v => a (ρ v) := by
  induction xs generalizing a with
  | nil => rfl
  | cons x xs ih =>
    rw [List.map_cons, sumOver_cons, sumOver_cons, (hx x List.mem_cons_self).2]
    congr 1
    refine List.map_congr_left fun s _ => ?_
    rw [ih (fun y hy => hx y (List.mem_cons_of_mem _ hy))]
    refine ((hf.sumOver (D := D) xs).mono (ws := W) fun v hv => (List.mem_filter.1 hv).1) _ _ fun v hv => ?_
    by_cases e : v = x
    · subst e; simp [upd]
    · have : ρ v ≠ ρ x := fun hc => e (hinj v hv x (hx x List.mem_cons_self).1 hc)
      simp [upd, e, this]

namespace BN

variable {B : BN V S K} {ρ : V → V}

theorem filter_relabel (h : B.InjOn ρ) {vs : List V} (hv : ∀ v ∈ vs, v ∈ B.nodes) :
    (B.relabel ρ).nodes.filter (· ∉ vs.map ρ) = (B.nodes.filter (· ∉ vs)).map ρ := by
  show (B.nodes.map ρ).filter _ = _
  rw [List.filter_map]
  congr 1
  refine List.filter_congr fun v hvn => ?_
  have : ρ v ∈ vs.map ρ ↔ v ∈ vs := by
    constructor
    · intro hm
      obtain ⟨w, hw, e⟩ := List.mem_map.1 hm
      rwa [h w (hv w hw) v hvn e] at hw
    · exact fun hm => List.mem_map_of_mem hm
  simp only [Function.comp, this]

theorem marg_relabel (hB : B.Valid) (h : B.InjOn ρ) {vs : List V} (hv : ∀ v ∈ vs, v ∈ B.nodes) (a : V → S) :
    (B.relabel ρ).marg (vs.map ρ) a = B.marg vs fun v => a (ρ v) := by
  rw [marg, marg, filter_relabel h hv, ← sumOver_rename (D' := (B.relabel ρ).states) (W := B.nodes) h hB.joint_dep
    (fun x hx => ⟨(List.mem_filter.1 hx).1, relabel_states h (List.mem_filter.1 hx).1⟩)]
  exact sumOver_congr' (fun b => relabel_joint h b) a

theorem doBN_relabel_joint (hB : B.Valid) (h : B.InjOn ρ) {d : Obs V S} (hd : ∀ v ∈ Dict.keys d, v ∈ B.nodes) (a : V → S) :
    ((B.relabel ρ).doBN (renObs ρ d)).joint a = (B.doBN d).joint fun v => a (ρ v) := by
  show ((B.nodes.map ρ).map fun w => ((B.relabel ρ).doBN (renObs ρ d)).table w a).prod = _
  rw [List.map_map]
  show _ = (B.nodes.map fun v => (B.doBN d).table v fun v => a (ρ v)).prod
  congr 1
  refine List.map_congr_left fun v hv => ?_
  have hg : Dict.get? (renObs ρ d) (ρ v) = Dict.get? d v := get?_renObs fun w hw e => h w (hd w hw) v hv e
  simp only [Function.comp, doBN, hg, relabel_table h hv]

theorem doMarg_relabel (hB : B.Valid) (h : B.InjOn ρ) {d : Obs V S} (hd : ∀ v ∈ Dict.keys d, v ∈ B.nodes) {vs : List V}
    (hv : ∀ v ∈ vs, v ∈ B.nodes) (a : V → S) :
    (B.relabel ρ).doMarg (renObs ρ d) (vs.map ρ) a = B.doMarg d vs fun v => a (ρ v) := by
  rw [← doMarg_eq hd, ← doMarg_eq (by
    rw [keys_renObs]; rintro w hw
    obtain ⟨v, h1, rfl⟩ := List.mem_map.1 hw
    exact List.mem_map_of_mem (hd v h1)), marg, marg]
  show sumOver (B.relabel ρ).states ((B.relabel ρ).nodes.filter (· ∉ vs.map ρ)) _ a = sumOver B.states (B.nodes.filter (· ∉ vs)) _ _
  rw [filter_relabel h hv, ← sumOver_rename (D' := (B.relabel ρ).states) (W := B.nodes) h (hB.doBN d).joint_dep
    (fun x hx => ⟨(List.mem_filter.1 hx).1, relabel_states h (List.mem_filter.1 hx).1⟩)]
  exact sumOver_congr' (fun b => doBN_relabel_joint hB h hd b) a

theorem roots_relabel (h : B.InjOn ρ) : (B.relabel ρ).roots = B.roots.map ρ := by
  show (B.nodes.map ρ).filter _ = _
  rw [List.filter_map, roots]
  congr 1
  refine List.filter_congr fun v hv => ?_
  simp only [Function.comp, relabel_parents h hv, List.map_eq_nil_iff]

theorem inner_relabel (h : B.InjOn ρ) : (B.relabel ρ).inner = B.inner.map ρ := by
  show (B.nodes.map ρ).filter _ = _
  rw [List.filter_map, inner]
  congr 1
  refine List.filter_congr fun v hv => ?_
  simp only [Function.comp, relabel_parents h hv, ne_eq, List.map_eq_nil_iff]

/-- A world with other names -/
def renWorld (ρ : V → V) (w : Obs V S × Obs V S) : Obs V S × Obs V S := (renObs ρ w.1, renObs ρ w.2)

theorem agrees_renObs (h : B.InjOn ρ) {o : Obs V S} (ho : ∀ v ∈ Dict.keys o, v ∈ B.nodes) (b : V → S) :
    Agrees (renObs ρ o) b ↔ Agrees o fun v => b (ρ v) := by
  constructor
  · intro ha v s hs
    have hv := ho v (Dict.get?_isSome.1 (by rw [hs]; rfl))
    exact ha (ρ v) s (by rw [get?_renObs fun w hw e => h w (ho w hw) v hv e]; exact hs)
  · intro ha w s hs
    have hw : w ∈ Dict.keys (renObs ρ o) := Dict.get?_isSome.1 (by rw [hs]; rfl)
    rw [keys_renObs] at hw
    obtain ⟨v, hv, rfl⟩ := List.mem_map.1 hw
    rw [get?_renObs fun w hw e => h w (ho w hw) v (ho v hv) e] at hs
    exact ha v s hs

theorem holds_relabel (hB : B.Valid) (h : B.InjOn ρ) {w : Obs V S × Obs V S} (h1 : ∀ v ∈ Dict.keys w.1, v ∈ B.nodes)
    (h2 : ∀ v ∈ Dict.keys w.2, v ∈ B.nodes) (u : V → S) :
    (B.relabel ρ).Holds (B.relabel ρ).roots (B.relabel ρ).inner u (renWorld ρ w) ↔ B.Holds B.roots B.inner (fun v => u (ρ v)) w := by
  rw [roots_relabel h, inner_relabel h]
  have hsol : ∀ b : V → S, (B.relabel ρ).Solves (B.inner.map ρ) (renObs ρ w.1) b ↔ B.Solves B.inner w.1 fun v => b (ρ v) := by
    intro b
    have : ∀ v ∈ B.inner, ((b (ρ v) ∈ (B.relabel ρ).states (ρ v) ∧ (∀ s, Dict.get? (renObs ρ w.1) (ρ v) = some s → b (ρ v) = s) ∧
        (Dict.get? (renObs ρ w.1) (ρ v) = none → (B.relabel ρ).table (ρ v) b = 1)) ↔
        (b (ρ v) ∈ B.states v ∧ (∀ s, Dict.get? w.1 v = some s → b (ρ v) = s) ∧
          (Dict.get? w.1 v = none → B.table v (fun v => b (ρ v)) = 1))) := by
      intro v hv
      have hvn := (mem_inner.1 hv).1
      rw [relabel_states h hvn, relabel_table h hvn, get?_renObs fun x hx e => h x (h1 x hx) v hvn e]
    constructor
    · intro hs v hv
      exact (this v hv).1 (hs (ρ v) (List.mem_map_of_mem hv))
    · intro hs x hx
      obtain ⟨v, hv, rfl⟩ := List.mem_map.1 hx
      exact (this v hv).2 (hs v hv)
  constructor
  · rintro ⟨b, b1, b2, b3⟩
    exact ⟨fun v => b (ρ v), fun x hx => b1 (ρ x) (List.mem_map_of_mem hx), (hsol b).1 b2, (agrees_renObs h h2 b).1 b3⟩
  · rintro ⟨b, b1, b2, b3⟩
    have hb : ∀ v ∈ B.nodes, b (B.unname ρ (ρ v)) = b v := fun v hv => by rw [unname_apply h hv]
    refine ⟨fun x => b (B.unname ρ x), fun x hx => ?_, (hsol _).2 fun v hv => ?_, (agrees_renObs h h2 _).2 fun v s hs => ?_⟩
    · obtain ⟨v, hv, rfl⟩ := List.mem_map.1 hx
      exact (hb v (mem_roots.1 hv).1).trans (b1 v hv)
    · have hvn := (mem_inner.1 hv).1
      have ht : B.table v (fun w => b (B.unname ρ (ρ w))) = B.table v b := hB.scope v hvn _ _ fun w hw => by
        rcases List.mem_cons.1 hw with rfl | hw
        · exact hb w hvn
        · exact hb w (hB.parents v hvn w hw)
      obtain ⟨c1, c2, c3⟩ := b2 v hv
      show b (B.unname ρ (ρ v)) ∈ _ ∧ (∀ s, _ → b (B.unname ρ (ρ v)) = s) ∧ (_ → B.table v (fun w => b (B.unname ρ (ρ w))) = 1)
      rw [hb v hvn, ht]
      exact ⟨c1, c2, c3⟩
    · exact (hb v (h2 v (Dict.get?_isSome.1 (by rw [hs]; rfl)))).trans (b3 v s hs)

theorem cfProb_relabel (hB : B.Valid) (h : B.InjOn ρ) {ws : List (Obs V S × Obs V S)}
    (hw : ∀ w ∈ ws, (∀ v ∈ Dict.keys w.1, v ∈ B.nodes) ∧ ∀ v ∈ Dict.keys w.2, v ∈ B.nodes) :
    (B.relabel ρ).cfProb (B.relabel ρ).roots (B.relabel ρ).inner (ws.map (renWorld ρ)) = B.cfProb B.roots B.inner ws := by
  classical
  have hroot : ∀ v ∈ B.roots, v ∈ B.nodes := fun v hv => (mem_roots.1 hv).1
  have htab : ∀ u : V → S, ((B.relabel ρ).roots.map fun x => (B.relabel ρ).table x u).prod =
      (B.roots.map fun x => B.table x fun v => u (ρ v)).prod := by
    intro u
    rw [roots_relabel h, List.map_map]
    congr 1
    exact List.map_congr_left fun v hv => relabel_table h (hroot v hv) u
  have hdep : DependsOn (fun u => if ∀ w ∈ ws, B.Holds B.roots B.inner u w then (B.roots.map fun x => B.table x u).prod else 0) B.roots := by
    intro a b hab
    have h1 : (∀ w ∈ ws, B.Holds B.roots B.inner a w) ↔ ∀ w ∈ ws, B.Holds B.roots B.inner b w := by
      refine forall₂_congr fun w _ => ?_
      rw [Holds, Holds]
      constructor
      · rintro ⟨c, c1, c2⟩; exact ⟨c, fun x hx => (c1 x hx).trans (hab x hx), c2⟩
      · rintro ⟨c, c1, c2⟩; exact ⟨c, fun x hx => (c1 x hx).trans (hab x hx).symm, c2⟩
    have h2 : (B.roots.map fun x => B.table x a) = B.roots.map fun x => B.table x b :=
      List.map_congr_left fun x hx => hB.scope x (hroot x hx) _ _ fun w hw => by
        rw [(mem_roots.1 hx).2] at hw
        rw [List.mem_singleton.1 hw]; exact hab x hx
    simp only [h1, h2]
  rw [cfProb, cfProb]
  refine Eq.trans ?_ (sumOver_rename (D := B.states) (D' := (B.relabel ρ).states) (W := B.roots)
    (fun v hv w hw => h v (hroot v hv) w (hroot w hw)) hdep (fun x hx => ⟨hx, relabel_states h (hroot x hx)⟩) fun _ => default)
  rw [← roots_relabel h]
  refine sumOver_congr' (fun u => ?_) _
  have : (∀ w ∈ ws.map (renWorld ρ), (B.relabel ρ).Holds (B.relabel ρ).roots (B.relabel ρ).inner u w) ↔
      ∀ w ∈ ws, B.Holds B.roots B.inner (fun v => u (ρ v)) w := by
    constructor
    · intro hc w hm
      exact (holds_relabel hB h (hw w hm).1 (hw w hm).2 u).1 (hc _ (List.mem_map_of_mem hm))
    · intro hc w' hm
      obtain ⟨w, hmw, rfl⟩ := List.mem_map.1 hm
      exact (holds_relabel hB h (hw w hmw).1 (hw w hmw).2 u).2 (hc w hmw)
  by_cases hc : ∀ w ∈ ws, B.Holds B.roots B.inner (fun v => u (ρ v)) w
  · rw [if_pos (this.2 hc), if_pos hc, htab]
  · rw [if_neg (fun e => hc (this.1 e)), if_neg hc]

end BN
end Verif
