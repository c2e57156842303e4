import Verif.Props.Adjust
import Verif.Props.CausalEx

/-!
# C85 on the example `U → X`, `X, W → Y`, `Y → Z`, `U → Z`
-/

set_option linter.unusedSectionVars false
set_option linter.unusedSimpArgs false

namespace Verif
namespace Props
open Causal

theorem ev_single {B : BN PyStr Char ℚ} {v : PyStr} {c : Char} (hv : v ∈ B.nodes) (hs : c ∈ B.states v) : EvOk B [(v, c)] := by
  refine ⟨by simp, by simpa using hv, fun w s h => ?_⟩
  have := Dict.mem_of_get? h
  simp only [List.mem_singleton, Prod.mk.injEq] at this
  rw [this.1, this.2]; exact hs

theorem ev_none {B : BN PyStr Char ℚ} : EvOk B ([] : Obs PyStr Char) := ⟨by simp, by simp, fun v s hs => by cases hs⟩

/-- The probabilities that the hypotheses of C85 mention. -/
theorem exB_adjust {vt : VType} {b : DagModel (Factor (IS vt PyStr)) PyStr Char} (hb : exBnet vt = .ok b) :
    (∀ c ∈ ['0', '1'], (exB vt b).marg [sY, sX] (fun v => if v = sX then c else '1') ≠ 0) ∧
    (exB vt b).doMarg [(sX, '0')] [sU] (fun _ => '1') ≠ 0 ∧ (exB vt b).doMarg [(sX, '0')] [] (fun _ => '1') ≠ 0 ∧
    (exB vt b).doMarg [(sX, '0'), (sY, '1')] [] (fun _ => '1') ≠ 0 ∧ (exB vt b).doMarg [(sX, '0')] [sY] (fun _ => '1') ≠ 0 := by
  have hc : (match exBnet vt with
      | .ok b => decide ((∀ c ∈ ['0', '1'], (exB vt b).marg [sY, sX] (fun v => if v = sX then c else '1') ≠ 0) ∧
        (exB vt b).doMarg [(sX, '0')] [sU] (fun _ => '1') ≠ 0 ∧ (exB vt b).doMarg [(sX, '0')] [] (fun _ => '1') ≠ 0 ∧
        (exB vt b).doMarg [(sX, '0'), (sY, '1')] [] (fun _ => '1') ≠ 0 ∧ (exB vt b).doMarg [(sX, '0')] [sY] (fun _ => '1') ≠ 0)
      | .error _ => false) = true := by cases vt <;> decide +kernel
  rw [hb] at hc
  simpa only [decide_eq_true_eq] using hc

theorem reach_closed {g : DiGraph PyStr} {L : List PyStr} (h : ∀ e ∈ g.edges, e.1 ∈ L → e.2 ∈ L) {u w : PyStr} (hu : u ∈ L)
    (hr : Relation.ReflTransGen (fun u w => (u, w) ∈ g.edges) u w) : w ∈ L := by
  induction hr with
  | refl => exact hu
  | tail _ he ih => exact h _ he ih

/-- **C85** on the example, for every choice of the query: `X` adjusts for the confounding of `Y` and `Z`. -/
theorem C85_adjustment_example (vt : VType) : ∃ (m m' : SCM (IS vt PyStr) (LS vt PyStr)) (r fc fz e1 e2 s : Factor (IS vt PyStr)),
    exScm vt none false = .ok m ∧ new m = .ok m' ∧
      causalQuery chStr m' [sZ] [(sY, '1')] none = .ok r ∧
      ((VEObj.new m'.base : VEObj _ (IS vt PyStr)).queryCond chStr [sZ] [sY, sX] none).2 = .ok fc ∧
      ((VEObj.new m'.base : VEObj _ (IS vt PyStr)).query chStr [sX] none).2 = .ok fz ∧
      fc.restrict [(sY, '1')] = .ok e1 ∧ e1.multiply fz = .ok e2 ∧ e2.marginalize [sX] = .ok s ∧ SameTable [sZ] r s := by
  obtain ⟨m, b, h1, hb, h3, h4, hg⟩ := ex_causal vt
  obtain ⟨f1, f2, f3, f4, f5, f6, f7, f8, f9, f10, f11, f12⟩ := exB_facts hb
  obtain ⟨p1, _⟩ := exB_adjust hb
  obtain ⟨m', r, fc, fz, e1, e2, s, c⟩ := C85_adjustment chStr_ok h3 (T := [sZ]) (Z := [sX]) (X := sY) (x := '1') (by decide) (by decide)
    (by rw [f1]; decide) (by rw [f5]; decide) (by rw [f1]; decide) (by decide) (by decide) (by rw [f1]; decide)
    (fun z hz hr => by
      rw [hg] at hr
      have := reach_closed (L := [sY, sZ]) (by decide) (by decide) hr
      rw [List.mem_singleton.1 hz] at this
      exact absurd this (by decide))
    (by rw [hg]; decide +kernel)
    (fun a ha hx => by
      have hs : a sX ∈ ['0', '1'] := by
        have := ha sX (by rw [f1]; decide)
        rwa [f4] at this
      have := p1 (a sX) hs
      rwa [h3.valid.marg_dep _ _ a fun v hv => by
        rcases (by simpa using hv : v = sY ∨ v = sX) with rfl | rfl
        · rw [if_neg (by decide), hx]
        · rw [if_pos rfl]] at this)
  exact ⟨m, m', r, fc, fz, e1, e2, s, h1, c⟩

/-- The numbers: imposing `Y` is not observing it, adjusting for `X` makes the difference. -/
theorem C85_confounded (vt : VType) :
    (do let m ← exScm vt none false
        let m' ← new m
        let r ← causalQuery chStr m' [sZ] [(sY, '1')] none
        r.getValue [(sZ, '1')]) = .ok (q (2/3)) ∧
    (do let m ← exScm vt none false
        let m' ← new m
        let fc ← ((VEObj.new m'.base : VEObj _ (IS vt PyStr)).queryCond chStr [sZ] [sY, sX] none).2
        let fz ← ((VEObj.new m'.base : VEObj _ (IS vt PyStr)).query chStr [sX] none).2
        let e1 ← fc.restrict [(sY, '1')]
        let e2 ← e1.multiply fz
        let s ← e2.marginalize [sX]
        s.getValue [(sZ, '1')]) = .ok (q (2/3)) ∧
    (do let m ← exScm vt none false
        let m' ← new m
        let r ← ((VEObj.new m'.base : VEObj _ (IS vt PyStr)).query chStr [sZ] (some [(sY, '1')])).2
        r.getValue [(sZ, '1')]) = .ok (q (5/6)) := by
  cases vt <;> decide +kernel

theorem doMarg_const {B : BN PyStr Char ℚ} (hB : B.Valid) {d : Obs PyStr Char} (hd : ∀ v ∈ Dict.keys d, v ∈ B.nodes) {c : Char} (vs : List PyStr) :
    B.doMarg d vs (asg (vs.map fun v => (v, c))) = B.doMarg d vs fun _ => c := by
  refine BN.doMarg_dep hB hd _ _ _ fun v hv => ?_
  cases h : Dict.get? (vs.map fun v => (v, c)) v with
  | some s =>
    obtain ⟨w, _, hw⟩ := List.mem_map.1 (Dict.mem_of_get? h)
    rw [asg, over_of_get? h]
    exact (congrArg Prod.snd hw).symm
  | none =>
    refine absurd ?_ (Dict.get?_eq_none.1 h)
    rw [Dict.keys, List.map_map]
    exact List.mem_map.2 ⟨v, hv, rfl⟩

/-- **C85** on the example: `U` says nothing about `Y` once `X` is imposed. -/
theorem C85_observation_example (vt : VType) : ∃ (m m' : SCM (IS vt PyStr) (LS vt PyStr)) (r r' : Factor (IS vt PyStr)),
    exScm vt none false = .ok m ∧ new m = .ok m' ∧ causalQuery chStr m' [sY] [(sX, '0')] (some [(sU, '1')]) = .ok r ∧
      causalQuery chStr m' [sY] [(sX, '0')] (some []) = .ok r' ∧ SameTable [sY] r r' := by
  obtain ⟨m, b, h1, hb, h3, h4, hg⟩ := ex_causal vt
  obtain ⟨f1, f2, f3, f4, f5, f6, f7, f8, f9, f10, f11, f12⟩ := exB_facts hb
  obtain ⟨_, p2, p3, _⟩ := exB_adjust hb
  obtain ⟨m', r, r', c⟩ := C85_observation chStr_ok h3 (T := [sY]) (d := [(sX, '0')]) (ev := []) (o := [(sU, '1')]) (by decide) (by decide)
    (by rw [f1]; decide) (ev_single (by rw [f1]; decide) (by rw [f4]; decide)) (ev_single (by rw [f1]; decide) (by rw [f7]; decide)) (by decide)
    (by rw [hg]; decide +kernel) (by rw [← doMarg_const h3.valid (by rw [f1]; decide)] at p2; exact p2)
    (by rw [← doMarg_const h3.valid (by rw [f1]; decide)] at p3; exact p3)
  exact ⟨m, m', r, r', h1, c⟩

/-- **C85** on the example: once `X` is imposed it does not matter for `Z` whether `Y` is imposed or observed. -/
theorem C85_exchange_example (vt : VType) : ∃ (m m' : SCM (IS vt PyStr) (LS vt PyStr)) (r r' : Factor (IS vt PyStr)),
    exScm vt none false = .ok m ∧ new m = .ok m' ∧ causalQuery chStr m' [sZ] [(sX, '0'), (sY, '1')] (some []) = .ok r ∧
      causalQuery chStr m' [sZ] [(sX, '0')] (some [(sY, '1')]) = .ok r' ∧ SameTable [sZ] r r' := by
  obtain ⟨m, b, h1, hb, h3, h4, hg⟩ := ex_causal vt
  obtain ⟨f1, f2, f3, f4, f5, f6, f7, f8, f9, f10, f11, f12⟩ := exB_facts hb
  obtain ⟨_, _, _, p4, p5⟩ := exB_adjust hb
  obtain ⟨m', r, r', c⟩ := C85_exchange chStr_ok h3 (T := [sZ]) (d := [(sX, '0')]) (e := [(sY, '1')]) (ev := []) (by decide) (by decide)
    (by rw [f1]; decide) (EvOk.join (ev_single (by rw [f1]; decide) (by rw [f4]; decide)) (ev_single (by rw [f1]; decide) (by rw [f5]; decide)) (by decide))
    ev_none (by decide)
    (by rw [hg]; decide +kernel) (by rw [← doMarg_const h3.valid (by rw [f1]; decide)] at p4; exact p4)
    (by rw [← doMarg_const h3.valid (by rw [f1]; decide)] at p5; exact p5)
  exact ⟨m, m', r, r', h1, c⟩

/-- **C85** on the example: imposing `Z` as well changes nothing for `Y`. -/
theorem C85_deletion_example (vt : VType) : ∃ (m m' : SCM (IS vt PyStr) (LS vt PyStr)) (r r' : Factor (IS vt PyStr)),
    exScm vt none false = .ok m ∧ new m = .ok m' ∧ causalQuery chStr m' [sY] [(sX, '0'), (sZ, '1')] (some [(sU, '1')]) = .ok r ∧
      causalQuery chStr m' [sY] [(sX, '0')] (some [(sU, '1')]) = .ok r' ∧ SameTable [sY] r r' := by
  obtain ⟨m, b, h1, hb, h3, h4, hg⟩ := ex_causal vt
  obtain ⟨f1, f2, f3, f4, f5, f6, f7, f8, f9, f10, f11, f12⟩ := exB_facts hb
  obtain ⟨_, p2, _⟩ := exB_adjust hb
  obtain ⟨m', r, r', c⟩ := C85_deletion chStr_ok h3 (T := [sY]) (d := [(sX, '0')]) (e := [(sZ, '1')]) (ev := [(sU, '1')]) (by decide) (by decide)
    (by rw [f1]; decide) (EvOk.join (ev_single (by rw [f1]; decide) (by rw [f4]; decide)) (ev_single (by rw [f1]; decide) (by rw [f6]; decide)) (by decide))
    (ev_single (by rw [f1]; decide) (by rw [f7]; decide))
    (fun z hz x hx hr => by
      rw [hg] at hr
      rw [show Dict.keys [(sZ, '1')] = [sZ] from rfl, List.mem_singleton] at hx
      subst hx
      have := reach_closed (L := [sZ]) (by decide) (by decide) hr
      rw [List.mem_singleton] at this
      subst this
      exact absurd hz (by decide))
    (by rw [← doMarg_const h3.valid (by rw [f1]; decide)] at p2; exact p2)
  exact ⟨m, m', r, r', h1, c⟩

end Props
end Verif
