import Verif.Props.IdentifiedEx
import Verif.Props.FrontDoor

/-!
# C91 on the example `U → X`, `X, W → Y`, `Y → Z`, `U → Z`

The unobserved `U` influences both `X` and `Z`; the whole effect of `X` on `Z` goes through `Y`.
-/

set_option linter.unusedSectionVars false
set_option linter.unusedSimpArgs false

namespace Verif
namespace Props
open Causal

/-- `Y` mediates the effect of `X` on `Z`. -/
theorem ex_mediates : Mediates gScm sX sY [sZ] where
  through t ht hr := by
    rw [List.mem_singleton.1 ht] at hr
    have key : ∀ w, Relation.ReflTransGen (fun u w => (u, w) ∈ gScm.edges ∧ w ≠ sY) sX w → w = sX := by
      intro w hw
      induction hw with
      | refl => rfl
      | tail _ he ih =>
        subst ih
        have : ∀ e ∈ gScm.edges, e.1 = sX → e.2 = sY := by decide
        exact absurd (this _ he.1 rfl) he.2
    exact absurd (key _ hr) (by decide)
  after hr := by
    have := reach_closed (L := [sY, sZ]) (by decide) (by decide) hr
    exact absurd this (by decide)
  cause := by decide +kernel
  effect := by decide +kernel

/-- The probabilities that the hypotheses mention. -/
theorem exB_front {vt : VType} {b : DagModel (Factor (IS vt PyStr)) PyStr Char} (hb : exBnet vt = .ok b) :
    (∀ x ∈ ['0', '1'], ∀ y ∈ ['0', '1'], (exB vt b).marg [sY, sX] (fun v => if v = sX then x else y) ≠ 0) ∧
    (∀ x ∈ ['0', '1'], (exB vt b).marg [sX] (fun _ => x) ≠ 0) := by
  have hc : (match exBnet vt with
      | .ok b => decide ((∀ x ∈ ['0', '1'], ∀ y ∈ ['0', '1'], (exB vt b).marg [sY, sX] (fun v => if v = sX then x else y) ≠ 0) ∧
        (∀ x ∈ ['0', '1'], (exB vt b).marg [sX] (fun _ => x) ≠ 0))
      | .error _ => false) = true := by cases vt <;> decide +kernel
  rw [hb] at hc
  simpa only [decide_eq_true_eq] using hc

/-- **C91** on the example: the answer for `P(Z | do(X=0))` is the library's front-door expression. -/
theorem C91_front_door_example (vt : VType) : ∃ (m m' : SCM (IS vt PyStr) (LS vt PyStr)) (r fm ft fx e1 e2 e3 e4 s : Factor (IS vt PyStr)),
    exScm vt none false = .ok m ∧ new m = .ok m' ∧
      causalQuery chStr m' [sZ] [(sX, '0')] none = .ok r ∧
      ((VEObj.new m'.base : VEObj _ (IS vt PyStr)).queryCond chStr [sY] [sX] none).2 = .ok fm ∧
      ((VEObj.new m'.base : VEObj _ (IS vt PyStr)).queryCond chStr [sZ] [sY, sX] none).2 = .ok ft ∧
      ((VEObj.new m'.base : VEObj _ (IS vt PyStr)).query chStr [sX] none).2 = .ok fx ∧
      fm.restrict [(sX, '0')] = .ok e1 ∧ ft.multiply fx = .ok e2 ∧ e2.marginalize [sX] = .ok e3 ∧
      e1.multiply e3 = .ok e4 ∧ e4.marginalize [sY] = .ok s ∧ SameTable [sZ] r s := by
  obtain ⟨m, b, h1, hb, h3, h4, hg⟩ := ex_causal vt
  obtain ⟨f1, f2, f3, f4, f5, f6, f7, _⟩ := exB_facts hb
  obtain ⟨p1, p2⟩ := exB_front hb
  have hXs : ∀ a : PyStr → Char, (exB vt b).InStates a → a sX ∈ ['0', '1'] := fun a ha => by
    have := ha sX (by rw [f1]; decide)
    rwa [f4] at this
  have hYs : ∀ a : PyStr → Char, (exB vt b).InStates a → a sY ∈ ['0', '1'] := fun a ha => by
    have := ha sY (by rw [f1]; decide)
    rwa [f5] at this
  obtain ⟨m', r, fm, ft, fx, e1, e2, e3, e4, s, c⟩ := C91_front_door chStr_ok h3 (T := [sZ]) (X := sX) (M := sY) (x := '0') (by decide) (by decide)
    (by rw [f1]; decide) (by rw [f4]; decide) (by rw [f1]; decide) (by decide) (by rw [f1]; decide) (by rw [hg]; exact ex_mediates)
    (fun a ha => by
      rw [h3.valid.marg_dep [sY, sX] a (fun v => if v = sX then a sX else a sY) fun v hv => by
        rcases (by simpa using hv : v = sY ∨ v = sX) with rfl | rfl
        · rw [if_neg (by decide)]
        · rw [if_pos rfl]]
      exact p1 _ (hXs a ha) _ (hYs a ha))
    (fun a ha => by
      rw [h3.valid.marg_dep [sX] a (fun _ => a sX) fun v hv => by rw [List.mem_singleton.1 hv]]
      exact p2 _ (hXs a ha))
  exact ⟨m, m', r, fm, ft, fx, e1, e2, e3, e4, s, h1, c⟩

/-- The front-door formula for the twenty-four records, and the frequencies that it is not -/
theorem units_front : frontDoor (K := ℚ) (fun _ => ['0', '1']) (empirical ℚ frUnits.rows) sX '0' sY [sZ] (fun _ => '1') = 7/12 ∧
    empirical ℚ frUnits.rows [sZ, sX] (fun v => if v = sX then '0' else '1') / empirical ℚ frUnits.rows [sX] (fun _ => '0') = 3/4 := by
  decide +kernel

/-- **C91** applied: however many models are learnt, whatever negative numbers are drawn for them, the bounds of `P(Z=1 | do(X=0))` are `7/12` and `7/12`,
although the unobserved `U` influences both `X` and `Z`, and although `Z=1` in three quarters of the records with `X=0`. -/
theorem C91_example (vt : VType) {ts : List (PyStr → List ℚ)} (hts : ts ≠ [])
    (ht : ∀ t ∈ ts, ((t sU).length = 3 ∧ ∀ x ∈ t sU, x < 0) ∧ (t sW).length = 2 ∧ ∀ x ∈ t sW, x < 0) (max : Option Nat) :
    ∃ m o o' r, exScm vt none true = .ok m ∧
      Gdcc.compileObj (fun x => Real.log (Rat.castHom ℝ x)) Uai.isSub leastOpt m max frUnits (ts.map fun t x => (t x).map Fl.fin) true = .ok o ∧
      o.query bndStr (IS vt PyStr) (fun i => causalQuery chStr i [sZ] [(sX, '0')] none) = .ok (o', .interval r) ∧
      r.getValue [(['_'], 'l'), (sZ, '1')] = .ok (q (7/12)) ∧ r.getValue [(['_'], 'u'), (sZ, '1')] = .ok (q (7/12)) := by
  obtain ⟨m, b, h1, hb, hg, hex, hen, hW, h2, h3, h4, h5⟩ := units_ok vt max
  obtain ⟨f1, f2, f3, f4, f5, f6, f7, _⟩ := exB_facts hb
  obtain ⟨o, o', r, q1, q2, q3, q4, q5⟩ := C91_identified (fun x y h => by simpa using h) chStr_ok h2 h3 (by decide +kernel) h4 h5 hts
    (fun t htt x hx => by
      rw [hex] at hx
      rcases (by simpa using hx : x = sU ∨ x = sW) with rfl | rfl
      · rw [famDom, hg, show gScm.pred sU = [] from by decide]
        exact ⟨by simpa [f7, cards] using (ht t htt).1.1, fun h => absurd h (by decide), fun _ => (ht t htt).1.2⟩
      · rw [famDom, hg, show gScm.pred sW = [] from by decide]
        exact ⟨by simpa [hW, cards] using (ht t htt).2.1, fun h => absurd h (by decide), fun _ => (ht t htt).2.2⟩)
    bndStr vt (T := [sZ]) (X := sX) (M := sY) (x := '0') (by decide) (by decide) (by decide)
    ⟨by rw [f1]; decide, by rw [hen]; decide⟩ (by rw [f4]; decide) ⟨by rw [f1]; decide, by rw [hen]; decide⟩ (by decide) (by rw [f1, hen]; decide)
    (by rw [hg]; exact ex_mediates)
    (fun a ha => by
      have hs : a sX ∈ ['0', '1'] := by
        have := ha sX (by rw [f1]; decide)
        rwa [f4] at this
      have hs' : a sY ∈ ['0', '1'] := by
        have := ha sY (by rw [f1]; decide)
        rwa [f5] at this
      have key : ∀ x ∈ ['0', '1'], ∀ y ∈ ['0', '1'], empirical ℚ frUnits.rows [sY, sX] (fun v => if v = sX then x else y) ≠ 0 := by decide +kernel
      rw [empirical_dep frUnits.rows [sY, sX] a (fun v => if v = sX then a sX else a sY) fun v hv => by
        rcases (by simpa using hv : v = sY ∨ v = sX) with rfl | rfl
        · rw [if_neg (by decide)]
        · rw [if_pos rfl]]
      exact key _ hs _ hs')
    (fun a ha => by
      have key : empirical ℚ frUnits.rows [sX] (fun _ => '0') ≠ 0 := by decide +kernel
      rwa [empirical_dep frUnits.rows [sX] a (fun _ => '0') fun v hv => by rw [List.mem_singleton.1 hv]; exact ha])
  have hval : frontDoor (exB vt b).states (empirical ℚ frUnits.rows) sX '0' sY [sZ] (asg [(sZ, '1')]) = 7/12 := by
    rw [← units_front.1]
    exact frontDoor_dep (fun W => empirical_dep _ W) '0' f4 f5 fun t ht => by rw [List.mem_singleton.1 ht]; exact over_of_get? rfl
  obtain ⟨v1, v2⟩ := q5 [(sZ, '1')] (by
    intro p hp
    have hp1 : p.1 = sZ := by simpa using (q3 p.1).1 (Dict.mem_keys_of_mem hp)
    refine ⟨'1', ?_, by rw [hp1]; rfl⟩
    rw [q4 p hp, hp1, f6]; decide)
  rw [hval] at v1 v2
  exact ⟨m, o, o', r, h1, q1, q2, v1, v2⟩

end Props
end Verif
