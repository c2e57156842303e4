import Verif.Props.MultiCausal
import Verif.Props.EmccEx

/-!
# C82: examples
-/

set_option linter.unusedSectionVars false
set_option linter.unusedSimpArgs false

namespace Verif.Props
open Verif

/-- Names of the copies of the variables -/
def sfxEx (v : Char) (i : Nat) : Char := Char.ofNat (v.toNat + 256 * i)

/-- Stands for `identify_true_false` -/
def tfEx (_ : Char) (st : List Char) : Py (Char × Char) := if st = ['0', '1'] then .ok ('1', '0') else if st = ['a', 'b'] then .ok ('b', 'a') else .error .valueError

/-- The numbers of a result -/
def numbersOf {vt : VType} (r : Py (MultiObj (IS vt Char) (LS vt Char) × MultiResult (IS vt Char) (IS vt Char))) : Py (List (Fl ℚ)) := do
  match (← r).2 with
  | .numbers xs => return xs
  | _ => throw .typeError

/-- The probabilities of causation of `X` for `Y` after learning with the given draws; `given` says whether the true and false states are
given or looked up in the models. -/
def confCausation (vt : VType) (flag given : Bool) (n : ℕ) (xs : List (Char × Char)) (ts : List (List ℚ)) :
    Py (List (Fl ℚ) × List (Fl ℚ) × List (Fl ℚ)) := do
  let m ← scmConf vt true
  let o ← Emcc.compileObj chEx klEq m n (frConf xs) (ts.map fun t _ => t.map Fl.fin) flag
  let g := if given then some ('1', '0') else none
  let a ← numbersOf (o.pn bndEx (IS vt Char) sfxEx chEx tfEx 'X' 'Y' g g)
  let b ← numbersOf (o.ps bndEx (IS vt Char) sfxEx chEx tfEx 'X' 'Y' g g)
  let c ← numbersOf (o.pns bndEx (IS vt Char) sfxEx chEx tfEx 'X' 'Y' g g)
  return (a, b, c)

/-- **C82** two fitted models: the probability of necessity is `1/3` in one and `2/3` in the other.  That of sufficiency is zero in both:
without the cause and the effect `U` is `0`, and then `Y` is `0` whatever `X` is. -/
theorem C82_example_values (vt : VType) :
    confCausation vt true true 3 [('0', '0'), ('1', '1'), ('1', '1'), ('1', '1')] [[-1, -1, -2], [-1, -2, -1]] =
      .ok ([q (1/3), q (2/3)], [q 0, q 0], [q (1/4), q (1/2)]) := by
  cases vt <;> decide +kernel

/-- **C82** the same with the states looked up in the models, and the numbers of all models. -/
theorem C82_example_list (vt : VType) :
    confCausation vt false false 3 [('0', '0'), ('1', '1'), ('1', '1'), ('1', '1')] [[-1, -1, -2], [-1, -2, -1]] =
      .ok ([q (2/3), q (1/3)], [q 0, q 0], [q (1/2), q (1/4)]) := by
  cases vt <;> decide +kernel

/-- The model with other names for the states of `X` and `Y` -/
def scmOther (vt : VType) : Py (SCM (IS vt Char) (LS vt Char)) := do
  let l ← facsOf vt [.num [('U', ['0', '1', '2'])] [q (1/2), q (1/4), q (1/4)] 'U',
    .fn [('X', ['a', 'b']), ('U', ['0', '1', '2'])] ['a', 'b', 'b'] 'X',
    .fn [('Y', ['a', 'b']), ('U', ['0', '1', '2']), ('X', ['a', 'b'])] ['a', 'a', 'b', 'b', 'a', 'b'] 'Y']
  SCM.ofList gConf (l.map fun p => some p.2) none true true

/-- An object with one model gets another; the probability of necessity is asked for without giving the states, before or after compiling
again -/
def staleEx (vt : VType) (again : Bool) : Py (List (Fl ℚ)) := do
  let m ← scmConf vt true
  let m' ← scmOther vt
  let o ← (MultiObj.new [m] true).compile
  let o := o.setModels [m']
  let o ← if again then o.compile else .ok o
  numbersOf (o.pn bndEx (IS vt Char) sfxEx chEx tfEx 'X' 'Y' none none)

/-- **C82** the states are looked up in the model of before: the call fails, while it succeeds after compiling. -/
theorem C82_stale_example (vt : VType) : staleEx vt true = .ok [q (1/2), q (1/2)] ∧ ∃ e, staleEx vt false = .error e := by
  refine ⟨by cases vt <;> decide +kernel, ?_⟩
  have : (match staleEx vt false with | .error _ => true | .ok _ => false) = true := by cases vt <;> decide +kernel
  cases h : staleEx vt false with
  | error e => exact ⟨e, rfl⟩
  | ok x => rw [h] at this; cases this

theorem sfxEx_ne : ∀ v ∈ ['X', 'Y'], ∀ i ∈ [1, 2], sfxEx v i ∉ ['U', 'X', 'Y', '_'] := by decide
theorem sfxEx_inj : ∀ v ∈ ['X', 'Y'], ∀ w ∈ ['X', 'Y'], ∀ i ∈ [1, 2], ∀ j ∈ [1, 2], sfxEx v i = sfxEx w j → v = w ∧ i = j := by decide

theorem ConfOk.causation {vt : VType} {xs : List Char} {m : SCM (IS vt Char) (LS vt Char)} {B : BN Char Char ℚ} (h : ConfOk vt xs m B) :
    CausationOk B sfxEx 'X' 'Y' '1' '0' '1' '0' := by
  have hin : ∀ v ∈ B.inner, v ∈ ['X', 'Y'] := by
    intro v hv
    obtain ⟨h1, h2⟩ := BN.mem_inner.1 hv
    rw [h.nodes] at h1
    rcases (by simpa using h1 : v = 'U' ∨ v = 'X' ∨ v = 'Y') with rfl | rfl | rfl
    · exact absurd h.parents.1 h2
    · decide
    · decide
  have hi : ∀ i : ℕ, 1 ≤ i → i ≤ 2 → i ∈ [1, 2] := by
    intro i h1 h2
    have : i = 1 ∨ i = 2 := by omega
    simpa using this
  refine ⟨BN.mem_inner.2 ⟨by rw [h.nodes]; decide, List.ne_nil_of_mem h.parents.2.1⟩, BN.mem_inner.2 ⟨by rw [h.nodes]; decide, List.ne_nil_of_mem h.parents.2.2⟩,
    by decide, ⟨'Y', by rw [h.nodes]; decide, h.parents.2.2⟩, by rw [h.states.1]; decide, by rw [h.states.1]; decide, by rw [h.states.2]; decide,
    by rw [h.states.2]; decide, fun v hv i h1 h2 hc => ?_, fun v hv w hw i j h1 h2 h3 h4 => ?_⟩
  · rw [h.nodes] at hc
    refine sfxEx_ne v (hin v hv) i (hi i h1 h2) ?_
    simp only [List.mem_cons, List.not_mem_nil, or_false] at hc ⊢
    rcases hc with hc | hc | hc <;> simp [hc]
  · exact sfxEx_inj v (hin v hv) w (hin w hw) i (hi i h1 h2) j (hi j h3 h4)

/-- The hypotheses are met by the example, whatever the outcomes in the records are, if each occurs. -/
theorem C82_example (vt : VType) {xs : List Char} (hx1 : '1' ∈ xs) (hx2 : '0' ∈ xs) (hxs : ∀ x ∈ xs, x = '0' ∨ x = '1') {ts : List (Char → List ℚ)}
    (hts : ts ≠ []) (ht : ∀ t ∈ ts, (t 'U').length = 3 ∧ ∀ x ∈ t 'U', x < 0) (n : ℕ) :
    ∃ m o o1 o2 o3 lo hi lo' hi' lo'' hi'', scmConf vt true = .ok m ∧
      Emcc.compileObj chEx klEq m n (frConf (xs.map fun x => (x, x))) (ts.map fun t x => (t x).map Fl.fin) true = .ok o ∧
      o.pn bndEx (IS vt Char) sfxEx chEx tfEx 'X' 'Y' (some ('1', '0')) (some ('1', '0')) = .ok (o1, .numbers [.fin lo, .fin hi]) ∧
      o.ps bndEx (IS vt Char) sfxEx chEx tfEx 'X' 'Y' (some ('1', '0')) (some ('1', '0')) = .ok (o2, .numbers [.fin lo', .fin hi']) ∧
      o.pns bndEx (IS vt Char) sfxEx chEx tfEx 'X' 'Y' (some ('1', '0')) (some ('1', '0')) = .ok (o3, .numbers [.fin lo'', .fin hi'']) := by
  obtain ⟨m, B, h⟩ := conf_ok vt (List.ne_nil_of_mem hx1) hxs
  have hr : ∀ x ∈ xs, [('X', some x), ('Y', some x)] ∈ (frConf (xs.map fun x => (x, x))).rows := fun x hx =>
    List.mem_map.2 ⟨(x, x), List.mem_map.2 ⟨x, hx, rfl⟩, rfl⟩
  have hex : m.exogenous ≠ [] := by rw [h.exogenous]; decide
  obtain ⟨_, _, o, o1, lo, hi, _, _, _, g1, g2, _⟩ := C82_emcc_necessity_partial chEx_ok klEq h.rep h.valid h.norm h.nonneg h.cast h.known h.domains
    hex h.data hts (h.draws ht) n bndEx vt h.causation (by decide) (hr '1' hx1) rfl rfl tfEx
  obtain ⟨_, _, o', o2, lo', hi', _, _, _, g1', g2', _⟩ := C82_emcc_sufficiency_partial chEx_ok klEq h.rep h.valid h.norm h.nonneg h.cast h.known h.domains
    hex h.data hts (h.draws ht) n bndEx vt h.causation (by decide) (hr '0' hx2) rfl rfl tfEx
  obtain ⟨_, _, o'', o3, lo'', hi'', _, _, _, g1'', g2'', _⟩ := C82_emcc_both_partial chEx_ok klEq h.rep h.valid h.norm h.nonneg h.cast h.known h.domains
    hex h.data hts (h.draws ht) n bndEx vt h.causation (by decide) tfEx
  rw [g1] at g1' g1''
  injection g1' with g1'
  injection g1'' with g1''
  subst g1' g1''
  exact ⟨m, o, o1, o2, o3, lo, hi, lo', hi', lo'', hi'', h.model, g1, g2, g2', g2''⟩

end Verif.Props
