import Verif.Props.Learning
import Verif.Props.Inference

/-!
# Expectation maximisation: examples and witnesses (C55, C56, C59)
-/

set_option linter.unusedSectionVars false
set_option linter.unusedSimpArgs false

namespace Verif.Props
open Verif

/-- `U → X` -/
def gUX : DiGraph Char := ⟨['U', 'X'], [('U', 'X')]⟩

/-- `X` is a noisy copy of `U` -/
def rowsUX : List Row :=
  [([('U', ['a', 'b'])], [q (1/2), q (1/2)], 'U'),
   ([('U', ['a', 'b']), ('X', ['a', 'b'])], [q (3/4), q (1/4), q (1/4), q (3/4)], 'X')]

/-- `X` equals `U` -/
def rowsEq : List Row :=
  [([('U', ['a', 'b'])], [q (1/2), q (1/2)], 'U'),
   ([('U', ['a', 'b']), ('X', ['a', 'b'])], [q 1, q 0, q 0, q 1], 'X')]

/-- Records of `X` -/
def frOf (xs : List Char) : Frame Char Char := ⟨['X'], xs.map fun x => [('X', some x)]⟩

/-- Equality of tables as stopping rule -/
def klEq (p q : List (Fl ℚ)) : Bool := p == q

/-- The table of `U` after runs on the same object that learns `T`, the converged variables, and the number of recorded
models. -/
def learnU (vt : VType) (rows : List Row) (T : List Char) (h : List (Frame Char Char × ℕ)) : Py (List (Fl ℚ) × List Char × ℕ) := do
  let m ← netOf vt gUX rows
  let s ← runsF (vt := vt) chEx klEq h ⟨EM.new m (some T), none⟩
  let t ← EM.tableOf s.core.model 'U'
  return (t, s.core.converged, ((EM.learner chEx klEq).evolution s).length)

/-- One step on the records `a, a, b`: the new table of `U` is the mean of `P(U | X)`. -/
theorem C58_example (vt : VType) : learnU vt rowsUX ['U'] [(frOf ['a', 'a', 'b'], 1)] = .ok ([q (7/12), q (5/12)], [], 2) := by
  cases vt <;> decide +kernel

/-- Without a list of variables, those with missing values are learnt. -/
example (vt : VType) : learnU vt rowsUX [] [(frOf ['a', 'a', 'b'], 1)] = .ok ([q (7/12), q (5/12)], [], 2) := by
  cases vt <;> decide +kernel

/-- A run that converges. -/
example (vt : VType) : learnU vt rowsEq ['U'] [(frOf ['a', 'a', 'b'], 10)] = .ok ([q (2/3), q (1/3)], ['U'], 3) := by
  cases vt <;> decide +kernel

/-- **C55** is false: the second run on the same object returns the prior, a fresh object learns from the same data. -/
theorem C55_second_run (vt : VType) :
    learnU vt rowsEq ['U'] [(frOf ['a', 'a', 'b'], 10), (frOf ['b', 'b', 'b'], 10)] = .ok ([q (1/2), q (1/2)], ['U'], 4) ∧
    learnU vt rowsEq ['U'] [(frOf ['b', 'b', 'b'], 10)] = .ok ([q 0, q 1], ['U'], 3) := by
  cases vt <;> exact ⟨by decide +kernel, by decide +kernel⟩

/-- **C55** is false even when nothing has converged in the first run: the first step of the second run is compared with
the last model of the first run, not with the prior it started from, and the run ends there; a fresh object goes on. -/
theorem C55_stops_early (vt : VType) :
    learnU vt rowsUX ['U'] [(frOf ['a', 'a', 'b'], 1), (frOf ['a', 'a', 'b'], 2)] = .ok ([q (7/12), q (5/12)], ['U'], 3) ∧
    learnU vt rowsUX ['U'] [(frOf ['a', 'a', 'b'], 2)] = .ok ([q (553/858), q (305/858)], [], 3) := by
  cases vt <;> exact ⟨by decide +kernel, by decide +kernel⟩

/-! ### The hypotheses can be met -/

/-- What is evaluated for the example. -/
def uxCheck (vt : VType) : Bool :=
  match netOf vt gUX rowsUX with
  | .ok m =>
    let B : BN Char Char ℚ := BN.ofModel (IQ vt) m
    decide (B.nodes = ['U', 'X'] ∧ B.parents 'U' = [] ∧ B.states 'U' = ['a', 'b'] ∧ B.states 'X' = ['a', 'b'] ∧
      (∀ v ∈ B.nodes, Dict.get? m.domains v = some (some (B.states v))) ∧
      0 < B.joint (fun _ => 'a') ∧ 0 < B.joint (fun _ => 'b'))
  | .error _ => false

theorem uxCheck_ok (vt : VType) : uxCheck vt = true := by
  cases vt <;> decide +kernel

theorem ux_net (vt : VType) : ∃ m, netOf vt gUX rowsUX = .ok m ∧ m.graph = gUX ∧ Represents m (BN.ofModel (IQ vt) m) ∧
    (BN.ofModel (IQ vt) m : BN Char Char ℚ).Valid ∧ (BN.ofModel (IQ vt) m : BN Char Char ℚ).Normalised ∧
    (BN.ofModel (IQ vt) m : BN Char Char ℚ).NonNeg :=
  netOf_spec (by decide) (by cases vt <;> decide +kernel)

theorem frOf_val {xs : List Char} {r : Rec Char Char} (hr : r ∈ (frOf xs).rows) {v s : Char} (h : Rec.val r v = some s) :
    v = 'X' ∧ s ∈ xs ∧ r = [('X', some s)] := by
  obtain ⟨x, hx, rfl⟩ := List.mem_map.1 hr
  rw [Rec.val] at h
  by_cases hv : 'X' = v
  · subst hv
    have : x = s := by simpa [Dict.get?] using h
    exact ⟨rfl, this ▸ hx, by rw [this]⟩
  · simp [Dict.get?, hv] at h

/-- Records of `X` are data from which `U` can be learnt. -/
theorem ux_rootData {B : BN Char Char ℚ} (h1 : B.nodes = ['U', 'X']) (h2 : B.parents 'U' = []) (h3 : B.states 'X' = ['a', 'b'])
    {xs : List Char} (hx : xs ≠ []) (hxs : ∀ x ∈ xs, x = 'a' ∨ x = 'b') : RootData B gUX (frOf xs) ['U'] where
  wf := ⟨List.nodup_singleton _, by
    intro r hr
    obtain ⟨x, hx, rfl⟩ := List.mem_map.1 hr
    rfl⟩
  rows := by simpa [frOf] using hx
  cols := by intro v hv; rw [h1]; simp [frOf] at hv; simp [hv]
  states := by
    intro r hr v s hs
    obtain ⟨rfl, h, _⟩ := frOf_val hr hs
    rw [h3]
    rcases hxs s h with rfl | rfl <;> decide
  nodes := by rw [h1]; decide
  roots := by intro v hv; obtain rfl : v = 'U' := by simpa using hv
              exact h2
  hidden := by
    intro v hv r hr
    obtain rfl : v = 'U' := by simpa using hv
    cases h : Rec.val r 'U' with
    | none => rfl
    | some s => exact absurd (frOf_val hr h).1 (by decide)
  connected := by
    intro v hv r hr
    obtain rfl : v = 'U' := by simpa using hv
    obtain ⟨x, hx, rfl⟩ := List.mem_map.1 hr
    have : Rec.observed [('X', some x)] = ['X'] := rfl
    rw [this]
    exact ⟨'X', by decide, by decide +kernel⟩

theorem ux_possible {B : BN Char Char ℚ} (h1 : B.nodes = ['U', 'X']) (h2 : B.states 'U' = ['a', 'b']) (h3 : B.states 'X' = ['a', 'b'])
    (ha : 0 < B.joint (fun _ => 'a')) (hb : 0 < B.joint fun _ => 'b') {xs : List Char} (hxs : ∀ x ∈ xs, x = 'a' ∨ x = 'b') :
    ∀ r ∈ (frOf xs).rows, Possible B r := by
  have hst : ∀ s, s = 'a' ∨ s = 'b' → B.InStates fun _ => s := by
    intro s hs v hv
    rw [h1] at hv
    rcases List.mem_cons.1 hv with rfl | hv
    · rw [h2]; rcases hs with rfl | rfl <;> decide
    · obtain rfl : v = 'X' := by simpa using hv
      rw [h3]; rcases hs with rfl | rfl <;> decide
  intro r hr
  obtain ⟨x, hx, rfl⟩ := List.mem_map.1 hr
  have hval : ∀ v s, Rec.val [('X', some x)] v = some s → s = x := by
    intro v s hs
    have := (frOf_val hr hs).2.2
    injection this with this
    injection this with _ this
    injection this with this
    exact this.symm
  refine ⟨fun _ => x, hst x (hxs x hx), ?_, fun v s hs => (hval v s hs).symm⟩
  rcases hxs x hx with rfl | rfl
  · exact ha
  · exact hb

/-- The hypotheses of `C56_history` are met by the example network and every history of records with values `a` and `b`
(and so the runs succeed). -/
theorem C56_example (vt : VType) (h : List (List Char × ℕ)) (hh : ∀ p ∈ h, p.1 ≠ [] ∧ ∀ x ∈ p.1, x = 'a' ∨ x = 'b') :
    ∃ m s', netOf vt gUX rowsUX = .ok m ∧
      runsF (vt := vt) chEx klEq (h.map fun p => (frOf p.1, p.2)) ⟨EM.new m (some ['U']), none⟩ = .ok s' ∧
      EM.Learnt m (BN.ofModel (IQ vt) m) ['U'] s'.core.model := by
  obtain ⟨m, h1, h2, h3, h4, h5, h6⟩ := ux_net vt
  have hc := uxCheck_ok vt
  rw [uxCheck, h1] at hc
  simp only [decide_eq_true_eq] at hc
  obtain ⟨c1, c2, c3, c4, c5, c6, c7⟩ := hc
  obtain ⟨s', s1, s2, _⟩ := C56_history chEx_ok klEq h3 h4 h5 h6 c5 (T := ['U']) (by decide) (h.map fun p => (frOf p.1, p.2)) (by
    intro p hp
    obtain ⟨p, hm, rfl⟩ := List.mem_map.1 hp
    rw [h2]
    exact ⟨ux_rootData c1 c2 c4 (hh p hm).1 (hh p hm).2, ux_possible c1 c3 c4 c6 c7 (hh p hm).2⟩)
  exact ⟨m, s', h1, s1, s2⟩

/-! ### Counts of a variable with an observed parent -/

/-- `Y` is a noisy copy of `X` -/
def rowsXY : List Row :=
  [([('X', ['a', 'b'])], [q (1/2), q (1/2)], 'X'),
   ([('X', ['a', 'b']), ('Y', ['a', 'b'])], [q (3/4), q (1/4), q (1/4), q (3/4)], 'Y')]

/-- The counts of `Y` on records of `X` -/
def countsY (vt : VType) (xs : List Char) : Py (List (Fl ℚ)) := do
  let m ← netOf vt ⟨['X', 'Y'], [('X', 'Y')]⟩ rowsXY
  let c ← (EM.learner (I := IQ vt) chEx klEq).init (EM.new m (some ['Y'])) (frOf xs)
  let l ← EM.expectation chEx c
  match Dict.get? l 'Y' with
  | some f => [('a', 'a'), ('a', 'b'), ('b', 'a'), ('b', 'b')].mapM fun p => f.getValue [('X', p.1), ('Y', p.2)]
  | none => .error .keyError

/-- **C59** is false: after three records with `X = a` the counts for `X = b` are not zero, but the same as those for
`X = a`.  Then also the new table of `Y` given `X = b` is changed, on which the data have no bearing. -/
theorem C59_observed_parent (vt : VType) : countsY vt ['a', 'a', 'a'] = .ok [q (9/4), q (3/4), q (9/4), q (3/4)] := by
  cases vt <;> decide +kernel

end Verif.Props
