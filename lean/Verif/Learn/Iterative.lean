import Verif.Py.Basic

/-!
# The learning loop (`learning/parameter/parameter.py`)

What `IterativeParameterLearning` does with any implementation of its abstract methods.
-/

set_option linter.unusedSectionVars false
set_option linter.unusedSimpArgs false

namespace Verif

/-- What a subclass provides: `σ` is the state of its object, `D` the data, `M` the models. -/
structure Learner (σ D M : Type) where
  /-- `prior_model` -/
  prior : σ → M
  /-- `model` -/
  model : σ → M
  /-- `initialize` -/
  init : σ → D → Py σ
  /-- `_calculate_updated_factors` and `_update_model` up to the recording (`parameter.py:26-27`, `61-64`) -/
  update : σ → Py σ
  /-- `_stop_learning`, which reads `model_evolution` -/
  stop : σ → List M → Py (σ × Bool)

/-- The object: the state of the subclass and `_model_evolution`, which is missing before its first use. -/
structure LObj (σ M : Type) where
  core : σ
  evo : Option (List M)

variable {σ D M : Type} (L : Learner σ D M)

namespace Learner

/-- `parameter.py:49-53` `model_evolution` -/
def evolution (s : LObj σ M) : List M := s.evo.getD [L.prior s.core]

/-- `parameter.py:55-58` `_record_model` -/
def record (s : LObj σ M) : LObj σ M := { s with evo := some (L.evolution s ++ [L.model s.core]) }

/-- `parameter.py:24-27`, `61-65` `step()` without data -/
def step (s : LObj σ M) : Py (LObj σ M) := do
  let c ← L.update s.core
  return L.record { s with core := c }

/-- `parameter.py:83` `_stop_learning()` -/
def check (s : LObj σ M) : Py (LObj σ M × Bool) := do
  let (c, b) ← L.stop s.core (L.evolution s)
  return ({ core := c, evo := some (L.evolution s) }, b)

/-- `i < max_iter`; `none` is infinity -/
def below (i : Nat) : Option Nat → Prop
  | some n => i < n
  | none => True

/-- `parameter.py:79-84`: the loop that terminates without exception, from the value `i` of the counter on -/
inductive Loop (max : Option Nat) : Nat → LObj σ M → LObj σ M → Prop
  | done {i s} : ¬ below i max → Loop max i s s
  | stop {i s s1 s2} : below i max → L.step s = .ok s1 → L.check s1 = .ok (s2, true) → Loop max i s s2
  | next {i s s1 s2 s3} : below i max → L.step s = .ok s1 → L.check s1 = .ok (s2, false) → Loop max (i + 1) s2 s3 →
      Loop max i s s3

/-- `parameter.py:67-84` `run` that terminates without exception -/
def Runs (d : D) (max : Option Nat) (s s' : LObj σ M) : Prop :=
  ∃ c, L.init s.core d = .ok c ∧ L.Loop max 0 { s with core := c } s'

/-- `parameter.py:79-84` as a function, `n` iterations being left -/
def loopF : Nat → LObj σ M → Py (LObj σ M)
  | 0, s => .ok s
  | n + 1, s => do
    let s ← L.step s
    let (s, b) ← L.check s
    if b then return s else loopF n s

/-- `parameter.py:67-84` `run` for a finite number of iterations -/
def runF (d : D) (n : Nat) (s : LObj σ M) : Py (LObj σ M) := do
  let c ← L.init s.core d
  L.loopF n { s with core := c }

theorem check_evo {s s' : LObj σ M} {b : Bool} (h : L.check s = .ok (s', b)) :
    L.stop s.core (L.evolution s) = .ok (s'.core, b) ∧ s'.evo = some (L.evolution s) := by
  rw [check] at h
  cases hs : L.stop s.core (L.evolution s) with
  | error e => rw [hs] at h; cases h
  | ok p =>
    rw [hs] at h
    injection h with h
    injection h with h1 h2
    subst h1; subst h2
    exact ⟨rfl, rfl⟩

theorem step_evo {s s' : LObj σ M} (h : L.step s = .ok s') (hp : ∀ c c', L.update c = .ok c' → L.prior c' = L.prior c) :
    L.update s.core = .ok s'.core ∧ L.evolution s' = L.evolution s ++ [L.model s'.core] := by
  rw [step] at h
  cases hs : L.update s.core with
  | error e => rw [hs] at h; cases h
  | ok c =>
    rw [hs] at h
    injection h with h
    subst h
    refine ⟨rfl, ?_⟩
    simp only [record, evolution, Option.getD_some]
    rw [hp _ _ hs]

theorem loop_iff_loopF (n k : Nat) (s s' : LObj σ M) : L.Loop (some (n + k)) k s s' ↔ L.loopF n s = .ok s' := by
  constructor
  · intro h
    generalize hm : some (n + k) = m at h
    induction h generalizing n with
    | @done i s hb =>
      subst hm
      have : n = 0 := by simp only [below] at hb; omega
      subst this; rfl
    | @stop i s s1 s2 hb h1 h2 =>
      subst hm
      obtain ⟨n, rfl⟩ : ∃ m, n = m + 1 := ⟨n - 1, by simp only [below] at hb; omega⟩
      simp only [loopF, h1, py_ok_bind, h2, if_true]
      rfl
    | @next i s s1 s2 s3 hb h1 h2 _ ih =>
      subst hm
      obtain ⟨n, rfl⟩ : ∃ m, n = m + 1 := ⟨n - 1, by simp only [below] at hb; omega⟩
      simp only [loopF, h1, py_ok_bind, h2, Bool.false_eq_true, if_false]
      exact ih n (by congr 1; omega)
  · intro h
    induction n generalizing k s with
    | zero =>
      injection h with h; subst h
      exact .done (by simp [below])
    | succ n ih =>
      rw [loopF] at h
      cases h1 : L.step s with
      | error e => rw [h1] at h; cases h
      | ok s1 =>
        rw [h1, py_ok_bind] at h
        cases h2 : L.check s1 with
        | error e => rw [h2] at h; cases h
        | ok p =>
          obtain ⟨s2, b⟩ := p
          rw [h2, py_ok_bind] at h
          have hb : below k (some (n + 1 + k)) := by simp only [below]; omega
          cases b with
          | true =>
            injection h with h; subst h
            exact .stop hb h1 h2
          | false =>
            refine .next hb h1 h2 ?_
            have := ih (k + 1) s2 h
            rwa [show n + (k + 1) = n + 1 + k by omega] at this

end Learner
end Verif
