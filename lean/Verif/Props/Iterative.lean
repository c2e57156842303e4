import Verif.Learn.Iterative

/-!
# The learning loop (C54)
-/

set_option linter.unusedSectionVars false
set_option linter.unusedSimpArgs false

namespace Verif.Props
open Verif

variable {σ D M : Type} (L : Learner σ D M)

/-- What a run should do: from the state `c` and the recorded models `evo`, one element of the list per step, with the
state after the update, the state after the stopping rule and its verdict, which is negative except possibly for the last
step; `c'` and `evo'` are reached. -/
def IsHistory : σ → List M → List (σ × σ × Bool) → σ → List M → Prop
  | c, evo, [], c', evo' => c' = c ∧ evo' = evo
  | c, evo, (x, y, b) :: h, c', evo' =>
    L.update c = .ok x ∧ L.stop x (evo ++ [L.model x]) = .ok (y, b) ∧ (b = true → h = []) ∧
      IsHistory y (evo ++ [L.model x]) h c' evo'

/-- The last verdict of a history -/
def stopped (h : List (σ × σ × Bool)) : Prop := ∃ x, h.getLast? = some x ∧ x.2.2 = true

/-- **C54** the loop: it makes at most `max_iter` steps and at least one (when `max_iter` is not 0), it ends because the
stopping rule holds or because all steps have been made, and the recorded models are those that were recorded before
followed by the model after each step. -/
theorem C54_loop (hp : ∀ c c', L.update c = .ok c' → L.prior c' = L.prior c) {max : Option Nat} {i : Nat} {s s' : LObj σ M}
    (h : L.Loop max i s s') :
    ∃ hist : List (σ × σ × Bool), IsHistory L s.core (L.evolution s) hist s'.core (L.evolution s') ∧
      L.evolution s' = L.evolution s ++ hist.map (fun x => L.model x.1) ∧
      (∀ n, max = some n → i ≤ n → i + hist.length ≤ n) ∧ (Learner.below i max → 1 ≤ hist.length) ∧
      (stopped hist ∨ max = some (i + hist.length) ∨ ¬ Learner.below i max) := by
  induction h with
  | @done i s hb => exact ⟨[], ⟨rfl, rfl⟩, by simp, by simp, fun h => absurd h hb, .inr (.inr hb)⟩
  | @stop i s s1 s2 hb h1 h2 =>
    obtain ⟨u1, u2⟩ := L.step_evo h1 hp
    obtain ⟨k1, k2⟩ := L.check_evo h2
    have e : L.evolution s2 = L.evolution s ++ [L.model s1.core] := by
      rw [Learner.evolution, k2, Option.getD_some, u2]
    refine ⟨[(s1.core, s2.core, true)], ⟨u1, by rw [← u2]; exact k1, fun _ => rfl, rfl, e⟩, e, ?_, by simp,
      .inl ⟨_, rfl, rfl⟩⟩
    rintro n rfl _
    simp only [Learner.below] at hb
    simp; omega
  | @next i s s1 s2 s3 hb h1 h2 _ ih =>
    obtain ⟨u1, u2⟩ := L.step_evo h1 hp
    obtain ⟨k1, k2⟩ := L.check_evo h2
    have e : L.evolution s2 = L.evolution s ++ [L.model s1.core] := by
      rw [Learner.evolution, k2, Option.getD_some, u2]
    obtain ⟨hist, g1, g2, g3, g4, g5⟩ := ih
    refine ⟨(s1.core, s2.core, false) :: hist, ⟨u1, by rw [← u2]; exact k1, by simp, by rw [← e]; exact g1⟩, ?_, ?_, by simp, ?_⟩
    · rw [g2, e]; simp
    · rintro n rfl _
      simp only [Learner.below] at hb
      have := g3 n rfl (by omega)
      simp; omega
    · rcases g5 with g | g | g
      · left
        obtain ⟨x, hx, hb⟩ := g
        refine ⟨x, ?_, hb⟩
        cases hist with
        | nil => cases hx
        | cons y ys => rw [List.getLast?_cons_cons]; exact hx
      · right; left
        rw [g]; simp; omega
      · cases max with
        | none => exact absurd trivial g
        | some n =>
          right; left
          simp only [Learner.below] at hb g
          have := g3 n rfl (by omega)
          simp; omega

/-- **C54** the first run of a new object: the recorded models are the prior followed by the model after every step. -/
theorem C54_first_run (hp : ∀ c c', L.update c = .ok c' → L.prior c' = L.prior c)
    (hi : ∀ c d c', L.init c d = .ok c' → L.prior c' = L.prior c) {d : D} {max : Option Nat} {c : σ} {s' : LObj σ M}
    (h : L.Runs d max ⟨c, none⟩ s') :
    ∃ c0 hist, L.init c d = .ok c0 ∧ IsHistory L c0 [L.prior c] hist s'.core (L.evolution s') ∧
      L.evolution s' = L.prior c :: hist.map (fun x => L.model x.1) ∧
      (∀ n, max = some n → min 1 n ≤ hist.length ∧ hist.length ≤ n) ∧
      (max = none → 1 ≤ hist.length ∧ stopped hist) ∧ (stopped hist ∨ max = some hist.length) := by
  obtain ⟨c0, h0, hl⟩ := h
  obtain ⟨hist, g1, g2, g3, g4, g5⟩ := C54_loop L hp hl
  have e : L.evolution { core := c0, evo := none } = [L.prior c] := by
    rw [Learner.evolution]; simp [hi _ _ _ h0]
  rw [e] at g1 g2
  refine ⟨c0, hist, h0, g1, g2, ?_, ?_, ?_⟩
  · rintro n rfl
    refine ⟨?_, by have := g3 n rfl (by omega); omega⟩
    by_cases hn : n = 0
    · subst hn; simp
    · have := g4 (by simp only [Learner.below]; omega)
      omega
  · rintro rfl
    exact ⟨g4 trivial, g5.elim id (fun g => g.elim (fun g => by cases g) (fun g => absurd trivial g))⟩
  · rcases g5 with g | g | g
    · exact .inl g
    · right; rw [g]; simp
    · cases max with
      | none => exact absurd trivial g
      | some n =>
        right
        simp only [Learner.below] at g
        have := g3 n rfl (by omega)
        congr 1; omega

/-- **C54** a run without limit that ends does what runs with every large enough limit do. -/
theorem C54_unlimited {i : Nat} {s s' : LObj σ M} (h : L.Loop none i s s') :
    ∃ k, ∀ n, i + k ≤ n → L.Loop (some n) i s s' := by
  generalize hm : (none : Option Nat) = m at h
  induction h with
  | done hb => subst hm; exact absurd trivial hb
  | stop _ h1 h2 => exact ⟨1, fun n hn => .stop (by simp only [Learner.below]; omega) h1 h2⟩
  | next _ h1 h2 _ ih =>
    obtain ⟨k, ih⟩ := ih
    exact ⟨k + 1, fun n hn => .next (by simp only [Learner.below]; omega) h1 h2 (ih n (by omega))⟩

/-- **C54** for a finite limit the relation is the function. -/
theorem C54_function (d : D) (n : Nat) (s s' : LObj σ M) : L.Runs d (some n) s s' ↔ L.runF d n s = .ok s' := by
  rw [Learner.Runs, Learner.runF]
  cases hc : L.init s.core d with
  | error e =>
    constructor
    · rintro ⟨c, h, _⟩; cases h
    · intro h; cases h
  | ok c =>
    rw [py_ok_bind, ← L.loop_iff_loopF n 0]
    constructor
    · rintro ⟨c', h, h'⟩; injection h with h; subst h; exact h'
    · intro h; exact ⟨c, rfl, h⟩

/-- A learner for the examples: the model is a number, the prior 0, each step adds one, and learning stops when the
model is at least the datum. -/
def countTo : Learner (Nat × Nat) Nat Nat where
  prior _ := 0
  model s := s.1
  init _ d := .ok (0, d)
  update s := .ok (s.1 + 1, s.2)
  stop s _ := .ok (s, decide (s.2 ≤ s.1))

/-- The stopping rule ends the first run, the limit the second. -/
example : countTo.Runs 3 (some 10) ⟨(0, 0), none⟩ ⟨(3, 3), some [0, 1, 2, 3]⟩ ∧
    countTo.Runs 3 none ⟨(0, 0), none⟩ ⟨(3, 3), some [0, 1, 2, 3]⟩ ∧
    countTo.Runs 3 (some 2) ⟨(0, 0), none⟩ ⟨(2, 3), some [0, 1, 2]⟩ := by
  refine ⟨(C54_function _ _ _ _ _).2 rfl, ⟨_, rfl, .next trivial rfl rfl (.next trivial rfl rfl (.stop trivial rfl rfl))⟩,
    (C54_function _ _ _ _ _).2 rfl⟩

/-- **C54** fails for a second run of the same object: the models of the first run are still there, and the recorded
models are not the prior followed by the model after every step of the run. -/
theorem C54_second_run : ∃ s1 s2 : LObj (Nat × Nat) Nat,
    countTo.Runs 2 (some 5) ⟨(0, 0), none⟩ s1 ∧ countTo.Runs 1 (some 5) s1 s2 ∧
    countTo.evolution s2 = [0, 1, 2, 1] :=
  ⟨⟨(2, 2), some [0, 1, 2]⟩, ⟨(1, 1), some [0, 1, 2, 1]⟩, (C54_function _ _ _ _ _).2 rfl, (C54_function _ _ _ _ _).2 rfl, rfl⟩

end Verif.Props
