import Verif.Net.Gibbs

/-!
# Relative frequencies maximise the likelihood of a table
-/

set_option linter.unusedSectionVars false
set_option linter.unusedSimpArgs false

namespace Verif
open Real

section
variable {X Γ T : Type} [DecidableEq Γ] [DecidableEq T]

theorem countP_sum (l : List X) (p : X → Prop) [DecidablePred p] :
    ((l.countP fun x => decide (p x) : ℕ) : ℝ) = (l.map fun x => if p x then (1 : ℝ) else 0).sum := by
  induction l with
  | nil => simp
  | cons x l ih =>
    rw [List.countP_cons, List.map_cons, List.sum_cons, Nat.cast_add, ih, add_comm]
    by_cases h : p x <;> simp [h]

theorem sum_swap' {Y : Type} (l : List X) (k : List Y) (f : X → Y → ℝ) :
    (l.map fun x => (k.map fun y => f x y).sum).sum = (k.map fun y => (l.map fun x => f x y).sum).sum := by
  induction l with
  | nil => simp
  | cons x l ih => simp only [List.map_cons, List.sum_cons, List.sum_map_add, ih]

/-- A value among distinct states picks one term. -/
theorem sum_pick {st : List T} (hn : st.Nodup) {s : T} (hs : s ∈ st) (f : T → ℝ) :
    (st.map fun x => if s = x then f x else 0).sum = f s := by
  induction st with
  | nil => cases hs
  | cons x st ih =>
    obtain ⟨h1, h2⟩ := List.nodup_cons.1 hn
    rw [List.map_cons, List.sum_cons]
    rcases List.mem_cons.1 hs with rfl | hs
    · rw [if_pos rfl, List.sum_eq_zero, add_zero]
      intro y hy
      obtain ⟨z, hz, rfl⟩ := List.mem_map.1 hy
      exact if_neg fun e : s = z => h1 (e ▸ hz)
    · rw [if_neg fun e : s = x => h1 (e ▸ hs), zero_add, ih h2 hs]

/-- Relative frequencies maximise the likelihood: `c x` is the configuration of the parents in the record `x`, `s x` the value of
the variable, and `t x` the distribution that the table has for this configuration. -/
theorem frequencies_best {rows : List X} {c : X → Γ} {s : X → T} {st : List T} (hst : st.Nodup) {t : X → T → ℝ}
    (hs : ∀ x ∈ rows, s x ∈ st) (hc : ∀ x ∈ rows, ∀ y ∈ rows, c x = c y → t x = t y) (h0 : ∀ x ∈ rows, ∀ z ∈ st, 0 ≤ t x z)
    (h1 : ∀ x ∈ rows, (st.map (t x)).sum ≤ 1) (hp : ∀ x ∈ rows, 0 < t x (s x)) :
    (rows.map fun x => log (t x (s x))).sum ≤ (rows.map fun x => log (((rows.countP fun y => decide (c y = c x ∧ s y = s x) : ℕ) : ℝ) /
      ((rows.countP fun y => decide (c y = c x) : ℕ) : ℝ))).sum := by
  set n : X → T → ℝ := fun x z => ((rows.countP fun y => decide (c y = c x ∧ s y = z) : ℕ) : ℝ) with hn
  set N : X → ℝ := fun x => ((rows.countP fun y => decide (c y = c x) : ℕ) : ℝ) with hN
  have npos : ∀ x ∈ rows, 0 < n x (s x) := fun x hx => by
    exact Nat.cast_pos.2 (List.countP_pos_iff.2 ⟨x, hx, by simp⟩)
  have Npos : ∀ x ∈ rows, 0 < N x := fun x hx => by
    exact Nat.cast_pos.2 (List.countP_pos_iff.2 ⟨x, hx, by simp⟩)
  have step : ∀ x ∈ rows, log (t x (s x)) - log (n x (s x) / N x) ≤ t x (s x) / n x (s x) * N x - 1 := by
    intro x hx
    have hq : 0 < n x (s x) / N x := div_pos (npos x hx) (Npos x hx)
    rw [← log_div (hp x hx).ne' hq.ne']
    refine (log_le_sub_one_of_pos (div_pos (hp x hx) hq)).trans (le_of_eq ?_)
    rw [div_div_eq_mul_div, div_mul_eq_mul_div]
  have key : (rows.map fun x => t x (s x) / n x (s x) * N x).sum ≤ rows.length := by
    have e : ∀ x ∈ rows, t x (s x) / n x (s x) * N x = (rows.map fun y => if c y = c x then t y (s x) / n y (s x) else 0).sum := by
      intro x hx
      rw [hN]
      simp only
      rw [countP_sum, ← List.sum_map_mul_left]
      refine congrArg List.sum (List.map_congr_left fun y hy => ?_)
      by_cases h : c y = c x
      · rw [if_pos h, if_pos h, mul_one, hc y hy x hx h]
        simp only [hn, h]
      · rw [if_neg h, if_neg h, mul_zero]
    rw [List.map_congr_left e, sum_swap']
    have one : ∀ y ∈ rows, (rows.map fun x => if c y = c x then t y (s x) / n y (s x) else 0).sum ≤ 1 := by
      intro y hy
      have e2 : ∀ x ∈ rows, (if c y = c x then t y (s x) / n y (s x) else 0) =
          (st.map fun z => if c x = c y ∧ s x = z then t y z / n y z else 0).sum := by
        intro x hx
        by_cases h : c y = c x
        · rw [if_pos h, ← sum_pick hst (hs x hx) fun z => t y z / n y z]
          refine congrArg List.sum (List.map_congr_left fun z _ => ?_)
          simp [h]
        · rw [if_neg h, List.sum_eq_zero]
          intro v hv
          obtain ⟨z, _, rfl⟩ := List.mem_map.1 hv
          exact if_neg fun e => h e.1.symm
      rw [List.map_congr_left e2, sum_swap']
      refine le_trans (List.sum_le_sum fun z hz => ?_) (h1 y hy)
      have e3 : (rows.map fun x => if c x = c y ∧ s x = z then t y z / n y z else 0).sum = t y z / n y z * n y z := by
        simp only [hn]
        rw [countP_sum, ← List.sum_map_mul_left]
        refine congrArg List.sum (List.map_congr_left fun x _ => ?_)
        by_cases h : c x = c y ∧ s x = z
        · rw [if_pos h, if_pos h, mul_one]
        · rw [if_neg h, if_neg h, mul_zero]
      rw [e3]
      by_cases hz0 : n y z = 0
      · rw [hz0, mul_zero]; exact h0 y hy z hz
      · rw [div_mul_cancel₀ _ hz0]
    have := List.sum_le_sum one
    simpa using this
  have h2 := List.sum_le_sum step
  rw [sum_map_sub', sum_map_sub'] at h2
  have h3 : (rows.map fun _ => (1 : ℝ)).sum = rows.length := by simp
  linarith

end
end Verif
