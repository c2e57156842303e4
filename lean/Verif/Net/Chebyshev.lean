import Mathlib.Algebra.BigOperators.Ring.Finset
import Mathlib.Algebra.Order.BigOperators.Group.Finset
import Mathlib.Algebra.Order.BigOperators.Ring.Finset
import Mathlib.Data.Real.Basic
import Mathlib.Tactic.Linarith
import Mathlib.Tactic.FieldSimp
import Mathlib.Tactic.Ring
import Mathlib.Data.Fintype.BigOperators

/-!
# Relative frequencies of independent draws from finitely many values

No reference to the code: `R` are the possible values, `w` their probabilities, a tuple of `n` values has the product of the
probabilities.
-/

namespace Verif

section
variable {ρ : Type} {n : Nat} (R : Finset ρ) (w : ρ → ℝ)

/-- All sequences of `n` values. -/
def tuples (n : Nat) : Finset (Fin n → ρ) := Fintype.piFinset fun _ => R

theorem sum_tuples_prod (f : Fin n → ρ → ℝ) : ∑ t ∈ tuples R n, ∏ k, f k (t k) = ∏ k, ∑ r ∈ R, f k r := by
  rw [Finset.prod_univ_sum]; rfl

theorem sum_tuples_one (h1 : ∑ r ∈ R, w r = 1) (g : ρ → ℝ) (i : Fin n) :
    ∑ t ∈ tuples R n, (∏ k, w (t k)) * g (t i) = ∑ r ∈ R, w r * g r := by
  have e : ∀ t ∈ tuples R n, (∏ k, w (t k)) * g (t i) = ∏ k, w (t k) * if k = i then g (t k) else 1 := by
    intro t _
    rw [Finset.prod_mul_distrib, Finset.prod_ite_eq' Finset.univ i fun k => g (t k)]
    simp
  rw [Finset.sum_congr rfl e, sum_tuples_prod R fun k r => w r * if k = i then g r else 1,
    Finset.prod_eq_single i (fun k _ hk => by simp [hk, h1]) (by simp)]
  simp

theorem sum_tuples_two (h1 : ∑ r ∈ R, w r = 1) (g : ρ → ℝ) {i j : Fin n} (hij : i ≠ j) :
    ∑ t ∈ tuples R n, (∏ k, w (t k)) * (g (t i) * g (t j)) = (∑ r ∈ R, w r * g r) * ∑ r ∈ R, w r * g r := by
  have e : ∀ t ∈ tuples R n, (∏ k, w (t k)) * (g (t i) * g (t j)) =
      ∏ k, w (t k) * ((if k = i then g (t k) else 1) * if k = j then g (t k) else 1) := by
    intro t _
    rw [Finset.prod_mul_distrib, Finset.prod_mul_distrib, Finset.prod_ite_eq' Finset.univ i fun k => g (t k),
      Finset.prod_ite_eq' Finset.univ j fun k => g (t k)]
    simp
  rw [Finset.sum_congr rfl e, sum_tuples_prod R fun k r => w r * ((if k = i then g r else 1) * if k = j then g r else 1),
    ← Finset.mul_prod_erase Finset.univ _ (Finset.mem_univ i),
    ← Finset.mul_prod_erase (Finset.univ.erase i) _ (Finset.mem_erase.2 ⟨hij.symm, Finset.mem_univ j⟩),
    Finset.prod_eq_one (s := (Finset.univ.erase i).erase j) fun k hk => by
      simp only [Finset.mem_erase, Finset.mem_univ, and_true] at hk
      simp [hk.1, hk.2, h1]]
  simp [hij, hij.symm]

/-- The variance of a sum of independent centred terms. -/
theorem sum_tuples_sq (h1 : ∑ r ∈ R, w r = 1) {g : ρ → ℝ} (hg : ∑ r ∈ R, w r * g r = 0) :
    ∑ t ∈ tuples R n, (∏ k, w (t k)) * (∑ i, g (t i)) ^ 2 = n * ∑ r ∈ R, w r * g r ^ 2 := by
  have e : ∀ t ∈ tuples R n, (∏ k, w (t k)) * (∑ i, g (t i)) ^ 2 = ∑ i, ∑ j, (∏ k, w (t k)) * (g (t i) * g (t j)) := by
    intro t _
    rw [pow_two, Finset.sum_mul_sum, Finset.mul_sum]
    exact Finset.sum_congr rfl fun i _ => Finset.mul_sum _ _ _
  rw [Finset.sum_congr rfl e, Finset.sum_comm]
  have e2 : ∀ i ∈ (Finset.univ : Finset (Fin n)), ∑ t ∈ tuples R n, ∑ j, (∏ k, w (t k)) * (g (t i) * g (t j)) = ∑ r ∈ R, w r * g r ^ 2 := by
    intro i _
    rw [Finset.sum_comm, Finset.sum_eq_single i]
    · rw [sum_tuples_one R w h1 (fun r => g r * g r) i]
      exact Finset.sum_congr rfl fun r _ => by ring
    · intro j _ hj
      rw [sum_tuples_two R w h1 g (Ne.symm hj), hg, zero_mul]
    · simp
  rw [Finset.sum_congr rfl e2, Finset.sum_const, Finset.card_univ, Fintype.card_fin, nsmul_eq_mul]

variable (A : ρ → Prop) [DecidablePred A]

/-- How many of the values have a property. -/
def hits (t : Fin n → ρ) : Nat := (Finset.univ.filter fun i => A (t i)).card

theorem hits_eq (t : Fin n → ρ) : (hits A t : ℝ) = ∑ i, if A (t i) then (1 : ℝ) else 0 := by
  rw [hits, Finset.sum_boole]

/-- The expected number of values with a property. -/
theorem sum_tuples_hits (h1 : ∑ r ∈ R, w r = 1) : ∑ t ∈ tuples R n, (∏ k, w (t k)) * hits A t = n * ∑ r ∈ R.filter A, w r := by
  have e : ∀ t ∈ tuples R n, (∏ k, w (t k)) * (hits A t : ℝ) = ∑ i, (∏ k, w (t k)) * if A (t i) then (1 : ℝ) else 0 := by
    intro t _
    rw [hits_eq, Finset.mul_sum]
  rw [Finset.sum_congr rfl e, Finset.sum_comm,
    Finset.sum_congr rfl fun i _ => sum_tuples_one R w h1 (fun r => if A r then (1 : ℝ) else 0) i, Finset.sum_const, Finset.card_univ,
    Fintype.card_fin, nsmul_eq_mul, Finset.sum_filter]
  simp

/-- The probability that the relative frequency is off by `ε` or more. -/
theorem chebyshev (hw : ∀ r ∈ R, 0 ≤ w r) (h1 : ∑ r ∈ R, w r = 1) (hn : 1 ≤ n) {ε : ℝ} (hε : 0 < ε) {p : ℝ}
    (hp : ∑ r ∈ R.filter A, w r = p) :
    ∑ t ∈ (tuples R n).filter (fun t => ε ≤ |(hits A t : ℝ) / n - p|), ∏ k, w (t k) ≤ p * (1 - p) / (n * ε ^ 2) := by
  have hn0 : (0 : ℝ) < n := by exact_mod_cast hn
  have hpos : ∀ t ∈ tuples R n, 0 ≤ ∏ k, w (t k) := fun t ht =>
    Finset.prod_nonneg fun k _ => hw _ (Fintype.mem_piFinset.1 ht k)
  let g : ρ → ℝ := fun r => (if A r then 1 else 0) - p
  have hsum : ∑ r ∈ R, w r * (if A r then (1 : ℝ) else 0) = p := by
    rw [← hp, Finset.sum_filter]
    exact Finset.sum_congr rfl fun r _ => by split <;> simp
  have hg : ∑ r ∈ R, w r * g r = 0 := by
    simp only [g, mul_sub, Finset.sum_sub_distrib, hsum, ← Finset.sum_mul, h1]; ring
  have hg2 : ∑ r ∈ R, w r * g r ^ 2 = p * (1 - p) := by
    have : ∀ r ∈ R, w r * g r ^ 2 = (1 - 2 * p) * (w r * if A r then (1 : ℝ) else 0) + p ^ 2 * w r := by
      intro r _
      simp only [g]
      split <;> ring
    rw [Finset.sum_congr rfl this, Finset.sum_add_distrib, ← Finset.mul_sum, ← Finset.mul_sum, hsum, h1]; ring
  have hdev : ∀ t : Fin n → ρ, ∑ i, g (t i) = hits A t - n * p := by
    intro t
    simp only [g, Finset.sum_sub_distrib, ← hits_eq]
    simp
  rw [le_div_iff₀ (by positivity)]
  calc (∑ t ∈ (tuples R n).filter (fun t => ε ≤ |(hits A t : ℝ) / n - p|), ∏ k, w (t k)) * (n * ε ^ 2)
      = (∑ t ∈ (tuples R n).filter (fun t => ε ≤ |(hits A t : ℝ) / n - p|), (∏ k, w (t k)) * (n * ε) ^ 2) / n := by
        rw [← Finset.sum_mul]; field_simp
    _ ≤ (∑ t ∈ tuples R n, (∏ k, w (t k)) * (∑ i, g (t i)) ^ 2) / n := by
        refine div_le_div_of_nonneg_right ?_ hn0.le
        refine (Finset.sum_le_sum fun t ht => ?_).trans (Finset.sum_le_sum_of_subset_of_nonneg (Finset.filter_subset _ _) fun t ht _ =>
          mul_nonneg (hpos t ht) (sq_nonneg _))
        obtain ⟨ht1, ht2⟩ := Finset.mem_filter.1 ht
        refine mul_le_mul_of_nonneg_left ?_ (hpos t ht1)
        rw [hdev, ← sq_abs ((hits A t : ℝ) - n * p)]
        refine pow_le_pow_left₀ (by positivity) ?_ 2
        have : |(hits A t : ℝ) - n * p| = n * |(hits A t : ℝ) / n - p| := by
          rw [← abs_of_pos hn0, ← abs_mul, abs_of_pos hn0]
          congr 1
          field_simp
        rw [this]
        exact mul_le_mul_of_nonneg_left ht2 hn0.le
    _ = p * (1 - p) := by
        rw [sum_tuples_sq R w h1 hg, hg2]; field_simp

end
end Verif
