import Verif.Learn.EMData
import Verif.Graph.Lemmas
import Verif.Inference.CausalLemmas
import Mathlib.Tactic.Ring
import Mathlib.Tactic.FieldSimp
import Mathlib.Tactic.Linarith

/-!
# A variable connected with its child by a chain of shared exogenous variables

No reference to the code. Two networks over the same graph give the endogenous variables the same positive distribution; after an intervention on the
variable their distributions differ.
-/

set_option linter.unusedSectionVars false
set_option linter.unusedSimpArgs false

namespace Verif
open Relation

variable {V : Type} [DecidableEq V]

/-! ### Chains -/

/-- Endogenous variables `w 0, …, w n`, each sharing the exogenous variable `u k` with the next -/
structure Chain (g : DiGraph V) (endo : List V) (n : ℕ) (w u : ℕ → V) : Prop where
  inEndo : ∀ k ≤ n, w k ∈ endo
  exo : ∀ k < n, u k ∉ endo
  left : ∀ k < n, (u k, w k) ∈ g.edges
  right : ∀ k < n, (u k, w (k + 1)) ∈ g.edges

theorem Chain.extend {g : DiGraph V} {endo : List V} {n : ℕ} {w u : ℕ → V} (h : Chain g endo n w u) {z p : V} (hz : z ∈ endo) (hp : p ∉ endo)
    (h1 : (p, w n) ∈ g.edges) (h2 : (p, z) ∈ g.edges) :
    Chain g endo (n + 1) (fun k => if k ≤ n then w k else z) fun k => if k < n then u k else p where
  inEndo k hk := by
    by_cases hkn : k ≤ n
    · simp only [if_pos hkn]; exact h.inEndo k hkn
    · simp only [if_neg hkn]; exact hz
  exo k hk := by
    by_cases hkn : k < n
    · simp only [if_pos hkn]; exact h.exo k hkn
    · simp only [if_neg hkn]; exact hp
  left k hk := by
    by_cases hkn : k < n
    · simp only [if_pos hkn, if_pos (Nat.le_of_lt hkn)]; exact h.left k hkn
    · have : k = n := by omega
      subst this
      simp only [lt_irrefl, if_false, le_refl, if_true]; exact h1
  right k hk := by
    by_cases hkn : k < n
    · simp only [if_pos hkn, if_pos (Nat.succ_le_of_lt hkn)]; exact h.right k hkn
    · have : k = n := by omega
      subst this
      simp only [lt_irrefl, if_false, if_neg (Nat.not_succ_le_self k)]; exact h2

/-- A part of a chain that returns to where it was can be left out. -/
theorem Chain.cut {g : DiGraph V} {endo : List V} {n : ℕ} {w u : ℕ → V} (h : Chain g endo n w u) {i j : ℕ} (hij : i < j) (hj : j ≤ n)
    (hlink : j < n → (u j, w i) ∈ g.edges) (hend : j = n → w i = w n) :
    ∃ w' u', Chain g endo (n - (j - i)) w' u' ∧ w' 0 = w 0 ∧ w' (n - (j - i)) = w n := by
  refine ⟨fun k => if k ≤ i then w k else w (k + (j - i)), fun k => if k < i then u k else u (k + (j - i)), ⟨fun k hk => ?_, fun k hk => ?_, fun k hk => ?_, fun k hk => ?_⟩, ?_, ?_⟩
  · by_cases hki : k ≤ i
    · simp only [if_pos hki]; exact h.inEndo k (by omega)
    · simp only [if_neg hki]; exact h.inEndo _ (by omega)
  · by_cases hki : k < i
    · simp only [if_pos hki]; exact h.exo k (by omega)
    · simp only [if_neg hki]; exact h.exo _ (by omega)
  · by_cases hki : k < i
    · simp only [if_pos hki, if_pos (Nat.le_of_lt hki)]; exact h.left k (by omega)
    · by_cases hki' : k = i
      · subst hki'
        simp only [lt_irrefl, if_false, le_refl, if_true]
        rw [show k + (j - k) = j by omega]
        exact hlink (by omega)
      · simp only [if_neg hki, if_neg (show ¬ k ≤ i by omega)]; exact h.left _ (by omega)
  · by_cases hki : k < i
    · simp only [if_pos hki, if_pos (Nat.succ_le_of_lt hki)]; exact h.right k (by omega)
    · simp only [if_neg hki, if_neg (show ¬ k + 1 ≤ i by omega)]
      rw [show k + 1 + (j - i) = k + (j - i) + 1 by omega]; exact h.right _ (by omega)
  · simp
  · by_cases hni : n - (j - i) ≤ i
    · simp only [if_pos hni]
      have : j = n := by omega
      rw [show n - (j - i) = i by omega]; exact hend this
    · simp only [if_neg hni]
      rw [show n - (j - i) + (j - i) = n by omega]

/-- A shortest chain does not meet a variable twice. -/
theorem chain_exists {g : DiGraph V} {endo : List V} {R : V → V → Prop} (hR : ∀ a b, R a b → b ∈ endo ∧ ∃ p, p ∉ endo ∧ (p, a) ∈ g.edges ∧ (p, b) ∈ g.edges)
    {x z : V} (hx : x ∈ endo) (h : ReflTransGen R x z) : ∃ n w u, Chain g endo n w u ∧ w 0 = x ∧ w n = z ∧
      (∀ i ≤ n, ∀ j ≤ n, w i = w j → i = j) ∧ ∀ i < n, ∀ j < n, u i = u j → i = j := by
  have h0 : ∃ n w u, Chain g endo n w u ∧ w 0 = x ∧ w n = z := by
    induction h with
    | refl => exact ⟨0, fun _ => x, fun _ => x, ⟨fun _ _ => hx, by simp, by simp, by simp⟩, rfl, rfl⟩
    | tail _ hbc ih =>
      obtain ⟨n, w, u, h1, h2, h3⟩ := ih
      obtain ⟨hc, p, p1, p2, p3⟩ := hR _ _ hbc
      exact ⟨n + 1, _, _, h1.extend hc p1 (h3 ▸ p2) p3, by simp [h2], by simp⟩
  classical
  obtain ⟨w, u, h1, h2, h3⟩ := Nat.find_spec h0
  have hmin : ∀ m < Nat.find h0, ¬ ∃ w u, Chain g endo m w u ∧ w 0 = x ∧ w m = z := fun m hm => Nat.find_min h0 hm
  generalize Nat.find h0 = n at *
  have key : ∀ i j, i < j → j ≤ n → (j < n → (u j, w i) ∈ g.edges) → (j = n → w i = w n) → False := fun i j hij hj hl he => by
    obtain ⟨w', u', c1, c2, c3⟩ := h1.cut hij hj hl he
    exact hmin (n - (j - i)) (by omega) ⟨w', u', c1, c2.trans h2, c3.trans h3⟩
  have hw : ∀ i j, i < j → j ≤ n → w i = w j → False := fun i j hij hj e =>
    key i j hij hj (fun hjn => e ▸ h1.left j hjn) fun hjn => hjn ▸ e
  have hu : ∀ i j, i < j → j < n → u i = u j → False := fun i j hij hj e =>
    key i j hij hj.le (fun _ => e ▸ h1.left i (by omega)) fun hjn => by omega
  refine ⟨n, w, u, h1, h2, h3, fun i hi j hj e => ?_, fun i hi j hj e => ?_⟩
  · rcases Nat.lt_trichotomy i j with h | h | h
    · exact (hw i j h hj e).elim
    · exact h
    · exact (hw j i h hi e.symm).elim
  · rcases Nat.lt_trichotomy i j with h | h | h
    · exact (hu i j h hj e).elim
    · exact h
    · exact (hu j i h hi e.symm).elim

/-! ### Sums -/

/-- A change of the summed variables that permutes their states -/
theorem sumOver_change {S K : Type} [DecidableEq S] [Semiring K] {D : V → List S} {φ : V → S → S} (c : K) {xs : List V} (hx : xs.Nodup)
    (hφ : ∀ x ∈ xs, ((D x).map (φ x)).Perm (D x)) {f g : (V → S) → K} {a a' : V → S}
    (h : ∀ b b', (∀ v, v ∉ xs → b v = a v) → (∀ v ∈ xs, b v ∈ D v) → (∀ v, v ∉ xs → b' v = a' v) → (∀ v ∈ xs, b' v = φ v (b v)) → f b = c * g b') :
    sumOver D xs f a = c * sumOver D xs g a' := by
  induction xs generalizing a a' with
  | nil => exact h a a' (fun _ _ => rfl) (by simp) (fun _ _ => rfl) (by simp)
  | cons x xs ih =>
    rw [List.nodup_cons] at hx
    rw [sumOver_cons, sumOver_cons, ← ((hφ x List.mem_cons_self).map fun s => sumOver D xs g (upd a' x s)).sum_eq, List.map_map, ← List.sum_map_mul_left]
    refine congrArg List.sum (List.map_congr_left fun s hs => ih hx.2 (fun y hy => hφ y (List.mem_cons_of_mem _ hy)) fun b b' b1 b2 b3 b4 => h b b' ?_ ?_ ?_ ?_)
    · intro v hv
      have hv : v ≠ x ∧ v ∉ xs := by simpa using hv
      rw [b1 v hv.2, upd_ne _ _ hv.1]
    · intro v hv
      rcases List.mem_cons.1 hv with rfl | hv
      · rw [b1 v hx.1, upd_same]; exact hs
      · exact b2 v hv
    · intro v hv
      have hv : v ≠ x ∧ v ∉ xs := by simpa using hv
      rw [b3 v hv.2, upd_ne _ _ hv.1]
    · intro v hv
      rcases List.mem_cons.1 hv with rfl | hv
      · rw [b3 v hx.1, upd_same, b1 v hx.1, upd_same]
      · exact b4 v hv

theorem prod_map_one_differs {K : Type} [CommSemiring K] {l : List V} (hl : l.Nodup) {f g : V → K} {c : K} {x : V} (hx : x ∈ l) (hfx : f x = c * g x)
    (h : ∀ v ∈ l, v ≠ x → f v = g v) : (l.map f).prod = c * (l.map g).prod := by
  induction l with
  | nil => cases hx
  | cons y l ih =>
    rw [List.nodup_cons] at hl
    rw [List.map_cons, List.map_cons, List.prod_cons, List.prod_cons]
    rcases List.mem_cons.1 hx with rfl | hx
    · rw [hfx, List.map_congr_left fun v hv => h v (List.mem_cons_of_mem _ hv) fun e => hl.1 (e ▸ hv)]
      ring
    · rw [h y List.mem_cons_self fun e => hl.1 (e ▸ hx), ih hl.2 hx fun v hv => h v (List.mem_cons_of_mem _ hv)]
      ring

end Verif
