import Verif.Spec.BN
import Verif.Sem
import Mathlib.Algebra.BigOperators.Ring.List
import Mathlib.Tactic.Ring

/-!
# Sums over variables and products of tables: helper lemmas
-/

set_option linter.unusedSectionVars false
set_option linter.unusedSimpArgs false

namespace Verif

variable {V S K : Type} [DecidableEq V] [DecidableEq S]

section
variable [AddCommMonoid K] {D : V → List S}

@[simp] theorem sumOver_nil (f : (V → S) → K) (a : V → S) : sumOver D [] f a = f a := rfl

theorem sumOver_cons (x : V) (xs : List V) (f : (V → S) → K) (a : V → S) :
    sumOver D (x :: xs) f a = ((D x).map fun s => sumOver D xs f (upd a x s)).sum := rfl

theorem sumOver_append (xs ys : List V) (f : (V → S) → K) (a : V → S) :
    sumOver D (xs ++ ys) f a = sumOver D xs (sumOver D ys f) a := by
  induction xs generalizing a with
  | nil => rfl
  | cons x xs ih => simp only [List.cons_append, sumOver_cons, ih]

theorem sumOver_eq_sumStates (xs : List V) (f : (V → S) → K) (a : V → S) :
    sumOver D xs f a = sumStates f (xs.map fun v => (v, D v)) a := by
  induction xs generalizing a with
  | nil => rfl
  | cons x xs ih => simp only [List.map_cons, sumOver_cons, sumStates, ih]

/-- Only assignments that agree with `a` outside `xs` and are in the domain on `xs` matter. -/
theorem sumOver_congr {xs : List V} (hx : xs.Nodup) {f g : (V → S) → K} {a : V → S}
    (h : ∀ b, (∀ v, v ∉ xs → b v = a v) → (∀ v ∈ xs, b v ∈ D v) → f b = g b) :
    sumOver D xs f a = sumOver D xs g a := by
  induction xs generalizing a with
  | nil => exact h a (fun _ _ => rfl) (by simp)
  | cons x xs ih =>
    rw [List.nodup_cons] at hx
    simp only [sumOver_cons]
    congr 1
    refine List.map_congr_left fun s hs => ih hx.2 fun b hb1 hb2 => h b ?_ ?_
    · intro v hv
      have hv : v ≠ x ∧ v ∉ xs := by simpa using hv
      rw [hb1 v hv.2, upd_ne _ _ hv.1]
    · intro v hv
      rcases List.mem_cons.1 hv with rfl | hv
      · rw [hb1 v hx.1, upd_same]; exact hs
      · exact hb2 v hv

theorem sumOver_congr' {xs : List V} {f g : (V → S) → K} (h : ∀ b, f b = g b) (a : V → S) :
    sumOver D xs f a = sumOver D xs g a := by
  rw [funext h]

theorem sum_map_comm {ι κ : Type} (l : List ι) (m : List κ) (f : ι → κ → K) :
    (l.map fun i => (m.map fun j => f i j).sum).sum = (m.map fun j => (l.map fun i => f i j).sum).sum := by
  induction l with
  | nil => simp
  | cons i l ih =>
    simp only [List.map_cons, List.sum_cons, ih]
    rw [← List.sum_map_add]

theorem sumOver_swap {x y : V} (hxy : x ≠ y) (xs : List V) (f : (V → S) → K) (a : V → S) :
    sumOver D (x :: y :: xs) f a = sumOver D (y :: x :: xs) f a := by
  simp only [sumOver_cons]
  rw [sum_map_comm]
  congr 1
  refine List.map_congr_left fun s _ => ?_
  congr 1
  refine List.map_congr_left fun t _ => ?_
  rw [upd_comm a hxy]

theorem sumOver_perm {xs ys : List V} (h : xs.Perm ys) (hx : xs.Nodup) (f : (V → S) → K) (a : V → S) :
    sumOver D xs f a = sumOver D ys f a := by
  induction h generalizing a with
  | nil => rfl
  | cons x _ ih =>
    simp only [sumOver_cons]
    congr 1
    exact List.map_congr_left fun s _ => ih (List.nodup_cons.1 hx).2 _
  | swap x y l =>
    have : y ≠ x := by
      intro e; subst e; simp at hx
    exact sumOver_swap this l f a
  | trans h1 _ ih1 ih2 => rw [ih1 hx, ih2 (h1.nodup_iff.1 hx)]

/-- A function that does not look at `x` is not affected by updating it. -/
theorem DependsOn.upd {β : Type} {f : (V → S) → β} {vs : List V} (h : DependsOn f vs) {x : V} (hx : x ∉ vs)
    (a : V → S) (s : S) : f (upd a x s) = f a :=
  h _ _ fun v hv => upd_ne _ _ (fun e => hx (e ▸ hv))

theorem DependsOn.mono {β : Type} {f : (V → S) → β} {vs ws : List V} (h : DependsOn f vs) (hs : ∀ v ∈ vs, v ∈ ws) :
    DependsOn f ws := fun a b hab => h a b fun v hv => hab v (hs v hv)

theorem DependsOn.sumOver {f : (V → S) → K} {vs : List V} (h : DependsOn f vs) (xs : List V) :
    DependsOn (sumOver D xs f) (vs.filter (· ∉ xs)) := by
  induction xs with
  | nil => exact h.mono (by simp)
  | cons x xs ih =>
    intro a b hab
    simp only [sumOver_cons]
    congr 1
    refine List.map_congr_left fun s _ => ih _ _ fun v hv => ?_
    by_cases hvx : v = x
    · subst hvx; simp
    · rw [upd_ne _ _ hvx, upd_ne _ _ hvx]
      refine hab v ?_
      obtain ⟨h1, h2⟩ := List.mem_filter.1 hv
      exact List.mem_filter.2 ⟨h1, by simpa [hvx] using h2⟩

end

section
variable [CommSemiring K] {D : V → List S}

theorem sumOver_mul_left {f g : (V → S) → K} {vs xs : List V} (hg : DependsOn g vs) (hd : ∀ v ∈ xs, v ∉ vs)
    (a : V → S) : sumOver D xs (fun b => g b * f b) a = g a * sumOver D xs f a := by
  induction xs generalizing a with
  | nil => rfl
  | cons x xs ih =>
    simp only [sumOver_cons]
    rw [← List.sum_map_mul_left]
    congr 1
    refine List.map_congr_left fun s _ => ?_
    rw [ih (fun v hv => hd v (List.mem_cons_of_mem _ hv)), hg.upd (hd x List.mem_cons_self)]

theorem sumOver_mul_right {f g : (V → S) → K} {vs xs : List V} (hg : DependsOn g vs) (hd : ∀ v ∈ xs, v ∉ vs)
    (a : V → S) : sumOver D xs (fun b => f b * g b) a = sumOver D xs f a * g a := by
  rw [mul_comm, ← sumOver_mul_left hg hd]
  exact sumOver_congr' (fun b => mul_comm _ _) a

/-- Sums over two separate groups of variables factorise. -/
theorem sumOver_mul {f g : (V → S) → K} {vs ws xs ys : List V} (hf : DependsOn f vs) (hg : DependsOn g ws)
    (h1 : ∀ v ∈ ys, v ∉ vs) (h2 : ∀ v ∈ xs, v ∉ ws) (a : V → S) :
    sumOver D (xs ++ ys) (fun b => f b * g b) a = sumOver D xs f a * sumOver D ys g a := by
  rw [sumOver_append]
  have : ∀ b, sumOver D ys (fun b => f b * g b) b = f b * sumOver D ys g b := fun b => sumOver_mul_left hf h1 b
  rw [sumOver_congr' this]
  refine sumOver_mul_right (vs := ws.filter (· ∉ ys)) (hg.sumOver ys) (fun v hv hw => ?_) a
  exact h2 v hv (List.mem_filter.1 hw).1

theorem sumOver_zero (xs : List V) (a : V → S) : sumOver D xs (fun _ => (0 : K)) a = 0 := by
  induction xs generalizing a with
  | nil => rfl
  | cons x xs ih => simp [sumOver_cons, ih]

/-- Product of a list of tables. -/
def prodT (φ : V → (V → S) → K) (L : List V) (a : V → S) : K := (L.map fun v => φ v a).prod

@[simp] theorem prodT_nil (φ : V → (V → S) → K) (a : V → S) : prodT φ [] a = 1 := rfl
@[simp] theorem prodT_cons (φ : V → (V → S) → K) (v : V) (L : List V) (a : V → S) :
    prodT φ (v :: L) a = φ v a * prodT φ L a := by simp [prodT]
theorem prodT_append (φ : V → (V → S) → K) (L M : List V) (a : V → S) :
    prodT φ (L ++ M) a = prodT φ L a * prodT φ M a := by simp [prodT]
theorem prodT_perm (φ : V → (V → S) → K) {L M : List V} (h : L.Perm M) (a : V → S) :
    prodT φ L a = prodT φ M a := (h.map _).prod_eq

theorem prodT_congr {φ ψ : V → (V → S) → K} {L : List V} {a b : V → S} (h : ∀ v ∈ L, φ v a = ψ v b) :
    prodT φ L a = prodT ψ L b := by
  rw [prodT, prodT, List.map_congr_left h]

theorem DependsOn.prodT {φ : V → (V → S) → K} {sc : V → List V} {L : List V}
    (h : ∀ v ∈ L, DependsOn (φ v) (sc v)) : DependsOn (prodT φ L) (L.flatMap sc) := by
  intro a b hab
  exact prodT_congr fun v hv => h v hv a b fun w hw => hab w (List.mem_flatMap.2 ⟨v, hv, hw⟩)

/-- Tables over an acyclic family of nodes: the table of `v` looks at `v` and `pa v`, and sums to one over
the states of `v` whatever the other variables are. -/
structure Tables (D : V → List S) (pa : V → List V) (φ : V → (V → S) → K) (N : List V) : Prop where
  nodup : N.Nodup
  rank : ∃ r : V → Nat, ∀ v ∈ N, ∀ p ∈ pa v, r p < r v
  scope : ∀ v ∈ N, DependsOn (φ v) (v :: pa v)
  norm : ∀ v ∈ N, ∀ a, ((D v).map fun s => φ v (upd a v s)).sum = 1

theorem Tables.sublist {pa : V → List V} {φ : V → (V → S) → K} {N M : List V} (h : Tables D pa φ N)
    (hM : M.Nodup) (hs : ∀ v ∈ M, v ∈ N) : Tables D pa φ M := by
  obtain ⟨r, hr⟩ := h.rank
  exact ⟨hM, ⟨r, fun v hv => hr v (hs v hv)⟩, fun v hv => h.scope v (hs v hv), fun v hv => h.norm v (hs v hv)⟩

theorem Tables.irrefl {pa : V → List V} {φ : V → (V → S) → K} {N : List V} (h : Tables D pa φ N) {v : V} (hv : v ∈ N) :
    v ∉ pa v := by
  obtain ⟨r, hr⟩ := h.rank
  intro hp
  exact absurd (hr v hv v hp) (lt_irrefl _)

theorem exists_max_rank (r : V → Nat) {L : List V} (h : L ≠ []) : ∃ v ∈ L, ∀ u ∈ L, r u ≤ r v := by
  induction L with
  | nil => exact absurd rfl h
  | cons x L ih =>
    by_cases hL : L = []
    · subst hL; exact ⟨x, by simp, by simp⟩
    · obtain ⟨v, hv, hm⟩ := ih hL
      by_cases hxv : r x ≤ r v
      · refine ⟨v, List.mem_cons_of_mem _ hv, fun u hu => ?_⟩
        rcases List.mem_cons.1 hu with rfl | hu
        · exact hxv
        · exact hm u hu
      · refine ⟨x, List.mem_cons_self, fun u hu => ?_⟩
        rcases List.mem_cons.1 hu with rfl | hu
        · exact le_rfl
        · exact (hm u hu).trans (by omega)

/-- The tables of any set of nodes sum to one over the nodes, the variables outside being fixed. -/
theorem Tables.sum_one {pa : V → List V} {φ : V → (V → S) → K} {N : List V} (h : Tables D pa φ N) (a : V → S) :
    sumOver D N (prodT φ N) a = 1 := by
  obtain ⟨n, hn⟩ : ∃ n, N.length = n := ⟨_, rfl⟩
  induction n generalizing N with
  | zero =>
    have : N = [] := List.length_eq_zero_iff.1 hn
    subst this; rfl
  | succ n ih =>
    obtain ⟨r, hr⟩ := h.rank
    have hne : N ≠ [] := by intro e; subst e; simp at hn
    obtain ⟨v, hv, hm⟩ := exists_max_rank r hne
    have hperm : N.Perm (N.erase v ++ [v]) :=
      (List.perm_cons_erase hv).trans (List.perm_append_comm (l₁ := [v]) (l₂ := N.erase v))
    have hM : Tables D pa φ (N.erase v) :=
      h.sublist (h.nodup.erase v) fun u hu => List.mem_of_mem_erase hu
    rw [sumOver_perm hperm h.nodup, sumOver_append]
    have hvM : v ∉ (N.erase v).flatMap (fun u => u :: pa u) := by
      intro hc
      obtain ⟨u, hu, hvu⟩ := List.mem_flatMap.1 hc
      have huN := List.mem_of_mem_erase hu
      rcases List.mem_cons.1 hvu with e | hvu
      · subst e; exact absurd hu (h.nodup.not_mem_erase)
      · have := hr u huN v hvu
        have := hm u huN
        omega
    have hdep : DependsOn (prodT φ (N.erase v)) ((N.erase v).flatMap (fun u => u :: pa u)) :=
      DependsOn.prodT (sc := fun u => u :: pa u) hM.scope
    have h1 : ∀ b, sumOver D [v] (prodT φ N) b = prodT φ (N.erase v) b := by
      intro b
      have : ∀ c, prodT φ N c = prodT φ (N.erase v) c * φ v c := by
        intro c
        rw [prodT_perm φ hperm, prodT_append, prodT_cons, prodT_nil, mul_one]
      rw [sumOver_congr' this, sumOver_mul_left hdep (by simpa using hvM)]
      rw [sumOver_cons]
      simp only [sumOver_nil]
      rw [h.norm v hv, mul_one]
    rw [sumOver_congr' h1]
    exact ih hM (by rw [List.length_erase_of_mem hv, hn]; rfl)

/-- Nodes on which no other table depends can be summed out (barren nodes). -/
theorem Tables.sum_barren {pa : V → List V} {φ : V → (V → S) → K} {M R : List V} (h : Tables D pa φ (M ++ R))
    (hc : ∀ v ∈ R, ∀ p ∈ pa v, p ∉ M) (a : V → S) :
    sumOver D M (prodT φ (M ++ R)) a = prodT φ R a := by
  have hnd := List.nodup_append'.1 h.nodup
  have hM : Tables D pa φ M := h.sublist hnd.1 fun v hv => List.mem_append_left _ hv
  have hR : Tables D pa φ R := h.sublist hnd.2.1 fun v hv => List.mem_append_right _ hv
  have : ∀ b, prodT φ (M ++ R) b = prodT φ M b * prodT φ R b := prodT_append φ M R
  rw [sumOver_congr' this, sumOver_mul_right (vs := R.flatMap fun u => u :: pa u)
    (DependsOn.prodT (sc := fun u => u :: pa u) hR.scope), hM.sum_one, one_mul]
  intro v hv hvR
  obtain ⟨u, hu, hvu⟩ := List.mem_flatMap.1 hvR
  rcases List.mem_cons.1 hvu with e | hvu
  · subst e; exact hnd.2.2 hv hu
  · exact hc u hu v hvu hv

end
end Verif
