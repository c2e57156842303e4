import Verif.Net.CfProb
import Verif.Inference.QueryLemmas
import Verif.Learn.EMData
import Mathlib.Analysis.SpecialFunctions.Log.Basic
import Mathlib.Algebra.Order.CompleteField

/-!
# Why expectation maximisation raises the likelihood
-/

set_option linter.unusedSectionVars false
set_option linter.unusedSimpArgs false

namespace Verif
open Real

variable {V S : Type} [DecidableEq V] [DecidableEq S]

theorem log_list_prod {l : List ℝ} (h : ∀ x ∈ l, x ≠ 0) : log l.prod = (l.map log).sum := by
  induction l with
  | nil => simp
  | cons x l ih =>
    rw [List.prod_cons, List.map_cons, List.sum_cons, log_mul (h x List.mem_cons_self), ih fun y hy => h y (List.mem_cons_of_mem _ hy)]
    exact List.prod_ne_zero fun hc => h 0 (List.mem_cons_of_mem _ hc) rfl

theorem sum_map_sub' {X : Type} (l : List X) (p q : X → ℝ) : (l.map fun x => p x - q x).sum = (l.map p).sum - (l.map q).sum := by
  induction l with
  | nil => simp
  | cons x l ih => simp only [List.map_cons, List.sum_cons, ih]; ring

/-- Gibbs' inequality -/
theorem gibbs {X : Type} (l : List X) (p q : X → ℝ) (hp : ∀ x ∈ l, 0 ≤ p x) (hq : ∀ x ∈ l, 0 ≤ q x)
    (hpq : ∀ x ∈ l, 0 < p x → 0 < q x) (hs : (l.map q).sum ≤ (l.map p).sum) :
    0 ≤ (l.map fun x => p x * log (p x / q x)).sum := by
  have h : ∀ x ∈ l, p x - q x ≤ p x * log (p x / q x) := by
    intro x hx
    rcases (hp x hx).eq_or_lt with h0 | h0
    · rw [← h0]; simpa using hq x hx
    · have hqx := hpq x hx h0
      have h1 : log (q x / p x) ≤ q x / p x - 1 := log_le_sub_one_of_pos (div_pos hqx h0)
      have h2 : log (p x / q x) = - log (q x / p x) := by rw [← log_inv, inv_div]
      have h3 : p x * (q x / p x) = q x := mul_div_cancel₀ _ h0.ne'
      rw [h2]
      nlinarith
  have h2 : (l.map fun x => p x - q x).sum ≤ (l.map fun x => p x * log (p x / q x)).sum := List.sum_le_sum h
  rw [sum_map_sub'] at h2
  linarith

theorem sumOver_add' {D : V → List S} (xs : List V) (f g : (V → S) → ℝ) (a : V → S) :
    sumOver D xs (fun b => f b + g b) a = sumOver D xs f a + sumOver D xs g a := by
  induction xs generalizing a with
  | nil => rfl
  | cons x xs ih => simp only [sumOver_cons, ih, List.sum_map_add]

theorem sumOver_mono' {D : V → List S} {xs : List V} (hx : xs.Nodup) {f g : (V → S) → ℝ} {a : V → S}
    (h : ∀ b, (∀ v, v ∉ xs → b v = a v) → (∀ v ∈ xs, b v ∈ D v) → f b ≤ g b) : sumOver D xs f a ≤ sumOver D xs g a := by
  have e : sumOver D xs g a = sumOver D xs f a + sumOver D xs (fun b => g b - f b) a := by
    rw [← sumOver_add']
    exact sumOver_congr' (fun b => by ring) a
  have : 0 ≤ sumOver D xs (fun b => g b - f b) a := sumOver_nonneg hx fun b h1 h2 => sub_nonneg.2 (h b h1 h2)
  linarith

theorem sumOver_const_mul {D : V → List S} (xs : List V) (f : (V → S) → ℝ) (c : ℝ) (a : V → S) :
    sumOver D xs (fun b => f b * c) a = sumOver D xs f a * c :=
  sumOver_mul_right (vs := []) (g := fun _ => c) (fun _ _ _ => rfl) (by simp) a

theorem sumOver_list_sum {D : V → List S} {X : Type} (xs : List V) (l : List X) (f : X → (V → S) → ℝ) (a : V → S) :
    sumOver D xs (fun b => (l.map fun x => f x b).sum) a = (l.map fun x => sumOver D xs (f x) a).sum := by
  induction l with
  | nil => simpa using sumOver_zero xs a
  | cons x l ih =>
    simp only [List.map_cons, List.sum_cons]
    rw [sumOver_add', ih]

/-- The gain for one record. -/
theorem row_bound {B B' : BN V S ℝ} (hB : B.Valid) (hnn : B.NonNeg) (hnn' : B'.NonNeg) (hB' : B'.Valid) (hn : B'.nodes = B.nodes) (hst : B'.states = B.states)
    {O : List V} {a : V → S} (ha : B.InStates a) (h0 : 0 < B.joint a)
    (hpos : ∀ b, B.InStates b → (∀ w ∈ O, b w = a w) → 0 < B.joint b → 0 < B'.joint b) :
    sumOver B.states (B.nodes.filter (· ∉ O)) (fun b => B.joint b * (B.nodes.map fun v => log (B'.table v b / B.table v b)).sum) a ≤
      B.marg O a * (log (B'.marg O a) - log (B.marg O a)) := by
  have ha' : B'.InStates a := by intro v hv; rw [hst]; exact ha v (hn ▸ hv)
  have hZ : 0 < B.marg O a := BN.marg_pos hB hnn O ha h0
  have hZ' : 0 < B'.marg O a := BN.marg_pos hB' hnn' O ha' (hpos a ha (fun _ _ => rfl) h0)
  set m := B'.marg O a / B.marg O a with hm
  have hmp : 0 < m := div_pos hZ' hZ
  have key : ∀ b, (∀ v, v ∉ B.nodes.filter (· ∉ O) → b v = a v) → (∀ v ∈ B.nodes.filter (· ∉ O), b v ∈ B.states v) →
      B.joint b * (B.nodes.map fun v => log (B'.table v b / B.table v b)).sum ≤ B.joint b * (log m - 1) + B'.joint b * m⁻¹ := by
    intro b h1 h2
    have hb : B.InStates b := by
      intro v hv
      by_cases h : v ∈ B.nodes.filter (· ∉ O)
      · exact h2 v h
      · rw [h1 v h]; exact ha v hv
    have hb' : B'.InStates b := by intro v hv; rw [hst]; exact hb v (hn ▸ hv)
    have hbO : ∀ w ∈ O, b w = a w := fun w hw => h1 w fun hc => by
      have := (List.mem_filter.1 hc).2
      simp [hw] at this
    have j0 : 0 ≤ B.joint b := hnn.joint hb
    have j1 : 0 ≤ B'.joint b := hnn'.joint hb'
    rcases j0.eq_or_lt with h | h
    · rw [← h]
      have := mul_nonneg j1 (inv_pos.2 hmp).le
      linarith
    · have hp := hpos b hb hbO h
      have ht : ∀ v ∈ B.nodes, B.table v b ≠ 0 := fun v hv hc =>
        h.ne' (List.prod_eq_zero (List.mem_map.2 ⟨v, hv, hc⟩))
      have ht' : ∀ v ∈ B.nodes, B'.table v b ≠ 0 := fun v hv hc =>
        hp.ne' (List.prod_eq_zero (List.mem_map.2 ⟨v, hn ▸ hv, hc⟩))
      have e : (B.nodes.map fun v => log (B'.table v b / B.table v b)).sum = log (B'.joint b) - log (B.joint b) := by
        rw [BN.joint, BN.joint, hn, log_list_prod, log_list_prod, List.map_map, List.map_map, ← sum_map_sub']
        · congr 1
          exact List.map_congr_left fun v hv => log_div (ht' v hv) (ht v hv)
        · intro x hx; obtain ⟨v, hv, rfl⟩ := List.mem_map.1 hx; exact ht v hv
        · intro x hx; obtain ⟨v, hv, rfl⟩ := List.mem_map.1 hx; exact ht' v hv
      rw [e]
      have h3 : log (B'.joint b / (B.joint b * m)) ≤ B'.joint b / (B.joint b * m) - 1 :=
        log_le_sub_one_of_pos (div_pos hp (mul_pos h hmp))
      rw [log_div hp.ne' (mul_pos h hmp).ne', log_mul h.ne' hmp.ne'] at h3
      have h4 : B.joint b * (B'.joint b / (B.joint b * m)) = B'.joint b * m⁻¹ := by
        field_simp
      nlinarith
  refine (sumOver_mono' (hB.nodes.filter _) key).trans ?_
  rw [sumOver_add', sumOver_const_mul, sumOver_const_mul]
  have e1 : sumOver B.states (B.nodes.filter (· ∉ O)) B.joint a = B.marg O a := rfl
  have e2 : sumOver B.states (B.nodes.filter (· ∉ O)) B'.joint a = B'.marg O a := by rw [BN.marg, hn, hst]
  have e3 : B'.marg O a * m⁻¹ = B.marg O a := by
    rw [hm]; field_simp
  rw [e1, e2, e3, hm, log_div hZ'.ne' hZ.ne']
  apply le_of_eq
  ring

/-- Summing over a hidden node. -/
theorem weight_split {B : BN V S ℝ} (hB : B.Valid) {O : List V} {v : V} (hv : v ∈ B.nodes) (hvO : v ∉ O) {g : (V → S) → ℝ}
    (hg : DependsOn g [v]) (a : V → S) : sumOver B.states (B.nodes.filter (· ∉ O)) (fun b => B.joint b * g b) a =
      ((B.states v).map fun s => g (upd a v s) * B.marg (v :: O) (upd a v s)).sum := by
  have hp : (B.nodes.filter (· ∉ O)).Perm (v :: B.nodes.filter (· ∉ v :: O)) := by
    rw [List.perm_ext_iff_of_nodup (hB.nodes.filter _) (List.nodup_cons.2 ⟨by simp, hB.nodes.filter _⟩)]
    intro w
    simp only [List.mem_filter, List.mem_cons, decide_eq_true_eq, not_or]
    by_cases h : w = v
    · subst h; simp [hv, hvO]
    · simp [h]
  rw [sumOver_perm hp (hB.nodes.filter _), sumOver_cons]
  congr 1
  refine List.map_congr_left fun s _ => ?_
  rw [sumOver_mul_right hg (by intro w hw; have := (List.mem_filter.1 hw).2; simp at this; simpa using this.1), mul_comm]
  rfl

/-- What the likelihood gains when tables of hidden roots become the means of the posteriors. The records are
pairs of the observed variables and a possible assignment with the observed values. -/
theorem em_gain {B B' : BN V S ℝ} (hB : B.Valid) (hB' : B'.Valid) (hnn : B.NonNeg)
    (hnn' : B'.NonNeg) (hn : B'.nodes = B.nodes) (hst : B'.states = B.states) {vs : List V} (hroot : ∀ v ∈ vs, B.parents v = [])
    (hroot' : ∀ v ∈ vs, B'.parents v = [])
    (hsame : ∀ v ∈ B.nodes, v ∉ vs → B'.table v = B.table v) {rows : List (List V × (V → S))} (hne : rows ≠ []) {a0 : V → S} (ha0 : B.InStates a0)
    (hrow : ∀ r ∈ rows, B.InStates r.2 ∧ 0 < B.joint r.2 ∧ ∀ v ∈ vs, v ∉ r.1)
    (hnew : ∀ v ∈ vs, ∀ b, B.InStates b →
      B'.table v b * (rows.length : ℝ) = (rows.map fun r => B.marg (v :: r.1) (upd r.2 v (b v)) / B.marg r.1 r.2).sum) :
    (B.nodes.map fun v => if v ∈ vs then (rows.length : ℝ) * ((B.states v).map fun s =>
      B'.table v (upd a0 v s) * log (B'.table v (upd a0 v s) / B.table v (upd a0 v s))).sum else 0).sum ≤
      (rows.map fun r => log (B'.marg r.1 r.2)).sum - (rows.map fun r => log (B.marg r.1 r.2)).sum := by
  have hn0 : (0 : ℝ) < rows.length := Nat.cast_pos.2 (List.length_pos_iff.2 hne)
  have upd_in : ∀ {a : V → S} {v : V} {s : S}, B.InStates a → s ∈ B.states v → B.InStates (upd a v s) := by
    intro a v s ha hs w hw
    by_cases h : w = v
    · subst h; rw [upd_same]; exact hs
    · rw [upd_ne _ _ h]; exact ha w hw
  have dep : ∀ v ∈ vs, v ∈ B.nodes → DependsOn (B.table v) [v] := by
    intro v hv hvn; have := hB.scope v hvn; rwa [hroot v hv] at this
  have dep' : ∀ v ∈ vs, v ∈ B.nodes → DependsOn (B'.table v) [v] := by
    intro v hv hvn; have := hB'.scope v (hn ▸ hvn); rwa [hroot' v hv] at this
  let g : V → (V → S) → ℝ := fun v b => log (B'.table v b / B.table v b)
  have gdep : ∀ v ∈ vs, v ∈ B.nodes → DependsOn (g v) [v] := by
    intro v hv hvn a b hab
    show log _ = log _
    rw [dep v hv hvn a b hab, dep' v hv hvn a b hab]
  have g0 : ∀ v ∈ B.nodes, v ∉ vs → ∀ b, g v b = 0 := by
    intro v hv hvs b
    show log _ = 0
    rw [hsame v hv hvs]
    by_cases h : B.table v b = 0
    · rw [h]; simp
    · rw [div_self h, log_one]
  let w : List V × (V → S) → V → S → ℝ := fun r v s => B.marg (v :: r.1) (upd r.2 v s) / B.marg r.1 r.2
  have w0 : ∀ r ∈ rows, ∀ v ∈ B.nodes, ∀ s ∈ B.states v, 0 ≤ w r v s := by
    intro r hr v hv s hs
    obtain ⟨h1, h2, h3⟩ := hrow r hr
    exact div_nonneg (BN.marg_nonneg hB hnn fun x _ hx => upd_in h1 hs x hx) (BN.marg_nonneg hB hnn fun x _ hx => h1 x hx)
  -- the new tables are positive on possible completions
  have tpos : ∀ r ∈ rows, ∀ b, B.InStates b → (∀ x ∈ r.1, b x = r.2 x) → 0 < B.joint b → ∀ v ∈ vs, v ∈ B.nodes → 0 < B'.table v b := by
    intro r hr b hb hbO hj v hv hvn
    obtain ⟨h1, h2, h3⟩ := hrow r hr
    have e := hnew v hv b hb
    have hp : 0 < w r v (b v) := by
      refine div_pos ?_ (BN.marg_pos hB hnn _ h1 h2)
      have : B.marg (v :: r.1) (upd r.2 v (b v)) = B.marg (v :: r.1) b := by
        refine hB.marg_dep _ _ _ fun x hx => ?_
        by_cases hxv : x = v
        · subst hxv; rw [upd_same]
        · rw [upd_ne _ _ hxv, hbO x ((List.mem_cons.1 hx).resolve_left hxv)]
      rw [this]
      exact BN.marg_pos hB hnn _ hb hj
    have : 0 < (rows.map fun r => w r v (b v)).sum := by
      refine lt_of_lt_of_le hp (List.single_le_sum ?_ _ (List.mem_map.2 ⟨r, hr, rfl⟩))
      intro x hx
      obtain ⟨r', hr', rfl⟩ := List.mem_map.1 hx
      exact w0 r' hr' v hvn _ (hb v hvn)
    rw [← show B'.table v b * (rows.length : ℝ) = _ from e] at this
    exact (pos_iff_pos_of_mul_pos this).2 hn0
  have jpos : ∀ r ∈ rows, ∀ b, B.InStates b → (∀ x ∈ r.1, b x = r.2 x) → 0 < B.joint b → 0 < B'.joint b := by
    intro r hr b hb hbO hj
    refine List.prod_pos fun x hx => ?_
    obtain ⟨v, hv, rfl⟩ := List.mem_map.1 hx
    rw [hn] at hv
    by_cases hvs : v ∈ vs
    · exact tpos r hr b hb hbO hj v hvs hv
    · rw [hsame v hv hvs]
      exact lt_of_le_of_ne (hnn v hv b hb) fun e => hj.ne' (List.prod_eq_zero (List.mem_map.2 ⟨v, hv, e.symm⟩))
  -- one record
  have one : ∀ r ∈ rows, (B.nodes.map fun v => if v ∈ vs then ((B.states v).map fun s => g v (upd a0 v s) * w r v s).sum else 0).sum ≤
      log (B'.marg r.1 r.2) - log (B.marg r.1 r.2) := by
    intro r hr
    obtain ⟨h1, h2, h3⟩ := hrow r hr
    have hZ := BN.marg_pos hB hnn r.1 h1 h2
    have hb := row_bound hB hnn hnn' hB' hn hst h1 h2 (jpos r hr)
    have e : sumOver B.states (B.nodes.filter (· ∉ r.1)) (fun b => B.joint b * (B.nodes.map fun v => log (B'.table v b / B.table v b)).sum) r.2
        = B.marg r.1 r.2 * (B.nodes.map fun v => if v ∈ vs then ((B.states v).map fun s => g v (upd a0 v s) * w r v s).sum else 0).sum := by
      simp only [← List.sum_map_mul_left]
      rw [sumOver_list_sum]
      congr 1
      refine List.map_congr_left fun v hv => ?_
      by_cases hvs : v ∈ vs
      · rw [if_pos hvs, weight_split hB hv (h3 v hvs) (gdep v hvs hv), ← List.sum_map_mul_left]
        congr 1
        refine List.map_congr_left fun s _ => ?_
        have : g v (upd r.2 v s) = g v (upd a0 v s) := gdep v hvs hv _ _ (by intro x hx; obtain rfl : x = v := by simpa using hx
                                                                             rw [upd_same, upd_same])
        rw [this]
        show _ = B.marg r.1 r.2 * (_ * (B.marg (v :: r.1) (upd r.2 v s) / B.marg r.1 r.2))
        field_simp
      · rw [if_neg hvs, mul_zero]
        rw [sumOver_congr' (g := fun _ => 0) fun b => by rw [show log (B'.table v b / B.table v b) = 0 from g0 v hv hvs b, mul_zero]]
        exact sumOver_zero _ _
    rw [e] at hb
    exact le_of_mul_le_mul_left hb hZ
  have := List.sum_le_sum one
  rw [sum_map_sub', sum_map_comm] at this
  refine le_trans (le_of_eq ?_) this
  congr 1
  refine List.map_congr_left fun v hv => ?_
  by_cases hvs : v ∈ vs
  · simp only [if_pos hvs]
    rw [sum_map_comm]
    have e : ∀ s ∈ B.states v, (rows.map fun r => g v (upd a0 v s) * w r v s).sum =
        (rows.length : ℝ) * (B'.table v (upd a0 v s) * log (B'.table v (upd a0 v s) / B.table v (upd a0 v s))) := by
      intro s hs
      rw [List.sum_map_mul_left]
      have := hnew v hvs (upd a0 v s) (upd_in ha0 hs)
      rw [upd_same] at this
      rw [show (rows.map fun r => w r v s).sum = B'.table v (upd a0 v s) * (rows.length : ℝ) from this.symm]
      show log _ * _ = _
      ring
    rw [List.map_congr_left e, List.sum_map_mul_left]
  · simp [hvs]

/-- States that the new table can have could be had before. -/
theorem em_support {K : Type} [Field K] [LinearOrder K] [IsStrictOrderedRing K] {B B' : BN V S K} (hB : B.Valid) (hnn : B.NonNeg) {v : V} (hv : v ∈ B.nodes)
    (hroot : B.parents v = []) {rows : List (List V × (V → S))} (hne : rows ≠ []) {b : V → S} (hb : B.InStates b)
    (hnew : B'.table v b * (rows.length : K) = (rows.map fun r => B.marg (v :: r.1) (upd r.2 v (b v)) / B.marg r.1 r.2).sum)
    (hp : 0 < B'.table v b) : 0 < B.table v b := by
  have hn0 : (0 : K) < rows.length := Nat.cast_pos.2 (List.length_pos_iff.2 hne)
  have dep : DependsOn (B.table v) [v] := by have := hB.scope v hv; rwa [hroot] at this
  refine lt_of_le_of_ne (hnn v hv _ hb) fun hz => ?_
  have : (rows.map fun r => B.marg (v :: r.1) (upd r.2 v (b v)) / B.marg r.1 r.2).sum = 0 := by
    refine List.sum_eq_zero fun x hx => ?_
    obtain ⟨r, hr, rfl⟩ := List.mem_map.1 hx
    have : B.marg (v :: r.1) (upd r.2 v (b v)) = 0 := by
      rw [BN.marg, sumOver_congr (hB.nodes.filter _) (g := fun _ => 0)]
      · exact sumOver_zero _ _
      · intro c hc _
        refine List.prod_eq_zero (List.mem_map.2 ⟨v, hv, ?_⟩)
        rw [hz]
        refine dep _ _ fun x hx => ?_
        obtain rfl : x = v := by simpa using hx
        rw [hc x (by simp), upd_same]
    rw [this, zero_div]
  rw [this] at hnew
  rcases mul_eq_zero.1 hnew with h | h
  · exact hp.ne' h
  · exact hn0.ne' h

/-- **Likelihood**: tables of hidden roots that are the means of the posteriors do not lower the likelihood. The records are
pairs of the observed variables and a possible assignment with the observed values. -/
theorem em_monotone {B B' : BN V S ℝ} (hB : B.Valid) (hB' : B'.Valid) (hno : B.Normalised) (hno' : B'.Normalised) (hnn : B.NonNeg)
    (hnn' : B'.NonNeg) (hn : B'.nodes = B.nodes) (hst : B'.states = B.states) {vs : List V} (hroot : ∀ v ∈ vs, B.parents v = [])
    (hroot' : ∀ v ∈ vs, B'.parents v = [])
    (hsame : ∀ v ∈ B.nodes, v ∉ vs → B'.table v = B.table v) {rows : List (List V × (V → S))} (hne : rows ≠ [])
    (hrow : ∀ r ∈ rows, B.InStates r.2 ∧ 0 < B.joint r.2 ∧ ∀ v ∈ vs, v ∉ r.1)
    (hnew : ∀ v ∈ vs, ∀ b, B.InStates b →
      B'.table v b * (rows.length : ℝ) = (rows.map fun r => B.marg (v :: r.1) (upd r.2 v (b v)) / B.marg r.1 r.2).sum) :
    (rows.map fun r => log (B.marg r.1 r.2)).sum ≤ (rows.map fun r => log (B'.marg r.1 r.2)).sum := by
  obtain ⟨r0, hr0⟩ := List.exists_mem_of_ne_nil _ hne
  set a0 := r0.2 with ha0
  have hn0 : (0 : ℝ) < rows.length := Nat.cast_pos.2 (List.length_pos_iff.2 hne)
  have upd_in : ∀ {a : V → S} {v : V} {s : S}, B.InStates a → s ∈ B.states v → B.InStates (upd a v s) := by
    intro a v s ha hs w hw
    by_cases h : w = v
    · subst h; rw [upd_same]; exact hs
    · rw [upd_ne _ _ h]; exact ha w hw
  have hgain := em_gain hB hB' hnn hnn' hn hst hroot hroot' hsame hne (hrow r0 hr0).1 hrow hnew
  refine sub_nonneg.1 (le_trans (List.sum_nonneg fun x hx => ?_) hgain)
  obtain ⟨v, hv, rfl⟩ := List.mem_map.1 hx
  by_cases hvs : v ∈ vs
  · simp only [if_pos hvs]
    refine mul_nonneg hn0.le (gibbs _ (fun s => B'.table v (upd a0 v s)) (fun s => B.table v (upd a0 v s)) ?_ ?_ ?_ ?_)
    · intro s hs
      refine hnn' v (hn ▸ hv) _ fun x hx => ?_
      rw [hst]; exact upd_in (hrow r0 hr0).1 hs x (hn ▸ hx)
    · intro s hs
      exact hnn v hv _ (upd_in (hrow r0 hr0).1 hs)
    · intro s hs hp
      exact em_support hB hnn hv (hroot v hvs) hne (upd_in (hrow r0 hr0).1 hs) (hnew v hvs _ (upd_in (hrow r0 hr0).1 hs)) hp
    · have h1 := hno v hv a0 (hrow r0 hr0).1
      have h2 := hno' v (hn ▸ hv) a0 (by intro x hx; rw [hst]; exact (hrow r0 hr0).1 x (hn ▸ hx))
      rw [hst] at h2
      exact (h1.trans h2.symm).le
  · simp [hvs]

/-! ### The same over any Archimedean field -/

section
variable {K : Type} [Field K] [LinearOrder K] [IsStrictOrderedRing K]

/-- The network with its tables mapped to the real numbers. -/
def BN.mapR (φ : K →+*o ℝ) (B : BN V S K) : BN V S ℝ := ⟨B.nodes, B.parents, B.states, fun v a => φ (B.table v a)⟩

theorem sumOver_map {L : Type} [Semiring L] (φ : K →+* L) (dom : V → List S) (vs : List V) (f : (V → S) → K) (a : V → S) :
    sumOver dom vs (fun b => φ (f b)) a = φ (sumOver dom vs f a) := by
  induction vs generalizing a with
  | nil => rfl
  | cons v vs ih =>
    rw [sumOver_cons, sumOver_cons, map_list_sum, List.map_map]
    congr 1
    exact List.map_congr_left fun s _ => ih _

theorem BN.joint_mapR (φ : K →+*o ℝ) (B : BN V S K) (a : V → S) : (B.mapR φ).joint a = φ (B.joint a) := by
  rw [BN.joint, BN.joint, map_list_prod, List.map_map]
  rfl

theorem BN.marg_mapR (φ : K →+*o ℝ) (B : BN V S K) (vs : List V) (a : V → S) : (B.mapR φ).marg vs a = φ (B.marg vs a) := by
  have : (B.mapR φ).joint = fun b => (φ : K →+* ℝ) (B.joint b) := funext fun b => B.joint_mapR φ b
  rw [BN.marg, BN.marg, this]
  exact sumOver_map _ _ _ _ _

theorem BN.Valid.mapR {B : BN V S K} (h : B.Valid) (φ : K →+*o ℝ) : (B.mapR φ).Valid :=
  ⟨h.nodes, h.parents, h.acyclic, h.nodupStates, h.nonempty, fun v hv a b hab => congrArg φ (h.scope v hv a b hab)⟩

theorem BN.Normalised.mapR {B : BN V S K} (h : B.Normalised) (φ : K →+*o ℝ) : (B.mapR φ).Normalised := by
  intro v hv a ha
  have := congrArg φ (h v hv a ha)
  rw [map_list_sum, List.map_map, map_one] at this
  exact this

theorem mapR_strictMono (φ : K →+*o ℝ) : StrictMono φ := φ.monotone'.strictMono_of_injective (φ : K →+* ℝ).injective

theorem BN.NonNeg.mapR {B : BN V S K} (h : B.NonNeg) (φ : K →+*o ℝ) : (B.mapR φ).NonNeg := fun v hv a ha => by
  have := φ.monotone' (h v hv a ha)
  rwa [show φ.toFun 0 = 0 from map_zero φ] at this

/-- **Likelihood** over an Archimedean field: the product of the probabilities. -/
theorem em_monotone_prod [Archimedean K] {B B' : BN V S K} (hB : B.Valid) (hB' : B'.Valid) (hno : B.Normalised) (hno' : B'.Normalised)
    (hnn : B.NonNeg) (hnn' : B'.NonNeg) (hn : B'.nodes = B.nodes) (hst : B'.states = B.states) {vs : List V}
    (hroot : ∀ v ∈ vs, B.parents v = []) (hroot' : ∀ v ∈ vs, B'.parents v = [])
    (hsame : ∀ v ∈ B.nodes, v ∉ vs → B'.table v = B.table v) {rows : List (List V × (V → S))} (hne : rows ≠ [])
    (hrow : ∀ r ∈ rows, B.InStates r.2 ∧ 0 < B.joint r.2 ∧ ∀ v ∈ vs, v ∉ r.1)
    (hnew : ∀ v ∈ vs, ∀ b, B.InStates b →
      B'.table v b * (rows.length : K) = (rows.map fun r => B.marg (v :: r.1) (upd r.2 v (b v)) / B.marg r.1 r.2).sum)
    (hpos : ∀ r ∈ rows, 0 < B.marg r.1 r.2) (hpos' : ∀ r ∈ rows, 0 < B'.marg r.1 r.2) :
    (rows.map fun r => B.marg r.1 r.2).prod ≤ (rows.map fun r => B'.marg r.1 r.2).prod := by
  let φ : K →+*o ℝ := LinearOrderedField.inducedOrderRingHom K ℝ
  have hφ := mapR_strictMono φ
  have p0 : ∀ {x : K}, 0 < x → 0 < φ x := fun {x} hx => by have := hφ hx; rwa [map_zero] at this
  have key := em_monotone (hB.mapR φ) (hB'.mapR φ) (hno.mapR φ) (hno'.mapR φ) (hnn.mapR φ) (hnn'.mapR φ) hn hst hroot hroot'
    (fun v hv h => by funext a; exact congrArg φ (congrFun (hsame v hv h) a)) hne
    (fun r hr => ⟨(hrow r hr).1, by rw [BN.joint_mapR]; exact p0 (hrow r hr).2.1, (hrow r hr).2.2⟩)
    (by
      intro v hv b hb
      have := congrArg φ (hnew v hv b hb)
      rw [map_mul, map_natCast, map_list_sum, List.map_map] at this
      rw [show (B'.mapR φ).table v b = φ (B'.table v b) from rfl, this]
      congr 1
      refine List.map_congr_left fun r _ => ?_
      show φ (_ / _) = _
      rw [map_div₀, BN.marg_mapR, BN.marg_mapR])
  rw [← hφ.le_iff_le, map_list_prod, map_list_prod, List.map_map, List.map_map]
  have e : ∀ C : BN V S K, (rows.map (φ ∘ fun r => C.marg r.1 r.2)) = rows.map fun r => (C.mapR φ).marg r.1 r.2 := by
    intro C
    exact List.map_congr_left fun r _ => (BN.marg_mapR φ C r.1 r.2).symm
  rw [e, e]
  have q1 : ∀ x ∈ rows.map fun r => (B.mapR φ).marg r.1 r.2, 0 < x := by
    intro x hx; obtain ⟨r, hr, rfl⟩ := List.mem_map.1 hx; rw [BN.marg_mapR]; exact p0 (hpos r hr)
  have q2 : ∀ x ∈ rows.map fun r => (B'.mapR φ).marg r.1 r.2, 0 < x := by
    intro x hx; obtain ⟨r, hr, rfl⟩ := List.mem_map.1 hx; rw [BN.marg_mapR]; exact p0 (hpos' r hr)
  rw [← log_le_log_iff (List.prod_pos q1) (List.prod_pos q2), log_list_prod fun x hx => (q1 x hx).ne',
    log_list_prod fun x hx => (q2 x hx).ne', List.map_map, List.map_map]
  exact key

end
end Verif
