import Verif.Net.Gibbs

/-!
# Tables that expectation maximisation leaves as they are

No reference to the code: a table of a hidden root is compared with the mean of its posteriors.
-/

set_option linter.unusedSectionVars false
set_option linter.unusedSimpArgs false

namespace Verif
open Real

/-- Gibbs' inequality, when the two are different -/
theorem gibbs_strict {X : Type} (l : List X) (p q : X → ℝ) (hp : ∀ x ∈ l, 0 ≤ p x) (hq : ∀ x ∈ l, 0 ≤ q x)
    (hpq : ∀ x ∈ l, 0 < p x → 0 < q x) (hs : (l.map q).sum ≤ (l.map p).sum) (hne : ∃ x ∈ l, p x ≠ q x) :
    0 < (l.map fun x => p x * log (p x / q x)).sum := by
  have h : ∀ x ∈ l, p x - q x ≤ p x * log (p x / q x) ∧ (p x ≠ q x → p x - q x < p x * log (p x / q x)) := by
    intro x hx
    rcases (hp x hx).eq_or_lt with h0 | h0
    · rw [← h0]
      refine ⟨by simpa using hq x hx, fun hne => ?_⟩
      simpa using lt_of_le_of_ne (hq x hx) hne
    · have hq0 := hpq x hx h0
      have e : log (p x / q x) = - log (q x / p x) := by rw [log_div h0.ne' hq0.ne', log_div hq0.ne' h0.ne']; ring
      have e2 : p x * (q x / p x) = q x := by field_simp
      refine ⟨?_, fun hne => ?_⟩
      · have := log_le_sub_one_of_pos (div_pos hq0 h0)
        rw [e]; nlinarith
      · have := log_lt_sub_one_of_pos (div_pos hq0 h0) fun h1 => hne ((div_eq_one_iff_eq h0.ne').1 h1).symm
        rw [e]; nlinarith
  have hlt : (l.map fun x => p x - q x).sum < (l.map fun x => p x * log (p x / q x)).sum := by
    obtain ⟨x, hx, hne⟩ := hne
    exact List.sum_lt_sum _ _ (fun y hy => (h y hy).1) ⟨x, hx, (h x hx).2 hne⟩
  rw [sum_map_sub'] at hlt
  linarith

section
variable {V S : Type} [DecidableEq V] [DecidableEq S]

/-- A table of a hidden root that is not the mean of its posteriors: replacing it raises the likelihood. -/
theorem em_strict {B B' : BN V S ℝ} (hB : B.Valid) (hB' : B'.Valid) (hno : B.Normalised) (hno' : B'.Normalised) (hnn : B.NonNeg)
    (hnn' : B'.NonNeg) (hn : B'.nodes = B.nodes) (hst : B'.states = B.states) {v : V} (hv : v ∈ B.nodes) (hroot : B.parents v = [])
    (hroot' : B'.parents v = []) (hsame : ∀ w ∈ B.nodes, w ≠ v → B'.table w = B.table w) {rows : List (List V × (V → S))} (hne : rows ≠ [])
    (hrow : ∀ r ∈ rows, B.InStates r.2 ∧ 0 < B.joint r.2 ∧ v ∉ r.1)
    (hnew : ∀ b, B.InStates b →
      B'.table v b * (rows.length : ℝ) = (rows.map fun r => B.marg (v :: r.1) (upd r.2 v (b v)) / B.marg r.1 r.2).sum)
    (hdiff : ∃ b, B.InStates b ∧ B'.table v b ≠ B.table v b) :
    (rows.map fun r => log (B.marg r.1 r.2)).sum < (rows.map fun r => log (B'.marg r.1 r.2)).sum := by
  obtain ⟨a0, ha0, hd⟩ := hdiff
  have hn0 : (0 : ℝ) < rows.length := Nat.cast_pos.2 (List.length_pos_iff.2 hne)
  have upd_in : ∀ {a : V → S} {s : S}, B.InStates a → s ∈ B.states v → B.InStates (upd a v s) := by
    intro a s ha hs w hw
    by_cases h : w = v
    · subst h; rw [upd_same]; exact hs
    · rw [upd_ne _ _ h]; exact ha w hw
  have hgain := em_gain hB hB' hnn hnn' hn hst (vs := [v]) (by simpa using hroot) (by simpa using hroot')
    (fun w hw hwv => hsame w hw (by simpa using hwv)) hne ha0 (by simpa using hrow) (by simpa using hnew)
  refine sub_pos.1 (lt_of_lt_of_le ?_ hgain)
  have hpos : 0 < (rows.length : ℝ) * ((B.states v).map fun s =>
      B'.table v (upd a0 v s) * log (B'.table v (upd a0 v s) / B.table v (upd a0 v s))).sum := by
    refine mul_pos hn0 (gibbs_strict _ (fun s => B'.table v (upd a0 v s)) (fun s => B.table v (upd a0 v s)) ?_ ?_ ?_ ?_ ?_)
    · intro s hs
      refine hnn' v (hn ▸ hv) _ fun x hx => ?_
      rw [hst]; exact upd_in ha0 hs x (hn ▸ hx)
    · intro s hs
      exact hnn v hv _ (upd_in ha0 hs)
    · intro s hs hp
      exact em_support hB hnn hv hroot hne (upd_in ha0 hs) (hnew _ (upd_in ha0 hs)) hp
    · have h1 := hno v hv a0 ha0
      have h2 := hno' v (hn ▸ hv) a0 (by intro x hx; rw [hst]; exact ha0 x (hn ▸ hx))
      rw [hst] at h2
      exact (h1.trans h2.symm).le
    · exact ⟨a0 v, ha0 v hv, by rw [upd_self]; exact hd⟩
  refine lt_of_lt_of_le hpos (le_of_eq ?_)
  have e : ∀ l : List V, l.Nodup → v ∈ l → ∀ c : ℝ, (l.map fun w => if w ∈ [v] then c else 0).sum = c := by
    intro l hl hvl c
    rw [sum_map_single (s := v) hl hvl]
    · simp
    · intro t _ ht; simp [ht]
  refine (e B.nodes hB.nodes hv _).symm.trans ?_
  congr 1
  refine List.map_congr_left fun w hw => ?_
  by_cases hwv : w = v
  · subst hwv; simp
  · simp [hwv]

end

section
variable {K : Type} [Field K] [LinearOrder K] [IsStrictOrderedRing K] [Archimedean K]

/-- Numbers with mean at most one have a product at most one. -/
theorem prod_le_one_of_sum {l : List K} (h0 : ∀ x ∈ l, 0 ≤ x) (hs : l.sum ≤ l.length) : l.prod ≤ 1 := by
  let φ : K →+*o ℝ := LinearOrderedField.inducedOrderRingHom K ℝ
  have hφ := mapR_strictMono φ
  rw [← hφ.le_iff_le, map_list_prod, map_one]
  have key : ∀ l : List K, (∀ x ∈ l, 0 ≤ x) → (l.map φ).prod ≤ Real.exp (φ l.sum - l.length) ∧ 0 ≤ (l.map φ).prod := by
    intro l
    induction l with
    | nil => intro _; simp
    | cons x l ih =>
      intro h
      obtain ⟨h1, h2⟩ := ih fun y hy => h y (List.mem_cons_of_mem _ hy)
      have hx : 0 ≤ φ x := by have := φ.monotone' (h x List.mem_cons_self); rwa [show φ.toFun 0 = 0 from map_zero φ] at this
      refine ⟨?_, by rw [List.map_cons, List.prod_cons]; exact mul_nonneg hx h2⟩
      have hle : φ x ≤ Real.exp (φ x - 1) := by have := Real.add_one_le_exp (φ x - 1); linarith
      rw [List.map_cons, List.prod_cons, List.sum_cons, map_add, List.length_cons]
      have e : φ x + φ l.sum - ((l.length + 1 : ℕ) : ℝ) = (φ x - 1) + (φ l.sum - l.length) := by push_cast; ring
      rw [e, Real.exp_add]
      exact mul_le_mul hle h1 h2 (Real.exp_pos _).le
  refine (key l h0).1.trans ?_
  rw [Real.exp_le_one_iff]
  have := φ.monotone' hs
  have e : φ.toFun (l.length : K) = (l.length : ℝ) := map_natCast φ _
  rw [e] at this
  exact sub_nonpos.2 this

variable {V S : Type} [DecidableEq V] [DecidableEq S]

/-- Changing the table of one node. -/
theorem joint_change {B C : BN V S K} (hB : B.Valid) (hn : C.nodes = B.nodes) {v : V} (hv : v ∈ B.nodes)
    (hsame : ∀ w ∈ B.nodes, w ≠ v → C.table w = B.table w) (b : V → S) : C.joint b * B.table v b = B.joint b * C.table v b := by
  have e : ∀ f : V → K, (B.nodes.map f).prod = f v * ((B.nodes.erase v).map f).prod := fun f => by
    rw [((List.perm_cons_erase hv).map f).prod_eq, List.map_cons, List.prod_cons]
  have e2 : ((B.nodes.erase v).map fun w => C.table w b) = (B.nodes.erase v).map fun w => B.table w b := by
    refine List.map_congr_left fun w hw => ?_
    have := (hB.nodes.mem_erase_iff).1 hw
    rw [hsame w this.2 this.1]
  rw [BN.joint, BN.joint, hn, e, e, e2]
  ring

/-- A table of a hidden root that is not the mean of its posteriors, over an Archimedean field -/
theorem em_strict_prod {B B' : BN V S K} (hB : B.Valid) (hB' : B'.Valid) (hno : B.Normalised) (hno' : B'.Normalised) (hnn : B.NonNeg)
    (hnn' : B'.NonNeg) (hn : B'.nodes = B.nodes) (hst : B'.states = B.states) {v : V} (hv : v ∈ B.nodes) (hroot : B.parents v = [])
    (hroot' : B'.parents v = []) (hsame : ∀ w ∈ B.nodes, w ≠ v → B'.table w = B.table w) {rows : List (List V × (V → S))} (hne : rows ≠ [])
    (hrow : ∀ r ∈ rows, B.InStates r.2 ∧ 0 < B.joint r.2 ∧ v ∉ r.1)
    (hnew : ∀ b, B.InStates b →
      B'.table v b * (rows.length : K) = (rows.map fun r => B.marg (v :: r.1) (upd r.2 v (b v)) / B.marg r.1 r.2).sum)
    (hpos : ∀ r ∈ rows, 0 < B.marg r.1 r.2) (hpos' : ∀ r ∈ rows, 0 < B'.marg r.1 r.2)
    (hdiff : ∃ b, B.InStates b ∧ B'.table v b ≠ B.table v b) :
    (rows.map fun r => B.marg r.1 r.2).prod < (rows.map fun r => B'.marg r.1 r.2).prod := by
  let φ : K →+*o ℝ := LinearOrderedField.inducedOrderRingHom K ℝ
  have hφ := mapR_strictMono φ
  have p0 : ∀ {x : K}, 0 < x → 0 < φ x := fun {x} hx => by have := hφ hx; rwa [map_zero] at this
  have key := em_strict (hB.mapR φ) (hB'.mapR φ) (hno.mapR φ) (hno'.mapR φ) (hnn.mapR φ) (hnn'.mapR φ) hn hst hv hroot hroot'
    (fun w hw h => by funext a; exact congrArg φ (congrFun (hsame w hw h) a)) hne
    (fun r hr => ⟨(hrow r hr).1, by rw [BN.joint_mapR]; exact p0 (hrow r hr).2.1, (hrow r hr).2.2⟩)
    (by
      intro b hb
      have := congrArg φ (hnew b hb)
      rw [map_mul, map_natCast, map_list_sum, List.map_map] at this
      rw [show (B'.mapR φ).table v b = φ (B'.table v b) from rfl, this]
      congr 1
      refine List.map_congr_left fun r _ => ?_
      show φ (_ / _) = _
      rw [map_div₀, BN.marg_mapR, BN.marg_mapR])
    (by
      obtain ⟨b, b1, b2⟩ := hdiff
      exact ⟨b, b1, fun e => b2 (hφ.injective e)⟩)
  rw [← hφ.lt_iff_lt, map_list_prod, map_list_prod, List.map_map, List.map_map]
  have e : ∀ C : BN V S K, (rows.map (φ ∘ fun r => C.marg r.1 r.2)) = rows.map fun r => (C.mapR φ).marg r.1 r.2 := by
    intro C
    exact List.map_congr_left fun r _ => (BN.marg_mapR φ C r.1 r.2).symm
  rw [e, e]
  have q1 : ∀ x ∈ rows.map fun r => (B.mapR φ).marg r.1 r.2, 0 < x := by
    intro x hx; obtain ⟨r, hr, rfl⟩ := List.mem_map.1 hx; rw [BN.marg_mapR]; exact p0 (hpos r hr)
  have q2 : ∀ x ∈ rows.map fun r => (B'.mapR φ).marg r.1 r.2, 0 < x := by
    intro x hx; obtain ⟨r, hr, rfl⟩ := List.mem_map.1 hx; rw [BN.marg_mapR]; exact p0 (hpos' r hr)
  rw [← log_lt_log_iff (List.prod_pos q1) (List.prod_pos q2), log_list_prod fun x hx => (q1 x hx).ne',
    log_list_prod fun x hx => (q2 x hx).ne', List.map_map, List.map_map]
  exact key

/-- Changing the table of a root, for the marginals that contain it. -/
theorem marg_change {B C : BN V S K} (hB : B.Valid) (hC : C.Valid) (hn : C.nodes = B.nodes) (hst : C.states = B.states) {v : V} (hv : v ∈ B.nodes)
    (hroot : B.parents v = []) (hroot' : C.parents v = []) (hsame : ∀ w ∈ B.nodes, w ≠ v → C.table w = B.table w) (W : List V) (a : V → S)
    (hz : B.table v a ≠ 0) : C.marg (v :: W) a = C.table v a / B.table v a * B.marg (v :: W) a := by
  have depB : DependsOn (B.table v) [v] := by have := hB.scope v hv; rwa [hroot] at this
  have depC : DependsOn (C.table v) [v] := by have := hC.scope v (hn ▸ hv); rwa [hroot'] at this
  rw [BN.marg, BN.marg, hn, hst, sumOver_congr (hB.nodes.filter _) (g := fun b => C.table v a / B.table v a * B.joint b)]
  · exact sumOver_mul_left (vs := []) (g := fun _ => C.table v a / B.table v a) (fun _ _ _ => rfl) (by simp) _
  · intro b hb _
    have e1 : B.table v b = B.table v a := depB _ _ fun x hx => hb x (by rw [List.mem_singleton.1 hx]; simp)
    have e2 : C.table v b = C.table v a := depC _ _ fun x hx => hb x (by rw [List.mem_singleton.1 hx]; simp)
    have key := joint_change hB hn hv hsame b
    rw [e1, e2] at key
    field_simp
    linarith

/-- Where the table of a root is zero. -/
theorem marg_zero {C : BN V S K} (hC : C.Valid) {v : V} (hv : v ∈ C.nodes) (hroot : C.parents v = []) (W : List V) {a : V → S}
    (hz : C.table v a = 0) : C.marg (v :: W) a = 0 := by
  have dep : DependsOn (C.table v) [v] := by have := hC.scope v hv; rwa [hroot] at this
  rw [BN.marg, sumOver_congr (hC.nodes.filter _) (g := fun _ => 0)]
  · exact sumOver_zero _ _
  · intro b hb _
    refine List.prod_eq_zero (List.mem_map.2 ⟨v, hv, ?_⟩)
    rw [dep b a fun x hx => hb x (by rw [List.mem_singleton.1 hx]; simp), hz]

/-- A table of a hidden root that is the mean of its posteriors has the greatest likelihood of all tables that are zero where it is,
or not zero only where no record can be. -/
theorem em_fixed_max {B C : BN V S K} (hB : B.Valid) (hnn : B.NonNeg) (hC : C.Valid) (hCno : C.Normalised) (hCnn : C.NonNeg) (hn : C.nodes = B.nodes)
    (hst : C.states = B.states) {v : V} (hv : v ∈ B.nodes) (hroot : B.parents v = []) (hroot' : C.parents v = [])
    (hsame : ∀ w ∈ B.nodes, w ≠ v → C.table w = B.table w) {rows : List (List V × (V → S))}
    (hrow : ∀ r ∈ rows, B.InStates r.2 ∧ 0 < B.marg r.1 r.2 ∧ v ∉ r.1)
    (hfix : ∀ b, B.InStates b →
      B.table v b * (rows.length : K) = (rows.map fun r => B.marg (v :: r.1) (upd r.2 v (b v)) / B.marg r.1 r.2).sum)
    (hsup : ∀ b, B.InStates b → B.table v b = 0 →
      C.table v b = 0 ∨ ∀ r ∈ rows, C.marg (v :: r.1) (upd r.2 v (b v)) = 0) :
    (rows.map fun r => C.marg r.1 r.2).prod ≤ (rows.map fun r => B.marg r.1 r.2).prod := by
  rcases rows.eq_nil_or_concat with rfl | hne
  · simp
  obtain ⟨r0, hr0⟩ : ∃ r, r ∈ rows := by obtain ⟨l, x, rfl⟩ := hne; exact ⟨x, by simp⟩
  have upd_in : ∀ {a : V → S} {s : S}, B.InStates a → s ∈ B.states v → B.InStates (upd a v s) := by
    intro a s ha hs w hw
    by_cases h : w = v
    · subst h; rw [upd_same]; exact hs
    · rw [upd_ne _ _ h]; exact ha w hw
  let ρ : S → K := fun s => C.table v (upd r0.2 v s) / B.table v (upd r0.2 v s)
  have depB : DependsOn (B.table v) [v] := by have := hB.scope v hv; rwa [hroot] at this
  have depC : DependsOn (C.table v) [v] := by have := hC.scope v (hn ▸ hv); rwa [hroot'] at this
  have hmarg : ∀ r ∈ rows, ∀ s ∈ B.states v, C.marg (v :: r.1) (upd r.2 v s) = ρ s * B.marg (v :: r.1) (upd r.2 v s) := by
    intro r hr s hs
    have e1 : B.table v (upd r.2 v s) = B.table v (upd r0.2 v s) := depB _ _ fun x hx => by
      rw [List.mem_singleton.1 hx, upd_same, upd_same]
    have e2 : C.table v (upd r.2 v s) = C.table v (upd r0.2 v s) := depC _ _ fun x hx => by
      rw [List.mem_singleton.1 hx, upd_same, upd_same]
    show _ = C.table v (upd r0.2 v s) / B.table v (upd r0.2 v s) * _
    by_cases hz : B.table v (upd r.2 v s) = 0
    · rw [← e1, hz, div_zero, zero_mul]
      rcases hsup _ (upd_in (hrow r hr).1 hs) hz with h | h
      · exact marg_zero hC (hn ▸ hv) hroot' _ h
      · have := h r hr
        rwa [upd_same] at this
    · rw [marg_change hB hC hn hst hv hroot hroot' hsame _ _ hz, e1, e2]
  have hsum : ∀ r ∈ rows, C.marg r.1 r.2 = ((B.states v).map fun s => ρ s * B.marg (v :: r.1) (upd r.2 v s)).sum := by
    intro r hr
    have := hC.sum_marg (T := [v]) (W := r.1) (by simpa [hn] using hv) (by simp) (by simpa using (hrow r hr).2.2) r.2
    rw [sumOver_cons] at this
    simp only [sumOver_nil] at this
    rw [← this, hst]
    congr 1
    exact List.map_congr_left fun s hs => hmarg r hr s hs
  have hCm : ∀ r ∈ rows, 0 ≤ C.marg r.1 r.2 := fun r hr => BN.marg_nonneg hC hCnn fun x _ hx => by
    rw [hst]; exact (hrow r hr).1 x (hn ▸ hx)
  have hratio : (rows.map fun r => C.marg r.1 r.2 / B.marg r.1 r.2).prod ≤ 1 := by
    refine prod_le_one_of_sum (fun x hx => ?_) ?_
    · obtain ⟨r, hr, rfl⟩ := List.mem_map.1 hx
      exact div_nonneg (hCm r hr) (hrow r hr).2.1.le
    · rw [List.length_map]
      have e : ∀ r ∈ rows, C.marg r.1 r.2 / B.marg r.1 r.2 = ((B.states v).map fun s => ρ s * (B.marg (v :: r.1) (upd r.2 v s) / B.marg r.1 r.2)).sum := by
        intro r hr
        rw [hsum r hr, div_eq_mul_inv, ← List.sum_map_mul_right]
        congr 1
        exact List.map_congr_left fun s _ => by rw [mul_assoc, div_eq_mul_inv]
      rw [List.map_congr_left e, sum_map_comm]
      have e2 : ∀ s ∈ B.states v, (rows.map fun r => ρ s * (B.marg (v :: r.1) (upd r.2 v s) / B.marg r.1 r.2)).sum ≤
          C.table v (upd r0.2 v s) * (rows.length : K) := by
        intro s hs
        rw [List.sum_map_mul_left]
        have := hfix (upd r0.2 v s) (upd_in (hrow r0 hr0).1 hs)
        rw [upd_same] at this
        rw [← this]
        by_cases hz : B.table v (upd r0.2 v s) = 0
        · show C.table v (upd r0.2 v s) / B.table v (upd r0.2 v s) * _ ≤ _
          rw [hz, div_zero, zero_mul]
          refine mul_nonneg (hCnn v (hn ▸ hv) _ fun x hx => ?_) (Nat.cast_nonneg _)
          rw [hst]; exact upd_in (hrow r0 hr0).1 hs x (hn ▸ hx)
        · refine le_of_eq ?_
          show C.table v (upd r0.2 v s) / B.table v (upd r0.2 v s) * (B.table v (upd r0.2 v s) * (rows.length : K)) = _
          field_simp
      refine (List.sum_le_sum e2).trans (le_of_eq ?_)
      rw [List.sum_map_mul_right]
      have := hCno v (hn ▸ hv) r0.2 (by intro x hx; rw [hst]; exact (hrow r0 hr0).1 x (hn ▸ hx))
      rw [hst] at this
      rw [this, one_mul]
  have hprod : ∀ l : List (List V × (V → S)), (∀ r ∈ l, r ∈ rows) → (l.map fun r => C.marg r.1 r.2).prod =
      (l.map fun r => C.marg r.1 r.2 / B.marg r.1 r.2).prod * (l.map fun r => B.marg r.1 r.2).prod := by
    intro l
    induction l with
    | nil => simp
    | cons r l ih =>
      intro h
      have hp := (hrow r (h r List.mem_cons_self)).2.1
      rw [List.map_cons, List.map_cons, List.map_cons, List.prod_cons, List.prod_cons, List.prod_cons, ih fun x hx => h x (List.mem_cons_of_mem _ hx)]
      field_simp
  rw [hprod rows fun _ h => h]
  refine mul_le_of_le_one_left (List.prod_nonneg fun x hx => ?_) hratio
  obtain ⟨r, hr, rfl⟩ := List.mem_map.1 hx
  exact (hrow r hr).2.1.le

end
end Verif
