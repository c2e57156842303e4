import Verif.Net.CfProb
import Verif.Net.Gibbs
import Verif.Net.Solution
import Verif.Learn.DataLemmas
import Verif.Spec.Component

/-!
# Relative frequencies in records, and why nothing is likelier
-/

set_option linter.unusedSectionVars false
set_option linter.unusedSimpArgs false

namespace Verif

variable {V S : Type} [DecidableEq V] [DecidableEq S]

/-- Specification: the part of the records with the values `a` of the variables `W`. -/
def empirical (K : Type) [Field K] (rows : List (Rec V S)) (W : List V) (a : V → S) : K :=
  ((rows.countP fun r => decide (∀ w ∈ W, Rec.val r w = some (a w)) : ℕ) : K) / (rows.length : ℕ)

section
variable {K : Type} [Field K]

theorem empirical_all (rows : List (Rec V S)) (W : List V) (a : V → S) :
    empirical K rows W a = ((rows.countP fun r => W.all fun v => Rec.eqAt r v (a v) : ℕ) : K) / (rows.length : ℕ) := by
  rw [empirical]
  congr 2
  refine List.countP_congr fun r _ => ?_
  simp [Rec.eqAt]

theorem empirical_set (rows : List (Rec V S)) {W W' : List V} (h : ∀ v, v ∈ W ↔ v ∈ W') (a : V → S) :
    empirical K rows W a = empirical K rows W' a := by
  rw [empirical, empirical]
  congr 2
  refine List.countP_congr fun r _ => ?_
  simp [h]

theorem empirical_dep (rows : List (Rec V S)) (W : List V) : DependsOn (empirical K rows W) W := by
  intro a b h
  rw [empirical, empirical]
  congr 2
  refine List.countP_congr fun r _ => ?_
  simp only [decide_eq_true_eq]
  exact forall₂_congr fun w hw => by rw [h w hw]

/-- Frequencies of fewer variables are sums. -/
theorem sum_empirical [LinearOrder K] [IsStrictOrderedRing K] {D : V → List S} {rows : List (Rec V S)} {xs W : List V} (hn : xs.Nodup) (hD : ∀ x ∈ xs, (D x).Nodup)
    (hr : ∀ r ∈ rows, ∀ x ∈ xs, ∃ s ∈ D x, Rec.val r x = some s) (hd : ∀ x ∈ xs, x ∉ W) (a : V → S) :
    sumOver D xs (empirical K rows (xs ++ W)) a = empirical K rows W a := by
  rw [funext fun b => empirical_all (K := K) rows (xs ++ W) b, sumOver_count (fun x hx => List.mem_append_left _ hx) hn hD hr, ← empirical_all]
  refine empirical_set _ (fun v => ?_) a
  simp only [List.mem_filter, List.mem_append, decide_eq_true_eq]
  constructor
  · rintro ⟨h | h, h'⟩
    · exact absurd h h'
    · exact h
  · exact fun h => ⟨.inr h, fun h' => hd v h' h⟩

theorem sumOver_sum {D : V → List S} {X : Type} (xs : List V) (l : List X) (f : X → (V → S) → K) (a : V → S) :
    sumOver D xs (fun b => (l.map fun x => f x b).sum) a = (l.map fun x => sumOver D xs (f x) a).sum := by
  induction xs generalizing a with
  | nil => rfl
  | cons y xs ih =>
    simp only [sumOver_cons, ih]
    rw [sum_map_comm]

theorem sum_ite_count (l : List (Rec V S)) (p : Rec V S → Prop) [DecidablePred p] (c : K) :
    (l.map fun x => if p x then c else 0).sum = ((l.countP fun x => decide (p x) : ℕ) : K) * c := by
  induction l with
  | nil => simp
  | cons x l ih =>
    rw [List.countP_cons, List.map_cons, List.sum_cons, ih, Nat.cast_add, add_mul, add_comm]
    by_cases h : p x <;> simp [h]

end

section
variable {K : Type} [Field K] [LinearOrder K] [IsStrictOrderedRing K] [Inhabited S]

theorem empirical_nonneg (rows : List (Rec V S)) (W : List V) (a : V → S) : 0 ≤ empirical K rows W a :=
  div_nonneg (Nat.cast_nonneg _) (Nat.cast_nonneg _)

theorem empirical_nil {rows : List (Rec V S)} (h : rows ≠ []) (a : V → S) : empirical K rows [] a = 1 := by
  rw [empirical]
  have : rows.countP (fun r => decide (∀ w ∈ ([] : List V), Rec.val r w = some (a w))) = rows.length := by
    rw [List.countP_eq_length]; simp
  rw [this]
  exact div_self (Nat.cast_ne_zero.2 fun e => h (List.length_eq_zero_iff.1 e))

/-- What is in the records has a positive frequency. -/
theorem empirical_pos {rows : List (Rec V S)} {r : Rec V S} (hr : r ∈ rows) {W : List V} (hc : ∀ w ∈ W, ∃ s, Rec.val r w = some s) :
    0 < empirical K rows W r.asg := by
  refine div_pos (Nat.cast_pos.2 (List.countP_pos_iff.2 ⟨r, hr, ?_⟩)) (Nat.cast_pos.2 (List.length_pos_of_mem hr))
  simp only [decide_eq_true_eq]
  intro w hw
  obtain ⟨s, hs⟩ := hc w hw
  rw [Rec.asg, hs]; rfl

/-- The sum of the quotients of a function and the frequencies over the records. -/
theorem sum_ratio {D : V → List S} {rows : List (Rec V S)} {E : List V} (hE : E.Nodup) (hD : ∀ x ∈ E, (D x).Nodup)
    (hr : ∀ r ∈ rows, ∀ x ∈ E, ∃ s ∈ D x, Rec.val r x = some s) {q : (V → S) → K} (hq : DependsOn q E)
    (h0 : ∀ b, (∀ v ∈ E, b v ∈ D v) → 0 ≤ q b) (a : V → S) :
    (rows.map fun r => q r.asg / empirical K rows E r.asg).sum ≤ (rows.length : ℕ) * sumOver D E q a := by
  have key : (rows.map fun r => q r.asg / empirical K rows E r.asg).sum =
      sumOver D E (fun b => ((rows.countP fun r => decide (∀ w ∈ E, Rec.val r w = some (b w)) : ℕ) : K) * (q b / empirical K rows E b)) a := by
    rw [sumOver_congr' (fun b => (sum_ite_count rows (fun r => ∀ w ∈ E, Rec.val r w = some (b w)) (q b / empirical K rows E b)).symm) a, sumOver_sum]
    congr 1
    refine List.map_congr_left fun r hrr => ?_
    have hval : ∀ w ∈ E, r.asg w ∈ D w ∧ Rec.val r w = some (r.asg w) := fun w hw => by
      obtain ⟨s, hs, e⟩ := hr r hrr w hw
      have : r.asg w = s := by rw [Rec.asg, e]; rfl
      rw [this]; exact ⟨hs, e⟩
    set b : V → S := fun v => if v ∈ E then r.asg v else a v with hb
    have hbE : ∀ v ∈ E, b v = r.asg v := fun v hv => if_pos hv
    rw [sumOver_single hE hD (b := b) (fun v hv => if_neg hv) (fun v hv => by rw [hbE v hv]; exact (hval v hv).1) fun c c1 _ c3 => ?_,
      if_pos fun w hw => by rw [hbE w hw]; exact (hval w hw).2, hq b r.asg hbE, empirical_dep rows E b r.asg hbE]
    refine if_neg fun hc => c3 (funext fun v => ?_)
    by_cases hv : v ∈ E
    · have := hc v hv
      rw [(hval v hv).2, Option.some.injEq] at this
      rw [hbE v hv, this]
    · rw [c1 v hv, hb]; exact (if_neg hv).symm
  rw [key]
  have e : (rows.length : K) * sumOver D E q a = sumOver D E (fun b => (rows.length : K) * q b) a :=
    (sumOver_mul_left (vs := []) (g := fun _ => (rows.length : K)) (fun _ _ _ => rfl) (by simp) a).symm
  rw [e]
  refine sumOver_le hE fun b hb => ?_
  rw [empirical]
  set n := rows.countP fun r => decide (∀ w ∈ E, Rec.val r w = some (b w)) with hn
  by_cases hz : n = 0
  · rw [hz, Nat.cast_zero, zero_mul]
    exact mul_nonneg (Nat.cast_nonneg _) (h0 b hb)
  · have h1 : (n : K) ≠ 0 := Nat.cast_ne_zero.2 hz
    have h2 : (rows.length : K) ≠ 0 := Nat.cast_ne_zero.2 fun e => hz (by
      rw [hn, List.length_eq_zero_iff.1 e]; rfl)
    refine le_of_eq ?_
    field_simp

/-- Positive numbers whose product is not less than one and whose sum is not more than their number are all equal to one. -/
theorem all_one {X : Type} {l : List X} {f : X → ℝ} (h0 : ∀ x ∈ l, 0 < f x) (hp : 1 ≤ (l.map f).prod) (hs : (l.map f).sum ≤ l.length) :
    ∀ x ∈ l, f x = 1 := by
  have hlog : 0 ≤ (l.map fun x => Real.log (f x)).sum := by
    have : (l.map fun x => Real.log (f x)).sum = Real.log (l.map f).prod := by
      clear hp hs
      induction l with
      | nil => simp
      | cons x l ih =>
        rw [List.map_cons, List.sum_cons, List.map_cons, List.prod_cons, ih fun y hy => h0 y (List.mem_cons_of_mem _ hy), Real.log_mul]
        · exact (h0 x List.mem_cons_self).ne'
        · exact (List.prod_pos fun y hy => by
            obtain ⟨z, hz, rfl⟩ := List.mem_map.1 hy
            exact h0 z (List.mem_cons_of_mem _ hz)).ne'
    rw [this]; exact Real.log_nonneg hp
  have hsum : (l.map fun x => f x - 1 - Real.log (f x)).sum ≤ 0 := by
    have : (l.map fun x => f x - 1 - Real.log (f x)).sum = (l.map f).sum - l.length - (l.map fun x => Real.log (f x)).sum := by
      clear hp hs hlog h0
      induction l with
      | nil => simp
      | cons x l ih => simp only [List.map_cons, List.sum_cons, List.length_cons, ih]; push_cast; ring
    rw [this]; linarith
  have hnn : ∀ x ∈ l, 0 ≤ f x - 1 - Real.log (f x) := fun x hx => by linarith [Real.log_le_sub_one_of_pos (h0 x hx)]
  intro x hx
  by_contra hne
  have hlt := Real.log_lt_sub_one_of_pos (h0 x hx) hne
  have : 0 < (l.map fun x => f x - 1 - Real.log (f x)).sum := by
    clear hsum hlog hp hs
    induction l with
    | nil => cases hx
    | cons y l ih =>
      rw [List.map_cons, List.sum_cons]
      have hl : 0 ≤ (l.map fun x => f x - 1 - Real.log (f x)).sum := List.sum_nonneg fun z hz => by
        obtain ⟨w, hw, rfl⟩ := List.mem_map.1 hz
        exact hnn w (List.mem_cons_of_mem _ hw)
      rcases List.mem_cons.1 hx with rfl | hx
      · linarith
      · have := ih (fun z hz => h0 z (List.mem_cons_of_mem _ hz)) (fun z hz => hnn z (List.mem_cons_of_mem _ hz)) hx
        linarith [hnn y List.mem_cons_self]
  linarith

/-- A distribution under which the records are at least as likely as under their own frequencies is that of the frequencies. -/
theorem empirical_unique {φ : K →+* ℝ} (hφ : StrictMono φ) {D : V → List S} {rows : List (Rec V S)} (hrows : rows ≠ []) {E : List V} (hE : E.Nodup)
    (hD : ∀ x ∈ E, (D x).Nodup) (hr : ∀ r ∈ rows, ∀ x ∈ E, ∃ s ∈ D x, Rec.val r x = some s) {q : (V → S) → K} (hq : DependsOn q E)
    (h0 : ∀ b, (∀ v ∈ E, b v ∈ D v) → 0 ≤ q b) (h1 : ∀ a, sumOver D E q a = 1) (hpos : ∀ r ∈ rows, 0 < q r.asg)
    (hL : (rows.map fun r => empirical K rows E r.asg).prod ≤ (rows.map fun r => q r.asg).prod) {b : V → S} (hb : ∀ v ∈ E, b v ∈ D v) :
    q b = empirical K rows E b := by
  have hep : ∀ r ∈ rows, 0 < empirical K rows E r.asg := fun r hrr => empirical_pos hrr fun w hw => (hr r hrr w hw).imp fun s h => h.2
  have hone : ∀ r ∈ rows, q r.asg / empirical K rows E r.asg = 1 := by
    have hphi : ∀ r ∈ rows, φ (q r.asg / empirical K rows E r.asg) = 1 := by
      refine all_one (l := rows) (f := fun r => φ (q r.asg / empirical K rows E r.asg)) (fun r hrr => ?_) ?_ ?_
      · rw [← map_zero φ]; exact hφ (div_pos (hpos r hrr) (hep r hrr))
      · have e : (rows.map fun r => φ (q r.asg / empirical K rows E r.asg)).prod =
            φ ((rows.map fun r => q r.asg).prod / (rows.map fun r => empirical K rows E r.asg).prod) := by
          have : ∀ l : List (Rec V S), (l.map fun r => φ (q r.asg / empirical K rows E r.asg)).prod =
              φ ((l.map fun r => q r.asg).prod / (l.map fun r => empirical K rows E r.asg).prod) := by
            intro l
            induction l with
            | nil => simp
            | cons r l ih => simp only [List.map_cons, List.prod_cons, ih, ← map_mul, mul_div_mul_comm]
          exact this rows
        rw [e, ← map_one φ]
        refine hφ.monotone ((one_le_div (List.prod_pos fun y hy => ?_)).2 hL)
        obtain ⟨r, hrr, rfl⟩ := List.mem_map.1 hy
        exact hep r hrr
      · have := sum_ratio hE hD hr hq h0 b
        rw [h1, mul_one] at this
        have := hφ.monotone this
        rw [map_list_sum, List.map_map, map_natCast] at this
        exact this
    exact fun r hrr => hφ.injective ((hphi r hrr).trans (map_one φ).symm)
  have heq : ∀ r ∈ rows, q r.asg = empirical K rows E r.asg := fun r hrr => (div_eq_one_iff_eq (hep r hrr).ne').1 (hone r hrr)
  -- everywhere at least the frequency
  have hge : ∀ c, (∀ v ∈ E, c v ∈ D v) → 0 ≤ q c - empirical K rows E c := by
    intro c hc
    rw [sub_nonneg]
    by_cases hex : ∃ r ∈ rows, ∀ w ∈ E, Rec.val r w = some (c w)
    · obtain ⟨r, hrr, hw⟩ := hex
      have hrc : ∀ v ∈ E, r.asg v = c v := fun v hv => by rw [Rec.asg, hw v hv]; rfl
      rw [← hq r.asg c hrc, ← empirical_dep rows E r.asg c hrc]
      exact (heq r hrr).ge
    · have : rows.countP (fun r => decide (∀ w ∈ E, Rec.val r w = some (c w))) = 0 :=
        List.countP_eq_zero.2 fun r hrr => by
          simp only [decide_eq_true_eq]
          exact fun h => hex ⟨r, hrr, h⟩
      rw [empirical, this, Nat.cast_zero, zero_div]
      exact h0 c hc
  have hz : sumOver D E (fun c => q c - empirical K rows E c) b = 0 := by
    have e1 : sumOver D E q b = sumOver D E (empirical K rows E) b + sumOver D E (fun c => q c - empirical K rows E c) b := by
      rw [← sumOver_add]
      exact sumOver_congr' (fun c => by ring) b
    have e2 : sumOver D E (empirical K rows E) b = 1 := by
      have := sum_empirical (K := K) (W := []) hE hD hr (by simp) b
      rw [List.append_nil, empirical_nil hrows] at this
      exact this
    rw [h1, e2] at e1
    linarith
  exact sub_eq_zero.1 (sumOver_eq_zero hE (fun c _ h2 => hge c h2) hz (b := b) (fun _ _ => rfl) hb)

/-- Under no distribution are the records likelier than under their frequencies. -/
theorem empirical_best {φ : K →+* ℝ} (hφ : StrictMono φ) {D : V → List S} {rows : List (Rec V S)} {E : List V} (hE : E.Nodup)
    (hD : ∀ x ∈ E, (D x).Nodup) (hr : ∀ r ∈ rows, ∀ x ∈ E, ∃ s ∈ D x, Rec.val r x = some s) {q : (V → S) → K} (hq : DependsOn q E)
    (h0 : ∀ b, (∀ v ∈ E, b v ∈ D v) → 0 ≤ q b) (h1 : ∀ a, sumOver D E q a = 1) :
    (rows.map fun r => q r.asg).prod ≤ (rows.map fun r => empirical K rows E r.asg).prod := by
  by_contra hlt
  have hlt := not_le.1 hlt
  have hep : ∀ r ∈ rows, 0 < empirical K rows E r.asg := fun r hrr => empirical_pos hrr fun w hw => (hr r hrr w hw).imp fun s h => h.2
  have hnn : ∀ r ∈ rows, 0 ≤ q r.asg := fun r hrr => h0 _ fun v hv => by
    obtain ⟨s, hs, e⟩ := hr r hrr v hv
    rw [Rec.asg, e]; exact hs
  have h0e : 0 < (rows.map fun r => empirical K rows E r.asg).prod := List.prod_pos fun y hy => by
    obtain ⟨r, hrr, rfl⟩ := List.mem_map.1 hy
    exact hep r hrr
  have hpos : ∀ r ∈ rows, 0 < q r.asg := fun r hrr => lt_of_le_of_ne (hnn r hrr) fun hz => by
    have : (rows.map fun r => q r.asg).prod = 0 := List.prod_eq_zero (List.mem_map.2 ⟨r, hrr, hz.symm⟩)
    rw [this] at hlt
    exact absurd hlt (not_lt.2 h0e.le)
  have hrows : rows ≠ [] := by
    rintro rfl
    simp at hlt
  have := List.map_congr_left (l := rows) (f := fun r => q r.asg) (g := fun r => empirical K rows E r.asg) fun r hrr => empirical_unique hφ hrows hE hD hr hq h0 h1 hpos hlt.le (b := r.asg) fun v hv => by
    obtain ⟨s, hs, e⟩ := hr r hrr v hv
    rw [Rec.asg, e]; exact hs
  rw [this] at hlt
  exact lt_irrefl _ hlt

end
end Verif
