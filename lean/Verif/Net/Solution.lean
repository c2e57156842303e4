import Verif.Net.Clamp
import Verif.Spec.Causal
import Mathlib.Algebra.Order.BigOperators.Group.List
import Mathlib.Algebra.Order.Field.Basic

/-!
# Networks with structural equations: helper lemmas

Sums of products of zero-one tables collapse to the solution of the equations.
-/

set_option linter.unusedSectionVars false
set_option linter.unusedSimpArgs false

namespace Verif

variable {V S K : Type} [DecidableEq V] [DecidableEq S]

section sums
variable [CommSemiring K] {D : V → List S}

theorem sum_map_single {l : List S} (hl : l.Nodup) {f : S → K} {s : S} (hs : s ∈ l) (h : ∀ t ∈ l, t ≠ s → f t = 0) :
    (l.map f).sum = f s := by
  induction l with
  | nil => cases hs
  | cons x l ih =>
    rw [List.nodup_cons] at hl
    rw [List.map_cons, List.sum_cons]
    rcases List.mem_cons.1 hs with rfl | hs
    · have : (l.map f).sum = 0 := by
        rw [List.map_congr_left (g := fun _ => (0 : K)) fun t ht => h t (List.mem_cons_of_mem _ ht) (by rintro rfl; exact hl.1 ht)]
        simp
      rw [this, add_zero]
    · rw [h x List.mem_cons_self (by rintro rfl; exact hl.1 hs), zero_add, ih hl.2 hs fun t ht => h t (List.mem_cons_of_mem _ ht)]

/-- A function that vanishes away from one assignment. -/
theorem sumOver_single {xs : List V} (hx : xs.Nodup) (hD : ∀ x ∈ xs, (D x).Nodup) {g : (V → S) → K} {a b : V → S}
    (hb : ∀ v, v ∉ xs → b v = a v) (hs : ∀ v ∈ xs, b v ∈ D v)
    (h : ∀ c, (∀ v, v ∉ xs → c v = a v) → (∀ v ∈ xs, c v ∈ D v) → c ≠ b → g c = 0) : sumOver D xs g a = g b := by
  induction xs generalizing a with
  | nil =>
    have : b = a := funext fun v => hb v (by simp)
    rw [this]; rfl
  | cons x xs ih =>
    rw [List.nodup_cons] at hx
    rw [sumOver_cons, sum_map_single (s := b x) (hD x List.mem_cons_self) (hs x List.mem_cons_self)]
    · refine ih hx.2 (fun v hv => hD v (List.mem_cons_of_mem _ hv)) (fun v hv => ?_) (fun v hv => hs v (List.mem_cons_of_mem _ hv)) fun c h1 h2 h3 => ?_
      · by_cases hvx : v = x
        · subst hvx; rw [upd_same]
        · rw [upd_ne _ _ hvx]; exact hb v (by simp [hvx, hv])
      · refine h c (fun v hv => ?_) (fun v hv => ?_) h3
        · rw [h1 v fun h => hv (List.mem_cons_of_mem _ h), upd_ne _ _ fun h => hv (by simp [h])]
        · rcases List.mem_cons.1 hv with rfl | hv
          · rw [h1 v hx.1, upd_same]; exact hs v List.mem_cons_self
          · exact h2 v hv
    · intro t ht hne
      have : sumOver D xs g (upd a x t) = sumOver D xs (fun _ => 0) (upd a x t) := by
        refine sumOver_congr hx.2 fun c h1 h2 => h c (fun v hv => ?_) (fun v hv => ?_) ?_
        · rw [h1 v fun h => hv (List.mem_cons_of_mem _ h), upd_ne _ _ fun h => hv (by simp [h])]
        · rcases List.mem_cons.1 hv with rfl | hv
          · rw [h1 v hx.1, upd_same]; exact ht
          · exact h2 v hv
        · rintro rfl
          exact hne (by rw [h1 x hx.1, upd_same])
      rw [this, sumOver_zero]

/-- Some of the variables fixed: summing over the others is summing over all with an indicator. -/
theorem sumOver_fixed {xs : List V} (hx : xs.Nodup) (hD : ∀ x ∈ xs, (D x).Nodup) {vs : List V} {a : V → S}
    (ha : ∀ v ∈ xs, v ∈ vs → a v ∈ D v) (g : (V → S) → K) (b : V → S) :
    sumOver D xs (fun u => if ∀ v ∈ xs, v ∈ vs → u v = a v then g u else 0) b =
      sumOver D (xs.filter (· ∉ vs)) g (fun v => if v ∈ xs ∧ v ∈ vs then a v else b v) := by
  induction xs generalizing b with
  | nil => simp [sumOver]
  | cons x xs ih =>
    have hx' := List.nodup_cons.1 hx
    have ih' := fun b => ih hx'.2 (fun v hv => hD v (List.mem_cons_of_mem _ hv)) (fun v hv => ha v (List.mem_cons_of_mem _ hv)) b
    rw [sumOver_cons]
    by_cases hxv : x ∈ vs
    · rw [sum_map_single (s := a x) (hD x List.mem_cons_self) (ha x List.mem_cons_self hxv)]
      · rw [List.filter_cons_of_neg (by simpa using hxv)]
        have : (fun v => if v ∈ x :: xs ∧ v ∈ vs then a v else b v) = fun v => if v ∈ xs ∧ v ∈ vs then a v else upd b x (a x) v := by
          funext v
          by_cases hvx : v = x
          · subst hvx; simp [hxv, upd_same]
          · simp [hvx, upd_ne _ _ hvx]
        rw [this, ← ih']
        refine sumOver_congr hx'.2 fun u hu _ => ?_
        have hux : u x = a x := by rw [hu x hx'.1, upd_same]
        have : (∀ v ∈ x :: xs, v ∈ vs → u v = a v) ↔ ∀ v ∈ xs, v ∈ vs → u v = a v := by
          constructor
          · exact fun h v hv => h v (List.mem_cons_of_mem _ hv)
          · intro h v hv
            rcases List.mem_cons.1 hv with rfl | hv
            · exact fun _ => hux
            · exact h v hv
        simp only [this]
      · intro t ht hne
        refine (sumOver_congr (g := fun _ => 0) hx'.2 fun u hu _ => if_neg fun h => hne ?_).trans (sumOver_zero _ _)
        rw [← h x List.mem_cons_self hxv, hu x hx'.1, upd_same]
    · rw [List.filter_cons_of_pos (by simpa using hxv), sumOver_cons]
      congr 1
      refine List.map_congr_left fun s _ => ?_
      have : upd (fun v => if v ∈ x :: xs ∧ v ∈ vs then a v else b v) x s = fun v => if v ∈ xs ∧ v ∈ vs then a v else upd b x s v := by
        funext v
        by_cases hvx : v = x
        · subst hvx; simp [hxv, upd_same]
        · simp [hvx, upd_ne _ _ hvx]
      rw [this, ← ih']
      refine sumOver_congr hx'.2 fun u hu _ => ?_
      have : (∀ v ∈ x :: xs, v ∈ vs → u v = a v) ↔ ∀ v ∈ xs, v ∈ vs → u v = a v := by
        constructor
        · exact fun h v hv => h v (List.mem_cons_of_mem _ hv)
        · intro h v hv
          rcases List.mem_cons.1 hv with rfl | hv
          · exact fun hc => absurd hc hxv
          · exact h v hv
      simp only [this]

end sums

section eqs
variable [Field K] [LinearOrder K] [IsStrictOrderedRing K]

/-- The zero-one entries of a column that sums to one: exactly one of them is one. -/
theorem one_unique {l : List S} (hl : l.Nodup) {f : S → K} (h01 : ∀ s ∈ l, f s = 0 ∨ f s = 1) (hs : (l.map f).sum = 1) :
    (∃ s ∈ l, f s = 1) ∧ ∀ s ∈ l, ∀ t ∈ l, f s = 1 → f t = 1 → s = t := by
  have hnn : ∀ l' : List S, (∀ s ∈ l', s ∈ l) → 0 ≤ (l'.map f).sum := by
    intro l' h'
    refine List.sum_nonneg fun x hx => ?_
    obtain ⟨s, hs', rfl⟩ := List.mem_map.1 hx
    rcases h01 s (h' s hs') with h | h <;> rw [h]
    exact zero_le_one
  constructor
  · by_contra hc
    have : (l.map f).sum = 0 := by
      rw [List.map_congr_left (g := fun _ => (0 : K)) fun s hs' => (h01 s hs').resolve_right fun h => hc ⟨s, hs', h⟩]
      simp
    rw [this] at hs; exact zero_ne_one hs
  · intro s hs' t ht h1 h2
    by_contra hne
    have hp : l.Perm (s :: t :: (l.erase s).erase t) :=
      (List.perm_cons_erase hs').trans ((List.perm_cons_erase ((List.mem_erase_of_ne (Ne.symm hne)).2 ht)).cons _)
    have e := (hp.map f).sum_eq
    rw [List.map_cons, List.map_cons, List.sum_cons, List.sum_cons, h1, h2, hs] at e
    have := hnn ((l.erase s).erase t) fun x hx => List.mem_of_mem_erase (List.mem_of_mem_erase hx)
    have h3 : (1 : K) + ((((l.erase s).erase t).map f).sum) = 0 := by
      have : (1 : K) + (1 + (((l.erase s).erase t).map f).sum) = 1 + 0 := by rw [add_zero]; exact e.symm
      exact add_left_cancel this
    have : (0 : K) < 1 + (((l.erase s).erase t).map f).sum := add_pos_of_pos_of_nonneg one_pos this
    rw [h3] at this
    exact lt_irrefl _ this

/-- `endo` are nodes with zero-one tables. -/
structure BN.Eqs (B : BN V S K) (N : List V) : Prop where
  valid : B.Valid
  norm : B.Normalised
  nodup : N.Nodup
  nodes : ∀ v ∈ N, v ∈ B.nodes
  zeroOne : ∀ v ∈ N, ∀ a, B.InStates a → B.table v a = 0 ∨ B.table v a = 1

namespace BN

/-- A solution of the equations. -/
def Sol (B : BN V S K) (N : List V) (b : V → S) : Prop := ∀ v ∈ N, b v ∈ B.states v ∧ B.table v b = 1

variable {B : BN V S K} {N : List V}

theorem Valid.table_congr (hB : B.Valid) {v : V} (hv : v ∈ B.nodes) {a b : V → S} (h : ∀ w ∈ B.nodes, a w = b w) :
    B.table v a = B.table v b := by
  refine hB.scope v hv _ _ fun w hw => h w ?_
  rcases List.mem_cons.1 hw with rfl | hw
  · exact hv
  · exact hB.parents v hv w hw

theorem Eqs.col (h : B.Eqs N) {v : V} (hv : v ∈ N) {a : V → S} (ha : B.InStates a) :
    (∃ s ∈ B.states v, B.table v (upd a v s) = 1) ∧
      ∀ s ∈ B.states v, ∀ t ∈ B.states v, B.table v (upd a v s) = 1 → B.table v (upd a v t) = 1 → s = t := by
  refine one_unique (h.valid.nodupStates v (h.nodes v hv)) (fun s hs => h.zeroOne v hv _ fun w hw => ?_) (h.norm v (h.nodes v hv) a ha)
  by_cases hwv : w = v
  · subst hwv; rw [upd_same]; exact hs
  · rw [upd_ne _ _ hwv]; exact ha w hw

theorem Eqs.unique (h : B.Eqs N) {b c : V → S} (hb : B.Sol N b) (hc : B.Sol N c) (hs : ∀ v ∈ B.nodes, v ∉ N → b v ∈ B.states v)
    (hbc : ∀ v ∈ B.nodes, v ∉ N → b v = c v) : ∀ v ∈ B.nodes, b v = c v := by
  obtain ⟨r, hr⟩ := h.valid.rank
  have hin : B.InStates b := fun v hv => by
    by_cases hvN : v ∈ N
    · exact (hb v hvN).1
    · exact hs v hv hvN
  have key : ∀ n, ∀ v ∈ B.nodes, r v < n → b v = c v := by
    intro n
    induction n with
    | zero => intro v _ h; cases h
    | succ n ih =>
      intro v hv hn
      by_cases hvN : v ∈ N
      · refine (h.col hvN hin).2 _ (hb v hvN).1 _ (hc v hvN).1 ?_ ?_
        · rw [← (hb v hvN).2]; congr 1; funext w; by_cases hw : w = v
          · subst hw; rw [upd_same]
          · rw [upd_ne _ _ hw]
        · rw [← (hc v hvN).2]
          refine h.valid.scope v hv _ _ fun w hw => ?_
          rcases List.mem_cons.1 hw with rfl | hw
          · rw [upd_same]
          · have hlt := hr v hv w hw
            have hwv : w ≠ v := by rintro rfl; exact lt_irrefl _ hlt
            rw [upd_ne _ _ hwv]
            exact ih w (h.valid.parents v hv w hw) (by omega)
      · exact hbc v hv hvN
  exact fun v hv => key (r v + 1) v hv (Nat.lt_succ_self _)

theorem Eqs.exists_sol (h : B.Eqs N) {a : V → S} (ha : B.InStates a) : ∃ b, (∀ v, v ∉ N → b v = a v) ∧ B.Sol N b := by
  obtain ⟨r, hr⟩ := h.valid.rank
  have key : ∀ n (M : List V), M.length = n → M.Nodup → (∀ v ∈ M, v ∈ N) → ∃ b, (∀ v, v ∉ M → b v = a v) ∧ B.Sol M b := by
    intro n
    induction n with
    | zero =>
      intro M hM _ _
      rw [List.length_eq_zero_iff] at hM; subst hM
      exact ⟨a, fun _ _ => rfl, fun v hv => by cases hv⟩
    | succ n ih =>
      intro M hM hnd hsub
      obtain ⟨v, hv, hmax⟩ := exists_max_rank r (L := M) (by rintro rfl; cases hM)
      obtain ⟨b, hb, hs⟩ := ih (M.erase v) (by rw [List.length_erase_of_mem hv, hM]; rfl) (hnd.erase v)
        fun w hw => hsub w (List.mem_of_mem_erase hw)
      have hin : B.InStates b := fun w hw => by
        by_cases hwM : w ∈ M.erase v
        · exact (hs w hwM).1
        · rw [hb w hwM]; exact ha w hw
      obtain ⟨s, hs1, hs2⟩ := (h.col (hsub v hv) hin).1
      refine ⟨upd b v s, fun w hw => ?_, fun w hw => ?_⟩
      · rw [upd_ne _ _ (by rintro rfl; exact hw hv)]
        exact hb w fun h => hw (List.mem_of_mem_erase h)
      · by_cases hwv : w = v
        · subst hwv; rw [upd_same]; exact ⟨hs1, hs2⟩
        · rw [upd_ne _ _ hwv]
          have hwe := hs w ((List.mem_erase_of_ne hwv).2 hw)
          refine ⟨hwe.1, ?_⟩
          rw [← hwe.2]
          refine h.valid.scope w (h.nodes w (hsub w hw)) _ _ fun x hx => upd_ne _ _ ?_
          rintro rfl
          rcases List.mem_cons.1 hx with e | hx
          · exact hwv e.symm
          · have := hr w (h.nodes w (hsub w hw)) x hx
            have := hmax w hw
            omega
  exact key _ N rfl h.nodup fun _ h => h

open Classical in
/-- The sum of the product of the equations. -/
theorem Eqs.sum (h : B.Eqs N) (vs : List V) {a : V → S} (ha : ∀ v ∈ B.nodes, v ∉ N.filter (· ∉ vs) → a v ∈ B.states v) :
    sumOver B.states (N.filter (· ∉ vs)) (prodT B.table N) a =
      if ∃ b, (∀ v, v ∉ N.filter (· ∉ vs) → b v = a v) ∧ B.Sol N b then 1 else 0 := by
  have hnd : (N.filter (· ∉ vs)).Nodup := h.nodup.filter _
  have hin : ∀ c : V → S, (∀ v, v ∉ N.filter (· ∉ vs) → c v = a v) → (∀ v ∈ N.filter (· ∉ vs), c v ∈ B.states v) → B.InStates c := by
    intro c h1 h2 v hv
    by_cases hm : v ∈ N.filter (· ∉ vs)
    · exact h2 v hm
    · rw [h1 v hm]; exact ha v hv hm
  have hzero : ∀ c : V → S, B.InStates c → ¬ B.Sol N c → prodT B.table N c = 0 := by
    intro c hc hns
    simp only [Sol, not_forall] at hns
    obtain ⟨v, hv, hn⟩ := hns
    have : B.table v c = 0 := (h.zeroOne v hv c hc).resolve_right fun h1 => hn ⟨hc v (h.nodes v hv), h1⟩
    exact List.prod_eq_zero (List.mem_map.2 ⟨v, hv, this⟩)
  split
  · rename_i hex
    obtain ⟨b, hb, hs⟩ := hex
    rw [sumOver_single hnd (fun x hx => h.valid.nodupStates x (h.nodes x (List.mem_filter.1 hx).1)) hb
      (fun v hv => (hs v (List.mem_filter.1 hv).1).1)]
    · refine List.prod_eq_one fun x hx => ?_
      obtain ⟨v, hv, rfl⟩ := List.mem_map.1 hx
      exact (hs v hv).2
    · intro c h1 h2 hne
      refine hzero c (hin c h1 h2) fun hsc => hne (funext fun v => ?_)
      by_cases hv : v ∈ B.nodes
      · refine h.unique hsc hs (fun w hw hwN => ?_) (fun w hw hwN => ?_) v hv
        · have : w ∉ N.filter (· ∉ vs) := fun hm => hwN (List.mem_filter.1 hm).1
          rw [h1 w this]; exact ha w hw this
        · have : w ∉ N.filter (· ∉ vs) := fun hm => hwN (List.mem_filter.1 hm).1
          rw [h1 w this, hb w this]
      · have : v ∉ N.filter (· ∉ vs) := fun hm => hv (h.nodes v (List.mem_filter.1 hm).1)
        rw [h1 v this, hb v this]
  · rename_i hne
    rw [← sumOver_zero (D := B.states) (N.filter (· ∉ vs)) a]
    exact sumOver_congr hnd fun c h1 h2 => hzero c (hin c h1 h2) fun hs => hne ⟨c, h1, hs⟩

theorem prodT_roots {X : List V} (hB : B.Valid) (hX : ∀ x ∈ X, x ∈ B.nodes ∧ B.parents x = []) : DependsOn (prodT B.table X) X := by
  refine (DependsOn.prodT (sc := fun x => [x]) fun x hx => ?_).mono fun x hx => ?_
  · have := hB.scope x (hX x hx).1
    rw [(hX x hx).2] at this
    exact this
  · obtain ⟨y, hy, hxy⟩ := List.mem_flatMap.1 hx
    rw [List.mem_singleton.1 hxy]; exact hy

open Classical in
/-- Marginals of a network with structural equations: sum over the exogenous states for which the solution has the given
states. -/
theorem Eqs.marg (h : B.Eqs N) {X : List V} (hp : B.nodes.Perm (X ++ N)) (hX : ∀ x ∈ X, B.parents x = []) {vs : List V}
    (hvs : ∀ v ∈ vs, v ∈ B.nodes) {a : V → S} (ha : ∀ v ∈ vs, a v ∈ B.states v) (a0 : V → S) :
    B.marg vs a = sumOver B.states X (fun u => if ∃ b, (∀ x ∈ X, b x = u x) ∧ B.Sol N b ∧ ∀ v ∈ vs, b v = a v
      then (X.map fun x => B.table x u).prod else 0) a0 := by
  have hXN : (X ++ N).Nodup := hp.nodup_iff.1 h.valid.nodes
  have hXd : X.Nodup := (List.nodup_append'.1 hXN).1
  have hdis : ∀ x ∈ X, x ∉ N := fun x hx hn => (List.nodup_append'.1 hXN).2.2 hx hn
  have hmem : ∀ v, v ∈ B.nodes ↔ v ∈ X ∨ v ∈ N := fun v => by rw [hp.mem_iff, List.mem_append]
  have hXr : ∀ x ∈ X, x ∈ B.nodes ∧ B.parents x = [] := fun x hx => ⟨(hmem x).2 (.inl hx), hX x hx⟩
  have hdep := prodT_roots h.valid hXr
  let g : (V → S) → K := fun u => if ∃ b, (∀ x ∈ X, b x = u x) ∧ B.Sol N b ∧ ∀ v ∈ N, v ∈ vs → b v = a v
    then prodT B.table X u else 0
  have hg : DependsOn g X := by
    intro u w huw
    have : (∃ b : V → S, (∀ x ∈ X, b x = u x) ∧ B.Sol N b ∧ ∀ v ∈ N, v ∈ vs → b v = a v) ↔
        ∃ b : V → S, (∀ x ∈ X, b x = w x) ∧ B.Sol N b ∧ ∀ v ∈ N, v ∈ vs → b v = a v := by
      constructor
      · rintro ⟨b, h1, h2⟩; exact ⟨b, fun x hx => (h1 x hx).trans (huw x hx), h2⟩
      · rintro ⟨b, h1, h2⟩; exact ⟨b, fun x hx => (h1 x hx).trans (huw x hx).symm, h2⟩
    simp only [g, this, hdep u w huw]
  -- sum out the equations
  have e1 : B.marg vs a = sumOver B.states (X.filter (· ∉ vs)) g a := by
    have hpf : (B.nodes.filter (· ∉ vs)).Perm (X.filter (· ∉ vs) ++ N.filter (· ∉ vs)) := by
      rw [← List.filter_append]; exact hp.filter _
    rw [BN.marg, sumOver_perm hpf (h.valid.nodes.filter _), sumOver_append]
    refine sumOver_congr (hXd.filter _) fun u h1 h2 => ?_
    have hj : ∀ c, B.joint c = prodT B.table X c * prodT B.table N c := fun c => by
      rw [← prodT_append]; exact prodT_perm B.table hp c
    rw [sumOver_congr' hj, sumOver_mul_left hdep fun v hv hx => hdis v hx (List.mem_filter.1 hv).1, h.sum vs]
    · have : (∃ b : V → S, (∀ v, v ∉ N.filter (· ∉ vs) → b v = u v) ∧ B.Sol N b) ↔
          ∃ b : V → S, (∀ x ∈ X, b x = u x) ∧ B.Sol N b ∧ ∀ v ∈ N, v ∈ vs → b v = a v := by
        constructor
        · rintro ⟨b, b1, b2⟩
          refine ⟨b, fun x hx => b1 x fun hm => hdis x hx (List.mem_filter.1 hm).1, b2, fun v hv hvv => ?_⟩
          rw [b1 v fun hm => by simpa [hvv] using (List.mem_filter.1 hm).2]
          exact h1 v fun hm => hdis v (List.mem_filter.1 hm).1 hv
        · rintro ⟨b, b1, b2, b3⟩
          refine ⟨fun v => if v ∈ B.nodes then b v else u v, fun v hv => ?_, fun v hv => ?_⟩
          · show (if v ∈ B.nodes then b v else u v) = u v
            split
            · rename_i hvn
              rcases (hmem v).1 hvn with hvX | hvN
              · exact b1 v hvX
              · have hvv : v ∈ vs := by
                  by_contra hc; exact hv (List.mem_filter.2 ⟨hvN, by simpa using hc⟩)
                rw [b3 v hvN hvv, h1 v fun hm => hdis v (List.mem_filter.1 hm).1 hvN]
            · rfl
          · have hvn := h.nodes v hv
            refine ⟨?_, ?_⟩
            · show (if v ∈ B.nodes then b v else u v) ∈ B.states v
              rw [if_pos hvn]; exact (b2 v hv).1
            · rw [← (b2 v hv).2]
              exact h.valid.table_congr hvn fun w hw => if_pos hw
      simp only [g, this]
      split <;> simp
    · intro v hv hnm
      rcases (hmem v).1 hv with hvX | hvN
      · by_cases hvv : v ∈ vs
        · rw [h1 v fun hm => by simpa [hvv] using (List.mem_filter.1 hm).2]; exact ha v hvv
        · exact h2 v (List.mem_filter.2 ⟨hvX, by simpa using hvv⟩)
      · have hvv : v ∈ vs := by
          by_contra hc; exact hnm (List.mem_filter.2 ⟨hvN, by simpa using hc⟩)
        rw [h1 v fun hm => hdis v (List.mem_filter.1 hm).1 hvN]; exact ha v hvv
  have hfix := sumOver_fixed (D := B.states) hXd (fun x hx => h.valid.nodupStates x (hXr x hx).1) (vs := vs) (a := a)
    (fun v _ hv => ha v hv) g a0
  have e2 : sumOver B.states (X.filter (· ∉ vs)) g a =
      sumOver B.states (X.filter (· ∉ vs)) g (fun v => if v ∈ X ∧ v ∈ vs then a v else a0 v) := by
    refine (hg.sumOver _) _ _ fun v hv => ?_
    obtain ⟨hvX, hvf⟩ := List.mem_filter.1 hv
    have hvv : v ∈ vs := by
      by_contra hc
      simp [List.mem_filter, hvX, hc] at hvf
    simp [hvX, hvv]
  rw [e1, e2, ← hfix]
  refine sumOver_congr' (fun u => ?_) a0
  have : (∃ b : V → S, (∀ x ∈ X, b x = u x) ∧ B.Sol N b ∧ ∀ v ∈ vs, b v = a v) ↔
      (∀ v ∈ X, v ∈ vs → u v = a v) ∧ ∃ b : V → S, (∀ x ∈ X, b x = u x) ∧ B.Sol N b ∧ ∀ v ∈ N, v ∈ vs → b v = a v := by
    constructor
    · rintro ⟨b, b1, b2, b3⟩
      exact ⟨fun v hv hvv => (b1 v hv).symm.trans (b3 v hvv), b, b1, b2, fun v _ hvv => b3 v hvv⟩
    · rintro ⟨hu, b, b1, b2, b3⟩
      refine ⟨b, b1, b2, fun v hvv => ?_⟩
      rcases (hmem v).1 (hvs v hvv) with hv | hv
      · exact (b1 v hv).trans (hu v hv hvv)
      · exact b3 v hv hvv
  simp only [g, this, ite_and]
  rfl

end BN
end eqs
end Verif
