import Verif.Net.Adjust
import Verif.Net.CfProb

/-!
# Bounds on interventional and counterfactual probabilities: helper lemmas
-/

set_option linter.unusedSectionVars false
set_option linter.unusedSimpArgs false

namespace Verif

variable {V S K : Type} [DecidableEq V] [DecidableEq S] [Inhabited S] [Field K] [LinearOrder K] [IsStrictOrderedRing K]

/-- A term is at most the sum when the terms are nonnegative. -/
theorem le_sumOver {D : V → List S} {xs : List V} (hx : xs.Nodup) {f : (V → S) → K} {a : V → S}
    (h : ∀ b, (∀ v, v ∉ xs → b v = a v) → (∀ v ∈ xs, b v ∈ D v) → 0 ≤ f b) (ha : ∀ v ∈ xs, a v ∈ D v) : f a ≤ sumOver D xs f a := by
  induction xs with
  | nil => exact le_refl _
  | cons x xs ih =>
    rw [List.nodup_cons] at hx
    rw [sumOver_cons]
    have hnn : ∀ y ∈ (D x).map (fun s => sumOver D xs f (upd a x s)), 0 ≤ y := by
      intro y hy
      obtain ⟨s, hs, rfl⟩ := List.mem_map.1 hy
      refine sumOver_nonneg hx.2 fun c hc1 hc2 => h c (fun v hv => ?_) fun v hv => ?_
      · rw [hc1 v (fun hc => hv (List.mem_cons_of_mem _ hc)), upd_ne]
        rintro rfl; exact hv List.mem_cons_self
      · rcases List.mem_cons.1 hv with rfl | hv
        · rw [hc1 v hx.1, upd_same]; exact hs
        · exact hc2 v hv
    have h1 : f a ≤ sumOver D xs f a := ih hx.2 (fun b hb1 hb2 => h b (fun v hv => hb1 v fun hc => hv (List.mem_cons_of_mem _ hc)) fun v hv => by
      rcases List.mem_cons.1 hv with rfl | hv
      · rw [hb1 v hx.1]; exact ha v List.mem_cons_self
      · exact hb2 v hv) fun v hv => ha v (List.mem_cons_of_mem _ hv)
    refine h1.trans (List.single_le_sum hnn _ (List.mem_map.2 ⟨a x, ha x List.mem_cons_self, ?_⟩))
    rw [upd_self]

namespace BN

variable {B : BN V S K}

theorem NonNeg.cut (hnn : B.NonNeg) {d : Obs V S} (hd : B.DoOk d) : (B.cut d).NonNeg := by
  intro v hv a ha
  refine hnn v hv _ fun w hw => ?_
  by_cases h : w = v
  · subst h; rw [upd_same]; exact ha w hw
  · rw [upd_ne _ _ h]
    cases h : Dict.get? d w with
    | some s => rw [over_of_get? h]; exact hd w s h hw
    | none => rw [over, h]; exact ha w hw

/-- More is observed, less probable. -/
theorem marg_le (hB : B.Valid) (hnn : B.NonNeg) {T W : List V} (hT : ∀ t ∈ T, t ∈ B.nodes) (hTn : T.Nodup) (hd : ∀ t ∈ T, t ∉ W) {a : V → S}
    (ha : ∀ v ∈ T ++ W, v ∈ B.nodes → a v ∈ B.states v) : B.marg (T ++ W) a ≤ B.marg W a := by
  rw [← hB.sum_marg hT hTn hd]
  refine le_sumOver hTn (fun b hb1 hb2 => marg_nonneg hB hnn fun v hv hvn => ?_) fun v hv => ha v (List.mem_append.2 (.inl hv)) (hT v hv)
  by_cases hvT : v ∈ T
  · exact hb2 v hvT
  · rw [hb1 v hvT]; exact ha v hv hvn

/-- `P(t, w) - P(t, w, d) ≤ P(w) - P(w, d)`, that is, the same with `not d`. -/
theorem marg_le_sub (hB : B.Valid) (hnn : B.NonNeg) {T D : List V} (hT : ∀ t ∈ T, t ∈ B.nodes) (hTn : T.Nodup) (hD : ∀ t ∈ D, t ∈ B.nodes) (hDn : D.Nodup)
    (hd : ∀ t ∈ T, t ∉ D) {a : V → S} (ha : ∀ v ∈ T ++ D, v ∈ B.nodes → a v ∈ B.states v) :
    B.marg T a - B.marg (T ++ D) a ≤ B.marg [] a - B.marg D a := by
  have e1 := hB.sum_marg hT hTn (W := []) (by simp) a
  have e2 := hB.sum_marg hT hTn hd a
  rw [List.append_nil] at e1
  rw [sub_le_sub_iff, ← e1, ← e2, ← sub_nonneg]
  have key := le_sumOver (D := B.states) hTn (f := fun b => B.marg T b - B.marg (T ++ D) b) (a := a) (fun b hb1 hb2 => by
    rw [sub_nonneg]
    have hp : (T ++ D).Perm (D ++ T) := List.perm_append_comm
    rw [marg_congr_set (B := B) (vs := T ++ D) (ws := D ++ T) fun v _ => hp.mem_iff]
    refine marg_le hB hnn hD hDn (fun t ht hc => hd t hc ht) fun v hv hvn => ?_
    by_cases hvT : v ∈ T
    · exact hb2 v hvT
    · rw [hb1 v hvT]; exact ha v (hp.mem_iff.2 hv) hvn) fun v hv => ha v (List.mem_append.2 (.inl hv)) (hT v hv)
  have hs : sumOver B.states T (fun b => B.marg T b - B.marg (T ++ D) b) a = sumOver B.states T (B.marg T) a - sumOver B.states T (B.marg (T ++ D)) a := by
    rw [eq_sub_iff_add_eq, ← sumOver_add]
    exact sumOver_congr' (fun b => by ring) _
  rw [hs] at key
  linarith

/-- An interventional probability lies between `P(t, d)` and `P(t, d) + 1 - P(d)`. -/
theorem doMarg_natural (hB : B.Valid) (hn : B.Normalised) (hnn : B.NonNeg) {d : Obs V S} (hd : B.DoOk d) (hk : ∀ v ∈ Dict.keys d, v ∈ B.nodes)
    (hkn : (Dict.keys d).Nodup) {T : List V} (hT : ∀ t ∈ T, t ∈ B.nodes ∧ t ∉ Dict.keys d) (hTn : T.Nodup) {a : V → S}
    (ha : ∀ t ∈ T, a t ∈ B.states t) (hag : Agrees d a) :
    B.marg (T ++ Dict.keys d) a ≤ B.doMarg d T a ∧ B.doMarg d T a ≤ B.marg (T ++ Dict.keys d) a + (1 - B.marg (Dict.keys d) a) := by
  have haD : ∀ v ∈ Dict.keys d, a v ∈ B.states v := by
    intro v hv
    obtain ⟨s, hs⟩ := Option.isSome_iff_exists.1 (Dict.get?_isSome.2 hv)
    rw [hag v s hs]; exact hd v s hs (hk v hv)
  have haT : ∀ v ∈ T ++ Dict.keys d, v ∈ B.nodes → a v ∈ B.states v := fun v hv _ => (List.mem_append.1 hv).elim (ha v) (haD v)
  have e1 := cut_doMarg hB hn hd hk (fun v hv => (hT v hv).2) (a := a) (fun v hv _ => ha v hv)
  have e2 := cut_marg hB (d := d) (vs := T ++ Dict.keys d) (fun v hv => by simp [hv]) hag
  have e3 := cut_marg hB (d := d) (vs := Dict.keys d) (fun v hv => hv) hag
  have hB' := hB.cut d
  have hnn' := NonNeg.cut hnn hd
  have hone : (B.cut d).marg [] a = 1 := marg_nil hB' (hn.cut hd) a
  have h2 := marg_le_sub hB' hnn' (T := T) (D := Dict.keys d) (fun t ht => (hT t ht).1) hTn hk hkn (fun t ht => (hT t ht).2) haT
  have hp : (T ++ Dict.keys d).Perm (Dict.keys d ++ T) := List.perm_append_comm
  have h1 := marg_le hB' hnn' (T := Dict.keys d) (W := T) hk hkn (fun t ht hc => (hT t hc).2 ht) (a := a) (fun v hv hvn => haT v (hp.mem_iff.2 hv) hvn)
  rw [marg_congr_set (B := B.cut d) (vs := Dict.keys d ++ T) (ws := T ++ Dict.keys d) fun v _ => hp.mem_iff.symm, e1, e2] at h1
  rw [e1, e2, e3, hone] at h2
  exact ⟨h1, by linarith⟩

/-! ### Events -/

open Classical in
/-- The mass of the exogenous states with `E` -/
noncomputable def pr (B : BN V S K) (E : (V → S) → Prop) : K :=
  sumOver B.states B.roots (fun u => if E u then (B.roots.map fun x => B.table x u).prod else 0) fun _ => default

theorem cfProb_pr (ws : List (Obs V S × Obs V S)) : B.cfProb B.roots B.inner ws = B.pr fun u => ∀ w ∈ ws, B.Holds B.roots B.inner u w := by
  rw [cfProb, pr]
  refine sumOver_congr' (fun u => ?_) _
  congr

theorem pr_congr (hB : B.Valid) {E F : (V → S) → Prop} (h : ∀ u, (∀ x ∈ B.roots, u x ∈ B.states x) → (E u ↔ F u)) : B.pr E = B.pr F := by
  refine sumOver_congr (hB.nodes.filter _) fun u _ hu => ?_
  by_cases he : E u
  · rw [if_pos he, if_pos ((h u hu).1 he)]
  · rw [if_neg he, if_neg fun hf => he ((h u hu).2 hf)]

theorem pr_mono (hB : B.Valid) (hnn : B.NonNeg) {E F : (V → S) → Prop} (h : ∀ u, (∀ x ∈ B.roots, u x ∈ B.states x) → E u → F u) :
    B.pr E ≤ B.pr F := by
  refine sumOver_le (hB.nodes.filter _) fun u hu => ?_
  by_cases he : E u
  · rw [if_pos he, if_pos (h u hu he)]
  · rw [if_neg he]
    split
    · exact roots_nonneg hB hnn hu
    · exact le_refl _

theorem pr_add (E F : (V → S) → Prop) : B.pr E + B.pr F = B.pr (fun u => E u ∨ F u) + B.pr fun u => E u ∧ F u := by
  rw [pr, pr, pr, pr, ← sumOver_add, ← sumOver_add]
  refine sumOver_congr' (fun u => ?_) _
  by_cases he : E u <;> by_cases hf : F u <;> simp [he, hf]

theorem pr_split (E F : (V → S) → Prop) : B.pr E = (B.pr fun u => E u ∧ F u) + B.pr fun u => E u ∧ ¬ F u := by
  rw [pr, pr, pr, ← sumOver_add]
  refine sumOver_congr' (fun u => ?_) _
  by_cases he : E u <;> by_cases hf : F u <;> simp [he, hf]

theorem pr_nonneg (hB : B.Valid) (hnn : B.NonNeg) (E : (V → S) → Prop) : 0 ≤ B.pr E := by
  refine sumOver_nonneg (hB.nodes.filter _) fun u _ hu => ?_
  split
  · exact roots_nonneg hB hnn hu
  · exact le_refl _

theorem pr_le_one (h : B.Eqs B.inner) (hnn : B.NonNeg) (E : (V → S) → Prop) : B.pr E ≤ 1 := by
  rw [← cfProb_total h, cfProb_pr]
  refine pr_mono h.valid hnn fun u hu _ w hw => ?_
  rw [List.mem_singleton.1 hw]
  obtain ⟨b, b1, b2⟩ := exists_solves h DoOk.nil hu
  exact ⟨b, b1, b2, fun v s hs => by cases hs⟩

open Classical in
/-- One or nothing -/
noncomputable def ind (p : Prop) : Nat := if p then 1 else 0

theorem pr_sum (Es : List ((V → S) → Prop)) : (Es.map B.pr).sum =
    sumOver B.states B.roots (fun u => ((Es.map fun E => ind (E u)).sum : Nat) * (B.roots.map fun x => B.table x u).prod) fun _ => default := by
  induction Es with
  | nil => simp [sumOver_zero]
  | cons E Es ih =>
    rw [List.map_cons, List.sum_cons, ih, pr, ← sumOver_add]
    refine sumOver_congr' (fun u => ?_) _
    rw [List.map_cons, List.sum_cons, Nat.cast_add, add_mul, ind]
    split <;> simp

/-- Comparison by counting -/
theorem pr_count (hB : B.Valid) (hnn : B.NonNeg) {Es Fs : List ((V → S) → Prop)}
    (h : ∀ u, (∀ x ∈ B.roots, u x ∈ B.states x) → (Es.map fun E => ind (E u)).sum ≤ (Fs.map fun F => ind (F u)).sum) :
    (Es.map B.pr).sum ≤ (Fs.map B.pr).sum := by
  rw [pr_sum, pr_sum]
  refine sumOver_le (hB.nodes.filter _) fun u hu => ?_
  exact mul_le_mul_of_nonneg_right (Nat.cast_le.2 (h u hu)) (roots_nonneg hB hnn hu)

theorem cfProb_empty (h : B.Eqs B.inner) : B.cfProb B.roots B.inner [] = 1 := by
  rw [← cfProb_total h, cfProb_pr, cfProb_pr]
  refine pr_congr h.valid fun u hu => iff_of_true (by simp) fun w hw => ?_
  rw [List.mem_singleton.1 hw]
  obtain ⟨b, b1, b2⟩ := exists_solves h DoOk.nil hu
  exact ⟨b, b1, b2, fun v s hs => by cases hs⟩

/-- The same for sets of worlds -/
theorem cfProb_count (hB : B.Valid) (hnn : B.NonNeg) (Ws Ws' : List (List (Obs V S × Obs V S)))
    (h : ∀ u, (∀ x ∈ B.roots, u x ∈ B.states x) → (Ws.map fun ws => ind (∀ w ∈ ws, B.Holds B.roots B.inner u w)).sum ≤
      (Ws'.map fun ws => ind (∀ w ∈ ws, B.Holds B.roots B.inner u w)).sum) :
    (Ws.map (B.cfProb B.roots B.inner)).sum ≤ (Ws'.map (B.cfProb B.roots B.inner)).sum := by
  have := pr_count hB hnn (Es := Ws.map fun ws u => ∀ w ∈ ws, B.Holds B.roots B.inner u w) (Fs := Ws'.map fun ws u => ∀ w ∈ ws, B.Holds B.roots B.inner u w)
    (fun u hu => by rw [List.map_map, List.map_map]; exact h u hu)
  rw [List.map_map, List.map_map] at this
  have e : ∀ Ws : List (List (Obs V S × Obs V S)), Ws.map (B.cfProb B.roots B.inner) = Ws.map (B.pr ∘ fun ws u => ∀ w ∈ ws, B.Holds B.roots B.inner u w) :=
    fun Ws => List.map_congr_left fun ws _ => cfProb_pr ws
  rw [e, e]
  exact this

/-- One hypothetical world: the interventional probability. -/
theorem cfProb_do (h : B.Eqs B.inner) {d : Obs V S} (hd : B.DoOk d) (hk : ∀ v ∈ Dict.keys d, v ∈ B.inner) {ev : Obs V S} (hev : EvOk B ev) :
    B.cfProb B.roots B.inner [(d, ev)] = B.doMarg d (Dict.keys ev) (asg ev) := by
  classical
  rw [← doMarg_eq fun v hv => (mem_inner.1 (hk v hv)).1]
  have hr : ∀ x ∈ B.roots, Dict.get? d x = none := fun x hx => Dict.get?_eq_none.2 fun hc => (mem_inner.1 (hk x hc)).2 (mem_roots.1 hx).2
  rw [(h.doBN hd).marg (X := B.roots) B.roots_inner (fun x hx => by
      show (if x ∈ Dict.keys d then [] else B.parents x) = []
      rw [(mem_roots.1 hx).2, ite_self]) hev.nodes (a := asg ev) (fun v hv => by
    obtain ⟨s, hs⟩ := Option.isSome_iff_exists.1 (Dict.get?_isSome.2 hv)
    rw [asg, over_of_get? hs]; exact hev.states v s hs) fun _ => default, cfProb]
  refine sumOver_congr' (fun u => ?_) _
  have : (∃ b : V → S, (∀ x ∈ B.roots, b x = u x) ∧ (B.doBN d).Sol B.inner b ∧ ∀ v ∈ Dict.keys ev, b v = asg ev v) ↔
      ∀ w ∈ [(d, ev)], B.Holds B.roots B.inner u w := by
    constructor
    · rintro ⟨b, b1, b2, b3⟩ w hw
      rw [List.mem_singleton.1 hw]
      refine ⟨b, b1, solves_iff.2 b2, fun v s hs => ?_⟩
      rw [b3 v (Dict.mem_keys_of_mem (Dict.mem_of_get? hs)), asg, over_of_get? hs]
    · intro hw
      obtain ⟨b, b1, b2, b3⟩ := hw _ List.mem_cons_self
      refine ⟨b, b1, solves_iff.1 b2, fun v hv => ?_⟩
      obtain ⟨s, hs⟩ := Option.isSome_iff_exists.1 (Dict.get?_isSome.2 hv)
      rw [b3 v s hs, asg, over_of_get? hs]
  have ht : (B.roots.map fun x => B.table x u) = B.roots.map fun x => (B.doBN d).table x u := by
    refine List.map_congr_left fun x hx => ?_
    simp only [BN.doBN, hr x hx]
  rw [ht]
  by_cases hc : ∀ w ∈ [(d, ev)], B.Holds B.roots B.inner u w
  · rw [if_pos hc, if_pos (this.2 hc)]
  · rw [if_neg hc, if_neg fun hh => hc (this.1 hh)]

/-- What happens with the exogenous states `u`: `b` is the actual world, `w s` the one with `c = s`. -/
theorem worlds_of (h : B.Eqs B.inner) {c e : V} (hce : c ≠ e) (hc : c ∈ B.inner) (he : e ∈ B.inner) :
    ∀ u : V → S, (∀ x ∈ B.roots, u x ∈ B.states x) → ∃ (b : V → S) (w : S → V → S), b c ∈ B.states c ∧ b e ∈ B.states e ∧
      (∀ s ∈ B.states c, w s e ∈ B.states e ∧ (b c = s → w s e = b e)) ∧
      (∀ s t, B.Holds B.roots B.inner u ([], [(c, s), (e, t)]) ↔ b c = s ∧ b e = t) ∧
      (∀ t, B.Holds B.roots B.inner u ([], [(e, t)]) ↔ b e = t) ∧ (∀ t, B.Holds B.roots B.inner u ([], [(c, t)]) ↔ b c = t) ∧
      B.Holds B.roots B.inner u ([], []) ∧
      ∀ s ∈ B.states c, ∀ t, B.Holds B.roots B.inner u ([(c, s)], [(e, t)]) ↔ w s e = t := by
  have hdo : ∀ s, s ∈ B.states c → B.DoOk [(c, s)] := by
    intro s hs v t ht _
    have := Dict.mem_of_get? ht
    simp only [List.mem_singleton, Prod.mk.injEq] at this
    rw [this.1, this.2]; exact hs
  have hen := (mem_inner.1 he).1
  have hcn := (mem_inner.1 hc).1
  have k1 : ∀ x ∈ B.nodes, ∀ s : S, ∀ v ∈ Dict.keys [(x, s)], v ∈ B.nodes := by intro x hx s v hv; simp at hv; rw [hv]; exact hx
  have k2 : ∀ s t : S, ∀ v ∈ Dict.keys [(c, s), (e, t)], v ∈ B.nodes := by
    intro s t v hv
    simp at hv
    rcases hv with rfl | rfl
    · exact hcn
    · exact hen
  intro u hu
  obtain ⟨b, b1, b2⟩ := exists_solves h DoOk.nil hu
  have hw : ∀ s, ∃ w : V → S, s ∈ B.states c → (∀ x ∈ B.roots, w x = u x) ∧ B.Solves B.inner [(c, s)] w := by
    intro s
    by_cases hs : s ∈ B.states c
    · obtain ⟨w, w1, w2⟩ := exists_solves h (hdo s hs) hu
      exact ⟨w, fun _ => ⟨w1, w2⟩⟩
    · exact ⟨u, fun hc => absurd hc hs⟩
  choose w hw using hw
  refine ⟨b, w, (b2 c hc).1, (b2 e he).1, fun s hs => ⟨((hw s hs).2 e he).1, fun hb => ?_⟩, fun s t => ?_, fun t => ?_, fun t => ?_,
    ⟨b, b1, b2, fun v s hs => by cases hs⟩, fun s hs t => ?_⟩
  · refine Solves.unique h (hdo s hs) hu (hw s hs).2 (solves_consistent b2 fun v _ t ht => ?_) (hw s hs).1 b1 e hen
    have := Dict.mem_of_get? ht
    simp only [List.mem_singleton, Prod.mk.injEq] at this
    rw [this.1, this.2]; exact hb
  · rw [holds_sol h DoOk.nil (k2 s t) hu b2 b1, agrees_two hce]
  · rw [holds_sol h DoOk.nil (k1 e hen t) hu b2 b1, agrees_one]
  · rw [holds_sol h DoOk.nil (k1 c hcn t) hu b2 b1, agrees_one]
  · rw [holds_sol h (hdo s hs) (k1 e hen t) hu (hw s hs).2 (hw s hs).1, agrees_one]

/-- Effect absent without the cause, present with it: what observations and interventions say about it, for any numbers of states. -/
theorem frechet (h : B.Eqs B.inner) (hnn : B.NonNeg) {c e : V} (hce : c ≠ e) (hc : c ∈ B.inner) (he : e ∈ B.inner) {tc fc te fe : S}
    (htc : tc ∈ B.states c) (hfc : fc ∈ B.states c) {P : List (Obs V S × Obs V S) → K} (hP : P = B.cfProb B.roots B.inner) {x : K}
    (hx : x = P [([], []), ([(c, fc)], [(e, fe)]), ([(c, tc)], [(e, te)])]) :
    P [([(c, tc)], [(e, te)])] + P [([(c, fc)], [(e, fe)])] ≤ x + 1 ∧ x ≤ P [([(c, tc)], [(e, te)])] ∧ x ≤ P [([(c, fc)], [(e, fe)])] ∧
    (tc ≠ fc → x + P [([], [(c, tc)])] + P [([], [(c, fc)])] ≤ P [([], [(c, tc), (e, te)])] + P [([], [(c, fc), (e, fe)])] + 1) := by
  have key := worlds_of h hce hc he
  have cmp := cfProb_count h.valid hnn
  have one := cfProb_empty h
  rw [← hP] at cmp one
  refine ⟨?_, ?_, ?_, fun hne => ?_⟩
  · have := cmp [[([(c, tc)], [(e, te)])], [([(c, fc)], [(e, fe)])]] [[([], []), ([(c, fc)], [(e, fe)]), ([(c, tc)], [(e, te)])], []] fun u hu => by
      obtain ⟨b, w, b1, b2, b3, b4, b5, b6, b7, b8⟩ := key u hu
      simp only [List.map_cons, List.map_nil, List.forall_mem_cons, List.not_mem_nil, false_imp_iff, implies_true, and_true, b4, b5, b6, b7, b8 tc htc, b8 fc hfc, true_and]
      by_cases e1 : w tc e = te <;> by_cases e2 : w fc e = fe <;> simp [ind, e1, e2]
    simpa [one, ← hx] using this
  · have := cmp [[([], []), ([(c, fc)], [(e, fe)]), ([(c, tc)], [(e, te)])]] [[([(c, tc)], [(e, te)])]] fun u hu => by
      obtain ⟨b, w, b1, b2, b3, b4, b5, b6, b7, b8⟩ := key u hu
      simp only [List.map_cons, List.map_nil, List.forall_mem_cons, List.not_mem_nil, false_imp_iff, implies_true, and_true, b4, b5, b6, b7, b8 tc htc, b8 fc hfc, true_and]
      by_cases e1 : w tc e = te <;> by_cases e2 : w fc e = fe <;> simp [ind, e1, e2]
    simpa [one, ← hx] using this
  · have := cmp [[([], []), ([(c, fc)], [(e, fe)]), ([(c, tc)], [(e, te)])]] [[([(c, fc)], [(e, fe)])]] fun u hu => by
      obtain ⟨b, w, b1, b2, b3, b4, b5, b6, b7, b8⟩ := key u hu
      simp only [List.map_cons, List.map_nil, List.forall_mem_cons, List.not_mem_nil, false_imp_iff, implies_true, and_true, b4, b5, b6, b7, b8 tc htc, b8 fc hfc, true_and]
      by_cases e1 : w tc e = te <;> by_cases e2 : w fc e = fe <;> simp [ind, e1, e2]
    simpa [one, ← hx] using this
  · have := cmp [[([], []), ([(c, fc)], [(e, fe)]), ([(c, tc)], [(e, te)])], [([], [(c, tc)])], [([], [(c, fc)])]]
        [[([], [(c, tc), (e, te)])], [([], [(c, fc), (e, fe)])], []] fun u hu => by
      obtain ⟨b, w, b1, b2, b3, b4, b5, b6, b7, b8⟩ := key u hu
      simp only [List.map_cons, List.map_nil, List.forall_mem_cons, List.not_mem_nil, false_imp_iff, implies_true, and_true, b4, b5, b6, b7, b8 tc htc, b8 fc hfc, true_and]
      have ht := (b3 tc htc).2
      have hf := (b3 fc hfc).2
      by_cases e1 : b c = tc
      · rw [ht e1]
        have e2 : b c ≠ fc := fun hh => hne (e1.symm.trans hh)
        by_cases e3 : b e = te <;> by_cases e4 : w fc e = fe <;> simp [ind, e1, e2, e3, e4, hne]
      · by_cases e2 : b c = fc
        · rw [hf e2]
          by_cases e3 : w tc e = te <;> by_cases e4 : b e = fe <;> simp [ind, e1, e2, e3, e4, hne.symm]
        · by_cases e3 : w tc e = te <;> by_cases e4 : w fc e = fe <;> simp [ind, e1, e2, e3, e4]
    simpa [one, ← hx, add_assoc] using this

/-- A cause and an effect with two states: bounds on necessity, sufficiency and both. -/
theorem tian_pearl (h : B.Eqs B.inner) (hnn : B.NonNeg) {c e : V} (hce : c ≠ e) (hc : c ∈ B.inner) (he : e ∈ B.inner) {tc fc te fe : S}
    (htc : tc ∈ B.states c) (hfc : fc ∈ B.states c) (hcs : ∀ s ∈ B.states c, s = tc ∨ s = fc) (hes : ∀ s ∈ B.states e, s = te ∨ s = fe)
    (hcn : tc ≠ fc) (hen : te ≠ fe) {P : List (Obs V S × Obs V S) → K} (hP : P = B.cfProb B.roots B.inner) {x y x' : K}
    (hx : x = P [([], []), ([(c, fc)], [(e, fe)]), ([(c, tc)], [(e, te)])]) (hx' : x' = P [([], []), ([(c, fc)], [(e, te)]), ([(c, tc)], [(e, fe)])])
    (hy : y = P [([], [(c, tc), (e, te)]), ([(c, fc)], [(e, fe)])]) :
    P [([(c, fc)], [(e, te)])] + P [([(c, fc)], [(e, fe)])] = 1 ∧
    x + P [([(c, fc)], [(e, te)])] = x' + P [([(c, tc)], [(e, te)])] ∧
    P [([], [(e, te)])] ≤ x + P [([(c, fc)], [(e, te)])] ∧ P [([(c, tc)], [(e, te)])] ≤ x + P [([], [(e, te)])] ∧
    x ≤ P [([], [(c, tc), (e, te)])] + P [([], [(c, fc), (e, fe)])] ∧
    x' ≤ P [([], [(c, tc), (e, fe)])] + P [([], [(c, fc), (e, te)])] ∧
    P [([], [(e, te)])] ≤ y + P [([(c, fc)], [(e, te)])] ∧ y + P [([], [(c, fc), (e, fe)])] ≤ P [([(c, fc)], [(e, fe)])] ∧
    y + P [([(c, fc)], [(e, te)])] ≤ P [([], [(e, te)])] + x' := by
  set H := fun u => B.Holds B.roots B.inner u with hH
  let facts (u : V → S) (xc be wt wf : Bool) : Prop := be = (if xc then wt else wf) ∧ (H u ([], [(c, tc), (e, te)]) ↔ xc ∧ be) ∧
    (H u ([], [(c, tc), (e, fe)]) ↔ xc ∧ !be) ∧ (H u ([], [(c, fc), (e, te)]) ↔ !xc ∧ be) ∧ (H u ([], [(c, fc), (e, fe)]) ↔ !xc ∧ !be) ∧
    (H u ([], [(e, te)]) ↔ be) ∧ H u ([], []) ∧ (H u ([(c, tc)], [(e, te)]) ↔ wt) ∧ (H u ([(c, tc)], [(e, fe)]) ↔ !wt) ∧
    (H u ([(c, fc)], [(e, te)]) ↔ wf) ∧ (H u ([(c, fc)], [(e, fe)]) ↔ !wf)
  have key : ∀ u, (∀ x ∈ B.roots, u x ∈ B.states x) → ∃ xc be wt wf, facts u xc be wt wf := by
    intro u hu
    obtain ⟨b, w, b1, b2, b3, b4, b5, b6, b7, b8⟩ := worlds_of h hce hc he u hu
    have hneg : ∀ t ∈ B.states e, (t = fe ↔ ¬ t = te) := fun t ht => ⟨fun h1 h2 => hen (h2.symm.trans h1), fun h1 => (hes t ht).resolve_left h1⟩
    have hneg' : ∀ t ∈ B.states c, (t = fc ↔ ¬ t = tc) := fun t ht => ⟨fun h1 h2 => hcn (h2.symm.trans h1), fun h1 => (hcs t ht).resolve_left h1⟩
    refine ⟨decide (b c = tc), decide (b e = te), decide (w tc e = te), decide (w fc e = te), ?_, ?_⟩
    · by_cases e1 : b c = tc
      · rw [(b3 tc htc).2 e1]; simp [e1]
      · rw [(b3 fc hfc).2 ((hneg' _ b1).2 e1)]; simp [e1]
    · simp only [hH, b4, b5, b7, b8 tc htc, b8 fc hfc, hneg _ b2, hneg' _ b1, hneg _ (b3 tc htc).1, hneg _ (b3 fc hfc).1, decide_eq_true_eq,
        Bool.not_eq_true', decide_eq_false_iff_not, and_self, true_and]
  have one := cfProb_empty h
  have cmp := cfProb_count h.valid hnn
  rw [← hP] at one cmp
  have tac : ∀ (Ws Ws' : List (List (Obs V S × Obs V S))), (∀ u xc be wt wf, facts u xc be wt wf →
      (Ws.map fun ws => ind (∀ w ∈ ws, H u w)).sum ≤ (Ws'.map fun ws => ind (∀ w ∈ ws, H u w)).sum) → (Ws.map P).sum ≤ (Ws'.map P).sum :=
    fun Ws Ws' hh => cmp Ws Ws' fun u hu => by
      obtain ⟨xc, be, wt, wf, hf⟩ := key u hu
      exact hh u xc be wt wf hf
  subst hx hx' hy
  have A1 := tac [[([(c, fc)], [(e, te)])], [([(c, fc)], [(e, fe)])]] [[]] fun u xc be wt wf ⟨h1, h2, h3, h4, h5, h6, h7, h8, h9, h10, h11⟩ => by
      simp only [List.map_cons, List.map_nil, List.forall_mem_cons, List.not_mem_nil, false_imp_iff, implies_true, and_true, h2, h3, h4, h5, h6, h7, h8, h9, h10, h11, h1, true_and]
      cases xc <;> cases wt <;> cases wf <;> simp [ind]
  have A2 := tac [[]] [[([(c, fc)], [(e, te)])], [([(c, fc)], [(e, fe)])]] fun u xc be wt wf ⟨h1, h2, h3, h4, h5, h6, h7, h8, h9, h10, h11⟩ => by
      simp only [List.map_cons, List.map_nil, List.forall_mem_cons, List.not_mem_nil, false_imp_iff, implies_true, and_true, h2, h3, h4, h5, h6, h7, h8, h9, h10, h11, h1, true_and]
      cases xc <;> cases wt <;> cases wf <;> simp [ind]
  have A3 := tac [[([], []), ([(c, fc)], [(e, fe)]), ([(c, tc)], [(e, te)])], [([(c, fc)], [(e, te)])]]
    [[([], []), ([(c, fc)], [(e, te)]), ([(c, tc)], [(e, fe)])], [([(c, tc)], [(e, te)])]] fun u xc be wt wf ⟨h1, h2, h3, h4, h5, h6, h7, h8, h9, h10, h11⟩ => by
      simp only [List.map_cons, List.map_nil, List.forall_mem_cons, List.not_mem_nil, false_imp_iff, implies_true, and_true, h2, h3, h4, h5, h6, h7, h8, h9, h10, h11, h1, true_and]
      cases xc <;> cases wt <;> cases wf <;> simp [ind]
  have A4 := tac [[([], []), ([(c, fc)], [(e, te)]), ([(c, tc)], [(e, fe)])], [([(c, tc)], [(e, te)])]]
    [[([], []), ([(c, fc)], [(e, fe)]), ([(c, tc)], [(e, te)])], [([(c, fc)], [(e, te)])]] fun u xc be wt wf ⟨h1, h2, h3, h4, h5, h6, h7, h8, h9, h10, h11⟩ => by
      simp only [List.map_cons, List.map_nil, List.forall_mem_cons, List.not_mem_nil, false_imp_iff, implies_true, and_true, h2, h3, h4, h5, h6, h7, h8, h9, h10, h11, h1, true_and]
      cases xc <;> cases wt <;> cases wf <;> simp [ind]
  have A5 := tac [[([], [(e, te)])]] [[([], []), ([(c, fc)], [(e, fe)]), ([(c, tc)], [(e, te)])], [([(c, fc)], [(e, te)])]] fun u xc be wt wf ⟨h1, h2, h3, h4, h5, h6, h7, h8, h9, h10, h11⟩ => by
      simp only [List.map_cons, List.map_nil, List.forall_mem_cons, List.not_mem_nil, false_imp_iff, implies_true, and_true, h2, h3, h4, h5, h6, h7, h8, h9, h10, h11, h1, true_and]
      cases xc <;> cases wt <;> cases wf <;> simp [ind]
  have A6 := tac [[([(c, tc)], [(e, te)])]] [[([], []), ([(c, fc)], [(e, fe)]), ([(c, tc)], [(e, te)])], [([], [(e, te)])]] fun u xc be wt wf ⟨h1, h2, h3, h4, h5, h6, h7, h8, h9, h10, h11⟩ => by
      simp only [List.map_cons, List.map_nil, List.forall_mem_cons, List.not_mem_nil, false_imp_iff, implies_true, and_true, h2, h3, h4, h5, h6, h7, h8, h9, h10, h11, h1, true_and]
      cases xc <;> cases wt <;> cases wf <;> simp [ind]
  have A7 := tac [[([], []), ([(c, fc)], [(e, fe)]), ([(c, tc)], [(e, te)])]] [[([], [(c, tc), (e, te)])], [([], [(c, fc), (e, fe)])]] fun u xc be wt wf ⟨h1, h2, h3, h4, h5, h6, h7, h8, h9, h10, h11⟩ => by
      simp only [List.map_cons, List.map_nil, List.forall_mem_cons, List.not_mem_nil, false_imp_iff, implies_true, and_true, h2, h3, h4, h5, h6, h7, h8, h9, h10, h11, h1, true_and]
      cases xc <;> cases wt <;> cases wf <;> simp [ind]
  have A8 := tac [[([], []), ([(c, fc)], [(e, te)]), ([(c, tc)], [(e, fe)])]] [[([], [(c, tc), (e, fe)])], [([], [(c, fc), (e, te)])]] fun u xc be wt wf ⟨h1, h2, h3, h4, h5, h6, h7, h8, h9, h10, h11⟩ => by
      simp only [List.map_cons, List.map_nil, List.forall_mem_cons, List.not_mem_nil, false_imp_iff, implies_true, and_true, h2, h3, h4, h5, h6, h7, h8, h9, h10, h11, h1, true_and]
      cases xc <;> cases wt <;> cases wf <;> simp [ind]
  have A9 := tac [[([], [(e, te)])]] [[([], [(c, tc), (e, te)]), ([(c, fc)], [(e, fe)])], [([(c, fc)], [(e, te)])]] fun u xc be wt wf ⟨h1, h2, h3, h4, h5, h6, h7, h8, h9, h10, h11⟩ => by
      simp only [List.map_cons, List.map_nil, List.forall_mem_cons, List.not_mem_nil, false_imp_iff, implies_true, and_true, h2, h3, h4, h5, h6, h7, h8, h9, h10, h11, h1, true_and]
      cases xc <;> cases wt <;> cases wf <;> simp [ind]
  have A10 := tac [[([], [(c, tc), (e, te)]), ([(c, fc)], [(e, fe)])], [([], [(c, fc), (e, fe)])]] [[([(c, fc)], [(e, fe)])]] fun u xc be wt wf ⟨h1, h2, h3, h4, h5, h6, h7, h8, h9, h10, h11⟩ => by
      simp only [List.map_cons, List.map_nil, List.forall_mem_cons, List.not_mem_nil, false_imp_iff, implies_true, and_true, h2, h3, h4, h5, h6, h7, h8, h9, h10, h11, h1, true_and]
      cases xc <;> cases wt <;> cases wf <;> simp [ind]
  have A11 := tac [[([], [(c, tc), (e, te)]), ([(c, fc)], [(e, fe)])], [([(c, fc)], [(e, te)])]]
    [[([], [(e, te)])], [([], []), ([(c, fc)], [(e, te)]), ([(c, tc)], [(e, fe)])]] fun u xc be wt wf ⟨h1, h2, h3, h4, h5, h6, h7, h8, h9, h10, h11⟩ => by
      simp only [List.map_cons, List.map_nil, List.forall_mem_cons, List.not_mem_nil, false_imp_iff, implies_true, and_true, h2, h3, h4, h5, h6, h7, h8, h9, h10, h11, h1, true_and]
      cases xc <;> cases wt <;> cases wf <;> simp [ind]
  simp only [List.map_cons, List.map_nil, List.sum_cons, List.sum_nil, add_zero, one] at A1 A2 A3 A4 A5 A6 A7 A8 A9 A10 A11
  exact ⟨le_antisymm A1 A2, le_antisymm A3 A4, A5, A6, A7, A8, A9, A10, A11⟩

end BN
end Verif
