import Verif.Inference.CfLemmas

/-!
# Counterfactual probabilities: helper lemmas
-/

set_option linter.unusedSectionVars false
set_option linter.unusedSimpArgs false

namespace Verif

variable {V S K : Type} [DecidableEq V] [DecidableEq S] [Inhabited S] [Field K] [LinearOrder K] [IsStrictOrderedRing K]

theorem sumOver_add {D : V → List S} (xs : List V) (f g : (V → S) → K) (a : V → S) :
    sumOver D xs (fun b => f b + g b) a = sumOver D xs f a + sumOver D xs g a := by
  induction xs generalizing a with
  | nil => rfl
  | cons x xs ih =>
    simp only [sumOver_cons, ih, List.sum_map_add]

theorem sumOver_le {D : V → List S} {xs : List V} (hx : xs.Nodup) {f g : (V → S) → K} {a : V → S}
    (h : ∀ b, (∀ v ∈ xs, b v ∈ D v) → f b ≤ g b) : sumOver D xs f a ≤ sumOver D xs g a := by
  have : ∀ (xs : List V), xs.Nodup → ∀ a : V → S,
      (∀ b, (∀ v, v ∉ xs → b v = a v) → (∀ v ∈ xs, b v ∈ D v) → f b ≤ g b) → sumOver D xs f a ≤ sumOver D xs g a := by
    intro xs
    induction xs with
    | nil => intro _ a h; exact h a (fun _ _ => rfl) (by simp)
    | cons x xs ih =>
      intro hn a h
      rw [List.nodup_cons] at hn
      rw [sumOver_cons, sumOver_cons]
      refine List.sum_le_sum fun s hs => ih hn.2 _ fun b h1 h2 => h b (fun v hv => ?_) fun v hv => ?_
      · rw [h1 v fun h => hv (List.mem_cons_of_mem _ h), upd_ne _ _ fun h => hv (by simp [h])]
      · rcases List.mem_cons.1 hv with rfl | hv
        · rw [h1 v hn.1, upd_same]; exact hs
        · exact h2 v hv
  exact this xs hx a fun b _ h2 => h b h2

namespace BN

variable {B : BN V S K}

/-- The equations of the nodes with parents. -/
theorem eqs_inner (hB : B.Valid) (hn : B.Normalised) (he : ∀ v ∈ B.inner, ∀ a, B.InStates a → B.table v a = 0 ∨ B.table v a = 1) :
    B.Eqs B.inner := ⟨hB, hn, hB.nodes.filter _, fun _ hv => (mem_inner.1 hv).1, he⟩

theorem Eqs.doBN {N : List V} (h : B.Eqs N) {d : Obs V S} (hd : B.DoOk d) : (B.doBN d).Eqs N :=
  ⟨h.valid.doBN d, BN.Normalised.doBN h.valid h.norm hd, h.nodup, h.nodes, fun v hv a ha => BN.doBN_zero_one fun _ => h.zeroOne v hv a ha⟩

theorem DoOk.nil : B.DoOk [] := fun v s hs => by cases hs

/-- A world has one solution. -/
theorem Solves.unique (h : B.Eqs B.inner) {d : Obs V S} (hd : B.DoOk d) {u b c : V → S} (hu : ∀ x ∈ B.roots, u x ∈ B.states x)
    (hb : B.Solves B.inner d b) (hc : B.Solves B.inner d c) (hbu : ∀ x ∈ B.roots, b x = u x) (hcu : ∀ x ∈ B.roots, c x = u x) :
    ∀ v ∈ B.nodes, b v = c v := by
  have hr : ∀ v ∈ B.nodes, v ∉ B.inner → v ∈ B.roots := fun v hv hvi =>
    mem_roots.2 ⟨hv, by_contra fun hc => hvi (mem_inner.2 ⟨hv, hc⟩)⟩
  refine (h.doBN hd).unique (solves_iff.1 hb) (solves_iff.1 hc) (fun v hv hvi => ?_) fun v hv hvi => ?_
  · rw [hbu v (hr v hv hvi)]; exact hu v (hr v hv hvi)
  · rw [hbu v (hr v hv hvi), hcu v (hr v hv hvi)]

theorem exists_solves (h : B.Eqs B.inner) {d : Obs V S} (hd : B.DoOk d) {u : V → S} (hu : ∀ x ∈ B.roots, u x ∈ B.states x) :
    ∃ b, (∀ x ∈ B.roots, b x = u x) ∧ B.Solves B.inner d b := by
  obtain ⟨a, h1, h2⟩ : ∃ a, (∀ x ∈ B.roots, a x = u x) ∧ B.InStates a := by
    refine ⟨fun v => if v ∈ B.roots then u v else (B.states v).headD default, fun x hx => if_pos hx, fun v hv => ?_⟩
    show (if v ∈ B.roots then u v else (B.states v).headD default) ∈ _
    split
    · rename_i hx; exact hu v hx
    · have hne := h.valid.nonempty v hv
      cases hs : B.states v with
      | nil => exact absurd hs hne
      | cons s l => simp
  obtain ⟨b, b1, b2⟩ := (h.doBN hd).exists_sol (a := a) h2
  refine ⟨b, fun x hx => ?_, solves_iff.2 b2⟩
  rw [b1 x fun hc => (mem_inner.1 hc).2 (mem_roots.1 hx).2, h1 x hx]

/-- What holds in a world, in terms of its solution. -/
theorem holds_sol (h : B.Eqs B.inner) {d c : Obs V S} (hd : B.DoOk d) (hc : ∀ v ∈ Dict.keys c, v ∈ B.nodes) {u b : V → S}
    (hu : ∀ x ∈ B.roots, u x ∈ B.states x) (hb : B.Solves B.inner d b) (hbu : ∀ x ∈ B.roots, b x = u x) :
    B.Holds B.roots B.inner u (d, c) ↔ Agrees c b := by
  constructor
  · rintro ⟨b', h1, h2, h3⟩
    exact h3.congr fun v hv => h2.unique h hd hu hb h1 hbu v (hc v hv)
  · exact fun hag => ⟨b, hbu, hb, hag⟩

/-- The world of an intervention that agrees with what is the case is the actual one. -/
theorem solves_consistent {d : Obs V S} {b : V → S} (hb : B.Solves B.inner [] b)
    (hag : ∀ v ∈ B.inner, ∀ s, Dict.get? d v = some s → b v = s) : B.Solves B.inner d b := by
  intro v hv
  obtain ⟨h1, _, h3⟩ := hb v hv
  exact ⟨h1, hag v hv, fun _ => h3 rfl⟩

theorem holds_consistent (h : B.Eqs B.inner) {d ev t : Obs V S} (hd : B.DoOk d) (hev : ∀ v ∈ Dict.keys ev, v ∈ B.nodes)
    (ht : ∀ v ∈ Dict.keys t, v ∈ B.nodes) (hsub : ∀ v s, Dict.get? d v = some s → Dict.get? ev v = some s) {u : V → S}
    (hu : ∀ x ∈ B.roots, u x ∈ B.states x) :
    B.Holds B.roots B.inner u ([], ev) ∧ B.Holds B.roots B.inner u (d, t) ↔
      B.Holds B.roots B.inner u ([], ev) ∧ B.Holds B.roots B.inner u ([], t) := by
  obtain ⟨b, b1, b2⟩ := exists_solves h DoOk.nil hu
  rw [holds_sol h DoOk.nil hev hu b2 b1, holds_sol h DoOk.nil ht hu b2 b1]
  refine and_congr_right fun hag => ?_
  rw [holds_sol h hd ht hu (solves_consistent b2 fun v _ s hs => hag v s (hsub v s hs)) b1]

/-- Probabilities of factual observations are those of the network. -/
theorem cfProb_factual (h : B.Eqs B.inner) {ev : Obs V S} (hev : EvOk B ev) :
    B.cfProb B.roots B.inner [([], ev)] = B.marg (Dict.keys ev) (asg ev) := by
  classical
  rw [h.marg B.roots_inner (fun x hx => (mem_roots.1 hx).2) hev.nodes (a := asg ev) (fun v hv => by
    obtain ⟨s, hs⟩ := Option.isSome_iff_exists.1 (Dict.get?_isSome.2 hv)
    rw [asg, over_of_get? hs]; exact hev.states v s hs) fun _ => default, cfProb]
  refine sumOver_congr' (fun u => ?_) _
  have : (∃ b : V → S, (∀ x ∈ B.roots, b x = u x) ∧ B.Sol B.inner b ∧ ∀ v ∈ Dict.keys ev, b v = asg ev v) ↔
      ∀ w ∈ [(([] : Obs V S), ev)], B.Holds B.roots B.inner u w := by
    constructor
    · rintro ⟨b, b1, b2, b3⟩ w hw
      rw [List.mem_singleton.1 hw]
      refine ⟨b, b1, solves_iff.2 b2, fun v s hs => ?_⟩
      rw [b3 v (Dict.mem_keys_of_mem (Dict.mem_of_get? hs)), asg, over_of_get? hs]
    · intro hw
      obtain ⟨b, b1, b2, b3⟩ := hw _ List.mem_cons_self
      refine ⟨b, b1, solves_iff.1 b2, fun v hv => ?_⟩
      obtain ⟨s, hs⟩ := Option.isSome_iff_exists.1 (Dict.get?_isSome.2 hv)
      rw [b3 v s hs, asg, over_of_get? hs]
  by_cases hc : ∀ w ∈ [(([] : Obs V S), ev)], B.Holds B.roots B.inner u w
  · rw [if_pos hc, if_pos (this.2 hc)]
  · rw [if_neg hc, if_neg fun hh => hc (this.1 hh)]

theorem marg_nil (hB : B.Valid) (hn : B.Normalised) (a : V → S) : B.marg [] a = 1 := by
  rw [hB.marg_eq fun v hv => by cases hv]
  have : B.nodes.filter (· ∉ ([] : List V)) = B.nodes := List.filter_eq_self.2 (by simp)
  rw [this]
  exact (hB.tables hn).sum_one a

/-- Every exogenous state counts. -/
theorem cfProb_total (h : B.Eqs B.inner) : B.cfProb B.roots B.inner [([], [])] = 1 := by
  have : EvOk B ([] : Obs V S) := ⟨.nil, (fun v hv => by cases hv), (fun v s hs => by cases hs)⟩
  rw [cfProb_factual h this]
  exact marg_nil h.valid h.norm _

theorem roots_nonneg (hB : B.Valid) (hnn : B.NonNeg) {u : V → S} (hu : ∀ x ∈ B.roots, u x ∈ B.states x) :
    0 ≤ (B.roots.map fun x => B.table x u).prod := by
  refine List.prod_nonneg fun y hy => ?_
  obtain ⟨x, hx, rfl⟩ := List.mem_map.1 hy
  have hxn := (mem_roots.1 hx).1
  have := hnn x hxn (fun v => if v ∈ B.roots then u v else (B.states v).headD default) (fun v hv => by
    show (if v ∈ B.roots then u v else (B.states v).headD default) ∈ _
    split
    · rename_i hx; exact hu v hx
    · have hne := hB.nonempty v hv
      cases hs : B.states v with
      | nil => exact absurd hs hne
      | cons s l => simp)
  rw [hB.scope x hxn _ u fun w hw => ?_] at this
  · exact this
  · rw [(mem_roots.1 hx).2, List.mem_singleton] at hw
    rw [hw, if_pos hx]

theorem cfProb_nonneg (hB : B.Valid) (hnn : B.NonNeg) (ws : List (Obs V S × Obs V S)) : 0 ≤ B.cfProb B.roots B.inner ws := by
  rw [cfProb]
  refine (sumOver_zero (D := B.states) B.roots (fun _ => default)).ge.trans ?_
  refine sumOver_le (hB.nodes.filter _) fun u hu => ?_
  split
  · exact roots_nonneg hB hnn hu
  · exact le_refl (0 : K)

theorem cfProb_mono (hB : B.Valid) (hnn : B.NonNeg) {ws ws' : List (Obs V S × Obs V S)} (h : ∀ w ∈ ws, w ∈ ws') :
    B.cfProb B.roots B.inner ws' ≤ B.cfProb B.roots B.inner ws := by
  rw [cfProb, cfProb]
  refine sumOver_le (hB.nodes.filter _) fun u hu => ?_
  split
  · rename_i hc
    rw [if_pos fun w hw => hc w (h w hw)]
  · split
    · exact roots_nonneg hB hnn hu
    · exact le_refl (0 : K)

/-- Splitting an event. -/
theorem cfProb_split (hB : B.Valid) {ws ws1 ws2 : List (Obs V S × Obs V S)}
    (h : ∀ u : V → S, (∀ x ∈ B.roots, u x ∈ B.states x) → ((∀ w ∈ ws, B.Holds B.roots B.inner u w) ↔
      (∀ w ∈ ws1, B.Holds B.roots B.inner u w) ∨ ∀ w ∈ ws2, B.Holds B.roots B.inner u w))
    (hdis : ∀ u : V → S, (∀ x ∈ B.roots, u x ∈ B.states x) →
      ¬ ((∀ w ∈ ws1, B.Holds B.roots B.inner u w) ∧ ∀ w ∈ ws2, B.Holds B.roots B.inner u w)) :
    B.cfProb B.roots B.inner ws = B.cfProb B.roots B.inner ws1 + B.cfProb B.roots B.inner ws2 := by
  rw [cfProb, cfProb, cfProb, ← sumOver_add]
  refine sumOver_congr (hB.nodes.filter _) fun u _ hu => ?_
  by_cases h1 : ∀ w ∈ ws1, B.Holds B.roots B.inner u w
  · have h2 : ¬ ∀ w ∈ ws2, B.Holds B.roots B.inner u w := fun h2 => hdis u hu ⟨h1, h2⟩
    rw [if_pos ((h u hu).2 (.inl h1)), if_pos h1, if_neg h2, add_zero]
  · by_cases h2 : ∀ w ∈ ws2, B.Holds B.roots B.inner u w
    · rw [if_pos ((h u hu).2 (.inr h2)), if_neg h1, if_pos h2, zero_add]
    · rw [if_neg fun hh => ((h u hu).1 hh).elim h1 h2, if_neg h1, if_neg h2, add_zero]

theorem agrees_one {c : V} {s : S} {b : V → S} : Agrees [(c, s)] b ↔ b c = s := by
  constructor
  · exact fun h => h c s (by simp [Dict.get?])
  · intro h v t ht
    have := Dict.mem_of_get? ht
    simp only [List.mem_singleton, Prod.mk.injEq] at this
    rw [this.1, this.2]; exact h

theorem agrees_two {c e : V} (hce : c ≠ e) {s t : S} {b : V → S} : Agrees [(c, s), (e, t)] b ↔ b c = s ∧ b e = t := by
  constructor
  · exact fun h => ⟨h c s (by simp [Dict.get?]), h e t (by simp [Dict.get?, hce])⟩
  · rintro ⟨h1, h2⟩ v x hx
    have := Dict.mem_of_get? hx
    simp only [List.mem_cons, Prod.mk.injEq, List.not_mem_nil, or_false] at this
    rcases this with ⟨rfl, rfl⟩ | ⟨rfl, rfl⟩
    · exact h1
    · exact h2

/-- What the effect would be under both interventions, split by what the cause is. -/
theorem cfProb_pns (h : B.Eqs B.inner) {c e : V} (hce : c ≠ e) (hc : c ∈ B.inner) (he : e ∈ B.inner) {tc fc te fe : S} (hne : tc ≠ fc)
    (hst : ∀ s, s ∈ B.states c ↔ s = tc ∨ s = fc) :
    B.cfProb B.roots B.inner [([], []), ([(c, fc)], [(e, fe)]), ([(c, tc)], [(e, te)])] =
      B.cfProb B.roots B.inner [([], [(c, tc), (e, te)]), ([(c, fc)], [(e, fe)])] +
      B.cfProb B.roots B.inner [([], [(c, fc), (e, fe)]), ([(c, tc)], [(e, te)])] := by
  have hdo : ∀ s, s ∈ B.states c → B.DoOk [(c, s)] := by
    intro s hs v t ht _
    have := Dict.mem_of_get? ht
    simp only [List.mem_singleton, Prod.mk.injEq] at this
    rw [this.1, this.2]; exact hs
  have htc := (hst tc).2 (.inl rfl)
  have hfc := (hst fc).2 (.inr rfl)
  have hen := (mem_inner.1 he).1
  have hcn := (mem_inner.1 hc).1
  have k1 : ∀ s : S, ∀ v ∈ Dict.keys [(e, s)], v ∈ B.nodes := by intro s v hv; simp at hv; rw [hv]; exact hen
  have k2 : ∀ s t : S, ∀ v ∈ Dict.keys [(c, s), (e, t)], v ∈ B.nodes := by
    intro s t v hv
    simp at hv
    rcases hv with rfl | rfl
    · exact hcn
    · exact hen
  have key : ∀ u : V → S, (∀ x ∈ B.roots, u x ∈ B.states x) → ∃ b bt bf : V → S, (b c = tc ∨ b c = fc) ∧
      (b c = tc → bt e = b e) ∧ (b c = fc → bf e = b e) ∧
      (B.Holds B.roots B.inner u ([], [])) ∧
      (∀ s t, B.Holds B.roots B.inner u ([], [(c, s), (e, t)]) ↔ b c = s ∧ b e = t) ∧
      (∀ t, B.Holds B.roots B.inner u ([(c, tc)], [(e, t)]) ↔ bt e = t) ∧
      (∀ t, B.Holds B.roots B.inner u ([(c, fc)], [(e, t)]) ↔ bf e = t) := by
    intro u hu
    obtain ⟨b, b1, b2⟩ := exists_solves h DoOk.nil hu
    obtain ⟨bt, t1, t2⟩ := exists_solves h (hdo tc htc) hu
    obtain ⟨bf, f1, f2⟩ := exists_solves h (hdo fc hfc) hu
    have hcons : ∀ s, s ∈ B.states c → b c = s → B.Solves B.inner [(c, s)] b := fun s _ hbs => solves_consistent b2 fun v _ t ht => by
      have := Dict.mem_of_get? ht
      simp only [List.mem_singleton, Prod.mk.injEq] at this
      rw [this.1, this.2]; exact hbs
    refine ⟨b, bt, bf, (hst _).1 (b2 c hc).1, fun hb => ?_, fun hb => ?_, ⟨b, b1, b2, fun v s hs => by cases hs⟩, fun s t => ?_,
      fun t => ?_, fun t => ?_⟩
    · exact Solves.unique h (hdo tc htc) hu t2 (hcons tc htc hb) t1 b1 e hen
    · exact Solves.unique h (hdo fc hfc) hu f2 (hcons fc hfc hb) f1 b1 e hen
    · rw [holds_sol h DoOk.nil (k2 s t) hu b2 b1, agrees_two hce]
    · rw [holds_sol h (hdo tc htc) (k1 t) hu t2 t1, agrees_one]
    · rw [holds_sol h (hdo fc hfc) (k1 t) hu f2 f1, agrees_one]
  refine cfProb_split h.valid (fun u hu => ?_) fun u hu => ?_
  · obtain ⟨b, bt, bf, hb, ht, hf, h0, h1, h2, h3⟩ := key u hu
    simp only [List.forall_mem_cons, List.not_mem_nil, false_imp_iff, implies_true, and_true, h0, true_and, h1, h2, h3]
    constructor
    · rintro ⟨a1, a2⟩
      rcases hb with hb | hb
      · exact .inl ⟨⟨hb, (ht hb).symm.trans a2⟩, a1⟩
      · exact .inr ⟨⟨hb, (hf hb).symm.trans a1⟩, a2⟩
    · rintro (⟨⟨a1, a2⟩, a3⟩ | ⟨⟨a1, a2⟩, a3⟩)
      · exact ⟨a3, (ht a1).trans a2⟩
      · exact ⟨(hf a1).trans a2, a3⟩
  · obtain ⟨b, bt, bf, hb, ht, hf, h0, h1, h2, h3⟩ := key u hu
    simp only [List.forall_mem_cons, List.not_mem_nil, false_imp_iff, implies_true, and_true, h1, h2, h3]
    rintro ⟨⟨⟨a1, _⟩, _⟩, ⟨⟨a2, _⟩, _⟩⟩
    exact hne (a1.symm.trans a2)

end BN
end Verif
