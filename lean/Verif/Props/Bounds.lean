import Verif.Net.Bounds
import Verif.Props.IdentifiedEx

/-!
# C89: what observations and experiments say about the answers

`P(v)` is `BN.marg`, `P(v | do(d))` is `BN.doMarg`.  An intervention moves a probability by at most the probability that the
imposed states are not the actual ones (`C89_intervention`).  The probabilities of causation of a cause and an effect with two
states lie within the bounds of Tian and Pearl (`C89_both_partial`, `C89_necessity_partial`, `C89_sufficiency_partial`), and are
equal to differences of probabilities if the cause never prevents the effect (`C89_monotone_partial`).  The last theorems are about the
bounds that `GDCC` computes: they respect the frequencies of the records.
-/

set_option linter.unusedSectionVars false
set_option linter.unusedSimpArgs false

namespace Verif
namespace Props
open Causal

variable {V S K : Type} [DecidableEq V] [DecidableEq S] [Inhabited S] [Field K] [LinearOrder K] [IsStrictOrderedRing K] {vt : VType}

local notation "II" => (storeOf vt : StoreImpl V S (Fl K))
local notation "LL" => (labelStoreOf vt : LabelStore V S)

/-! ### Specification -/

/-- `P(c = s, e = t)` -/
noncomputable def both2 (B : BN V S K) (c e : V) (s t : S) : K := B.marg [c, e] (asg [(c, s), (e, t)])

/-- `P(e = t)` -/
noncomputable def one1 (B : BN V S K) (e : V) (t : S) : K := B.marg [e] (asg [(e, t)])

/-- `P(e = t | do(c = s))` -/
noncomputable def did (B : BN V S K) (c e : V) (s t : S) : K := B.doMarg [(c, s)] [e] (asg [(e, t)])

/-- The bounds of Tian and Pearl on the probability `x` of necessity and sufficiency; `obs`: `P(c, e)`, `eff`: `P(e)`, `exp`: `P(e | do(c))`. -/
def TianPearl (obs : S → S → K) (eff : S → K) (exp : S → S → K) (tc fc te fe : S) (lo hi : K) : Prop :=
  (0 ≤ lo ∧ exp tc te - exp fc te ≤ lo ∧ eff te - exp fc te ≤ lo ∧ exp tc te - eff te ≤ lo) ∧
  hi ≤ exp tc te ∧ hi ≤ exp fc fe ∧ hi ≤ obs tc te + obs fc fe ∧ hi ≤ exp tc te - exp fc te + obs tc fe + obs fc te

/-- A cause and an effect with two states -/
structure TwoStates (B : BN V S K) (c e : V) (tc fc te fe : S) : Prop where
  cause : ∀ s ∈ B.states c, s = tc ∨ s = fc
  effect : ∀ s ∈ B.states e, s = te ∨ s = fe
  causeNe : tc ≠ fc
  effectNe : te ≠ fe

/-! ### Interventions -/

theorem doMarg_nil_one {B : BN V S K} (hB : B.Valid) (hn : B.Normalised) {d : Obs V S} (hd : EvOk B d) : B.doMarg d (Dict.keys ([] : Obs V S)) (asg []) = 1 := by
  rw [← BN.doMarg_eq hd.nodes]
  exact marg_nil (hB.doBN _) (BN.Normalised.doBN hB hn fun v s hvs _ => hd.states v s hvs) _

theorem evOk_nil (B : BN V S K) : EvOk B ([] : Obs V S) := ⟨by simp [Dict.keys], by simp [Dict.keys], fun v s hvs => by cases hvs⟩

theorem evOk_one {B : BN V S K} {e : V} {t : S} (he : e ∈ B.nodes) (ht : t ∈ B.states e) : EvOk B [(e, t)] := by
  refine ⟨by simp [Dict.keys], by simpa [Dict.keys] using he, fun v s hvs => ?_⟩
  have := Dict.mem_of_get? hvs
  simp only [List.mem_singleton, Prod.mk.injEq] at this
  rw [this.1, this.2]; exact ht

/-- The values of the observation where there are some, those of the intervention elsewhere -/
theorem natural_of {B : BN V S K} (hB : B.Valid) (hn : B.Normalised) (hnn : B.NonNeg) {T : List V} {d : Obs V S} (hTn : T.Nodup)
    (hTv : ∀ t ∈ T, t ∈ B.nodes ∧ t ∉ Dict.keys d) (hd : EvOk B d) {obs : Obs V S} (ho : ∀ t ∈ T, (asg obs : V → S) t ∈ B.states t) :
    B.marg (T ++ Dict.keys d) (asg (d ++ obs)) ≤ B.doMarg d T (asg obs) ∧
    B.doMarg d T (asg obs) ≤ B.marg (T ++ Dict.keys d) (asg (d ++ obs)) + (1 - B.marg (Dict.keys d) (asg d)) := by
  have hs : ∀ t ∈ T, (asg (d ++ obs) : V → S) t = asg obs t := fun t ht => by
    rw [asg_append]
    rw [over, Dict.get?_eq_none.2 (hTv t ht).2]; rfl
  have hdd : ∀ t ∈ Dict.keys d, (asg (d ++ obs) : V → S) t = asg d t := fun t ht => by
    obtain ⟨s, hs⟩ := Option.isSome_iff_exists.1 (Dict.get?_isSome.2 ht)
    rw [asg_append, over_of_get? hs, asg, over_of_get? hs]
  have := BN.doMarg_natural hB hn hnn (d := d) (T := T) (a := asg (d ++ obs)) (fun v s hvs _ => hd.states v s hvs) hd.nodes hd.nodup
    hTv hTn (fun t ht => by rw [hs t ht]; exact ho t ht) (fun v s hvs => by rw [asg_append, over_of_get? hvs])
  rw [hB.marg_dep (Dict.keys d) _ (asg d) hdd, BN.doMarg_dep hB hd.nodes T _ _ hs] at this
  exact this

/-- **C89** an answer of `causal_query` without evidence is at least the probability that the targets and the imposed states are observed together, and
exceeds it by at most the probability that other states than the imposed ones are observed. -/
theorem C89_intervention {ch : Choices V} (hch : ch.Ok) {m : SCM II LL} {B : BN V S K} (h : CausalOk m B) (hnn : B.NonNeg) {T : List V}
    {d : Obs V S} (hT : T ≠ []) (hTn : T.Nodup) (hTv : ∀ t ∈ T, t ∈ B.nodes ∧ t ∉ Dict.keys d) (hd : EvOk B d) :
    ∃ m' r, new m = .ok m' ∧ causalQuery ch m' T d none = .ok r ∧ (∀ v, v ∈ r.vars ↔ v ∈ T) ∧ (∀ p ∈ r.dom, p.2 = B.states p.1) ∧
      ∀ obs, FullObs r.dom obs → ∃ x, r.getValue obs = .ok (.fin x) ∧ B.marg (T ++ Dict.keys d) (asg (d ++ obs)) ≤ x ∧
        x ≤ B.marg (T ++ Dict.keys d) (asg (d ++ obs)) + (1 - B.marg (Dict.keys d) (asg d)) := by
  have h1 := doMarg_nil_one h.valid h.norm hd
  obtain ⟨m', r, r1, r2, _, r4, r5, _, r7⟩ := C42_interventional hch h (T := T) (d := d) (ev := []) (e := none) hT hTn
    (fun t ht => ⟨(hTv t ht).1, by simp [Dict.keys], (hTv t ht).2⟩) hd (evOk_nil B) rfl (by rw [h1]; exact one_ne_zero)
  refine ⟨m', r, r1, r2, r5, r4, fun obs ho => ⟨_, r7 obs ho, ?_⟩⟩
  rw [h1, div_one, List.nil_append, show T ++ Dict.keys ([] : Obs V S) = T from List.append_nil T]
  refine natural_of h.valid h.norm hnn hTn hTv hd fun t ht => ?_
  obtain ⟨st, hst⟩ := Dict.mem_keys.1 ((r5 t).2 ht)
  obtain ⟨s, s1, s2⟩ := ho _ hst
  rw [asg, over_of_get? s2, ← r4 _ hst]; exact s1

/-! ### Probabilities of causation -/

section worlds
variable {sfx : V → Nat → V}

theorem CausationOk.probs {B : BN V S K} {c e : V} {tc fc te fe : S} (hE : B.Eqs B.inner) (hc : CausationOk B sfx c e tc fc te fe) :
    (∀ s ∈ B.states c, ∀ t ∈ B.states e, B.cfProb B.roots B.inner [([(c, s)], [(e, t)])] = did B c e s t ∧
      B.cfProb B.roots B.inner [([], [(c, s), (e, t)])] = both2 B c e s t) ∧
    (∀ t ∈ B.states e, B.cfProb B.roots B.inner [([], [(e, t)])] = one1 B e t) ∧ ∀ t ∈ B.states c, B.cfProb B.roots B.inner [([], [(c, t)])] = one1 B c t := by
  have hen := (BN.mem_inner.1 hc.effect).1
  have hcn := (BN.mem_inner.1 hc.cause).1
  refine ⟨fun s hs t ht => ⟨?_, BN.cfProb_factual hE (hc.evOk hs ht)⟩, fun t ht => BN.cfProb_factual hE (evOk_one hen ht), fun t ht => BN.cfProb_factual hE (evOk_one hcn ht)⟩
  refine BN.cfProb_do hE (fun v s' hs' _ => (evOk_one hcn hs).states v s' hs') (fun v hv => ?_) (evOk_one hen ht)
  rw [show v = c by simpa [Dict.keys] using hv]; exact hc.cause

/-- **C89** (partial) necessity and sufficiency, whatever the numbers of states: between `P(te | do(tc)) + P(fe | do(fc)) - 1` and each of the two. -/
theorem C89_frechet_partial {ch : Choices V} (hch : ch.Ok) {m : SCM II LL} {B : BN V S K} (h : CausalOk m B) (hnn : B.NonNeg) {c e : V} {tc fc te fe : S}
    (hc : CausationOk B sfx c e tc fc te fe) (hne : tc ≠ fc) {m' : SCM II LL} (hm : new m = .ok m') :
    ∃ x : K, pns sfx ch m' c e tc fc te fe = .ok (.fin x) ∧ did B c e tc te + did B c e fc fe - 1 ≤ x ∧ x ≤ did B c e tc te ∧ x ≤ did B c e fc fe ∧
      x ≤ both2 B c e tc te + both2 B c e fc fe + (1 - one1 B c tc - one1 B c fc) := by
  have hE := BN.eqs_inner h.valid h.norm h.equations
  obtain ⟨m1, e1, e2⟩ := C46_necessity_sufficiency_partial hch h hc
  rw [hm] at e1; injection e1 with e1; subst e1
  obtain ⟨p1, p2, p3⟩ := hc.probs hE
  obtain ⟨f1, f2, f3, f4⟩ := BN.frechet hE hnn hc.ne hc.cause hc.effect (te := te) (fe := fe) hc.trueCause hc.falseCause rfl rfl
  have f4 := f4 hne
  rw [(p1 tc hc.trueCause te hc.trueEffect).1] at f1 f2
  rw [(p1 fc hc.falseCause fe hc.falseEffect).1] at f1 f3
  rw [p3 tc hc.trueCause, p3 fc hc.falseCause, (p1 tc hc.trueCause te hc.trueEffect).2, (p1 fc hc.falseCause fe hc.falseEffect).2] at f4
  exact ⟨_, e2, by linarith, f2, f3, by linarith⟩

/-- The bounds for one network -/
theorem tianPearl_of {m : SCM II LL} {B : BN V S K} (h : CausalOk m B) (hnn : B.NonNeg) {c e : V} {tc fc te fe : S}
    (hc : CausationOk B sfx c e tc fc te fe) (h2 : TwoStates B c e tc fc te fe) :
    TianPearl (both2 B c e) (one1 B e) (did B c e) tc fc te fe (bothWays B c e tc fc te fe) (bothWays B c e tc fc te fe) := by
  have hE := BN.eqs_inner h.valid h.norm h.equations
  obtain ⟨p1, p2, _⟩ := hc.probs hE
  obtain ⟨f1, f2, f3, _⟩ := BN.frechet hE hnn hc.ne hc.cause hc.effect (te := te) (fe := fe) hc.trueCause hc.falseCause rfl rfl
  obtain ⟨t1, t2, t3, t4, t5, t6, t7, t8, t9⟩ := BN.tian_pearl hE hnn hc.ne hc.cause hc.effect hc.trueCause hc.falseCause h2.cause h2.effect h2.causeNe h2.effectNe
    rfl rfl rfl rfl
  have a1 := (p1 tc hc.trueCause te hc.trueEffect).1
  have a2 := (p1 fc hc.falseCause te hc.trueEffect).1
  have a3 := (p1 fc hc.falseCause fe hc.falseEffect).1
  rw [a1] at f2 f1 t2 t4
  rw [a3] at f3 f1 t1
  rw [a2] at t1 t2 t3
  rw [p2 te hc.trueEffect] at t3 t4
  rw [(p1 tc hc.trueCause te hc.trueEffect).2, (p1 fc hc.falseCause fe hc.falseEffect).2] at t5
  rw [(p1 tc hc.trueCause fe hc.falseEffect).2, (p1 fc hc.falseCause te hc.trueEffect).2] at t6
  unfold bothWays
  exact ⟨⟨BN.cfProb_nonneg h.valid hnn _, by linarith, by linarith, by linarith⟩, f2, f3, t5, by linarith⟩

/-- **C89** (partial) necessity and sufficiency of a cause with two states for an effect with two states: the bounds of Tian and Pearl -/
theorem C89_both_partial {ch : Choices V} (hch : ch.Ok) {m : SCM II LL} {B : BN V S K} (h : CausalOk m B) (hnn : B.NonNeg) {c e : V} {tc fc te fe : S}
    (hc : CausationOk B sfx c e tc fc te fe) (h2 : TwoStates B c e tc fc te fe) {m' : SCM II LL} (hm : new m = .ok m') :
    ∃ x : K, pns sfx ch m' c e tc fc te fe = .ok (.fin x) ∧ TianPearl (both2 B c e) (one1 B e) (did B c e) tc fc te fe x x := by
  obtain ⟨m1, e1, e2⟩ := C46_necessity_sufficiency_partial hch h hc
  rw [hm] at e1; injection e1 with e1; subst e1
  exact ⟨_, e2, tianPearl_of h hnn hc h2⟩

/-- **C89** (partial) necessity: between `(P(te) - P(te | do(fc))) / P(tc, te)` and `(P(fe | do(fc)) - P(fc, fe)) / P(tc, te)` -/
theorem C89_necessity_partial {ch : Choices V} (hch : ch.Ok) {m : SCM II LL} {B : BN V S K} (h : CausalOk m B) (hnn : B.NonNeg) {c e : V} {tc fc te fe : S}
    (hc : CausationOk B sfx c e tc fc te fe) (h2 : TwoStates B c e tc fc te fe) (hp : both2 B c e tc te ≠ 0) {m' : SCM II LL} (hm : new m = .ok m') :
    ∃ y : K, pn sfx ch m' c e tc fc te fe = .ok (.fin y) ∧ 0 ≤ y ∧ y ≤ 1 ∧ (one1 B e te - did B c e fc te) / both2 B c e tc te ≤ y ∧
      y ≤ (did B c e fc fe - both2 B c e fc fe) / both2 B c e tc te := by
  have hE := BN.eqs_inner h.valid h.norm h.equations
  obtain ⟨_, hr, _⟩ := C46_range_partial hch h hnn hc hm
  obtain ⟨y, y1, y2, y3⟩ := hr hp
  obtain ⟨m1, e1, e2⟩ := C46_necessity_partial hch h hc hp
  rw [hm] at e1; injection e1 with e1; subst e1
  rw [y1] at e2
  injection e2 with e2; injection e2 with e2
  obtain ⟨p1, p2, _⟩ := hc.probs hE
  obtain ⟨t1, t2, t3, t4, t5, t6, t7, t8, t9⟩ := BN.tian_pearl hE hnn hc.ne hc.cause hc.effect hc.trueCause hc.falseCause h2.cause h2.effect h2.causeNe h2.effectNe
    rfl rfl rfl rfl
  have hpos : 0 < both2 B c e tc te := lt_of_le_of_ne (by rw [← (p1 tc hc.trueCause te hc.trueEffect).2]; exact BN.cfProb_nonneg h.valid hnn _) hp.symm
  rw [p2 te hc.trueEffect, (p1 fc hc.falseCause te hc.trueEffect).1] at t7
  rw [(p1 fc hc.falseCause fe hc.falseEffect).1, (p1 fc hc.falseCause fe hc.falseEffect).2] at t8
  refine ⟨y, y1, y2, y3, ?_, ?_⟩
  · rw [e2]; exact div_le_div_of_nonneg_right (by linarith) hpos.le
  · rw [e2]; exact div_le_div_of_nonneg_right (by linarith) hpos.le

/-- The same with the names of the states exchanged -/
theorem CausationOk.swap {B : BN V S K} {c e : V} {tc fc te fe : S} (h : CausationOk B sfx c e tc fc te fe) : CausationOk B sfx c e fc tc fe te :=
  ⟨h.cause, h.effect, h.ne, h.child, h.falseCause, h.trueCause, h.falseEffect, h.trueEffect, h.fresh, h.inj⟩

theorem TwoStates.swap {B : BN V S K} {c e : V} {tc fc te fe : S} (h : TwoStates B c e tc fc te fe) : TwoStates B c e fc tc fe te :=
  ⟨fun s hs => (h.cause s hs).symm, fun s hs => (h.effect s hs).symm, h.causeNe.symm, h.effectNe.symm⟩

/-- **C89** (partial) sufficiency: between `(P(fe) - P(fe | do(tc))) / P(fc, fe)` and `(P(te | do(tc)) - P(tc, te)) / P(fc, fe)` -/
theorem C89_sufficiency_partial {ch : Choices V} (hch : ch.Ok) {m : SCM II LL} {B : BN V S K} (h : CausalOk m B) (hnn : B.NonNeg) {c e : V} {tc fc te fe : S}
    (hc : CausationOk B sfx c e tc fc te fe) (h2 : TwoStates B c e tc fc te fe) (hp : both2 B c e fc fe ≠ 0) {m' : SCM II LL} (hm : new m = .ok m') :
    ∃ y : K, ps sfx ch m' c e tc fc te fe = .ok (.fin y) ∧ 0 ≤ y ∧ y ≤ 1 ∧ (one1 B e fe - did B c e tc fe) / both2 B c e fc fe ≤ y ∧
      y ≤ (did B c e tc te - both2 B c e tc te) / both2 B c e fc fe :=
  C89_necessity_partial hch h hnn hc.swap h2.swap hp hm

/-- **C89** (partial) if the cause never prevents the effect, necessity and sufficiency is the difference that the intervention makes, and necessity is
`(P(te) - P(te | do(fc))) / P(tc, te)`. -/
theorem C89_monotone_partial {ch : Choices V} (hch : ch.Ok) {m : SCM II LL} {B : BN V S K} (h : CausalOk m B) (hnn : B.NonNeg) {c e : V} {tc fc te fe : S}
    (hc : CausationOk B sfx c e tc fc te fe) (h2 : TwoStates B c e tc fc te fe)
    (hmono : B.cfProb B.roots B.inner [([], []), ([(c, fc)], [(e, te)]), ([(c, tc)], [(e, fe)])] = 0) {m' : SCM II LL} (hm : new m = .ok m') :
    pns sfx ch m' c e tc fc te fe = .ok (.fin (did B c e tc te - did B c e fc te)) ∧
    (both2 B c e tc te ≠ 0 → pn sfx ch m' c e tc fc te fe = .ok (.fin ((one1 B e te - did B c e fc te) / both2 B c e tc te))) := by
  have hE := BN.eqs_inner h.valid h.norm h.equations
  obtain ⟨p1, p2, _⟩ := hc.probs hE
  obtain ⟨t1, t2, t3, t4, t5, t6, t7, t8, t9⟩ := BN.tian_pearl hE hnn hc.ne hc.cause hc.effect hc.trueCause hc.falseCause h2.cause h2.effect h2.causeNe h2.effectNe
    rfl rfl rfl rfl
  rw [hmono, (p1 tc hc.trueCause te hc.trueEffect).1, (p1 fc hc.falseCause te hc.trueEffect).1] at t2
  rw [hmono, p2 te hc.trueEffect, (p1 fc hc.falseCause te hc.trueEffect).1] at t9
  rw [p2 te hc.trueEffect, (p1 fc hc.falseCause te hc.trueEffect).1] at t7
  refine ⟨?_, fun hp => ?_⟩
  · obtain ⟨m1, e1, e2⟩ := C46_necessity_sufficiency_partial hch h hc
    rw [hm] at e1; injection e1 with e1; subst e1
    rw [e2]; congr 2; linarith
  · obtain ⟨m1, e1, e2⟩ := C46_necessity_partial hch h hc hp
    rw [hm] at e1; injection e1 with e1; subst e1
    rw [e2]
    have e3 : B.cfProb B.roots B.inner [([], [(c, tc), (e, te)]), ([(c, fc)], [(e, fe)])] = one1 B e te - did B c e fc te := by linarith
    rw [e3, both2]

end worlds

/-! ### The bounds computed by `GDCC` -/

/-- **C89** bounds of `GDCC` for an intervention: the records bound them -/
theorem C89_gdcc_intervention {φ : K →+* ℝ} (hφ : StrictMono φ) {ch : Choices V} (hch : ch.Ok) {m : SCM II LL} {B : BN V S K} (h : GdccModel m B) {fr : Frame V S}
    {sub : V → V → Bool} (hd : GdccData m B fr sub) (hrows : fr.rows ≠ []) (hc : Compatible m B fr.rows)
    {opt : Option Nat → List (Fl K) → (List K → Py (Fl ℝ)) → List K} {max : Option Nat} (hopt : FindsLeast φ opt max m B fr)
    {ts : List (V → List K)} (hts : ts ≠ [])
    (ht : ∀ t ∈ ts, ∀ x ∈ m.exogenous, Draws false (famDom m.base.graph B.states x) (m.base.graph.pred x) (t x))
    (N : BoundNames V S) (wt : VType) {T : List V} {d : Obs V S} (hT0 : T ≠ []) (hTn : T.Nodup) (hb : N.bound ∉ T)
    (hT : ∀ t ∈ T, t ∈ B.nodes ∧ t ∈ m.endogenous ∧ t ∉ Dict.keys d) (hdo : EvOk B d) (hde : ∀ v ∈ Dict.keys d, v ∈ m.endogenous) :
    ∃ o o' r, Gdcc.compileObj (fun x => Real.log (φ x)) sub opt m max fr (ts.map fun t x => (t x).map Fl.fin) true = .ok o ∧
      o.query N (storeOf wt) (fun i => causalQuery ch i T d none) = .ok (o', .interval r) ∧
      (∀ v, v ∈ Dict.keys (r.dom N) ↔ v ∈ T) ∧ (∀ p ∈ r.dom N, p.2 = B.states p.1) ∧
      ∀ obs, FullObs (r.dom N) obs → ∃ lo hi : K,
        r.getValue ((N.bound, N.low) :: obs) = .ok (.fin lo) ∧ r.getValue ((N.bound, N.up) :: obs) = .ok (.fin hi) ∧
        empirical K fr.rows (T ++ Dict.keys d) (asg (d ++ obs)) ≤ lo ∧ lo ≤ hi ∧
        hi ≤ empirical K fr.rows (T ++ Dict.keys d) (asg (d ++ obs)) + (1 - empirical K fr.rows (Dict.keys d) (asg d)) := by
  have hdo' : ∀ {m' B'}, Likeliest m B fr.rows m' B' → EvOk B' d := fun hm =>
    ⟨hdo.nodup, by rw [hm.refit.nodes]; exact hdo.nodes, by rw [hm.refit.states]; exact hdo.states⟩
  have hone : ∀ m' B', Likeliest m B fr.rows m' B' → B'.doMarg d (Dict.keys ([] : Obs V S)) (asg []) = 1 := fun m' B' hm =>
    doMarg_nil_one hm.refit.valid hm.refit.norm (hdo' hm)
  obtain ⟨ms, Bs, o, o', r, q1, q2, q3, q4, q5, q6, q7⟩ := C84_query hφ hch h hd hopt hts ht N wt (T := T) (d := d) (ev := []) (e := none) hT0 hTn
    (fun t ht => ⟨(hT t ht).1, by simp [Dict.keys], (hT t ht).2.2⟩) hb hdo (evOk_nil B) rfl (fun m' B' hm => by rw [hone m' B' hm]; exact one_ne_zero)
  refine ⟨o, o', r, q3, q4, q5, q6, fun obs ho => ?_⟩
  obtain ⟨lo, hi, hl, e1, e2⟩ := q7 obs ho
  have hst : ∀ t ∈ T, (asg obs : V → S) t ∈ B.states t := fun t ht => by
    obtain ⟨st, hst⟩ := Dict.mem_keys.1 ((q5 t).2 ht)
    obtain ⟨s, s1, s2⟩ := ho _ hst
    rw [asg, over_of_get? s2, ← q6 _ hst]; exact s1
  have hsd : ∀ w ∈ Dict.keys d, (asg d : V → S) w ∈ B.states w := fun w hw => by
    obtain ⟨s, hs⟩ := Option.isSome_iff_exists.1 (Dict.get?_isSome.2 hw)
    rw [asg, over_of_get? hs]; exact hdo.states w s hs
  have hval : ∀ y ∈ Bs.map (fun B' => B'.doMarg d (T ++ Dict.keys ([] : Obs V S)) (asg ([] ++ obs)) / B'.doMarg d (Dict.keys ([] : Obs V S)) (asg [])),
      empirical K fr.rows (T ++ Dict.keys d) (asg (d ++ obs)) ≤ y ∧
      y ≤ empirical K fr.rows (T ++ Dict.keys d) (asg (d ++ obs)) + (1 - empirical K fr.rows (Dict.keys d) (asg d)) := by
    intro y hy
    obtain ⟨B', hB', rfl⟩ := List.mem_map.1 hy
    obtain ⟨m', hm⟩ := forall₂_right q2 hB'
    have hf := hm.refit
    rw [hone m' B' hm, div_one, List.nil_append, show T ++ Dict.keys ([] : Obs V S) = T from List.append_nil T,
      ← C87_frequencies hφ h hd hrows hc hm (W := Dict.keys d) (fun w hw => ⟨hdo.nodes w hw, hde w hw⟩) hsd,
      ← C87_frequencies hφ h hd hrows hc hm (W := T ++ Dict.keys d) (fun w hw => ?_) fun w hw => ?_]
    · exact natural_of hf.valid hf.norm hf.nonneg hTn (fun t ht => ⟨by rw [hf.nodes]; exact (hT t ht).1, (hT t ht).2.2⟩) (hdo' hm)
        fun t ht => by rw [hf.states]; exact hst t ht
    · rcases List.mem_append.1 hw with hw | hw
      · exact ⟨(hT w hw).1, (hT w hw).2.1⟩
      · exact ⟨hdo.nodes w hw, hde w hw⟩
    · rw [asg_append]
      rcases List.mem_append.1 hw with hw | hw
      · rw [over, Dict.get?_eq_none.2 (hT w hw).2.2]; exact hst w hw
      · obtain ⟨s, hs⟩ := Option.isSome_iff_exists.1 (Dict.get?_isSome.2 hw)
        rw [over_of_get? hs]; exact hdo.states w s hs
  exact ⟨lo, hi, e1, e2, (hval lo hl.1).1, (hl.2.2 lo hl.1).2, (hval hi hl.2.1).2⟩

section worlds
variable {sfx : V → Nat → V}

theorem TwoStates.refit {B B' : BN V S K} (hs : B'.states = B.states) {c e : V} {tc fc te fe : S} (h : TwoStates B c e tc fc te fe) :
    TwoStates B' c e tc fc te fe := ⟨by rw [hs]; exact h.cause, by rw [hs]; exact h.effect, h.causeNe, h.effectNe⟩

theorem GdccModel.inner_endo {m : SCM II LL} {B : BN V S K} (h : GdccModel m B) {v : V} (hv : v ∈ B.inner) : v ∈ B.nodes ∧ v ∈ m.endogenous := by
  obtain ⟨h1, h2⟩ := BN.mem_inner.1 hv
  refine ⟨h1, ?_⟩
  by_contra hc
  exact h2 (h.roots v ((mem_exogenous h.rep).2 ⟨h1, hc⟩))

/-- **C89** (partial) bounds of `GDCC` on necessity and sufficiency: at most the frequency of the records with the cause and the effect plus the
frequency of those without. -/
theorem C89_gdcc_both_partial {φ : K →+* ℝ} (hφ : StrictMono φ) {ch : Choices V} (hch : ch.Ok) {m : SCM II LL} {B : BN V S K} (h : GdccModel m B) {fr : Frame V S} {sub : V → V → Bool}
    (hd : GdccData m B fr sub) (hrows : fr.rows ≠ []) (hcp : Compatible m B fr.rows)
    {opt : Option Nat → List (Fl K) → (List K → Py (Fl ℝ)) → List K} {max : Option Nat} (hopt : FindsLeast φ opt max m B fr)
    {ts : List (V → List K)} (hts : ts ≠ [])
    (ht : ∀ t ∈ ts, ∀ x ∈ m.exogenous, Draws false (famDom m.base.graph B.states x) (m.base.graph.pred x) (t x))
    (N : BoundNames V S) (wt : VType) {c e : V} {tc fc te fe : S} (hc : CausationOk B sfx c e tc fc te fe) (h2 : TwoStates B c e tc fc te fe)
    (hb : N.bound ≠ sfx e 1 ∧ N.bound ≠ sfx e 2) (tf : V → List S → Py (S × S)) :
    ∃ o o' lo hi, Gdcc.compileObj (fun x => Real.log (φ x)) sub opt m max fr (ts.map fun t x => (t x).map Fl.fin) true = .ok o ∧
      o.pns N (storeOf wt) sfx ch tf c e (some (tc, fc)) (some (te, fe)) = .ok (o', .numbers [.fin lo, .fin hi]) ∧ lo ≤ hi ∧ 0 ≤ lo ∧
      hi ≤ empirical K fr.rows [c, e] (asg [(c, tc), (e, te)]) + empirical K fr.rows [c, e] (asg [(c, fc), (e, fe)]) ∧
      ∀ exp : S → S → K, (∀ m' B', Likeliest m B fr.rows m' B' → ∀ s ∈ B.states c, ∀ t ∈ B.states e, did B' c e s t = exp s t) →
        TianPearl (fun s t => empirical K fr.rows [c, e] (asg [(c, s), (e, t)])) (fun t => empirical K fr.rows [e] (asg [(e, t)])) exp tc fc te fe lo hi := by
  obtain ⟨ms, Bs, o, o', lo, hi, g1, g2, g3, g4, g5⟩ := C84_necessity_sufficiency_partial hφ hch h hd hopt hts ht N wt hc hb tf
  have hce := h.inner_endo hc.cause
  have hee := h.inner_endo hc.effect
  have key : ∀ x ∈ Bs.map (fun B => bothWays B c e tc fc te fe), ∃ m' B', Likeliest m B fr.rows m' B' ∧
      TianPearl (both2 B' c e) (one1 B' e) (did B' c e) tc fc te fe x x ∧
      (∀ s ∈ B.states c, ∀ t ∈ B.states e, both2 B' c e s t = empirical K fr.rows [c, e] (asg [(c, s), (e, t)])) ∧
      ∀ t ∈ B.states e, one1 B' e t = empirical K fr.rows [e] (asg [(e, t)]) := by
    intro x hx
    obtain ⟨B', hB', rfl⟩ := List.mem_map.1 hx
    obtain ⟨m', hm⟩ := forall₂_right g2 hB'
    have hf := hm.refit
    refine ⟨m', B', hm, tianPearl_of (hf.causalOk h.rep h.roots hm.multi) hf.nonneg (hc.refit hf.nodes hf.parents hf.states) (h2.refit hf.states),
      fun s hs t ht => C87_frequencies hφ h hd hrows hcp hm (fun w hw => ?_) fun w hw => ?_, fun t ht => C87_frequencies hφ h hd hrows hcp hm (fun w hw => ?_) fun w hw => ?_⟩
    · rcases (by simpa using hw : w = c ∨ w = e) with rfl | rfl
      · exact hce
      · exact hee
    · have := (hc.evOk hs ht).states
      rcases (by simpa using hw : w = c ∨ w = e) with rfl | rfl
      · rw [asg, over_of_get? (s := s) (by simp [Dict.get?])]; exact hs
      · rw [asg, over_of_get? (s := t) (by simp [Dict.get?, hc.ne])]; exact ht
    · rw [List.mem_singleton.1 hw]; exact hee
    · rw [List.mem_singleton.1 hw, asg, over_of_get? (s := t) (by simp [Dict.get?])]; exact ht
  refine ⟨o, o', lo, hi, g3, g4, (g5.2.2 lo g5.1).2, ?_, ?_, fun exp hexp => ?_⟩
  · obtain ⟨_, _, _, k, _⟩ := key lo g5.1
    exact k.1.1
  · obtain ⟨_, _, _, k, k1, _⟩ := key hi g5.2.1
    have := k.2.2.2.1
    rwa [k1 tc hc.trueCause te hc.trueEffect, k1 fc hc.falseCause fe hc.falseEffect] at this
  · have key' : ∀ x ∈ Bs.map (fun B => bothWays B c e tc fc te fe),
        TianPearl (fun s t => empirical K fr.rows [c, e] (asg [(c, s), (e, t)])) (fun t => empirical K fr.rows [e] (asg [(e, t)])) exp tc fc te fe x x := by
      intro x hx
      obtain ⟨m', B', hm, k, k1, k2⟩ := key x hx
      have hx := hexp m' B' hm
      simpa only [TianPearl, k1 tc hc.trueCause te hc.trueEffect, k1 fc hc.falseCause fe hc.falseEffect, k1 tc hc.trueCause fe hc.falseEffect,
        k1 fc hc.falseCause te hc.trueEffect, k2 te hc.trueEffect, hx tc hc.trueCause te hc.trueEffect, hx fc hc.falseCause te hc.trueEffect,
        hx fc hc.falseCause fe hc.falseEffect] using k
    exact ⟨(key' lo g5.1).1, (key' hi g5.2.1).2⟩

/-- **C89** (partial) if the graph allows adjustment for the effect of the cause, the bounds of `GDCC` on necessity and sufficiency lie within those of Tian and
Pearl with the frequencies of the records and the adjustment formula. -/
theorem C89_gdcc_adjusted_partial {φ : K →+* ℝ} (hφ : StrictMono φ) {ch : Choices V} (hch : ch.Ok) {m : SCM II LL} {B : BN V S K} (h : GdccModel m B) {fr : Frame V S} {sub : V → V → Bool}
    (hd : GdccData m B fr sub) (hrows : fr.rows ≠ []) (hcp : Compatible m B fr.rows)
    {opt : Option Nat → List (Fl K) → (List K → Py (Fl ℝ)) → List K} {max : Option Nat} (hopt : FindsLeast φ opt max m B fr)
    {ts : List (V → List K)} (hts : ts ≠ [])
    (ht : ∀ t ∈ ts, ∀ x ∈ m.exogenous, Draws false (famDom m.base.graph B.states x) (m.base.graph.pred x) (t x))
    (N : BoundNames V S) (wt : VType) {c e : V} {tc fc te fe : S} (hc : CausationOk B sfx c e tc fc te fe) (h2 : TwoStates B c e tc fc te fe)
    (hb : N.bound ≠ sfx e 1 ∧ N.bound ≠ sfx e 2) (tf : V → List S → Py (S × S))
    {Z : List V} (heZ : e ∉ Z) (hZ : ∀ z ∈ Z, z ∈ B.nodes ∧ z ∈ m.endogenous ∧ z ≠ c) (hZn : Z.Nodup)
    (hr : ∀ z ∈ Z, ¬ Relation.ReflTransGen (fun u w => (u, w) ∈ m.base.graph.edges) c z)
    (hs : (m.base.graph.removeOutgoing [c]).dSeparated [e] [c] Z = true)
    (hp : ∀ a, B.InStates a → empirical K fr.rows (c :: Z) a ≠ 0) :
    ∃ o o' lo hi, Gdcc.compileObj (fun x => Real.log (φ x)) sub opt m max fr (ts.map fun t x => (t x).map Fl.fin) true = .ok o ∧
      o.pns N (storeOf wt) sfx ch tf c e (some (tc, fc)) (some (te, fe)) = .ok (o', .numbers [.fin lo, .fin hi]) ∧ lo ≤ hi ∧
      TianPearl (fun s t => empirical K fr.rows [c, e] (asg [(c, s), (e, t)])) (fun t => empirical K fr.rows [e] (asg [(e, t)]))
        (fun s t => adjusted K B.states fr.rows c s [e] Z (asg [(e, t)])) tc fc te fe lo hi := by
  obtain ⟨o, o', lo, hi, g1, g2, g3, _, _, g6⟩ := C89_gdcc_both_partial hφ hch h hd hrows hcp hopt hts ht N wt hc h2 hb tf
  refine ⟨o, o', lo, hi, g1, g2, g3, g6 _ fun m' B' hm s hs' t ht' => ?_⟩
  have hee := h.inner_endo hc.effect
  refine C87_effect hφ h hd hrows hcp hm (h.inner_endo hc.cause) hs' (fun x hx => ?_) hZ hZn hr hs (fun a ha _ => hp a ha) fun x hx => ?_
  · rw [List.mem_singleton.1 hx]; exact ⟨hee.1, hee.2, hc.ne.symm, heZ⟩
  · rw [List.mem_singleton.1 hx, asg, over_of_get? (s := t) (by simp [Dict.get?])]; exact ht'

end worlds

/-! ### Examples -/

/-- What is evaluated for the example: `P(X=1, Z=1)`, `P(X=0, Z=0)`, `P(X=1)`, `P(Z=1)`, `P(Z=1 | do(X=1))`, `P(Z=1 | do(X=0))`, necessity and sufficiency -/
def boundsCheck (vt : VType) : Py (List (Fl ℚ)) := do
  let m ← exScm vt none false
  let m' ← new m
  let p (T : List PyStr) (o : Obs PyStr Char) := do
    let r ← ((VEObj.new m'.base : VEObj _ (IS vt PyStr)).query chStr T none).2
    r.getValue o
  let a ← p [sX, sZ] [(sX, '1'), (sZ, '1')]
  let b ← p [sX, sZ] [(sX, '0'), (sZ, '0')]
  let x ← p [sX] [(sX, '1')]
  let z ← p [sZ] [(sZ, '1')]
  let r1 ← causalQuery chStr m' [sZ] [(sX, '1')] none
  let d1 ← r1.getValue [(sZ, '1')]
  let r0 ← causalQuery chStr m' [sZ] [(sX, '0')] none
  let d0 ← r0.getValue [(sZ, '1')]
  let y ← pns pySfx chStr m' sX sZ '1' '0' '1' '0'
  return [a, b, x, z, d1, d0, y]

/-- **C89** on the example: `7/24 ≤ 5/12 ≤ 7/24 + 1 - 1/2` for `P(Z=1 | do(X=1))`; necessity and sufficiency is `5/12 = 7/24 + 1/8`, the greatest value that
the bounds allow. -/
theorem C89_example_values (vt : VType) : boundsCheck vt = .ok ([7/24, 1/8, 1/2, 2/3, 5/12, 7/12, 5/12].map q) := by
  cases vt <;> decide +kernel

/-- The hypotheses of the theorems about one model are met by the example. -/
theorem C89_example (vt : VType) : ∃ (m m' : SCM (IS vt PyStr) (LS vt PyStr)) (b : DagModel (Factor (IS vt PyStr)) PyStr Char) (x y z : ℚ),
    exScm vt none false = .ok m ∧ new m = .ok m' ∧ pns pySfx chStr m' sX sZ '1' '0' '1' '0' = .ok (.fin x) ∧
    pn pySfx chStr m' sX sZ '1' '0' '1' '0' = .ok (.fin y) ∧ ps pySfx chStr m' sX sZ '1' '0' '1' '0' = .ok (.fin z) ∧
    TianPearl (both2 (exB vt b) sX sZ) (one1 (exB vt b) sZ) (did (exB vt b) sX sZ) '1' '0' '1' '0' x x ∧
    (one1 (exB vt b) sZ '1' - did (exB vt b) sX sZ '0' '1') / both2 (exB vt b) sX sZ '1' '1' ≤ y ∧
    z ≤ (did (exB vt b) sX sZ '1' '1' - both2 (exB vt b) sX sZ '1' '1') / both2 (exB vt b) sX sZ '0' '0' := by
  obtain ⟨m, b, h1, h2, h3, h4, h5, h5', h6, h7⟩ := C46_example vt
  obtain ⟨m', n1, _⟩ := new_ok h2
  have two : TwoStates (exB vt b) sX sZ '1' '0' '1' '0' := ⟨h5, h5', by decide, by decide⟩
  obtain ⟨x, x1, x2⟩ := C89_both_partial chStr_ok h2 h3 h4 two n1
  obtain ⟨y, y1, _, _, y2, _⟩ := C89_necessity_partial chStr_ok h2 h3 h4 two h6 n1
  obtain ⟨z, z1, _, _, _, z2⟩ := C89_sufficiency_partial chStr_ok h2 h3 h4 two h7 n1
  exact ⟨m, m', b, x, y, z, h1, n1, x1, y1, z1, x2, y2, z2⟩

/-- What is evaluated for the twenty-four records -/
theorem units_frequencies :
    (∀ p ∈ [(('1', '1'), 10), (('0', '0'), 6), (('1', '0'), 2), (('0', '1'), 6)], empirical ℚ frUnits.rows [sY, sZ] (fun v => if v = sY then p.1.1 else p.1.2) = p.2 / 24) ∧
    empirical ℚ frUnits.rows [sZ] (fun _ => '1') = 2/3 ∧
    (∀ p ∈ [(('1', '1'), 2), (('0', '1'), 1), (('0', '0'), 2)], adjusted ℚ (fun _ => ['0', '1']) frUnits.rows sY p.1.1 [sZ] [sX] (fun _ => p.1.2) = p.2 / 3) := by
  decide +kernel

/-- **C89** applied: however many models are learnt from the twenty-four records, whatever negative numbers are drawn for them, the bounds on the necessity and
sufficiency of `Y` for `Z` lie between `1/3` and `2/3`. -/
theorem C89_gdcc_example (vt : VType) {ts : List (PyStr → List ℚ)} (hts : ts ≠ [])
    (ht : ∀ t ∈ ts, ((t sU).length = 3 ∧ ∀ x ∈ t sU, x < 0) ∧ (t sW).length = 2 ∧ ∀ x ∈ t sW, x < 0) (max : Option Nat) (tf : PyStr → List Char → Py (Char × Char)) :
    ∃ m o o' lo hi, exScm vt none true = .ok m ∧
      Gdcc.compileObj (fun x => Real.log (Rat.castHom ℝ x)) Uai.isSub leastOpt m max frUnits (ts.map fun t x => (t x).map Fl.fin) true = .ok o ∧
      o.pns bndStr (IS vt PyStr) pySfx chStr tf sY sZ (some ('1', '0')) (some ('1', '0')) = .ok (o', .numbers [.fin lo, .fin hi]) ∧
      1/3 ≤ lo ∧ lo ≤ hi ∧ hi ≤ 2/3 := by
  obtain ⟨m, b, h1, hb, hg, hex, hen, hW, h2, h3, h4, h5⟩ := units_ok vt max
  obtain ⟨f1, f2, f3, f4, f5, f6, f7, f8, f9, _⟩ := exB_facts hb
  have hc : CausationOk (exB vt b) pySfx sY sZ '1' '0' '1' '0' :=
    ⟨by rw [f2]; decide, by rw [f2]; decide, by decide, ⟨sZ, by rw [f1]; decide, f9⟩, by rw [f5]; decide, by rw [f5]; decide, by rw [f6]; decide, by rw [f6]; decide,
      ex_fresh hb, fun _ _ _ _ _ _ _ _ _ _ e => pySfx_inj e⟩
  have two : TwoStates (exB vt b) sY sZ '1' '0' '1' '0' := ⟨by rw [f5]; decide, by rw [f6]; decide, by decide, by decide⟩
  obtain ⟨o, o', lo, hi, g1, g2, g3, g4⟩ := C89_gdcc_adjusted_partial (fun x y h => by simpa using h) chStr_ok h2 h3 (by decide +kernel) h4 h5 hts
    (fun t htt x hx => by
      rw [hex] at hx
      rcases (by simpa using hx : x = sU ∨ x = sW) with rfl | rfl
      · rw [famDom, hg, show gScm.pred sU = [] from by decide]
        exact ⟨by simpa [f7, cards] using (ht t htt).1.1, fun h => absurd h (by decide), fun _ => (ht t htt).1.2⟩
      · rw [famDom, hg, show gScm.pred sW = [] from by decide]
        exact ⟨by simpa [hW, cards] using (ht t htt).2.1, fun h => absurd h (by decide), fun _ => (ht t htt).2.2⟩)
    bndStr vt hc two (by decide +kernel) tf (Z := [sX]) (by decide) (by rw [f1, hen]; decide) (by decide)
    (fun z hz hr => by
      rw [hg] at hr
      have := reach_closed (L := [sY, sZ]) (by decide) (by decide) hr
      rw [List.mem_singleton.1 hz] at this
      exact absurd this (by decide))
    (by rw [hg]; decide +kernel)
    (fun a ha => by
      have hs : a sX ∈ ['0', '1'] := by
        have := ha sX (by rw [f1]; decide)
        rwa [f4] at this
      have hs' : a sY ∈ ['0', '1'] := by
        have := ha sY (by rw [f1]; decide)
        rwa [f5] at this
      have key : ∀ c ∈ ['0', '1'], ∀ c' ∈ ['0', '1'], empirical ℚ frUnits.rows [sY, sX] (fun v => if v = sX then c else c') ≠ 0 := by decide +kernel
      rw [empirical_dep frUnits.rows [sY, sX] a (fun v => if v = sX then a sX else a sY) fun v hv => by
        rcases (by simpa using hv : v = sY ∨ v = sX) with rfl | rfl
        · rw [if_neg (by decide)]
        · rw [if_pos rfl]]
      exact key _ hs _ hs')
  have hadj : ∀ s t : Char, adjusted ℚ (exB vt b).states frUnits.rows sY s [sZ] [sX] (asg [(sZ, t)]) = adjusted ℚ (fun _ => ['0', '1']) frUnits.rows sY s [sZ] [sX] (fun _ => t) :=
    fun s t => adjusted_dep (K := ℚ) frUnits.rows s (by decide) (fun z hz => by rw [List.mem_singleton.1 hz]; exact f4) fun x hx => by
      rw [List.mem_singleton.1 hx]
      exact over_of_get? (by simp [Dict.get?])
  obtain ⟨u1, u2, u3⟩ := units_frequencies
  obtain ⟨⟨_, t1, _, _⟩, t2, _⟩ := g4
  simp only [hadj] at t1 t2
  have v1 := u3 (('1', '1'), 2) (by decide)
  have v2 := u3 (('0', '1'), 1) (by decide)
  simp only at v1 v2
  rw [v1, v2] at t1
  rw [v1] at t2
  exact ⟨m, o, o', lo, hi, h1, g1, g2, by linarith, g3, t2⟩

/-! A cause that never prevents the effect: `X = 0, 1, 1` and `Z = X, X, 1` for `U = 0, 1, 2` -/

def gMono : DiGraph PyStr := ⟨[sU, sX, sZ], [(sU, sX), (sX, sZ), (sU, sZ)]⟩

def rowsMono : List (SRow PyStr) :=
  [.num [(sU, ['0', '1', '2'])] [q (1/2), q (1/3), q (1/6)] sU,
   .fn [(sX, ['0', '1']), (sU, ['0', '1', '2'])] ['0', '1', '1'] sX,
   .fn [(sZ, ['0', '1']), (sX, ['0', '1']), (sU, ['0', '1', '2'])] ['0', '0', '1', '1', '1', '1'] sZ]

def monoScm (vt : VType) : Py (SCM (IS vt PyStr) (LS vt PyStr)) := do
  let l ← facsOf vt rowsMono
  SCM.ofList gMono (l.map fun p => some p.2) none false true

def monoBnet (vt : VType) : Py (DagModel (Factor (IS vt PyStr)) PyStr Char) := do
  let l ← facsOf vt rowsMono
  bnetOf vt gMono l

/-- What is evaluated for it -/
def monoCheck (vt : VType) : Bool :=
  match monoBnet vt, monoScm vt with
  | .ok b, .ok m => decide ((exB vt b).nodes = [sU, sX, sZ] ∧ (exB vt b).inner = [sX, sZ] ∧ (exB vt b).roots = [sU] ∧ (exB vt b).states sX = ['0', '1'] ∧
      (exB vt b).states sZ = ['0', '1'] ∧ sX ∈ (exB vt b).parents sZ) && ([sU].all fun v => ((Dict.get? m.base.factors v).getD none).all fun f => !f.isDet)
  | _, _ => false

/-- Probability of necessity and sufficiency, and of the converse -/
def monoPns (vt : VType) (te fe : Char) : Py (Fl ℚ) := do
  let m ← monoScm vt
  let m' ← new m
  pns pySfx chStr m' sX sZ '1' '0' te fe

/-- **C89** applied: `5/6` is the difference between `P(Z=1 | do(X=1)) = 1` and `P(Z=1 | do(X=0)) = 1/6`, although `P(Z=1 | X=0) = 0`. -/
theorem C89_monotone_example (vt : VType) : ∃ (m m' : SCM (IS vt PyStr) (LS vt PyStr)) (b : DagModel (Factor (IS vt PyStr)) PyStr Char),
    monoScm vt = .ok m ∧ CausalOk m (exB vt b) ∧ new m = .ok m' ∧
    pns pySfx chStr m' sX sZ '1' '0' '1' '0' = .ok (.fin (did (exB vt b) sX sZ '1' '1' - did (exB vt b) sX sZ '0' '1')) ∧
    did (exB vt b) sX sZ '1' '1' - did (exB vt b) sX sZ '0' '1' = 5/6 := by
  obtain ⟨l, b, h1, h⟩ := scmCheck_spec (vt := vt) (g := gMono) (rows := rowsMono) (endo := [sX, sZ]) (by decide)
    (by cases vt <;> decide +kernel)
  obtain ⟨m, h2, h3, h4, _, h5⟩ := h.model (e := none) (by decide) false
  have hb : monoBnet vt = .ok b := by rw [monoBnet, h.facs]; exact h1
  have hm : monoScm vt = .ok m := by rw [monoScm, h.facs]; exact h2
  have hc : monoCheck vt = true := by cases vt <;> decide +kernel
  rw [monoCheck, hb, hm] at hc
  simp only [Bool.and_eq_true, decide_eq_true_eq] at hc
  obtain ⟨⟨f1, f2, f3, f4, f5, f6⟩, hc2⟩ := hc
  have hok : CausalOk m (exB vt b) := by
    refine ⟨h3, h.valid, h.norm, fun v hv => h.equations v (by rw [← f2]; exact hv) (BN.mem_inner.1 hv).1, fun v hv f hf => ?_⟩
    rw [f3] at hv
    have := List.all_eq_true.1 hc2 v hv
    rw [hf] at this
    simpa using this
  have hcau : CausationOk (exB vt b) pySfx sX sZ '1' '0' '1' '0' := by
    refine ⟨by rw [f2]; decide, by rw [f2]; decide, by decide, ⟨sZ, by rw [f1]; decide, f6⟩, by rw [f4]; decide, by rw [f4]; decide, by rw [f5]; decide,
      by rw [f5]; decide, ?_, fun _ _ _ _ _ _ _ _ _ _ e => pySfx_inj e⟩
    rw [f1, f2]
    have : ∀ v ∈ [sX, sZ], ∀ i ∈ [1, 2], pySfx v i ∉ [sU, sX, sZ] := by decide +kernel
    intro v hv i h1 h2
    exact this v hv i (by simp; omega)
  have hcau' : CausationOk (exB vt b) pySfx sX sZ '1' '0' '0' '1' :=
    ⟨hcau.cause, hcau.effect, hcau.ne, hcau.child, hcau.trueCause, hcau.falseCause, hcau.falseEffect, hcau.trueEffect, hcau.fresh, hcau.inj⟩
  obtain ⟨m', n1, n2⟩ := C46_necessity_sufficiency_partial chStr_ok hok hcau'
  have hz : monoPns vt '0' '1' = .ok (q 0) := by cases vt <;> decide +kernel
  rw [monoPns, hm, py_ok_bind, n1, py_ok_bind, n2] at hz
  injection hz with hz
  injection hz with hz
  have hr := (C89_monotone_partial chStr_ok hok h.nonneg hcau ⟨by rw [f4]; decide, by rw [f5]; decide, by decide, by decide⟩ hz n1).1
  have hv : monoPns vt '1' '0' = .ok (q (5/6)) := by cases vt <;> decide +kernel
  rw [monoPns, hm, py_ok_bind, n1, py_ok_bind, hr] at hv
  injection hv with hv
  injection hv with hv
  exact ⟨m, m', b, hm, hok, n1, hr, hv⟩

end Props
end Verif
