import Verif.Inference.MultiCausal
import Verif.Props.Emcc

/-!
# Properties of counterfactual queries to several models (C82)

The bounds are compared with the numbers `BN.cfProb` of the networks, one for each model.
-/

set_option linter.unusedSectionVars false
set_option linter.unusedSimpArgs false

namespace Verif
namespace Props
open Causal

variable {V S K : Type} [DecidableEq V] [DecidableEq S] [Inhabited S] [Field K] [LinearOrder K] [IsStrictOrderedRing K]
variable {vt : VType}

local notation "II" => (storeOf vt : StoreImpl V S (Fl K))
local notation "LL" => (labelStoreOf vt : LabelStore V S)

/-- The object answers for the models `ms`: it has not been compiled since it got them, or has been compiled for them. -/
def AnswersFor (o : MultiObj II LL) (ms : List (SCM II LL)) : Prop :=
  (o.compiled = false ∧ o.models = ms) ∨ (o.compiled = true ∧ ms.mapM Causal.new = .ok o.infs)

/-! ### From the answers of the models to the answer of the object -/

/-- The factor `r` over the variables `T` has the values `val`; what its states are is said by `P`. -/
structure Answer (P : V → List S → Prop) (T : V → Prop) (val : Obs V S → K) (r : Factor II) : Prop where
  wf : r.WF
  dom : ∀ p ∈ r.dom, P p.1 p.2
  vars : ∀ v, v ∈ r.vars ↔ T v
  value : ∀ o, FullObs r.dom o → r.getValue o = .ok (.fin (val o))

theorem answer_dictEq {P : V → List S → Prop} (hP : ∀ v s s', P v s → P v s' → s = s') {T : V → Prop} {val val' : Obs V S → K} {r r' : Factor II}
    (h : Answer P T val r) (h' : Answer P T val' r') : dictEq r.dom r'.dom := by
  have hI := storeOf_lawful (V := V) (S := S) (α := Fl K) vt
  have k1 := (h.wf.domOk hI).keys
  have k2 := (h'.wf.domOk hI).keys
  have hk : ∀ v, v ∈ Dict.keys r.dom ↔ v ∈ Dict.keys r'.dom := fun v => (h.vars v).trans (h'.vars v).symm
  constructor
  · have := ((List.perm_ext_iff_of_nodup k1 k2).2 hk).length_eq
    simpa [Dict.keys] using this
  · intro p hp
    obtain ⟨st, hst⟩ := Dict.mem_keys.1 ((hk p.1).1 (Dict.mem_keys_of_mem hp))
    rw [Dict.get?_of_mem k2 hst]
    exact congrArg some (hP _ _ _ (h'.dom _ hst) (h.dom p hp))

theorem answer_mem {X : Type} {Q : X → Factor II → Prop} {rs : List (Factor II)} {xs : List X} (h : List.Forall₂ (fun x r => Q x r) xs rs)
    {r : Factor II} (hr : r ∈ rs) : ∃ x, Q x r := by
  induction h with
  | nil => cases hr
  | @cons x r' xs rs h1 _ ih =>
    rcases List.mem_cons.1 hr with rfl | hr
    · exact ⟨x, h1⟩
    · exact ih hr

theorem answer_fullObs {P : V → List S → Prop} {T : V → Prop} {val : Obs V S → K} {r : Factor II} (h : Answer P T val r) {o : Obs V S}
    (ho : ∀ v st, T v → P v st → ∃ s ∈ st, Dict.get? o v = some s) : FullObs r.dom o := fun p hp =>
  ho p.1 p.2 ((h.vars p.1).1 (Dict.mem_keys_of_mem hp)) (h.dom p hp)

theorem answer_values {X : Type} {P : V → List S → Prop} {T : V → Prop} {val : X → Obs V S → K} {xs : List X} {rs : List (Factor II)}
    (h : List.Forall₂ (fun x r => Answer P T (val x) r) xs rs) {o : Obs V S} (ho : ∀ r ∈ rs, FullObs r.dom o) :
    FiniteAt rs (xs.map fun x => val x o) o := by
  rw [FiniteAt]
  induction h with
  | nil => rfl
  | @cons x r xs rs h1 _ ih =>
    rw [List.map_cons, List.map_cons, List.map_cons, h1.value o (ho r List.mem_cons_self), ih fun r hr => ho r (List.mem_cons_of_mem _ hr)]

theorem finiteAt_unique {rs : List (Factor II)} {xs ys : List K} {o : Obs V S} (h : FiniteAt rs xs o) (h' : FiniteAt rs ys o) : xs = ys := by
  rw [FiniteAt] at h h'
  rw [h] at h'
  refine List.map_injective_iff.2 (fun x y e => ?_) h'
  injection e with e
  injection e

/-- Every model answers; so does the object. -/
theorem multi_query {X : Type} (N : BoundNames V S) (wt : VType) {P : V → List S → Prop} (hP : ∀ v s s', P v s → P v s' → s = s') {T : V → Prop}
    (hb : ¬ T N.bound) {val : X → Obs V S → K} {q : SCM II LL → Py (Factor II)} {ms : List (SCM II LL)} {xs : List X} (hne : ms ≠ [])
    (h : List.Forall₂ (fun m x => ∃ m' r, new m = .ok m' ∧ q m' = .ok r ∧ Answer P T (val x) r) ms xs) {o : MultiObj II LL}
    (ho : AnswersFor o ms) :
    ∃ o', (o'.flag = o.flag ∧ AnswersFor o' ms) ∧
      (o.flag = true → ∃ r, o.query N (storeOf wt) q = .ok (o', .interval r) ∧ (∀ v, v ∈ Dict.keys (r.dom N) ↔ T v) ∧
        (∀ p ∈ r.dom N, P p.1 p.2) ∧
        (∀ obs, FullObs (r.dom N) obs → ∃ lo hi, TightBounds lo hi (xs.map fun x => val x obs) ∧
          r.getValue ((N.bound, N.low) :: obs) = .ok (.fin lo) ∧ r.getValue ((N.bound, N.up) :: obs) = .ok (.fin hi)) ∧
        ∀ obs, (∀ v st, T v → P v st → ∃ s ∈ st, Dict.get? obs v = some s) → N.bound ∉ Dict.keys obs →
          ∃ lo hi, TightBounds lo hi (xs.map fun x => val x obs) ∧
            o.queryAt N (storeOf wt) q obs = .ok (o', .numbers [.fin lo, .fin hi])) ∧
      (o.flag = false → ∃ rs, o.query N (storeOf wt) q = .ok (o', .factors rs) ∧ List.Forall₂ (fun x r => Answer P T (val x) r) xs rs ∧
        ∀ obs, (∀ v st, T v → P v st → ∃ s ∈ st, Dict.get? obs v = some s) →
          o.queryAt N (storeOf wt) q obs = .ok (o', .numbers (xs.map fun x => .fin (val x obs)))) := by
  have hI := storeOf_lawful (V := V) (S := S) (α := Fl K) vt
  obtain ⟨ms', rs, e1, e2, e3⟩ : ∃ ms' rs, ms.mapM new = .ok ms' ∧ ms'.mapM q = .ok rs ∧ List.Forall₂ (fun x r => Answer P T (val x) r) xs rs := by
    clear hne ho
    induction h with
    | nil => exact ⟨[], [], rfl, rfl, .nil⟩
    | @cons m x ms xs h1 _ ih =>
      obtain ⟨m', r, a1, a2, a3⟩ := h1
      obtain ⟨ms', rs, i1, i2, i3⟩ := ih
      refine ⟨m' :: ms', r :: rs, ?_, ?_, .cons a3 i3⟩
      · rw [List.mapM_cons, a1, py_ok_bind, i1]; rfl
      · rw [List.mapM_cons, a2, py_ok_bind, i2]; rfl
  obtain ⟨o', c1, c2, c3, c4⟩ : ∃ o', o.ready = .ok o' ∧ o'.infs = ms' ∧ o'.flag = o.flag ∧ AnswersFor o' ms := by
    rcases ho with ⟨k1, k2⟩ | ⟨k1, k2⟩
    · refine ⟨{ o with infs := ms', model := o.models.head?, compiled := true }, ?_, rfl, rfl, .inr ⟨rfl, e1⟩⟩
      rw [MultiObj.ready, k1]
      simp only [Bool.false_eq_true, if_false]
      rw [MultiObj.compile, if_neg, k2, e1]
      · rfl
      · rw [k2]
        have := List.length_pos_of_ne_nil hne
        omega
    · have k3 := k2
      rw [e1] at k2
      injection k2 with k2
      exact ⟨o, by rw [MultiObj.ready, k1]; rfl, k2.symm, rfl, .inr ⟨k1, k3⟩⟩
  have hq : ∀ {r : MultiResult (storeOf wt : StoreImpl V S (Fl K)) II}, processOutput N o.flag (.factors rs) none = .ok r →
      o.query N (storeOf wt) q = .ok (o', r) := by
    intro r hr
    rw [MultiObj.query, c1, py_ok_bind, c2, e2, py_ok_bind, c3, hr]
    rfl
  have hat : ∀ {r : MultiResult (storeOf wt : StoreImpl V S (Fl K)) II} {x : MultiResult (storeOf wt : StoreImpl V S (Fl K)) II} {obs : Obs V S},
      processOutput N o.flag (.factors rs) none = .ok r → processOutput N o.flag r (some obs) = .ok x →
      o.queryAt N (storeOf wt) q obs = .ok (o', x) := by
    intro r x obs hr hx
    rw [MultiObj.queryAt, hq hr, py_ok_bind, c3, hx]
    rfl
  refine ⟨o', ⟨c3, c4⟩, fun hf => ?_, fun hf => ?_⟩
  · cases e3 with
    | nil =>
      cases h
      exact absurd rfl hne
    | @cons x f xs rs hf1 hfs =>
      have hall : ∀ g ∈ f :: rs, ∃ x, Answer P T (val x) g := fun g hg => answer_mem (Q := fun x r => Answer P T (val x) r) (.cons hf1 hfs) hg
      have hwf : ∀ g ∈ f :: rs, g.WF := fun g hg => (hall g hg).choose_spec.wf
      have hdom : ∀ g ∈ f :: rs, dictEq f.dom g.dom := fun g hg => answer_dictEq hP hf1 (hall g hg).choose_spec
      have hfin : ∀ g ∈ f :: rs, AllFinite g := fun g hg obs hobs => ⟨_, (hall g hg).choose_spec.value obs hobs⟩
      have hbv : N.bound ∉ f.vars := fun hc => hb ((hf1.vars _).1 hc)
      obtain ⟨r, r1, r2, r3, r4⟩ := C50_envelope N vt wt hwf hdom hfin hbv
      have hp : processOutput (I := storeOf wt) N o.flag (.factors (f :: rs)) none = .ok (.interval r) := by
        rw [hf]; simp [processOutput, r1]
      refine ⟨r, hq hp, by rw [r2]; exact hf1.vars, by rw [r2]; exact hf1.dom, fun obs hobs => ?_, fun obs hobs hbo => ?_⟩
      · rw [r2] at hobs
        obtain ⟨lo, hi, ys, y1, y2, y3, y4⟩ := r4 obs hobs
        refine ⟨lo, hi, ?_, y3, y4⟩
        have hcov : ∀ g ∈ f :: rs, FullObs g.dom obs := by
          intro g hg p hp
          obtain ⟨_, w⟩ := hall g hg
          obtain ⟨st, hst⟩ := Dict.mem_keys.1 ((hf1.vars p.1).2 ((w.vars p.1).1 (Dict.mem_keys_of_mem hp)))
          have hst : (p.1, st) ∈ f.dom := hst
          rw [hP p.1 p.2 st (w.dom p hp) (hf1.dom (p.1, st) hst)]
          exact hobs (p.1, st) hst
        rw [finiteAt_unique (answer_values (.cons hf1 hfs) hcov) y1]
        exact y2
      · have hcov : ∀ g ∈ f :: rs, FullObs g.dom obs := fun g hg => answer_fullObs (hall g hg).choose_spec hobs
        obtain ⟨lo, hi, ys, y1, y2, y3, _⟩ := C50_pair N vt wt hwf hdom hfin hbv (hcov f List.mem_cons_self) hbo
        refine ⟨lo, hi, ?_, hat hp ?_⟩
        · rw [finiteAt_unique (answer_values (.cons hf1 hfs) hcov) y1]
          exact y2
        · rw [hf] at hp ⊢
          rw [hp, py_ok_bind] at y3
          exact y3
  · have hp : processOutput (I := storeOf wt) N o.flag (.factors rs) none = .ok (.factors rs) := by
      rw [hf]; simp [processOutput]
    refine ⟨rs, hq hp, e3, fun obs hobs => hat hp ?_⟩
    have hv := answer_values e3 (o := obs) fun g hg => answer_fullObs (answer_mem (Q := fun x r => Answer P T (val x) r) e3 hg).choose_spec hobs
    have hm : (rs.mapM fun f => f.getValue obs) = .ok (xs.map fun x => Fl.fin (val x obs)) := by
      have key : ∀ (gs : List (Factor II)) (zs : List K), FiniteAt gs zs obs → (gs.mapM fun f => f.getValue obs) = .ok (zs.map Fl.fin) := by
        intro gs
        induction gs with
        | nil => intro zs h; cases zs with
          | nil => rfl
          | cons z zs => simp [FiniteAt] at h
        | cons g gs ih =>
          intro zs h
          cases zs with
          | nil => simp [FiniteAt] at h
          | cons z zs =>
            simp only [FiniteAt, List.map_cons, List.cons.injEq] at h
            rw [List.mapM_cons, h.1, ih zs h.2]; rfl
      rw [key _ _ hv, List.map_map]
      rfl
    rw [hf]
    simp only [processOutput, hm, py_ok_bind]
    rfl

/-! ### Counterfactual queries -/

section worlds
variable {sfx : V → Nat → V}

/-- **C82 (partial)** a counterfactual query to several models: an interval factor over the copies of the targets; its bounds at
every joint state are the least and the greatest of the counterfactual probabilities in the models.  (The conditions on the
intervened variables are those of `C43`.) -/
theorem C82_counterfactual_partial {ch : Choices V} (hch : ch.Ok) (N : BoundNames V S) (wt : VType) {dos : List (Obs V S)} {tg : List (V × Nat)}
    {ev : Obs V S} {e : Option (Obs V S)} (hee : e.getD [] = ev) {st : V → List S} {ms : List (SCM II LL)} {Bs : List (BN V S K)} (hne : ms ≠ [])
    (h : List.Forall₂ (fun m B => CausalOk m B ∧ CfOk B sfx dos tg ∧ (∀ q ∈ tg, B.states q.1 = st q.1) ∧ EvOk B ev ∧
      B.cfProb B.roots B.inner [([], ev)] ≠ 0) ms Bs)
    (hb : ∀ q ∈ tg, N.bound ≠ sfx q.1 q.2) {o : MultiObj II LL} (ho : AnswersFor o ms) (hf : o.flag = true) :
    ∃ o' r, o.query N (storeOf wt) (fun i => counterfactualQuery sfx ch i (tg.map Prod.fst) dos e (some (tg.map Prod.snd))) = .ok (o', .interval r) ∧
      (∀ v, v ∈ Dict.keys (r.dom N) ↔ ∃ q ∈ tg, v = sfx q.1 q.2) ∧ (∀ p ∈ r.dom N, ∃ q ∈ tg, p.1 = sfx q.1 q.2 ∧ p.2 = st q.1) ∧
      ∀ obs, FullObs (r.dom N) obs → ∃ lo hi, TightBounds lo hi (Bs.map fun B =>
          B.cfProb B.roots B.inner (([], ev) :: dos.zipIdx.map fun p => (p.1, targetObs sfx tg obs (p.2 + 1))) /
            B.cfProb B.roots B.inner [([], ev)]) ∧
        r.getValue ((N.bound, N.low) :: obs) = .ok (.fin lo) ∧ r.getValue ((N.bound, N.up) :: obs) = .ok (.fin hi) := by
  have hP : ∀ v s s', (∃ q ∈ tg, v = sfx q.1 q.2 ∧ s = st q.1) → (∃ q ∈ tg, v = sfx q.1 q.2 ∧ s' = st q.1) → s = s' := by
    intro v s s' ⟨q, hq, e1, e2⟩ ⟨q', hq', e1', e2'⟩
    cases h with
    | nil => exact absurd rfl hne
    | @cons m B _ _ hm _ =>
      obtain ⟨_, hq0, _⟩ := hm
      have t := hq0.target q hq
      have t' := hq0.target q' hq'
      have := (hq0.inj q.1 t.1 q'.1 t'.1 q.2 q'.2 t.2.1 t.2.2.1 t'.2.1 t'.2.2.1 (e1 ▸ e1')).1
      rw [e2, e2', this]
  obtain ⟨o', _, k, _⟩ := multi_query N wt (P := fun v s => ∃ q ∈ tg, v = sfx q.1 q.2 ∧ s = st q.1) hP (T := fun v => ∃ q ∈ tg, v = sfx q.1 q.2)
    (by rintro ⟨q, hq, e⟩; exact hb q hq e)
    (val := fun B obs => BN.cfProb B B.roots B.inner (([], ev) :: dos.zipIdx.map fun p => (p.1, targetObs sfx tg obs (p.2 + 1))) /
            BN.cfProb B B.roots B.inner [([], ev)])
    (q := fun i => counterfactualQuery sfx ch i (tg.map Prod.fst) dos e (some (tg.map Prod.snd))) hne (h.imp fun m B hm => by
      obtain ⟨h1, h2, h3, h4, h5⟩ := hm
      obtain ⟨m', r, r1, r2, r3, r4, _, r6, r7⟩ := C43_counterfactual_partial hch h1 h2 h4 hee h5
      refine ⟨m', r, r1, r2, r3, fun p hp => ?_, r4, r7⟩
      obtain ⟨q, hq, e1, e2⟩ := r6 p hp
      exact ⟨q, hq, e1, by rw [e2, h3 q hq]⟩) ho
  obtain ⟨r, r1, r2, r3, r4, _⟩ := k hf
  exact ⟨o', r, r1, r2, r3, r4⟩

/-! ### Probabilities of causation -/

/-- Probability of `e = t'` had `c` been `s'`, given `c = s` and `e = t` -/
noncomputable def hadBeen (B : BN V S K) (c e : V) (s s' t t' : S) : K :=
  B.cfProb B.roots B.inner [([], [(c, s), (e, t)]), ([(c, s')], [(e, t')])] / B.marg [c, e] (asg [(c, s), (e, t)])

/-- Probability that the effect is absent without the cause and present with it -/
noncomputable def bothWays (B : BN V S K) (c e : V) (tc fc te fe : S) : K :=
  B.cfProb B.roots B.inner [([], []), ([(c, fc)], [(e, fe)]), ([(c, tc)], [(e, te)])]

theorem causation_answer {ch : Choices V} (hch : ch.Ok) {m : SCM II LL} {B : BN V S K} (h : CausalOk m B) {c e : V} {tc fc te fe : S}
    (hc : CausationOk B sfx c e tc fc te fe) {s s' t : S} (hs : s ∈ B.states c) (hs' : s' ∈ B.states c) (ht : t ∈ B.states e)
    (hp : B.marg [c, e] (asg [(c, s), (e, t)]) ≠ 0) :
    ∃ m' r, new m = .ok m' ∧ counterfactualQuery sfx ch m' [e] [[(c, s')]] (some [(c, s), (e, t)]) none = .ok r ∧
      Answer (fun v x => v = sfx e 1 ∧ x = B.states e) (fun v => v = sfx e 1) (fun obs => hadBeen B c e s s' t (asg obs (sfx e 1))) r := by
  have hE := BN.eqs_inner h.valid h.norm h.equations
  have hev := hc.evOk hs ht
  have hq : CfOk B sfx [[(c, s')]] ([e].map fun t => (t, 1)) := by
    refine ⟨hc.worlds h.valid (l := [s']) (by simpa using hs') (by simp), by simp, by simp, fun q hq => ?_⟩
    simp only [List.map_cons, List.map_nil, List.mem_singleton] at hq
    subst hq
    refine ⟨hc.effect, le_refl _, by simp, fun d hd => ?_⟩
    simp only [Nat.sub_self, List.getElem?_cons_zero, Option.some.injEq] at hd
    subst hd
    simpa using hc.ne.symm
  have hf := BN.cfProb_factual hE hev
  obtain ⟨m', r, n1, r1, r2, r3, _, r5, r6⟩ := C43_one_world_partial hch h hq hev (e := some [(c, s), (e, t)]) rfl (by rw [hf]; exact hp)
  refine ⟨m', r, n1, r1, r2, fun p hp => ?_, fun v => ?_, fun obs hobs => ?_⟩
  · obtain ⟨x, hx, e1, e2⟩ := r5 p hp
    rw [List.mem_singleton] at hx
    subst hx
    exact ⟨e1, e2⟩
  · rw [r3]; simp
  · rw [r6 obs hobs, hf]
    rfl

theorem both_answer {ch : Choices V} (hch : ch.Ok) {m : SCM II LL} {B : BN V S K} (h : CausalOk m B) {c e : V} {tc fc te fe : S}
    (hc : CausationOk B sfx c e tc fc te fe) :
    ∃ m' r, new m = .ok m' ∧ counterfactualQuery sfx ch m' [e, e] [[(c, fc)], [(c, tc)]] none (some [1, 2]) = .ok r ∧
      Answer (fun v x => (v = sfx e 1 ∨ v = sfx e 2) ∧ x = B.states e) (fun v => v = sfx e 1 ∨ v = sfx e 2)
        (fun obs => bothWays B c e tc fc (asg obs (sfx e 2)) (asg obs (sfx e 1))) r := by
  have hE := BN.eqs_inner h.valid h.norm h.equations
  have hev : EvOk B ([] : Obs V S) := ⟨by simp, by simp, fun v s hs => by cases hs⟩
  have hq : CfOk B sfx [[(c, fc)], [(c, tc)]] [(e, 1), (e, 2)] := by
    refine ⟨hc.worlds h.valid (l := [fc, tc]) (by simp [hc.falseCause, hc.trueCause]) (by simp), by simp, by simp, fun q hq => ?_⟩
    simp only [List.mem_cons, List.not_mem_nil, or_false] at hq
    rcases hq with rfl | rfl
    · refine ⟨hc.effect, le_refl _, by simp, fun d hd => ?_⟩
      simp only [Nat.sub_self, List.getElem?_cons_zero, Option.some.injEq] at hd
      subst hd
      simpa using hc.ne.symm
    · refine ⟨hc.effect, by simp, by simp, fun d hd => ?_⟩
      simp only [Nat.add_one_sub_one, List.getElem?_cons_succ, List.getElem?_cons_zero, Option.some.injEq] at hd
      subst hd
      simpa using hc.ne.symm
  have hf : B.cfProb B.roots B.inner [([], [])] = 1 := BN.cfProb_total hE
  obtain ⟨m', r, n1, r1, r2, r3, _, r5, r6⟩ := C43_counterfactual_partial hch h hq hev (e := none) rfl (by rw [hf]; exact one_ne_zero)
  refine ⟨m', r, n1, r1, r2, fun p hp => ?_, fun v => ?_, fun obs hobs => ?_⟩
  · obtain ⟨q, hq', e1, e2⟩ := r5 p hp
    simp only [List.mem_cons, List.not_mem_nil, or_false] at hq'
    rcases hq' with rfl | rfl
    · exact ⟨.inl e1, e2⟩
    · exact ⟨.inr e1, e2⟩
  · rw [r3]; simp
  · rw [r6 obs hobs, hf, div_one]
    simp [targetObs, List.zipIdx, bothWays]

/-- The models and the networks; `c` and `e` are a cause and an effect in all of them, with the same states of the effect. -/
def CausationModels (sfx : V → Nat → V) (c e : V) (tc fc te fe : S) (st : List S) (ms : List (SCM II LL)) (Bs : List (BN V S K)) : Prop :=
  ms ≠ [] ∧ List.Forall₂ (fun m B => CausalOk m B ∧ CausationOk B sfx c e tc fc te fe ∧ B.states e = st) ms Bs

theorem forall₂_mem {X Y : Type} {R : X → Y → Prop} {xs : List X} {ys : List Y} (h : List.Forall₂ R xs ys) :
    List.Forall₂ (fun x y => R x y ∧ y ∈ ys) xs ys := by
  have key : ∀ (xs : List X) (zs : List Y), List.Forall₂ R xs zs → (∀ y ∈ zs, y ∈ ys) → List.Forall₂ (fun x y => R x y ∧ y ∈ ys) xs zs := by
    intro xs zs hf
    induction hf with
    | nil => intro _; exact .nil
    | cons h1 _ ih => intro hB; exact .cons ⟨h1, hB _ List.mem_cons_self⟩ (ih fun B hB' => hB B (List.mem_cons_of_mem _ hB'))
  exact key xs ys h fun _ h => h

theorem forall₂_right {X Y : Type} {R : X → Y → Prop} {xs : List X} {ys : List Y} (h : List.Forall₂ R xs ys) {y : Y} (hy : y ∈ ys) :
    ∃ x, R x y := by
  induction h with
  | nil => cases hy
  | @cons x y' _ _ h1 _ ih =>
    rcases List.mem_cons.1 hy with rfl | hy
    · exact ⟨x, h1⟩
    · exact ih hy

theorem hadBeen_bounds {ch : Choices V} (hch : ch.Ok) (N : BoundNames V S) (wt : VType) {c e : V} {tc fc te fe : S} {st : List S}
    {ms : List (SCM II LL)} {Bs : List (BN V S K)} (h : CausationModels sfx c e tc fc te fe st ms Bs) {s s' t t' : S}
    (hs : ∀ B ∈ Bs, s ∈ B.states c ∧ s' ∈ B.states c ∧ t ∈ B.states e ∧ t' ∈ B.states e)
    (hp : ∀ B ∈ Bs, B.marg [c, e] (asg [(c, s), (e, t)]) ≠ 0) (hb : N.bound ≠ sfx e 1) {o : MultiObj II LL} (ho : AnswersFor o ms) :
    ∃ o', (o'.flag = o.flag ∧ AnswersFor o' ms) ∧
      (o.flag = true → ∃ lo hi, TightBounds lo hi (Bs.map fun B => hadBeen B c e s s' t t') ∧
        o.queryAt N (storeOf wt) (fun i => counterfactualQuery sfx ch i [e] [[(c, s')]] (some [(c, s), (e, t)]) none) [(sfx e 1, t')] =
          .ok (o', .numbers [.fin lo, .fin hi])) ∧
      (o.flag = false →
        o.queryAt N (storeOf wt) (fun i => counterfactualQuery sfx ch i [e] [[(c, s')]] (some [(c, s), (e, t)]) none) [(sfx e 1, t')] =
          .ok (o', .numbers (Bs.map fun B => .fin (hadBeen B c e s s' t t')))) := by
  have hmem := forall₂_mem h.2
  have hst : t' ∈ st := by
    cases hmem with
    | nil => exact absurd rfl h.1
    | @cons m B _ _ h1 _ => rw [← h1.1.2.2]; exact (hs B h1.2).2.2.2
  obtain ⟨o', k0, k1, k2⟩ := multi_query N wt (P := fun v x => v = sfx e 1 ∧ x = st) (fun v s s' h h' => h.2.trans h'.2.symm) (T := fun v => v = sfx e 1) hb
    (val := fun B obs => hadBeen B c e s s' t (asg obs (sfx e 1)))
    (q := fun i => counterfactualQuery sfx ch i [e] [[(c, s')]] (some [(c, s), (e, t)]) none) h.1 (hmem.imp fun m B hm => by
      obtain ⟨⟨h1, h2, h3⟩, h4⟩ := hm
      obtain ⟨m', r, r1, r2, r3⟩ := causation_answer hch h1 h2 (hs B h4).1 (hs B h4).2.1 (hs B h4).2.2.1 (hp B h4)
      rw [h3] at r3
      exact ⟨m', r, r1, r2, r3⟩) ho
  have hobs : ∀ v x, v = sfx e 1 → v = sfx e 1 ∧ x = st → ∃ y ∈ x, Dict.get? [(sfx e 1, t')] v = some y := by
    rintro v x rfl ⟨_, rfl⟩
    exact ⟨t', hst, by simp [Dict.get?]⟩
  have hasg : (asg [(sfx e 1, t')] : V → S) (sfx e 1) = t' := over_of_get? (by simp [Dict.get?])
  refine ⟨o', k0, fun hf => ?_, fun hf => ?_⟩
  · obtain ⟨r, _, _, _, _, r5⟩ := k1 hf
    obtain ⟨lo, hi, l1, l2⟩ := r5 [(sfx e 1, t')] hobs (by simpa using hb)
    simp only [hasg] at l1
    exact ⟨lo, hi, l1, l2⟩
  · obtain ⟨rs, _, _, r3⟩ := k2 hf
    have := r3 [(sfx e 1, t')] hobs
    simp only [hasg] at this
    exact this

/-- **C82 (partial)** probability of necessity from several models: the least and the greatest of the probabilities of necessity
of the models, or all of them in the order of the models when no interval is asked for.  The object is then as before the call
and answers further queries for the same models. -/
theorem C82_necessity_partial {ch : Choices V} (hch : ch.Ok) (N : BoundNames V S) (wt : VType) {c e : V} {tc fc te fe : S} {st : List S}
    {ms : List (SCM II LL)} {Bs : List (BN V S K)} (h : CausationModels sfx c e tc fc te fe st ms Bs)
    (hp : ∀ B ∈ Bs, B.marg [c, e] (asg [(c, tc), (e, te)]) ≠ 0) (hb : N.bound ≠ sfx e 1) {o : MultiObj II LL} (ho : AnswersFor o ms)
    {tf : V → List S → Py (S × S)} {gc ge : Option (S × S)} (h1 : o.trueFalse tf c gc = .ok (tc, fc)) (h2 : o.trueFalse tf e ge = .ok (te, fe)) :
    ∃ o', (o'.flag = o.flag ∧ AnswersFor o' ms) ∧
      (o.flag = true → ∃ lo hi, TightBounds lo hi (Bs.map fun B => hadBeen B c e tc fc te fe) ∧
        o.pn N (storeOf wt) sfx ch tf c e gc ge = .ok (o', .numbers [.fin lo, .fin hi])) ∧
      (o.flag = false → o.pn N (storeOf wt) sfx ch tf c e gc ge = .ok (o', .numbers (Bs.map fun B => .fin (hadBeen B c e tc fc te fe)))) := by
  obtain ⟨o', k0, k1, k2⟩ := hadBeen_bounds hch N wt h (s := tc) (s' := fc) (t := te) (t' := fe) (fun B hB => by
    obtain ⟨m, _, hc, _⟩ := forall₂_right h.2 hB
    exact ⟨hc.trueCause, hc.falseCause, hc.trueEffect, hc.falseEffect⟩) hp hb ho
  refine ⟨o', k0, fun hf => ?_, fun hf => ?_⟩
  · obtain ⟨lo, hi, l1, l2⟩ := k1 hf
    exact ⟨lo, hi, l1, by rw [MultiObj.pn, h1, py_ok_bind, h2, py_ok_bind]; exact l2⟩
  · rw [MultiObj.pn, h1, py_ok_bind, h2, py_ok_bind]; exact k2 hf

/-- **C82 (partial)** probability of sufficiency from several models. -/
theorem C82_sufficiency_partial {ch : Choices V} (hch : ch.Ok) (N : BoundNames V S) (wt : VType) {c e : V} {tc fc te fe : S} {st : List S}
    {ms : List (SCM II LL)} {Bs : List (BN V S K)} (h : CausationModels sfx c e tc fc te fe st ms Bs)
    (hp : ∀ B ∈ Bs, B.marg [c, e] (asg [(c, fc), (e, fe)]) ≠ 0) (hb : N.bound ≠ sfx e 1) {o : MultiObj II LL} (ho : AnswersFor o ms)
    {tf : V → List S → Py (S × S)} {gc ge : Option (S × S)} (h1 : o.trueFalse tf c gc = .ok (tc, fc)) (h2 : o.trueFalse tf e ge = .ok (te, fe)) :
    ∃ o', (o'.flag = o.flag ∧ AnswersFor o' ms) ∧
      (o.flag = true → ∃ lo hi, TightBounds lo hi (Bs.map fun B => hadBeen B c e fc tc fe te) ∧
        o.ps N (storeOf wt) sfx ch tf c e gc ge = .ok (o', .numbers [.fin lo, .fin hi])) ∧
      (o.flag = false → o.ps N (storeOf wt) sfx ch tf c e gc ge = .ok (o', .numbers (Bs.map fun B => .fin (hadBeen B c e fc tc fe te)))) := by
  obtain ⟨o', k0, k1, k2⟩ := hadBeen_bounds hch N wt h (s := fc) (s' := tc) (t := fe) (t' := te) (fun B hB => by
    obtain ⟨m, _, hc, _⟩ := forall₂_right h.2 hB
    exact ⟨hc.falseCause, hc.trueCause, hc.falseEffect, hc.trueEffect⟩) hp hb ho
  refine ⟨o', k0, fun hf => ?_, fun hf => ?_⟩
  · obtain ⟨lo, hi, l1, l2⟩ := k1 hf
    exact ⟨lo, hi, l1, by rw [MultiObj.ps, h1, py_ok_bind, h2, py_ok_bind]; exact l2⟩
  · rw [MultiObj.ps, h1, py_ok_bind, h2, py_ok_bind]; exact k2 hf

/-- **C82 (partial)** probability of necessity and sufficiency from several models. -/
theorem C82_necessity_sufficiency_partial {ch : Choices V} (hch : ch.Ok) (N : BoundNames V S) (wt : VType) {c e : V} {tc fc te fe : S}
    {st : List S} {ms : List (SCM II LL)} {Bs : List (BN V S K)} (h : CausationModels sfx c e tc fc te fe st ms Bs)
    (hb : N.bound ≠ sfx e 1 ∧ N.bound ≠ sfx e 2) {o : MultiObj II LL} (ho : AnswersFor o ms)
    {tf : V → List S → Py (S × S)} {gc ge : Option (S × S)} (h1 : o.trueFalse tf c gc = .ok (tc, fc)) (h2 : o.trueFalse tf e ge = .ok (te, fe)) :
    ∃ o', (o'.flag = o.flag ∧ AnswersFor o' ms) ∧
      (o.flag = true → ∃ lo hi, TightBounds lo hi (Bs.map fun B => bothWays B c e tc fc te fe) ∧
        o.pns N (storeOf wt) sfx ch tf c e gc ge = .ok (o', .numbers [.fin lo, .fin hi])) ∧
      (o.flag = false → o.pns N (storeOf wt) sfx ch tf c e gc ge = .ok (o', .numbers (Bs.map fun B => .fin (bothWays B c e tc fc te fe)))) := by
  have hmem := h.2
  obtain ⟨hst, hne⟩ : (te ∈ st ∧ fe ∈ st) ∧ sfx e 1 ≠ sfx e 2 := by
    cases hmem with
    | nil => exact absurd rfl h.1
    | @cons m B _ _ h1 _ =>
      obtain ⟨_, hc, he⟩ := h1
      refine ⟨by rw [← he]; exact ⟨hc.trueEffect, hc.falseEffect⟩, fun e' => ?_⟩
      have := (hc.inj e hc.effect e hc.effect 1 2 (by decide) (by decide) (by decide) (by decide) e').2
      cases this
  obtain ⟨o', k0, k1, k2⟩ := multi_query N wt (P := fun v x => (v = sfx e 1 ∨ v = sfx e 2) ∧ x = st) (fun v s s' h h' => h.2.trans h'.2.symm)
    (T := fun v => v = sfx e 1 ∨ v = sfx e 2) (by rintro (e | e); exacts [hb.1 e, hb.2 e])
    (val := fun B obs => bothWays B c e tc fc (asg obs (sfx e 2)) (asg obs (sfx e 1)))
    (q := fun i => counterfactualQuery sfx ch i [e, e] [[(c, fc)], [(c, tc)]] none (some [1, 2])) h.1 (hmem.imp fun m B hm => by
      obtain ⟨h1, h2, h3⟩ := hm
      obtain ⟨m', r, r1, r2, r3⟩ := both_answer hch h1 h2
      rw [h3] at r3
      exact ⟨m', r, r1, r2, r3⟩) ho
  have hobs : ∀ v x, (v = sfx e 1 ∨ v = sfx e 2) → (v = sfx e 1 ∨ v = sfx e 2) ∧ x = st →
      ∃ y ∈ x, Dict.get? [(sfx e 1, fe), (sfx e 2, te)] v = some y := by
    rintro v x (rfl | rfl) ⟨_, rfl⟩
    · exact ⟨fe, hst.2, by simp [Dict.get?]⟩
    · exact ⟨te, hst.1, by simp [Dict.get?, hne]⟩
  have a1 : (asg [(sfx e 1, fe), (sfx e 2, te)] : V → S) (sfx e 1) = fe := over_of_get? (by simp [Dict.get?])
  have a2 : (asg [(sfx e 1, fe), (sfx e 2, te)] : V → S) (sfx e 2) = te := over_of_get? (by simp [Dict.get?, hne])
  refine ⟨o', k0, fun hf => ?_, fun hf => ?_⟩
  · obtain ⟨r, _, _, _, _, r5⟩ := k1 hf
    obtain ⟨lo, hi, l1, l2⟩ := r5 _ hobs (by simpa using hb)
    simp only [a1, a2] at l1
    exact ⟨lo, hi, l1, by rw [MultiObj.pns, h1, py_ok_bind, h2, py_ok_bind]; exact l2⟩
  · obtain ⟨rs, _, _, r3⟩ := k2 hf
    have := r3 _ hobs
    simp only [a1, a2] at this
    rw [MultiObj.pns, h1, py_ok_bind, h2, py_ok_bind]; exact this

theorem tightBounds_range {lo hi : K} {xs : List K} (h : TightBounds lo hi xs) (hx : ∀ x ∈ xs, 0 ≤ x ∧ x ≤ 1) : 0 ≤ lo ∧ lo ≤ hi ∧ hi ≤ 1 :=
  ⟨(hx lo h.1).1, (h.2.2 lo h.1).2, (hx hi h.2.1).2⟩

theorem hadBeen_range {m : SCM II LL} {B : BN V S K} (h : CausalOk m B) (hnn : B.NonNeg) {c e : V} {tc fc te fe : S}
    (hc : CausationOk B sfx c e tc fc te fe) {s s' t t' : S} (hs : s ∈ B.states c) (ht : t ∈ B.states e) :
    0 ≤ hadBeen B c e s s' t t' ∧ hadBeen B c e s s' t t' ≤ 1 := by
  have hE := BN.eqs_inner h.valid h.norm h.equations
  have hf : _ = B.marg [c, e] (asg [(c, s), (e, t)]) := BN.cfProb_factual hE (hc.evOk hs ht)
  rw [hadBeen, ← hf]
  exact ⟨div_nonneg (BN.cfProb_nonneg h.valid hnn _) (BN.cfProb_nonneg h.valid hnn _),
    div_le_one_of_le₀ (BN.cfProb_mono h.valid hnn (by simp)) (BN.cfProb_nonneg h.valid hnn _)⟩

/-! ### Fitted models -/

theorem CausationOk.refit {B B' : BN V S K} (h1 : B'.nodes = B.nodes) (h2 : B'.parents = B.parents) (h3 : B'.states = B.states) {c e : V}
    {tc fc te fe : S} (h : CausationOk B sfx c e tc fc te fe) : CausationOk B' sfx c e tc fc te fe := by
  have hi : B'.inner = B.inner := by rw [BN.inner, BN.inner, h1, h2]
  exact ⟨hi ▸ h.cause, hi ▸ h.effect, h.ne, by rw [h1, h2]; exact h.child, h3 ▸ h.trueCause, h3 ▸ h.falseCause, h3 ▸ h.trueEffect,
    h3 ▸ h.falseEffect, by rw [hi, h1]; exact h.fresh, by rw [hi]; exact h.inj⟩

/-- A record that can happen makes what it observes possible. -/
theorem marg_of_possible {B : BN V S K} (hB : B.Valid) (hnn : B.NonNeg) {r : Rec V S} (h : Possible B r) {c e : V} (hce : c ≠ e)
    {s t : S} (h1 : Rec.val r c = some s) (h2 : Rec.val r e = some t) : B.marg [c, e] (asg [(c, s), (e, t)]) ≠ 0 := by
  obtain ⟨a, a1, a2, a3⟩ := h
  have : B.marg [c, e] (asg [(c, s), (e, t)]) = B.marg [c, e] a := by
    refine hB.marg_dep _ _ _ fun w hw => ?_
    rcases (by simpa using hw : w = c ∨ w = e) with rfl | rfl
    · rw [asg, over_of_get? (s := s) (by simp [Dict.get?]), a3 _ _ h1]
    · rw [asg, over_of_get? (s := t) (by simp [Dict.get?, hce]), a3 _ _ h2]
  rw [this]
  exact (BN.marg_pos hB hnn _ a1 a2).ne'

/-- What compiling an `EMCC` object leaves. -/
theorem emcc_object {ch : Choices V} (hch : ch.Ok) (kl : List (Fl K) → List (Fl K) → Bool) {m : SCM II LL} {B : BN V S K} (h : m.Rep B)
    (hB : B.Valid) (hn : B.Normalised) (hnn : B.NonNeg) (hcast : m.cast = true)
    (hk : DagModel.Known m.base.graph B.states m.base)
    (hdoms : ∀ v ∈ B.nodes, Dict.get? m.base.domains v = some (some (B.states v)))
    (hx : m.exogenous ≠ []) {fr : Frame V S} (hd : EmccData m B fr) {ts : List (V → List K)} (hts : ts ≠ [])
    (ht : ∀ t ∈ ts, ∀ x ∈ m.exogenous, Draws false (famDom m.base.graph B.states x) (m.base.graph.pred x) (t x)) (n : ℕ)
    {c e : V} {tc fc te fe : S} (hc : CausationOk B sfx c e tc fc te fe) (flag : Bool) :
    ∃ os Bs o, Emcc.generate ch kl m n fr (ts.map fun t x => (t x).map Fl.fin) = .ok (EM.addMissing B.nodes fr, os) ∧ os.length = ts.length ∧
      List.Forall₂ (fun o B' => Refit m B o.core.model B' ∧ o.core.model.Multi ∧ ∀ r ∈ fr.rows, Possible B' r) os Bs ∧
      Emcc.compileObj ch kl m n fr (ts.map fun t x => (t x).map Fl.fin) flag = .ok o ∧ o.flag = flag ∧
      AnswersFor o (os.map fun o => o.core.model) ∧ CausationModels sfx c e tc fc te fe (B.states e) (os.map fun o => o.core.model) Bs := by
  obtain ⟨os, Bs, g1, g2, g3⟩ := C81_generate hch kl h hB hn hnn hcast hk hdoms hx hd hts ht n
  have hosne : os ≠ [] := by
    intro e
    rw [e] at g2
    exact hts (List.length_eq_zero_iff.1 g2.symm)
  have hm : CausationModels sfx c e tc fc te fe (B.states e) (os.map fun o => o.core.model) Bs := by
    refine ⟨by simpa using hosne, ?_⟩
    rw [List.forall₂_map_left_iff]
    exact g3.imp fun o B' ho => ⟨ho.1.causalOk h hd.data.roots ho.2.1, hc.refit ho.1.nodes ho.1.parents ho.1.states, by rw [ho.1.states]⟩
  have hnew : ∀ (ms : List (SCM II LL)) (Cs : List (BN V S K)), List.Forall₂ (fun m B => CausalOk m B) ms Cs → ∃ ms', ms.mapM Causal.new = .ok ms' := by
    intro ms Cs hf
    induction hf with
    | nil => exact ⟨[], rfl⟩
    | @cons m B ms Cs h1 _ ih =>
      obtain ⟨ms', i1⟩ := ih
      obtain ⟨m', n1, _⟩ := new_ok h1
      exact ⟨m' :: ms', by rw [List.mapM_cons, n1, py_ok_bind, i1]; rfl⟩
  obtain ⟨ms', hms⟩ := hnew _ _ (hm.2.imp fun _ _ hx => hx.1)
  refine ⟨os, Bs, ⟨os.map fun o => o.core.model, ms', (os.map fun o => o.core.model).head?, true, flag⟩, g1, g2, g3, ?_, rfl, .inr ⟨rfl, hms⟩, hm⟩
  rw [Emcc.compileObj, g1, py_ok_bind, MultiObj.compile, if_neg]
  · show (List.mapM Causal.new (os.map fun o => o.core.model) >>= _) = _
    rw [hms]
    rfl
  · show ¬ (os.map fun o => o.core.model).length < 1
    have := List.length_pos_of_ne_nil hm.1
    omega

/-- **C82 (partial)** `EMCC`: if the records contain a case with the cause and the effect, `prob_necessity` gives the least and the
greatest of the probabilities of necessity of the fitted models, which lie between zero and one. -/
theorem C82_emcc_necessity_partial {ch : Choices V} (hch : ch.Ok) (kl : List (Fl K) → List (Fl K) → Bool) {m : SCM II LL} {B : BN V S K} (h : m.Rep B)
    (hB : B.Valid) (hn : B.Normalised) (hnn : B.NonNeg) (hcast : m.cast = true)
    (hk : DagModel.Known m.base.graph B.states m.base)
    (hdoms : ∀ v ∈ B.nodes, Dict.get? m.base.domains v = some (some (B.states v)))
    (hx : m.exogenous ≠ []) {fr : Frame V S} (hd : EmccData m B fr) {ts : List (V → List K)} (hts : ts ≠ [])
    (ht : ∀ t ∈ ts, ∀ x ∈ m.exogenous, Draws false (famDom m.base.graph B.states x) (m.base.graph.pred x) (t x)) (n : ℕ)
    (N : BoundNames V S) (wt : VType) {c e : V} {tc fc te fe : S} (hc : CausationOk B sfx c e tc fc te fe) (hb : N.bound ≠ sfx e 1)
    {r : Rec V S} (hr : r ∈ fr.rows) (hrc : Rec.val r c = some tc) (hre : Rec.val r e = some te) (tf : V → List S → Py (S × S)) :
    ∃ os Bs o o' lo hi, Emcc.generate ch kl m n fr (ts.map fun t x => (t x).map Fl.fin) = .ok (EM.addMissing B.nodes fr, os) ∧
      os.length = ts.length ∧ List.Forall₂ (fun o B' => Refit m B o.core.model B') os Bs ∧
      Emcc.compileObj ch kl m n fr (ts.map fun t x => (t x).map Fl.fin) true = .ok o ∧
      o.pn N (storeOf wt) sfx ch tf c e (some (tc, fc)) (some (te, fe)) = .ok (o', .numbers [.fin lo, .fin hi]) ∧
      TightBounds lo hi (Bs.map fun B => hadBeen B c e tc fc te fe) ∧ 0 ≤ lo ∧ lo ≤ hi ∧ hi ≤ 1 := by
  obtain ⟨os, Bs, o, g1, g2, g3, g4, g5, g6, g7⟩ := emcc_object hch kl h hB hn hnn hcast hk hdoms hx hd hts ht n hc true
  have hB' : ∀ B' ∈ Bs, B'.Valid ∧ B'.NonNeg ∧ Possible B' r := fun B' hB' => by
    obtain ⟨o, h1, _, h2⟩ := forall₂_right g3 hB'
    exact ⟨h1.valid, h1.nonneg, h2 r hr⟩
  obtain ⟨o', _, k1, _⟩ := C82_necessity_partial hch N wt g7 (fun B' h' => marg_of_possible (hB' B' h').1 (hB' B' h').2.1 (hB' B' h').2.2 hc.ne hrc hre)
    hb g6 (tf := tf) (gc := some (tc, fc)) (ge := some (te, fe)) rfl rfl
  obtain ⟨lo, hi, l1, l2⟩ := k1 g5
  refine ⟨os, Bs, o, o', lo, hi, g1, g2, g3.imp fun _ _ hx => hx.1, g4, l2, l1, tightBounds_range l1 fun x hx => ?_⟩
  obtain ⟨B', h', rfl⟩ := List.mem_map.1 hx
  obtain ⟨m', c1, c2, _⟩ := forall₂_right g7.2 h'
  exact hadBeen_range c1 (hB' B' h').2.1 c2 c2.trueCause c2.trueEffect

/-- **C82 (partial)** `EMCC`: `prob_sufficiency`, if the records contain a case without the cause and without the effect. -/
theorem C82_emcc_sufficiency_partial {ch : Choices V} (hch : ch.Ok) (kl : List (Fl K) → List (Fl K) → Bool) {m : SCM II LL} {B : BN V S K} (h : m.Rep B)
    (hB : B.Valid) (hn : B.Normalised) (hnn : B.NonNeg) (hcast : m.cast = true)
    (hk : DagModel.Known m.base.graph B.states m.base)
    (hdoms : ∀ v ∈ B.nodes, Dict.get? m.base.domains v = some (some (B.states v)))
    (hx : m.exogenous ≠ []) {fr : Frame V S} (hd : EmccData m B fr) {ts : List (V → List K)} (hts : ts ≠ [])
    (ht : ∀ t ∈ ts, ∀ x ∈ m.exogenous, Draws false (famDom m.base.graph B.states x) (m.base.graph.pred x) (t x)) (n : ℕ)
    (N : BoundNames V S) (wt : VType) {c e : V} {tc fc te fe : S} (hc : CausationOk B sfx c e tc fc te fe) (hb : N.bound ≠ sfx e 1)
    {r : Rec V S} (hr : r ∈ fr.rows) (hrc : Rec.val r c = some fc) (hre : Rec.val r e = some fe) (tf : V → List S → Py (S × S)) :
    ∃ os Bs o o' lo hi, Emcc.generate ch kl m n fr (ts.map fun t x => (t x).map Fl.fin) = .ok (EM.addMissing B.nodes fr, os) ∧
      os.length = ts.length ∧ List.Forall₂ (fun o B' => Refit m B o.core.model B') os Bs ∧
      Emcc.compileObj ch kl m n fr (ts.map fun t x => (t x).map Fl.fin) true = .ok o ∧
      o.ps N (storeOf wt) sfx ch tf c e (some (tc, fc)) (some (te, fe)) = .ok (o', .numbers [.fin lo, .fin hi]) ∧
      TightBounds lo hi (Bs.map fun B => hadBeen B c e fc tc fe te) ∧ 0 ≤ lo ∧ lo ≤ hi ∧ hi ≤ 1 := by
  obtain ⟨os, Bs, o, g1, g2, g3, g4, g5, g6, g7⟩ := emcc_object hch kl h hB hn hnn hcast hk hdoms hx hd hts ht n hc true
  have hB' : ∀ B' ∈ Bs, B'.Valid ∧ B'.NonNeg ∧ Possible B' r := fun B' hB' => by
    obtain ⟨o, h1, _, h2⟩ := forall₂_right g3 hB'
    exact ⟨h1.valid, h1.nonneg, h2 r hr⟩
  obtain ⟨o', _, k1, _⟩ := C82_sufficiency_partial hch N wt g7 (fun B' h' => marg_of_possible (hB' B' h').1 (hB' B' h').2.1 (hB' B' h').2.2 hc.ne hrc hre)
    hb g6 (tf := tf) (gc := some (tc, fc)) (ge := some (te, fe)) rfl rfl
  obtain ⟨lo, hi, l1, l2⟩ := k1 g5
  refine ⟨os, Bs, o, o', lo, hi, g1, g2, g3.imp fun _ _ hx => hx.1, g4, l2, l1, tightBounds_range l1 fun x hx => ?_⟩
  obtain ⟨B', h', rfl⟩ := List.mem_map.1 hx
  obtain ⟨m', c1, c2, _⟩ := forall₂_right g7.2 h'
  exact hadBeen_range c1 (hB' B' h').2.1 c2 c2.falseCause c2.falseEffect

/-- **C82 (partial)** `EMCC`: `prob_necessity_sufficiency`, whatever the records are. -/
theorem C82_emcc_both_partial {ch : Choices V} (hch : ch.Ok) (kl : List (Fl K) → List (Fl K) → Bool) {m : SCM II LL} {B : BN V S K} (h : m.Rep B)
    (hB : B.Valid) (hn : B.Normalised) (hnn : B.NonNeg) (hcast : m.cast = true)
    (hk : DagModel.Known m.base.graph B.states m.base)
    (hdoms : ∀ v ∈ B.nodes, Dict.get? m.base.domains v = some (some (B.states v)))
    (hx : m.exogenous ≠ []) {fr : Frame V S} (hd : EmccData m B fr) {ts : List (V → List K)} (hts : ts ≠ [])
    (ht : ∀ t ∈ ts, ∀ x ∈ m.exogenous, Draws false (famDom m.base.graph B.states x) (m.base.graph.pred x) (t x)) (n : ℕ)
    (N : BoundNames V S) (wt : VType) {c e : V} {tc fc te fe : S} (hc : CausationOk B sfx c e tc fc te fe)
    (hb : N.bound ≠ sfx e 1 ∧ N.bound ≠ sfx e 2) (tf : V → List S → Py (S × S)) :
    ∃ os Bs o o' lo hi, Emcc.generate ch kl m n fr (ts.map fun t x => (t x).map Fl.fin) = .ok (EM.addMissing B.nodes fr, os) ∧
      os.length = ts.length ∧ List.Forall₂ (fun o B' => Refit m B o.core.model B') os Bs ∧
      Emcc.compileObj ch kl m n fr (ts.map fun t x => (t x).map Fl.fin) true = .ok o ∧
      o.pns N (storeOf wt) sfx ch tf c e (some (tc, fc)) (some (te, fe)) = .ok (o', .numbers [.fin lo, .fin hi]) ∧
      TightBounds lo hi (Bs.map fun B => bothWays B c e tc fc te fe) ∧ 0 ≤ lo ∧ lo ≤ hi ∧ hi ≤ 1 := by
  obtain ⟨os, Bs, o, g1, g2, g3, g4, g5, g6, g7⟩ := emcc_object hch kl h hB hn hnn hcast hk hdoms hx hd hts ht n hc true
  obtain ⟨o', _, k1, _⟩ := C82_necessity_sufficiency_partial hch N wt g7 hb g6 (tf := tf) (gc := some (tc, fc)) (ge := some (te, fe)) rfl rfl
  obtain ⟨lo, hi, l1, l2⟩ := k1 g5
  refine ⟨os, Bs, o, o', lo, hi, g1, g2, g3.imp fun _ _ hx => hx.1, g4, l2, l1, tightBounds_range l1 fun x hx => ?_⟩
  obtain ⟨B', h', rfl⟩ := List.mem_map.1 hx
  obtain ⟨m', c1, c2, _⟩ := forall₂_right g7.2 h'
  obtain ⟨o, h1, _, _⟩ := forall₂_right g3 h'
  refine ⟨BN.cfProb_nonneg h1.valid h1.nonneg _, ?_⟩
  rw [bothWays, ← BN.cfProb_total (BN.eqs_inner c1.valid c1.norm c1.equations)]
  exact BN.cfProb_mono h1.valid h1.nonneg (by simp)

end worlds

/-! ### Where the states come from -/

/-- **C82** a new object has no model: without given states the probabilities of causation are refused, however many models it
has. -/
theorem C82_unset (N : BoundNames V S) (wt : VType) (sfx : V → Nat → V) (ch : Choices V) (tf : V → List S → Py (S × S)) (ms : List (SCM II LL))
    (flag : Bool) (c e : V) (ge : Option (S × S)) :
    (MultiObj.new ms flag).pn N (storeOf wt) sfx ch tf c e none ge = .error .attributeError ∧
    (MultiObj.new ms flag).ps N (storeOf wt) sfx ch tf c e none ge = .error .attributeError ∧
    (MultiObj.new ms flag).pns N (storeOf wt) sfx ch tf c e none ge = .error .attributeError := ⟨rfl, rfl, rfl⟩

/-- **C82** changing the interval setting of a compiled object does not compile it again: the next query is put to the same
inference objects, and the object is the same afterwards, but for the setting. -/
theorem C82_interval (N : BoundNames V S) (wt : VType) (o : MultiObj II LL) (hc : o.compiled = true) (b : Bool) (q : SCM II LL → Py (Factor II)) :
    (∀ o' x, (o.setInterval b).query N (storeOf wt) q = .ok (o', x) → o' = { o with flag := b } ∧ ∃ rs, o.infs.mapM q = .ok rs) ∧
    ∀ e, o.infs.mapM q = .error e → (o.setInterval b).query N (storeOf wt) q = .error e := by
  refine ⟨fun o' x h => ?_, fun e h => ?_⟩
  · simp only [MultiObj.query, MultiObj.ready, MultiObj.setInterval, hc, if_true, py_ok_bind] at h
    cases hm : o.infs.mapM q with
    | error e => rw [hm] at h; cases h
    | ok rs =>
      rw [hm, py_ok_bind] at h
      cases hr : processOutput N b (.factors rs) none with
      | error e => rw [hr] at h; cases h
      | ok r => rw [hr] at h; cases h; exact ⟨by rw [hc], rs, rfl⟩
  · simp only [MultiObj.query, MultiObj.ready, MultiObj.setInterval, hc, if_true, py_ok_bind]
    rw [h]; rfl

/-- **C82** the models that count are the current ones: whatever an object has been asked before, after `set_models` and `add_models` it answers
every query as a new object with these models, and the interval setting is the current one. -/
theorem C82_current (N : BoundNames V S) (wt : VType) (o : MultiObj II LL) (ms : List (SCM II LL)) (q : SCM II LL → Py (Factor II)) (b : Bool) :
    ((o.setModels ms).query N (storeOf wt) q).map Prod.snd = ((MultiObj.new ms o.flag).query N (storeOf wt) q).map Prod.snd ∧
    ((o.addModels ms).query N (storeOf wt) q).map Prod.snd = ((MultiObj.new (o.models ++ ms) o.flag).query N (storeOf wt) q).map Prod.snd ∧
    (((o.setModels ms).setInterval b).query N (storeOf wt) q).map Prod.snd = ((MultiObj.new ms b).query N (storeOf wt) q).map Prod.snd ∧
    ∀ o' x, o.compile = .ok o' → ((o'.setInterval b).query N (storeOf wt) q).map Prod.snd = .ok x →
      ((MultiObj.new o.models b).query N (storeOf wt) q).map Prod.snd = .ok x := by
  have key : ∀ (o o' : MultiObj II LL), o.compiled = false → o'.compiled = false → o.models = o'.models → o.flag = o'.flag →
      (o.query N (storeOf wt) q).map Prod.snd = (o'.query N (storeOf wt) q).map Prod.snd := by
    intro o o' h1 h2 h3 h4
    simp only [MultiObj.query, MultiObj.ready, h1, h2, Bool.false_eq_true, if_false, MultiObj.compile, h3]
    split
    · rfl
    · cases o'.models.mapM Causal.new with
      | error e => rfl
      | ok infs =>
        simp only [py_ok_bind, pure, Except.pure, h4]
  refine ⟨key _ _ rfl rfl rfl rfl, key _ _ rfl rfl rfl rfl, key _ _ rfl rfl rfl rfl, fun o' x hc hx => ?_⟩
  rw [← hx]
  rw [MultiObj.compile] at hc
  split at hc
  · cases hc
  rename_i hl
  cases hm : o.models.mapM Causal.new with
  | error e => rw [hm] at hc; cases hc
  | ok infs =>
    rw [hm] at hc
    injection hc with hc
    subst hc
    simp only [MultiObj.query, MultiObj.ready, MultiObj.setInterval, MultiObj.new, MultiObj.compile, hm, if_neg hl, if_true, py_ok_bind, pure, Except.pure,
      Bool.false_eq_true, if_false]

/-- **C82** after `set_models` the states are still looked up in the first of the models that were compiled before. -/
theorem C82_stale {o o' : MultiObj II LL} (h : o.compile = .ok o') (ms : List (SCM II LL)) (tf : V → List S → Py (S × S)) (v : V)
    (g : Option (S × S)) : (o'.setModels ms).trueFalse tf v g = o'.trueFalse tf v g ∧ (o'.setModels ms).model = o.models.head? := by
  refine ⟨rfl, ?_⟩
  rw [MultiObj.compile] at h
  split at h
  · cases h
  · cases hm : o.models.mapM Causal.new with
    | error e => rw [hm] at h; cases h
    | ok infs =>
      rw [hm] at h
      injection h with h
      rw [← h]
      rfl

end Props
end Verif
