import Verif.Props.Gdcc
import Verif.Props.MultiCausal

/-!
# C84: `GDCC`, bounds from several causal models of greatest likelihood
-/

set_option linter.unusedSectionVars false
set_option linter.unusedSimpArgs false

namespace Verif
namespace Props
open Causal

variable {V S K : Type} [DecidableEq V] [DecidableEq S] [Inhabited S] [Field K] [LinearOrder K] [IsStrictOrderedRing K]
variable {vt : VType}

local notation "II" => (storeOf vt : StoreImpl V S (Fl K))
local notation "LL" => (labelStoreOf vt : LabelStore V S)

/-! ### What is required and what is obtained -/

/-- Causal models for which `GDCC` is meant: exogenous variables are roots, no variable has two exogenous parents; equations are cast
to multinomial factors. -/
structure GdccModel (m : SCM II LL) (B : BN V S K) : Prop where
  rep : m.Rep B
  valid : B.Valid
  norm : B.Normalised
  nonneg : B.NonNeg
  cast : m.cast = true
  known : DagModel.Known m.base.graph B.states m.base
  doms : ∀ v ∈ B.nodes, Dict.get? m.base.domains v = some (some (B.states v))
  endo : m.endogenous ≠ []
  exo : m.exogenous ≠ []
  roots : ∀ U ∈ m.exogenous, B.parents U = []
  one : ∀ v ∈ B.nodes, v ∈ m.endogenous → ∀ p ∈ B.parents v, ∀ q ∈ B.parents v, p ∉ m.endogenous → q ∉ m.endogenous → p = q

/-- Records with a state for each endogenous variable and no value of an exogenous one; each can be the outcome of the equations. -/
structure GdccData (m : SCM II LL) (B : BN V S K) (fr : Frame V S) (sub : V → V → Bool) : Prop where
  missing : ∀ U ∈ m.exogenous, ∀ r ∈ fr.rows, Rec.val r U = none
  complete : ∀ r ∈ fr.rows, ∀ v ∈ B.nodes, v ∈ m.endogenous → ∃ s ∈ B.states v, Rec.val r v = some s
  names : ∀ U ∈ m.exogenous, ∀ v ∈ B.nodes, sub v U = true ↔ v = U
  outcome : ∀ r ∈ fr.rows, ∃ a, B.InStates a ∧ (∀ v ∈ m.endogenous, B.table v a ≠ 0) ∧ ∀ v s, Rec.val r v = some s → a v = s

/-- The optimiser does its part: from the values of whatever model with these equations on, it finds for each exogenous variable a distribution with the
least objective. -/
def FindsLeast (φ : K →+* ℝ) (opt : Option Nat → List (Fl K) → (List K → Py (Fl ℝ)) → List K) (max : Option Nat) (m : SCM II LL) (B : BN V S K)
    (fr : Frame V S) : Prop :=
  ∀ m0 B0, Refit m B m0 B0 → GradModel m0 B0 → ∀ U ∈ m.exogenous, ∃ θ,
    opt max ((B0.states U).map fun u => .fin (B0.table U fun _ => u))
      (Gradient.objective (fun x => Real.log (φ x)) m0 U (EM.addMissing B.nodes fr)) = (B.states U).map θ ∧ IsDistr B U θ ∧
    ∀ η, IsDistr B U η → ∀ x y,
      Gradient.objective (fun x => Real.log (φ x)) m0 U (EM.addMissing B.nodes fr) ((B.states U).map θ) = .ok x →
      Gradient.objective (fun x => Real.log (φ x)) m0 U (EM.addMissing B.nodes fr) ((B.states U).map η) = .ok y → FlLe x y

/-- `m'` has the graph, the states and the equations of `m`; the records can happen in it, and with no other exogenous distributions are they
more likely. -/
structure Likeliest (m : SCM II LL) (B : BN V S K) (rows : List (Rec V S)) (m' : SCM II LL) (B' : BN V S K) : Prop where
  refit : Refit m B m' B'
  multi : m'.Multi
  possible : ∀ r ∈ rows, Possible B' r
  max : ∀ B'', Other B m.exogenous B'' → endoLik B'' m.endogenous rows ≤ endoLik B' m.endogenous rows

/-! ### Helpers -/

theorem doms_of {m : SCM II LL} {B : BN V S K} (hB : B.Valid) (hk : Dict.keys m.base.domains = B.nodes)
    (hd : ∀ v ∈ B.nodes, Dict.get? m.base.domains v = some (some (B.states v))) : m.Doms B := by
  show m.base.domains = B.nodes.map fun v => (v, some (B.states v))
  rw [← hk, Dict.keys, List.map_map]
  conv_lhs => rw [← List.map_id m.base.domains]
  refine List.map_congr_left fun p hp => ?_
  have h1 : p.1 ∈ B.nodes := hk ▸ Dict.mem_keys_of_mem hp
  have h2 := Dict.get?_of_mem (hk.symm ▸ hB.nodes : (Dict.keys m.base.domains).Nodup) (show (p.1, p.2) ∈ m.base.domains from hp)
  rw [hd p.1 h1] at h2
  injection h2 with h2
  show p = (p.1, some (B.states p.1))
  rw [h2]

theorem Refit.trans {m m0 m' : SCM II LL} {B B0 B' : BN V S K} (h : Refit m B m0 B0) (h' : Refit m0 B0 m' B') : Refit m B m' B' :=
  ⟨h'.rep, h'.valid, h'.norm, h'.nonneg, h'.nodes.trans h.nodes, h'.parents.trans h.parents, h'.states.trans h.states,
    fun v hv hvn => (h'.equations v (h.endogenous ▸ hv) (h.nodes ▸ hvn)).trans (h.equations v hv hvn), h'.graph.trans h.graph,
    h'.endogenous.trans h.endogenous, fun v hv hvn => (h'.slots v (h.endogenous ▸ hv) (h.nodes ▸ hvn)).trans (h.slots v hv hvn)⟩

theorem Refit.other {m m' : SCM II LL} {B B' : BN V S K} (h : Refit m B m' B') (hm : m.Rep B) : Other B m.exogenous B' :=
  ⟨h.valid, h.norm, h.nonneg, h.nodes, h.parents, h.states, fun v hv hvx => h.equations v (by
    by_contra hc
    exact hvx ((mem_exogenous hm).2 ⟨hv, hc⟩)) hv⟩

theorem sumOver_pos_exists {D : V → List S} {xs : List V} (hx : xs.Nodup) {f : (V → S) → K} {a : V → S} (h : sumOver D xs f a ≠ 0) :
    ∃ b, (∀ v, v ∉ xs → b v = a v) ∧ (∀ v ∈ xs, b v ∈ D v) ∧ f b ≠ 0 := by
  induction xs generalizing a with
  | nil => exact ⟨a, fun _ _ => rfl, by simp, h⟩
  | cons x xs ih =>
    rw [List.nodup_cons] at hx
    by_contra hc
    refine h (List.sum_eq_zero fun y hy => ?_)
    obtain ⟨s, hs, rfl⟩ := List.mem_map.1 hy
    by_contra hne
    obtain ⟨b, b1, b2, b3⟩ := ih hx.2 hne
    refine hc ⟨b, fun v hv => ?_, fun v hv => ?_, b3⟩
    · rw [List.mem_cons, not_or] at hv
      rw [b1 v hv.2, upd_ne _ _ hv.1]
    · rcases List.mem_cons.1 hv with rfl | hv
      · rw [b1 v hx.1, upd_same]; exact hs
      · exact b2 v hv

theorem possible_of_marg {B : BN V S K} (hB : B.Valid) (hnn : B.NonNeg) {E : List V} {r : Rec V S}
    (hc : ∀ v ∈ B.nodes, v ∈ E → ∃ s ∈ B.states v, Rec.val r v = some s) (hm : ∀ v ∈ B.nodes, v ∉ E → Rec.val r v = none)
    (h : B.marg E r.asg ≠ 0) : Possible B r := by
  obtain ⟨b, b1, b2, b3⟩ := sumOver_pos_exists (hB.nodes.filter _) h
  have hin : B.InStates b := by
    intro v hv
    by_cases hE : v ∈ E
    · rw [b1 v (by simp [hE])]
      obtain ⟨s, hs, e⟩ := hc v hv hE
      rw [Rec.asg, e]; exact hs
    · exact b2 v (by simp [hE, hv])
  refine ⟨b, hin, lt_of_le_of_ne (hnn.joint hin) (Ne.symm b3), fun v s hs => ?_⟩
  rw [b1 v, Rec.asg, hs]
  · rfl
  · intro hv
    have := List.mem_filter.1 hv
    rw [hm v this.1 (by simpa using this.2)] at hs
    cases hs

theorem marg_of_possible_all {B : BN V S K} (hB : B.Valid) (hnn : B.NonNeg) {E : List V} {r : Rec V S}
    (hc : ∀ v ∈ B.nodes, v ∈ E → ∃ s ∈ B.states v, Rec.val r v = some s) (h : Possible B r) : 0 < B.marg E r.asg := by
  obtain ⟨a, a1, a2, a3⟩ := h
  have := BN.marg_pos hB hnn E a1 a2
  have e : B.marg (B.nodes.filter (· ∈ E)) a = B.marg (B.nodes.filter (· ∈ E)) r.asg := hB.marg_dep _ _ _ fun w hw => by
    obtain ⟨h1, h2⟩ := List.mem_filter.1 hw
    obtain ⟨s, _, e⟩ := hc w h1 (by simpa using h2)
    rw [a3 w s e, Rec.asg, e]; rfl
  have hf : ∀ a, B.marg (B.nodes.filter (· ∈ E)) a = B.marg E a := by
    intro a
    rw [BN.marg, BN.marg]
    congr 1
    refine List.filter_congr fun v hv => ?_
    simp [hv]
  rw [hf, hf] at e
  rw [← e]; exact this

/-! ### The fitted models -/

/-- **C84** one model of the aggregator: random distributions of the exogenous variables, then maximum likelihood. -/
theorem C84_single {φ : K →+* ℝ} (hφ : StrictMono φ) {m : SCM II LL} {B : BN V S K} (h : GdccModel m B) {fr : Frame V S} {sub : V → V → Bool}
    (hd : GdccData m B fr sub) {opt : Option Nat → List (Fl K) → (List K → Py (Fl ℝ)) → List K} {max : Option Nat} (hopt : FindsLeast φ opt max m B fr)
    {t : V → List K} (ht : ∀ x ∈ m.exogenous, Draws false (famDom m.base.graph B.states x) (m.base.graph.pred x) (t x)) :
    ∃ o m' B', Gdcc.singleGenerate (fun x => Real.log (φ x)) sub opt m m.exogenous max fr (fun x => (t x).map Fl.fin) = .ok o ∧
      o.model = some m' ∧ o.data = some (EM.addMissing B.nodes fr) ∧ Likeliest m B fr.rows m' B' := by
  obtain ⟨b, B0, p1, p2, p3, p4, p5, p6, p7, p8⟩ := emcc_prior h.rep h.valid h.norm h.nonneg h.cast h.known h.doms hd.outcome ht
  set m0 := liftScm LL m.endogenous m.cast b with hm0
  have hx : ∀ U, U ∈ m0.exogenous ↔ U ∈ m.exogenous := fun U => by
    rw [mem_exogenous p3.rep, mem_exogenous h.rep, p3.nodes]; rfl
  have hg : GradModel m0 B0 := by
    refine ⟨p3.rep, p3.valid, p3.norm, p3.nonneg, doms_of p3.valid ?_ p4, p8, h.endo, fun U hU => ?_, ?_⟩
    · exact p7.trans p2.nodes
    · rw [p3.parents]; exact h.roots U ((hx U).1 hU)
    · rw [p3.nodes, p3.parents]; exact h.one
  have hch : ∀ U, ∃ θ : S → K, U ∈ m.exogenous →
      opt max ((B0.states U).map fun u => .fin (B0.table U fun _ => u))
        (Gradient.objective (fun x => Real.log (φ x)) m0 U (EM.addMissing B.nodes fr)) = (B.states U).map θ ∧ IsDistr B U θ ∧
      ∀ η, IsDistr B U η → ∀ x y,
        Gradient.objective (fun x => Real.log (φ x)) m0 U (EM.addMissing B.nodes fr) ((B.states U).map θ) = .ok x →
        Gradient.objective (fun x => Real.log (φ x)) m0 U (EM.addMissing B.nodes fr) ((B.states U).map η) = .ok y → FlLe x y := by
    intro U
    by_cases hU : U ∈ m.exogenous
    · obtain ⟨θ, h1⟩ := hopt m0 B0 p3 hg U hU
      exact ⟨θ, fun _ => h1⟩
    · exact ⟨fun _ => 0, fun hc => absurd hc hU⟩
  choose θ hθ using hch
  have hdist : ∀ U η, IsDistr B0 U η ↔ IsDistr B U η := fun U η => by rw [IsDistr, IsDistr, p3.states]
  obtain ⟨o, m', B', r1, r2, r3, r4, r5, r6, r7⟩ := C83_maximum hφ hg (T := m.exogenous) (fr := fr) (sub := sub)
    ⟨h.exo, by rw [SCM.exogenous]; exact (h.rep.wf.nodes).filter _, fun U hU => (hx U).2 hU, hd.missing,
      by rw [p3.nodes, p3.states]; exact hd.complete, by rw [p3.nodes]; exact hd.names⟩
    (opt := opt) (max := max) (θ := θ) (fun U hU => by
      have := (hθ U hU).1
      rw [p3.nodes, this, p3.states])
    (fun U hU => (hdist U _).2 (hθ U hU).2.1)
    (fun U hU η hη x y => by
      rw [p3.nodes, p3.states]
      exact (hθ U hU).2.2 η ((hdist U η).1 hη) x y)
  have hmax : ∀ B'', Other B m.exogenous B'' → endoLik B'' m.endogenous fr.rows ≤ endoLik B' m.endogenous fr.rows := by
    intro B'' h''
    refine r7 B'' ⟨h''.valid, h''.norm, h''.nonneg, h''.nodes.trans p3.nodes.symm, h''.parents.trans p3.parents.symm, h''.states.trans p3.states.symm,
      fun v hv hvx => ?_⟩
    have hvn : v ∈ B.nodes := p3.nodes ▸ hv
    have hve : v ∈ m.endogenous := by
      by_contra hc
      exact hvx ((mem_exogenous h.rep).2 ⟨hvn, hc⟩)
    rw [h''.tables v hvn hvx, p3.equations v hve hvn]
  have hr := p3.trans r4
  have hcomp : ∀ {B' : BN V S K}, B'.nodes = B.nodes → B'.states = B.states → ∀ r ∈ fr.rows, ∀ v ∈ B'.nodes, v ∈ m.endogenous →
      ∃ s ∈ B'.states v, Rec.val r v = some s := fun {B'} e1 e2 => by rw [e1, e2]; exact hd.complete
  refine ⟨o, m', B', ?_, r2, by rw [r3, p3.nodes], hr, r5, fun r hrm => ?_, hmax⟩
  · rw [Gdcc.singleGenerate, p1, py_ok_bind]
    exact r1
  · refine possible_of_marg hr.valid hr.nonneg (hcomp hr.nodes hr.states r hrm) (fun v hv hvE => ?_) ?_
    · exact hd.missing v ((mem_exogenous h.rep).2 ⟨hr.nodes ▸ hv, hvE⟩) r hrm
    · intro h0
      have h1 : endoLik B' m.endogenous fr.rows = 0 := List.prod_eq_zero (List.mem_map.2 ⟨r, hrm, h0⟩)
      have h2 : 0 < endoLik B0 m.endogenous fr.rows := List.prod_pos fun x hx => by
        obtain ⟨q, hq, rfl⟩ := List.mem_map.1 hx
        exact marg_of_possible_all p3.valid p3.nonneg (hcomp p3.nodes p3.states q hq) (p6 q hq)
      have := hmax _ (p3.other h.rep)
      rw [h1] at this
      exact absurd this (not_le.2 h2)

theorem GdccData.addMissing {m : SCM II LL} {B : BN V S K} {fr : Frame V S} {sub : V → V → Bool} (h : GdccData m B fr sub) :
    GdccData m B (EM.addMissing B.nodes fr) sub := by
  refine ⟨fun U hU r hr => ?_, fun r hr v hv hE => ?_, h.names, fun r hr => ?_⟩
  · obtain ⟨r0, hr0, rfl⟩ := List.mem_map.1 hr
    rw [val_missing]; exact h.missing U hU r0 hr0
  · obtain ⟨r0, hr0, rfl⟩ := List.mem_map.1 hr
    rw [val_missing]; exact h.complete r0 hr0 v hv hE
  · obtain ⟨r0, hr0, rfl⟩ := List.mem_map.1 hr
    obtain ⟨a, a1, a2, a3⟩ := h.outcome r0 hr0
    exact ⟨a, a1, a2, fun v s hs => a3 v s (by rw [val_missing] at hs; exact hs)⟩

theorem FindsLeast.addMissing {φ : K →+* ℝ} {opt : Option Nat → List (Fl K) → (List K → Py (Fl ℝ)) → List K} {max : Option Nat} {m : SCM II LL} {B : BN V S K}
    {fr : Frame V S} (h : FindsLeast φ opt max m B fr) : FindsLeast φ opt max m B (EM.addMissing B.nodes fr) := by
  unfold FindsLeast
  rw [addMissing_idem]
  exact h

theorem endoLik_addMissing (B : BN V S K) (E vs : List V) (fr : Frame V S) : endoLik B E (EM.addMissing vs fr).rows = endoLik B E fr.rows := by
  rw [endoLik, endoLik, EM.addMissing, List.map_map]
  simp only [Function.comp_def, asg_missing]

theorem Likeliest.addMissing {m : SCM II LL} {B : BN V S K} {fr : Frame V S} {m' : SCM II LL} {B' : BN V S K}
    (h : Likeliest m B (EM.addMissing B.nodes fr).rows m' B') : Likeliest m B fr.rows m' B' :=
  ⟨h.refit, h.multi, possible_addMissing h.possible, fun B'' h'' => by
    have := h.max B'' h''
    rwa [endoLik_addMissing, endoLik_addMissing] at this⟩

/-- **C84** the aggregator: one fitted model for each draw of the exogenous distributions, all of greatest likelihood. -/
theorem C84_generate {φ : K →+* ℝ} (hφ : StrictMono φ) {m : SCM II LL} {B : BN V S K} (h : GdccModel m B) {fr : Frame V S} {sub : V → V → Bool}
    (hd : GdccData m B fr sub) {opt : Option Nat → List (Fl K) → (List K → Py (Fl ℝ)) → List K} {max : Option Nat} (hopt : FindsLeast φ opt max m B fr)
    {ts : List (V → List K)} (hts : ts ≠ [])
    (ht : ∀ t ∈ ts, ∀ x ∈ m.exogenous, Draws false (famDom m.base.graph B.states x) (m.base.graph.pred x) (t x)) :
    ∃ os ms Bs, Gdcc.generate (fun x => Real.log (φ x)) sub opt m max fr (ts.map fun t x => (t x).map Fl.fin) = .ok (EM.addMissing B.nodes fr, os) ∧
      os.map (fun o => o.model) = ms.map some ∧ ms.length = ts.length ∧ List.Forall₂ (fun m' B' => Likeliest m B fr.rows m' B') ms Bs := by
  have hgen : ∀ (ts : List (V → List K)), (∀ t ∈ ts, ∀ x ∈ m.exogenous, Draws false (famDom m.base.graph B.states x) (m.base.graph.pred x) (t x)) →
      ∀ (fr' : Frame V S), GdccData m B fr' sub → FindsLeast φ opt max m B fr' → EM.addMissing B.nodes fr' = EM.addMissing B.nodes fr →
      (ts = [] → fr' = EM.addMissing B.nodes fr) → ∀ os0 : List (GradObj II LL), ∃ os ms Bs,
        (ts.map fun t x => (t x).map Fl.fin).foldlM (Gdcc.generateOne (fun x => Real.log (φ x)) sub opt m m.exogenous max) (fr', os0) =
          .ok (EM.addMissing B.nodes fr, os0 ++ os) ∧ os.map (fun o => o.model) = ms.map some ∧ ms.length = ts.length ∧
        List.Forall₂ (fun m' B' => Likeliest m B (EM.addMissing B.nodes fr).rows m' B') ms Bs := by
    intro ts
    induction ts with
    | nil =>
      intro _ fr' _ _ _ h0 os0
      exact ⟨[], [], [], by rw [h0 rfl, List.append_nil]; rfl, rfl, rfl, .nil⟩
    | cons t ts ih =>
      intro ht fr' hd' hopt' hfr _ os0
      obtain ⟨o, m', B', o1, o2, o3, o4⟩ := C84_single hφ h hd' hopt' (ht t List.mem_cons_self)
      obtain ⟨os, ms, Bs, i1, i2, i3, i4⟩ := ih (fun t h => ht t (List.mem_cons_of_mem _ h)) (EM.addMissing B.nodes fr) hd.addMissing hopt.addMissing
        (addMissing_idem _ _) (fun _ => rfl) (os0 ++ [o])
      have o4' : Likeliest m B (EM.addMissing B.nodes fr).rows m' B' := by
        rw [← hfr]
        refine ⟨o4.refit, o4.multi, fun r hr => ?_, fun B'' h'' => by rw [endoLik_addMissing, endoLik_addMissing]; exact o4.max B'' h''⟩
        obtain ⟨r0, hr0, rfl⟩ := List.mem_map.1 hr
        obtain ⟨a, a1, a2, a3⟩ := o4.possible r0 hr0
        exact ⟨a, a1, a2, fun v s hs => a3 v s (by rw [val_missing] at hs; exact hs)⟩
      refine ⟨o :: os, m' :: ms, B' :: Bs, ?_, by simp [i2, o2], by simp [i3], .cons o4' i4⟩
      rw [List.map_cons, List.foldlM_cons, Gdcc.generateOne]
      simp only [o1, py_ok_bind]
      rw [o3, hfr]
      refine i1.trans ?_
      rw [List.append_assoc]
      rfl
  obtain ⟨os, ms, Bs, g1, g2, g3, g4⟩ := hgen ts ht fr hd hopt rfl (fun e => absurd e hts) []
  refine ⟨os, ms, Bs, ?_, g2, g3, g4.imp fun _ _ hx => hx.addMissing⟩
  rw [Gdcc.generate, if_neg]
  · exact g1
  · rw [List.length_map]
    have := List.length_pos_of_ne_nil hts
    omega

/-- What compiling a `GDCC` object leaves. -/
theorem gdcc_object {φ : K →+* ℝ} (hφ : StrictMono φ) {m : SCM II LL} {B : BN V S K} (h : GdccModel m B) {fr : Frame V S} {sub : V → V → Bool}
    (hd : GdccData m B fr sub) {opt : Option Nat → List (Fl K) → (List K → Py (Fl ℝ)) → List K} {max : Option Nat} (hopt : FindsLeast φ opt max m B fr)
    {ts : List (V → List K)} (hts : ts ≠ [])
    (ht : ∀ t ∈ ts, ∀ x ∈ m.exogenous, Draws false (famDom m.base.graph B.states x) (m.base.graph.pred x) (t x)) (flag : Bool) :
    ∃ ms Bs o, ms ≠ [] ∧ ms.length = ts.length ∧ List.Forall₂ (fun m' B' => Likeliest m B fr.rows m' B') ms Bs ∧
      Gdcc.compileObj (fun x => Real.log (φ x)) sub opt m max fr (ts.map fun t x => (t x).map Fl.fin) flag = .ok o ∧ o.flag = flag ∧ AnswersFor o ms := by
  obtain ⟨os, ms, Bs, g1, g2, g3, g4⟩ := C84_generate hφ h hd hopt hts ht
  have hms : ms ≠ [] := by
    intro e
    rw [e] at g3
    exact hts (List.length_eq_zero_iff.1 g3.symm)
  have hfm : os.filterMap (fun o => o.model) = ms := by
    have : os.filterMap (fun o => o.model) = (os.map fun o => o.model).filterMap id := by rw [List.filterMap_map]; rfl
    rw [this, g2, List.filterMap_map]
    simp
  have hnew : ∀ (ms : List (SCM II LL)) (Cs : List (BN V S K)), List.Forall₂ (fun m' B' => Likeliest m B fr.rows m' B') ms Cs → ∃ ms', ms.mapM Causal.new = .ok ms' := by
    intro ms Cs hf
    induction hf with
    | nil => exact ⟨[], rfl⟩
    | @cons m' B' ms Cs h1 _ ih =>
      obtain ⟨ms', i1⟩ := ih
      obtain ⟨m'', n1, _⟩ := new_ok (h1.refit.causalOk h.rep h.roots h1.multi)
      exact ⟨m'' :: ms', by rw [List.mapM_cons, n1, py_ok_bind, i1]; rfl⟩
  obtain ⟨ms', hms'⟩ := hnew _ _ g4
  refine ⟨ms, Bs, ⟨ms, ms', ms.head?, true, flag⟩, hms, g3, g4, ?_, rfl, .inr ⟨rfl, hms'⟩⟩
  rw [Gdcc.compileObj, g1, py_ok_bind]
  simp only [hfm]
  rw [MultiObj.compile, if_neg]
  · show (List.mapM Causal.new ms >>= _) = _
    rw [hms']
    rfl
  · show ¬ ms.length < 1
    have := List.length_pos_of_ne_nil hms
    omega

/-! ### Models of greatest likelihood agree on the records -/

theorem prod_map_lt {X : Type} {l : List X} {f g : X → K} (h0 : ∀ x ∈ l, 0 < f x) (h : ∀ x ∈ l, f x ≤ g x) {x : X} (hx : x ∈ l) (hlt : f x < g x) :
    (l.map f).prod < (l.map g).prod := by
  have hpos : ∀ {l : List X}, (∀ x ∈ l, 0 < f x) → 0 < (l.map f).prod := fun {l} hl => List.prod_pos fun y hy => by
    obtain ⟨z, hz, rfl⟩ := List.mem_map.1 hy
    exact hl z hz
  induction l with
  | nil => cases hx
  | cons y l ih =>
    rw [List.map_cons, List.prod_cons, List.map_cons, List.prod_cons]
    have h0' : ∀ x ∈ l, 0 < f x := fun z hz => h0 z (List.mem_cons_of_mem _ hz)
    have hl : (l.map f).prod ≤ (l.map g).prod := prod_map_le (fun z hz => (h0' z hz).le) fun z hz => h z (List.mem_cons_of_mem _ hz)
    rcases List.mem_cons.1 hx with rfl | hx
    · exact mul_lt_mul hlt hl (hpos h0') ((h0 x List.mem_cons_self).le.trans hlt.le)
    · exact mul_lt_mul' (h y List.mem_cons_self) (ih h0' (fun z hz => h z (List.mem_cons_of_mem _ hz)) hx) (hpos h0').le
        ((h0 y List.mem_cons_self).trans_le (h y List.mem_cons_self))

theorem GdccModel.single {m : SCM II LL} {B : BN V S K} (h : GdccModel m B) {U : V} (hU : U ∈ m.exogenous) : Gradient.Single m B U := by
  obtain ⟨h1, h2⟩ := (mem_exogenous h.rep).1 hU
  refine ⟨h1, h2, fun v hv f hf => h.rep.casted h.cast v (Gradient.mem_kids.1 hv).2.1 f hf, fun v hv p hp => ?_⟩
  obtain ⟨k1, k2, k3⟩ := Gradient.mem_kids.1 hv
  by_cases hpE : p ∈ m.endogenous
  · exact .inl hpE
  · exact .inr (h.one v k1 k2 p hp U k3 hpE h2)

theorem GdccModel.compLik_nonneg {m : SCM II LL} {B : BN V S K} (h : GdccModel m B) {U : V} (hU : U ∈ m.exogenous) {r : Rec V S}
    (hr : ∀ v ∈ B.nodes, v ∈ m.endogenous → ∃ s ∈ B.states v, Rec.val r v = some s) {θ : S → K} (hθ : ∀ u ∈ B.states U, 0 ≤ θ u) :
    0 ≤ B.compLik m.endogenous U θ r.asg := by
  obtain ⟨a0, ha0⟩ := Gradient.exists_inStates h.valid
  rw [Gradient.compLik_congr h.valid (h.single hU) (b := fun w => if w ∈ m.endogenous then Rec.asg r w else a0 w) fun w hw => ?_]
  · refine Props.compLik_nonneg h.rep hθ fun v hv => ?_
    by_cases hvE : v ∈ m.endogenous
    · obtain ⟨s, hs, e⟩ := hr v hv hvE
      simp only [hvE, if_true, Rec.asg, e]
      exact hs
    · simp only [hvE, if_false]; exact ha0 v hv
  · have : w ∈ m.endogenous := by
      rcases of_decide_eq_true (List.mem_filter.1 hw).2 with h2 | h2
      · exact (Gradient.mem_kids.1 h2).2.1
      · exact h2.1
    simp [this]

theorem compLik_mix (B : BN V S K) (E : List V) (U : V) (θ η : S → K) (a : V → S) :
    B.compLik E U (fun u => (θ u + η u) / 2) a = (B.compLik E U θ a + B.compLik E U η a) / 2 := by
  unfold BN.compLik
  induction B.states U with
  | nil => simp
  | cons u l ih =>
    simp only [List.map_cons, List.sum_cons]
    rw [ih]; ring

theorem sum_mix (l : List S) (θ η : S → K) : (l.map fun u => (θ u + η u) / 2).sum = ((l.map θ).sum + (l.map η).sum) / 2 := by
  induction l with
  | nil => simp
  | cons u l ih =>
    simp only [List.map_cons, List.sum_cons]
    rw [ih]; ring

/-- The parts of the likelihood of a network with these equations -/
theorem GdccModel.split {m : SCM II LL} {B : BN V S K} (h : GdccModel m B) (θ : V → S → K) (rows : List (Rec V S)) :
    endoLik (BN.withRoots B m.exogenous θ) m.endogenous rows =
      (rows.map fun r => ((B.nodes.filter fun v => v ∈ m.endogenous ∧ ∀ p ∈ B.parents v, p ∈ m.endogenous).map fun v => B.table v r.asg).prod).prod *
      ((B.nodes.filter (· ∉ m.endogenous)).map fun U => (rows.map fun r => B.compLik m.endogenous U (θ U) r.asg).prod).prod := by
  have hTe : ∀ U ∈ m.exogenous, U ∉ m.endogenous := fun U hU => ((mem_exogenous h.rep).1 hU).2
  rw [endoLik_split h.valid (fun U h1 h2 => h.roots U ((mem_exogenous h.rep).2 ⟨h1, h2⟩)) h.one]
  congr 2
  · refine List.map_congr_left fun r _ => ?_
    congr 1
    refine List.map_congr_left fun v hv => ?_
    show (if v ∈ m.exogenous then fun a => θ v (a v) else B.table v) _ = _
    rw [if_neg fun hc => hTe v hc (of_decide_eq_true (List.mem_filter.1 hv).2).1]
  · refine List.map_congr_left fun U hU => ?_
    obtain ⟨h1, h2⟩ := List.mem_filter.1 hU
    congr 1
    refine List.map_congr_left fun r _ => ?_
    rw [withRoots_compLik hTe]
    congr 1
    funext u
    show (if U ∈ m.exogenous then fun a => θ U (a U) else B.table U) _ = _
    rw [if_pos ((mem_exogenous h.rep).2 ⟨h1, by simpa using h2⟩)]

/-- **C84** the fitted models agree on the data: two models of greatest likelihood give the same probability to each of the records. -/
theorem C84_agree {m : SCM II LL} {B : BN V S K} (h : GdccModel m B) {fr : Frame V S} {sub : V → V → Bool} (hd : GdccData m B fr sub)
    {m1 m2 : SCM II LL} {B1 B2 : BN V S K} (h1 : Likeliest m B fr.rows m1 B1) (h2 : Likeliest m B fr.rows m2 B2) :
    ∀ r ∈ fr.rows, B1.marg m.endogenous r.asg = B2.marg m.endogenous r.asg := by
  have hx : ∀ U, U ∈ m.exogenous ↔ U ∈ B.nodes ∧ U ∉ m.endogenous := fun U => mem_exogenous h.rep
  have hroot : ∀ U ∈ m.exogenous, U ∈ B.nodes ∧ B.parents U = [] := fun U hU => ⟨((hx U).1 hU).1, h.roots U hU⟩
  -- the likelihood of a network with these equations
  set X := B.nodes.filter (· ∉ m.endogenous) with hX
  have hXm : ∀ U, U ∈ X ↔ U ∈ m.exogenous := fun U => by rw [hx, hX]; simp
  set Rt := (fr.rows.map fun r => ((B.nodes.filter fun v => v ∈ m.endogenous ∧ ∀ p ∈ B.parents v, p ∈ m.endogenous).map fun v => B.table v r.asg).prod).prod with hRt
  set c : V → (S → K) → K := fun U θ => (fr.rows.map fun r => B.compLik m.endogenous U θ r.asg).prod with hc
  have hsplit : ∀ θ : V → S → K, endoLik (BN.withRoots B m.exogenous θ) m.endogenous fr.rows = Rt * (X.map fun U => c U (θ U)).prod := fun θ => h.split θ fr.rows
  have hoth : ∀ θ : V → S → K, (∀ U ∈ m.exogenous, IsDistr B U (θ U)) → Other B m.exogenous (BN.withRoots B m.exogenous θ) := fun θ hθ =>
    ⟨withRoots_valid h.valid _ _, withRoots_norm h.norm hθ, withRoots_nonneg h.nonneg hθ, rfl, rfl, rfl, fun v _ hv => if_neg hv⟩
  have hnn : ∀ U ∈ m.exogenous, ∀ θ, IsDistr B U θ → ∀ r ∈ fr.rows, 0 ≤ B.compLik m.endogenous U θ r.asg := fun U hU θ hθ r hr =>
    h.compLik_nonneg hU (hd.complete r hr) hθ.1
  -- both networks are of this kind
  set θ1 : V → S → K := fun U u => B1.table U fun _ => u with hθ1
  set θ2 : V → S → K := fun U u => B2.table U fun _ => u with hθ2
  obtain ⟨d1, l1⟩ := (h1.refit.other h.rep).withRoots hroot m.endogenous fr.rows
  obtain ⟨d2, l2⟩ := (h2.refit.other h.rep).withRoots hroot m.endogenous fr.rows
  have l1 : endoLik B1 m.endogenous fr.rows = Rt * (X.map fun U => c U (θ1 U)).prod := l1.trans (hsplit θ1)
  have l2 : endoLik B2 m.endogenous fr.rows = Rt * (X.map fun U => c U (θ2 U)).prod := l2.trans (hsplit θ2)
  -- a better distribution of one variable would make a better model
  have hbest : ∀ (B' : BN V S K) (θ : V → S → K), (∀ r ∈ fr.rows, Possible B' r) → B'.Valid → B'.NonNeg → B'.nodes = B.nodes → B'.states = B.states →
      (∀ U ∈ m.exogenous, IsDistr B U (θ U)) → endoLik B' m.endogenous fr.rows = Rt * (X.map fun U => c U (θ U)).prod →
      (∀ B'', Other B m.exogenous B'' → endoLik B'' m.endogenous fr.rows ≤ endoLik B' m.endogenous fr.rows) →
      ∀ U ∈ m.exogenous, 0 < c U (θ U) ∧ ∀ η, IsDistr B U η → c U η ≤ c U (θ U) := by
    intro B' θ hpo hv hn en es hθ hl hmax U hU
    have hpos : 0 < endoLik B' m.endogenous fr.rows := List.prod_pos fun x hx => by
      obtain ⟨r, hr, rfl⟩ := List.mem_map.1 hx
      exact marg_of_possible_all hv hn (by rw [en, es]; exact hd.complete r hr) (hpo r hr)
    rw [hl] at hpos
    have hcnn : ∀ W ∈ X, ∀ η, IsDistr B W η → 0 ≤ c W η := fun W hW η hη => List.prod_nonneg fun x hx => by
      obtain ⟨r, hr, rfl⟩ := List.mem_map.1 hx
      exact hnn W ((hXm W).1 hW) η hη r hr
    have hXnn : 0 ≤ (X.map fun U => c U (θ U)).prod := List.prod_nonneg fun x hx => by
      obtain ⟨W, hW, rfl⟩ := List.mem_map.1 hx
      exact hcnn W hW _ (hθ W ((hXm W).1 hW))
    have hRpos : 0 < Rt := pos_of_mul_pos_left hpos hXnn
    have hcpos : ∀ W ∈ X, 0 < c W (θ W) := fun W hW => lt_of_le_of_ne (hcnn W hW _ (hθ W ((hXm W).1 hW))) fun h0 => by
      have : (X.map fun U => c U (θ U)).prod = 0 := List.prod_eq_zero (List.mem_map.2 ⟨W, hW, h0.symm⟩)
      rw [this, mul_zero] at hpos
      exact lt_irrefl _ hpos
    refine ⟨hcpos U ((hXm U).2 hU), fun η hη => ?_⟩
    by_contra hlt
    have hlt := not_le.1 hlt
    have hd' : ∀ W ∈ m.exogenous, IsDistr B W ((if W = U then η else θ W)) := fun W hW => by
      by_cases e : W = U
      · rw [if_pos e, e]; exact hη
      · rw [if_neg e]; exact hθ W hW
    have := hmax _ (hoth (fun W => if W = U then η else θ W) hd')
    rw [hsplit, hl] at this
    refine absurd (le_of_mul_le_mul_left this hRpos) (not_le.2 (prod_map_lt hcpos (fun W hW => ?_) ((hXm U).2 hU) ?_))
    · by_cases e : W = U
      · subst e; rw [if_pos rfl]; exact hlt.le
      · rw [if_neg e]
    · rw [if_pos rfl]; exact hlt
  have b1 := hbest B1 θ1 h1.possible h1.refit.valid h1.refit.nonneg h1.refit.nodes h1.refit.states d1 l1 h1.max
  have b2 := hbest B2 θ2 h2.possible h2.refit.valid h2.refit.nonneg h2.refit.nodes h2.refit.states d2 l2 h2.max
  -- the parts are equal
  have hpart : ∀ U ∈ m.exogenous, ∀ r ∈ fr.rows, B.compLik m.endogenous U (θ1 U) r.asg = B.compLik m.endogenous U (θ2 U) r.asg := by
    intro U hU
    have hmix : IsDistr B U fun u => (θ1 U u + θ2 U u) / 2 := by
      refine ⟨fun u hu => div_nonneg (add_nonneg ((d1 U hU).1 u hu) ((d2 U hU).1 u hu)) (by norm_num), ?_⟩
      rw [sum_mix, (d1 U hU).2, (d2 U hU).2]; norm_num
    have m1 := (b1 U hU).2 _ hmix
    have m2 := (b2 U hU).2 _ hmix
    have hp : ∀ (θ : S → K), IsDistr B U θ → 0 < c U θ → ∀ r ∈ fr.rows, 0 < B.compLik m.endogenous U θ r.asg := fun θ hθ hpos r hr =>
      lt_of_le_of_ne (hnn U hU θ hθ r hr) fun h0 => by
        have : c U θ = 0 := List.prod_eq_zero (List.mem_map.2 ⟨r, hr, h0.symm⟩)
        rw [this] at hpos
        exact lt_irrefl _ hpos
    have p1 := hp _ (d1 U hU) (b1 U hU).1
    have p2 := hp _ (d2 U hU) (b2 U hU).1
    by_contra hne
    push Not at hne
    obtain ⟨r, hr, hne⟩ := hne
    have hlt : (fr.rows.map fun r => B.compLik m.endogenous U (θ1 U) r.asg * B.compLik m.endogenous U (θ2 U) r.asg).prod <
        (fr.rows.map fun r => ((B.compLik m.endogenous U (θ1 U) r.asg + B.compLik m.endogenous U (θ2 U) r.asg) / 2) *
          ((B.compLik m.endogenous U (θ1 U) r.asg + B.compLik m.endogenous U (θ2 U) r.asg) / 2)).prod := by
      refine prod_map_lt (fun q hq => mul_pos (p1 q hq) (p2 q hq)) (fun q _ => ?_) hr ?_
      · nlinarith [sq_nonneg (B.compLik m.endogenous U (θ1 U) q.asg - B.compLik m.endogenous U (θ2 U) q.asg)]
      · have : 0 < (B.compLik m.endogenous U (θ1 U) r.asg - B.compLik m.endogenous U (θ2 U) r.asg) ^ 2 :=
          lt_of_le_of_ne (sq_nonneg _) (Ne.symm (pow_ne_zero 2 (sub_ne_zero.2 hne)))
        nlinarith
    rw [List.prod_map_mul, List.prod_map_mul] at hlt
    have hm : (fr.rows.map fun r => (B.compLik m.endogenous U (θ1 U) r.asg + B.compLik m.endogenous U (θ2 U) r.asg) / 2).prod = c U fun u => (θ1 U u + θ2 U u) / 2 := by
      simp only [hc, compLik_mix]
    rw [hm] at hlt
    have hcm : 0 ≤ c U fun u => (θ1 U u + θ2 U u) / 2 := List.prod_nonneg fun x hx => by
      obtain ⟨q, hq, rfl⟩ := List.mem_map.1 hx
      exact hnn U hU _ hmix q hq
    exact absurd (mul_le_mul m1 m2 hcm (b1 U hU).1.le) (not_le.2 hlt)
  -- and so are the products
  intro r hr
  have hone : ∀ (B' : BN V S K) (θ : V → S → K), (∀ rows, endoLik B' m.endogenous rows = endoLik (BN.withRoots B m.exogenous θ) m.endogenous rows) →
      B'.marg m.endogenous r.asg = ((B.nodes.filter fun v => v ∈ m.endogenous ∧ ∀ p ∈ B.parents v, p ∈ m.endogenous).map fun v => B.table v r.asg).prod *
        (X.map fun U => B.compLik m.endogenous U (θ U) r.asg).prod := by
    intro B' θ e
    have := e [r]
    rw [h.split] at this
    simpa [endoLik, hX] using this
  rw [hone B1 θ1 fun rows => ((h1.refit.other h.rep).withRoots hroot m.endogenous rows).2, hone B2 θ2 fun rows => ((h2.refit.other h.rep).withRoots hroot m.endogenous rows).2]
  congr 2
  exact List.map_congr_left fun U hU => hpart U ((hXm U).1 hU) r hr

/-! ### The bounds -/

/-- **C84** a causal query of a `GDCC` object: an interval factor over the targets; its bounds at every joint state are the least and the
greatest of the probabilities that the fitted models, all of greatest likelihood, give to it under the intervention and the evidence. The
evidence must be possible in models of greatest likelihood. -/
theorem C84_query {φ : K →+* ℝ} (hφ : StrictMono φ) {ch : Choices V} (hch : ch.Ok) {m : SCM II LL} {B : BN V S K} (h : GdccModel m B) {fr : Frame V S} {sub : V → V → Bool}
    (hd : GdccData m B fr sub) {opt : Option Nat → List (Fl K) → (List K → Py (Fl ℝ)) → List K} {max : Option Nat} (hopt : FindsLeast φ opt max m B fr)
    {ts : List (V → List K)} (hts : ts ≠ [])
    (ht : ∀ t ∈ ts, ∀ x ∈ m.exogenous, Draws false (famDom m.base.graph B.states x) (m.base.graph.pred x) (t x))
    (N : BoundNames V S) (wt : VType) {T : List V} {d ev : Obs V S} (hT : T ≠ []) (hTn : T.Nodup)
    (hTv : ∀ x ∈ T, x ∈ B.nodes ∧ x ∉ Dict.keys ev ∧ x ∉ Dict.keys d) (hb : N.bound ∉ T) (hdo : EvOk B d) (hev : EvOk B ev)
    {e : Option (Obs V S)} (hee : e.getD [] = ev)
    (hp : ∀ m' B', Likeliest m B fr.rows m' B' → B'.doMarg d (Dict.keys ev) (asg ev) ≠ 0) :
    ∃ ms Bs o o' r, ms.length = ts.length ∧ List.Forall₂ (fun m' B' => Likeliest m B fr.rows m' B') ms Bs ∧
      Gdcc.compileObj (fun x => Real.log (φ x)) sub opt m max fr (ts.map fun t x => (t x).map Fl.fin) true = .ok o ∧
      o.query N (storeOf wt) (fun i => causalQuery ch i T d e) = .ok (o', .interval r) ∧
      (∀ v, v ∈ Dict.keys (r.dom N) ↔ v ∈ T) ∧ (∀ p ∈ r.dom N, p.2 = B.states p.1) ∧
      ∀ obs, FullObs (r.dom N) obs → ∃ lo hi, TightBounds lo hi (Bs.map fun B' =>
          B'.doMarg d (T ++ Dict.keys ev) (asg (ev ++ obs)) / B'.doMarg d (Dict.keys ev) (asg ev)) ∧
        r.getValue ((N.bound, N.low) :: obs) = .ok (.fin lo) ∧ r.getValue ((N.bound, N.up) :: obs) = .ok (.fin hi) := by
  obtain ⟨ms, Bs, o, g1, g2, g3, g4, g5, g6⟩ := gdcc_object hφ h hd hopt hts ht true
  obtain ⟨o', _, k, _⟩ := multi_query N wt (P := fun v s => s = B.states v) (fun v s s' h h' => h.trans h'.symm) (T := fun v => v ∈ T) hb
    (val := fun B' obs => BN.doMarg B' d (T ++ Dict.keys ev) (asg (ev ++ obs)) / BN.doMarg B' d (Dict.keys ev) (asg ev))
    (q := fun i => causalQuery ch i T d e) g1 (g3.imp fun m' B' hm => by
      have hev' : ∀ {x : Obs V S}, EvOk B x → EvOk B' x := fun {x} hx =>
        ⟨hx.nodup, by rw [hm.refit.nodes]; exact hx.nodes, by rw [hm.refit.states]; exact hx.states⟩
      obtain ⟨m'', r, c1, c2, c3, c4, c5, _, c7⟩ := C42_interventional hch (hm.refit.causalOk h.rep h.roots hm.multi) hT hTn
        (by rw [hm.refit.nodes]; exact hTv) (hev' hdo) (hev' hev) hee (hp _ _ hm)
      exact ⟨m'', r, c1, c2, c3, by rw [← hm.refit.states]; exact c4, c5, c7⟩) g6
  obtain ⟨r, r1, r2, r3, r4, _⟩ := k g5
  exact ⟨ms, Bs, o, o', r, g2, g3, g4, r1, r2, r3, r4⟩

section worlds
variable {sfx : V → Nat → V}

theorem gdcc_causation {m : SCM II LL} {B : BN V S K} (h : GdccModel m B) {rows : List (Rec V S)} {c e : V} {tc fc te fe : S} (hc : CausationOk B sfx c e tc fc te fe)
    {ms : List (SCM II LL)} {Bs : List (BN V S K)} (g1 : ms ≠ []) (g3 : List.Forall₂ (fun m' B' => Likeliest m B rows m' B') ms Bs) :
    CausationModels sfx c e tc fc te fe (B.states e) ms Bs :=
  ⟨g1, g3.imp fun _ _ ho => ⟨ho.refit.causalOk h.rep h.roots ho.multi, hc.refit ho.refit.nodes ho.refit.parents ho.refit.states, by rw [ho.refit.states]⟩⟩

/-- **C84** probability of necessity of a `GDCC` object: if the records contain a case with the cause and the effect, the least and the
greatest of the probabilities of necessity of the fitted models, all of greatest likelihood. -/
theorem C84_necessity_partial {φ : K →+* ℝ} (hφ : StrictMono φ) {ch : Choices V} (hch : ch.Ok) {m : SCM II LL} {B : BN V S K} (h : GdccModel m B) {fr : Frame V S} {sub : V → V → Bool}
    (hd : GdccData m B fr sub) {opt : Option Nat → List (Fl K) → (List K → Py (Fl ℝ)) → List K} {max : Option Nat} (hopt : FindsLeast φ opt max m B fr)
    {ts : List (V → List K)} (hts : ts ≠ [])
    (ht : ∀ t ∈ ts, ∀ x ∈ m.exogenous, Draws false (famDom m.base.graph B.states x) (m.base.graph.pred x) (t x))
    (N : BoundNames V S) (wt : VType) {c e : V} {tc fc te fe : S} (hc : CausationOk B sfx c e tc fc te fe) (hb : N.bound ≠ sfx e 1)
    {r : Rec V S} (hr : r ∈ fr.rows) (hrc : Rec.val r c = some tc) (hre : Rec.val r e = some te) (tf : V → List S → Py (S × S)) :
    ∃ ms Bs o o' lo hi, ms.length = ts.length ∧ List.Forall₂ (fun m' B' => Likeliest m B fr.rows m' B') ms Bs ∧
      Gdcc.compileObj (fun x => Real.log (φ x)) sub opt m max fr (ts.map fun t x => (t x).map Fl.fin) true = .ok o ∧
      o.pn N (storeOf wt) sfx ch tf c e (some (tc, fc)) (some (te, fe)) = .ok (o', .numbers [.fin lo, .fin hi]) ∧
      TightBounds lo hi (Bs.map fun B => hadBeen B c e tc fc te fe) ∧ 0 ≤ lo ∧ lo ≤ hi ∧ hi ≤ 1 := by
  obtain ⟨ms, Bs, o, g1, g2, g3, g4, g5, g6⟩ := gdcc_object hφ h hd hopt hts ht true
  have hm := gdcc_causation h hc g1 g3
  obtain ⟨o', _, k1, _⟩ := C82_necessity_partial hch N wt hm (fun B' h' => by
    obtain ⟨m', hl⟩ := forall₂_right g3 h'
    exact marg_of_possible hl.refit.valid hl.refit.nonneg (hl.possible r hr) hc.ne hrc hre) hb g6 (tf := tf) (gc := some (tc, fc)) (ge := some (te, fe)) rfl rfl
  obtain ⟨lo, hi, l1, l2⟩ := k1 g5
  refine ⟨ms, Bs, o, o', lo, hi, g2, g3, g4, l2, l1, tightBounds_range l1 fun x hx => ?_⟩
  obtain ⟨B', hB', rfl⟩ := List.mem_map.1 hx
  obtain ⟨m', hl⟩ := forall₂_right g3 hB'
  have hc' := hc.refit hl.refit.nodes hl.refit.parents hl.refit.states
  exact hadBeen_range (hl.refit.causalOk h.rep h.roots hl.multi) hl.refit.nonneg hc' hc'.trueCause hc'.trueEffect

/-- **C84** probability of sufficiency of a `GDCC` object: if the records contain a case without the cause and without the effect, the least and the
greatest of the probabilities of sufficiency of the fitted models, all of greatest likelihood. -/
theorem C84_sufficiency_partial {φ : K →+* ℝ} (hφ : StrictMono φ) {ch : Choices V} (hch : ch.Ok) {m : SCM II LL} {B : BN V S K} (h : GdccModel m B) {fr : Frame V S} {sub : V → V → Bool}
    (hd : GdccData m B fr sub) {opt : Option Nat → List (Fl K) → (List K → Py (Fl ℝ)) → List K} {max : Option Nat} (hopt : FindsLeast φ opt max m B fr)
    {ts : List (V → List K)} (hts : ts ≠ [])
    (ht : ∀ t ∈ ts, ∀ x ∈ m.exogenous, Draws false (famDom m.base.graph B.states x) (m.base.graph.pred x) (t x))
    (N : BoundNames V S) (wt : VType) {c e : V} {tc fc te fe : S} (hc : CausationOk B sfx c e tc fc te fe) (hb : N.bound ≠ sfx e 1)
    {r : Rec V S} (hr : r ∈ fr.rows) (hrc : Rec.val r c = some fc) (hre : Rec.val r e = some fe) (tf : V → List S → Py (S × S)) :
    ∃ ms Bs o o' lo hi, ms.length = ts.length ∧ List.Forall₂ (fun m' B' => Likeliest m B fr.rows m' B') ms Bs ∧
      Gdcc.compileObj (fun x => Real.log (φ x)) sub opt m max fr (ts.map fun t x => (t x).map Fl.fin) true = .ok o ∧
      o.ps N (storeOf wt) sfx ch tf c e (some (tc, fc)) (some (te, fe)) = .ok (o', .numbers [.fin lo, .fin hi]) ∧
      TightBounds lo hi (Bs.map fun B => hadBeen B c e fc tc fe te) ∧ 0 ≤ lo ∧ lo ≤ hi ∧ hi ≤ 1 := by
  obtain ⟨ms, Bs, o, g1, g2, g3, g4, g5, g6⟩ := gdcc_object hφ h hd hopt hts ht true
  have hm := gdcc_causation h hc g1 g3
  obtain ⟨o', _, k1, _⟩ := C82_sufficiency_partial hch N wt hm (fun B' h' => by
    obtain ⟨m', hl⟩ := forall₂_right g3 h'
    exact marg_of_possible hl.refit.valid hl.refit.nonneg (hl.possible r hr) hc.ne hrc hre) hb g6 (tf := tf) (gc := some (tc, fc)) (ge := some (te, fe)) rfl rfl
  obtain ⟨lo, hi, l1, l2⟩ := k1 g5
  refine ⟨ms, Bs, o, o', lo, hi, g2, g3, g4, l2, l1, tightBounds_range l1 fun x hx => ?_⟩
  obtain ⟨B', hB', rfl⟩ := List.mem_map.1 hx
  obtain ⟨m', hl⟩ := forall₂_right g3 hB'
  have hc' := hc.refit hl.refit.nodes hl.refit.parents hl.refit.states
  exact hadBeen_range (hl.refit.causalOk h.rep h.roots hl.multi) hl.refit.nonneg hc' hc'.falseCause hc'.falseEffect

/-- **C84** probability of necessity and sufficiency of a `GDCC` object -/
theorem C84_necessity_sufficiency_partial {φ : K →+* ℝ} (hφ : StrictMono φ) {ch : Choices V} (hch : ch.Ok) {m : SCM II LL} {B : BN V S K} (h : GdccModel m B) {fr : Frame V S} {sub : V → V → Bool}
    (hd : GdccData m B fr sub) {opt : Option Nat → List (Fl K) → (List K → Py (Fl ℝ)) → List K} {max : Option Nat} (hopt : FindsLeast φ opt max m B fr)
    {ts : List (V → List K)} (hts : ts ≠ [])
    (ht : ∀ t ∈ ts, ∀ x ∈ m.exogenous, Draws false (famDom m.base.graph B.states x) (m.base.graph.pred x) (t x))
    (N : BoundNames V S) (wt : VType) {c e : V} {tc fc te fe : S} (hc : CausationOk B sfx c e tc fc te fe) (hb : N.bound ≠ sfx e 1 ∧ N.bound ≠ sfx e 2)
    (tf : V → List S → Py (S × S)) :
    ∃ ms Bs o o' lo hi, ms.length = ts.length ∧ List.Forall₂ (fun m' B' => Likeliest m B fr.rows m' B') ms Bs ∧
      Gdcc.compileObj (fun x => Real.log (φ x)) sub opt m max fr (ts.map fun t x => (t x).map Fl.fin) true = .ok o ∧
      o.pns N (storeOf wt) sfx ch tf c e (some (tc, fc)) (some (te, fe)) = .ok (o', .numbers [.fin lo, .fin hi]) ∧
      TightBounds lo hi (Bs.map fun B => bothWays B c e tc fc te fe) := by
  obtain ⟨ms, Bs, o, g1, g2, g3, g4, g5, g6⟩ := gdcc_object hφ h hd hopt hts ht true
  obtain ⟨o', _, k1, _⟩ := C82_necessity_sufficiency_partial hch N wt (gdcc_causation h hc g1 g3) hb g6 (tf := tf) (gc := some (tc, fc)) (ge := some (te, fe)) rfl rfl
  obtain ⟨lo, hi, l1, l2⟩ := k1 g5
  exact ⟨ms, Bs, o, o', lo, hi, g2, g3, g4, l2, l1⟩

end worlds

end Props
end Verif
