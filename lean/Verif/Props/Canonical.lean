import Verif.Net.Rich
import Verif.Model.BuildNet
import Verif.Props.Gdcc
import Verif.Props.Causal

/-!
# Properties of models made of canonical equations (C101)

`canonical_deterministic` gives an endogenous variable an equation whose exogenous parent has one state for every function from the states of
the endogenous parents to those of the variable.  The theorems say that nothing is lost by using such equations: whatever the equations and
the exogenous distributions of a causal model are, a model with the same graph and canonical equations has an exogenous distribution with
which it gives the same answers.
-/

set_option linter.unusedSectionVars false
set_option linter.unusedSimpArgs false

namespace Verif

variable {V S K : Type} [DecidableEq V] [DecidableEq S] [Inhabited S] [Field K] [LinearOrder K] [IsStrictOrderedRing K] {vt : VType}

local notation "II" => (storeOf vt : StoreImpl V S (Fl K))
local notation "LL" => (labelStoreOf vt : LabelStore V S)

namespace Props

/-- Both networks give the same probability to every event about endogenous variables, in any number of worlds with interventions on
endogenous variables. -/
def SameAnswers (B B' : BN V S K) : Prop :=
  ∀ ws : List (Obs V S × Obs V S), (∀ w ∈ ws, B.DoOk w.1 ∧ (∀ v ∈ Dict.keys w.1, v ∈ B.inner) ∧ ∀ v ∈ Dict.keys w.2, v ∈ B.inner) →
    B'.cfProb B'.roots B'.inner ws = B.cfProb B.roots B.inner ws

/-- Distributions of the roots make the network normalised when its equations are. -/
theorem withRoots_normalised {B' : BN V S K} {θ : V → S → K} (hd : ∀ x ∈ B'.roots, IsDistr B' x (θ x))
    (hn' : ∀ v ∈ B'.inner, ∀ a, B'.InStates a → ((B'.states v).map fun s => B'.table v (upd a v s)).sum = 1) :
    (BN.withRoots B' B'.roots θ).Normalised := by
  intro v hv a ha
  rcases BN.inner_or (B := B') hv with hr | hi
  · rw [← (hd v hr).2]
    refine congrArg List.sum (List.map_congr_left fun s _ => ?_)
    show (if v ∈ B'.roots then fun a => θ v (a v) else B'.table v) _ = _
    rw [if_pos hr, upd_same]
  · have : (BN.withRoots B' B'.roots θ).table v = B'.table v := if_neg (BN.not_root hi)
    rw [this]; exact hn' v hi a ha

/-- **C101** when the states of the exogenous variables select every combination of responses, the exogenous variables of the model can be
given distributions with which it answers as any other model with its graph and its endogenous states. -/
theorem C101_rich {B B' : BN V S K} {exo : V → V} (hR : B'.Rich exo) (hs : BN.SameEndo B B') (hE : B.Eqs B.inner) (hnn : B.NonNeg)
    (hx : B.OneExo exo) (hB' : B'.Valid) (hn' : ∀ v ∈ B'.inner, ∀ a, B'.InStates a → ((B'.states v).map fun s => B'.table v (upd a v s)).sum = 1)
    (he' : ∀ v ∈ B'.inner, ∀ a, B'.InStates a → B'.table v a = 0 ∨ B'.table v a = 1) :
    ∃ θ : V → S → K, (∀ x ∈ B'.roots, IsDistr B' x (θ x)) ∧ (BN.withRoots B' B'.roots θ).Normalised ∧ SameAnswers B (BN.withRoots B' B'.roots θ) := by
  obtain ⟨φ, h1, h2⟩ := hR.exists_map hs hE hB' hx
  let θ : V → S → K := fun x s' => (((B.states x).filter fun s => φ x s = s').map fun s => B.table x fun _ => s).sum
  have hd : ∀ x ∈ B'.roots, IsDistr B' x (θ x) := by
    intro x hxr
    rw [hs.roots] at hxr
    obtain ⟨m1, m2⟩ := BN.mem_roots.1 hxr
    obtain ⟨d1, d2⟩ := isDistr_start hE.valid hE.norm hnn m1 m2
    refine ⟨fun s' _ => List.sum_nonneg fun y hy => ?_, ?_⟩
    · obtain ⟨s, hss, rfl⟩ := List.mem_map.1 hy
      exact d1 s (List.mem_filter.1 hss).1
    · have := sum_fibres (hB'.nodupStates x (by rw [hs.nodes]; exact m1)) (h1 x hxr) (fun s => B.table x fun _ => s) fun _ => (1 : K)
      simp only [mul_one] at this
      exact this.trans d2
  let N := BN.withRoots B' B'.roots θ
  have hNi : N.inner = B'.inner := rfl
  have hNr : N.roots = B'.roots := rfl
  have ht : ∀ v, v ∈ B'.inner → N.table v = B'.table v := fun v hv => if_neg (BN.not_root hv)
  have htr : ∀ x ∈ B'.roots, ∀ a, N.table x a = θ x (a x) := fun x hxr a => by
    show (if x ∈ B'.roots then fun a => θ x (a x) else B'.table x) a = _
    rw [if_pos hxr]
  have hNn : N.Normalised := withRoots_normalised hd hn'
  refine ⟨θ, hd, hNn, fun ws hws => ?_⟩
  have hE' : N.Eqs N.inner := BN.eqs_inner (withRoots_valid hB' _ _) hNn fun v hv a ha => by
    rw [ht v hv]; exact he' v hv a ha
  refine BN.Reads.cfProb (B' := N) (φ := φ) ⟨hs.nodes, hs.parents, hs.states, h1, fun v hv a ha => ?_, fun x hxr s' _ => ?_⟩ hE hE'
    (fun w hw => ⟨(hws w hw).1, (hws w hw).2.1⟩) fun w hw => (hws w hw).2.2
  · rw [ht v (by rw [hs.inner]; exact hv)]; exact h2 v hv a ha
  · rw [htr x (by rw [hs.roots]; exact hxr)]

/-! ### Canonical equations -/

/-- States of the canonical model: those of `B` for endogenous variables, `us` for exogenous ones. -/
def canonStates (B : BN V S K) (us : V → List S) (v : V) : List S := if v ∈ B.inner then B.states v else us v

/-- The network with the functions `fn` as equations; the distributions of the exogenous variables are to be filled in. -/
def canonNet (B : BN V S K) (us : V → List S) (fn : V → (V → S) → S) : BN V S K where
  nodes := B.nodes
  parents := B.parents
  states := canonStates B us
  table v a := if v ∈ B.inner then (if fn v a = a v then 1 else 0) else 0

/-- What `canonical_deterministic` is given for the variables of `B`: no two endogenous variables share their exogenous parent (`exo v` for `v`),
`us x` are the states of the exogenous variable `x`, as many as functions from the states of the endogenous parents `pa v` to those of `v`; `d v` is
the domain, with the variables in any order. -/
structure CanonIn (B : BN V S K) (exo : V → V) (us : V → List S) (d : V → Dom V S) (pa : V → List V) : Prop where
  one : B.OneExo exo
  inj : ∀ v ∈ B.inner, ∀ w ∈ B.inner, exo v = exo w → v = w
  states : ∀ x ∈ B.roots, (us x).Nodup ∧ us x ≠ []
  parents : ∀ v ∈ B.inner, (pa v).Nodup ∧ ∀ w, w ∈ pa v ↔ w ∈ B.parents v ∧ w ∈ B.inner
  keys : ∀ v ∈ B.inner, (Dict.keys (d v)).Nodup ∧ ∀ w, w ∈ Dict.keys (d v) ↔ w = v ∨ w ∈ B.parents v
  dom : ∀ v ∈ B.inner, ∀ p ∈ d v, p.2 = canonStates B us p.1
  card : ∀ v ∈ B.inner, (us (exo v)).length = (B.states v).length ^ ((pa v).map fun w => (B.states w).length).prod

variable {B : BN V S K} {exo : V → V} {us : V → List S} {d : V → Dom V S} {pa : V → List V}

theorem canonStates_inner {v : V} (hv : v ∈ B.inner) : canonStates B us v = B.states v := if_pos hv

theorem canonStates_root {v : V} (hv : v ∈ B.roots) : canonStates B us v = us v := if_neg fun h => BN.not_root h hv

theorem CanonIn.ok (h : CanonIn B exo us d pa) (hB : B.Valid) {v : V} (hv : v ∈ B.nodes) : (canonStates B us v).Nodup ∧ canonStates B us v ≠ [] := by
  rcases BN.inner_or hv with hr | hi
  · rw [canonStates_root hr]; exact h.states v hr
  · rw [canonStates_inner hi]; exact ⟨hB.nodupStates v hv, hB.nonempty v hv⟩

/-- One equation. -/
theorem CanonIn.node (h : CanonIn B exo us d pa) (hB : B.Valid) {v : V} (hv : v ∈ B.inner) (hvt : vt ≠ .numpy ∨ (pa v).length = 1) :
    ∃ f : DetFactor LL, canonicalDeterministic LL (d v) (exo v) (pa v) = .ok f ∧ f.WF ∧ f.leftVars = [v] ∧ (∀ w, w ∈ f.rightVars ↔ w ∈ B.parents v) ∧
      (∀ w, w ∈ f.vars ↔ w = v ∨ w ∈ B.parents v) ∧ (∀ p ∈ f.dom, p.2 = canonStates B us p.1) ∧
      (∀ a : V → S, (∀ w ∈ B.nodes, a w ∈ canonStates B us w) → f.fn a ∈ B.states v) ∧
      ∀ r : (V → S) → S, (∀ a : V → S, (∀ w ∈ B.nodes, a w ∈ canonStates B us w) → r a ∈ B.states v) →
        DependsOn r ((B.parents v).filter (· ∈ B.inner)) →
        ∃ s ∈ us (exo v), ∀ a : V → S, (∀ w ∈ B.nodes, a w ∈ canonStates B us w) → a (exo v) = s → f.fn a = r a := by
  have hL := labelStoreOf_lawful (V := V) (S := S) vt
  obtain ⟨hvn, hvp⟩ := BN.mem_inner.1 hv
  obtain ⟨hr, hxp⟩ := h.one.mem v hv
  obtain ⟨k1, k2⟩ := h.keys v hv
  obtain ⟨p1, p2⟩ := h.parents v hv
  have hnode : ∀ w ∈ Dict.keys (d v), w ∈ B.nodes := fun w hw => by
    rcases (k2 w).1 hw with e | e
    · rw [e]; exact hvn
    · exact hB.parents v hvn w e
  have hdok : DomOk (d v) := ⟨k1, fun p hp => by rw [h.dom v hv p hp]; exact (h.ok hB (hnode _ (Dict.mem_keys_of_mem hp))).1,
    fun p hp => by rw [h.dom v hv p hp]; exact (h.ok hB (hnode _ (Dict.mem_keys_of_mem hp))).2⟩
  have hvp' : v ∉ B.parents v := fun hp => hB.acyclic v (.single ⟨hvn, hp⟩)
  have hxv : exo v ≠ v := fun e => BN.not_root hv (by rw [← e]; exact hr)
  have hpar : ∀ w, w ∈ B.parents v ↔ w = exo v ∨ w ∈ pa v := fun w => by
    constructor
    · intro hw
      rcases BN.inner_or (hB.parents v hvn w hw) with e | e
      · exact .inl (h.one.only v hv w hw e)
      · exact .inr ((p2 w).2 ⟨hw, e⟩)
    · rintro (e | e)
      · rw [e]; exact hxp
      · exact ((p2 w).1 e).1
  have hget : ∀ w st, Dict.get? (d v) w = some st → st = canonStates B us w := fun w st hs => h.dom v hv (w, st) (Dict.mem_of_get? hs)
  have hsub : ∀ w ∈ pa v, w ∈ Dict.keys (d v) := fun w hw => (k2 w).2 (.inr ((p2 w).1 hw).1)
  have hup : exo v ∉ pa v := fun hc => BN.not_root ((p2 _).1 hc).2 hr
  have hpd : ∀ pd, subdomain (d v) (pa v) = .ok pd → Dict.keys pd = pa v ∧ ∀ p ∈ pd, p.2 = B.states p.1 ∧ p.1 ∈ pa v := by
    intro pd hpd
    obtain ⟨pd', e1, e2, e3⟩ := subdomain_ok hsub
    rw [hpd] at e1; injection e1 with e1; subst e1
    refine ⟨e2, fun p hp => ?_⟩
    have : p.1 ∈ pa v := by rw [← e2]; exact Dict.mem_keys_of_mem hp
    exact ⟨by rw [h.dom v hv p (e3 p hp), canonStates_inner ((p2 _).1 this).2], this⟩
  obtain ⟨f, st, uu, pd, f1, f2, f3, f4, _, f5, f6, f7, f8, f9, f10⟩ := canonical_full vt hdok (x := v) (u := exo v) (pa := pa v)
    (filter_eq_singleton k1 ((k2 v).2 (.inl rfl)) _ fun w hw => by
      have h1 := (k2 w).1 hw
      rw [hpar] at h1
      simp only [decide_eq_true_eq]
      constructor
      · rintro ⟨h2, h3⟩
        rcases h1 with e | e | e
        · exact e
        · exact absurd e h3
        · exact absurd e h2
      · rintro rfl
        exact ⟨fun hc => hvp' ((p2 _).1 hc).1, hxv.symm⟩)
    ((k2 _).2 (.inr hxp)) hsub p1 hup (fun st uu pd e1 e2 e3 => by
      obtain ⟨q1, q2⟩ := hpd pd e3
      have hlen : (assignmentSpace pd).length = (cards pd).prod := by
        simp [assignmentSpace, stateSpace, length_product, cards, Function.comp_def]
      rw [hget _ _ e1, hget _ _ e2, canonStates_inner hv, canonStates_root hr, h.card v hv, hlen, ← q1]
      congr 2
      simp only [cards, Dict.keys, List.map_map]
      exact List.map_congr_left fun p hp => by simp [(q2 p hp).1]) hvt
  obtain ⟨q1, q2⟩ := hpd pd f7
  have est := hget _ _ f5
  have eus := hget _ _ f6
  rw [canonStates_inner hv] at est
  rw [canonStates_root hr] at eus
  have hrv : ∀ w, w ∈ f.rightVars ↔ w ∈ B.parents v := fun w => by
    rw [hpar]
    have e : Dict.keys f.rightDomain = exo v :: pa v := by rw [f8, Dict.keys_cons, q1]
    have e2 : w ∈ Dict.keys f.rightDomain ↔ w ∈ f.rightVars := by
      rw [DetFactor.rightDomain, Dict.keys_filter_key f.dom (fun v => v ∈ f.rightVars), List.mem_filter]
      simp only [decide_eq_true_eq]
      exact ⟨fun h => h.2, fun h => ⟨f2.right w h, h⟩⟩
    rw [← e2, e, List.mem_cons]
  have hpdk : (Dict.keys pd).Nodup := by rw [q1]; exact p1
  have hfull : ∀ a : V → S, (∀ w ∈ B.nodes, a w ∈ canonStates B us w) →
      (pd.map fun p => (p.1, a p.1)) ∈ assignmentSpace pd ∧
      f.getValue ((exo v, a (exo v)) :: pd.map fun p => (p.1, a p.1)) = .ok (f.fn a) := by
    intro a ha
    have hin : InDom pd a := fun p hp => by
      obtain ⟨e1, e2⟩ := q2 p hp
      have hi := ((p2 _).1 e2).2
      rw [e1, ← canonStates_inner (us := us) hi]
      exact ha _ (BN.mem_inner.1 hi).1
    have hcov : Covers f.rightDomain ((exo v, a (exo v)) :: pd.map fun p => (p.1, a p.1)) a := by
      rw [f8]
      intro w hw
      by_cases e : w = exo v
      · subst e; simp [Dict.get?]
      · have hw' : w ∈ Dict.keys pd := by simpa [e] using hw
        obtain ⟨t, hts⟩ := Dict.mem_keys.1 hw'
        simp only [Dict.get?, Ne.symm e, if_false]
        exact Dict.get?_of_mem (by rw [Dict.keys, List.map_map]; exact hpdk) (List.mem_map.2 ⟨_, hts, rfl⟩)
    have hin' : InDom f.rightDomain a := by
      rw [f8]
      intro p hp
      rcases List.mem_cons.1 hp with rfl | hp
      · show a (exo v) ∈ uu
        rw [eus, ← canonStates_root (us := us) hr]; exact ha _ (BN.mem_roots.1 hr).1
      · exact hin p hp
    exact ⟨List.mem_of_getElem? (assignmentSpace_getElem? hin),
      hL.getValue_ok f2.store (by rw [f2.storeDom]; exact hin') (by rw [f2.storeDom]; exact hcov)⟩
  have hau : ∀ a : V → S, (∀ w ∈ B.nodes, a w ∈ canonStates B us w) → a (exo v) ∈ uu := fun a ha => by
    rw [eus, ← canonStates_root (us := us) hr]; exact ha _ (BN.mem_roots.1 hr).1
  refine ⟨f, f1, f2, f4, hrv, fun w => ?_, fun p hp => ?_, fun a ha => ?_, fun r r1 r2 => ?_⟩
  · rw [DetFactor.vars, f3, Dict.keys_cons, Dict.keys_cons, q1, hpar]; simp
  · rw [f3] at hp
    rcases List.mem_cons.1 hp with rfl | hp
    · rw [canonStates_inner hv]; exact est
    rcases List.mem_cons.1 hp with rfl | hp
    · rw [canonStates_root hr]; exact eus
    · rw [(q2 p hp).1, canonStates_inner ((p2 _).1 (q2 p hp).2).2]
  · obtain ⟨m1, m2⟩ := hfull a ha
    obtain ⟨y, y1, y2⟩ := f9 (a (exo v)) (hau a ha) _ m1
    rw [m2] at y2; injection y2 with y2
    rw [y2, ← est]; exact y1
  · have hb : ∀ w, ∃ s, w ∈ B.nodes → s ∈ canonStates B us w := fun w => by
      by_cases hw : w ∈ B.nodes
      · obtain ⟨s, hs⟩ := List.exists_mem_of_ne_nil _ (h.ok hB hw).2
        exact ⟨s, fun _ => hs⟩
      · exact ⟨default, fun h => absurd h hw⟩
    choose b hb using hb
    obtain ⟨s, ⟨s1, s2⟩, _⟩ := f10 (fun o => r (over o b)) fun o ho => by
      rw [est]
      refine r1 _ fun w hw => ?_
      by_cases hwk : w ∈ Dict.keys pd
      · obtain ⟨t, hts⟩ := Dict.mem_keys.1 hwk
        have := (mem_assignmentSpace hpdk ho b).1 _ hts
        rw [(q2 _ hts).1] at this
        rw [canonStates_inner ((p2 _).1 (q2 _ hts).2).2]; exact this
      · have : Dict.get? o w = none := Dict.get?_eq_none.2 (by rw [(mem_assignmentSpace' hpdk ho).1]; exact hwk)
        simp only [over, this, Option.getD_none]; exact hb w hw
    refine ⟨s, by rw [← eus]; exact s1, fun a ha has => ?_⟩
    obtain ⟨m1, m2⟩ := hfull a ha
    have := s2 _ m1
    rw [← has, m2] at this
    injection this with this
    rw [this]
    refine r2 _ _ fun w hw => ?_
    obtain ⟨w1, w2⟩ := List.mem_filter.1 hw
    have hwk : w ∈ Dict.keys pd := by rw [q1]; exact (p2 w).2 ⟨w1, by simpa using w2⟩
    obtain ⟨t, hts⟩ := Dict.mem_keys.1 hwk
    exact over_of_get? (Dict.get?_of_mem (by rw [Dict.keys, List.map_map]; exact hpdk) (List.mem_map.2 ⟨_, hts, rfl⟩))

/-! ### The model -/

/-- The canonical equations of all endogenous variables, and the model made of them and any distributions `θ` of the exogenous variables. -/
theorem CanonIn.model {g : DiGraph V} (hg : g.WF) (hgn : g.nodes = B.nodes) (hgp : ∀ v ∈ B.nodes, ∀ p, p ∈ B.parents v ↔ (p, v) ∈ g.edges)
    (hB : B.Valid) (h : CanonIn B exo us d pa) (hvt : vt ≠ .numpy) (cast check : Bool) :
    ∃ (can : V → DetFactor LL) (C : BN V S K), (∀ v ∈ B.inner, canonicalDeterministic LL (d v) (exo v) (pa v) = .ok (can v)) ∧ BN.SameEndo B C ∧
      (∀ x ∈ B.roots, C.states x = us x) ∧ C.Valid ∧
      (∀ v ∈ C.inner, ∀ a, C.InStates a → ((C.states v).map fun s => C.table v (upd a v s)).sum = 1) ∧
      (∀ v ∈ C.inner, ∀ a, C.InStates a → C.table v a = 0 ∨ C.table v a = 1) ∧ C.Rich exo ∧
      ∀ θ : V → S → K, (∀ x ∈ C.roots, IsDistr C x (θ x)) → ∃ (fu : V → Factor II) (m' : SCM II LL),
        (∀ x ∈ B.roots, Factor.make II [(x, us x)] ((us x).map fun s => .fin (θ x s)) (some [x]) none = .ok (fu x)) ∧
        SCM.ofDict g (B.nodes.map fun v => (v, some (if v ∈ B.roots then .multi (fu v) else .det (can v)))) none cast check = .ok m' ∧
        CausalOk m' (BN.withRoots C C.roots θ) ∧ (BN.withRoots C C.roots θ).NonNeg ∧ m'.base.graph = g ∧ m'.endogenous = SCM.defaultEndo g ∧
        m'.cast = cast ∧ m'.Doms (BN.withRoots C C.roots θ) := by
  have hL := labelStoreOf_lawful (V := V) (S := S) vt
  have hI := storeOf_lawful (V := V) (S := S) (α := Fl K) vt
  haveI : Nonempty (DetFactor LL) := by
    obtain ⟨sto, _⟩ := hL.ofArray_ok (d := []) (data := [default]) ⟨by simp, by simp, by simp⟩ rfl
    exact ⟨⟨[], [], sto⟩⟩
  choose! can hn using fun v (hv : v ∈ B.inner) => h.node (vt := vt) hB hv (.inl hvt)
  let C := canonNet B us fun v => (can v).fn
  have hCi : C.inner = B.inner := rfl
  have hCr : C.roots = B.roots := rfl
  have hCt : ∀ v ∈ B.inner, ∀ a, C.table v a = if (can v).fn a = a v then 1 else 0 := fun v hv a => if_pos hv
  have hs : BN.SameEndo B C := ⟨rfl, fun _ _ => rfl, fun v hv => canonStates_inner hv⟩
  have hCv : C.Valid := by
    refine ⟨hB.nodes, hB.parents, hB.acyclic, fun v hv => (h.ok hB hv).1, fun v hv => (h.ok hB hv).2, fun v hv a b hab => ?_⟩
    show (if v ∈ B.inner then (if (can v).fn a = a v then (1 : K) else 0) else 0) = if v ∈ B.inner then (if (can v).fn b = b v then 1 else 0) else 0
    by_cases hi : v ∈ B.inner
    · obtain ⟨_, c2, _, c4, _⟩ := hn v hi
      rw [if_pos hi, if_pos hi, DetFactor.fn_congr hL c2 (b := b) fun w hw => hab w (List.mem_cons_of_mem _ ((c4 w).1 hw)), hab v List.mem_cons_self]
    · rw [if_neg hi, if_neg hi]
  have hfn : ∀ v ∈ B.inner, ∀ (a : V → S) s, (can v).fn (upd a v s) = (can v).fn a := fun v hv a s => by
    obtain ⟨_, c2, _, c4, _⟩ := hn v hv
    refine DetFactor.fn_congr hL c2 fun w hw => upd_ne _ _ fun e => ?_
    rw [e] at hw
    exact hB.acyclic v (.single ⟨(BN.mem_inner.1 hv).1, (c4 v).1 hw⟩)
  have hCn : ∀ v ∈ C.inner, ∀ a, C.InStates a → ((C.states v).map fun s => C.table v (upd a v s)).sum = 1 := by
    intro v hv a ha
    have hc7 := (hn v hv).2.2.2.2.2.2.1 a ha
    have hmem : (can v).fn a ∈ C.states v := by
      show _ ∈ canonStates B us v
      rw [canonStates_inner (B := B) hv]; exact hc7
    have e : ((C.states v).map fun s => C.table v (upd a v s)) = (C.states v).map fun s => if s = (can v).fn a then (1 : K) else 0 := by
      refine List.map_congr_left fun s _ => ?_
      rw [hCt v hv, hfn v hv, upd_same]
      by_cases e : s = (can v).fn a
      · rw [if_pos e, if_pos e.symm]
      · rw [if_neg e, if_neg (Ne.symm e)]
    rw [e, List.sum_map_ite_eq, (List.count_eq_one_of_mem (hCv.nodupStates v (BN.mem_inner.1 hv).1) hmem)]
    simp
  have hCe : ∀ v ∈ C.inner, ∀ a, C.InStates a → C.table v a = 0 ∨ C.table v a = 1 := fun v hv a _ => by
    rw [hCt v hv]
    by_cases e : (can v).fn a = a v
    · exact .inr (if_pos e)
    · exact .inl (if_neg e)
  have hR : C.Rich exo := by
    intro x hxr r hr
    by_cases hc : ∃ v ∈ B.inner, exo v = x
    · obtain ⟨v, hv, rfl⟩ := hc
      obtain ⟨r1, r2⟩ := hr v hv rfl
      obtain ⟨s, s1, s2⟩ := (hn v hv).2.2.2.2.2.2.2 (r v) (fun a ha => by
        have : r v a ∈ canonStates B us v := r1 a ha
        rwa [canonStates_inner hv] at this) r2
      refine ⟨s, ?_, fun w hw hwx a ha has => ?_⟩
      · show s ∈ canonStates B us (exo v)
        rw [canonStates_root (B := B) hxr]; exact s1
      · have := h.inj w hw v hv hwx
        subst this
        rw [hCt w hw, s2 a ha has]
        by_cases e : r w a = a w
        · rw [if_pos e, if_pos e.symm]
        · rw [if_neg e, if_neg (Ne.symm e)]
    · obtain ⟨s, hss⟩ := List.exists_mem_of_ne_nil _ (hCv.nonempty x (BN.mem_roots.1 hxr).1)
      exact ⟨s, hss, fun w hw hwx => absurd ⟨w, hw, hwx⟩ hc⟩
  refine ⟨can, C, fun v hv => (hn v hv).1, hs, fun x hx => canonStates_root hx, hCv, hCn, hCe, hR, fun θ t1 => ?_⟩
  have t2 := withRoots_normalised t1 hCn
  let N := BN.withRoots C C.roots θ
  have hNv : N.Valid := withRoots_valid hCv _ _
  have hNr : ∀ x ∈ B.roots, ∀ a, N.table x a = θ x (a x) := fun x hxr a => by
    show (if x ∈ B.roots then fun a => θ x (a x) else C.table x) a = _
    rw [if_pos hxr]
  have hNi : ∀ v ∈ B.inner, ∀ a, N.table v a = if (can v).fn a = a v then 1 else 0 := fun v hv a => by
    show (if v ∈ B.roots then fun a => θ v (a v) else C.table v) a = _
    rw [if_neg (BN.not_root hv)]
    exact hCt v hv a
  -- the factors of the roots
  haveI : Nonempty (Factor II) := by
    obtain ⟨f, _⟩ := Factor.make_ok hI (d := []) (values := [default]) (left := none) (right := none) ⟨by simp, by simp, by simp⟩ rfl rfl
    exact ⟨f⟩
  have key3 : ∀ x ∈ B.roots, ∃ g : Factor II,
      Factor.make II [(x, us x)] ((us x).map fun s => .fin (θ x s)) (some [x]) none = .ok g ∧ IsTable N x g := fun x hxr => by
    obtain ⟨m1, m2⟩ := BN.mem_roots.1 hxr
    obtain ⟨k, g1, _, _, g4⟩ := table_factor hI hNv (v := x) m1 (d := [(x, us x)]) ⟨by simp [Dict.keys], fun w => by
      have : N.parents x = [] := m2
      rw [this]; simp [Dict.keys], fun p hp => by
      rw [List.mem_singleton.1 hp]
      exact (canonStates_root hxr).symm⟩
    refine ⟨k, ?_, g4⟩
    rw [← g1, tableValues, assignmentSpace_one, List.map_map]
    congr 1
    refine List.map_congr_left fun s _ => ?_
    show _ = Fl.fin (N.table x (asg [(x, s)]))
    rw [hNr x hxr, asg, over_of_get? (by simp [Dict.get?] : Dict.get? [(x, s)] x = some s)]
  choose! fu hu using key3
  -- the model
  let fac : V → AnyFactor II LL := fun v => if v ∈ B.roots then .multi (fu v) else .det (can v)
  have hfac : ∀ v ∈ B.nodes, AnyTable N v (fac v) := by
    intro v hv
    rcases BN.inner_or hv with hr | hi
    · simp only [fac, if_pos hr]
      exact (hu v hr).2
    · simp only [fac, if_neg (BN.not_root hi)]
      obtain ⟨_, c2, c3, c4, c5, c6, _⟩ := hn v hi
      refine ⟨c2, c3, c4, c5, c6, fun obs ho => ⟨_, DetFactor.eval_ok hL c2 ho c3, ?_⟩⟩
      rw [hNi v hi]
      simp
  have hac : g.Acyclic := by
    intro v hv
    refine hB.acyclic v (Relation.TransGen.mono (fun a b hab => ?_) _ _ hv)
    have hb : b ∈ B.nodes := hgn ▸ (hg.ends _ hab).2
    exact ⟨hb, (hgp b hb a).2 hab⟩
  have hendo : ∀ v ∈ SCM.endoOr g none, v ∈ B.inner := fun v hv => by
    obtain ⟨p, hp⟩ := (SCM.mem_defaultEndo hg).1 hv
    have hvn : v ∈ B.nodes := hgn ▸ (hg.ends _ hp).2
    exact BN.mem_inner.2 ⟨hvn, List.ne_nil_of_mem ((hgp v hvn p).2 hp)⟩
  have hNe : ∀ v ∈ B.inner, ∀ a, N.InStates a → N.table v a = 0 ∨ N.table v a = 1 := fun v hv a ha => by
    have := hCe v hv a ha
    rw [hCt v hv] at this
    rw [hNi v hv]; exact this
  have hprep : ∀ v ∈ B.nodes, _ := fun v hv => AnyTable.prepare hNv hv (hfac v hv) (endo := SCM.endoOr g none)
    (fun hve => hNe v (hendo v hve)) cast check
  have hl : ∀ p ∈ B.nodes.map fun v => (v, fac v), p.1 ∈ B.nodes ∧ p.2 = fac p.1 := fun p hp => by
    obtain ⟨v, hv, rfl⟩ := List.mem_map.1 hp
    exact ⟨hv, rfl⟩
  have hk : Dict.keys (B.nodes.map fun v => (v, fac v)) = B.nodes := by
    rw [Dict.keys, List.map_map]; exact List.map_id _
  have hof := SCM.ofDict_fits hg hac (D := N.states) none (cast := cast) (check := check) (B.nodes.map fun v => (v, fac v))
    (fun p hp => by
      obtain ⟨e1, e2⟩ := hl p hp
      rw [e2]; exact (hprep _ e1).1)
    (fun p hp => by
      obtain ⟨e1, e2⟩ := hl p hp
      rw [e2]
      exact (hprep _ e1).2.1.fits (hgn ▸ e1) (hgp _ e1)) (by rw [hk]; exact hB.nodes)
  refine ⟨fu, ⟨DagModel.after g N.states check ((B.nodes.map fun v => (v, fac v)).map fun p =>
    (p.1, SCM.prep (SCM.endoOr g none) cast check p.1 p.2)), SCM.endoOr g none, cast⟩, fun x hxr => ?_, ?_, ?_, ?_, rfl, rfl, rfl, ?_⟩
  · exact (hu x hxr).1
  · rw [← hof, List.map_map]
    rfl
  · refine ⟨?_, hNv, t2, hNe, fun v hv f hf => ?_⟩
    · refine SCM.rep_after hNv hg hgn hgp ?_ (fun p hp => ?_) (fun v hv _ => hNe v (hendo v hv)) (fun hc p hp he => ?_) (fun he => ?_)
      · rw [Dict.keys, List.map_map, List.map_map]
        exact List.Perm.of_eq (List.map_id _)
      · obtain ⟨q, hq, rfl⟩ := List.mem_map.1 hp
        obtain ⟨e1, e2⟩ := hl q hq
        show AnyTable N q.1 (SCM.prep _ cast check q.1 q.2)
        rw [e2]; exact (hprep _ e1).2.1
      · obtain ⟨q, hq, rfl⟩ := List.mem_map.1 hp
        obtain ⟨e1, e2⟩ := hl q hq
        show (SCM.prep _ cast check q.1 q.2).isDet = false
        rw [e2]; exact (hprep _ e1).2.2.1 he hc
      · by_contra hne
        obtain ⟨e, hemem⟩ := List.exists_mem_of_ne_nil _ hne
        have : e.2 ∈ SCM.endoOr g none := (SCM.mem_defaultEndo hg).2 ⟨e.1, hemem⟩
        rw [he] at this; cases this
    · have hvn : v ∈ B.nodes := (BN.mem_roots.1 hv).1
      have hf : Dict.get? (g.nodes.map fun v => (v, Dict.get? ((B.nodes.map fun v => (v, fac v)).map fun p =>
        (p.1, SCM.prep (SCM.endoOr g none) cast check p.1 p.2)) v)) v = some (some f) := hf
      rw [Dict.get?_map, if_pos (by rw [hgn]; exact hvn), List.map_map, Dict.get?_of_mem (v := SCM.prep (SCM.endoOr g none) cast check v (fac v))
        (by rw [Dict.keys, List.map_map]; exact (List.map_id B.nodes).symm ▸ hB.nodes) (List.mem_map.2 ⟨v, hvn, rfl⟩)] at hf
      injection hf with hf
      injection hf with hf
      rw [← hf]
      have hfd : (fac v).isDet = false := by simp only [fac, if_pos (show v ∈ B.roots from hv)]; rfl
      rw [(hprep v hvn).2.2.2 fun _ _ => hfd]
      exact hfd
  · intro v hv a ha
    rcases BN.inner_or (B := B) hv with hr | hi
    · rw [hNr v hr]; exact (t1 v hr).1 _ (ha v hv)
    · rcases hNe v hi a ha with e | e <;> rw [e]
      exact zero_le_one
  · show (g.nodes.map fun v => (v, if v ∈ Dict.keys ((B.nodes.map fun v => (v, fac v)).map fun p =>
      (p.1, SCM.prep (SCM.endoOr g none) cast check p.1 p.2)) then some (N.states v) else none)) = B.nodes.map fun v => (v, some (N.states v))
    rw [hgn]
    refine List.map_congr_left fun v hv => ?_
    rw [if_pos (by rw [Dict.keys, List.map_map, List.map_map]; exact List.mem_map.2 ⟨v, hv, rfl⟩)]

/-- **C101** (partial) for every structural causal model in which each endogenous variable has an exogenous parent of its own, the calls
`canonical_deterministic` succeed, and there are distributions of the exogenous variables with which the model built from the canonical equations
gives every event about endogenous variables, in any number of worlds, the probability it has in the given model.  Missing: the default store,
where one of the calls raises (`C101_default_store`). -/
theorem C101_canonical_partial {m : SCM II LL} (hm : CausalOk m B) (hnn : B.NonNeg) (h : CanonIn B exo us d pa)
    (hvt : vt ≠ .numpy) (cast check : Bool) :
    ∃ (can : V → DetFactor LL) (θ : V → S → K) (fu : V → Factor II) (m' : SCM II LL) (B' : BN V S K),
      (∀ v ∈ B.inner, canonicalDeterministic LL (d v) (exo v) (pa v) = .ok (can v)) ∧
      (∀ x ∈ B.roots, (∀ s ∈ us x, 0 ≤ θ x s) ∧ ((us x).map (θ x)).sum = 1 ∧
        Factor.make II [(x, us x)] ((us x).map fun s => .fin (θ x s)) (some [x]) none = .ok (fu x)) ∧
      SCM.ofDict m.base.graph (B.nodes.map fun v => (v, some (if v ∈ B.roots then .multi (fu v) else .det (can v)))) none cast check = .ok m' ∧
      CausalOk m' B' ∧ B'.NonNeg ∧ BN.SameEndo B B' ∧ (∀ x ∈ B.roots, B'.states x = us x) ∧ SameAnswers B B' := by
  have hE := BN.eqs_inner hm.valid hm.norm hm.equations
  obtain ⟨can, C, c1, hs, c3, hCv, hCn, hCe, hR, c8⟩ := h.model (vt := vt) hm.rep.wf hm.rep.nodes hm.rep.parents hm.valid hvt cast check
  obtain ⟨θ, t1, t2, t3⟩ := C101_rich hR hs hE hnn h.one hCv hCn hCe
  obtain ⟨fu, m', u1, u2, u3, u4, _⟩ := c8 θ t1
  refine ⟨can, θ, fu, m', _, c1, fun x hxr => ?_, u2, u3, u4, ⟨hs.nodes, hs.parents, hs.states⟩, c3, t3⟩
  have := t1 x (by rw [hs.roots]; exact hxr)
  rw [IsDistr, c3 x hxr] at this
  exact ⟨this.1, this.2, u1 x hxr⟩

/-- **C101** (violation) with the default store the equations cannot all be made, whatever the model: an endogenous variable without endogenous parents
has none. -/
theorem C101_default_store (hB : B.Valid) (hne : B.inner ≠ []) (h : CanonIn B exo us d pa) :
    ∃ v ∈ B.inner, (canonicalDeterministic (labelStoreOf .numpy : LabelStore V S) (d v) (exo v) (pa v)).map (fun _ => ()) = .error .valueError := by
  -- a first endogenous variable
  obtain ⟨v, hv, hfirst⟩ : ∃ v ∈ B.inner, pa v = [] := by
    let R : {v // v ∈ B.inner} → {v // v ∈ B.inner} → Prop := fun x y => Relation.TransGen (fun a b => b ∈ B.nodes ∧ a ∈ B.parents b) x.1 y.1
    haveI : IsTrans _ R := ⟨fun _ _ _ h1 h2 => Relation.TransGen.trans h1 h2⟩
    haveI : Std.Irrefl R := ⟨fun x hx => hB.acyclic x.1 hx⟩
    have hwf : WellFounded R := Finite.wellFounded_of_trans_of_irrefl R
    obtain ⟨x0, hx0⟩ := List.exists_mem_of_ne_nil _ hne
    obtain ⟨x, _, hx⟩ := hwf.has_min Set.univ ⟨⟨x0, hx0⟩, trivial⟩
    refine ⟨x.1, x.2, List.eq_nil_iff_forall_not_mem.2 fun w hw => ?_⟩
    obtain ⟨w1, w2⟩ := ((h.parents x.1 x.2).2 w).1 hw
    exact hx ⟨w, w2⟩ trivial (.single ⟨(BN.mem_inner.1 x.2).1, w1⟩)
  refine ⟨v, hv, ?_⟩
  obtain ⟨hvn, _⟩ := BN.mem_inner.1 hv
  obtain ⟨hr, hxp⟩ := h.one.mem v hv
  obtain ⟨k1, k2⟩ := h.keys v hv
  have hxv : exo v ≠ v := fun e => BN.not_root hv (by rw [← e]; exact hr)
  have hpar : ∀ w, w ∈ B.parents v → w = exo v := fun w hw => by
    rcases BN.inner_or (hB.parents v hvn w hw) with e | e
    · exact h.one.only v hv w hw e
    · have := ((h.parents v hv).2 w).2 ⟨hw, e⟩
      rw [hfirst] at this; cases this
  have hx : ((Dict.keys (d v)).filter fun w => w ∉ pa v ∧ w ≠ exo v) = [v] := filter_eq_singleton k1 ((k2 v).2 (.inl rfl)) _ fun w hw => by
    rw [hfirst]
    simp only [decide_eq_true_eq, List.not_mem_nil, not_false_eq_true, true_and]
    constructor
    · intro hwx
      exact ((k2 w).1 hw).resolve_right fun hc => hwx (hpar w hc)
    · rintro rfl; exact hxv.symm
  obtain ⟨st, hst⟩ := Dict.mem_keys.1 ((k2 v).2 (.inl rfl))
  obtain ⟨uu, huu⟩ := Dict.mem_keys.1 ((k2 (exo v)).2 (.inr hxp))
  have gst : Dict.get? (d v) v = some st := Dict.get?_of_mem k1 hst
  have gus : Dict.get? (d v) (exo v) = some uu := Dict.get?_of_mem k1 huu
  have hsub0 : subdomain (d v) (pa v) = .ok [] := by rw [hfirst]; rfl
  have hsub1 : subdomain (d v) [exo v] = .ok [(exo v, uu)] := by
    simp [subdomain, Dict.get, gus, List.mapM_cons, List.mapM_nil]
  have hnew : Dict.merge (Dict.merge [(v, st)] [(exo v, uu)]) [] = [(v, st), (exo v, uu)] := by
    simp [Dict.merge, Dict.set, Dict.get?, hxv.symm, hxv]
  rw [canonicalDeterministic, hx]
  simp only [hsub0, py_ok_bind, Dict.get, gst, hsub1, hnew]
  simp only [DetFactor.make, Factor.setVariables, py_ok_bind, Dict.keys_cons, Dict.keys_nil, List.filter_cons, List.filter_nil, labelStoreOf, NumpyStore.mk?]
  simp [hxv, hxv.symm, cards]
  rfl

/-! ### Answers -/

theorem SameEndo.evOk {B B' : BN V S K} (hs : BN.SameEndo B B') {ev : Obs V S} (hev : EvOk B ev) (hk : ∀ v ∈ Dict.keys ev, v ∈ B.inner) : EvOk B' ev :=
  ⟨hev.nodup, fun v hv => by rw [hs.nodes]; exact hev.nodes v hv, fun v s hvs => by
    rw [hs.states v (hk v (Dict.get?_isSome.1 (by rw [hvs]; rfl)))]; exact hev.states v s hvs⟩

theorem SameAnswers.doMarg {B B' : BN V S K} (hB : B.Eqs B.inner) (hB' : B'.Eqs B'.inner) (hs : BN.SameEndo B B') (ha : SameAnswers B B')
    {d : Obs V S} (hd : EvOk B d) (hdk : ∀ v ∈ Dict.keys d, v ∈ B.inner) {vs : List V} (hv : vs.Nodup) (hvi : ∀ v ∈ vs, v ∈ B.inner)
    {a : V → S} (hva : ∀ v ∈ vs, a v ∈ B.states v) : B'.doMarg d vs a = B.doMarg d vs a := by
  have hk : Dict.keys (vs.map fun v => (v, a v)) = vs := by rw [Dict.keys, List.map_map]; exact List.map_id _
  have hg : ∀ v ∈ vs, Dict.get? (vs.map fun v => (v, a v)) v = some (a v) := fun v hvv =>
    Dict.get?_of_mem (by rw [hk]; exact hv) (List.mem_map.2 ⟨v, hvv, rfl⟩)
  have hev : EvOk B (vs.map fun v => (v, a v)) := ⟨by rw [hk]; exact hv, fun v h => (BN.mem_inner.1 (hvi v (by rwa [hk] at h))).1, fun v s h => by
    have hvv : v ∈ vs := by have := Dict.get?_isSome.1 (by rw [h]; rfl : (Dict.get? (vs.map fun v => (v, a v)) v).isSome); rwa [hk] at this
    rw [hg v hvv] at h; injection h with h; rw [← h]; exact hva v hvv⟩
  have hdo : B.DoOk d := fun v s h _ => hd.states v s h
  have hd' := SameEndo.evOk hs hd hdk
  have hdo' : B'.DoOk d := fun v s h _ => hd'.states v s h
  have hag : ∀ v ∈ vs, (asg (vs.map fun v => (v, a v)) : V → S) v = a v := fun v hvv => by rw [asg, over_of_get? (hg v hvv)]
  have e1 := BN.cfProb_do hB hdo hdk hev
  have e2 := BN.cfProb_do hB' hdo' (by rw [hs.inner]; exact hdk) (SameEndo.evOk hs hev (by rw [hk]; exact hvi))
  rw [hk, BN.doMarg_dep hB.valid hd.nodes vs _ a hag] at e1
  rw [hk, BN.doMarg_dep hB'.valid hd'.nodes vs _ a hag] at e2
  rw [← e1, ← e2]
  refine ha _ fun w hw => ?_
  rw [List.mem_singleton.1 hw]
  exact ⟨hdo, hdk, by rw [hk]; exact hvi⟩

/-- Models that agree on the probabilities after an intervention give the same answers to causal queries about it. -/
theorem same_interventional {ch ch' : Choices V} (hch : ch.Ok) (hch' : ch'.Ok) {m m' : SCM II LL} {B B' : BN V S K} (h : CausalOk m B) (h' : CausalOk m' B')
    (hs : BN.SameEndo B B') {T : List V} {d ev : Obs V S} (hT : T ≠ []) (hTn : T.Nodup)
    (hTv : ∀ t ∈ T, t ∈ B.inner ∧ t ∉ Dict.keys ev ∧ t ∉ Dict.keys d)
    (hd : EvOk B d) (hdk : ∀ v ∈ Dict.keys d, v ∈ B.inner) (hev : EvOk B ev) (hek : ∀ v ∈ Dict.keys ev, v ∈ B.inner)
    {e : Option (Obs V S)} (hee : e.getD [] = ev) (hp : B.doMarg d (Dict.keys ev) (asg ev) ≠ 0)
    (hsame : ∀ vs : List V, vs.Nodup → (∀ v ∈ vs, v ∈ T ∨ v ∈ Dict.keys ev) → ∀ a : V → S, (∀ v ∈ vs, a v ∈ B.states v) → B'.doMarg d vs a = B.doMarg d vs a) :
    ∃ q q' r r', Causal.new m = .ok q ∧ Causal.new m' = .ok q' ∧ Causal.causalQuery ch q T d e = .ok r ∧ Causal.causalQuery ch' q' T d e = .ok r' ∧
      (∀ v, v ∈ r.vars ↔ v ∈ T) ∧ (∀ v, v ∈ r'.vars ↔ v ∈ T) ∧ ∀ obs, FullObs r.dom obs → FullObs r'.dom obs ∧ r'.getValue obs = r.getValue obs := by
  have hst : ∀ v ∈ Dict.keys ev, (asg ev : V → S) v ∈ B.states v := fun v hv => by
    obtain ⟨s, hsv⟩ := Option.isSome_iff_exists.1 (Dict.get?_isSome.2 hv)
    rw [asg, over_of_get? hsv]; exact hev.states v s hsv
  have hden := hsame _ hev.nodup (fun v hv => .inr hv) _ hst
  obtain ⟨q, r, n1, n2, _, n4, n5, _, n7⟩ := C42_interventional hch h hT hTn (fun t ht => ⟨(BN.mem_inner.1 (hTv t ht).1).1, (hTv t ht).2⟩) hd hev hee hp
  obtain ⟨q', r', k1, k2, _, k4, k5, _, k7⟩ := C42_interventional hch' h' (d := d) hT hTn
    (fun t ht => ⟨by rw [hs.nodes]; exact (BN.mem_inner.1 (hTv t ht).1).1, (hTv t ht).2⟩) (SameEndo.evOk hs hd hdk) (SameEndo.evOk hs hev hek) hee (by rw [hden]; exact hp)
  refine ⟨q, q', r, r', n1, k1, n2, k2, n5, k5, fun obs ho => ?_⟩
  have hfo : FullObs r'.dom obs := by
    intro p hp'
    have hpT : p.1 ∈ T := (k5 p.1).1 (Dict.mem_keys_of_mem hp')
    obtain ⟨st, hst'⟩ := Dict.mem_keys.1 ((n5 p.1).2 hpT)
    have := ho _ hst'
    have e1 := n4 _ hst'
    have e2 := k4 _ hp'
    rw [hs.states _ (hTv _ hpT).1] at e2
    rw [e2, ← e1]; exact this
  refine ⟨hfo, ?_⟩
  rw [n7 obs ho, k7 obs hfo, hden, hsame _ (List.nodup_append'.2 ⟨hTn, hev.nodup, fun t ht hte => (hTv t ht).2.1 hte⟩)
    (fun v hv => List.mem_append.1 hv) _ fun v hv => ?_]
  by_cases hve : v ∈ Dict.keys ev
  · obtain ⟨s, hsv⟩ := Option.isSome_iff_exists.1 (Dict.get?_isSome.2 hve)
    rw [asg, over_of_get? (s := s) (by rw [Dict.get?_append, hsv]; rfl)]; exact hev.states v s hsv
  · have hvT : v ∈ T := (List.mem_append.1 hv).resolve_right hve
    obtain ⟨st, hst'⟩ := Dict.mem_keys.1 ((n5 v).2 hvT)
    obtain ⟨s, hs1, hs2⟩ := ho _ hst'
    rw [asg, over_of_get? (s := s) (by rw [Dict.get?_append, Dict.get?_eq_none.2 hve]; exact hs2)]
    have e1 := n4 _ hst'
    rw [← e1]; exact hs1

/-- **C101** models with the same endogenous variables that agree on all counterfactual probabilities give the same answers to causal queries. -/
theorem C101_interventional {ch ch' : Choices V} (hch : ch.Ok) (hch' : ch'.Ok) {m m' : SCM II LL} {B B' : BN V S K} (h : CausalOk m B) (h' : CausalOk m' B')
    (hs : BN.SameEndo B B') (ha : SameAnswers B B') {T : List V} {d ev : Obs V S} (hT : T ≠ []) (hTn : T.Nodup)
    (hTv : ∀ t ∈ T, t ∈ B.inner ∧ t ∉ Dict.keys ev ∧ t ∉ Dict.keys d)
    (hd : EvOk B d) (hdk : ∀ v ∈ Dict.keys d, v ∈ B.inner) (hev : EvOk B ev) (hek : ∀ v ∈ Dict.keys ev, v ∈ B.inner)
    {e : Option (Obs V S)} (hee : e.getD [] = ev) (hp : B.doMarg d (Dict.keys ev) (asg ev) ≠ 0) :
    ∃ q q' r r', Causal.new m = .ok q ∧ Causal.new m' = .ok q' ∧ Causal.causalQuery ch q T d e = .ok r ∧ Causal.causalQuery ch' q' T d e = .ok r' ∧
      (∀ v, v ∈ r.vars ↔ v ∈ T) ∧ (∀ v, v ∈ r'.vars ↔ v ∈ T) ∧ ∀ obs, FullObs r.dom obs → FullObs r'.dom obs ∧ r'.getValue obs = r.getValue obs :=
  same_interventional hch hch' h h' hs hT hTn hTv hd hdk hev hek hee hp fun _ hvs hv _ ha' =>
    ha.doMarg (BN.eqs_inner h.valid h.norm h.equations) (BN.eqs_inner h'.valid h'.norm h'.equations) hs hd hdk hvs
      (fun v h1 => (hv v h1).elim (fun h1 => (hTv v h1).1) (hek v)) ha'

variable {sfx : V → Nat → V} {dos : List (Obs V S)} {tg : List (V × Nat)}

theorem SameEndo.cfOk {B B' : BN V S K} (hs : BN.SameEndo B B') (h : Causal.CfOk B sfx dos tg) : Causal.CfOk B' sfx dos tg := by
  refine ⟨⟨h.doNodup, ?_, ?_, ?_, ?_, ?_⟩, h.nonempty, h.nodup, ?_⟩
  · rw [hs.inner]; exact h.doInner
  · intro d hd v s hvs
    rw [hs.states v (h.doInner d hd v (Dict.get?_isSome.1 (by rw [hvs]; rfl)))]
    exact h.doStates d hd v s hvs
  · intro d hd v hv
    obtain ⟨c, c1, c2, c3⟩ := h.used d hd v hv
    exact ⟨c, by rw [hs.nodes]; exact c1, by rw [hs.parents c c1]; exact c2, c3⟩
  · rw [hs.inner, hs.nodes]; exact h.fresh
  · rw [hs.inner]; exact h.inj
  · rw [hs.inner]; exact h.target

/-- **C101** … and the same answers to counterfactual queries. -/
theorem C101_counterfactual {ch ch' : Choices V} (hch : ch.Ok) (hch' : ch'.Ok) {m m' : SCM II LL} {B B' : BN V S K} (h : CausalOk m B) (h' : CausalOk m' B')
    (hs : BN.SameEndo B B') (ha : SameAnswers B B') (hq : Causal.CfOk B sfx dos tg) {ev : Obs V S} (hev : EvOk B ev) (hek : ∀ v ∈ Dict.keys ev, v ∈ B.inner)
    {e : Option (Obs V S)} (hee : e.getD [] = ev) (hp : B.cfProb B.roots B.inner [([], ev)] ≠ 0) :
    ∃ q q' r r', Causal.new m = .ok q ∧ Causal.new m' = .ok q' ∧
      Causal.counterfactualQuery sfx ch q (tg.map Prod.fst) dos e (some (tg.map Prod.snd)) = .ok r ∧
      Causal.counterfactualQuery sfx ch' q' (tg.map Prod.fst) dos e (some (tg.map Prod.snd)) = .ok r' ∧
      (∀ v, v ∈ r.vars ↔ ∃ q ∈ tg, v = sfx q.1 q.2) ∧ (∀ v, v ∈ r'.vars ↔ ∃ q ∈ tg, v = sfx q.1 q.2) ∧
      ∀ obs, FullObs r.dom obs → FullObs r'.dom obs ∧ r'.getValue obs = r.getValue obs := by
  have hden : B'.cfProb B'.roots B'.inner [([], ev)] = B.cfProb B.roots B.inner [([], ev)] := ha _ fun w hw => by
    rw [List.mem_singleton.1 hw]
    exact ⟨fun v s hvs => (by cases hvs), fun v hv => (by cases hv), hek⟩
  have hq' := SameEndo.cfOk hs hq
  obtain ⟨q, r, n1, n2, _, n4, _, n6, n7⟩ := C43_counterfactual_partial hch h hq hev hee hp
  obtain ⟨q', r', k1, k2, _, k4, _, k6, k7⟩ := C43_counterfactual_partial hch' h' hq' (SameEndo.evOk hs hev hek) hee (by rw [hden]; exact hp)
  refine ⟨q, q', r, r', n1, k1, n2, k2, n4, k4, fun obs ho => ?_⟩
  have hfo : FullObs r'.dom obs := by
    intro p hp'
    obtain ⟨t, t1, t2, t3⟩ := k6 p hp'
    obtain ⟨st, hst'⟩ := Dict.mem_keys.1 ((n4 p.1).2 ⟨t, t1, t2⟩)
    obtain ⟨t', u1, u2, u3⟩ := n6 _ hst'
    have e := hq.inj t.1 (hq.target t t1).1 t'.1 (hq.target t' u1).1 t.2 t'.2 (hq.target t t1).2.1 (hq.target t t1).2.2.1 (hq.target t' u1).2.1 (hq.target t' u1).2.2.1
      (t2.symm.trans u2)
    have := ho _ hst'
    rw [hs.states _ (hq.target t t1).1, e.1] at t3
    rw [t3, ← u3]; exact this
  refine ⟨hfo, ?_⟩
  rw [n7 obs ho, k7 obs hfo, hden]
  rw [ha]
  intro w hw
  rcases List.mem_cons.1 hw with rfl | hw
  · exact ⟨fun v s hvs => (by cases hvs), fun v hv => (by cases hv), hek⟩
  · obtain ⟨p, hp', rfl⟩ := List.mem_map.1 hw
    have hpd : p.1 ∈ dos := by
      have := List.mem_map_of_mem (f := Prod.fst) hp'
      rwa [List.zipIdx_map_fst] at this
    exact ⟨fun v s hvs _ => hq.doStates _ hpd v s hvs, hq.doInner _ hpd, fun v hv => (hq.target _ (hq.targetObs_keys obs _ v hv)).1⟩

theorem SameEndo.causationOk {B B' : BN V S K} (hs : BN.SameEndo B B') {c e : V} {tc fc te fe : S} (h : CausationOk B sfx c e tc fc te fe) :
    CausationOk B' sfx c e tc fc te fe := by
  obtain ⟨h1, h2, h3, ⟨x, hx1, hx2⟩, h5, h6, h7, h8, h9, h10⟩ := h
  exact ⟨by rw [hs.inner]; exact h1, by rw [hs.inner]; exact h2, h3, ⟨x, by rw [hs.nodes]; exact hx1, by rw [hs.parents x hx1]; exact hx2⟩,
    by rw [hs.states c h1]; exact h5, by rw [hs.states c h1]; exact h6, by rw [hs.states e h2]; exact h7, by rw [hs.states e h2]; exact h8,
    by rw [hs.inner, hs.nodes]; exact h9, by rw [hs.inner]; exact h10⟩

/-- **C101** … and the same probabilities of causation. -/
theorem C101_causation {ch ch' : Choices V} (hch : ch.Ok) (hch' : ch'.Ok) {m m' : SCM II LL} {B B' : BN V S K} (h : CausalOk m B) (h' : CausalOk m' B')
    (hs : BN.SameEndo B B') (ha : SameAnswers B B') {c e : V} {tc fc te fe : S} (hc : CausationOk B sfx c e tc fc te fe) :
    ∃ q q', Causal.new m = .ok q ∧ Causal.new m' = .ok q' ∧
      Causal.pns sfx ch' q' c e tc fc te fe = Causal.pns sfx ch q c e tc fc te fe ∧
      (B.marg [c, e] (asg [(c, tc), (e, te)]) ≠ 0 → Causal.pn sfx ch' q' c e tc fc te fe = Causal.pn sfx ch q c e tc fc te fe) ∧
      (B.marg [c, e] (asg [(c, fc), (e, fe)]) ≠ 0 → Causal.ps sfx ch' q' c e tc fc te fe = Causal.ps sfx ch q c e tc fc te fe) := by
  have hE := BN.eqs_inner h.valid h.norm h.equations
  have hE' := BN.eqs_inner h'.valid h'.norm h'.equations
  have hc' := SameEndo.causationOk hs hc
  have hnil : ∀ o : Obs V S, (∀ v ∈ Dict.keys o, v = c ∨ v = e) → B.DoOk ([] : Obs V S) ∧ (∀ v ∈ Dict.keys ([] : Obs V S), v ∈ B.inner) ∧ ∀ v ∈ Dict.keys o, v ∈ B.inner :=
    fun o ho => ⟨fun v s hvs => (by cases hvs), fun v hv => (by cases hv), fun v hv => by
      rcases ho v hv with e | e
      · rw [e]; exact hc.cause
      · rw [e]; exact hc.effect⟩
  have hone : ∀ s ∈ B.states c, ∀ t : S, B.DoOk [(c, s)] ∧ (∀ v ∈ Dict.keys [(c, s)], v ∈ B.inner) ∧ ∀ v ∈ Dict.keys [(e, t)], v ∈ B.inner := by
    intro s hss t
    refine ⟨fun v s' hvs _ => ?_, fun v hv => ?_, fun v hv => ?_⟩
    · simp only [Dict.get?] at hvs
      split at hvs
      · rename_i hcv; subst hcv; injection hvs with hvs; rw [← hvs]; exact hss
      · cases hvs
    · simp only [Dict.keys, List.map_cons, List.map_nil, List.mem_singleton] at hv
      rw [hv]; exact hc.cause
    · simp only [Dict.keys, List.map_cons, List.map_nil, List.mem_singleton] at hv
      rw [hv]; exact hc.effect
  have hmarg : ∀ s ∈ B.states c, ∀ t ∈ B.states e, B'.marg [c, e] (asg [(c, s), (e, t)]) = B.marg [c, e] (asg [(c, s), (e, t)]) := fun s hss t ht => by
    have e1 := BN.cfProb_factual hE (hc.evOk hss ht)
    have e2 := BN.cfProb_factual hE' (hc'.evOk (by rw [hs.states c hc.cause]; exact hss) (by rw [hs.states e hc.effect]; exact ht))
    refine e2.symm.trans (Eq.trans ?_ e1)
    refine ha _ fun w hw => ?_
    rw [List.mem_singleton.1 hw]
    exact hnil _ fun v hv => by simpa [Dict.keys] using hv
  obtain ⟨q, n1, n2⟩ := C46_necessity_sufficiency_partial hch h hc
  obtain ⟨q', k1, k2⟩ := C46_necessity_sufficiency_partial hch' h' hc'
  refine ⟨q, q', n1, k1, ?_, fun hp => ?_, fun hp => ?_⟩
  · rw [n2, k2, ha]
    intro w hw
    simp only [List.mem_cons, List.not_mem_nil, or_false] at hw
    rcases hw with rfl | rfl | rfl
    · exact hnil _ fun v hv => by cases hv
    · exact hone _ hc.falseCause _
    · exact hone _ hc.trueCause _
  · obtain ⟨q2, j1, j2⟩ := C46_necessity_partial hch h hc hp
    obtain ⟨q3, l1, l2⟩ := C46_necessity_partial hch' h' hc' (by rw [hmarg _ hc.trueCause _ hc.trueEffect]; exact hp)
    rw [n1] at j1; injection j1 with j1; subst j1
    rw [k1] at l1; injection l1 with l1; subst l1
    rw [j2, l2, hmarg _ hc.trueCause _ hc.trueEffect, ha]
    intro w hw
    simp only [List.mem_cons, List.not_mem_nil, or_false] at hw
    rcases hw with rfl | rfl
    · exact hnil _ fun v hv => by simpa [Dict.keys] using hv
    · exact hone _ hc.falseCause _
  · obtain ⟨q2, j1, j2⟩ := C46_sufficiency_partial hch h hc hp
    obtain ⟨q3, l1, l2⟩ := C46_sufficiency_partial hch' h' hc' (by rw [hmarg _ hc.falseCause _ hc.falseEffect]; exact hp)
    rw [n1] at j1; injection j1 with j1; subst j1
    rw [k1] at l1; injection l1 with l1; subst l1
    rw [j2, l2, hmarg _ hc.falseCause _ hc.falseEffect, ha]
    intro w hw
    simp only [List.mem_cons, List.not_mem_nil, or_false] at hw
    rcases hw with rfl | rfl
    · exact hnil _ fun v hv => by simpa [Dict.keys] using hv
    · exact hone _ hc.trueCause _

end Props
end Verif
