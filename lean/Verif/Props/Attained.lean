import Verif.Net.Response
import Verif.Net.Clamp
import Verif.Props.Canonical
import Verif.Props.Tian
import Mathlib.Algebra.BigOperators.Group.Finset.Basic

/-!
# What models made of canonical equations can fit (C102)

A model with canonical equations in which each endogenous variable has an exogenous parent of its own can be given exogenous distributions with
which its endogenous variables are distributed as in any network over the endogenous part of its graph, after every intervention, too.  For the
network of the relative frequencies of records this means that the greatest likelihood that `max_log_likelihood` reports is reached by such a
model.
-/

set_option linter.unusedSectionVars false
set_option linter.unusedSimpArgs false

namespace Verif

variable {V S K : Type} [DecidableEq V] [DecidableEq S] [Inhabited S] [Field K] [LinearOrder K] [IsStrictOrderedRing K] {vt : VType}

local notation "II" => (storeOf vt : StoreImpl V S (Fl K))
local notation "LL" => (labelStoreOf vt : LabelStore V S)

namespace Props

/-! ### Specification -/

/-- `B0` is a network over the endogenous variables of `B`: same states, and the endogenous parents. -/
structure OverEndo (B B0 : BN V S K) : Prop where
  valid : B0.Valid
  norm : B0.Normalised
  nonneg : B0.NonNeg
  nodes : B0.nodes = B.inner
  parents : ∀ v ∈ B.inner, ∀ w, w ∈ B0.parents v ↔ w ∈ B.parents v ∧ w ∈ B.inner
  states : ∀ v ∈ B.inner, B0.states v = B.states v

/-- The endogenous variables of `B` are distributed as those of `B0`, after each intervention on them. -/
def SameEffects (B B0 : BN V S K) : Prop :=
  ∀ d : Obs V S, (∀ v ∈ Dict.keys d, v ∈ B.inner) → ∀ W : List V, (∀ w ∈ W, w ∈ B.inner) → ∀ a : V → S, (∀ w ∈ W, a w ∈ B.states w) →
    B.doMarg d W a = B0.doMarg d W a

/-! ### The distribution of the endogenous variables -/

theorem prod_reindex {l k : List V} (hl : l.Nodup) (hk : k.Nodup) {e : V → V} {f g : V → K} (h1 : ∀ x ∈ l, e x ∈ k)
    (h2 : ∀ x ∈ l, ∀ y ∈ l, e x = e y → x = y) (h3 : ∀ y ∈ k, (∀ x ∈ l, e x ≠ y) → g y = 1) (h4 : ∀ x ∈ l, f x = g (e x)) :
    (l.map f).prod = (k.map g).prod := by
  rw [← List.prod_toFinset f hl, ← List.prod_toFinset g hk]
  refine Finset.prod_of_injOn e (fun x hx y hy hxy => ?_) (fun x hx => ?_) (fun y hy hny => ?_) fun x hx => ?_
  · exact h2 x (by simpa using hx) y (by simpa using hy) hxy
  · simpa using h1 x (by simpa using hx)
  · exact h3 y (by simpa using hy) fun x hx hxy => hny ⟨x, by simpa using hx, hxy⟩
  · exact h4 x (by simpa using hx)

theorem sumOver_dom_congr {D D' : V → List S} {xs : List V} (h : ∀ x ∈ xs, D x = D' x) (f : (V → S) → K) (a : V → S) :
    sumOver D xs f a = sumOver D' xs f a := by
  induction xs generalizing a with
  | nil => rfl
  | cons x xs ih =>
    rw [sumOver_cons, sumOver_cons, h x List.mem_cons_self]
    exact congrArg List.sum (List.map_congr_left fun s _ => ih (fun y hy => h y (List.mem_cons_of_mem _ hy)) _)

/-- The joint distribution of the endogenous variables when the exogenous ones give each of them the conditional distribution of `B0`. -/
theorem endo_joint {B B0 : BN V S K} {exo : V → V} (hB : B.Valid) (hx : B.OneExo exo) (hinj : ∀ v ∈ B.inner, ∀ w ∈ B.inner, exo v = exo w → v = w)
    (h0 : OverEndo B B0) (hsum : ∀ x ∈ B.roots, ((B.states x).map fun s => B.table x fun _ => s).sum = 1)
    (hfit : ∀ v ∈ B.inner, ∀ a, B.InStates a →
      ((B.states (exo v)).map fun s => (B.table (exo v) fun _ => s) * B.table v (upd a (exo v) s)).sum = B0.table v a)
    {d : Obs V S} (hd : ∀ v ∈ Dict.keys d, v ∈ B.inner) {a : V → S} (ha : B.InStates a) :
    (B.doBN d).marg B.inner a = (B0.doBN d).joint a := by
  have hi : ∀ {v}, v ∈ B.nodes → v ∉ B.inner → v ∈ B.roots := fun hv hn => (BN.inner_or hv).resolve_right hn
  have hpar : ∀ v, (B.doBN d).parents v = if v ∈ Dict.keys d then [] else B.parents v := fun _ => rfl
  have hsub : ∀ v p, p ∈ (B.doBN d).parents v → v ∉ Dict.keys d ∧ p ∈ B.parents v := fun v p hp => by
    rw [hpar] at hp
    split at hp
    · cases hp
    · exact ⟨by assumption, hp⟩
  rw [C61_decomposes (hB.doBN d) B.inner (fun U hU hn => by
    rw [hpar, (BN.mem_roots.1 (hi hU hn)).2, ite_self]) (fun v hv hvi p hp q hq hpn hqn => by
      have hvd := (hsub v p hp).1
      have e : ∀ p, p ∈ (B.doBN d).parents v → p ∉ B.inner → p = exo v := fun p hp hpn =>
        hx.only v hvi p (hsub v p hp).2 (hi (hB.parents v hv p (hsub v p hp).2) hpn)
      rw [e p hp hpn, e q hq hqn])]
  have hnone : ∀ {v}, v ∉ Dict.keys d → ∀ (C : BN V S K) b, (C.doBN d).table v b = C.table v b := fun {v} hv C b => by
    show (match Dict.get? d v with | some s => if b v = s then 1 else 0 | none => C.table v b) = _
    rw [Dict.get?_eq_none.2 hv]
  have hsome : ∀ {v}, v ∈ Dict.keys d → ∀ b, (B.doBN d).table v b = (B0.doBN d).table v b := fun {v} hv b => by
    obtain ⟨s, hs⟩ := Option.isSome_iff_exists.1 (Dict.get?_isSome.2 hv)
    show (match Dict.get? d v with | some s => if b v = s then 1 else 0 | none => B.table v b) =
      (match Dict.get? d v with | some s => if b v = s then 1 else 0 | none => B0.table v b)
    rw [hs]
  have e0 : (B0.doBN d).joint a = ((B.inner.filter (· ∈ Dict.keys d)).map fun v => (B0.doBN d).table v a).prod *
      ((B.inner.filter (· ∉ Dict.keys d)).map fun v => (B0.doBN d).table v a).prod := by
    rw [BN.joint, ← List.prod_append, ← List.map_append]
    have hp := List.filter_append_perm (fun v => decide (v ∈ Dict.keys d)) B.inner
    have e : (B0.doBN d).nodes = B.inner := h0.nodes
    rw [e, ← (hp.map _).prod_eq]
    simp only [decide_not]
  have hin : B.inner.Nodup := hB.nodes.filter _
  rw [e0]
  congr 1
  · have hp : ((B.doBN d).nodes.filter fun v => v ∈ B.inner ∧ ∀ p ∈ (B.doBN d).parents v, p ∈ B.inner).Perm (B.inner.filter (· ∈ Dict.keys d)) := by
      refine (List.perm_ext_iff_of_nodup ((hB.doBN d).nodes.filter _) (hin.filter _)).2 fun v => ?_
      simp only [List.mem_filter, decide_eq_true_eq]
      constructor
      · rintro ⟨_, hv, hp⟩
        refine ⟨hv, ?_⟩
        by_contra hvd
        obtain ⟨hr, hxp⟩ := hx.mem v hv
        exact BN.not_root (hp (exo v) (by rw [hpar, if_neg hvd]; exact hxp)) hr
      · rintro ⟨hv, hvd⟩
        exact ⟨(BN.mem_inner.1 hv).1, hv, fun p hp => absurd hvd (hsub v p hp).1⟩
    rw [(hp.map _).prod_eq]
    exact congrArg List.prod (List.map_congr_left fun v hv => hsome (by simpa using (List.mem_filter.1 hv).2) a)
  · have hroot : ∀ {U}, U ∈ B.roots → U ∉ Dict.keys d := fun hU hc => BN.not_root (hd _ hc) hU
    refine (prod_reindex (hin.filter _) ((hB.doBN d).nodes.filter _) (e := exo) (fun v hv => ?_) (fun v hv w hw => ?_) (fun U hU hno => ?_) fun v hv => ?_).symm
    · obtain ⟨hr, _⟩ := hx.mem v (List.mem_filter.1 hv).1
      exact List.mem_filter.2 ⟨(BN.mem_roots.1 hr).1, by simpa using fun h => BN.not_root h hr⟩
    · exact hinj v (List.mem_filter.1 hv).1 w (List.mem_filter.1 hw).1
    · obtain ⟨hUn, hUi⟩ := List.mem_filter.1 hU
      have hUr : U ∈ B.roots := hi hUn (by simpa using hUi)
      have hk : (B.doBN d).kids B.inner U = [] := List.eq_nil_iff_forall_not_mem.2 fun v hv => by
        obtain ⟨_, hvi, hvp⟩ := Gradient.mem_kids.1 hv
        obtain ⟨hvd, hvp⟩ := hsub v U hvp
        exact hno v (List.mem_filter.2 ⟨hvi, by simpa using hvd⟩) (hx.only v hvi U hvp hUr).symm
      rw [BN.compLik, hk]
      simp only [List.map_nil, List.prod_nil, mul_one, hnone (hroot hUr)]
      exact hsum U hUr
    · obtain ⟨hvi, hvd⟩ := List.mem_filter.1 hv
      have hvd : v ∉ Dict.keys d := by simpa using hvd
      obtain ⟨hr, hxp⟩ := hx.mem v hvi
      have hk : (B.doBN d).kids B.inner (exo v) = [v] := by
        refine filter_eq_singleton hB.nodes (BN.mem_inner.1 hvi).1 _ fun w hw => ?_
        simp only [decide_eq_true_eq]
        constructor
        · rintro ⟨hwi, hwp⟩
          exact hinj w hwi v hvi (hx.only w hwi _ (hsub w _ hwp).2 hr).symm
        · rintro rfl
          exact ⟨hvi, by rw [hpar, if_neg hvd]; exact hxp⟩
      rw [BN.compLik, hk]
      simp only [List.map_cons, List.map_nil, List.prod_cons, List.prod_nil, mul_one, hnone (hroot hr), hnone hvd]
      exact (hfit v hvi a ha).symm

/-- The same for each set of endogenous variables. -/
theorem same_effects {B B0 : BN V S K} {exo : V → V} (hB : B.Valid) (hx : B.OneExo exo) (hinj : ∀ v ∈ B.inner, ∀ w ∈ B.inner, exo v = exo w → v = w)
    (h0 : OverEndo B B0) (hsum : ∀ x ∈ B.roots, ((B.states x).map fun s => B.table x fun _ => s).sum = 1)
    (hfit : ∀ v ∈ B.inner, ∀ a, B.InStates a →
      ((B.states (exo v)).map fun s => (B.table (exo v) fun _ => s) * B.table v (upd a (exo v) s)).sum = B0.table v a) : SameEffects B B0 := by
  intro d hd W hW a ha
  have hn : ∀ v ∈ B.inner, v ∈ B.nodes := fun v hv => (BN.mem_inner.1 hv).1
  rw [← BN.doMarg_eq (fun v hv => hn v (hd v hv)), ← BN.doMarg_eq (fun v hv => by rw [h0.nodes]; exact hd v hv)]
  have hV := hB.doBN d
  have hV0 := h0.valid.doBN d
  set T := B.inner.filter (· ∉ W) with hT
  have hTn : T.Nodup := (hB.nodes.filter _).filter _
  rw [← hV.sum_marg (T := T) (W := W) (fun t ht => hn t (List.mem_filter.1 ht).1) hTn (fun t ht => by simpa using (List.mem_filter.1 ht).2) a]
  have e : (B0.doBN d).marg W a = sumOver (B.doBN d).states T (B0.doBN d).joint a := by
    have : (B0.doBN d).nodes.filter (· ∉ W) = T := by
      show B0.nodes.filter (· ∉ W) = T
      rw [h0.nodes]
    rw [BN.marg, this]
    exact sumOver_dom_congr (fun t ht => h0.states t (List.mem_filter.1 ht).1) _ _
  rw [e]
  refine sumOver_congr hTn fun b hb1 hb2 => ?_
  have hbi : ∀ v ∈ B.inner, b v ∈ B.states v := fun v hv => by
    by_cases hvW : v ∈ W
    · rw [hb1 v fun hc => by simpa [hvW] using (List.mem_filter.1 hc).2]; exact ha v hvW
    · exact hb2 v (List.mem_filter.2 ⟨hv, by simpa using hvW⟩)
  have hc : ∀ v ∈ B.inner, b v = B.clamp b v := fun v hv => (BN.clamp_of_mem fun _ => hbi v hv).symm
  rw [(B.doBN d).marg_ext (ws := B.inner) (fun v => ?_), hV.marg_dep _ _ _ hc, hV0.joint_dep b (B.clamp b) (fun v hv => hc v (by
    have hv : v ∈ B0.nodes := hv
    rwa [h0.nodes] at hv)), endo_joint hB hx hinj h0 hsum hfit hd (hB.clamp_in b)]
  rw [List.mem_append, hT, List.mem_filter]
  constructor
  · rintro (h | h)
    · exact h.1
    · exact hW v h
  · intro hv
    by_cases hvW : v ∈ W
    · exact .inr hvW
    · exact .inl ⟨hv, by simpa using hvW⟩

/-- **C102** when the states of its exogenous parent enumerate the responses of each endogenous variable, and no exogenous variable has two children,
the exogenous variables can be given distributions with which the endogenous ones are distributed as in any given network over the endogenous part
of the graph, after every intervention. -/
theorem C102_rich {B B0 : BN V S K} {exo : V → V} (hR : B.Rich exo) (hB : B.Valid) (hx : B.OneExo exo)
    (hinj : ∀ v ∈ B.inner, ∀ w ∈ B.inner, exo v = exo w → v = w) (h0 : OverEndo B B0)
    (hn : ∀ v ∈ B.inner, ∀ a, B.InStates a → ((B.states v).map fun s => B.table v (upd a v s)).sum = 1)
    (he : ∀ v ∈ B.inner, ∀ a, B.InStates a → B.table v a = 0 ∨ B.table v a = 1) :
    ∃ θ : V → S → K, (∀ x ∈ B.roots, IsDistr B x (θ x)) ∧ SameEffects (BN.withRoots B B.roots θ) B0 := by
  -- any distribution of the roots, for the moment
  have hs : ∀ x, ∃ s, x ∈ B.nodes → s ∈ B.states x := fun x => by
    by_cases hxn : x ∈ B.nodes
    · obtain ⟨s, hs⟩ := List.exists_mem_of_ne_nil _ (hB.nonempty x hxn)
      exact ⟨s, fun _ => hs⟩
    · exact ⟨default, fun h => absurd h hxn⟩
  choose s0 hs0 using hs
  let θ0 : V → S → K := fun x s => if s = s0 x then 1 else 0
  have hd0 : ∀ x ∈ B.roots, IsDistr B x (θ0 x) := fun x hxr => by
    have hxn := (BN.mem_roots.1 hxr).1
    refine ⟨fun s _ => ?_, ?_⟩
    · show (0 : K) ≤ if s = s0 x then 1 else 0
      split
      · exact zero_le_one
      · exact le_rfl
    · rw [sum_map_single (hB.nodupStates x hxn) (hs0 x hxn) fun t _ ht => if_neg ht]
      exact if_pos rfl
  have ht : ∀ (θ : V → S → K), ∀ v ∈ B.inner, (BN.withRoots B B.roots θ).table v = B.table v := fun θ v hv => if_neg (BN.not_root hv)
  have htr : ∀ (θ : V → S → K), ∀ x ∈ B.roots, ∀ a, (BN.withRoots B B.roots θ).table x a = θ x (a x) := fun θ x hxr a => by
    show (if x ∈ B.roots then fun a => θ x (a x) else B.table x) a = _
    rw [if_pos hxr]
  let N0 := BN.withRoots B B.roots θ0
  have hE : N0.Eqs N0.inner := BN.eqs_inner (withRoots_valid hB _ _) (withRoots_normalised hd0 hn) fun v hv a ha => by
    rw [ht θ0 v hv]; exact he v hv a ha
  have hR0 : N0.Rich exo := fun x hxr r hr => by
    obtain ⟨s, h1, h2⟩ := hR x hxr r fun v hv hvx => ⟨(hr v hv hvx).1, (hr v hv hvx).2⟩
    exact ⟨s, h1, fun v hv hvx a ha hax => by rw [ht θ0 v hv]; exact h2 v hv hvx a ha hax⟩
  have hx0 : N0.OneExo exo := ⟨hx.mem, hx.only⟩
  have h0i : ∀ a, B.InStates a → B0.InStates a := fun a ha v hv => by
    rw [h0.nodes] at hv
    rw [h0.states v hv]; exact ha v (BN.mem_inner.1 hv).1
  have key : ∀ v ∈ B.inner, ∃ θ : S → K, IsDistr B (exo v) θ ∧
      ∀ a, B.InStates a → ((B.states (exo v)).map fun s => θ s * B.table v (upd a (exo v) s)).sum = B0.table v a := by
    intro v hv
    have hv0 : v ∈ B0.nodes := by rw [h0.nodes]; exact hv
    obtain ⟨θ, t0, t1, t2⟩ := hR0.exists_cond hE hx0 hv (fun w hw hwx => hinj w hw v hv hwx) (P := B0.table v)
      (fun a ha => h0.nonneg v hv0 a (h0i a ha)) (fun a ha => by
        have := h0.norm v hv0 a (h0i a ha)
        rw [h0.states v hv] at this; exact this)
      (fun a b hab => h0.valid.scope v hv0 a b fun w hw => hab w (by
        rcases List.mem_cons.1 hw with rfl | hw
        · exact List.mem_cons_self
        · obtain ⟨w1, w2⟩ := (h0.parents v hv w).1 hw
          exact List.mem_cons_of_mem _ (List.mem_filter.2 ⟨w1, decide_eq_true w2⟩)))
    refine ⟨θ, ⟨t0, t1⟩, fun a ha => ?_⟩
    have := t2 a ha
    rw [ht θ0 v hv] at this
    exact this
  choose! θv hθ using key
  have hpick : ∀ x, ∃ θ : S → K, x ∈ B.roots → IsDistr B x θ ∧ ∀ v ∈ B.inner, exo v = x → θ = θv v := fun x => by
    by_cases hc : ∃ v ∈ B.inner, exo v = x
    · obtain ⟨v, hv, rfl⟩ := hc
      exact ⟨θv v, fun _ => ⟨(hθ v hv).1, fun w hw hwx => by rw [hinj w hw v hv hwx]⟩⟩
    · exact ⟨θ0 x, fun hxr => ⟨hd0 x hxr, fun v hv hvx => absurd ⟨v, hv, hvx⟩ hc⟩⟩
  choose θ hθx using hpick
  refine ⟨θ, fun x hxr => (hθx x hxr).1, ?_⟩
  refine same_effects (B := BN.withRoots B B.roots θ) (exo := exo) (withRoots_valid hB _ _) ⟨hx.mem, hx.only⟩ hinj
    ⟨h0.valid, h0.norm, h0.nonneg, h0.nodes, h0.parents, h0.states⟩ (fun x hxr => ?_) fun v hv a ha => ?_
  · rw [← (hθx x hxr).1.2]
    exact congrArg List.sum (List.map_congr_left fun s _ => htr θ x hxr _)
  · rw [← (hθ v hv).2 a ha]
    obtain ⟨hr, _⟩ := hx.mem v hv
    refine congrArg List.sum (List.map_congr_left fun s _ => ?_)
    rw [htr θ _ hr, ht θ v hv, (hθx _ hr).2 v hv rfl]

/-- Without an intervention: the distribution of any of the endogenous variables. -/
theorem SameEffects.marg {B B0 : BN V S K} (h : SameEffects B B0) {W : List V} (hW : ∀ w ∈ W, w ∈ B.inner) {a : V → S}
    (ha : ∀ w ∈ W, a w ∈ B.states w) : B.marg W a = B0.marg W a := by
  have := h [] (by simp [Dict.keys]) W hW a ha
  rw [← BN.doMarg_eq (by simp [Dict.keys]), ← BN.doMarg_eq (by simp [Dict.keys])] at this
  exact this

/-! ### Models made of canonical equations -/

/-- **C102** (partial) a network over the endogenous variables and a graph in which each of them has an exogenous parent of its own: there are
distributions of the exogenous variables with which the model built from the canonical equations has the distribution of the network, before and after
each intervention on endogenous variables.  Missing: the default store, where one of the calls raises (`C101_default_store`). -/
theorem C102_canonical_partial {B B0 : BN V S K} {exo : V → V} {us : V → List S} {dm : V → Dom V S} {pa : V → List V} {g : DiGraph V} (hg : g.WF)
    (hgn : g.nodes = B.nodes) (hgp : ∀ v ∈ B.nodes, ∀ p, p ∈ B.parents v ↔ (p, v) ∈ g.edges) (hB : B.Valid) (h : CanonIn B exo us dm pa)
    (h0 : OverEndo B B0) (hvt : vt ≠ .numpy) (cast check : Bool) :
    ∃ (can : V → DetFactor LL) (θ : V → S → K) (fu : V → Factor II) (m' : SCM II LL) (B' : BN V S K),
      (∀ v ∈ B.inner, canonicalDeterministic LL (dm v) (exo v) (pa v) = .ok (can v)) ∧
      (∀ x ∈ B.roots, (∀ s ∈ us x, 0 ≤ θ x s) ∧ ((us x).map (θ x)).sum = 1 ∧
        Factor.make II [(x, us x)] ((us x).map fun s => .fin (θ x s)) (some [x]) none = .ok (fu x)) ∧
      SCM.ofDict g (B.nodes.map fun v => (v, some (if v ∈ B.roots then .multi (fu v) else .det (can v)))) none cast check = .ok m' ∧
      CausalOk m' B' ∧ B'.NonNeg ∧ BN.SameEndo B B' ∧ (∀ x ∈ B.roots, B'.states x = us x) ∧ SameEffects B' B0 ∧
      m'.base.graph = g ∧ m'.endogenous = SCM.defaultEndo g ∧ m'.cast = cast ∧ m'.Doms B' := by
  obtain ⟨can, C, c1, hs, c3, hCv, hCn, hCe, hR, c8⟩ := h.model (vt := vt) hg hgn hgp hB hvt cast check
  have hi : C.inner = B.inner := hs.inner
  obtain ⟨θ, t1, t3⟩ := C102_rich hR hCv (hs.oneExo h.one) (by rw [hi]; exact h.inj) (B0 := B0)
    ⟨h0.valid, h0.norm, h0.nonneg, by rw [hi]; exact h0.nodes, fun v hv w => by
      rw [hi] at hv ⊢
      rw [hs.parents v (BN.mem_inner.1 hv).1]; exact h0.parents v hv w, fun v hv => by
      rw [hi] at hv
      rw [hs.states v hv]; exact h0.states v hv⟩ hCn hCe
  obtain ⟨fu, m', u1, u2, u3, u4, u5⟩ := c8 θ t1
  refine ⟨can, θ, fu, m', _, c1, fun x hxr => ?_, u2, u3, u4, ⟨hs.nodes, hs.parents, hs.states⟩, c3, t3, u5⟩
  have := t1 x (by rw [hs.roots]; exact hxr)
  rw [IsDistr, c3 x hxr] at this
  exact ⟨this.1, this.2, u1 x hxr⟩

/-! ### The greatest likelihood -/

/-- When each exogenous variable has one child, the decomposition graph is the endogenous graph. -/
theorem markovian_qgraph {g : DiGraph V} (hg : g.WF) {endo order : List V} (ho : TopoOrder (g.endoGraph endo) order)
    (hroot : ∀ e ∈ g.edges, e.2 ∈ endo) (hm : ∀ u x y, u ∉ endo → (u, x) ∈ g.edges → (u, y) ∈ g.edges → x = y) (p x : V) :
    (p, x) ∈ (g.qgraph endo order).edges ↔ (p, x) ∈ g.edges ∧ p ∈ endo := by
  have hn : order.Nodup := ho.perm.nodup_iff.2 (hg.subgraph endo).nodes
  rw [(DiGraph.foldl_qgraph hg endo order).2.2]
  have hE : (p, x) ∈ (g.endoGraph endo).edges ↔ (p, x) ∈ g.edges ∧ p ∈ endo := by
    rw [DiGraph.endoGraph, DiGraph.subgraph, List.mem_filter]
    simp only [Bool.and_eq_true, decide_eq_true_eq]
    exact ⟨fun h => ⟨h.1, h.2.1⟩, fun h => ⟨h.1, h.2, hroot _ h.1⟩⟩
  rw [hE]
  refine ⟨fun h => h.elim id fun he => ?_, .inl⟩
  obtain ⟨c, hc, hce⟩ := List.mem_flatMap.1 he
  obtain ⟨pre, post, h4, h5, _⟩ := DiGraph.mem_compEdges.1 hce
  have one : ∀ y ∈ c, ∀ z ∈ c, y = z := by
    intro y hy z hz
    have key : ∀ w, Relation.ReflTransGen (Confounded g endo) y w → y = w := by
      intro w hw
      induction hw with
      | refl => rfl
      | tail _ hbw ih =>
        obtain ⟨_, _, u, hu, h1, h2⟩ := hbw
        exact ih.trans (hm u _ _ hu h1 h2)
    exact key z (C66_minimal hroot hc hy hz)
  have hin : ∀ y ∈ order.filter (· ∈ c), y ∈ c := fun y hy => by simpa using (List.mem_filter.1 hy).2
  have hxc : x ∈ c := hin x (by rw [h4]; simp)
  rcases h5 with h5 | h5
  · obtain ⟨_, hpe, v, hv, hpv⟩ := DiGraph.mem_outerParents.1 h5
    rw [← one v (hin v hv) x hxc]
    exact ⟨hpv, hpe⟩
  · have hpx : p = x := one p (hin p (by rw [h4]; simp [h5])) x hxc
    have := hn.filter (fun y => decide (y ∈ c))
    rw [h4] at this
    subst hpx
    exact absurd List.mem_cons_self fun hc => (List.nodup_append'.1 this).2.2 h5 hc

/-- The network of the relative frequencies of the endogenous values in records; where the values of the parents do not occur, a state of one's
choice. -/
def freqNet (B : BN V S K) (fr : Frame V S) (s0 : V → S) : BN V S K where
  nodes := B.inner
  parents v := (B.parents v).filter (· ∈ B.inner)
  states := B.states
  table v a := if numRows fr (fun r => AgreesOn r ((B.parents v).filter (· ∈ B.inner)) a) = 0 then (if a v = s0 v then 1 else 0)
    else frequency K fr v ((B.parents v).filter (· ∈ B.inner)) a

theorem agreesOn_congr {r : Rec V S} {T T' : List V} {a b : V → S} (h : ∀ t, t ∈ T ↔ t ∈ T') (hab : ∀ t ∈ T, a t = b t) : AgreesOn r T a ↔ AgreesOn r T' b := by
  constructor
  · intro hr t ht
    have ht' := (h t).2 ht
    rw [← hab t ht']; exact hr t ht'
  · intro hr t ht
    rw [hab t ht]; exact hr t ((h t).1 ht)

theorem frequency_congr {fr : Frame V S} {v : V} {T T' : List V} {a b : V → S} (h : ∀ t, t ∈ T ↔ t ∈ T') (hab : ∀ t ∈ v :: T, a t = b t) :
    frequency K fr v T a = frequency K fr v T' b := by
  have e1 : ∀ r, AgreesOn r (v :: T) a ↔ AgreesOn r (v :: T') b := fun r => agreesOn_congr (fun t => by simp [h t]) hab
  have e2 : ∀ r, AgreesOn r T a ↔ AgreesOn r T' b := fun r => agreesOn_congr h fun t ht => hab t (List.mem_cons_of_mem _ ht)
  simp only [frequency, numRows, e1, e2]

theorem freqNet_ok {B : BN V S K} (hB : B.Valid) {fr : Frame V S} (hfr : CompleteOn B B.inner fr) {s0 : V → S} (hs0 : ∀ v ∈ B.inner, s0 v ∈ B.states v) :
    OverEndo B (freqNet B fr s0) := by
  have hn : ∀ v ∈ B.inner, v ∈ B.nodes := fun v hv => (BN.mem_inner.1 hv).1
  have hpv : ∀ v ∈ B.inner, v ∉ (B.parents v).filter (· ∈ B.inner) := fun v hv h => hB.acyclic v (.single ⟨hn v hv, (List.mem_filter.1 h).1⟩)
  refine ⟨⟨hB.nodes.filter _, fun v _ w hw => of_decide_eq_true (List.mem_filter.1 hw).2, fun v hv => ?_, fun v hv => hB.nodupStates v (hn v hv),
    fun v hv => hB.nonempty v (hn v hv), fun v _ a b hab => ?_⟩, fun v hv a ha => ?_, fun v _ a _ => ?_, rfl, fun v _ w => by
      show w ∈ (B.parents v).filter (· ∈ B.inner) ↔ _
      simp [List.mem_filter], fun _ _ => rfl⟩
  · exact hB.acyclic v (Relation.TransGen.mono (fun x y hxy => ⟨hn y hxy.1, (List.mem_filter.1 hxy.2).1⟩) _ _ hv)
  · show (if numRows fr (fun r => AgreesOn r ((B.parents v).filter (· ∈ B.inner)) a) = 0 then (if a v = s0 v then (1 : K) else 0) else _) = if _ then _ else _
    have e2 : ∀ r, AgreesOn r ((B.parents v).filter (· ∈ B.inner)) a ↔ AgreesOn r ((B.parents v).filter (· ∈ B.inner)) b := fun r =>
      agreesOn_congr (fun _ => Iff.rfl) fun t ht => hab t (List.mem_cons_of_mem _ ht)
    rw [frequency_congr (T' := (B.parents v).filter (· ∈ B.inner)) (fun _ => Iff.rfl) hab, hab v List.mem_cons_self]
    have hnum : numRows fr (fun r => AgreesOn r ((B.parents v).filter (· ∈ B.inner)) a) = numRows fr (fun r => AgreesOn r ((B.parents v).filter (· ∈ B.inner)) b) := by
      simp only [numRows, e2]
    rw [hnum]
  · set P := (B.parents v).filter (· ∈ B.inner) with hP
    have hv : v ∈ B.inner := hv
    have hag : ∀ (r : Rec V S) s, AgreesOn r P (upd a v s) ↔ AgreesOn r P a := fun r s => agreesOn_congr (fun _ => Iff.rfl) fun t ht =>
      upd_ne _ _ fun e => hpv v hv (e ▸ ht : v ∈ P)
    show ((B.states v).map fun s => if numRows fr (fun r => AgreesOn r P (upd a v s)) = 0 then (if upd a v s v = s0 v then (1 : K) else 0)
      else frequency K fr v P (upd a v s)).sum = 1
    simp only [numRows, hag, upd_same]
    by_cases hz : (fr.rows.filter fun r => AgreesOn r P a).length = 0
    · simp only [hz, if_true]
      rw [sum_map_single (hB.nodupStates v (hn v hv)) (hs0 v hv) fun t _ ht => if_neg ht, if_pos rfl]
    · simp only [hz, if_false, frequency, numRows, hag]
      have e : (B.states v).map (fun s => (((fr.rows.filter fun r => AgreesOn r (v :: P) (upd a v s)).length : ℕ) : K) / ((fr.rows.filter fun r => AgreesOn r P a).length : ℕ)) =
          (B.states v).map (fun s => (((fr.rows.countP fun r => decide (AgreesOn r (v :: P) (upd a v s))) : ℕ) : K) * ((fr.rows.filter fun r => AgreesOn r P a).length : K)⁻¹) := by
        refine List.map_congr_left fun s _ => ?_
        rw [div_eq_mul_inv, List.countP_eq_length_filter]
      rw [e, List.sum_map_mul_right]
      have hiff : ∀ (r : Rec V S) s, AgreesOn r (v :: P) (upd a v s) ↔ (v, some s) ∈ r ∧ AgreesOn r P a := fun r s => by
        rw [AgreesOn, List.forall_mem_cons, upd_same]
        exact and_congr_right fun _ => hag r s
      have hc := sum_countP fr.rows (B.states v) (fun r s => decide (AgreesOn r (v :: P) (upd a v s))) (hB.nodupStates v (hn v hv)) (fun r hr s _ t _ h1 h2 => by
        have h1 := ((hiff r s).1 (of_decide_eq_true h1)).1
        have h2 := ((hiff r t).1 (of_decide_eq_true h2)).1
        rw [mem_iff_val hfr.wf.nodup (hfr.wf.keys r hr)] at h1 h2
        rw [h1] at h2
        exact Option.some_inj.1 h2)
      have hc2 : (fr.rows.countP fun r => (B.states v).any fun s => decide (AgreesOn r (v :: P) (upd a v s))) = (fr.rows.filter fun r => AgreesOn r P a).length := by
        rw [← List.countP_eq_length_filter]
        refine List.countP_congr fun r hr => ?_
        simp only [List.any_eq_true, decide_eq_true_eq, hiff]
        constructor
        · rintro ⟨s, _, _, h⟩; exact h
        · intro h
          obtain ⟨q1, q2⟩ := hfr.states r hr v hv
          exact ⟨_, q1, q2, h⟩
      rw [hc2] at hc
      have hc3 : ((B.states v).map fun s => (((fr.rows.countP fun r => decide (AgreesOn r (v :: P) (upd a v s))) : ℕ) : K)).sum = ((fr.rows.filter fun r => AgreesOn r P a).length : K) := by
        rw [← hc, Nat.cast_list_sum, List.map_map]
        rfl
      rw [hc3]
      exact mul_inv_cancel₀ (Nat.cast_ne_zero.2 hz)
  · show 0 ≤ if numRows fr (fun r => AgreesOn r ((B.parents v).filter (· ∈ B.inner)) a) = 0 then (if a v = s0 v then (1 : K) else 0) else _
    split
    · split
      · exact zero_le_one
      · exact le_rfl
    · exact div_nonneg (Nat.cast_nonneg _) (Nat.cast_nonneg _)

theorem log_prod {R : Type} [Field R] [LinearOrder R] {log : K → R} (hlog : ∀ x y, 0 < x → 0 < y → log (x * y) = log x + log y) (l : List V) (f : V → K)
    (hf : ∀ v ∈ l, 0 < f v) : 0 < (l.map f).prod ∧ log (l.map f).prod = (l.map fun v => log (f v)).sum := by
  induction l with
  | nil =>
    have := hlog 1 1 one_pos one_pos
    rw [mul_one] at this
    exact ⟨one_pos, left_eq_add.1 this⟩
  | cons v l ih =>
    obtain ⟨i1, i2⟩ := ih fun w hw => hf w (List.mem_cons_of_mem _ hw)
    have hv := hf v List.mem_cons_self
    refine ⟨by simpa using mul_pos hv i1, ?_⟩
    rw [List.map_cons, List.prod_cons, hlog _ _ hv i1, i2, List.map_cons, List.sum_cons]

/-- **C102** (partial) the greatest likelihood is reached: for all complete records there are distributions of the exogenous variables with which
`log_likelihood` of the model built from the canonical equations is what `max_log_likelihood` returns.  Missing: the default store. -/
theorem C102_likelihood_partial {R : Type} [Field R] [LinearOrder R] {log : K → R} (hlog : ∀ x y, 0 < x → 0 < y → log (x * y) = log x + log y)
    {B : BN V S K} {exo : V → V} {us : V → List S} {dm : V → Dom V S} {pa : V → List V} {g : DiGraph V} (hg : g.WF)
    (hgn : g.nodes = B.nodes) (hgp : ∀ v ∈ B.nodes, ∀ p, p ∈ B.parents v ↔ (p, v) ∈ g.edges) (hB : B.Valid) (h : CanonIn B exo us dm pa)
    (hvt : vt ≠ .numpy) (check : Bool) {fr : Frame V S} (hfr : CompleteOn B B.inner fr) (hne : fr.rows ≠ []) :
    ∃ (can : V → DetFactor LL) (θ : V → S → K) (fu : V → Factor II) (m' : SCM II LL) (B' : BN V S K),
      (∀ v ∈ B.inner, canonicalDeterministic LL (dm v) (exo v) (pa v) = .ok (can v)) ∧
      (∀ x ∈ B.roots, (∀ s ∈ us x, 0 ≤ θ x s) ∧ ((us x).map (θ x)).sum = 1 ∧
        Factor.make II [(x, us x)] ((us x).map fun s => .fin (θ x s)) (some [x]) none = .ok (fu x)) ∧
      SCM.ofDict g (B.nodes.map fun v => (v, some (if v ∈ B.roots then .multi (fu v) else .det (can v)))) none true check = .ok m' ∧
      CausalOk m' B' ∧ B'.NonNeg ∧ BN.SameEndo B B' ∧ (∀ x ∈ B.roots, B'.states x = us x) ∧
      ∀ order, TopoOrder (g.endoGraph m'.endogenous) order → ∀ (ch : Choices V), ch.Ok → ∀ (N : NanName S) (setOrd : List V → List V) (pop pop1 : List V → V),
        PyChoices setOrd pop → (∀ c, c ≠ [] → pop1 c ∈ c) →
        ∃ x, m'.logLikelihood log ch pop1 (m'.qgraph order) fr [] = .ok (.fin x) ∧
          m'.maxLogLikelihood log N setOrd pop (m'.qgraph order) fr [] = .ok (.fin x) := by
  have hn : ∀ v ∈ B.inner, v ∈ B.nodes := fun v hv => (BN.mem_inner.1 hv).1
  have hs : ∀ v, ∃ s, v ∈ B.inner → s ∈ B.states v := fun v => by
    by_cases hv : v ∈ B.inner
    · obtain ⟨s, hs⟩ := List.exists_mem_of_ne_nil _ (hB.nonempty v (hn v hv))
      exact ⟨s, fun _ => hs⟩
    · exact ⟨default, fun h => absurd h hv⟩
  choose s0 hs0 using hs
  obtain ⟨can, θ, fu, m', B', c1, c2, c3, c4, c5, c6, c7, c8, c9, c10, c11, c12⟩ := C102_canonical_partial (vt := vt) hg hgn hgp hB h (freqNet_ok hB hfr hs0) hvt true check
  refine ⟨can, θ, fu, m', B', c1, c2, c3, c4, c5, c6, c7, fun order ho ch hch N setOrd pop pop1 hpy hpop1 => ?_⟩
  have hend : ∀ v, v ∈ m'.endogenous ↔ v ∈ B.inner := fun v => by
    rw [c10, SCM.mem_defaultEndo hg]
    constructor
    · rintro ⟨p, hp⟩
      have hv : v ∈ B.nodes := hgn ▸ (hg.ends _ hp).2
      exact BN.mem_inner.2 ⟨hv, List.ne_nil_of_mem ((hgp v hv p).2 hp)⟩
    · intro hv
      obtain ⟨hv1, hv2⟩ := BN.mem_inner.1 hv
      obtain ⟨p, hp⟩ := List.exists_mem_of_ne_nil _ hv2
      exact ⟨p, (hgp v hv1 p).1 hp⟩
  have hi : B'.inner = B.inner := c6.inner
  have hedge : ∀ e ∈ g.edges, e.2 ∈ m'.endogenous := fun e he => by rw [c10, SCM.mem_defaultEndo hg]; exact ⟨e.1, he⟩
  have hmark : ∀ u x y, u ∉ m'.endogenous → (u, x) ∈ g.edges → (u, y) ∈ g.edges → x = y := by
    intro u x y hu h1 h2
    have key : ∀ x, (u, x) ∈ g.edges → x ∈ B.inner ∧ exo x = u := fun x hx => by
      have hxi := (hend x).1 (hedge _ hx)
      have hup := (hgp x (hn x hxi) u).2 hx
      have hur : u ∈ B.roots := (BN.inner_or (hgn ▸ (hg.ends _ hx).1)).resolve_right fun hc => hu ((hend u).2 hc)
      exact ⟨hxi, (h.one.only x hxi u hup hur).symm⟩
    exact h.inj x (key x h1).1 y (key y h2).1 ((key x h1).2.trans (key y h2).2.symm)
  have hq : m'.qgraph order = g.qgraph m'.endogenous order := by rw [SCM.qgraph, c9]
  have hQ : QSetting m' B' order := ⟨c9 ▸ hg, by rw [c9, hgn, c6.nodes], by rw [c9]; exact ho, by
    rw [hq]; exact C67_markovian_partial hg ho hedge hmark, fun v hv hve => by
    have hvi := (hend v).1 hve
    obtain ⟨hr, hxp⟩ := h.one.mem v hvi
    refine ⟨exo v, fun hc => BN.not_root ((hend _).1 hc) hr, ?_⟩
    rw [c9]; exact (hgp v (hn v hvi) _).1 hxp⟩
  have hqn : ∀ v, v ∈ (m'.qgraph order).nodes ↔ v ∈ B.inner := fun v => by
    rw [hQ.mem_nodes, hend, c6.nodes]
    exact ⟨fun h => h.2, fun h => ⟨hn v h, h⟩⟩
  have hpred : ∀ v ∈ B.inner, ∀ p, p ∈ (m'.qgraph order).pred v ↔ p ∈ (B.parents v).filter (· ∈ B.inner) := fun v hv p => by
    rw [DiGraph.mem_pred, hq, markovian_qgraph hg ho hedge hmark, ← hgp v (hn v hv) p, hend, List.mem_filter, decide_eq_true_eq]
  have hfr' : CompleteOn B' (m'.qgraph order).nodes fr := ⟨hfr.wf, fun v hv => hfr.cols v ((hqn v).1 hv), fun r hr v hv => by
    have hv := (hqn v).1 hv
    rw [c6.states v hv]; exact hfr.states r hr v hv⟩
  have hmulti : m'.Multi := fun v f hf => by
    have hvn : v ∈ B'.nodes := by
      rw [← c4.rep.nodes, ← c4.rep.keys]; exact Dict.mem_keys_of_mem (Dict.mem_of_get? hf)
    rcases BN.inner_or hvn with hr | hvi
    · exact c4.rootTables v hr f hf
    · exact c4.rep.casted c11 v ((hend v).2 (by rw [← hi]; exact hvi)) f hf
  -- the probability of a record
  have hpos : ∀ r ∈ fr.rows, ∀ v ∈ B.inner, 0 < numRows fr (fun r' => AgreesOn r' ((B.parents v).filter (· ∈ B.inner)) (Rec.asg r)) ∧
      0 < frequency K fr v ((B.parents v).filter (· ∈ B.inner)) (Rec.asg r) := by
    intro r hr v hv
    have pos : ∀ C : List V, (∀ w ∈ C, w ∈ B.inner) → 0 < numRows fr fun r' => AgreesOn r' C (Rec.asg r) := fun C hC =>
      List.length_pos_iff.2 (List.ne_nil_of_mem (List.mem_filter.2 ⟨hr, decide_eq_true fun t ht => (hfr.states r hr t (hC t ht)).2⟩))
    have h1 := pos ((B.parents v).filter (· ∈ B.inner)) fun w hw => by simpa using (List.mem_filter.1 hw).2
    refine ⟨h1, div_pos (Nat.cast_pos.2 (pos _ fun w hw => ?_)) (Nat.cast_pos.2 h1)⟩
    rcases List.mem_cons.1 hw with rfl | hw
    · exact hv
    · simpa using (List.mem_filter.1 hw).2
  have hprob : ∀ r ∈ fr.rows, B'.marg m'.endogenous (Rec.asg r) =
      ((m'.qgraph order).nodes.map fun v => frequency K fr v ((B.parents v).filter (· ∈ B.inner)) (Rec.asg r)).prod := by
    intro r hr
    rw [hQ.marg_endo, B'.marg_ext (ws := B.inner) hqn, c8.marg (W := B.inner) (fun w hw => by rw [hi]; exact hw) fun w hw => by
      rw [c6.states w hw]; exact (hfr.states r hr w hw).1]
    have e : (freqNet B fr s0).nodes.filter (· ∉ B.inner) = [] := List.filter_eq_nil_iff.2 fun v hv => by
      have hv : v ∈ B.inner := hv
      simp [hv]
    rw [BN.marg, e, sumOver_nil, BN.joint]
    have hp : B.inner.Perm (m'.qgraph order).nodes := (List.perm_ext_iff_of_nodup (hB.nodes.filter _) hQ.qwf.nodes).2 fun v => (hqn v).symm
    rw [← (hp.map _).prod_eq]
    refine congrArg List.prod (List.map_congr_left fun v hv => ?_)
    exact if_neg (hpos r hr v hv).1.ne'
  have hlp := fun r hr => log_prod hlog (m'.qgraph order).nodes (fun v => frequency K fr v ((B.parents v).filter (· ∈ B.inner)) (Rec.asg r))
    fun v hv => (hpos r hr v ((hqn v).1 hv)).2
  refine ⟨_, C77_log_likelihood hlog hch hpop1 hQ (fun e he _ => by rw [c9] at he; exact hedge e he) (c4.rep.represents hmulti) c4.valid c4.norm c5 hfr'
    (fun r hr => by rw [hprob r hr]; exact (hlp r hr).1), ?_⟩
  rw [C49_empirical log N hpy hQ c4.valid c12 hfr' hne (vs := []) (by simp), show usedVars (m'.qgraph order) [] = (m'.qgraph order).nodes from rfl,
    recordsLik, ← sum_swap]
  congr 2
  refine congrArg List.sum (List.map_congr_left fun r hr => ?_)
  rw [hprob r hr, (hlp r hr).2]
  refine congrArg List.sum (List.map_congr_left fun v hv => ?_)
  exact congrArg log (frequency_congr (hpred v ((hqn v).1 hv)) fun _ _ => rfl)

end Props
end Verif
