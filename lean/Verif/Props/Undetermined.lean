import Verif.Net.Bow
import Verif.Props.Effect
import Verif.Props.BuildNet

/-!
# C104: effects of variables that share an unobserved cause with a child are not determined by observations

With C103: the effects of one variable are determined by what is observed exactly when it is not connected with a child by a chain of shared exogenous variables.
-/

set_option linter.unusedSectionVars false
set_option linter.unusedSimpArgs false

namespace Verif
open Relation Causal

namespace Props

section
variable {V S K : Type} [DecidableEq V] [DecidableEq S] [Inhabited S] [Field K] [LinearOrder K] [IsStrictOrderedRing K] {vt : VType}

local notation "II" => (storeOf vt : StoreImpl V S (Fl K))
local notation "LL" => (labelStoreOf vt : LabelStore V S)

/-- The constructors called with the tables of a network: one factor for each node, its values listed in row-major order of the domain `d v`, then the
causal model (`cmodel.py:148-156`). -/
noncomputable def buildScm (vt : VType) (B : BN V S K) (g : DiGraph V) (d : V → Dom V S) (cast check : Bool) :
    Py (SCM (storeOf vt : StoreImpl V S (Fl K)) (labelStoreOf vt : LabelStore V S)) := do
  let fs ← B.nodes.mapM fun v => Factor.make (storeOf vt) (d v) (tableValues B v (d v)) (some [v]) none
  SCM.ofList g (fs.map fun f => some (.multi f)) none cast check

theorem domOf_ok {B : BN V S K} (hB : B.Valid) {v : V} (hv : v ∈ B.nodes) : TableDom B v (domOf B v) := by
  have hvp : v ∉ B.parents v := fun hp => hB.acyclic v (.single ⟨hv, hp⟩)
  have hk : Dict.keys (domOf B v) = v :: (B.parents v).dedup := by simp [domOf, Dict.keys, Function.comp_def]
  refine ⟨?_, fun w => ?_, fun p hp => ?_⟩
  · rw [hk]; exact List.nodup_cons.2 ⟨by simpa using hvp, List.nodup_dedup _⟩
  · rw [hk]; simp
  · rcases List.mem_cons.1 hp with rfl | hp
    · rfl
    · obtain ⟨q, _, rfl⟩ := List.mem_map.1 hp
      rfl

/-- **C93** every network whose nodes with parents are functions of them is represented by a causal model that the constructors return. -/
theorem C93_causal_build {N : BN V S K} (hN : N.Valid) (hn : N.Normalised) (he : ∀ v ∈ N.inner, ∀ a, N.InStates a → N.table v a = 0 ∨ N.table v a = 1)
    {g : DiGraph V} (hg : g.WF) (hgn : g.nodes = N.nodes) (hgp : ∀ v ∈ N.nodes, ∀ p, p ∈ N.parents v ↔ (p, v) ∈ g.edges)
    {d : V → Dom V S} (hd : ∀ v ∈ N.nodes, TableDom N v (d v)) (cast check : Bool) :
    ∃ m, buildScm vt N g d cast check = .ok m ∧ m.base.graph = g ∧ m.endogenous = SCM.defaultEndo g ∧ CausalOk m N := by
  have hI := storeOf_lawful (V := V) (S := S) (α := Fl K) vt
  haveI : Nonempty (Factor II) := by
    obtain ⟨f, _⟩ := Factor.make_ok hI (d := []) (values := [default]) (left := none) (right := none) ⟨by simp, by simp, by simp⟩ rfl rfl
    exact ⟨f⟩
  choose! fac hfac using fun v (hv : v ∈ N.nodes) => table_factor hI hN hv (hd v hv)
  have hac : g.Acyclic := by
    intro v hv
    refine hN.acyclic v (Relation.TransGen.mono (fun a b hab => ?_) _ _ hv)
    have hb : b ∈ N.nodes := hgn ▸ (hg.ends _ hab).2
    exact ⟨hb, (hgp b hb a).2 hab⟩
  have hendo : ∀ v ∈ SCM.endoOr g none, v ∈ N.inner := fun v hv => by
    obtain ⟨p, hp⟩ := (SCM.mem_defaultEndo hg).1 hv
    have hvn : v ∈ N.nodes := hgn ▸ (hg.ends _ hp).2
    exact BN.mem_inner.2 ⟨hvn, List.ne_nil_of_mem ((hgp v hvn p).2 hp)⟩
  have ht : ∀ v ∈ N.nodes, AnyTable N v (.multi (fac v) : AnyFactor II LL) := fun v hv => (hfac v hv).2.2.2
  have hprep : ∀ v ∈ N.nodes, _ := fun v hv => AnyTable.prepare hN hv (ht v hv) (endo := SCM.endoOr g none) (fun hve => he v (hendo v hve)) cast check
  have hp4 : ∀ v ∈ N.nodes, SCM.prep (SCM.endoOr g none) cast check v (.multi (fac v) : AnyFactor II LL) = .multi (fac v) := fun v hv =>
    (hprep v hv).2.2.2 fun _ _ => rfl
  have hl : ∀ p ∈ N.nodes.map fun v => (v, (.multi (fac v) : AnyFactor II LL)), p.1 ∈ N.nodes ∧ p.2 = .multi (fac p.1) := fun p hp => by
    obtain ⟨v, hv, rfl⟩ := List.mem_map.1 hp
    exact ⟨hv, rfl⟩
  have hk : Dict.keys (N.nodes.map fun v => (v, (.multi (fac v) : AnyFactor II LL))) = N.nodes := by
    rw [Dict.keys, List.map_map]; exact List.map_id _
  have hof := SCM.ofList_fits hg hac (D := N.states) none (cast := cast) (check := check) (N.nodes.map fun v => (v, (.multi (fac v) : AnyFactor II LL)))
    (fun p hp => by
      obtain ⟨e1, e2⟩ := hl p hp
      rw [e2]; exact (hfac _ e1).2.1)
    (fun p hp => by
      obtain ⟨e1, e2⟩ := hl p hp
      rw [e2]; exact (hprep _ e1).1)
    (fun p hp => by
      obtain ⟨e1, e2⟩ := hl p hp
      rw [e2]
      exact (hprep _ e1).2.1.fits (hgn ▸ e1) (hgp _ e1)) (by rw [hk]; exact hN.nodes)
  have hsame : ((N.nodes.map fun v => (v, (.multi (fac v) : AnyFactor II LL))).map fun p => (p.1, SCM.prep (SCM.endoOr g none) cast check p.1 p.2)) =
      N.nodes.map fun v => (v, (.multi (fac v) : AnyFactor II LL)) := by
    rw [List.map_map]
    refine List.map_congr_left fun v hv => ?_
    show (v, SCM.prep _ cast check v (.multi (fac v))) = _
    rw [hp4 v hv]
  rw [hsame] at hof
  refine ⟨⟨DagModel.after g N.states check (N.nodes.map fun v => (v, (.multi (fac v) : AnyFactor II LL))), SCM.endoOr g none, cast⟩, ?_, rfl, rfl, ?_, hN, hn, he, fun v hv f hf => ?_⟩
  · rw [buildScm, mapM_ok fun v hv => (hfac v hv).1, py_ok_bind, List.map_map]
    rw [List.map_map] at hof
    exact hof
  · refine SCM.rep_after hN hg hgn hgp (by rw [hk]) (fun p hp => ?_) (fun v hv _ => he v (hendo v hv)) (fun _ p hp _ => ?_) fun he' => ?_
    · obtain ⟨e1, e2⟩ := hl p hp
      rw [e2]; exact ht _ e1
    · obtain ⟨_, e2⟩ := hl p hp
      rw [e2]; rfl
    · by_contra hne
      obtain ⟨e, hemem⟩ := List.exists_mem_of_ne_nil _ hne
      have : e.2 ∈ SCM.endoOr g none := (SCM.mem_defaultEndo hg).2 ⟨e.1, hemem⟩
      rw [he'] at this; cases this
  · have hvn : v ∈ N.nodes := (BN.mem_roots.1 hv).1
    have hf : Dict.get? (g.nodes.map fun v => (v, Dict.get? (N.nodes.map fun v => (v, (.multi (fac v) : AnyFactor II LL))) v)) v = some (some f) := hf
    rw [Dict.get?_map, if_pos (by rw [hgn]; exact hvn), Dict.get?_of_mem (v := (.multi (fac v) : AnyFactor II LL)) (by rw [hk]; exact hN.nodes)
      (List.mem_map.2 ⟨v, hvn, rfl⟩)] at hf
    injection hf with hf
    injection hf with hf
    rw [← hf]; rfl

/-- The value that a causal query without evidence returns for given states of the targets -/
theorem query_effect {ch : Choices V} (hch : ch.Ok) {m : SCM II LL} {B : BN V S K} (h : CausalOk m B) {T : List V} {d : Obs V S} (hT : T ≠ []) (hTn : T.Nodup)
    (hTv : ∀ t ∈ T, t ∈ B.nodes ∧ t ∉ Dict.keys d) (hd : EvOk B d) {a : V → S} (ha : ∀ t ∈ T, a t ∈ B.states t) :
    ∃ q r, Causal.new m = .ok q ∧ Causal.causalQuery ch q T d none = .ok r ∧ FullObs r.dom (T.map fun t => (t, a t)) ∧
      r.getValue (T.map fun t => (t, a t)) = .ok (.fin (B.doMarg d T a)) := by
  have hdn : B.DoOk d := fun v s hs _ => hd.states v s hs
  have h1 : B.doMarg d [] (asg []) = 1 := by
    rw [← BN.doMarg_eq hd.nodes]; exact BN.marg_nil (h.valid.doBN d) (h.norm.doBN h.valid hdn) _
  obtain ⟨q, r, n1, n2, _, n4, n5, _, n7⟩ := C42_interventional hch h (ev := []) (e := none) hT hTn (fun t ht => ⟨(hTv t ht).1, by simp [Dict.keys], (hTv t ht).2⟩) hd
    ⟨by simp [Dict.keys], by simp [Dict.keys], fun v s hs => by cases hs⟩ rfl (by
      show B.doMarg d [] (asg []) ≠ 0
      rw [h1]; exact one_ne_zero)
  have hg : ∀ t ∈ T, Dict.get? (T.map fun t => (t, a t)) t = some (a t) := fun t ht => Gradient.get?_map_pair T a ht
  have hfo : FullObs r.dom (T.map fun t => (t, a t)) := fun p hp => by
    have ht : p.1 ∈ T := (n5 p.1).1 (Dict.mem_keys_of_mem hp)
    exact ⟨a p.1, by rw [n4 p hp]; exact ha _ ht, hg _ ht⟩
  refine ⟨q, r, n1, n2, hfo, ?_⟩
  have h1' : B.doMarg d (Dict.keys ([] : Obs V S)) (asg []) = 1 := h1
  rw [n7 _ hfo, h1', div_one, show T ++ Dict.keys ([] : Obs V S) = T from List.append_nil T, List.nil_append]
  congr 2
  exact doMarg_dep_on h.valid hd.nodes T fun v hv => over_of_get? (hg v hv)

end

/-! ### Specification -/

/-- Causal models with the graph `g` that have the same endogenous variables and the same positive distribution of them answer every query with an imposed state of
`x` alike. -/
def Determined {V : Type} [DecidableEq V] (vt : VType) (S K : Type) [DecidableEq S] [Inhabited S] [Field K] [LinearOrder K] [IsStrictOrderedRing K]
    (ch ch' : Choices V) (g : DiGraph V) (x : V) : Prop :=
  ∀ (m m' : SCM (storeOf vt : StoreImpl V S (Fl K)) (labelStoreOf vt : LabelStore V S)) (B B' : BN V S K),
    m.base.graph = g → m'.base.graph = g → CausalOk m B → CausalOk m' B' → B.NonNeg → B'.NonNeg → BN.SameEndo B B' →
    (∀ a, (∀ v ∈ B.inner, a v ∈ B.states v) → B'.marg B.inner a = B.marg B.inner a ∧ 0 < B.marg B.inner a) →
    ∀ (T : List V) (s : S), T ≠ [] → T.Nodup → (∀ t ∈ T, t ∈ B.inner ∧ t ≠ x) → s ∈ B.states x →
      ∃ q q' r r', Causal.new m = .ok q ∧ Causal.new m' = .ok q' ∧ Causal.causalQuery ch q T [(x, s)] none = .ok r ∧
        Causal.causalQuery ch' q' T [(x, s)] none = .ok r' ∧ ∀ obs, FullObs r.dom obs → FullObs r'.dom obs ∧ r'.getValue obs = r.getValue obs

/-! ### Undetermined effects -/

section
variable {V : Type} [DecidableEq V]

/-- **C104** if `x` is connected with one of its children by a chain of shared exogenous variables there are two causal models with this graph, which the
constructors accept, with the same endogenous variables and the same positive distribution of them, and a query with an imposed state of `x` to which they give
different answers. -/
theorem C104_undetermined (vt : VType) (K : Type) [Field K] [LinearOrder K] [IsStrictOrderedRing K] {g : DiGraph V} (hg : g.WF) (ha : g.Acyclic)
    {x : V} (hx : x ∈ SCM.defaultEndo g) (hu : ¬ Unconfounded g (SCM.defaultEndo g) [x]) (cast check : Bool) :
    ∃ (B B' : BN V (Bool × Bool) K) (m m' : SCM (storeOf vt : StoreImpl V (Bool × Bool) (Fl K)) (labelStoreOf vt : LabelStore V (Bool × Bool))),
      buildScm vt B g (domOf B) cast check = .ok m ∧ buildScm vt B' g (domOf B') cast check = .ok m' ∧ m.base.graph = g ∧ m'.base.graph = g ∧
      CausalOk m B ∧ CausalOk m' B' ∧ B.NonNeg ∧ B'.NonNeg ∧ BN.SameEndo B B' ∧
      (∀ a, (∀ v ∈ B.inner, a v ∈ B.states v) → B'.marg B.inner a = B.marg B.inner a ∧ 0 < B.marg B.inner a) ∧
      ∃ (T : List V) (s : Bool × Bool) (obs : Obs V (Bool × Bool)), T ≠ [] ∧ T.Nodup ∧ (∀ t ∈ T, t ∈ B.inner ∧ t ≠ x) ∧ s ∈ B.states x ∧
        ∀ ch : Choices V, ch.Ok → ∀ ch' : Choices V, ch'.Ok → ∃ q q' r r', Causal.new m = .ok q ∧ Causal.new m' = .ok q' ∧
          Causal.causalQuery ch q T [(x, s)] none = .ok r ∧ Causal.causalQuery ch' q' T [(x, s)] none = .ok r' ∧
          FullObs r.dom obs ∧ FullObs r'.dom obs ∧ r'.getValue obs ≠ r.getValue obs := by
  have hmem : ∀ v, v ∈ SCM.defaultEndo g ↔ g.pred v ≠ [] := fun v => by
    rw [SCM.mem_defaultEndo hg]
    exact ⟨fun ⟨p, hp⟩ => List.ne_nil_of_mem (DiGraph.mem_pred.2 hp), fun hn => by
      obtain ⟨p, hp⟩ := List.exists_mem_of_ne_nil _ hn
      exact ⟨p, DiGraph.mem_pred.1 hp⟩⟩
  rw [Unconfounded] at hu
  push Not at hu
  obtain ⟨x', hx', z, hxz, hzx, hr⟩ := hu
  rw [List.mem_singleton.1 hx'] at hxz hr
  have hzx : z ≠ x := by simpa using hzx
  obtain ⟨n, w, u, c1, c2, c3, c4, c5⟩ := chain_exists (g := g) (endo := SCM.defaultEndo g) (R := Confounded g (SCM.defaultEndo g))
    (fun a b hab => ⟨hab.2.1, hab.2.2⟩) hx hr
  have hb : Bow g n w u := by
    refine ⟨hg, ha, c1.left, c1.right, fun k hk => ?_, ?_, by rw [c2, c3]; exact hxz, c4, c5⟩
    · by_contra hc
      exact c1.exo k hk ((hmem _).2 hc)
    · rcases Nat.eq_zero_or_pos n with h0 | h0
      · subst h0
        exact absurd (c3.symm.trans c2) hzx
      · exact h0
  have hin : ∀ m v, v ∈ (bowNet K m g n w u).inner ↔ g.pred v ≠ [] := fun m v => by
    rw [BN.mem_inner]
    exact ⟨fun h => h.2, fun h => ⟨by
      obtain ⟨p, hp⟩ := List.exists_mem_of_ne_nil _ h
      exact (hg.ends _ (DiGraph.mem_pred.1 hp)).2, h⟩⟩
  have hbuild : ∀ m, _ := fun m => C93_causal_build (vt := vt) (N := bowNet K m g n w u) hb.valid hb.normalised (fun v hv a _ => hb.equations ((hin m v).1 hv) a)
    hg rfl (fun v _ p => DiGraph.mem_pred) (d := domOf (bowNet K m g n w u)) (fun v hv => domOf_ok hb.valid hv) cast check
  obtain ⟨m1, m2, m3, _, m5⟩ := hbuild false
  obtain ⟨k1, k2, k3, _, k5⟩ := hbuild true
  set B := bowNet K false g n w u with hB
  set B' := bowNet K true g n w u with hB'
  have hT : ∀ v, v ∈ B.inner.filter (· ≠ x) ↔ g.pred v ≠ [] ∧ v ≠ w 0 := fun v => by
    rw [List.mem_filter, hin, c2]; simp
  obtain ⟨a, d1, d2⟩ := hb.differ (K := K) hT
  rw [c2] at d2
  have hTn : ∀ t ∈ B.inner.filter (· ≠ x), t ∈ B.inner ∧ t ≠ x := fun t ht => by simpa using List.mem_filter.1 ht
  have hd : ∀ m, EvOk (bowNet K m g n w u) [(x, ((false, false) : Bool × Bool))] := fun m =>
    ⟨by simp [Dict.keys], by
      intro v hv
      have : v = x := by simpa [Dict.keys] using hv
      rw [this, ← c2]; exact hb.w_mem (Nat.zero_le _), fun v s hs => by
      have := Dict.mem_of_get? hs
      have : v = x ∧ s = (false, false) := by simpa using this
      rw [this.2]; exact hb.zero_mem v⟩
  have hne : B.inner.filter (· ≠ x) ≠ [] := List.ne_nil_of_mem (a := z) (List.mem_filter.2 ⟨(hin false z).2 (List.ne_nil_of_mem (DiGraph.mem_pred.2 hxz)), by simpa using hzx⟩)
  have hnd : (B.inner.filter (· ≠ x)).Nodup := (hb.wf.nodes.filter _).filter _
  refine ⟨B, B', m1, k1, m2, k2, m3, k3, m5, k5, hb.nonneg, hb.nonneg, ⟨rfl, fun _ _ => rfl, fun _ _ => rfl⟩, fun a ha' => ⟨(hb.same_marg (hin false)).symm, hb.marg_pos (hin false) ha'⟩,
    B.inner.filter (· ≠ x), (false, false), (B.inner.filter (· ≠ x)).map fun t => (t, a t), hne, hnd, hTn, hb.zero_mem x, fun ch hch ch' hch' => ?_⟩
  have hTv : ∀ t ∈ B.inner.filter (· ≠ x), t ∈ g.nodes ∧ t ∉ Dict.keys [(x, ((false, false) : Bool × Bool))] := fun t ht =>
    ⟨(BN.mem_inner.1 (hTn t ht).1).1, by simpa [Dict.keys] using (hTn t ht).2⟩
  obtain ⟨q, r, q1, q2, q3, q4⟩ := query_effect hch m5 hne hnd hTv (hd false) (a := a) fun t ht => d1 t (hTv t ht).1
  obtain ⟨q', r', p1, p2, p3, p4⟩ := query_effect hch' k5 hne hnd hTv (hd true) (a := a) fun t ht => d1 t (hTv t ht).1
  refine ⟨q, q', r, r', q1, p1, q2, p2, q3, p3, ?_⟩
  rw [q4, p4]
  intro e
  injection e with e
  injection e with e
  exact d2 e.symm

/-- The other direction, from C103, for any type of states -/
theorem C104_determined (vt : VType) (S K : Type) [DecidableEq S] [Inhabited S] [Field K] [LinearOrder K] [IsStrictOrderedRing K] {ch ch' : Choices V}
    (hch : ch.Ok) (hch' : ch'.Ok) {g : DiGraph V} {x : V} (hx : x ∈ SCM.defaultEndo g) (hu : Unconfounded g (SCM.defaultEndo g) [x]) :
    Determined vt S K ch ch' g x := by
  intro m m' B B' hm _ h h' hnn hnn' hs hobs T s hT hTn hTv hsx
  have hi : ∀ v, v ∈ B.inner ↔ v ∈ SCM.defaultEndo g := fun v => by
    subst hm
    rw [SCM.mem_defaultEndo h.rep.wf]
    exact ⟨fun hv => by
      obtain ⟨v1, v2⟩ := BN.mem_inner.1 hv
      obtain ⟨p, hp⟩ := List.exists_mem_of_ne_nil _ v2
      exact ⟨p, (h.rep.parents v v1 p).1 hp⟩, fun ⟨p, hp⟩ => SCM.Rep.inner_end h.rep _ hp⟩
  have hxi := (hi x).2 hx
  have hk : ∀ v, v ∈ Dict.keys [(x, s)] ↔ v = x := fun v => by simp [Dict.keys]
  have hd : EvOk B [(x, s)] := ⟨by simp [Dict.keys], fun v hv => by rw [(hk v).1 hv]; exact (BN.mem_inner.1 hxi).1, fun v t ht => by
    have := Dict.mem_of_get? ht
    have : v = x ∧ t = s := by simpa using this
    rw [this.1, this.2]; exact hsx⟩
  obtain ⟨q, q', r, r', c1, c2, c3, c4, _, _, c7⟩ := C103_determined hch hch' h h' hnn hnn' hs (fun a ha => (hobs a ha).1) (fun a ha => (hobs a ha).2.ne') hT hTn
    (ev := []) (d := [(x, s)]) (e := none) (fun t ht => ⟨(hTv t ht).1, by simp [Dict.keys], fun hc => (hTv t ht).2 ((hk t).1 hc)⟩) hd
    (fun v hv => by rw [(hk v).1 hv]; exact hxi)
    (fun y hy v hyv hv hr => by
      rw [(hk y).1 hy, hm] at hyv
      rw [(hk y).1 hy, hm] at hr
      refine hu x (by simp) v hyv (fun hc => hv ((hk v).2 (by simpa using hc))) (ReflTransGen.mono (fun a b hab => ?_) _ _ hr)
      obtain ⟨p1, p2, p, p3, p4⟩ := hab
      exact ⟨(hi a).1 p1, (hi b).1 p2, p, fun hc => p3 ((hi p).2 hc), p4⟩)
    ⟨by simp [Dict.keys], by simp [Dict.keys], fun v t ht => by cases ht⟩ (by simp [Dict.keys]) rfl
    (by
      have hdn : B.DoOk [(x, s)] := fun v t ht _ => hd.states v t ht
      show B.doMarg [(x, s)] [] (asg []) ≠ 0
      rw [← BN.doMarg_eq hd.nodes, BN.marg_nil (h.valid.doBN _) (h.norm.doBN h.valid hdn)]
      exact one_ne_zero)
  exact ⟨q, q', r, r', c1, c2, c3, c4, c7⟩

/-- **C104** the effects of one variable are determined by the distribution of the endogenous variables exactly when it is not connected with a child by a chain of
shared exogenous variables. -/
theorem C104_exact (vt : VType) (K : Type) [Field K] [LinearOrder K] [IsStrictOrderedRing K] {ch ch' : Choices V} (hch : ch.Ok) (hch' : ch'.Ok)
    {g : DiGraph V} (hg : g.WF) (ha : g.Acyclic) {x : V} (hx : x ∈ SCM.defaultEndo g) :
    Determined vt (Bool × Bool) K ch ch' g x ↔ Unconfounded g (SCM.defaultEndo g) [x] := by
  refine ⟨fun h => ?_, C104_determined vt _ K hch hch' hx⟩
  by_contra hu
  obtain ⟨B, B', m, m', _, _, b3, b4, b5, b6, b7, b8, b9, b10, T, s, obs, t1, t2, t3, t4, t5⟩ := C104_undetermined vt K hg ha hx hu true true
  obtain ⟨q, q', r, r', q1, q2, q3, q4, q5, _, q7⟩ := t5 ch hch ch' hch'
  obtain ⟨p, p', v, v', p1, p2, p3, p4, p5⟩ := h m m' B B' b3 b4 b5 b6 b7 b8 b9 b10 T s t1 t2 t3 t4
  rw [q1] at p1; injection p1 with p1; subst p1
  rw [q2] at p2; injection p2 with p2; subst p2
  rw [q3] at p3; injection p3 with p3; subst p3
  rw [q4] at p4; injection p4 with p4; subst p4
  exact q7 (p5 obs q5).2

end
end Props
end Verif
