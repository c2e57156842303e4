import Verif.Props.Identified

/-!
# C91: effects through a mediator

When an unobserved variable influences the cause and the effect, the adjustment of C85 has nothing to adjust for. With a variable `M` that carries the
whole effect of `X`, the answer of `causal_query` is still an expression of observational answers.
-/

set_option linter.unusedSectionVars false
set_option linter.unusedSimpArgs false

namespace Verif

namespace DiGraph
variable {V : Type} [DecidableEq V]
open Relation

/-- What is separated in a graph is separated with fewer edges. -/
theorem dSeparated_sub {g g' : DiGraph V} (hg : g.WF) (hg' : g'.WF) (ha : g.Acyclic) (hn : g'.nodes = g.nodes) (he : ∀ e ∈ g'.edges, e ∈ g.edges)
    {T Y Z : List V} (hT : ∀ t ∈ T, t ∈ g.nodes) (hs : g.dSeparated T Y Z = true) : g'.dSeparated T Y Z = true := by
  rw [dSeparated_iff hg ha hT] at hs
  rw [dSeparated_iff hg' (ha.mono he) (hn ▸ hT)]
  intro t ht y hy hc
  have need : ∀ v, g'.Needed (T ++ Y ++ Z) v → g.Needed (T ++ Y ++ Z) v := fun v ⟨s, h1, h2⟩ =>
    ⟨s, h1, ReflTransGen.mono (fun a b hab => he _ hab) _ _ h2⟩
  refine hs t ht y hy (ReflTransGen.mono (fun u w h => ?_) _ _ hc)
  rcases h with ⟨h1, h2, h3⟩ | ⟨h1, h2, h3⟩
  · exact .inl ⟨he _ h1, h2, need _ h3⟩
  · exact .inr ⟨he _ h1, h2, need _ h3⟩

end DiGraph

namespace Props
open Causal

variable {V S K : Type} [DecidableEq V] [DecidableEq S] [Inhabited S] [Field K] [LinearOrder K] [IsStrictOrderedRing K]
variable {vt : VType}

local notation "II" => (storeOf vt : StoreImpl V S (Fl K))
local notation "LL" => (labelStoreOf vt : LabelStore V S)

/-! ### Specification -/

/-- The formula: `∑_m P(m | x) ∑_x' P(t | m, x') P(x')`, with `P` the probabilities of the values of lists of variables. -/
def frontDoor (D : V → List S) (P : List V → (V → S) → K) (X : V) (x : S) (M : V) (T : List V) (a : V → S) : K :=
  sumOver D [M] (fun b => P [M, X] (upd b X x) / P [X] (upd b X x) *
    sumOver D [X] (fun c => P (T ++ [M, X]) c / P [M, X] c * P [X] c) b) a

/-- `M` carries the whole effect of `X` on `T`, and nothing confounds `X` with `M`, nor `M` with `T` once `X` is known. -/
structure Mediates (g : DiGraph V) (X M : V) (T : List V) : Prop where
  /-- no path from `X` to the target but through `M` -/
  through : ∀ t ∈ T, ¬ Relation.ReflTransGen (fun u w => (u, w) ∈ g.edges ∧ w ≠ M) X t
  /-- `M` does not lead back to `X` -/
  after : ¬ Relation.ReflTransGen (fun u w => (u, w) ∈ g.edges) M X
  cause : (g.removeOutgoing [X]).dSeparated [M] [X] [] = true
  effect : (g.removeOutgoing [M]).dSeparated T [M] [X] = true

/-- The formula is about the states of `X` and `M` and the values of `T`. -/
theorem frontDoor_dep {D D' : V → List S} {P : List V → (V → S) → K} (hP : ∀ W, DependsOn (P W) W) {X M : V} (x : S) {T : List V}
    (hX : D X = D' X) (hM : D M = D' M) {a a' : V → S} (ha : ∀ t ∈ T, a t = a' t) : frontDoor D P X x M T a = frontDoor D' P X x M T a' := by
  have hu : ∀ {a a' : V → S} {W : List V} (v : V) (s : S), (∀ w ∈ W, w ≠ v → a w = a' w) → ∀ w ∈ W, upd a v s w = upd a' v s w := fun v s h w hw => by
    by_cases e : w = v
    · subst e; rw [upd_same, upd_same]
    · rw [upd_ne _ _ e, upd_ne _ _ e]; exact h w hw e
  simp only [frontDoor, sumOver_cons, sumOver_nil, hX, hM]
  congr 1
  refine List.map_congr_left fun y _ => ?_
  have h1 : ∀ w ∈ T ++ [M, X], w ≠ X → upd a M y w = upd a' M y w := fun w hw hwX => by
    rcases (by simpa using hw : w ∈ T ∨ w = M ∨ w = X) with hw | rfl | rfl
    · by_cases e : w = M
      · subst e; rw [upd_same, upd_same]
      · rw [upd_ne _ _ e, upd_ne _ _ e]; exact ha w hw
    · rw [upd_same, upd_same]
    · exact absurd rfl hwX
  have h2 : ∀ s, ∀ w ∈ T ++ [M, X], upd (upd a M y) X s w = upd (upd a' M y) X s w := fun s => hu X s h1
  rw [hP [M, X] _ _ fun w hw => h2 x w (List.mem_append_right _ hw), hP [X] _ _ fun w hw => h2 x w (by simp at hw ⊢; tauto)]
  congr 2
  refine List.map_congr_left fun s _ => ?_
  rw [hP (T ++ [M, X]) _ _ (h2 s), hP [M, X] _ _ fun w hw => h2 s w (List.mem_append_right _ hw), hP [X] _ _ fun w hw => h2 s w (by simp at hw ⊢; tauto)]

/-! ### The formula -/

theorem agrees_one {B : BN V S K} {X : V} {x : S} {c : V → S} (h : c X = x) : BN.Agrees [(X, x)] c := by
  intro v s hvs
  have := Dict.mem_of_get? hvs
  simp only [List.mem_singleton, Prod.mk.injEq] at this
  rw [this.1, this.2]; exact h

theorem doOk_one {B : BN V S K} {X : V} {x : S} (hx : x ∈ B.states X) : B.DoOk [(X, x)] := by
  intro v s hvs _
  have := Dict.mem_of_get? hvs
  simp only [List.mem_singleton, Prod.mk.injEq] at this
  rw [this.1, this.2]; exact hx

/-- Probabilities after an intervention are about the listed variables. -/
theorem doMarg_dep_on {B : BN V S K} (hB : B.Valid) {d : Obs V S} (hk : ∀ v ∈ Dict.keys d, v ∈ B.nodes) (vs : List V) {a b : V → S}
    (h : ∀ v ∈ vs, a v = b v) : B.doMarg d vs a = B.doMarg d vs b := by
  rw [← BN.doMarg_eq hk, ← BN.doMarg_eq hk]
  exact (hB.doBN d).marg_dep _ _ _ h

/-- The front-door formula. -/
theorem front_door {B : BN V S K} (hB : B.Valid) (hn : B.Normalised) {g : DiGraph V} (hg : g.WF) (hgn : g.nodes = B.nodes)
    (hge : ∀ v ∈ B.nodes, ∀ p, p ∈ B.parents v ↔ (p, v) ∈ g.edges) {T : List V} {X M : V} {x : S} (hX : X ∈ B.nodes) (hx : x ∈ B.states X)
    (hM : M ∈ B.nodes) (hXM : M ≠ X) (hT : ∀ t ∈ T, t ∈ B.nodes ∧ t ≠ X ∧ t ≠ M) (hm : Mediates g X M T)
    (hp : ∀ a, B.InStates a → B.marg [M, X] a ≠ 0) (hpx : ∀ a, a X = x → B.marg [X] a ≠ 0) {a : V → S} (ha : ∀ t ∈ T, a t ∈ B.states t) :
    B.doMarg [(X, x)] T a = frontDoor B.states B.marg X x M T a := by
  have hac : g.Acyclic := by
    intro u hu
    refine hB.acyclic u (Relation.TransGen.mono (fun x y hxy => ?_) _ _ hu)
    have hb : y ∈ B.nodes := hgn ▸ (hg.ends _ hxy).2
    exact ⟨hb, (hge y hb x).2 hxy⟩
  have hkX : ∀ v ∈ Dict.keys [(X, x)], v ∈ B.nodes := by simpa [Dict.keys] using hX
  have hdX : B.DoOk [(X, x)] := doOk_one hx
  rw [frontDoor, ← BN.doMarg_eq hkX, ← (hB.doBN [(X, x)]).sum_marg (T := [M]) (fun t ht => by rw [List.mem_singleton.1 ht]; exact hM) (by simp) (by
    simp only [List.mem_singleton, forall_eq]; exact fun h => (hT M h).2.2 rfl)]
  refine sumOver_congr (by simp) fun b hb1 hb2 => ?_
  have hbM : b M ∈ B.states M := hb2 M (by simp)
  have hTb : ∀ t ∈ T, b t ∈ B.states t := fun t ht => by rw [hb1 t (by simpa using (hT t ht).2.2)]; exact ha t ht
  obtain ⟨c, c1, c2⟩ := hB.complete (L := X :: M :: T) (a := upd b X x) (fun v hv _ => by
    rcases List.mem_cons.1 hv with rfl | hv
    · rw [upd_same]; exact hx
    · rcases List.mem_cons.1 hv with rfl | hv
      · rw [upd_ne _ _ hXM]; exact hbM
      · rw [upd_ne _ _ (hT v hv).2.1]; exact hTb v hv)
  have cX : c X = x := by rw [c2 X (by simp), upd_same]
  have cM : c M = b M := by rw [c2 M (by simp), upd_ne _ _ hXM]
  have cT : ∀ t ∈ T, c t = b t := fun t ht => by rw [c2 t (by simp [ht]), upd_ne _ _ (hT t ht).2.1]
  have hkM : ∀ v ∈ Dict.keys [(M, b M)], v ∈ B.nodes := by simpa [Dict.keys] using hM
  have hdM : B.DoOk [(M, b M)] := doOk_one hbM
  have agX : BN.Agrees [(X, x)] c := agrees_one (B := B) cX
  have agM : BN.Agrees [(M, b M)] c := agrees_one (B := B) cM
  -- the mediator: observing the cause is imposing it
  have s1 : B.marg [M, X] c * B.doMarg [(X, x)] [] c = B.doMarg [(X, x)] [M] c * B.marg [X] c :=
    BN.exchange hB hn hg hgn hge hdX hkX (T := [M]) (W := []) (by simpa [Dict.keys] using ⟨hM, hXM⟩) (by simp) hm.cause c1 agX
  have one : ∀ {d : Obs V S}, B.DoOk d → (∀ v ∈ Dict.keys d, v ∈ B.nodes) → B.doMarg d [] c = 1 := fun {d} h1 h2 => by
    rw [← BN.doMarg_eq h2]; exact marg_nil (hB.doBN d) (BN.Normalised.doBN hB hn h1) _
  rw [one hdX hkX, mul_one] at s1
  -- the target: observing the mediator is imposing it
  have s2 : B.doMarg [(X, x)] (T ++ [M]) c * B.doMarg ([(X, x)] ++ [(M, b M)]) [] c =
      B.doMarg ([(X, x)] ++ [(M, b M)]) (T ++ []) c * B.doMarg [(X, x)] [M] c :=
    BN.exchange_do hB hn hg hgn hge (d := [(X, x)]) (e := [(M, b M)]) hdX hdM (by simpa [Dict.keys] using ⟨hX, fun h => hXM h.symm⟩) hkM
      (T := T) (E := []) (fun v hv => ⟨(hT v hv).1, by simpa [Dict.keys] using (hT v hv).2.2⟩) (by simp)
      (DiGraph.dSeparated_sub (hg.removeOutgoing [M]) ((hg.removeIngoing [X]).removeOutgoing [M]) (hac.mono fun e he => (List.mem_filter.1 he).1) rfl
        (fun e he => List.mem_filter.2 ⟨(List.mem_filter.1 (List.mem_filter.1 he).1).1, (List.mem_filter.1 he).2⟩)
        (fun t ht => by show t ∈ g.nodes; rw [hgn]; exact (hT t ht).1) hm.effect) c1 agX agM
  have hdd : B.DoOk ([(X, x)] ++ [(M, b M)]) := by
    intro v s hvs hv
    have := Dict.mem_of_get? hvs
    simp only [List.mem_append, List.mem_singleton, Prod.mk.injEq] at this
    rcases this with ⟨rfl, rfl⟩ | ⟨rfl, rfl⟩
    · exact hx
    · exact hbM
  rw [one hdd (by simpa [Dict.keys] using ⟨hX, hM⟩), mul_one, List.append_nil] at s2
  -- the cause has no other effect
  have s3 : B.doMarg ([(M, b M)] ++ [(X, x)]) T c = B.doMarg [(M, b M)] T c :=
    BN.noEffect_do hB hn hge hdM hdX (by simpa [Dict.keys] using ⟨hM, hXM⟩) hkX (fun z hz v hv hc => by
      obtain rfl : v = X := by simpa [Dict.keys] using hv
      refine hm.through z hz (Relation.ReflTransGen.mono (fun u w h => ?_) _ _ hc)
      obtain ⟨h1, h2⟩ := List.mem_filter.1 h
      exact ⟨h1, by simpa [Dict.keys] using h2⟩) fun v _ hv => c1 v hv
  have s4 : B.doMarg ([(X, x)] ++ [(M, b M)]) T c = B.doMarg ([(M, b M)] ++ [(X, x)]) T c := by
    have : ∀ v, Dict.get? ([(X, x)] ++ [(M, b M)]) v = Dict.get? ([(M, b M)] ++ [(X, x)]) v := fun v => by
      by_cases h1 : v = X
      · subst h1
        rw [BN.get?_append_left (by simp [Dict.keys]), BN.get?_append_right (by simpa [Dict.keys] using fun h => hXM h.symm)]
      · rw [BN.get?_append_right (by simpa [Dict.keys] using h1), Dict.get?_append, show Dict.get? [(X, x)] v = none from Dict.get?_eq_none.2 (by simpa [Dict.keys] using h1)]
        cases Dict.get? [(M, b M)] v <;> rfl
    rw [← BN.doMarg_eq (by simpa [Dict.keys] using ⟨hX, hM⟩), ← BN.doMarg_eq (by simpa [Dict.keys] using ⟨hM, hX⟩)]
    refine sumOver_congr' (fun c' => ?_) c
    unfold BN.joint
    congr 1
    refine List.map_congr_left fun v _ => ?_
    simp only [BN.doBN, this v]
  -- adjustment for the cause
  have s5 := adjust_sum hB hn hg hgn hge (T := T) (Z := [X]) (X := M) (x := b M) hM hbM
    (fun t ht => ⟨(hT t ht).1, (hT t ht).2.2, by simpa using (hT t ht).2.1⟩) (by simpa using ⟨hX, fun h => hXM h.symm⟩) (by simp)
    (by simpa using hm.after) hm.effect (fun a h1 _ => hp a h1) hTb
  have e1 : B.marg [M, X] (upd b X x) = B.marg [M, X] c := hB.marg_dep _ _ _ fun v hv => (c2 v (by simp at hv ⊢; tauto)).symm
  have e2 : B.marg [X] (upd b X x) = B.marg [X] c := hB.marg_dep _ _ _ fun v hv => (c2 v (by simp at hv ⊢; tauto)).symm
  have e3 : (B.doBN [(X, x)]).marg ([M] ++ T) b = B.doMarg [(X, x)] (T ++ [M]) c := by
    rw [BN.marg_congr_set (ws := T ++ [M]) fun v _ => by simp only [List.mem_append]; tauto, BN.doMarg_eq hkX]
    refine doMarg_dep_on hB hkX _ fun v hv => ?_
    rcases List.mem_append.1 hv with hv | hv
    · exact (cT v hv).symm
    · rw [List.mem_singleton.1 hv]; exact cM.symm
  have e4 : B.doMarg [(M, b M)] T c = B.doMarg [(M, b M)] T b := doMarg_dep_on hB hkM _ cT
  have hne := hpx c cX
  rw [e3, s2, s4, s3, e4, s5, e1, e2, eq_div_of_mul_eq hne s1.symm, mul_comm]
  congr 1
  refine sumOver_congr (by simp) fun c' k1 _ => ?_
  rw [show upd c' M (b M) = c' from by rw [← k1 M (by simpa using hXM)]; exact upd_self _ _]

/-! ### Answers of the library as tables -/

/-- What a conditional query without evidence returns, when all that is conditioned on is possible. -/
theorem cond_rep {ch : Choices V} (hch : ch.Ok) {F : Type} [VEFactor F II] (o : VEObj F II) {B : BN V S K} (hr : Represents o.model B) (hB : B.Valid) (hn : B.Normalised)
    {T C : List V} (hTn : T.Nodup) (hTC : ∀ t ∈ T, t ∉ C) (h0 : T ++ C ≠ []) (hT : ∀ t ∈ T ++ C, t ∈ B.nodes)
    (hp : ∀ a, (∀ v ∈ C, a v ∈ B.states v) → B.marg C a ≠ 0) :
    ∃ r, (o.queryCond ch T C none).2 = .ok r ∧ Factor.Rep B.states r (fun a => B.marg (T ++ C) a / B.marg C a) ∧
      ∀ v, v ∈ r.vars ↔ v ∈ T ∨ v ∈ C := by
  have hI := storeOf_lawful (V := V) (S := S) (α := Fl K) vt
  have hev0 : EvOk B ([] : Obs V S) := ⟨by simp [Dict.keys], by simp [Dict.keys], fun v s hvs => by cases hvs⟩
  obtain ⟨fc, c1, c2, c3, c4, c5, _, c7⟩ := C39_conditional_any_store hch o hr hB hn (T := T) (C := C)
    (ev := []) (e := none) hTn hTC h0 hT hev0 (by simp [Dict.keys]) rfl
    (by show B.marg [] (asg []) ≠ 0; rw [marg_nil hB hn]; exact one_ne_zero)
  refine ⟨fc, c1, FExpr.rep_of_reads hI c2 c3 fun obs a ha hc => ?_, c4⟩
  have hk0 : Dict.keys ([] : Obs V S) = [] := rfl
  have hs : ∀ v ∈ fc.vars, a v ∈ B.states v := Factor.states_of_inDom c3 ha
  have e : ∀ W, (∀ v ∈ W, v ∈ fc.vars) → B.marg W (asg obs) = B.marg W a := fun W hW =>
    hB.marg_dep _ _ a fun v hv => by rw [asg, over_of_get? (hc v (hW v hv))]
  have e1 := e (T ++ C) fun v hv => (c4 v).2 (List.mem_append.1 hv)
  have e2 := e C fun v hv => (c4 v).2 (.inr hv)
  have := c7 obs (fullObs_of_covers ha hc) (by
    rw [hk0, List.append_nil, List.nil_append, e2]
    exact hp a fun v hv => hs v ((c4 v).2 (.inr hv)))
  rw [hk0, List.append_nil, List.nil_append, e1, e2] at this
  exact this

/-- What a query without evidence returns. -/
theorem query_rep {ch : Choices V} (hch : ch.Ok) {F : Type} [VEFactor F II] (o : VEObj F II) {B : BN V S K} (hr : Represents o.model B) (hB : B.Valid) (hn : B.Normalised)
    {T : List V} (hT0 : T ≠ []) (hTn : T.Nodup) (hT : ∀ t ∈ T, t ∈ B.nodes) :
    ∃ r, (o.query ch T none).2 = .ok r ∧ Factor.Rep B.states r (B.marg T) ∧ ∀ v, v ∈ r.vars ↔ v ∈ T := by
  have hI := storeOf_lawful (V := V) (S := S) (α := Fl K) vt
  have hev0 : EvOk B ([] : Obs V S) := ⟨by simp [Dict.keys], by simp [Dict.keys], fun v s hvs => by cases hvs⟩
  have hm1 : B.marg [] (asg []) = 1 := marg_nil hB hn _
  have hk0 : Dict.keys ([] : Obs V S) = [] := rfl
  obtain ⟨fz, z1, z2, z3, z4, z5, z6⟩ := C36_exact_posterior hch o hr hB hn (T := T) (ev := []) (e := none)
    ⟨hT0, hTn, hT, hev0, by simp [Dict.keys]⟩ rfl (by show B.marg [] (asg []) ≠ 0; rw [hm1]; exact one_ne_zero)
  refine ⟨fz, z1, FExpr.rep_of_reads hI z2 z3 fun obs a ha hc => ?_, z4⟩
  rw [z6 obs (fullObs_of_covers ha hc), hk0, hm1, List.append_nil, List.nil_append, div_one,
    hB.marg_dep _ _ a fun v hv => by rw [asg, over_of_get? (hc v ((z4 v).2 hv))]]

/-- **C91** when `M` mediates the effect of `X` on the target, the library's expression for the front-door formula,
`(P(M | X).R(X=x) * (P(T | M, X) * P(X)) ** X) ** M`, with the answers of the observational queries, is the answer of `causal_query` with `X=x` imposed. -/
theorem C91_front_door {ch : Choices V} (hch : ch.Ok) {m : SCM II LL} {B : BN V S K} (h : CausalOk m B) {T : List V} {X M : V} {x : S}
    (hT : T ≠ []) (hTn : T.Nodup) (hX : X ∈ B.nodes) (hx : x ∈ B.states X) (hM : M ∈ B.nodes) (hXM : M ≠ X)
    (hTv : ∀ t ∈ T, t ∈ B.nodes ∧ t ≠ X ∧ t ≠ M) (hm : Mediates m.base.graph X M T)
    (hp : ∀ a, B.InStates a → B.marg [M, X] a ≠ 0) (hpx : ∀ a, B.InStates a → B.marg [X] a ≠ 0) :
    ∃ m' r fm ft fx e1 e2 e3 e4 s, new m = .ok m' ∧ causalQuery ch m' T [(X, x)] none = .ok r ∧
      ((VEObj.new m'.base : VEObj _ II).queryCond ch [M] [X] none).2 = .ok fm ∧
      ((VEObj.new m'.base : VEObj _ II).queryCond ch T [M, X] none).2 = .ok ft ∧
      ((VEObj.new m'.base : VEObj _ II).query ch [X] none).2 = .ok fx ∧
      fm.restrict [(X, x)] = .ok e1 ∧ ft.multiply fx = .ok e2 ∧ e2.marginalize [X] = .ok e3 ∧
      e1.multiply e3 = .ok e4 ∧ e4.marginalize [M] = .ok s ∧ SameTable T r s := by
  have hI := storeOf_lawful (V := V) (S := S) (α := Fl K) vt
  have hev0 : EvOk B ([] : Obs V S) := ⟨by simp [Dict.keys], by simp [Dict.keys], fun v s hvs => by cases hvs⟩
  have hg0 : ∀ v s, Dict.get? [(X, x)] v = some s → v = X ∧ s = x := fun v s hvs => by
    have := Dict.mem_of_get? hvs
    simpa only [List.mem_singleton, Prod.mk.injEq] using this
  have hevd : EvOk B [(X, x)] := ⟨by simp [Dict.keys], by simpa [Dict.keys] using hX, fun v s hvs => by
    obtain ⟨rfl, rfl⟩ := hg0 v s hvs; exact hx⟩
  have hd1 : B.doMarg [(X, x)] [] (asg []) = 1 := by
    rw [← BN.doMarg_eq hevd.nodes]
    exact marg_nil (h.valid.doBN _) (BN.Normalised.doBN h.valid h.norm fun v s hvs _ => hevd.states v s hvs) _
  obtain ⟨m', r, q1, q2, _, q4, q5, _, q7⟩ := C42_interventional hch h hT hTn (d := [(X, x)]) (ev := []) (e := none)
    (fun t ht => ⟨(hTv t ht).1, by simp [Dict.keys], by simpa [Dict.keys] using (hTv t ht).2.1⟩) hevd hev0 rfl
    (by show B.doMarg [(X, x)] [] (asg []) ≠ 0; rw [hd1]; exact one_ne_zero)
  obtain ⟨m'', n1, n2, n3, n4, _, _⟩ := new_ok h
  rw [q1] at n1
  cases n1
  have hrep := n2.represents n3
  have full : ∀ (C : List V), (∀ a, B.InStates a → B.marg C a ≠ 0) → ∀ a, (∀ v ∈ C, a v ∈ B.states v) → B.marg C a ≠ 0 := fun C hC a ha => by
    obtain ⟨c, d1, d2⟩ := h.valid.complete (L := C) (a := a) fun v hv _ => ha v hv
    rw [h.valid.marg_dep _ _ c fun v hv => (d2 v hv).symm]
    exact hC c d1
  obtain ⟨fm, a1, a2, a3⟩ := cond_rep hch (VEObj.new m'.base : VEObj _ II) hrep h.valid h.norm (T := [M]) (C := [X]) (by simp)
    (by simpa using hXM) (by simp) (by simpa using ⟨hM, hX⟩) (full [X] hpx)
  obtain ⟨ft, b1, b2, b3⟩ := cond_rep hch (VEObj.new m'.base : VEObj _ II) hrep h.valid h.norm (T := T) (C := [M, X]) hTn
    (fun t ht => by simpa using ⟨(hTv t ht).2.2, (hTv t ht).2.1⟩) (by simp)
    (fun t ht => by
      rcases List.mem_append.1 ht with ht | ht
      · exact (hTv t ht).1
      · rcases (by simpa using ht : t = M ∨ t = X) with rfl | rfl
        · exact hM
        · exact hX) (full [M, X] hp)
  obtain ⟨fx, c1, c2, c3⟩ := query_rep hch (VEObj.new m'.base : VEObj _ II) hrep h.valid h.norm (T := [X]) (by simp) (by simp) (by simpa using hX)
  obtain ⟨e1, i1, i2, i3, _⟩ := a2.restrict hI (obs := [(X, x)]) (fun v _ s hs => by obtain ⟨rfl, rfl⟩ := hg0 v s hs; exact hx)
  obtain ⟨e2, j1, j2, j3, _⟩ := FExpr.apply_rep hI .mul b2 c2 (by simp)
  have v2 : ∀ v, v ∈ e2.vars ↔ v ∈ T ∨ v = M ∨ v = X := by
    intro v
    simp only [j3, List.mem_append, List.mem_filter, b3 v, c3 v, decide_eq_true_eq, List.mem_cons, List.not_mem_nil, or_false]
    tauto
  obtain ⟨e3, k1, k2, _, k4, _⟩ := j2.marginalize hI (xs := [X]) (by simp [v2]) (by simp)
  obtain ⟨e4, l1, l2, l3, _⟩ := FExpr.apply_rep hI .mul i2 k2 (by simp)
  have v4 : ∀ v, v ∈ e4.vars ↔ v ∈ T ∨ v = M := by
    intro v
    simp only [l3, List.mem_append, List.mem_filter, i3 v, a3 v, k4 v, v2 v, decide_eq_true_eq, List.mem_singleton, Dict.keys, List.map_cons, List.map_nil]
    have := hTv v
    constructor
    · tauto
    · rintro (h1 | rfl)
      · by_cases hv : v = M
        · subst hv; exact absurd rfl (this h1).2.2
        · exact .inr ⟨⟨.inl h1, (this h1).2.1⟩, by tauto⟩
      · exact .inl ⟨.inl rfl, hXM⟩
  obtain ⟨s, s1, s2, _, s4, _⟩ := l2.marginalize hI (xs := [M]) (by simp [v4]) (by simp)
  have hvs : ∀ v, v ∈ s.vars ↔ v ∈ T := by
    intro v
    rw [s4 v, v4 v, List.mem_singleton]
    constructor
    · tauto
    · exact fun h1 => ⟨.inl h1, (hTv v h1).2.2⟩
  refine ⟨m', r, fm, ft, fx, e1, e2, e3, e4, s, q1, q2, a1, b1, c1, i1, j1, k1, l1, s1, q5, hvs, fun obs ho => ⟨_, q7 obs ho, ?_⟩⟩
  have ho1 := fullObs_states q4 q5 ho
  have hk0 : Dict.keys ([] : Obs V S) = [] := rfl
  rw [s2.getValue hI (fullObs_of_states s2.dom hvs ho1), hk0, hd1, List.append_nil, List.nil_append, div_one,
    front_door h.valid h.norm h.rep.wf h.rep.nodes h.rep.parents hX hx hM hXM hTv hm hp
      (fun a ha => full [X] hpx a (by simpa [ha] using hx)) (fun t ht => by
        obtain ⟨s, h1, h2⟩ := ho1 t ht
        rw [asg, over_of_get? h2]; exact h1)]
  have hover : ∀ a : V → S, over [(X, x)] a = upd a X x := by
    intro a
    funext v
    by_cases hv : v = X
    · subst hv
      rw [upd_same, over_of_get? (Dict.get?_of_mem (by simp [Dict.keys]) List.mem_cons_self)]
    · rw [upd_ne _ _ hv, BN.over_not (by simpa [Dict.keys] using hv)]
  congr 2
  refine sumOver_congr' (fun b => ?_) _
  rw [hover]
  rfl

/-! ### With the learnt models -/

/-- When all models of greatest likelihood agree on the effect of an intervention, the bounds of `GDCC` are that number. -/
theorem bounds_agree {φ : K →+* ℝ} (hφ : StrictMono φ) {ch : Choices V} (hch : ch.Ok) {m : SCM II LL} {B : BN V S K} (h : GdccModel m B) {fr : Frame V S}
    {sub : V → V → Bool} (hd : GdccData m B fr sub)
    {opt : Option Nat → List (Fl K) → (List K → Py (Fl ℝ)) → List K} {max : Option Nat} (hopt : FindsLeast φ opt max m B fr)
    {ts : List (V → List K)} (hts : ts ≠ [])
    (ht : ∀ t ∈ ts, ∀ x ∈ m.exogenous, Draws false (famDom m.base.graph B.states x) (m.base.graph.pred x) (t x))
    (N : BoundNames V S) (wt : VType) {T : List V} {X : V} {x : S} (hT0 : T ≠ []) (hTn : T.Nodup) (hb : N.bound ∉ T)
    (hX : X ∈ B.nodes) (hx : x ∈ B.states X) (hT : ∀ t ∈ T, t ∈ B.nodes ∧ t ≠ X) {f : (V → S) → K}
    (hf : ∀ m' B', Likeliest m B fr.rows m' B' → ∀ a : V → S, (∀ t ∈ T, a t ∈ B.states t) → B'.doMarg [(X, x)] T a = f a) :
    ∃ o o' r, Gdcc.compileObj (fun x => Real.log (φ x)) sub opt m max fr (ts.map fun t x => (t x).map Fl.fin) true = .ok o ∧
      o.query N (storeOf wt) (fun i => causalQuery ch i T [(X, x)] none) = .ok (o', .interval r) ∧
      (∀ v, v ∈ Dict.keys (r.dom N) ↔ v ∈ T) ∧ (∀ p ∈ r.dom N, p.2 = B.states p.1) ∧
      ∀ obs, FullObs (r.dom N) obs →
        r.getValue ((N.bound, N.low) :: obs) = .ok (.fin (f (asg obs))) ∧ r.getValue ((N.bound, N.up) :: obs) = .ok (.fin (f (asg obs))) := by
  have hg0 : ∀ v s, Dict.get? [(X, x)] v = some s → v = X ∧ s = x := by
    intro v s hvs
    have hv := Dict.mem_of_get? hvs
    simp only [List.mem_singleton, Prod.mk.injEq] at hv
    exact hv
  have hevd : EvOk B [(X, x)] := ⟨by simp [Dict.keys], by simpa [Dict.keys] using hX, fun v s hvs => by
    obtain ⟨rfl, rfl⟩ := hg0 v s hvs; exact hx⟩
  have hev0 : EvOk B ([] : Obs V S) := ⟨by simp [Dict.keys], by simp [Dict.keys], fun v s hvs => by cases hvs⟩
  have hone : ∀ m' B', Likeliest m B fr.rows m' B' → B'.doMarg [(X, x)] (Dict.keys ([] : Obs V S)) (asg []) = 1 := fun m' B' hm => by
    have hf := hm.refit
    rw [← BN.doMarg_eq (by rw [hf.nodes]; exact hevd.nodes)]
    exact marg_nil (hf.valid.doBN _) (BN.Normalised.doBN hf.valid hf.norm fun v s hvs _ => by rw [hf.states]; exact hevd.states v s hvs) _
  obtain ⟨ms, Bs, o, o', r, q1, q2, q3, q4, q5, q6, q7⟩ := C84_query hφ hch h hd hopt hts ht N wt (T := T) (d := [(X, x)]) (ev := []) (e := none) hT0 hTn
    (fun t ht => ⟨(hT t ht).1, by simp [Dict.keys], by simpa [Dict.keys] using (hT t ht).2⟩) hb hevd hev0 rfl
    (fun m' B' hm => by rw [hone m' B' hm]; exact one_ne_zero)
  refine ⟨o, o', r, q3, q4, q5, q6, fun obs ho => ?_⟩
  obtain ⟨lo, hi, hl, e1, e2⟩ := q7 obs ho
  have hval : ∀ y ∈ Bs.map (fun B' => B'.doMarg [(X, x)] (T ++ Dict.keys ([] : Obs V S)) (asg ([] ++ obs)) / B'.doMarg [(X, x)] (Dict.keys ([] : Obs V S)) (asg [])),
      y = f (asg obs) := by
    intro y hy
    obtain ⟨B', hB', rfl⟩ := List.mem_map.1 hy
    obtain ⟨m', _, hm⟩ : ∃ m' ∈ ms, Likeliest m B fr.rows m' B' := by
      clear hl hy q7 q1
      induction q2 with
      | nil => cases hB'
      | @cons m1 B1 ms Bs h1 _ ih =>
        rcases List.mem_cons.1 hB' with rfl | hB'
        · exact ⟨m1, List.mem_cons_self, h1⟩
        · obtain ⟨m', i1, i2⟩ := ih hB'
          exact ⟨m', List.mem_cons_of_mem _ i1, i2⟩
    rw [hone m' B' hm, div_one, List.nil_append]
    have : T ++ Dict.keys ([] : Obs V S) = T := List.append_nil T
    rw [this]
    refine hf m' B' hm _ fun t ht => ?_
    obtain ⟨st, hst⟩ := Dict.mem_keys.1 ((q5 t).2 ht)
    obtain ⟨s, s1, s2⟩ := ho _ hst
    rw [asg, over_of_get? s2, ← q6 _ hst]; exact s1
  rw [e1, e2, hval lo hl.1, hval hi hl.2.1]
  exact ⟨rfl, rfl⟩

/-- **C91** what an intervention does in a learnt model, when there is a mediator -/
theorem C91_effect {φ : K →+* ℝ} (hφ : StrictMono φ) {m : SCM II LL} {B : BN V S K} (h : GdccModel m B) {fr : Frame V S} {sub : V → V → Bool}
    (hd : GdccData m B fr sub) (hrows : fr.rows ≠ []) (hc : Compatible m B fr.rows) {m' : SCM II LL} {B' : BN V S K} (hm : Likeliest m B fr.rows m' B')
    {T : List V} {X M : V} {x : S} (hX : X ∈ B.nodes ∧ X ∈ m.endogenous) (hx : x ∈ B.states X) (hM : M ∈ B.nodes ∧ M ∈ m.endogenous) (hXM : M ≠ X)
    (hT : ∀ t ∈ T, t ∈ B.nodes ∧ t ∈ m.endogenous ∧ t ≠ X ∧ t ≠ M) (hmed : Mediates m.base.graph X M T)
    (hp : ∀ a, B.InStates a → empirical K fr.rows [M, X] a ≠ 0) (hpx : ∀ a, a X = x → empirical K fr.rows [X] a ≠ 0)
    {a : V → S} (ha : ∀ t ∈ T, a t ∈ B.states t) :
    B'.doMarg [(X, x)] T a = frontDoor B.states (empirical K fr.rows) X x M T a := by
  have hf := hm.refit
  have hin : ∀ {a : V → S}, B'.InStates a → B.InStates a := fun {a} ha v hv => by
    have := ha v (by rw [hf.nodes]; exact hv)
    rwa [hf.states] at this
  have freq : ∀ {W : List V}, (∀ w ∈ W, w ∈ T ∨ w = M ∨ w = X) → ∀ {a : V → S}, (∀ w ∈ W, a w ∈ B.states w) → B'.marg W a = empirical K fr.rows W a := fun {W} hW {a} ha =>
    C87_frequencies hφ h hd hrows hc hm (fun w hw => by
      rcases hW w hw with hw | rfl | rfl
      · exact ⟨(hT w hw).1, (hT w hw).2.1⟩
      · exact hM
      · exact hX) ha
  have two : ∀ {a : V → S}, a M ∈ B.states M → a X ∈ B.states X → B'.marg [M, X] a = empirical K fr.rows [M, X] a := fun {a} h1 h2 =>
    freq (by simp) fun w hw => by
      rcases (by simpa using hw : w = M ∨ w = X) with rfl | rfl
      · exact h1
      · exact h2
  have one : ∀ {a : V → S}, a X ∈ B.states X → B'.marg [X] a = empirical K fr.rows [X] a := fun {a} h2 =>
    freq (by simp) fun w hw => by rw [List.mem_singleton.1 hw]; exact h2
  rw [front_door hf.valid hf.norm (g := m.base.graph) h.rep.wf (by rw [hf.nodes]; exact h.rep.nodes) (by rw [hf.nodes, hf.parents]; exact h.rep.parents)
    (T := T) (X := X) (M := M) (x := x) (by rw [hf.nodes]; exact hX.1) (by rw [hf.states]; exact hx) (by rw [hf.nodes]; exact hM.1) hXM
    (fun t ht => ⟨by rw [hf.nodes]; exact (hT t ht).1, (hT t ht).2.2⟩) hmed
    (fun a ha => by rw [two (hin ha _ hM.1) (hin ha _ hX.1)]; exact hp a (hin ha))
    (fun a ha => by rw [one (by rw [ha]; exact hx)]; exact hpx a ha) (by rw [hf.states]; exact ha), frontDoor, frontDoor, hf.states]
  refine sumOver_congr (by simp) fun b b1 b2 => ?_
  have hbM : b M ∈ B.states M := b2 M (by simp)
  rw [two (by rw [upd_ne _ _ hXM]; exact hbM) (by rw [upd_same]; exact hx), one (by rw [upd_same]; exact hx)]
  congr 1
  refine sumOver_congr (by simp) fun c c1 c2 => ?_
  have hcX : c X ∈ B.states X := c2 X (by simp)
  have hcM : c M ∈ B.states M := by rw [c1 M (by simpa using hXM)]; exact hbM
  rw [two hcM hcX, one hcX, freq (fun w hw => by simpa using hw) fun w hw => ?_]
  rcases (by simpa using hw : w ∈ T ∨ w = M ∨ w = X) with hw | rfl | rfl
  · rw [c1 w (by simpa using (hT w hw).2.2.1), b1 w (by simpa using (hT w hw).2.2.2)]; exact ha w hw
  · exact hcM
  · exact hcX

/-- **C91** the bounds of `GDCC` when there is a mediator: low and up are the same number, the front-door formula with the frequencies of the records,
whatever the number of models and the random numbers. -/
theorem C91_identified {φ : K →+* ℝ} (hφ : StrictMono φ) {ch : Choices V} (hch : ch.Ok) {m : SCM II LL} {B : BN V S K} (h : GdccModel m B) {fr : Frame V S}
    {sub : V → V → Bool} (hd : GdccData m B fr sub) (hrows : fr.rows ≠ []) (hc : Compatible m B fr.rows)
    {opt : Option Nat → List (Fl K) → (List K → Py (Fl ℝ)) → List K} {max : Option Nat} (hopt : FindsLeast φ opt max m B fr)
    {ts : List (V → List K)} (hts : ts ≠ [])
    (ht : ∀ t ∈ ts, ∀ x ∈ m.exogenous, Draws false (famDom m.base.graph B.states x) (m.base.graph.pred x) (t x))
    (N : BoundNames V S) (wt : VType) {T : List V} {X M : V} {x : S} (hT0 : T ≠ []) (hTn : T.Nodup) (hb : N.bound ∉ T)
    (hX : X ∈ B.nodes ∧ X ∈ m.endogenous) (hx : x ∈ B.states X) (hM : M ∈ B.nodes ∧ M ∈ m.endogenous) (hXM : M ≠ X)
    (hT : ∀ t ∈ T, t ∈ B.nodes ∧ t ∈ m.endogenous ∧ t ≠ X ∧ t ≠ M) (hmed : Mediates m.base.graph X M T)
    (hp : ∀ a, B.InStates a → empirical K fr.rows [M, X] a ≠ 0) (hpx : ∀ a, a X = x → empirical K fr.rows [X] a ≠ 0) :
    ∃ o o' r, Gdcc.compileObj (fun x => Real.log (φ x)) sub opt m max fr (ts.map fun t x => (t x).map Fl.fin) true = .ok o ∧
      o.query N (storeOf wt) (fun i => causalQuery ch i T [(X, x)] none) = .ok (o', .interval r) ∧
      (∀ v, v ∈ Dict.keys (r.dom N) ↔ v ∈ T) ∧ (∀ p ∈ r.dom N, p.2 = B.states p.1) ∧
      ∀ obs, FullObs (r.dom N) obs →
        r.getValue ((N.bound, N.low) :: obs) = .ok (.fin (frontDoor B.states (empirical K fr.rows) X x M T (asg obs))) ∧
        r.getValue ((N.bound, N.up) :: obs) = .ok (.fin (frontDoor B.states (empirical K fr.rows) X x M T (asg obs))) :=
  bounds_agree hφ hch h hd hopt hts ht N wt hT0 hTn hb hX.1 hx (fun t ht => ⟨(hT t ht).1, (hT t ht).2.2.1⟩) fun _ _ hm _ ha =>
    C91_effect hφ h hd hrows hc hm hX hx hM hXM hT hmed hp hpx ha

end Props
end Verif
