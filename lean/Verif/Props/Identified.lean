import Verif.Net.Empirical
import Verif.Props.Adjust
import Verif.Props.GdccMulti

/-!
# C87: queries that the data determine

When some model with the given equations has the frequencies of the records as its distribution, then all that `GDCC`
learns have it. A question that can be answered by adjustment has then one answer in all of them: the bounds coincide, and
are the adjustment formula with the frequencies.
-/

set_option linter.unusedSectionVars false
set_option linter.unusedSimpArgs false

namespace Verif
namespace Props
open Causal

variable {V S K : Type} [DecidableEq V] [DecidableEq S] [Inhabited S] [Field K] [LinearOrder K] [IsStrictOrderedRing K]
variable {vt : VType}

local notation "II" => (storeOf vt : StoreImpl V S (Fl K))
local notation "LL" => (labelStoreOf vt : LabelStore V S)

/-! ### Specification -/

/-- Some distributions of the exogenous variables make each record as probable as it is frequent. -/
def Compatible (m : SCM II LL) (B : BN V S K) (rows : List (Rec V S)) : Prop :=
  ∃ B', Other B m.exogenous B' ∧ ∀ r ∈ rows, B'.marg m.endogenous r.asg = empirical K rows (B.nodes.filter (· ∈ m.endogenous)) r.asg

/-- The adjustment formula with frequencies: `∑_z #(t, x, z) / #(x, z) · #(z) / n`, each count being divided by the number `n` of records. -/
def adjusted (K : Type) [Field K] (D : V → List S) (rows : List (Rec V S)) (X : V) (x : S) (T Z : List V) (a : V → S) : K :=
  sumOver D Z (fun b => empirical K rows (T ++ X :: Z) (upd b X x) / empirical K rows (X :: Z) (upd b X x) * empirical K rows Z b) a

/-- The formula is about the states of `Z` and the values of `T`. -/
theorem adjusted_dep {K : Type} [Field K] {D D' : V → List S} (rows : List (Rec V S)) {X : V} (x : S) {T Z : List V} (hZn : Z.Nodup) (hD : ∀ z ∈ Z, D z = D' z)
    {a a' : V → S} (ha : ∀ t ∈ T, a t = a' t) : adjusted K D rows X x T Z a = adjusted K D' rows X x T Z a' := by
  rw [adjusted, adjusted]
  have key : ∀ (F : (V → S) → K) (W : List V), DependsOn F W → ∀ (Z : List V), (∀ z ∈ Z, D z = D' z) → ∀ a a' : V → S, (∀ w ∈ W, w ∉ Z → a w = a' w) →
      sumOver D Z F a = sumOver D' Z F a' := by
    intro F W hF Z
    induction Z with
    | nil => exact fun _ a a' h => hF a a' fun w hw => h w hw (by simp)
    | cons z Z ih =>
      intro hZ a a' h
      rw [sumOver_cons, sumOver_cons, hZ z List.mem_cons_self]
      congr 1
      refine List.map_congr_left fun s _ => ih (fun y hy => hZ y (List.mem_cons_of_mem _ hy)) _ _ fun w hw hwZ => ?_
      by_cases e : w = z
      · subst e; rw [upd_same, upd_same]
      · rw [upd_ne _ _ e, upd_ne _ _ e]
        exact h w hw (by rw [List.mem_cons, not_or]; exact ⟨e, hwZ⟩)
  refine key _ (T ++ Z) (fun b b' hb => ?_) Z hD a a' fun w hw hwZ => (List.mem_append.1 hw).elim (ha w) fun h => absurd h hwZ
  have hu : ∀ w, w ∈ T ++ X :: Z → upd b X x w = upd b' X x w := fun w hw => by
    by_cases e : w = X
    · subst e; rw [upd_same, upd_same]
    · rw [upd_ne _ _ e, upd_ne _ _ e]
      refine hb w ?_
      simp only [List.mem_append, List.mem_cons] at hw ⊢
      rcases hw with hw | hw | hw
      · exact .inl hw
      · exact absurd hw e
      · exact .inr hw
  rw [empirical_dep rows (T ++ X :: Z) _ _ hu, empirical_dep rows (X :: Z) (upd b X x) (upd b' X x) fun w hw => hu w (List.mem_append_right _ hw),
    empirical_dep rows Z b b' fun w hw => hb w (List.mem_append_right _ hw)]

/-! ### The distribution of the learnt models -/

/-- The endogenous marginal as a distribution -/
theorem _root_.Verif.BN.Valid.endo_distr {B : BN V S K} (hB : B.Valid) (hn : B.Normalised) (hnn : B.NonNeg) (E : List V) :
    B.marg E = B.marg (B.nodes.filter (· ∈ E)) ∧ (∀ b, (∀ v ∈ B.nodes.filter (· ∈ E), b v ∈ B.states v) → 0 ≤ B.marg (B.nodes.filter (· ∈ E)) b) ∧
      ∀ a, sumOver B.states (B.nodes.filter (· ∈ E)) (B.marg (B.nodes.filter (· ∈ E))) a = 1 := by
  refine ⟨BN.marg_congr_set fun v hv => by simp [hv], fun b hb => BN.marg_nonneg hB hnn fun v hv _ => hb v hv, fun a => ?_⟩
  have := hB.sum_marg (T := B.nodes.filter (· ∈ E)) (W := []) (fun t ht => (List.mem_filter.1 ht).1) (hB.nodes.filter _) (by simp) a
  rw [List.append_nil, marg_nil hB hn] at this
  exact this

theorem GdccData.complete' {m : SCM II LL} {B : BN V S K} {fr : Frame V S} {sub : V → V → Bool} (hd : GdccData m B fr sub) :
    ∀ r ∈ fr.rows, ∀ x ∈ B.nodes.filter (· ∈ m.endogenous), ∃ s ∈ B.states x, Rec.val r x = some s := fun r hr x hx => by
  obtain ⟨h1, h2⟩ := List.mem_filter.1 hx
  exact hd.complete r hr x h1 (by simpa using h2)

/-- **C87** when the data are compatible with the equations, each model of greatest likelihood has the frequencies of the records as its distribution
of the endogenous variables, and of any of them. -/
theorem C87_frequencies {φ : K →+* ℝ} (hφ : StrictMono φ) {m : SCM II LL} {B : BN V S K} (h : GdccModel m B) {fr : Frame V S} {sub : V → V → Bool}
    (hd : GdccData m B fr sub) (hrows : fr.rows ≠ []) (hc : Compatible m B fr.rows) {m' : SCM II LL} {B' : BN V S K} (hm : Likeliest m B fr.rows m' B')
    {W : List V} (hW : ∀ w ∈ W, w ∈ B.nodes ∧ w ∈ m.endogenous) {a : V → S} (ha : ∀ w ∈ W, a w ∈ B.states w) :
    B'.marg W a = empirical K fr.rows W a := by
  obtain ⟨Bs, c1, c2⟩ := hc
  set E := B.nodes.filter (· ∈ m.endogenous) with hE
  have hEn : E.Nodup := h.valid.nodes.filter _
  have hr := hm.refit
  obtain ⟨d1, d2, d3⟩ := hr.valid.endo_distr hr.norm hr.nonneg m.endogenous
  rw [hr.nodes, ← hE] at d1
  rw [hr.nodes, ← hE, hr.states] at d2 d3
  have hD : ∀ x ∈ E, (B.states x).Nodup := fun x hx => h.valid.nodupStates x (List.mem_filter.1 hx).1
  have hpos : ∀ r ∈ fr.rows, 0 < B'.marg E r.asg := fun r hrr => by
    rw [← d1]
    exact marg_of_possible_all hr.valid hr.nonneg (by rw [hr.nodes, hr.states]; exact hd.complete r hrr) (hm.possible r hrr)
  have hL : (fr.rows.map fun r => empirical K fr.rows E r.asg).prod ≤ (fr.rows.map fun r => B'.marg E r.asg).prod := by
    have := hm.max Bs c1
    rw [endoLik, endoLik, List.map_congr_left c2, d1] at this
    exact this
  have hEq : ∀ b, (∀ v ∈ E, b v ∈ B.states v) → B'.marg E b = empirical K fr.rows E b := fun b hb =>
    empirical_unique hφ hrows hEn hD hd.complete' (hr.valid.marg_dep E) d2 d3 hpos hL hb
  -- fewer variables
  have hWE : ∀ w ∈ W, w ∈ E := fun w hw => List.mem_filter.2 ⟨(hW w hw).1, by simpa using (hW w hw).2⟩
  set R := E.filter (· ∉ W) with hR
  have hRn : R.Nodup := hEn.filter _
  have hRE : ∀ x ∈ R, x ∈ E := fun x hx => (List.mem_filter.1 hx).1
  have hRW : ∀ x ∈ R, x ∉ W := fun x hx => by simpa using (List.mem_filter.1 hx).2
  have hset : ∀ v, v ∈ R ++ W ↔ v ∈ E := fun v => by
    rw [List.mem_append, hR, List.mem_filter]
    by_cases hv : v ∈ W <;> simp [hv, hWE]
  rw [← hr.valid.sum_marg (T := R) (W := W) (fun t ht => by rw [hr.nodes]; exact (List.mem_filter.1 (hRE t ht)).1) hRn hRW,
    ← sum_empirical (D := B.states) (xs := R) (W := W) hRn (fun x hx => hD x (hRE x hx)) (fun r hrr x hx => hd.complete' r hrr x (hRE x hx)) hRW, hr.states]
  refine sumOver_congr hRn fun b b1 b2 => ?_
  rw [empirical_set _ hset, BN.marg_congr_set (ws := E) fun v _ => hset v]
  refine hEq b fun v hv => ?_
  by_cases hvR : v ∈ R
  · exact b2 v hvR
  · rw [b1 v hvR]
    refine ha v ?_
    by_contra hvW
    exact hvR (List.mem_filter.2 ⟨hv, by simpa using hvW⟩)

/-- **C87** what an intervention does in such a model, when the graph allows adjustment -/
theorem C87_effect {φ : K →+* ℝ} (hφ : StrictMono φ) {m : SCM II LL} {B : BN V S K} (h : GdccModel m B) {fr : Frame V S} {sub : V → V → Bool}
    (hd : GdccData m B fr sub) (hrows : fr.rows ≠ []) (hc : Compatible m B fr.rows) {m' : SCM II LL} {B' : BN V S K} (hm : Likeliest m B fr.rows m' B')
    {T Z : List V} {X : V} {x : S} (hX : X ∈ B.nodes ∧ X ∈ m.endogenous) (hx : x ∈ B.states X)
    (hT : ∀ t ∈ T, t ∈ B.nodes ∧ t ∈ m.endogenous ∧ t ≠ X ∧ t ∉ Z) (hZ : ∀ z ∈ Z, z ∈ B.nodes ∧ z ∈ m.endogenous ∧ z ≠ X) (hZn : Z.Nodup)
    (hr : ∀ z ∈ Z, ¬ Relation.ReflTransGen (fun u w => (u, w) ∈ m.base.graph.edges) X z)
    (hs : (m.base.graph.removeOutgoing [X]).dSeparated T [X] Z = true)
    (hp : ∀ a, B.InStates a → a X = x → empirical K fr.rows (X :: Z) a ≠ 0) {a : V → S} (ha : ∀ t ∈ T, a t ∈ B.states t) :
    B'.doMarg [(X, x)] T a = adjusted K B.states fr.rows X x T Z a := by
  have hf := hm.refit
  have freq : ∀ {W : List V}, (∀ w ∈ W, w ∈ T ∨ w ∈ X :: Z) → ∀ {a : V → S}, (∀ w ∈ W, a w ∈ B.states w) → B'.marg W a = empirical K fr.rows W a := fun {W} hW {a} ha =>
    C87_frequencies hφ h hd hrows hc hm (fun w hw => by
      rcases hW w hw with hw | hw
      · exact ⟨(hT w hw).1, (hT w hw).2.1⟩
      · rcases List.mem_cons.1 hw with rfl | hw
        · exact hX
        · exact ⟨(hZ w hw).1, (hZ w hw).2.1⟩) ha
  have hin : ∀ {a : V → S}, B'.InStates a → B.InStates a := fun {a} ha v hv => by
    have := ha v (by rw [hf.nodes]; exact hv)
    rwa [hf.states] at this
  rw [adjust_sum hf.valid hf.norm (g := m.base.graph) h.rep.wf (by rw [hf.nodes]; exact h.rep.nodes) (by rw [hf.nodes, hf.parents]; exact h.rep.parents)
    (T := T) (Z := Z) (X := X) (x := x) (by rw [hf.nodes]; exact hX.1) (by rw [hf.states]; exact hx)
    (fun t ht => ⟨by rw [hf.nodes]; exact (hT t ht).1, (hT t ht).2.2⟩) (fun z hz => ⟨by rw [hf.nodes]; exact (hZ z hz).1, (hZ z hz).2.2⟩) hZn hr hs
    (fun a ha hax => by
      have ha' := hin ha
      rw [freq (W := X :: Z) (fun w hw => .inr hw) fun w hw => ?_]
      · exact hp a ha' hax
      · rcases List.mem_cons.1 hw with rfl | hw
        · exact ha' _ hX.1
        · exact ha' w (hZ w hw).1)
    (by rw [hf.states]; exact ha), adjusted, hf.states]
  refine sumOver_congr hZn fun b b1 b2 => ?_
  have hXb : ∀ w ∈ X :: Z, upd b X x w ∈ B.states w := fun w hw => by
    rcases List.mem_cons.1 hw with rfl | hw
    · rw [upd_same]; exact hx
    · rw [upd_ne _ _ (hZ w hw).2.2]; exact b2 w hw
  rw [freq (W := T ++ X :: Z) (fun w hw => List.mem_append.1 hw) fun w hw => ?_, freq (W := X :: Z) (fun w hw => .inr hw) hXb,
    freq (W := Z) (fun w hw => .inr (List.mem_cons_of_mem _ hw)) b2]
  rcases List.mem_append.1 hw with hw | hw
  · rw [upd_ne _ _ (hT w hw).2.2.1, b1 w (hT w hw).2.2.2]; exact ha w hw
  · exact hXb w hw

/-- **C87** the bounds of `GDCC` for a question that can be answered by adjustment: low and up are the same number, the adjustment formula with the
frequencies of the records, whatever the number of models and the random numbers. -/
theorem C87_identified {φ : K →+* ℝ} (hφ : StrictMono φ) {ch : Choices V} (hch : ch.Ok) {m : SCM II LL} {B : BN V S K} (h : GdccModel m B) {fr : Frame V S}
    {sub : V → V → Bool} (hd : GdccData m B fr sub) (hrows : fr.rows ≠ []) (hc : Compatible m B fr.rows)
    {opt : Option Nat → List (Fl K) → (List K → Py (Fl ℝ)) → List K} {max : Option Nat} (hopt : FindsLeast φ opt max m B fr)
    {ts : List (V → List K)} (hts : ts ≠ [])
    (ht : ∀ t ∈ ts, ∀ x ∈ m.exogenous, Draws false (famDom m.base.graph B.states x) (m.base.graph.pred x) (t x))
    (N : BoundNames V S) (wt : VType) {T Z : List V} {X : V} {x : S} (hT0 : T ≠ []) (hTn : T.Nodup) (hb : N.bound ∉ T)
    (hX : X ∈ B.nodes ∧ X ∈ m.endogenous) (hx : x ∈ B.states X)
    (hT : ∀ t ∈ T, t ∈ B.nodes ∧ t ∈ m.endogenous ∧ t ≠ X ∧ t ∉ Z) (hZ : ∀ z ∈ Z, z ∈ B.nodes ∧ z ∈ m.endogenous ∧ z ≠ X) (hZn : Z.Nodup)
    (hr : ∀ z ∈ Z, ¬ Relation.ReflTransGen (fun u w => (u, w) ∈ m.base.graph.edges) X z)
    (hs : (m.base.graph.removeOutgoing [X]).dSeparated T [X] Z = true)
    (hp : ∀ a, B.InStates a → a X = x → empirical K fr.rows (X :: Z) a ≠ 0) :
    ∃ o o' r, Gdcc.compileObj (fun x => Real.log (φ x)) sub opt m max fr (ts.map fun t x => (t x).map Fl.fin) true = .ok o ∧
      o.query N (storeOf wt) (fun i => causalQuery ch i T [(X, x)] none) = .ok (o', .interval r) ∧
      (∀ v, v ∈ Dict.keys (r.dom N) ↔ v ∈ T) ∧ (∀ p ∈ r.dom N, p.2 = B.states p.1) ∧
      ∀ obs, FullObs (r.dom N) obs →
        r.getValue ((N.bound, N.low) :: obs) = .ok (.fin (adjusted K B.states fr.rows X x T Z (asg obs))) ∧
        r.getValue ((N.bound, N.up) :: obs) = .ok (.fin (adjusted K B.states fr.rows X x T Z (asg obs))) := by
  have hg0 : ∀ v s, Dict.get? [(X, x)] v = some s → v = X ∧ s = x := by
    intro v s hvs
    have hv := Dict.mem_of_get? hvs
    simp only [List.mem_singleton, Prod.mk.injEq] at hv
    exact hv
  have hevd : EvOk B [(X, x)] := ⟨by simp [Dict.keys], by simpa [Dict.keys] using hX.1, fun v s hvs => by
    obtain ⟨rfl, rfl⟩ := hg0 v s hvs; exact hx⟩
  have hev0 : EvOk B ([] : Obs V S) := ⟨by simp [Dict.keys], by simp [Dict.keys], fun v s hvs => by cases hvs⟩
  have hone : ∀ m' B', Likeliest m B fr.rows m' B' → B'.doMarg [(X, x)] (Dict.keys ([] : Obs V S)) (asg []) = 1 := fun m' B' hm => by
    have hf := hm.refit
    rw [← BN.doMarg_eq (by rw [hf.nodes]; exact hevd.nodes)]
    exact marg_nil (hf.valid.doBN _) (BN.Normalised.doBN hf.valid hf.norm fun v s hvs _ => by rw [hf.states]; exact hevd.states v s hvs) _
  obtain ⟨ms, Bs, o, o', r, q1, q2, q3, q4, q5, q6, q7⟩ := C84_query hφ hch h hd hopt hts ht N wt (T := T) (d := [(X, x)]) (ev := []) (e := none) hT0 hTn
    (fun t ht => ⟨(hT t ht).1, by simp [Dict.keys], by simpa [Dict.keys] using (hT t ht).2.2.1⟩) hb hevd hev0 rfl
    (fun m' B' hm => by rw [hone m' B' hm]; exact one_ne_zero)
  refine ⟨o, o', r, q3, q4, q5, q6, fun obs ho => ?_⟩
  obtain ⟨lo, hi, hl, e1, e2⟩ := q7 obs ho
  have hval : ∀ y ∈ Bs.map (fun B' => B'.doMarg [(X, x)] (T ++ Dict.keys ([] : Obs V S)) (asg ([] ++ obs)) / B'.doMarg [(X, x)] (Dict.keys ([] : Obs V S)) (asg [])),
      y = adjusted K B.states fr.rows X x T Z (asg obs) := by
    intro y hy
    obtain ⟨B', hB', rfl⟩ := List.mem_map.1 hy
    obtain ⟨m', _, hm⟩ : ∃ m' ∈ ms, Likeliest m B fr.rows m' B' := by
      clear hl hy q7 q1
      induction q2 with
      | nil => cases hB'
      | @cons m1 B1 ms Bs h1 _ ih =>
        rcases List.mem_cons.1 hB' with rfl | hB'
        · exact ⟨m1, List.mem_cons_self, h1⟩
        · obtain ⟨m', i1, i2⟩ := ih hB'
          exact ⟨m', List.mem_cons_of_mem _ i1, i2⟩
    rw [hone m' B' hm, div_one, List.nil_append]
    have : T ++ Dict.keys ([] : Obs V S) = T := List.append_nil T
    rw [this]
    refine C87_effect hφ h hd hrows hc hm hX hx hT hZ hZn hr hs hp fun t ht => ?_
    obtain ⟨st, hst⟩ := Dict.mem_keys.1 ((q5 t).2 ht)
    obtain ⟨s, s1, s2⟩ := ho _ hst
    rw [asg, over_of_get? s2, ← q6 _ hst]; exact s1
  rw [e1, e2, hval lo hl.1, hval hi hl.2.1]
  exact ⟨rfl, rfl⟩

/-! ### An optimiser that does its part -/

/-- Among the lists of the length of `start` that are distributions, one with the least objective, if there is one. -/
noncomputable def leastOpt (_ : Option Nat) (start : List (Fl K)) (F : List K → Py (Fl ℝ)) : List K :=
  open Classical in
  if h : ∃ l : List K, l.length = start.length ∧ (∀ x ∈ l, 0 ≤ x) ∧ l.sum = 1 ∧
      ∀ l' : List K, l'.length = start.length → (∀ x ∈ l', 0 ≤ x) → l'.sum = 1 → ∀ x y, F l = .ok x → F l' = .ok y → FlLe x y
  then h.choose else []

theorem exists_fun {st : List S} (hn : st.Nodup) {l : List K} (hl : l.length = st.length) : ∃ θ : S → K, l = st.map θ := by
  induction st generalizing l with
  | nil => exact ⟨fun _ => 0, by rw [List.length_eq_zero_iff.1 hl]; rfl⟩
  | cons s st ih =>
    cases l with
    | nil => cases hl
    | cons x l =>
      rw [List.nodup_cons] at hn
      obtain ⟨θ, hθ⟩ := ih hn.2 (Nat.succ.inj hl)
      refine ⟨fun t => if t = s then x else θ t, ?_⟩
      rw [List.map_cons, if_pos rfl, hθ]
      congr 1
      exact List.map_congr_left fun t ht => (if_neg fun e : t = s => hn.1 (e ▸ ht)).symm

/-- What `leastOpt` returns when a best distribution exists. -/
theorem leastOpt_spec {B : BN V S K} {U : V} (hn : (B.states U).Nodup) {max : Option Nat} {start : List (Fl K)} (hs : start.length = (B.states U).length)
    {F : List K → Py (Fl ℝ)} {θ : S → K} (hθ : IsDistr B U θ)
    (hF : ∀ η, IsDistr B U η → ∀ x y, F ((B.states U).map θ) = .ok x → F ((B.states U).map η) = .ok y → FlLe x y) :
    ∃ θ', leastOpt max start F = (B.states U).map θ' ∧ IsDistr B U θ' ∧
      ∀ η, IsDistr B U η → ∀ x y, F ((B.states U).map θ') = .ok x → F ((B.states U).map η) = .ok y → FlLe x y := by
  have hiff : ∀ {l : List K} {θ : S → K}, l = (B.states U).map θ → ((∀ x ∈ l, 0 ≤ x) ∧ l.sum = 1 ↔ IsDistr B U θ) := by
    rintro l θ rfl
    rw [IsDistr]
    simp
  have hex : ∃ l : List K, l.length = start.length ∧ (∀ x ∈ l, 0 ≤ x) ∧ l.sum = 1 ∧
      ∀ l' : List K, l'.length = start.length → (∀ x ∈ l', 0 ≤ x) → l'.sum = 1 → ∀ x y, F l = .ok x → F l' = .ok y → FlLe x y := by
    refine ⟨(B.states U).map θ, by rw [List.length_map, hs], ((hiff rfl).2 hθ).1, ((hiff rfl).2 hθ).2, fun l' h1 h2 h3 => ?_⟩
    obtain ⟨η, rfl⟩ := exists_fun hn (h1.trans hs)
    exact hF η ((hiff rfl).1 ⟨h2, h3⟩)
  have e : leastOpt max start F = hex.choose := by rw [leastOpt, dif_pos hex]
  obtain ⟨s1, s2, s3, s4⟩ := hex.choose_spec
  obtain ⟨θ', h'⟩ := exists_fun hn (s1.trans hs)
  refine ⟨θ', e.trans h', (hiff h').1 ⟨s2, s3⟩, fun η hη => ?_⟩
  rw [h'] at s4
  exact s4 _ (by rw [List.length_map, hs]) ((hiff rfl).2 hη).1 ((hiff rfl).2 hη).2

/-- The model that the data are compatible with has the best distribution of each exogenous variable. -/
theorem Compatible.best {φ : K →+* ℝ} (hφ : StrictMono φ) {m : SCM II LL} {B : BN V S K} (h : GdccModel m B) {fr : Frame V S} {sub : V → V → Bool}
    (hd : GdccData m B fr sub) {Bs : BN V S K} (c1 : Other B m.exogenous Bs)
    (c2 : ∀ r ∈ fr.rows, Bs.marg m.endogenous r.asg = empirical K fr.rows (B.nodes.filter (· ∈ m.endogenous)) r.asg) {U : V} (hU : U ∈ m.exogenous) :
    IsDistr B U (fun u => Bs.table U fun _ => u) ∧ ∀ η, IsDistr B U η →
      (fr.rows.map fun r => B.compLik m.endogenous U η r.asg).prod ≤ (fr.rows.map fun r => B.compLik m.endogenous U (fun u => Bs.table U fun _ => u) r.asg).prod := by
  have hx : ∀ U, U ∈ m.exogenous ↔ U ∈ B.nodes ∧ U ∉ m.endogenous := fun U => mem_exogenous h.rep
  have hroot : ∀ U ∈ m.exogenous, U ∈ B.nodes ∧ B.parents U = [] := fun U hU => ⟨((hx U).1 hU).1, h.roots U hU⟩
  set X := B.nodes.filter (· ∉ m.endogenous) with hX
  have hXm : ∀ U, U ∈ X ↔ U ∈ m.exogenous := fun U => by rw [hx, hX]; simp
  set Rt := (fr.rows.map fun r => ((B.nodes.filter fun v => v ∈ m.endogenous ∧ ∀ p ∈ B.parents v, p ∈ m.endogenous).map fun v => B.table v r.asg).prod).prod with hRt
  set c : V → (S → K) → K := fun U θ => (fr.rows.map fun r => B.compLik m.endogenous U θ r.asg).prod with hc
  have hsplit : ∀ θ : V → S → K, endoLik (BN.withRoots B m.exogenous θ) m.endogenous fr.rows = Rt * (X.map fun U => c U (θ U)).prod := fun θ => h.split θ fr.rows
  have hoth : ∀ θ : V → S → K, (∀ U ∈ m.exogenous, IsDistr B U (θ U)) → Other B m.exogenous (BN.withRoots B m.exogenous θ) := fun θ hθ =>
    ⟨withRoots_valid h.valid _ _, withRoots_norm h.norm hθ, withRoots_nonneg h.nonneg hθ, rfl, rfl, rfl, fun v _ hv => if_neg hv⟩
  have hnn : ∀ U ∈ m.exogenous, ∀ θ, IsDistr B U θ → ∀ r ∈ fr.rows, 0 ≤ B.compLik m.endogenous U θ r.asg := fun U hU θ hθ r hr =>
    h.compLik_nonneg hU (hd.complete r hr) hθ.1
  set θ : V → S → K := fun U u => Bs.table U fun _ => u with hθ
  obtain ⟨d1, l1⟩ := c1.withRoots hroot m.endogenous fr.rows
  have l1 : endoLik Bs m.endogenous fr.rows = Rt * (X.map fun U => c U (θ U)).prod := l1.trans (hsplit θ)
  -- nothing is likelier than the frequencies
  have hmax : ∀ B'', Other B m.exogenous B'' → endoLik B'' m.endogenous fr.rows ≤ endoLik Bs m.endogenous fr.rows := by
    intro B'' h''
    obtain ⟨e1, e2, e3⟩ := h''.valid.endo_distr h''.norm h''.nonneg m.endogenous
    rw [h''.nodes] at e1
    rw [h''.nodes, h''.states] at e2 e3
    rw [endoLik, endoLik, List.map_congr_left c2, e1]
    exact empirical_best hφ (h.valid.nodes.filter _) (fun x hx => h.valid.nodupStates x (List.mem_filter.1 hx).1) hd.complete' (h''.valid.marg_dep _) e2 e3
  have hpos : 0 < endoLik Bs m.endogenous fr.rows := List.prod_pos fun x hx => by
    obtain ⟨r, hr, rfl⟩ := List.mem_map.1 hx
    rw [c2 r hr]
    exact empirical_pos hr fun w hw => (hd.complete' r hr w hw).imp fun s h => h.2
  rw [l1] at hpos
  have hcnn : ∀ W ∈ X, ∀ η, IsDistr B W η → 0 ≤ c W η := fun W hW η hη => List.prod_nonneg fun x hx => by
    obtain ⟨r, hr, rfl⟩ := List.mem_map.1 hx
    exact hnn W ((hXm W).1 hW) η hη r hr
  have hXnn : 0 ≤ (X.map fun U => c U (θ U)).prod := List.prod_nonneg fun x hx => by
    obtain ⟨W, hW, rfl⟩ := List.mem_map.1 hx
    exact hcnn W hW _ (d1 W ((hXm W).1 hW))
  have hRpos : 0 < Rt := pos_of_mul_pos_left hpos hXnn
  have hcpos : ∀ W ∈ X, 0 < c W (θ W) := fun W hW => lt_of_le_of_ne (hcnn W hW _ (d1 W ((hXm W).1 hW))) fun h0 => by
    have : (X.map fun U => c U (θ U)).prod = 0 := List.prod_eq_zero (List.mem_map.2 ⟨W, hW, h0.symm⟩)
    rw [this, mul_zero] at hpos
    exact lt_irrefl _ hpos
  refine ⟨d1 U hU, fun η hη => ?_⟩
  by_contra hlt
  have hlt := not_le.1 hlt
  have hd' : ∀ W ∈ m.exogenous, IsDistr B W ((if W = U then η else θ W)) := fun W hW => by
    by_cases e : W = U
    · rw [if_pos e, e]; exact hη
    · rw [if_neg e]; exact d1 W hW
  have := hmax _ (hoth (fun W => if W = U then η else θ W) hd')
  rw [hsplit, l1] at this
  refine absurd (le_of_mul_le_mul_left this hRpos) (not_le.2 (prod_map_lt hcpos (fun W hW => ?_) ((hXm U).2 hU) ?_))
  · by_cases e : W = U
    · subst e; rw [if_pos rfl]; exact hlt.le
    · rw [if_neg e]
  · rw [if_pos rfl]; exact hlt

theorem Refit.compLik {m m' : SCM II LL} {B B' : BN V S K} (h : Refit m B m' B') (U : V) (η : S → K) (a : V → S) :
    B'.compLik m'.endogenous U η a = B.compLik m.endogenous U η a := by
  have hk : B'.kids m'.endogenous U = B.kids m.endogenous U := by rw [BN.kids, BN.kids, h.nodes, h.parents, h.endogenous]
  unfold BN.compLik
  rw [hk, h.states]
  congr 1
  refine List.map_congr_left fun u _ => ?_
  congr 2
  refine List.map_congr_left fun v hv => ?_
  have := Gradient.mem_kids.1 hv
  rw [h.equations v this.2.1 this.1]

/-- **C87** there is an optimiser as the theorems ask for: with compatible data, `leastOpt` finds the least objectives. -/
theorem C87_optimiser {φ : K →+* ℝ} (hφ : StrictMono φ) {m : SCM II LL} {B : BN V S K} (h : GdccModel m B) {fr : Frame V S} {sub : V → V → Bool}
    (hd : GdccData m B fr sub) (hc : Compatible m B fr.rows) (hk : ∀ U ∈ m.exogenous, B.kids m.endogenous U ≠ []) (max : Option Nat) :
    FindsLeast φ leastOpt max m B fr := by
  intro m0 B0 h0 hg U hU
  obtain ⟨Bs, c1, c2⟩ := hc
  obtain ⟨b1, b2⟩ := Compatible.best hφ h hd c1 c2 hU
  have hUn := (mem_exogenous h.rep).1 hU
  have hU0 : U ∈ m0.exogenous := (mem_exogenous h0.rep).2 ⟨by rw [h0.nodes]; exact hUn.1, by rw [h0.endogenous]; exact hUn.2⟩
  have hk0 : B0.kids m0.endogenous U ≠ [] := by
    have : B0.kids m0.endogenous U = B.kids m.endogenous U := by rw [BN.kids, BN.kids, h0.nodes, h0.parents, h0.endogenous]
    rw [this]; exact hk U hU
  refine leastOpt_spec (h.valid.nodupStates U hUn.1) (by rw [List.length_map, h0.states]) b1 fun η hη x y hx hy => ?_
  obtain ⟨x', y', e1, e2, e3⟩ := C61_order hφ hg.rep hg.valid hg.doms (hg.single hU0) hk0 (fr := EM.addMissing B.nodes fr)
    (fun v hv => cols_addMissing _ _ (by
      have := (List.mem_filter.1 hv).1
      rwa [h0.nodes] at this)) (θ := fun u => Bs.table U fun _ => u) (η := η) (by rw [h0.states]; exact b1.1) (by rw [h0.states]; exact hη.1)
  rw [h0.states] at e1 e2
  obtain rfl : x = x' := by rw [hx] at e1; exact Except.ok.inj e1
  obtain rfl : y = y' := by rw [hy] at e2; exact Except.ok.inj e2
  refine e3.2 ?_
  have hw : (EM.addMissing B.nodes fr).rows.filter (B0.within (B0.compScope m0.endogenous U)) = (EM.addMissing B.nodes fr).rows := by
    have := within_of_complete (m := m0) (B := B0) (fr := fr) (fun r hr v hv hvE => by
      rw [h0.states]
      exact hd.complete r hr v (h0.nodes ▸ hv) (h0.endogenous ▸ hvE)) U
    rwa [h0.nodes] at this
  rw [hw]
  simp only [EM.addMissing, List.map_map, Function.comp_def, asg_missing, h0.compLik]
  exact b2 η hη

end Props
end Verif
